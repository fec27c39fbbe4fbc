import Mathlib.Tactic.Ring
import Mathlib.Tactic.NormNum
import Verif.Rt.SimplifyAll

/-!
# C51 for every expression: calling `simplify` again and again settles

Arrays, dictionaries, units and any mixture of them.
-/

namespace Stator

variable {K : Type}

mutual
/-- A weight that every change made by `simplify` lowers. (An element-wise operation makes an expression larger, and so does the
product with a quantity, units.hpp:103, which doubles the value; so nodes cannot simply be counted.) -/
def Expr.mass : Expr K → Nat
  | .const _ => 2
  | .var _ => 2
  | .un _ a => a.mass + 1
  | .bin o l r => if o = .units then l.mass + r.mass + 1 else (l.mass * r.mass) ^ 2
  | .arr xs => massList xs + 2
  | .dict kvs => massDict kvs + 2
/-- The elements of an array. -/
def massList : List (Expr K) → Nat
  | [] => 0
  | x :: xs => x.mass + massList xs
/-- The values of a dictionary. -/
def massDict : List (List Char × Expr K) → Nat
  | [] => 0
  | (_, v) :: kvs => v.mass + massDict kvs
end

/-! ## Properties of the weight -/

theorem mass_units (l r : Expr K) : (Expr.bin .units l r).mass = l.mass + r.mass + 1 := by simp [Expr.mass]

theorem mass_bin {o : BinOp} (h : o ≠ .units) (l r : Expr K) : (Expr.bin o l r).mass = (l.mass * r.mass) ^ 2 := by
  simp [Expr.mass, h]

mutual
theorem two_le_mass : ∀ e : Expr K, 2 ≤ e.mass
  | .const _ => by simp [Expr.mass]
  | .var _ => by simp [Expr.mass]
  | .un _ a => by have := two_le_mass a; simp only [Expr.mass]; omega
  | .bin o l r => by
    have h1 := two_le_mass l
    have h2 := two_le_mass r
    simp only [Expr.mass]
    split
    · omega
    · nlinarith [Nat.mul_le_mul h1 h2]
  | .arr xs => by simp [Expr.mass]
  | .dict kvs => by simp [Expr.mass]
end

theorem mass_left (o : BinOp) (l r : Expr K) : l.mass < (Expr.bin o l r).mass := by
  have h1 := two_le_mass l
  have h2 := two_le_mass r
  simp only [Expr.mass]
  split
  · omega
  · have : l.mass * 2 ≤ l.mass * r.mass := Nat.mul_le_mul_left _ h2
    nlinarith

theorem mass_right (o : BinOp) (l r : Expr K) : r.mass < (Expr.bin o l r).mass := by
  have h1 := two_le_mass l
  have h2 := two_le_mass r
  simp only [Expr.mass]
  split
  · omega
  · have : 2 * r.mass ≤ l.mass * r.mass := Nat.mul_le_mul_right _ h1
    nlinarith

/-- The weight grows with the weights of both operands. -/
theorem mass_mono (o : BinOp) {l l' r r' : Expr K} (hl : l' = l ∨ l'.mass < l.mass) (hr : r' = r ∨ r'.mass < r.mass) :
    Expr.bin o l' r' = .bin o l r ∨ (Expr.bin o l' r').mass < (Expr.bin o l r).mass := by
  have h1 := two_le_mass l'
  have h2 := two_le_mass r'
  have h3 : l'.mass ≤ l.mass := by rcases hl with rfl | h <;> omega
  have h4 : r'.mass ≤ r.mass := by rcases hr with rfl | h <;> omega
  by_cases he : l' = l ∧ r' = r
  · rw [he.1, he.2]; exact .inl rfl
  · right
    have h5 : l'.mass < l.mass ∨ r'.mass < r.mass := by
      rcases hl with hl | hl
      · rcases hr with hr | hr
        · exact absurd ⟨hl, hr⟩ he
        · exact .inr hr
      · exact .inl hl
    by_cases ho : o = .units
    · subst ho; simp only [mass_units]; omega
    · rw [mass_bin ho, mass_bin ho]
      have : l'.mass * r'.mass < l.mass * r.mass := by
        rcases h5 with h5 | h5
        · exact Nat.lt_of_lt_of_le (Nat.mul_lt_mul_of_pos_right h5 (by omega)) (Nat.mul_le_mul_left _ h4)
        · exact Nat.lt_of_lt_of_le (Nat.mul_lt_mul_of_pos_left h5 (by omega)) (Nat.mul_le_mul_right _ h3)
      exact Nat.pow_lt_pow_left this (by simp)

theorem massList_map {xs : List (Expr K)} {f : Expr K → Expr K} {c : Nat} (h : ∀ x ∈ xs, (f x).mass ≤ (x.mass * c) ^ 2) :
    massList (xs.map f) ≤ (massList xs * c) ^ 2 := by
  induction xs with
  | nil => simp [massList]
  | cons x xs ih =>
    have h1 := h x (by simp)
    have h2 := ih fun y hy => h y (by simp [hy])
    simp only [List.map_cons, massList]
    nlinarith [Nat.zero_le (x.mass * c * (massList xs * c))]

theorem massList_zip {o : BinOp} (ho : o ≠ .units) : ∀ (xs ys : List (Expr K)),
    massList (List.zipWith (elemOp o) xs ys) ≤ (massList xs * massList ys) ^ 2
  | [], ys => by simp [massList]
  | x :: xs, [] => by simp [massList]
  | x :: xs, y :: ys => by
    have ih := massList_zip ho xs ys
    simp only [List.zipWith_cons_cons, massList]
    rw [elemOp, mass_bin ho]
    have h : x.mass * y.mass + massList xs * massList ys ≤ (x.mass + massList xs) * (y.mass + massList ys) := by
      nlinarith [Nat.zero_le (x.mass * massList ys), Nat.zero_le (massList xs * y.mass)]
    have h' := Nat.pow_le_pow_left h 2
    nlinarith [Nat.zero_le (x.mass * y.mass * (massList xs * massList ys))]

theorem spread_lt {xs : List (Expr K)} {r : Expr K} {f : Expr K → Expr K} (h : ∀ x ∈ xs, (f x).mass ≤ (x.mass * r.mass) ^ 2) :
    (Expr.arr (xs.map f)).mass < ((Expr.arr xs).mass * r.mass) ^ 2 := by
  have h1 := massList_map h
  have h2 := two_le_mass r
  simp only [Expr.mass]
  nlinarith [Nat.zero_le (massList xs * r.mass * r.mass)]

theorem zip_lt {o : BinOp} (ho : o ≠ .units) {xs ys zs : List (Expr K)}
    (h : massList zs ≤ massList (List.zipWith (elemOp o) xs ys)) :
    (Expr.arr zs).mass < (Expr.bin o (.arr xs) (.arr ys)).mass := by
  have h1 := massList_zip ho xs ys
  rw [mass_bin ho]
  simp only [Expr.mass]
  have h2 : massList xs * massList ys + 4 ≤ (massList xs + 2) * (massList ys + 2) := by nlinarith
  have h3 := Nat.pow_le_pow_left h2 2
  nlinarith

theorem mulTyped_mass (t c : Expr K) (b : Bool) : (mulTyped t c b).mass ≤ (t.mass * c.mass) ^ 2 := by
  unfold mulTyped
  split
  · rename_i xs
    refine Nat.le_of_lt (spread_lt fun x _ => ?_)
    cases b
    · simp [mass_bin (show BinOp.mul ≠ .units by simp), Nat.mul_comm]
    · simp [mass_bin (show BinOp.mul ≠ .units by simp)]
  · cases b
    · simp [mass_bin (show BinOp.mul ≠ .units by simp), Nat.mul_comm]
    · simp [mass_bin (show BinOp.mul ≠ .units by simp)]

theorem mulUnits_mass {l r e : Expr K} (h : mulUnits l r = some e) : e.mass < (Expr.bin .mul l r).mass := by
  have hl := two_le_mass l
  have hr := two_le_mass r
  unfold mulUnits at h
  split at h
  · simp at h; subst h
    simp only [mass_units, mass_bin (show BinOp.mul ≠ .units by simp)]
    rename_i a b c d
    have h1 : a.mass * c.mass + b.mass * d.mass + 1 ≤ (a.mass + b.mass + 1) * (c.mass + d.mass + 1) := by
      nlinarith [Nat.zero_le (a.mass * d.mass), Nat.zero_le (b.mass * c.mass)]
    have h2 := Nat.pow_le_pow_left h1 2
    have := two_le_mass a
    have := two_le_mass c
    nlinarith [Nat.zero_le (a.mass * c.mass * (b.mass * d.mass)), Nat.mul_le_mul (two_le_mass a) (two_le_mass c)]
  · simp at h; subst h
    rename_i a b _
    have h1 := mulTyped_mass r a false
    simp only [mass_units, mass_bin (show BinOp.mul ≠ .units by simp)]
    have h2 : r.mass * a.mass + b.mass + 1 ≤ (a.mass + b.mass + 1) * r.mass := by nlinarith
    have h3 := Nat.pow_le_pow_left h2 2
    have := two_le_mass a
    nlinarith [Nat.mul_le_mul (two_le_mass a) hr]
  · simp at h; subst h
    rename_i c d _
    have h1 := mulTyped_mass l c true
    simp only [mass_units, mass_bin (show BinOp.mul ≠ .units by simp)]
    have h2 : l.mass * c.mass + 1 ≤ l.mass * (c.mass + d.mass + 1) := by nlinarith [Nat.zero_le (l.mass * d.mass)]
    have h3 := Nat.pow_le_pow_left h2 2
    have := two_le_mass c
    nlinarith [Nat.mul_le_mul hl (two_le_mass c)]
  · simp at h

/-! ## Every change lowers it -/

/-- The result is the operation itself or weighs less. -/
def Lighter (e e' : Expr K) : Prop := e' = e ∨ e'.mass < e.mass

theorem foldUn_lighter (N : NumOps K) (o : UnOp) (a : Expr K) : Lighter (.un o a) (foldUn N o a) := by
  unfold foldUn
  split
  · cases o <;> simp [Lighter, Expr.mass]
  · exact .inl rfl

theorem mapRes_lighter {α : Type} {f : α → Res α} {m : α → Nat} {μ : List α → Nat} (h0 : μ [] = 0)
    (hc : ∀ x xs, μ (x :: xs) = m x + μ xs) : ∀ {xs ys : List α},
    (∀ x ∈ xs, ∀ y, f x = .ok y → y = x ∨ m y < m x) → mapRes f xs = .ok ys → ys = xs ∨ μ ys < μ xs
  | [], ys, _, h => by simp [mapRes] at h; exact .inl h
  | x :: xs, ys, hx, h => by
    simp only [mapRes, Res.bind_eq_ok] at h
    obtain ⟨y, h1, zs, h2, h3⟩ := h
    simp at h3; subst h3
    rw [hc, hc]
    rcases hx x (by simp) y h1 with rfl | h4 <;>
      rcases mapRes_lighter h0 hc (fun z hz => hx z (by simp [hz])) h2 with rfl | h5
    · exact .inl rfl
    · right; omega
    · right; omega
    · right; omega

theorem mulConst_lighter (N : NumOps K) (k : K) (a b : Expr K) (u : Expr K)
    (hu : 4 * (a.mass * b.mass) ^ 4 ≤ u.mass) : Lighter u (mulConst N k a b u) := by
  have ha := two_le_mass a
  have hb := two_le_mass b
  have hab : 4 ≤ a.mass * b.mass := Nat.mul_le_mul ha hb
  have key : ∀ x : Nat, x ≤ a.mass * b.mass → (2 * x) ^ 2 < u.mass := by
    intro x hx
    have h1 : (2 * x) ^ 2 ≤ (2 * (a.mass * b.mass)) ^ 2 := Nat.pow_le_pow_left (by omega) 2
    refine Nat.lt_of_le_of_lt h1 (Nat.lt_of_lt_of_le ?_ hu)
    have e : (2 * (a.mass * b.mass)) ^ 2 = 4 * (a.mass * b.mass) ^ 2 := by ring
    rw [e]
    have := Nat.pow_lt_pow_right (show 1 < a.mass * b.mass by omega) (show 2 < 4 by simp)
    omega
  unfold mulConst
  split
  · right
    rw [mass_bin (by simp)]
    simp only [Expr.mass] at key ⊢
    exact key _ (by omega)
  · right
    rw [mass_bin (by simp)]
    simp only [Expr.mass] at key ⊢
    exact key _ (by omega)
  · exact .inl rfl

theorem ddVisit_lighter [DecidableEq K] {N : NumOps K} {n : Nat} {o : BinOp} {l r e : Expr K}
    (ih : ∀ e e' : Expr K, simp N n e = .ok e' → Lighter e e') (h : ddVisit N (simp N n) o l r = .ok e) :
    Lighter (.bin o l r) e := by
  have hl := two_le_mass l
  have hr := two_le_mass r
  have okc : ∀ {x : Expr K}, Lighter (.bin o l r) x → Res.ok x = Res.ok e → Lighter (.bin o l r) e := by
    intro x hx he; simp at he; subst he; exact hx
  have same : Lighter (.bin o l r) (.bin o l r) := .inl rfl
  have cst : ∀ k, o ≠ .units → Lighter (.bin o l r) (.const k) := fun k ho => by
    right
    have := mass_left o l r
    simp only [Expr.mass] at this ⊢
    omega
  have pairs : ∀ (o : BinOp) (xs ys : List (Expr K)), o ≠ .units →
      (do let zs ← mapRes (simp N n) (List.zipWith (elemOp o) xs ys); .ok (Expr.arr zs)) = Res.ok e →
      Lighter (.bin o (.arr xs) (.arr ys)) e := by
    intro o xs ys ho h
    rw [Res.bind_eq_ok] at h
    obtain ⟨zs, h1, h2⟩ := h
    simp at h2; subst h2
    right
    refine zip_lt ho ?_
    rcases mapRes_lighter (m := Expr.mass) (μ := massList) rfl (fun _ _ => rfl) (fun x _ y hy => ih x y hy) h1 with rfl | h3
    · exact Nat.le_refl _
    · exact Nat.le_of_lt h3
  have spreadL : ∀ (o : BinOp) (xs : List (Expr K)) (r : Expr K), o ≠ .units →
      Lighter (.bin o (.arr xs) r) (.arr (xs.map fun x => elemOp o x r)) := by
    intro o xs r ho
    right
    rw [mass_bin ho]
    exact spread_lt fun x _ => by rw [elemOp, mass_bin ho]
  have spreadR : ∀ (o : BinOp) (xs : List (Expr K)) (l : Expr K), o ≠ .units →
      Lighter (.bin o l (.arr xs)) (.arr (xs.map fun x => elemOp o l x)) := by
    intro o xs l ho
    right
    rw [mass_bin ho, Nat.mul_comm]
    exact spread_lt fun x _ => by rw [elemOp, mass_bin ho, Nat.mul_comm]
  cases o <;> simp only [ddVisit] at h
  case add =>
    split at h
    · split at h
      · exact pairs _ _ _ (by simp) h
      · simp at h
    · exact okc (spreadL _ _ _ (by simp)) h
    · exact okc (cst _ (by simp)) h
    · exact okc same h
  case sub =>
    split at h
    · split at h
      · exact pairs _ _ _ (by simp) h
      · simp at h
    · exact okc (spreadL _ _ _ (by simp)) h
    · split at h
      · exact okc (cst _ (by simp)) h
      · exact okc (cst _ (by simp)) h
    · split at h
      · refine okc (.inr ?_) h
        rw [mass_bin (by simp)]
        simp only [Expr.mass]
        nlinarith
      · exact okc same h
    · exact okc same h
  case mul =>
    split at h
    · rename_i e' he
      exact okc (.inr (mulUnits_mass he)) h
    · split at h
      · split at h
        · exact pairs _ _ _ (by simp) h
        · simp at h
      · exact okc (spreadL _ _ _ (by simp)) h
      · exact okc (spreadR _ _ _ (by simp)) h
      · exact okc (cst _ (by simp)) h
      · rename_i k a b _
        refine okc (mulConst_lighter N k a b _ ?_) h
        rw [mass_bin (by simp), mass_bin (by simp)]
        exact Nat.le_of_eq (by simp only [Expr.mass]; ring)
      · rename_i a b k _
        refine okc (mulConst_lighter N k a b _ ?_) h
        rw [mass_bin (by simp), mass_bin (by simp)]
        exact Nat.le_of_eq (by simp only [Expr.mass]; ring)
      · exact okc same h
  case div =>
    split at h
    · rename_i a b c d
      refine okc (.inr ?_) h
      exact mulUnits_mass (l := .bin .units a b) (r := .bin .units c d) (e := .bin .units (.bin .mul a c) (.bin .mul b d)) rfl
    · split at h
      · exact pairs _ _ _ (by simp) h
      · simp at h
    · exact okc (spreadL _ _ _ (by simp)) h
    · exact okc (cst _ (by simp)) h
    · exact okc same h
  case pow =>
    split at h
    · exact absurd h (pow_arrays_not_ok N n _ _ e)
    · exact okc (cst _ (by simp)) h
    · exact okc same h
  case access =>
    split at h
    · exact okc same h
    · simp at h
  all_goals exact okc same h

theorem simp_lighter [DecidableEq K] (N : NumOps K) : ∀ (n : Nat) (e e' : Expr K), simp N n e = .ok e' → Lighter e e'
  | 0, e, e', h => by simp [simp] at h
  | n + 1, .const _, e', h => by simp [simp] at h; exact .inl h.symm
  | n + 1, .var _, e', h => by simp [simp] at h; exact .inl h.symm
  | n + 1, .un o a, e', h => by
    simp only [simp, Res.bind_eq_ok] at h
    obtain ⟨a', h1, h2⟩ := h
    simp at h2; subst h2
    have h3 := foldUn_lighter N o a'
    rcases simp_lighter N n a a' h1 with rfl | h4
    · exact h3
    · right
      have h5 : (Expr.un o a').mass < (Expr.un o a).mass := by simp only [Expr.mass]; omega
      rcases h3 with h3 | h3
      · rw [h3]; exact h5
      · omega
  | n + 1, .bin o l r, e', h => by
    simp only [simp, Res.bind_eq_ok] at h
    obtain ⟨l', h1, r', h2, h3⟩ := h
    have h4 := mass_mono o (simp_lighter N n l l' h1) (simp_lighter N n r r' h2)
    have h5 : Lighter (.bin o l' r') e' := by
      unfold simpBin at h3
      have hL := mass_left o l' r'
      have hR := mass_right o l' r'
      split at h3
      · simp at h3; subst h3; exact .inr hL
      split at h3
      · simp at h3; subst h3; exact .inr hR
      split at h3
      · simp at h3; subst h3; exact .inr hR
      split at h3
      · simp at h3; subst h3; exact .inr hL
      exact ddVisit_lighter (fun e e' => simp_lighter N n e e') h3
    rcases h4 with h4 | h4 <;> rcases h5 with h5 | h5
    · exact .inl (h5.trans h4)
    · exact .inr (h4 ▸ h5)
    · exact .inr (h5 ▸ h4)
    · exact .inr (Nat.lt_trans h5 h4)
  | n + 1, .arr xs, e', h => by
    simp only [simp, Res.bind_eq_ok] at h
    obtain ⟨ys, h1, h2⟩ := h
    simp at h2; subst h2
    rcases mapRes_lighter (m := Expr.mass) (μ := massList) rfl (fun _ _ => rfl)
      (fun x _ y hy => simp_lighter N n x y hy) h1 with rfl | h3
    · exact .inl rfl
    · right; simp only [Expr.mass]; omega
  | n + 1, .dict kvs, e', h => by
    simp only [simp, Res.bind_eq_ok] at h
    obtain ⟨ys, h1, h2⟩ := h
    simp at h2; subst h2
    have hx : ∀ x ∈ kvs, ∀ y, (simp N n x.2 >>= fun v => Res.ok (x.1, v)) = .ok y → y = x ∨ y.2.mass < x.2.mass := by
      intro x _ y hy
      rw [Res.bind_eq_ok] at hy
      obtain ⟨v, h3, h4⟩ := hy
      simp at h4; subst h4
      rcases simp_lighter N n x.2 v h3 with h5 | h5
      · exact .inl (by rw [h5])
      · exact .inr h5
    rcases mapRes_lighter (m := fun p : List Char × Expr K => p.2.mass) (μ := massDict) rfl (fun _ _ => rfl) hx h1 with rfl | h3
    · exact .inl rfl
    · right; simp only [Expr.mass]; omega

/-! ## C51 -/

/-- **C51.** For every expression - with arrays, dictionaries, units and whatever else - calling `simplify` again and again
comes to an end: it reaches an expression that `simplify` leaves alone, or one for which `simplify` returns nothing, because it
throws or because it meets a power of two arrays (C10). It never cycles and never goes on for ever. -/
theorem C51_settles [DecidableEq K] (N : NumOps K) (e : Expr K) :
    ∃ k e', Calls N k e e' ∧ (Simplifies N e' e' ∨ (∃ n, ∀ m, n ≤ m → simp N m e' = .throw) ∨ Meets N e') := by
  generalize hm : e.mass = m
  induction m using Nat.strongRecOn generalizing e with
  | _ m ih =>
    by_cases hM : Meets N e
    · exact ⟨0, e, .zero, .inr (.inr hM)⟩
    obtain ⟨r, hr, hn⟩ := C10_terminates N e hM
    cases r with
    | diverge => exact absurd rfl hr
    | throw => exact ⟨0, e, .zero, .inr (.inl ⟨_, hn⟩)⟩
    | ok a =>
      have hs : Simplifies N e a := ⟨e.work, hn _ le_rfl⟩
      rcases simp_lighter N e.work e a (hn _ le_rfl) with rfl | h
      · exact ⟨0, a, .zero, .inl hs⟩
      · obtain ⟨k, e', h1, h2⟩ := ih a.mass (by omega) a rfl
        exact ⟨k + 1, e', .succ hs h1, h2⟩

/-- **C51.** There are no cycles: if some calls of `simplify` lead from an expression back to it, then `simplify` leaves it
alone. -/
theorem C51_no_cycle [DecidableEq K] (N : NumOps K) (e : Expr K) (k : Nat) (h : Calls N (k + 1) e e) : Simplifies N e e := by
  have key : ∀ {k : Nat} {a b : Expr K}, Calls N k a b → a = b ∨ b.mass < a.mass := by
    intro k a b h
    induction h with
    | zero => exact .inl rfl
    | @succ k a c b h1 _ ih =>
      obtain ⟨n, h1⟩ := h1
      rcases simp_lighter N n a c h1 with rfl | h3
      · exact ih
      · rcases ih with rfl | h4
        · exact .inr h3
        · exact .inr (Nat.lt_trans h4 h3)
  cases h with
  | @succ _ _ a _ h1 h2 =>
    obtain ⟨n, h3⟩ := h1
    rcases simp_lighter N n e a h3 with rfl | h4
    · exact ⟨n, h3⟩
    · rcases key h2 with rfl | h5
      · omega
      · omega

/-- Case: `2 * [2 * x, y]` needs two calls, and the first makes it longer: `[4 * x, 2 * y]` comes from `[2 * (2 * x), 2 * y]`. -/
example : Calls realOps 2 (.bin .mul (.const 2) (.arr [.bin .mul (.const 2) (.var ['x']), .var ['y']]))
      (.arr [.bin .mul (.const 4) (.var ['x']), .bin .mul (.const 2) (.var ['y'])]) := by
  refine .succ (a := .arr [.bin .mul (.const 2) (.bin .mul (.const 2) (.var ['x'])), .bin .mul (.const 2) (.var ['y'])])
    ⟨6, ?_⟩ (.succ ⟨6, ?_⟩ .zero)
  · simp [simp, simpBin, isConst, BinOp.leftZero, BinOp.leftId, BinOp.rightZero, BinOp.rightId,
      ddVisit, mulUnits, mulConst, realOps, mapRes, elemOp]
  · simp [simp, simpBin, isConst, BinOp.leftZero, BinOp.leftId, BinOp.rightZero, BinOp.rightId,
      ddVisit, mulUnits, mulConst, realOps, mapRes, elemOp]
    norm_num

end Stator
