import Verif.Rt.SimplifyArr

/-!
# Termination of `simplify` on arrays
-/

namespace Stator

theorem weightList_le {K : Type} (b : Nat) : ∀ xs : List (Expr K),
    weightList xs ≤ b ↔ ∀ x ∈ xs, x.weight ≤ b
  | [] => by simp [weightList]
  | x :: xs => by simp [weightList, weightList_le b xs]

theorem weightDict_le {K : Type} (b : Nat) : ∀ xs : List (List Char × Expr K),
    weightDict xs ≤ b ↔ ∀ x ∈ xs, x.2.weight ≤ b
  | [] => by simp [weightDict]
  | (k, v) :: xs => by simp [weightDict, weightDict_le b xs]

theorem tameList_iff {K : Type} : ∀ xs : List (Expr K),
    tameList xs = true ↔ ∀ x ∈ xs, x.tame = true
  | [] => by simp [tameList]
  | x :: xs => by simp [tameList, tameList_iff xs]

theorem tameDict_iff {K : Type} : ∀ xs : List (List Char × Expr K),
    tameDict xs = true ↔ ∀ x ∈ xs, x.2.tame = true
  | [] => by simp [tameDict]
  | (k, v) :: xs => by simp [tameDict, tameDict_iff xs]

theorem weight_pos {K : Type} (e : Expr K) : 0 < e.weight := by
  cases e <;> simp [Expr.weight]

theorem _root_.List.Forall₂.exists_left {α β : Type} {R : α → β → Prop} {xs : List α} {ys : List β}
    (h : List.Forall₂ R xs ys) : ∀ y ∈ ys, ∃ x ∈ xs, R x y := by
  induction h with
  | nil => simp
  | cons h _ ih =>
    intro y hy
    simp at hy
    rcases hy with rfl | hy
    · exact ⟨_, by simp, h⟩
    · obtain ⟨x, hx, hr⟩ := ih y hy
      exact ⟨x, by simp [hx], hr⟩

theorem mem_zipWith {α β γ : Type} {f : α → β → γ} {z : γ} : ∀ {xs : List α} {ys : List β},
    z ∈ List.zipWith f xs ys → ∃ x ∈ xs, ∃ y ∈ ys, z = f x y
  | [], _, h => by simp at h
  | _ :: _, [], h => by simp at h
  | x :: xs, y :: ys, h => by
    simp at h
    rcases h with rfl | h
    · exact ⟨x, by simp, y, by simp, rfl⟩
    · obtain ⟨x', hx, y', hy, h⟩ := mem_zipWith h
      exact ⟨x', by simp [hx], y', by simp [hy], h⟩

/-- What simplification with fuel `n` guarantees for one expression. -/
def Good {K : Type} [DecidableEq K] (N : NumOps K) (n : Nat) (e : Expr K) : Prop :=
  simp N n e ≠ .diverge ∧ ∀ e', simp N n e = .ok e' → e'.weight ≤ e.weight ∧ e'.tame = true

theorem mulUnits_tame {K : Type} {l r : Expr K} (hl : l.tame = true) (hr : r.tame = true) :
    mulUnits l r = none := by
  unfold mulUnits
  split
  · simp [Expr.tame] at hl
  · simp [Expr.tame] at hl
  · simp [Expr.tame] at hr
  · rfl

/-- The outcome of an operator on simplified operands. -/
def GoodBin {K : Type} (l r : Expr K) (x : Res (Expr K)) : Prop :=
  x ≠ .diverge ∧ ∀ e, x = .ok e → e.weight ≤ l.weight + r.weight + 1 ∧ e.tame = true

theorem goodBin_ok {K : Type} {l r e : Expr K} (h1 : e.weight ≤ l.weight + r.weight + 1)
    (h2 : e.tame = true) : GoodBin l r (.ok e) :=
  ⟨by simp, by intro e' h; simp at h; subst h; exact ⟨h1, h2⟩⟩

theorem goodBin_throw {K : Type} {l r : Expr K} : GoodBin l r .throw :=
  ⟨by simp, by intro e' h; simp at h⟩

theorem goodBin_bin {K : Type} {l r : Expr K} {o : BinOp} (hl : l.tame = true) (hr : r.tame = true)
    (ho : o ≠ .units) (hp : o = .pow → l.scalar = true ∨ r.scalar = true) :
    GoodBin l r (.ok (.bin o l r)) := by
  refine goodBin_ok (by simp [Expr.weight]) ?_
  simp only [Expr.tame, hl, hr, Bool.true_and, Bool.and_eq_true, bne_iff_ne, ne_eq, ho,
    not_false_eq_true, true_and, Bool.or_eq_true]
  tauto

theorem goodBin_arr1 {K : Type} {xs : List (Expr K)} {r : Expr K} {o : BinOp}
    (hl : (Expr.arr xs).tame = true) (hr : r.tame = true) (ho : o ≠ .units) (hp : o ≠ .pow) :
    GoodBin (.arr xs) r (.ok (.arr (xs.map fun x => elemOp o x r))) ∧
    GoodBin r (.arr xs) (.ok (.arr (xs.map fun x => elemOp o r x))) := by
  simp only [Expr.tame, tameList_iff] at hl
  have hw : ∀ x ∈ xs, x.weight ≤ weightList xs := (weightList_le _ xs).1 le_rfl
  constructor
  · refine goodBin_ok ?_ ?_
    · simp only [Expr.weight]
      have : weightList (xs.map fun x => elemOp o x r) ≤ weightList xs + r.weight + 1 := by
        rw [weightList_le]
        intro z hz
        obtain ⟨x, hx, rfl⟩ := List.mem_map.1 hz
        have := hw x hx
        simp [elemOp, Expr.weight]; omega
      omega
    · simp only [Expr.tame, tameList_iff]
      intro z hz
      obtain ⟨x, hx, rfl⟩ := List.mem_map.1 hz
      simp [elemOp, Expr.tame, hl x hx, hr, ho, hp]
  · refine goodBin_ok ?_ ?_
    · simp only [Expr.weight]
      have : weightList (xs.map fun x => elemOp o r x) ≤ weightList xs + r.weight + 1 := by
        rw [weightList_le]
        intro z hz
        obtain ⟨x, hx, rfl⟩ := List.mem_map.1 hz
        have := hw x hx
        simp [elemOp, Expr.weight]; omega
      omega
    · simp only [Expr.tame, tameList_iff]
      intro z hz
      obtain ⟨x, hx, rfl⟩ := List.mem_map.1 hz
      simp [elemOp, Expr.tame, hl x hx, hr, ho, hp]

theorem goodBin_arr2 {K : Type} [DecidableEq K] {N : NumOps K} {n : Nat} {xs ys : List (Expr K)}
    {o : BinOp} (ih : ∀ e : Expr K, e.tame = true → e.weight ≤ n → Good N n e)
    (hl : (Expr.arr xs).tame = true) (hr : (Expr.arr ys).tame = true) (ho : o ≠ .units)
    (hp : o ≠ .pow) (hw : (Expr.arr xs).weight + (Expr.arr ys).weight ≤ n) :
    GoodBin (.arr xs) (.arr ys)
      (do let zs ← mapRes (simp N n) (List.zipWith (elemOp o) xs ys); .ok (Expr.arr zs)) := by
  simp only [Expr.tame, tameList_iff] at hl hr
  simp only [Expr.weight] at hw
  have hx : ∀ x ∈ xs, x.weight ≤ weightList xs := (weightList_le _ xs).1 le_rfl
  have hy : ∀ x ∈ ys, x.weight ≤ weightList ys := (weightList_le _ ys).1 le_rfl
  have hz : ∀ z ∈ List.zipWith (elemOp o) xs ys, z.tame = true ∧ z.weight ≤ weightList xs + weightList ys + 1 := by
    intro z hz
    obtain ⟨x, hx', y, hy', rfl⟩ := mem_zipWith hz
    have := hx x hx'
    have := hy y hy'
    simp [elemOp, Expr.tame, Expr.weight, hl x hx', hr y hy', ho, hp]
    omega
  constructor
  · apply Res.bind_ne_diverge
    · exact mapRes_ne_diverge fun z h => (ih z (hz z h).1 (by have := (hz z h).2; omega)).1
    · intro _ _; simp
  · intro e he
    rw [Res.bind_eq_ok] at he
    obtain ⟨zs, h1, h2⟩ := he
    simp at h2; subst h2
    have h3 : ∀ z ∈ zs, z.weight ≤ weightList xs + weightList ys + 1 ∧ z.tame = true := by
      intro z hzz
      obtain ⟨y, hy', h4⟩ := (mapRes_ok h1).exists_left z hzz
      have h5 := hz y hy'
      have h6 := (ih y h5.1 (by omega)).2 z h4
      exact ⟨by omega, h6.2⟩
    simp only [Expr.weight, Expr.tame, tameList_iff]
    have := (weightList_le (weightList xs + weightList ys + 1) zs).2 fun z h => (h3 z h).1
    exact ⟨by omega, fun z h => (h3 z h).2⟩

theorem ddVisit_good {K : Type} [DecidableEq K] {N : NumOps K} {n : Nat} {o : BinOp} {l r : Expr K}
    (ih : ∀ e : Expr K, e.tame = true → e.weight ≤ n → Good N n e)
    (hl : l.tame = true) (hr : r.tame = true) (ho : o ≠ .units)
    (hp : o = .pow → l.scalar = true ∨ r.scalar = true) (hw : l.weight + r.weight ≤ n) :
    GoodBin l r (ddVisit N (simp N n) o l r) := by
  have mc : ∀ (k : K) (a b u : Expr K), a.tame = true → b.tame = true → u.tame = true →
      u.weight = a.weight + b.weight + 3 →
      (mulConst N k a b u).tame = true ∧ (mulConst N k a b u).weight ≤ a.weight + b.weight + 3 := by
    intro k a b u ha hb hu hw
    unfold mulConst
    split
    · simp [Expr.tame, hb, Expr.weight]
    · simp [Expr.tame, ha, Expr.weight]; omega
    · exact ⟨hu, by omega⟩
  have same := @goodBin_bin K l r o hl hr ho hp
  cases o <;> simp only [ddVisit]
  case add =>
    split
    · split
      · exact goodBin_arr2 ih hl hr (by simp) (by simp) hw
      · exact goodBin_throw
    · exact (goodBin_arr1 hl hr (by simp) (by simp)).1
    · exact goodBin_ok (by simp [foldBin, Expr.weight]) (by simp [foldBin, Expr.tame])
    · exact same
  case sub =>
    split
    · split
      · exact goodBin_arr2 ih hl hr (by simp) (by simp) hw
      · exact goodBin_throw
    · exact (goodBin_arr1 hl hr (by simp) (by simp)).1
    · split <;> exact goodBin_ok (by simp [foldBin, Expr.weight]) (by simp [foldBin, Expr.tame])
    · split
      · exact goodBin_ok (by simp [Expr.weight]) (by simpa [Expr.tame] using hr)
      · exact same
    · exact same
  case mul =>
    rw [mulUnits_tame hl hr]
    simp only
    split
    · split
      · exact goodBin_arr2 ih hl hr (by simp) (by simp) hw
      · exact goodBin_throw
    · exact (goodBin_arr1 hl hr (by simp) (by simp)).1
    · exact (goodBin_arr1 hr hl (by simp) (by simp)).2
    · exact goodBin_ok (by simp [foldBin, Expr.weight]) (by simp [foldBin, Expr.tame])
    · rename_i k a b
      simp [Expr.tame] at hr
      have := mc k a b (.bin .mul (.const k) (.bin .mul a b)) hr.1 hr.2
        (by simp [Expr.tame, hr]) (by simp [Expr.weight]; omega)
      exact goodBin_ok (by simp only [Expr.weight]; omega) this.1
    · rename_i a b k
      simp [Expr.tame] at hl
      have := mc k a b (.bin .mul (.bin .mul a b) (.const k)) hl.1 hl.2
        (by simp [Expr.tame, hl]) (by simp [Expr.weight])
      exact goodBin_ok (by simp only [Expr.weight]; omega) this.1
    · exact same
  case div =>
    split
    · simp [Expr.tame] at hl
    · split
      · exact goodBin_arr2 ih hl hr (by simp) (by simp) hw
      · exact goodBin_throw
    · exact (goodBin_arr1 hl hr (by simp) (by simp)).1
    · exact goodBin_ok (by simp [foldBin, Expr.weight]) (by simp [foldBin, Expr.tame])
    · exact same
  case pow =>
    split
    · simp [Expr.scalar] at hp
    · exact goodBin_ok (by simp [foldBin, Expr.weight]) (by simp [foldBin, Expr.tame])
    · exact same
  case access =>
    split
    · exact same
    · exact goodBin_throw
  all_goals exact same

theorem simpBin_good {K : Type} [DecidableEq K] {N : NumOps K} {n : Nat} {o : BinOp} {l r : Expr K}
    (ih : ∀ e : Expr K, e.tame = true → e.weight ≤ n → Good N n e)
    (hl : l.tame = true) (hr : r.tame = true) (ho : o ≠ .units)
    (hp : o = .pow → l.scalar = true ∨ r.scalar = true) (hw : l.weight + r.weight ≤ n) :
    GoodBin l r (simpBin N (simp N n) o l r) := by
  unfold simpBin
  split
  · exact goodBin_ok (by omega) hl
  split
  · exact goodBin_ok (by omega) hr
  split
  · exact goodBin_ok (by omega) hr
  split
  · exact goodBin_ok (by omega) hl
  exact ddVisit_good ih hl hr ho hp hw

theorem simp_good {K : Type} [DecidableEq K] (N : NumOps K) : ∀ (n : Nat) (e : Expr K),
    e.tame = true → e.weight ≤ n → Good N n e
  | 0, e, _, h => by have := weight_pos e; omega
  | n + 1, .const _, _, _ => ⟨by simp [simp], by intro e' h; simp [simp] at h; subst h; simp [Expr.tame]⟩
  | n + 1, .var _, _, _ => ⟨by simp [simp], by intro e' h; simp [simp] at h; subst h; simp [Expr.tame]⟩
  | n + 1, .un o a, ht, hw => by
    simp only [Expr.weight, Expr.tame] at ht hw
    have ih := simp_good N n a ht (by omega)
    constructor
    · rw [simp]
      exact Res.bind_ne_diverge ih.1 fun _ _ => by simp
    · intro e' he
      simp only [simp, Res.bind_eq_ok] at he
      obtain ⟨a', h1, h2⟩ := he
      simp at h2; subst h2
      have h3 := ih.2 a' h1
      unfold foldUn
      split
      · have := weight_pos a; cases o <;> simp [Expr.weight, Expr.tame] <;> omega
      · simp only [Expr.weight, Expr.tame]; exact ⟨by omega, h3.2⟩
  | n + 1, .bin o l r, ht, hw => by
    simp only [Expr.weight, Expr.tame, Bool.and_eq_true, bne_iff_ne, ne_eq, Bool.or_eq_true] at ht hw
    have ih1 := simp_good N n l ht.1.1.1 (by omega)
    have ih2 := simp_good N n r ht.1.1.2 (by omega)
    have key : ∀ l' r', simp N n l = .ok l' → simp N n r = .ok r' →
        GoodBin l' r' (simpBin N (simp N n) o l' r') := by
      intro l' r' h1 h2
      have h3 := ih1.2 l' h1
      have h4 := ih2.2 r' h2
      refine simpBin_good (fun e => simp_good N n e) h3.2 h4.2 ht.1.2 (fun hp => ?_) (by omega)
      have hs : ∀ e e' : Expr K, e.scalar = true → e.weight ≤ n → simp N n e = .ok e' → e'.scalar = true := by
        intro e e' hs hwe h5
        obtain ⟨e'', h6, h7, h8⟩ := simp_scalar N e hs
        have h9 := h8 (max n e.height) (by omega)
        rw [simp_mono_le N e (by omega : n ≤ max n e.height) (by rw [h5]; simp), h5] at h9
        simp at h9
        rw [h9]; exact h7
      rcases ht.2 with (h | h) | h
      · exact absurd hp h
      · exact .inl (hs l l' h (by omega) h1)
      · exact .inr (hs r r' h (by omega) h2)
    constructor
    · rw [simp]
      refine Res.bind_ne_diverge ih1.1 fun l' h1 => ?_
      refine Res.bind_ne_diverge ih2.1 fun r' h2 => ?_
      exact (key l' r' h1 h2).1
    · intro e' he
      simp only [simp, Res.bind_eq_ok] at he
      obtain ⟨l', h1, r', h2, h3⟩ := he
      have h4 := (key l' r' h1 h2).2 e' h3
      have h5 := ih1.2 l' h1
      have h6 := ih2.2 r' h2
      simp only [Expr.weight]
      exact ⟨by omega, h4.2⟩
  | n + 1, .arr xs, ht, hw => by
    simp only [Expr.weight, Expr.tame, tameList_iff] at ht hw
    have hx : ∀ x ∈ xs, x.weight ≤ weightList xs := (weightList_le _ xs).1 le_rfl
    have ih : ∀ x ∈ xs, Good N n x := fun x h =>
      simp_good N n x (ht x h) (by have := hx x h; omega)
    constructor
    · rw [simp]
      exact Res.bind_ne_diverge (mapRes_ne_diverge fun x h => (ih x h).1) fun _ _ => by simp
    · intro e' he
      simp only [simp, Res.bind_eq_ok] at he
      obtain ⟨ys, h1, h2⟩ := he
      simp at h2; subst h2
      have h3 : ∀ y ∈ ys, y.weight ≤ weightList xs ∧ y.tame = true := by
        intro y hy
        obtain ⟨x, hxx, h4⟩ := (mapRes_ok h1).exists_left y hy
        have := (ih x hxx).2 y h4
        have := hx x hxx
        exact ⟨by omega, by tauto⟩
      simp only [Expr.weight, Expr.tame, tameList_iff]
      have := (weightList_le (weightList xs) ys).2 fun z h => (h3 z h).1
      exact ⟨by omega, fun z h => (h3 z h).2⟩
  | n + 1, .dict xs, ht, hw => by
    simp only [Expr.weight, Expr.tame, tameDict_iff] at ht hw
    have hx : ∀ x ∈ xs, x.2.weight ≤ weightDict xs := (weightDict_le _ xs).1 le_rfl
    have ih : ∀ x ∈ xs, Good N n x.2 := fun x h =>
      simp_good N n x.2 (ht x h) (by have := hx x h; omega)
    constructor
    · rw [simp]
      refine Res.bind_ne_diverge (mapRes_ne_diverge fun x h => ?_) fun _ _ => by simp
      exact Res.bind_ne_diverge (ih x h).1 fun _ _ => by simp
    · intro e' he
      simp only [simp, Res.bind_eq_ok] at he
      obtain ⟨ys, h1, h2⟩ := he
      simp at h2; subst h2
      have h3 : ∀ y ∈ ys, y.2.weight ≤ weightDict xs ∧ y.2.tame = true := by
        intro y hy
        obtain ⟨x, hxx, h4⟩ := (mapRes_ok h1).exists_left y hy
        rw [Res.bind_eq_ok] at h4
        obtain ⟨v, h5, h6⟩ := h4
        simp at h6; subst h6
        have := (ih x hxx).2 v h5
        have := hx x hxx
        exact ⟨by show v.weight ≤ _; omega, by show v.tame = true; tauto⟩
      simp only [Expr.weight, Expr.tame, tameDict_iff]
      have := (weightDict_le (weightDict xs) ys).2 fun z h => (h3 z h).1
      exact ⟨by omega, fun z h => (h3 z h).2⟩

end Stator
