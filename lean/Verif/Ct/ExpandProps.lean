import Verif.Ct.Expand
import Verif.Ct.ExprLemmas

/-!
# Expansion into polynomials keeps the value (C79): proofs
-/

namespace Stator.Ct.Expand

open Stator.Pol (Arr rd wr forUp zeros addOp mulPoly divConst mulVar varPow value polyOf coef)

/-! ## The rules of `simp`, independently of the depth -/

/-- `simplify` is available for `e` (and returns `r`), or not (`none`), at any sufficient depth. -/
def Gives (e : X) (r : Option X) : Prop := ∃ k, ∀ m, k ≤ m → simp m e = some r

/-- `try_simplify` of `e` is `r`. -/
def Ready (e r : X) : Prop := Gives e (some r) ∨ (Gives e none ∧ r = e)

theorem gives_succ {e : X} {r : Option X} (k : ℕ) (h : ∀ m, k ≤ m → simp (m + 1) e = some r) :
    Gives e r :=
  ⟨k + 1, fun m hm => by
    obtain ⟨m, rfl⟩ : ∃ m', m = m' + 1 := ⟨m - 1, by omega⟩
    exact h m (by omega)⟩

theorem ready_orSelf {e r : X} (h : Ready e r) : ∃ k, ∀ m, k ≤ m → orSelf e (simp m e) = some r := by
  rcases h with ⟨k, h⟩ | ⟨⟨k, h⟩, rfl⟩ <;> exact ⟨k, fun m hm => by rw [h m hm]; rfl⟩

theorem gives_unique {e : X} {r r' : Option X} (h : Gives e r) (h' : Gives e r') : r = r' := by
  obtain ⟨k, h⟩ := h
  obtain ⟨k', h'⟩ := h'
  have := (h (max k k') (by omega)).symm.trans (h' (max k k') (by omega))
  simpa using this

theorem gives_c (a : C) : Gives (.c a) (some (.dbl a.val)) := gives_succ 0 fun m _ => by simp [simp]
theorem gives_int (z : ℤ) : Gives (.int z) none := gives_succ 0 fun m _ => by simp [simp]
theorem gives_dbl (y : ℝ) : Gives (.dbl y) none := gives_succ 0 fun m _ => by simp [simp]
theorem gives_polyZ (v : List Char) (n : ℕ) (f : Arr ℤ n) : Gives (.polyZ v n f) none :=
  gives_succ 0 fun m _ => by simp [simp]
theorem gives_polyR (v : List Char) (n : ℕ) (f : Arr ℝ n) : Gives (.polyR v n f) none :=
  gives_succ 0 fun m _ => by simp [simp]
theorem gives_var (v : List Char) : Gives (.var v) (some (.polyZ v 1 ![0, 1])) :=
  gives_succ 0 fun m _ => by simp [simp]

theorem gives_rules {o : BOp} {l r e : X} (h : rules o l r = some (some e)) :
    Gives (.bin o l r) (some e) := gives_succ 0 fun m _ => by simp [simp, h]

theorem gives_first {o : BOp} {l r e : X} (h : rules o l r = none) (h1 : first o l r = some e) :
    Gives (.bin o l r) (some e) := gives_succ 0 fun m _ => by simp [simp, h, h1]

theorem gives_unity {o : BOp} {l r e : X} (h : rules o l r = none) (h1 : first o l r = none)
    (h2 : o = .div ∧ r.isC .unity) (he : Ready l e) : Gives (.bin o l r) (some e) := by
  obtain ⟨k, hk⟩ := ready_orSelf he
  exact gives_succ k fun m hm => by
    rw [simp]
    simp only [h, h1, if_pos h2, hk m hm, Option.bind_eq_bind, Option.bind_some]

theorem gives_operands {o : BOp} {l r l' r' e x : X} (h : rules o l r = none) (h1 : first o l r = none)
    (h2 : ¬(o = .div ∧ r.isC .unity)) (hl : Ready l l') (hr : Ready r r')
    (hn : ¬(Gives l none ∧ Gives r none)) (ha : apply o l' r' = some e) (he : Ready e x) :
    Gives (.bin o l r) (some x) := by
  obtain ⟨k, hk⟩ := ready_orSelf he
  rcases hl with ⟨a, hl⟩ | ⟨⟨a, hl⟩, rfl⟩ <;> rcases hr with ⟨b, hr⟩ | ⟨⟨b, hr⟩, rfl⟩
  on_goal 4 => exact absurd ⟨⟨a, hl⟩, ⟨b, hr⟩⟩ hn
  all_goals
    refine gives_succ (max k (max a b)) fun m hm => ?_
    rw [simp]
    simp only [h, h1, if_neg h2, hl m (by omega), hr m (by omega), Option.bind_eq_bind, Option.bind_some,
      ha, hk m (by omega)]

theorem gives_lift {o : BOp} {l r e x : X} (h : rules o l r = none) (h1 : first o l r = none)
    (h2 : ¬(o = .div ∧ r.isC .unity)) (hl : Gives l none) (hr : Gives r none)
    (ha : lift o l r = some e) (he : Ready e x) :
    Gives (.bin o l r) (some x) := by
  obtain ⟨k, hk⟩ := ready_orSelf he
  obtain ⟨a, hl⟩ := hl
  obtain ⟨b, hr⟩ := hr
  refine gives_succ (max k (max a b)) fun m hm => ?_
  rw [simp]
  simp only [h, h1, if_neg h2, hl m (by omega), hr m (by omega), Option.bind_eq_bind, Option.bind_some,
    ha, hk m (by omega)]

theorem gives_neg {a a' e x : X} (h : Gives a (some a')) (he : opNeg a' = some e) (hx : Ready e x) :
    Gives (.neg a) (some x) := by
  obtain ⟨k, hk⟩ := ready_orSelf hx
  obtain ⟨b, h⟩ := h
  exact gives_succ (max k b) fun m hm => by simp [simp, h m (by omega), he, hk m (by omega)]

theorem gives_pow {a a' e x : X} {p : ℕ} (hv : ∀ v, a ≠ .var v) (h : Gives a (some a'))
    (he : powSub p a' = some e) (hx : Ready e x) : Gives (.pow a p) (some x) := by
  obtain ⟨k, hk⟩ := ready_orSelf hx
  obtain ⟨b, h⟩ := h
  exact gives_succ (max k b) fun m hm => by
    rw [simp]
    · simp [h m (by omega), he, hk m (by omega)]
    · exact hv

theorem gives_pow' {a e x : X} {p : ℕ} (hv : ∀ v, a ≠ .var v) (h : Gives a none)
    (he : powSub p a = some e) (hx : Gives e (some x)) : Gives (.pow a p) (some x) := by
  obtain ⟨k, hk⟩ := hx
  obtain ⟨b, h⟩ := h
  exact gives_succ (max k b) fun m hm => by
    rw [simp]
    · simp [h m (by omega), he, hk m (by omega)]
    · exact hv

/-! ## Polynomials -/

/-- The value of a polynomial with integer coefficients at a real number. -/
theorem val_polyZ (ρ : List Char → ℝ) (v : List Char) (n : ℕ) (f : Arr ℤ n) :
    (X.polyZ v n f).val ρ = (polyOf f).eval₂ (Int.castRingHom ℝ) (ρ v) := by
  simp only [X.val, polyOf, Polynomial.eval₂_finsetSum, Polynomial.eval₂_mul, Polynomial.eval₂_C,
    Polynomial.eval₂_X_pow]
  rfl

theorem val_polyR (ρ : List Char → ℝ) (v : List Char) (n : ℕ) (f : Arr ℝ n) :
    (X.polyR v n f).val ρ = (polyOf f).eval (ρ v) := by
  simp [X.val, polyOf, Polynomial.eval_finsetSum]

theorem val_toR (ρ : List Char → ℝ) (v : List Char) (n : ℕ) (f : Arr ℤ n) :
    (X.polyR v n (toR f)).val ρ = (X.polyZ v n f).val ρ := rfl

theorem add_poly {K : Type*} [CommRing K] {n m : ℕ} (f : Arr K n) (g : Arr K m) :
    ∃ r, addOp (· + ·) f g = some r ∧ polyOf r = polyOf f + polyOf g := by
  obtain ⟨r, e, h⟩ := Pol.add_spec (· + ·) f g
  refine ⟨r, e, Pol.polyOf_eq fun i => ?_⟩
  rw [Polynomial.coeff_add, Pol.polyOf_coeff, Pol.polyOf_coeff]
  by_cases hi : i ≤ max m n
  · exact h i hi
  · rw [Pol.coef_gt r (by omega), Pol.coef_gt f (by omega), Pol.coef_gt g (by omega), add_zero]

theorem sub_poly {K : Type*} [CommRing K] {n m : ℕ} (f : Arr K n) (g : Arr K m) :
    ∃ r, addOp (· - ·) f g = some r ∧ polyOf r = polyOf f - polyOf g := by
  obtain ⟨r, e, h⟩ := Pol.add_spec (· - ·) f g
  refine ⟨r, e, Pol.polyOf_eq fun i => ?_⟩
  rw [Polynomial.coeff_sub, Pol.polyOf_coeff, Pol.polyOf_coeff]
  by_cases hi : i ≤ max m n
  · exact h i hi
  · rw [Pol.coef_gt r (by omega), Pol.coef_gt f (by omega), Pol.coef_gt g (by omega), sub_zero]

/-- A result that needs no further expansion: a number or a polynomial in `x`. -/
inductive Flat (x : List Char) : X → Prop
  | int (z : ℤ) : Flat x (.int z)
  | dbl (y : ℝ) : Flat x (.dbl y)
  | polyZ (n : ℕ) (f : Arr ℤ n) : Flat x (.polyZ x n f)
  | polyR (n : ℕ) (f : Arr ℝ n) : Flat x (.polyR x n f)

/-- The results of `simplify`: also a power of the variable. -/
inductive Form (x : List Char) : X → Prop
  | flat {e : X} (h : Flat x e) : Form x e
  | var : Form x (.var x)
  | pow (p : ℕ) : Form x (.pow (.var x) p)

/-- What a quotient requires: the divisor is a `double` other than zero. -/
def Side (o : BOp) (b : X) : Prop := o = .div → ∃ y : ℝ, b = .dbl y ∧ y ≠ 0

/-- `r` has the value of the operation on `a` and `b`. -/
def Is (o : BOp) (a b r : X) : Prop := ∀ ρ, r.val ρ = o.real (a.val ρ) (b.val ρ)

theorem rulesZ_ok (o : BOp) (x : List Char) {n m : ℕ} (f : Arr ℤ n) (g : Arr ℤ m) (ho : o ≠ .div) :
    ∃ r, rulesZ o x x f g = some (some r) ∧ Flat x r ∧ Is o (.polyZ x n f) (.polyZ x m g) r := by
  cases o with
  | add =>
    obtain ⟨r, e, h⟩ := add_poly f g
    exact ⟨_, by simp [rulesZ, e], .polyZ _ r, fun ρ => by
      simp only [val_polyZ, h, BOp.real, Polynomial.eval₂_add]⟩
  | sub =>
    obtain ⟨r, e, h⟩ := sub_poly f g
    exact ⟨_, by simp [rulesZ, e], .polyZ _ r, fun ρ => by
      simp only [val_polyZ, h, BOp.real, Polynomial.eval₂_sub]⟩
  | mul =>
    obtain ⟨r, e, h⟩ := Pol.mulPoly_spec f g
    exact ⟨_, by simp [rulesZ, e], .polyZ _ r, fun ρ => by
      simp only [val_polyZ, h, BOp.real, Polynomial.eval₂_mul]⟩
  | div => exact absurd rfl ho

theorem rulesR_ok (o : BOp) (x : List Char) {n m : ℕ} (f : Arr ℝ n) (g : Arr ℝ m)
    (ho : o = .div → m = 0 ∧ ∀ ρ, (X.polyR x m g).val ρ ≠ 0) :
    ∃ k, ∃ r : Arr ℝ k, rulesR o x x f g = some (some (.polyR x k r)) ∧
      Is o (.polyR x n f) (.polyR x m g) (.polyR x k r) := by
  cases o with
  | add =>
    obtain ⟨r, e, h⟩ := add_poly f g
    exact ⟨_, r, by simp [rulesR, e], fun ρ => by
      simp only [val_polyR, h, BOp.real, Polynomial.eval_add]⟩
  | sub =>
    obtain ⟨r, e, h⟩ := sub_poly f g
    exact ⟨_, r, by simp [rulesR, e], fun ρ => by
      simp only [val_polyR, h, BOp.real, Polynomial.eval_sub]⟩
  | mul =>
    obtain ⟨r, e, h⟩ := Pol.mulPoly_spec f g
    exact ⟨_, r, by simp [rulesR, e], fun ρ => by
      simp only [val_polyR, h, BOp.real, Polynomial.eval_mul]⟩
  | div =>
    obtain ⟨rfl, h0⟩ := ho rfl
    obtain ⟨r, e, h⟩ := Pol.C22_div_const f g
    have hg : ∀ ρ, (X.polyR x 0 g).val ρ = g 0 := fun ρ => by simp [X.val]
    have h0 := h0 fun _ => 0
    rw [hg] at h0
    refine ⟨_, r, by simp [rulesR, e, h0], fun ρ => ?_⟩
    rw [hg]
    exact h (ρ x)

theorem rules_ok {o : BOp} {x : List Char} {a b : X} (ha : Flat x a) (hb : Flat x b)
    (hna : a.number = none) (hnb : b.number = none) (ho : o ≠ .div) :
    ∃ r, rules o a b = some (some r) ∧ Flat x r ∧ Is o a b r := by
  have hd (n : ℕ) (g : Arr ℝ n) : o = .div → n = 0 ∧ ∀ ρ, (X.polyR x n g).val ρ ≠ 0 := fun h => absurd h ho
  cases ha with
  | int z => simp [X.number] at hna
  | dbl y => simp [X.number] at hna
  | polyZ n f =>
    cases hb with
    | int z => simp [X.number] at hnb
    | dbl y => simp [X.number] at hnb
    | polyZ m g => exact rulesZ_ok o x f g ho
    | polyR m g =>
      obtain ⟨k, r, e, h⟩ := rulesR_ok o x (toR f) g (hd _ _)
      exact ⟨_, e, .polyR k r, h⟩
  | polyR n f =>
    cases hb with
    | int z => simp [X.number] at hnb
    | dbl y => simp [X.number] at hnb
    | polyZ m g =>
      obtain ⟨k, r, e, h⟩ := rulesR_ok o x f (toR g) (hd _ _)
      exact ⟨_, e, .polyR k r, h⟩
    | polyR m g =>
      obtain ⟨k, r, e, h⟩ := rulesR_ok o x f g (hd _ _)
      exact ⟨_, e, .polyR k r, h⟩

theorem flat_none {x : List Char} {a : X} (h : Flat x a) : Gives a none := by
  cases h
  · exact gives_int _
  · exact gives_dbl _
  · exact gives_polyZ _ _ _
  · exact gives_polyR _ _ _

theorem flat_not_c {x : List Char} {a : X} (h : Flat x a) (c : C) : a.isC c = false := by cases h <;> rfl

/-- A number next to a polynomial is used as a polynomial of order 0. -/
theorem lift_ok {o : BOp} {x : List Char} {a b : X} (ha : Flat x a) (hb : Flat x b)
    (hs : Side o b) (hn : (a.number = none ∧ b.number ≠ none) ∨ (a.number ≠ none ∧ b.number = none)) :
    ∃ e r, lift o a b = some e ∧ Gives e (some r) ∧ Flat x r ∧ Is o a b r := by
  have hz (z : ℤ) (ρ) : (X.polyZ x 0 ![z]).val ρ = z := by simp [X.val]
  have hy (y : ℝ) (ρ) : (X.polyR x 0 ![y]).val ρ = y := by simp [X.val]
  -- the two polynomials
  have key : ∀ a' b' : X, lift o a b = some (.bin o a' b') → Flat x a' → Flat x b' →
      a'.number = none → b'.number = none → (∀ ρ, a'.val ρ = a.val ρ) → (∀ ρ, b'.val ρ = b.val ρ) →
      o ≠ .div → ∃ e r, lift o a b = some e ∧ Gives e (some r) ∧ Flat x r ∧ Is o a b r := by
    intro a' b' e ha' hb' hna hnb hva hvb ho
    obtain ⟨r, er, hr, hi⟩ := rules_ok ha' hb' hna hnb ho
    exact ⟨_, r, e, gives_rules er, hr, fun ρ => by rw [hi, hva, hvb]⟩
  by_cases ho : o = .div
  · subst ho
    obtain ⟨w, rfl, hw⟩ := hs rfl
    have hna : a.number = none := by
      rcases hn with ⟨h, _⟩ | ⟨_, h⟩
      · exact h
      · cases h
    cases ha with
    | int z => simp [X.number] at hna
    | dbl y => simp [X.number] at hna
    | polyZ n f =>
      obtain ⟨k, r, e, h⟩ := rulesR_ok .div x (toR f) (![w] : Arr ℝ 0)
        fun _ => ⟨rfl, fun ρ => by rwa [hy]⟩
      refine ⟨_, _, rfl, gives_rules e, .polyR k r, fun ρ => ?_⟩
      rw [h, hy]; rfl
    | polyR n f =>
      obtain ⟨k, r, e, h⟩ := rulesR_ok .div x f (![w] : Arr ℝ 0)
        fun _ => ⟨rfl, fun ρ => by rwa [hy]⟩
      refine ⟨_, _, rfl, gives_rules e, .polyR k r, fun ρ => ?_⟩
      rw [h, hy]; rfl
  · cases ha with
    | int z =>
      cases hb with
      | int w => simp [X.number] at hn
      | dbl w => simp [X.number] at hn
      | polyZ n f => exact key _ _ rfl (.polyZ 0 _) (.polyZ n f) rfl rfl (hz z) (fun _ => rfl) ho
      | polyR n f => exact key _ _ rfl (.polyZ 0 _) (.polyR n f) rfl rfl (hz z) (fun _ => rfl) ho
    | dbl z =>
      cases hb with
      | int w => simp [X.number] at hn
      | dbl w => simp [X.number] at hn
      | polyZ n f => exact key _ _ rfl (.polyR 0 _) (.polyZ n f) rfl rfl (hy z) (fun _ => rfl) ho
      | polyR n f => exact key _ _ rfl (.polyR 0 _) (.polyR n f) rfl rfl (hy z) (fun _ => rfl) ho
    | polyZ n f =>
      cases hb with
      | int w => exact key _ _ rfl (.polyZ n f) (.polyZ 0 _) rfl rfl (fun _ => rfl) (hz w) ho
      | dbl w => exact key _ _ rfl (.polyZ n f) (.polyR 0 _) rfl rfl (fun _ => rfl) (hy w) ho
      | polyZ m g => simp [X.number] at hn
      | polyR m g => simp [X.number] at hn
    | polyR n f =>
      cases hb with
      | int w => exact key _ _ rfl (.polyR n f) (.polyZ 0 _) rfl rfl (fun _ => rfl) (hz w) ho
      | dbl w => exact key _ _ rfl (.polyR n f) (.polyR 0 _) rfl rfl (fun _ => rfl) (hy w) ho
      | polyZ m g => simp [X.number] at hn
      | polyR m g => simp [X.number] at hn

theorem rules_number {o : BOp} {x : List Char} {a b : X} (ha : Flat x a) (hb : Flat x b)
    (hn : a.number ≠ none ∨ b.number ≠ none) : rules o a b = none := by
  cases ha <;> cases hb <;> first | rfl | (simp [X.number] at hn)

theorem first_flat {o : BOp} {x : List Char} {a b : X} (ha : Flat x a) (hb : Flat x b)
    (hn : ¬(a.number ≠ none ∧ b.number ≠ none)) : first o a b = none := by
  cases ha <;> cases hb <;> cases o <;> first | rfl | (simp [X.number] at hn)

/-- An operation on two numbers or polynomials, at least one of which is a polynomial. -/
theorem flat_bin {o : BOp} {x : List Char} {a b : X} (ha : Flat x a) (hb : Flat x b) (hs : Side o b)
    (hn : ¬(a.number ≠ none ∧ b.number ≠ none)) :
    ∃ r, Gives (.bin o a b) (some r) ∧ Flat x r ∧ Is o a b r := by
  by_cases h1 : a.number = none ∧ b.number = none
  · have ho : o ≠ .div := by
      rintro rfl
      obtain ⟨y, rfl, _⟩ := hs rfl
      cases h1.2
    obtain ⟨r, e, hr, hi⟩ := rules_ok ha hb h1.1 h1.2 ho
    exact ⟨r, gives_rules e, hr, hi⟩
  · have hn' : (a.number = none ∧ b.number ≠ none) ∨ (a.number ≠ none ∧ b.number = none) := by
      by_cases h2 : a.number = none <;> by_cases h3 : b.number = none <;> simp_all
    obtain ⟨e, r, el, hg, hr, hi⟩ := lift_ok ha hb hs hn'
    refine ⟨r, gives_lift (rules_number ha hb ?_) (first_flat ha hb hn) ?_ (flat_none ha) (flat_none hb) el
      (.inl hg), hr, hi⟩
    · rcases hn' with h | h
      · exact .inr h.2
      · exact .inl h.1
    · simp [flat_not_c hb]

theorem realOp_some {o : BOp} (u v : ℝ) (hv : o = .div → v ≠ 0) : realOp o u v = some (o.real u v) := by
  cases o <;> simp [realOp, BOp.real]
  exact hv rfl

theorem node_number {o : BOp} {x : List Char} {a b : X} (ha : Flat x a) (hb : Flat x b) (hs : Side o b)
    (hn : a.number ≠ none ∧ b.number ≠ none) : ∃ r, node o a b = some r ∧ Flat x r ∧ Is o a b r := by
  have hv : o = .div → ∀ y, b.number = some y → y ≠ 0 := fun h y hy => by
    obtain ⟨z, rfl, h0⟩ := hs h
    cases hy; exact h0
  cases ha with
  | polyZ n f => exact absurd rfl hn.1
  | polyR n f => exact absurd rfl hn.1
  | int i =>
    cases hb with
    | polyZ n f => exact absurd rfl hn.2
    | polyR n f => exact absurd rfl hn.2
    | int j =>
      cases o with
      | div => obtain ⟨y, h, _⟩ := hs rfl; cases h
      | _ =>
        refine ⟨_, rfl, .int _, fun ρ => ?_⟩
        simp [X.val, BOp.real]
    | dbl w =>
      refine ⟨.dbl (o.real i w), ?_, .dbl _, fun ρ => rfl⟩
      simp only [node, X.number, realOp_some i w fun h => hv h w rfl, Option.map_some]
  | dbl i =>
    cases hb with
    | polyZ n f => exact absurd rfl hn.2
    | polyR n f => exact absurd rfl hn.2
    | int j =>
      refine ⟨.dbl (o.real i j), ?_, .dbl _, fun ρ => rfl⟩
      simp only [node, X.number, realOp_some i j fun h => hv h j rfl, Option.map_some]
    | dbl w =>
      refine ⟨.dbl (o.real i w), ?_, .dbl _, fun ρ => rfl⟩
      simp only [node, X.number, realOp_some i w fun h => hv h w rfl, Option.map_some]

/-- Without constants, the operators only compute with numbers. -/
theorem apply_node {o : BOp} {a b : X} (ha : ∀ c, a.isC c = false) (hb : ∀ c, b.isC c = false) :
    apply o a b = node o a b := by
  have h1 : ∀ c, a ≠ .c c := by rintro c rfl; simpa [X.isC] using ha c
  unfold apply
  split
  · exact absurd rfl (h1 _)
  · cases o <;> simp [ha, hb]

theorem node_tree {o : BOp} {a b : X} (hn : ¬(a.number ≠ none ∧ b.number ≠ none)) :
    node o a b = some (.bin o a b) := by
  unfold node
  split
  · rename_i h1 h2; exact absurd ⟨by simp [h1], by simp [h2]⟩ hn
  · rfl

theorem flat_apply {o : BOp} {x : List Char} {a b : X} (ha : Flat x a) (hb : Flat x b) (hs : Side o b) :
    ∃ e r, apply o a b = some e ∧ Ready e r ∧ Flat x r ∧ Is o a b r := by
  rw [apply_node (flat_not_c ha) (flat_not_c hb)]
  by_cases hn : a.number ≠ none ∧ b.number ≠ none
  · obtain ⟨r, e, hr, hi⟩ := node_number ha hb hs hn
    exact ⟨r, r, e, .inr ⟨flat_none hr, rfl⟩, hr, hi⟩
  · rw [node_tree hn]
    obtain ⟨r, e, hr, hi⟩ := flat_bin ha hb hs hn
    exact ⟨_, r, rfl, .inl e, hr, hi⟩

/-! ## Powers of the variable as operands -/

theorem ready_unique {e r r' : X} (h : Ready e r) (h' : Ready e r') : r = r' := by
  rcases h with h | ⟨h, rfl⟩ <;> rcases h' with h' | ⟨h', rfl⟩
  · simpa using gives_unique h h'
  · simpa using gives_unique h h'
  · simpa using gives_unique h h'
  · rfl

theorem gives_varPow (v : List Char) (p : ℕ) :
    ∃ f, Gives (.pow (.var v) p) (some (.polyZ v p f)) ∧ ∀ ρ, (X.polyZ v p f).val ρ = ρ v ^ p := by
  obtain ⟨f, e, h⟩ := Pol.varPow_spec (K := ℤ) p
  exact ⟨f, gives_succ 0 fun m _ => by simp [simp, e], fun ρ => by
    rw [val_polyZ, h, Polynomial.eval₂_X_pow]⟩

/-- A power of the variable becomes a polynomial; everything else stays. -/
theorem form_flat {x : List Char} {a : X} (h : Form x a) :
    ∃ a', Ready a a' ∧ Flat x a' ∧ (∀ ρ, a'.val ρ = a.val ρ) ∧ (¬Flat x a → Gives a (some a')) ∧
      (Flat x a → a' = a) := by
  cases h with
  | flat h => exact ⟨a, .inr ⟨flat_none h, rfl⟩, h, fun _ => rfl, fun h' => absurd h h', fun _ => rfl⟩
  | var =>
    refine ⟨_, .inl (gives_var x), .polyZ _ _, fun ρ => ?_, fun _ => gives_var x, fun h => by cases h⟩
    simp [X.val, Fin.sum_univ_succ]
  | pow p =>
    obtain ⟨f, h, hv⟩ := gives_varPow x p
    exact ⟨_, .inl h, .polyZ _ _, hv, fun _ => h, fun h => by cases h⟩

theorem form_not_c {x : List Char} {a : X} (h : Form x a) (c : C) : a.isC c = false := by
  cases h with
  | flat h => exact flat_not_c h c
  | var => rfl
  | pow p => rfl

theorem varPower_form (x : List Char) (p : ℕ) :
    Form x (varPower x p) ∧ ∀ ρ, (varPower x p).val ρ = ρ x ^ p := by
  unfold varPower
  split
  · rename_i h; subst h; exact ⟨.var, fun ρ => by simp [X.val]⟩
  · exact ⟨.pow p, fun ρ => rfl⟩

theorem form_bin {o : BOp} {x : List Char} {a b : X} (ha : Form x a) (hb : Form x b) (hs : Side o b)
    (hn : ¬(a.number ≠ none ∧ b.number ≠ none)) :
    ∃ r, Gives (.bin o a b) (some r) ∧ Form x r ∧ Is o a b r := by
  by_cases hf : Flat x a ∧ Flat x b
  · obtain ⟨r, h, hr, hi⟩ := flat_bin hf.1 hf.2 hs hn
    exact ⟨r, h, .flat hr, hi⟩
  obtain ⟨a', ra, fa, va, ga, ea⟩ := form_flat ha
  obtain ⟨b', rb, fb, vb, gb, eb⟩ := form_flat hb
  have hs' : Side o b' := fun h => by
    obtain ⟨y, rfl, hy⟩ := hs h
    exact ⟨y, eb (.dbl y), hy⟩
  -- the general case
  have gen (h : rules o a b = none) (h1 : first o a b = none) :
      ∃ r, Gives (.bin o a b) (some r) ∧ Form x r ∧ Is o a b r := by
    obtain ⟨e, r, hap, he, hr, hi⟩ := flat_apply (o := o) fa fb hs'
    refine ⟨r, gives_operands h h1 ?_ ra rb ?_ hap he, .flat hr, fun ρ => by rw [hi, va, vb]⟩
    · simp [form_not_c hb]
    · rintro ⟨h2, h3⟩
      refine hf ⟨?_, ?_⟩
      · by_contra h4; simpa using gives_unique h2 (ga h4)
      · by_contra h4; simpa using gives_unique h3 (gb h4)
  -- the product of two powers of the variable
  have prod (p q : ℕ) (hm : o = .mul) (h : rules o a b = none)
      (h1 : first o a b = some (varPower x (p + q))) (hva : ∀ ρ, a.val ρ = ρ x ^ p)
      (hvb : ∀ ρ, b.val ρ = ρ x ^ q) : ∃ r, Gives (.bin o a b) (some r) ∧ Form x r ∧ Is o a b r := by
    obtain ⟨hf, hv⟩ := varPower_form x (p + q)
    exact ⟨_, gives_first h h1, hf, fun ρ => by rw [hv, hva, hvb, hm, BOp.real, pow_add]⟩
  cases ha with
  | flat ha =>
    cases hb with
    | flat hb => exact absurd ⟨ha, hb⟩ hf
    | var =>
      cases ha with
      | int z => exact gen rfl (by cases o <;> rfl)
      | dbl z => exact gen rfl (by cases o <;> rfl)
      | polyZ n f =>
        by_cases ho : o = .mul
        · subst ho
          obtain ⟨r, e, h⟩ := Pol.mulVar_spec f
          refine ⟨_, gives_rules (e := .polyZ x (n + 1) r) (by simp [rules, e]), .flat (.polyZ _ r), fun ρ => ?_⟩
          rw [val_polyZ, h, BOp.real, Polynomial.eval₂_mul, Polynomial.eval₂_X, val_polyZ, X.val, mul_comm]
        · exact gen (by simp [rules, ho]) (by cases o <;> rfl)
      | polyR n f =>
        by_cases ho : o = .mul
        · subst ho
          obtain ⟨r, e, h⟩ := Pol.mulVar_spec f
          refine ⟨_, gives_rules (e := .polyR x (n + 1) r) (by simp [rules, e]), .flat (.polyR _ r), fun ρ => ?_⟩
          rw [val_polyR, h, BOp.real, Polynomial.eval_mul, Polynomial.eval_X, val_polyR, X.val, mul_comm]
        · exact gen (by simp [rules, ho]) (by cases o <;> rfl)
    | pow q => cases ha <;> exact gen rfl (by cases o <;> rfl)
  | var =>
    cases hb with
    | flat hb => cases hb <;> exact gen rfl (by cases o <;> rfl)
    | var =>
      cases o with
      | mul => exact prod 1 1 rfl rfl (by simp [first]) (fun ρ => by simp [X.val]) (fun ρ => by simp [X.val])
      | div => obtain ⟨y, h, _⟩ := hs rfl; cases h
      | _ => exact gen rfl rfl
    | pow q =>
      cases o with
      | mul =>
        exact prod 1 q rfl rfl (by simp [first, add_comm]) (fun ρ => by simp [X.val]) (fun ρ => rfl)
      | _ => exact gen rfl rfl
  | pow p =>
    cases hb with
    | flat hb => cases hb <;> exact gen rfl (by cases o <;> rfl)
    | var =>
      cases o with
      | mul => exact prod p 1 rfl rfl (by simp [first]) (fun ρ => rfl) (fun ρ => by simp [X.val])
      | _ => exact gen rfl rfl
    | pow q => exact gen rfl (by cases o <;> rfl)

theorem form_apply {o : BOp} {x : List Char} {a b : X} (ha : Form x a) (hb : Form x b) (hs : Side o b) :
    ∃ e r, apply o a b = some e ∧ Ready e r ∧ Form x r ∧ Is o a b r := by
  by_cases hn : a.number ≠ none ∧ b.number ≠ none
  · have fl {c : X} (hc : Form x c) (h : c.number ≠ none) : Flat x c := by
      cases hc with
      | flat h => exact h
      | var => exact absurd rfl h
      | pow p => exact absurd rfl h
    obtain ⟨e, r, h1, h2, h3, h4⟩ := flat_apply (o := o) (fl ha hn.1) (fl hb hn.2) hs
    exact ⟨e, r, h1, h2, .flat h3, h4⟩
  · obtain ⟨r, h, hr, hi⟩ := form_bin ha hb hs hn
    exact ⟨_, r, by rw [apply_node (form_not_c ha) (form_not_c hb), node_tree hn], .inl h, hr, hi⟩

/-! ## Any operands -/

theorem ready_form {x : List Char} {e r : X} (he : Form x e) (h : Ready e r) :
    Flat x r ∧ (∀ ρ, r.val ρ = e.val ρ) ∧ (Flat x e → r = e) := by
  obtain ⟨r', h', f, v, _, q⟩ := form_flat he
  obtain rfl := ready_unique h h'
  exact ⟨f, v, q⟩

/-- A tree of two expressions that are not both numbers. -/
theorem bin_ready {o : BOp} {x : List Char} {e1 e2 r1 r2 : X} (h1 : Ready e1 r1) (f1 : Form x r1)
    (h2 : Ready e2 r2) (f2 : Form x r2) (hs : Side o r2) (hd : o = .div → e2.number ≠ none)
    (hn : ¬(e1.number ≠ none ∧ e2.number ≠ none)) :
    ∃ r, Gives (.bin o e1 e2) (some r) ∧ Form x r ∧ Is o r1 r2 r := by
  by_cases hf : Form x e1 ∧ Form x e2
  · obtain ⟨_, v1, q1⟩ := ready_form hf.1 h1
    obtain ⟨_, v2, q2⟩ := ready_form hf.2 h2
    have hs' : Side o e2 := fun ho => by
      obtain ⟨y, rfl, hy⟩ := hs ho
      cases hf.2 with
      | flat h => exact ⟨y, (q2 h).symm, hy⟩
      | var => simpa using ready_unique h2 (.inl (gives_var x))
      | pow p => obtain ⟨f, h, _⟩ := gives_varPow x p; simpa using ready_unique h2 (.inl h)
    obtain ⟨r, h, hr, hi⟩ := form_bin hf.1 hf.2 hs' hn
    exact ⟨r, h, hr, fun ρ => by rw [hi, v1, v2]⟩
  -- an operand the overloads look at is a polynomial, the variable, or a power of it
  have leafZ {v n f r} (h : Ready (.polyZ v n f) r) (hr : Form x r) : Form x (.polyZ v n f) := by
    rwa [ready_unique h (.inr ⟨gives_polyZ v n f, rfl⟩)] at hr
  have leafR {v n f r} (h : Ready (.polyR v n f) r) (hr : Form x r) : Form x (.polyR v n f) := by
    rwa [ready_unique h (.inr ⟨gives_polyR v n f, rfl⟩)] at hr
  have leafV {v r} (h : Ready (.var v) r) (hr : Form x r) : Form x (.var v) := by
    rw [ready_unique h (.inl (gives_var v))] at hr
    cases hr with | flat hr => cases hr; exact .var
  have leafP {v p r} (h : Ready (.pow (.var v) p) r) (hr : Form x r) : Form x (.pow (.var v) p) := by
    obtain ⟨f, hf, _⟩ := gives_varPow v p
    rw [ready_unique h (.inl hf)] at hr
    cases hr with | flat hr => cases hr; exact .pow p
  have hrules : rules o e1 e2 = none := by
    by_contra hc
    unfold rules at hc
    split at hc
    · exact hf ⟨leafZ h1 f1, leafZ h2 f2⟩
    · exact hf ⟨leafZ h1 f1, leafR h2 f2⟩
    · exact hf ⟨leafR h1 f1, leafZ h2 f2⟩
    · exact hf ⟨leafR h1 f1, leafR h2 f2⟩
    · exact hf ⟨leafZ h1 f1, leafV h2 f2⟩
    · exact hf ⟨leafR h1 f1, leafV h2 f2⟩
    · exact hc rfl
  have hfirst : first o e1 e2 = none := by
    by_contra hc
    unfold first at hc
    split at hc
    iterate 8 · exact hn ⟨by simp [X.number], by simp [X.number]⟩
    · exact hf ⟨leafV h1 f1, leafV h2 f2⟩
    · exact hf ⟨leafP h1 f1, leafV h2 f2⟩
    · exact hf ⟨leafV h1 f1, leafP h2 f2⟩
    · exact hf ⟨leafV h1 f1, leafV h2 f2⟩
    · exact hn ⟨by simp [X.number], hd rfl⟩
    · exact hc rfl
  by_cases hu : o = .div ∧ e2.isC .unity
  · refine ⟨r1, gives_unity hrules hfirst hu h1, f1, fun ρ => ?_⟩
    cases e2 with
    | c a =>
      have : a = .unity := by simpa [X.isC] using hu.2
      subst this
      rw [ready_unique h2 (.inl (gives_c _)), hu.1]
      simp [X.val, BOp.real]
    | _ => simp [X.isC] at hu
  · obtain ⟨e, r, ha, he, hr, hi⟩ := form_apply (o := o) f1 f2 hs
    refine ⟨r, gives_operands hrules hfirst hu h1 h2 ?_ ha he, hr, hi⟩
    rintro ⟨g1, g2⟩
    refine hf ⟨?_, ?_⟩
    · rwa [ready_unique h1 (.inr ⟨g1, rfl⟩)] at f1
    · rwa [ready_unique h2 (.inr ⟨g2, rfl⟩)] at f2

/-- Without a constant on both sides, an operator removes `Null` and `Unity`, or computes. -/
theorem number_ready {x : List Char} {e r : X} {y : ℝ} (hy : e.number = some y) (h : Ready e r) :
    Flat x r ∧ ∀ ρ, r.val ρ = y := by
  cases e with
  | c a =>
    rw [ready_unique h (.inl (gives_c a))]
    simp only [X.number, Option.some.injEq] at hy
    exact ⟨.dbl _, fun ρ => hy⟩
  | int z =>
    rw [ready_unique h (.inr ⟨gives_int z, rfl⟩)]
    simp only [X.number, Option.some.injEq] at hy
    exact ⟨.int _, fun ρ => hy⟩
  | dbl z =>
    rw [ready_unique h (.inr ⟨gives_dbl z, rfl⟩)]
    simp only [X.number, Option.some.injEq] at hy
    exact ⟨.dbl _, fun ρ => hy⟩
  | _ => simp [X.number] at hy

theorem isC_ready {e r : X} {a : C} (he : e.isC a = true) (h : Ready e r) (ρ : List Char → ℝ) :
    r.val ρ = a.val := by
  cases e with
  | c b =>
    have : b = a := by simpa [X.isC] using he
    subst this
    rw [ready_unique h (.inl (gives_c b))]; rfl
  | _ => simp [X.isC] at he

theorem node_ready {o : BOp} {x : List Char} {e1 e2 r1 r2 e : X} (h1 : Ready e1 r1) (f1 : Form x r1)
    (h2 : Ready e2 r2) (f2 : Form x r2) (hs : Side o r2) (hd : o = .div → e2.number ≠ none)
    (he : node o e1 e2 = some e) : ∃ r, Ready e r ∧ Form x r ∧ Is o r1 r2 r := by
  by_cases hn : e1.number ≠ none ∧ e2.number ≠ none
  · obtain ⟨y1, n1⟩ := Option.ne_none_iff_exists'.1 hn.1
    obtain ⟨y2, n2⟩ := Option.ne_none_iff_exists'.1 hn.2
    obtain ⟨g1, v1⟩ := number_ready (x := x) n1 h1
    obtain ⟨g2, v2⟩ := number_ready (x := x) n2 h2
    have hv : o = .div → y2 ≠ 0 := fun ho => by
      obtain ⟨y, rfl, hy⟩ := hs ho
      rw [← v2 fun _ => 0]; exact hy
    simp only [node, n1, n2] at he
    split at he
    · rename_i i j
      obtain rfl := ready_unique h1 (.inr ⟨gives_int i, rfl⟩)
      obtain rfl := ready_unique h2 (.inr ⟨gives_int j, rfl⟩)
      obtain ⟨r, hr, hf, hi⟩ := node_number g1 g2 hs ⟨by simp [X.number], by simp [X.number]⟩
      have : r = e := by
        have h' : (intOp o i j).map X.int = some r := hr
        rw [he] at h'; exact (Option.some.inj h').symm
      subst this
      exact ⟨r, .inr ⟨flat_none hf, rfl⟩, .flat hf, hi⟩
    · rw [realOp_some y1 y2 hv, Option.map_some, Option.some.injEq] at he
      subst he
      exact ⟨_, .inr ⟨gives_dbl _, rfl⟩, .flat (.dbl _), fun ρ => by rw [v1, v2]; rfl⟩
  · rw [node_tree hn, Option.some.injEq] at he
    subst he
    obtain ⟨r, h, hr, hi⟩ := bin_ready h1 f1 h2 f2 hs hd hn
    exact ⟨r, .inl h, hr, hi⟩

/-- Negation. -/
theorem flat_neg {x : List Char} {a : X} (h : Flat x a) :
    ∃ r, opNeg a = some r ∧ Flat x r ∧ ∀ ρ, r.val ρ = -a.val ρ := by
  cases h with
  | int z => exact ⟨_, rfl, .int _, fun ρ => by simp [X.val]⟩
  | dbl z => exact ⟨_, rfl, .dbl _, fun ρ => by simp [X.val]⟩
  | polyZ n f =>
    obtain ⟨r, e, h⟩ := Pol.neg_spec f
    exact ⟨_, by simp [opNeg, e], .polyZ n r, fun ρ => by
      rw [val_polyZ, val_polyZ, h, Polynomial.eval₂_neg]⟩
  | polyR n f =>
    obtain ⟨r, e, h⟩ := Pol.neg_spec f
    exact ⟨_, by simp [opNeg, e], .polyR n r, fun ρ => by
      rw [val_polyR, val_polyR, h, Polynomial.eval_neg]⟩

theorem form_neg {x : List Char} {a : X} (h : Form x a) :
    ∃ e r, opNeg a = some e ∧ Ready e r ∧ Flat x r ∧ ∀ ρ, r.val ρ = -a.val ρ := by
  obtain ⟨a', _, f, v, g, _⟩ := form_flat h
  obtain ⟨r, hr, fr, vr⟩ := flat_neg f
  cases h with
  | flat h =>
    obtain ⟨r, hr, fr, vr⟩ := flat_neg h
    exact ⟨r, r, hr, .inr ⟨flat_none fr, rfl⟩, fr, vr⟩
  | var =>
    exact ⟨_, r, rfl, .inl (gives_neg (g (fun h => by cases h)) hr (.inr ⟨flat_none fr, rfl⟩)), fr,
      fun ρ => by rw [vr, v]⟩
  | pow p =>
    exact ⟨_, r, rfl, .inl (gives_neg (g (fun h => by cases h)) hr (.inr ⟨flat_none fr, rfl⟩)), fr,
      fun ρ => by rw [vr, v]⟩

/-- An expression that is not a number or a polynomial can be simplified. -/
theorem gives_of_ready {x : List Char} {e r : X} (h : Ready e r) (hr : Form x r) (he : ¬Flat x e) :
    Gives e (some r) := by
  rcases h with h | ⟨h, rfl⟩
  · exact h
  · obtain ⟨r', _, _, _, g, _⟩ := form_flat hr
    simpa using gives_unique h (g he)

theorem neg_ready {x : List Char} {e1 r1 e : X} (h1 : Ready e1 r1) (f1 : Form x r1)
    (he : opNeg e1 = some e) : ∃ r, Ready e r ∧ Form x r ∧ ∀ ρ, r.val ρ = -r1.val ρ := by
  by_cases hf : Flat x e1
  · obtain rfl := ready_unique h1 (.inr ⟨flat_none hf, rfl⟩)
    obtain ⟨r, hr, fr, vr⟩ := flat_neg hf
    rw [hr, Option.some.injEq] at he
    subst he
    exact ⟨r, .inr ⟨flat_none fr, rfl⟩, .flat fr, vr⟩
  have g := gives_of_ready h1 f1 hf
  obtain ⟨e', r, hn, hr, fr, vr⟩ := form_neg f1
  have gen : Gives (.neg e1) (some r) := gives_neg g hn hr
  cases e1 with
  | c a =>
    simp only [opNeg, Option.some.injEq] at he
    subst he
    rw [ready_unique h1 (.inl (gives_c a))]
    exact ⟨_, .inl (gives_c _), .flat (.dbl _), fun ρ => by simp [X.val, C.val_neg]⟩
  | int z => exact absurd (.int z) hf
  | dbl z => exact absurd (.dbl z) hf
  | polyZ v n f => simpa using gives_unique g (gives_polyZ v n f)
  | polyR v n f => simpa using gives_unique g (gives_polyR v n f)
  | _ =>
    simp only [opNeg, Option.some.injEq] at he
    subst he
    exact ⟨r, .inl gen, .flat fr, vr⟩

/-- The operators. -/
theorem apply_ready {o : BOp} {x : List Char} {e1 e2 r1 r2 e : X} (h1 : Ready e1 r1) (f1 : Form x r1)
    (h2 : Ready e2 r2) (f2 : Form x r2) (hs : Side o r2) (hd : o = .div → e2.number ≠ none)
    (he : apply o e1 e2 = some e) : ∃ r, Ready e r ∧ Form x r ∧ Is o r1 r2 r := by
  have nd := node_ready h1 f1 h2 f2 hs hd (e := e)
  unfold apply at he
  split at he
  · rename_i a b
    have v1 (ρ) : r1.val ρ = a.val := by rw [ready_unique h1 (.inl (gives_c a))]; rfl
    have v2 (ρ) : r2.val ρ = b.val := by rw [ready_unique h2 (.inl (gives_c b))]; rfl
    have fin (c : C) (hc : e = .c c) (hv : c.val = o.real a.val b.val) :
        ∃ r, Ready e r ∧ Form x r ∧ Is o r1 r2 r := by
      subst hc
      exact ⟨_, .inl (gives_c c), .flat (.dbl _), fun ρ => by rw [v1, v2]; exact hv⟩
    cases o with
    | add => exact fin _ (Option.some.inj he).symm (C.val_add a b)
    | sub => exact fin _ (Option.some.inj he).symm (C.val_sub a b)
    | mul => exact fin _ (Option.some.inj he).symm (C.val_mul a b)
    | div =>
      simp only [Option.map_eq_some_iff] at he
      obtain ⟨c, hc, rfl⟩ := he
      exact fin c rfl (C.val_div hc).2
  · have z1 (h : e1.isC .null = true) (ρ) : r1.val ρ = 0 := by rw [isC_ready h h1, C.val_null]
    have z2 (h : e2.isC .null = true) (ρ) : r2.val ρ = 0 := by rw [isC_ready h h2, C.val_null]
    have u1 (h : e1.isC .unity = true) (ρ) : r1.val ρ = 1 := by rw [isC_ready h h1, C.val_unity]
    have u2 (h : e2.isC .unity = true) (ρ) : r2.val ρ = 1 := by rw [isC_ready h h2, C.val_unity]
    cases o with
    | add =>
      simp only at he
      split_ifs at he with a b
      · cases he; exact ⟨r1, h1, f1, fun ρ => by simp [BOp.real, z2 a]⟩
      · cases he; exact ⟨r2, h2, f2, fun ρ => by simp [BOp.real, z1 b]⟩
      · exact nd he
    | sub =>
      simp only at he
      split_ifs at he with a b
      · cases he; exact ⟨r1, h1, f1, fun ρ => by simp [BOp.real, z2 a]⟩
      · obtain ⟨r, hr, fr, vr⟩ := neg_ready h2 f2 he
        exact ⟨r, hr, fr, fun ρ => by simp [BOp.real, z1 b, vr]⟩
      · exact nd he
    | mul =>
      simp only at he
      split_ifs at he with a b c d
      · cases he
        exact ⟨_, .inl (gives_c _), .flat (.dbl _), fun ρ => by simp [BOp.real, z2 a, X.val]⟩
      · cases he
        exact ⟨_, .inl (gives_c _), .flat (.dbl _), fun ρ => by simp [BOp.real, z1 b, X.val]⟩
      · cases he; exact ⟨r1, h1, f1, fun ρ => by simp [BOp.real, u2 c]⟩
      · cases he; exact ⟨r2, h2, f2, fun ρ => by simp [BOp.real, u1 d]⟩
      · exact nd he
    | div => exact nd he

/-! ## Powers -/

theorem mul_some {x : List Char} {e1 e2 r1 r2 : X} (_h1 : Ready e1 r1) (_f1 : Form x r1) :
    ∃ e, apply .mul e1 e2 = some e := by
  have hn : ∃ e, node .mul e1 e2 = some e := by
    unfold node
    split
    · split <;> exact ⟨_, rfl⟩
    · exact ⟨_, rfl⟩
  obtain ⟨e, hn⟩ := hn
  unfold apply
  split
  · exact ⟨_, rfl⟩
  · simp only
    split_ifs <;> exact ⟨_, by first | rfl | exact hn⟩

theorem powSub_ready {x : List Char} {a r1 : X} (h1 : Ready a r1) (f1 : Form x r1) :
    ∀ p, ∃ e r, powSub p a = some e ∧ Ready e r ∧ Form x r ∧ ∀ ρ, r.val ρ = r1.val ρ ^ p
  | 0 => ⟨_, _, rfl, .inl (gives_c _), .flat (.dbl _), fun ρ => by simp [X.val]⟩
  | 1 => ⟨a, r1, rfl, h1, f1, fun ρ => by simp⟩
  | p + 2 => by
    obtain ⟨e, r, he, hr, fr, vr⟩ := powSub_ready h1 f1 (p + 1)
    obtain ⟨e', he'⟩ := mul_some (e2 := a) (r2 := r1) hr fr
    obtain ⟨r', hr', fr', vr'⟩ := apply_ready hr fr h1 f1 (fun h => by cases h) (fun h => by cases h) he'
    refine ⟨e', r', ?_, hr', fr', fun ρ => ?_⟩
    · simp only [powSub, he, Option.bind_eq_bind, Option.bind_some, he']
    · rw [vr', vr, BOp.real, pow_succ _ (p + 1)]

theorem powSub_tree {a : X} (hn : a.number = none) :
    ∀ p e, powSub (p + 2) a = some e → ∃ l, e = .bin .mul l a := by
  have hc : ∀ c, a.isC c = false := by
    intro c; cases a <;> first | rfl | simp [X.number] at hn
  have step : ∀ l e, (∀ c, l.isC c = false) → apply .mul l a = some e → e = .bin .mul l a := by
    intro l e hl he
    rw [apply_node hl hc, node_tree (by simp [hn]), Option.some.injEq] at he
    exact he.symm
  intro p
  induction p with
  | zero =>
    intro e he
    simp only [powSub, Option.bind_eq_bind, Option.bind_some] at he
    exact ⟨a, step _ _ hc he⟩
  | succ p ih =>
    intro e he
    rw [powSub] at he
    simp only [Option.bind_eq_bind, Option.bind_eq_some_iff] at he
    obtain ⟨l, hl, he⟩ := he
    obtain ⟨l', rfl⟩ := ih l hl
    exact ⟨_, step _ _ (fun c => rfl) he⟩

theorem pow_ready {x : List Char} {e1 r1 e : X} {p : ℕ} (h1 : Ready e1 r1) (f1 : Form x r1)
    (he : opPow e1 p = some e) : ∃ r, Ready e r ∧ Form x r ∧ ∀ ρ, r.val ρ = r1.val ρ ^ p := by
  -- a symbolic operand
  have gen (hn : e1.number = none) (he : (if p = 1 then some e1 else some (.pow e1 p)) = some e) :
      ∃ r, Ready e r ∧ Form x r ∧ ∀ ρ, r.val ρ = r1.val ρ ^ p := by
    split_ifs at he with hp
    · cases he; exact ⟨r1, h1, f1, fun ρ => by simp [hp]⟩
    cases he
    by_cases hv : ∃ v, e1 = .var v
    · obtain ⟨v, rfl⟩ := hv
      obtain rfl := ready_unique h1 (.inl (gives_var v))
      obtain ⟨f, hf, vf⟩ := gives_varPow v p
      cases f1 with | flat f1 => ?_
      cases f1 with | polyZ _ _ => ?_
      exact ⟨_, .inl hf, .flat (.polyZ _ _), fun ρ => by rw [vf]; simp [X.val, Fin.sum_univ_succ]⟩
    have hv : ∀ v, e1 ≠ .var v := fun v h => hv ⟨v, h⟩
    rcases h1 with h1 | ⟨h1, rfl⟩
    · obtain ⟨a', ra, fa, va, _, _⟩ := form_flat f1
      obtain ⟨e', r, hp', hr, fr, vr⟩ := powSub_ready ra (.flat fa) p
      obtain ⟨e'', r', hp'', hr', fr', vr'⟩ := powSub_ready (a := r1) (r1 := a') ra (.flat fa) p
      exact ⟨r', .inl (gives_pow hv h1 hp'' hr'), fr', fun ρ => by rw [vr', va]⟩
    · have hflat : Flat x r1 := by
        by_contra hc
        obtain ⟨r', _, _, _, g, _⟩ := form_flat f1
        simpa using gives_unique h1 (g hc)
      obtain ⟨e', r, hp', hr, fr, vr⟩ := powSub_ready (.inr ⟨h1, rfl⟩) f1 p
      have hg : Gives e' (some r) := by
        rcases hr with hr | ⟨hr, rfl⟩
        · exact hr
        · exfalso
          match p, hp with
          | 0, _ =>
            simp only [powSub, Option.some.injEq] at hp'
            subst hp'
            simpa using gives_unique hr (gives_c _)
          | p + 2, _ =>
            obtain ⟨l, rfl⟩ := powSub_tree hn p _ hp'
            cases fr with | flat fr => cases fr
      exact ⟨r, .inl (gives_pow' hv h1 hp' hg), fr, vr⟩
  -- a number
  have num (y : ℝ) (hy : e1.number = some y) (he : (if p = 1 then some e1 else some (.dbl (y ^ p))) = some e) :
      ∃ r, Ready e r ∧ Form x r ∧ ∀ ρ, r.val ρ = r1.val ρ ^ p := by
    obtain ⟨_, v⟩ := number_ready (x := x) hy h1
    split_ifs at he with hp
    · cases he; exact ⟨r1, h1, f1, fun ρ => by simp [hp]⟩
    · cases he; exact ⟨_, .inr ⟨gives_dbl _, rfl⟩, .flat (.dbl _), fun ρ => by rw [v]; rfl⟩
  cases e1 with
  | c a => cases he
  | int z => exact num z rfl he
  | dbl z => exact num z rfl he
  | _ => exact gen rfl he

/-! ## The theorem -/

theorem constants_build {s e : X} (hs : s.constants) (h : build s = some e) :
    ∃ a, e = .c a ∧ ∀ ρ, s.val ρ = a.val := by
  induction s generalizing e with
  | c a => cases h; exact ⟨a, rfl, fun _ => rfl⟩
  | bin o l r ihl ihr =>
    simp only [build, Option.bind_eq_bind, Option.bind_eq_some_iff] at h
    obtain ⟨el, hl, er, hr, h⟩ := h
    obtain ⟨a, rfl, va⟩ := ihl hs.1 hl
    obtain ⟨b, rfl, vb⟩ := ihr hs.2 hr
    simp only [apply] at h
    cases o with
    | add => cases h; exact ⟨_, rfl, fun ρ => by rw [C.val_add, X.val, va, vb]; rfl⟩
    | sub => cases h; exact ⟨_, rfl, fun ρ => by rw [C.val_sub, X.val, va, vb]; rfl⟩
    | mul => cases h; exact ⟨_, rfl, fun ρ => by rw [C.val_mul, X.val, va, vb]; rfl⟩
    | div =>
      simp only [Option.map_eq_some_iff] at h
      obtain ⟨c, hc, rfl⟩ := h
      exact ⟨c, rfl, fun ρ => by rw [(C.val_div hc).2, X.val, va, vb]; rfl⟩
  | neg a ih =>
    simp only [build, Option.bind_eq_bind, Option.bind_eq_some_iff] at h
    obtain ⟨ea, ha, h⟩ := h
    obtain ⟨a, rfl, va⟩ := ih hs ha
    cases h
    exact ⟨_, rfl, fun ρ => by rw [C.val_neg, X.val, va]⟩
  | pow a p ih =>
    simp only [build, Option.bind_eq_bind, Option.bind_eq_some_iff] at h
    obtain ⟨ea, ha, h⟩ := h
    obtain ⟨a, rfl, va⟩ := ih hs ha
    cases h
  | _ => exact absurd hs id

theorem build_ready {x : List Char} {s e : X} (ho : s.over x) (hx : s.exact) (h : build s = some e) :
    ∃ r, Ready e r ∧ Form x r ∧ ∀ ρ, r.val ρ = s.val ρ := by
  induction s generalizing e with
  | c a => cases h; exact ⟨_, .inl (gives_c a), .flat (.dbl _), fun _ => rfl⟩
  | int z => cases h; exact ⟨_, .inr ⟨gives_int z, rfl⟩, .flat (.int _), fun _ => rfl⟩
  | dbl z => cases h; exact ⟨_, .inr ⟨gives_dbl z, rfl⟩, .flat (.dbl _), fun _ => rfl⟩
  | var v =>
    cases h
    obtain rfl : v = x := ho
    obtain ⟨r, h, f, hv, _⟩ := form_flat (.var : Form v (.var v))
    exact ⟨r, h, .flat f, hv⟩
  | polyZ v n f =>
    cases h
    obtain rfl : v = x := ho
    exact ⟨_, .inr ⟨gives_polyZ v n f, rfl⟩, .flat (.polyZ n f), fun _ => rfl⟩
  | polyR v n f =>
    cases h
    obtain rfl : v = x := ho
    exact ⟨_, .inr ⟨gives_polyR v n f, rfl⟩, .flat (.polyR n f), fun _ => rfl⟩
  | bin o l r ihl ihr =>
    simp only [build, Option.bind_eq_bind, Option.bind_eq_some_iff] at h
    obtain ⟨el, hl, er, hr, h⟩ := h
    by_cases hd : o = .div
    · subst hd
      obtain ⟨xl, xr⟩ := hx
      obtain ⟨rl, al, fl, vl⟩ := ihl ho.1 xl hl
      -- the divisor
      have key : ∃ y : ℝ, Ready er (.dbl y) ∧ (∀ ρ, r.val ρ = y) ∧ y ≠ 0 ∧ er.number ≠ none := by
        have cst (hc : r.constants ∧ r.val (fun _ => 0) ≠ 0) :
            ∃ y : ℝ, Ready er (.dbl y) ∧ (∀ ρ, r.val ρ = y) ∧ y ≠ 0 ∧ er.number ≠ none := by
          obtain ⟨a, rfl, va⟩ := constants_build hc.1 hr
          exact ⟨a.val, .inl (gives_c a), va, by rw [← va]; exact hc.2, by simp [X.number]⟩
        cases r with
        | dbl y => cases hr; exact ⟨y, .inr ⟨gives_dbl y, rfl⟩, fun _ => rfl, xr, by simp [X.number]⟩
        | _ => exact cst xr
      obtain ⟨y, ar, vr, hy, hn⟩ := key
      obtain ⟨q, hq, fq, vq⟩ := apply_ready al fl ar (.flat (.dbl y)) (fun _ => ⟨y, rfl, hy⟩) (fun _ => hn) h
      exact ⟨q, hq, fq, fun ρ => by rw [vq, vl]; simp only [X.val, vr]⟩
    · have hx' : l.exact ∧ r.exact := by cases o <;> first | exact hx | exact absurd rfl hd
      obtain ⟨rl, al, fl, vl⟩ := ihl ho.1 hx'.1 hl
      obtain ⟨rr, ar, fr, vr⟩ := ihr ho.2 hx'.2 hr
      obtain ⟨q, hq, fq, vq⟩ := apply_ready al fl ar fr (fun h => absurd h hd) (fun h => absurd h hd) h
      exact ⟨q, hq, fq, fun ρ => by rw [vq, vl, vr]; rfl⟩
  | neg a ih =>
    simp only [build, Option.bind_eq_bind, Option.bind_eq_some_iff] at h
    obtain ⟨ea, ha, h⟩ := h
    obtain ⟨ra, aa, fa, va⟩ := ih ho hx ha
    obtain ⟨q, hq, fq, vq⟩ := neg_ready aa fa h
    exact ⟨q, hq, fq, fun ρ => by rw [vq, va]; rfl⟩
  | pow a p ih =>
    simp only [build, Option.bind_eq_bind, Option.bind_eq_some_iff] at h
    obtain ⟨ea, ha, h⟩ := h
    obtain ⟨ra, aa, fa, va⟩ := ih ho hx ha
    obtain ⟨q, hq, fq, vq⟩ := pow_ready aa fa h
    exact ⟨q, hq, fq, fun ρ => by rw [vq, va]; rfl⟩

theorem tryExpand_iff {x : List Char} {e r : X} (h : Ready e r) (r' : X) : TryExpand e r' ↔ r' = r := by
  obtain ⟨k, hk⟩ := ready_orSelf h
  constructor
  · rintro ⟨k', h'⟩
    have := (h' (max k k') (by omega)).symm.trans (hk (max k k') (by omega))
    simpa using this
  · rintro rfl; exact ⟨k, hk⟩

/-- A number, or a polynomial in `x`. -/
def IsPoly (x : List Char) (r : X) : Prop :=
  (∃ z, r = .int z) ∨ (∃ y, r = .dbl y) ∨ (∃ n f, r = .polyZ x n f) ∨ ∃ n f, r = .polyR x n f

theorem flat_isPoly {x : List Char} {r : X} (h : Flat x r) : IsPoly x r := by
  cases h
  · exact .inl ⟨_, rfl⟩
  · exact .inr (.inl ⟨_, rfl⟩)
  · exact .inr (.inr (.inl ⟨_, _, rfl⟩))
  · exact .inr (.inr (.inr ⟨_, _, rfl⟩))

/-- **C79.** An expression in one variable, written with sums, differences, products, natural powers and
quotients by numbers that are not of integer type, expands to a single result: a number, a polynomial in
that variable or a power of it. It has the value of the expression everywhere. -/
theorem C79_expand {x : List Char} {s e : X} (ho : s.over x) (hx : s.exact) (h : build s = some e) :
    ∃ r, (∀ r', TryExpand e r' ↔ r' = r) ∧
      (IsPoly x r ∨ r = .var x ∨ ∃ p, r = .pow (.var x) p) ∧ ∀ ρ, r.val ρ = s.val ρ := by
  obtain ⟨r, hr, hf, hv⟩ := build_ready ho hx h
  refine ⟨r, tryExpand_iff (x := x) hr, ?_, hv⟩
  cases hf with
  | flat h => exact .inl (flat_isPoly h)
  | var => exact .inr (.inl rfl)
  | pow p => exact .inr (.inr ⟨p, rfl⟩)

/-- **C79.** Expanding the result once more always gives a number or a polynomial. -/
theorem C79_twice {x : List Char} {s e r : X} (ho : s.over x) (hx : s.exact) (h : build s = some e)
    (hr : TryExpand e r) : ∃ r', TryExpand r r' ∧ IsPoly x r' ∧ ∀ ρ, r'.val ρ = s.val ρ := by
  obtain ⟨r1, hr1, hf, hv⟩ := build_ready ho hx h
  obtain rfl := (tryExpand_iff (x := x) hr1 r).1 hr
  obtain ⟨r', h', f', v', _⟩ := form_flat hf
  exact ⟨r', (tryExpand_iff (x := x) h' r').2 rfl, flat_isPoly f', fun ρ => by rw [v', hv]⟩

/-- **C79.** The coefficients of the result are those of the expression multiplied out. -/
theorem C79_coefficients {x : List Char} {s e : X} (ho : s.over x) (hx : s.exact) (h : build s = some e)
    (P : Polynomial ℝ) (hP : ∀ t : ℝ, s.val (fun _ => t) = P.eval t) :
    (∀ n f, TryExpand e (.polyR x n f) → ∀ i, coef f i = P.coeff i) ∧
    (∀ n f, TryExpand e (.polyZ x n f) → ∀ i, ((coef f i : ℤ) : ℝ) = P.coeff i) := by
  obtain ⟨r, hr, _, hv⟩ := C79_expand ho hx h
  have key (n : ℕ) (f : Arr ℝ n) (hf : ∀ ρ, (X.polyR x n f).val ρ = s.val ρ) (i : ℕ) :
      coef f i = P.coeff i := by
    have : polyOf f = P := Polynomial.funext fun t => by
      rw [← hP, ← hf, val_polyR]
    rw [← this, Pol.polyOf_coeff]
  refine ⟨fun n f hf i => ?_, fun n f hf i => ?_⟩
  · exact key n f (fun ρ => by rw [(hr _).1 hf, hv]) i
  · rw [← key n (toR f) (fun ρ => by rw [val_toR, (hr _).1 hf, hv]) i]
    unfold coef toR
    split <;> simp

/-- A case of C79: `2 * x * x + 0.5`. -/
example : ∃ s : X, s = .bin .add (.bin .mul (.bin .mul (.int 2) (.var ['x'])) (.var ['x'])) (.dbl 0.5) ∧
    s.over ['x'] ∧ s.exact ∧ build s = some s := by
  refine ⟨_, rfl, ⟨⟨⟨trivial, rfl⟩, rfl⟩, trivial⟩, ⟨⟨⟨trivial, trivial⟩, trivial⟩, trivial⟩, ?_⟩
  simp [build, apply, node, X.number, X.isC]

/-- A case of C79: `(x - 3) ^ 4 / C<2>()`. -/
example : ∃ s : X, s = .bin .div (.pow (.bin .sub (.var ['x']) (.int 3)) 4) (.c (.ofInt 2)) ∧
    s.over ['x'] ∧ s.exact ∧ build s = some s := by
  refine ⟨_, rfl, ⟨⟨rfl, trivial⟩, trivial⟩, ⟨⟨trivial, trivial⟩, trivial, ?_⟩, ?_⟩
  · simp [X.val, C.val, C.ofInt]
  · simp [build, apply, node, X.number, X.isC, opPow]

/-! ## What goes wrong outside these conditions -/

theorem divInt_spec {m : ℕ} (f : Arr ℤ m) (z : ℤ) (hz : z ≠ 0) :
    divInt f ![z] = some fun i => (f i).tdiv z := by
  unfold divInt
  obtain ⟨r, e, h⟩ := Pol.forUp_inv (lo := 0) (body := fun i r => do
      let ri ← rd r i
      let a ← rd f i
      let b ← rd (![z] : Arr ℤ 0) 0
      let q ← intOp .div a b
      wr r i (ri + q))
    (fun c (r : Arr ℤ m) => ∀ j, coef r j = if j < c then (coef f j).tdiv z else 0)
    (m + 1) (zeros m) (fun j => by rw [if_neg (by omega), Pol.coef_zeros])
    (fun c r hc hI => by
      obtain ⟨r2, e2, h2⟩ := Pol.wr_coef r (i := c) (coef r c + (coef f c).tdiv z) (by omega)
      refine ⟨r2, ?_, fun j => ?_⟩
      · rw [Nat.zero_add, Pol.rd_coef r (show c ≤ m by omega), Pol.rd_coef f (show c ≤ m by omega)]
        simp only [rd, intOp, Option.bind_eq_bind, Option.bind_some, Nat.lt_add_one, dite_true,
          Fin.zero_eta, Matrix.cons_val_fin_one, if_neg hz, e2]
      · rw [h2]
        by_cases hj : j = c
        · subst hj; rw [if_pos rfl, if_pos (by omega), hI, if_neg (by omega), zero_add]
        · rw [if_neg hj, hI]
          by_cases h1 : j < c
          · rw [if_pos h1, if_pos (by omega)]
          · rw [if_neg h1, if_neg (by omega)])
  rw [e]
  refine congrArg some (Pol.arr_ext fun i hi => ?_)
  rw [h, if_pos (by omega)]
  simp [coef, show i < m + 1 by omega]

/-- **C79: dividing by an `int`.** A polynomial with integer coefficients divided by an integer keeps
integer coefficients: every one of them is rounded towards zero. -/
theorem C79_integer_division (x : List Char) {n : ℕ} (f : Arr ℤ n) (z : ℤ) (hz : z ≠ 0) (r : X) :
    TryExpand (.bin .div (.polyZ x n f) (.int z)) r ↔ r = .polyZ x n fun i => (f i).tdiv z := by
  refine tryExpand_iff (x := x) (.inl ?_) r
  refine gives_lift rfl rfl (by simp [X.isC]) (gives_polyZ x n f) (gives_int z) rfl
    (.inl (gives_rules ?_))
  simp only [rules, rulesZ, divInt_spec f z hz, Option.map_some]

/-- **C79 fails for `x / 2`.** A variable becomes a polynomial with integer coefficients, so the expansion
of `x / 2` is the polynomial zero. -/
theorem C79_half_fails (x : List Char) (r : X) :
    build (.bin .div (.var x) (.int 2)) = some (.bin .div (.var x) (.int 2)) ∧
    (TryExpand (.bin .div (.var x) (.int 2)) r ↔ r = .polyZ x 1 ![0, 0]) ∧
    (X.polyZ x 1 ![0, 0]).val (fun _ => 1) = 0 ∧
    (X.bin .div (.var x) (.int 2)).val (fun _ => 1) = 1 / 2 := by
  refine ⟨by simp [build, apply, node, X.number], tryExpand_iff (x := x) (.inl ?_) r, by simp [X.val],
    by simp [X.val, BOp.real]⟩
  refine gives_operands (l' := .polyZ x 1 ![0, 1]) (r' := .int 2) rfl rfl (by simp [X.isC])
    (.inl (gives_var x)) (.inr ⟨gives_int 2, rfl⟩) ?_ (e := .bin .div (.polyZ x 1 ![0, 1]) (.int 2))
    (by simp [apply, node, X.number]) (.inl ?_)
  · rintro ⟨h, _⟩; simpa using gives_unique h (gives_var x)
  · refine gives_lift rfl rfl (by simp [X.isC]) (gives_polyZ x 1 _) (gives_int 2) rfl
      (.inl (gives_rules ?_))
    simp only [rules, rulesZ, divInt_spec _ 2 two_ne_zero, Option.map_some]
    congr 3
    funext i
    fin_cases i <;> rfl

/-- **C79 fails for two variables.** The product of polynomials in different variables is computed as if
the second one were in the variable of the first. -/
theorem C79_two_variables (x y : List Char) {n m : ℕ} (f : Arr ℤ n) (g : Arr ℤ m) :
    ∃ h : Arr ℤ (n + m), polyOf h = polyOf f * polyOf g ∧
      ∀ r, TryExpand (.bin .mul (.polyZ x n f) (.polyZ y m g)) r ↔ r = .polyZ x (n + m) h := by
  obtain ⟨h, e, hh⟩ := Pol.mulPoly_spec f g
  exact ⟨h, hh, fun r => tryExpand_iff (x := x) (.inl (gives_rules (by simp [rules, rulesZ, e]))) r⟩

/-- The expansion of `x * y` is `x ^ 2`. -/
theorem C79_product_fails {x y : List Char} (hxy : x ≠ y) :
    ∃ r, (∀ r', TryExpand (.bin .mul (.var x) (.var y)) r' ↔ r' = r) ∧
      (∀ ρ, r.val ρ = ρ x ^ 2) ∧ ∀ ρ, (X.bin .mul (.var x) (.var y)).val ρ = ρ x * ρ y := by
  obtain ⟨h, e, hh⟩ := Pol.mulPoly_spec (![0, 1] : Arr ℤ 1) (![0, 1] : Arr ℤ 1)
  refine ⟨.polyZ x 2 h, tryExpand_iff (x := x) (.inl ?_), fun ρ => ?_, fun ρ => rfl⟩
  · refine gives_operands (l' := .polyZ x 1 ![0, 1]) (r' := .polyZ y 1 ![0, 1]) rfl (by simp [first, hxy])
      (by simp [X.isC]) (.inl (gives_var x)) (.inl (gives_var y)) ?_
      (e := .bin .mul (.polyZ x 1 ![0, 1]) (.polyZ y 1 ![0, 1])) (by simp [apply, node, X.number, X.isC])
      (.inl (gives_rules (by simp [rules, rulesZ, e])))
    rintro ⟨h, _⟩; simpa using gives_unique h (gives_var x)
  · have hx : polyOf (![0, 1] : Arr ℤ 1) = Polynomial.X := by simp [polyOf, Fin.sum_univ_succ]
    rw [val_polyZ, hh, hx, Polynomial.eval₂_mul, Polynomial.eval₂_X, pow_two]

/-- **C79.** Sums and differences of polynomials in different variables are left as they are (so `expand(x + y)` is not
`2*x`): only polynomials in the same variable are added. -/
theorem C79_sum_two_variables {x y : List Char} (hxy : x ≠ y) {o : BOp} (ho : o = .add ∨ o = .sub) {l r : X}
    (hl : (∃ n f, l = .polyZ x n f) ∨ ∃ n f, l = .polyR x n f)
    (hr : (∃ n f, r = .polyZ y n f) ∨ ∃ n f, r = .polyR y n f) (e : X) :
    TryExpand (.bin o l r) e ↔ e = .bin o l r := by
  refine tryExpand_iff (x := x) (.inr ⟨gives_succ 1 fun m hm => ?_, rfl⟩) e
  obtain ⟨m, rfl⟩ : ∃ m', m = m' + 1 := ⟨m - 1, by omega⟩
  rcases ho with rfl | rfl <;> rcases hl with ⟨n, f, rfl⟩ | ⟨n, f, rfl⟩ <;>
    rcases hr with ⟨k, g, rfl⟩ | ⟨k, g, rfl⟩ <;>
    simp [simp, rules, rulesZ, rulesR, first, lift, hxy, reorder, either, onParts, X.parts]

/-- The expansion of `x + y` has the value of `x + y`. -/
theorem C79_sum_of_variables {x y : List Char} (hxy : x ≠ y) :
    ∃ r, (∀ r', TryExpand (.bin .add (.var x) (.var y)) r' ↔ r' = r) ∧ ∀ ρ, r.val ρ = ρ x + ρ y := by
  refine ⟨.bin .add (.polyZ x 1 ![0, 1]) (.polyZ y 1 ![0, 1]), tryExpand_iff (x := x) (.inl ?_), fun ρ => ?_⟩
  · refine gives_operands (l' := .polyZ x 1 ![0, 1]) (r' := .polyZ y 1 ![0, 1]) rfl (by simp [first])
      (by simp [X.isC]) (.inl (gives_var x)) (.inl (gives_var y)) ?_
      (e := .bin .add (.polyZ x 1 ![0, 1]) (.polyZ y 1 ![0, 1])) (by simp [apply, node, X.number, X.isC])
      (.inr ⟨gives_succ 1 fun m hm => ?_, rfl⟩)
    · rintro ⟨h, _⟩; simpa using gives_unique h (gives_var x)
    · obtain ⟨m, rfl⟩ : ∃ m', m = m' + 1 := ⟨m - 1, by omega⟩
      simp [simp, rules, rulesZ, first, lift, hxy, reorder, either, onParts, X.parts]
  · simp [X.val, BOp.real, Fin.sum_univ_succ]

end Stator.Ct.Expand
