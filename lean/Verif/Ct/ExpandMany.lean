import Verif.Ct.ExpandProps

/-!
# Expansion of expressions in several variables (C98)

`Verif/Ct/ExpandProps` is about expressions in one variable. In several variables the rules for reordering sums and products
(simplify.hpp:247-269) come into play.
-/

namespace Stator.Ct.Expand

open C (val_neg val_add val_sub val_mul val_div val_null val_unity)
open Stator.Pol (Arr rd wr forUp zeros addOp mulPoly divConst mulVar varPow value polyOf coef)

/-! ## Specification -/

/-- The variable `v` occurs in the expression. -/
def X.uses (v : List Char) : X → Prop
  | .var u => u = v
  | .polyZ u _ _ => u = v
  | .polyR u _ _ => u = v
  | .bin _ l r => l.uses v ∨ r.uses v
  | .neg a => a.uses v
  | .pow a _ => a.uses v
  | _ => False

/-- Only one variable occurs in the two sets, or one of the sets is empty. -/
def Compat (P Q : List Char → Prop) : Prop :=
  (∃ x, ∀ v, P v ∨ Q v → v = x) ∨ (∀ v, ¬ P v) ∨ ∀ v, ¬ Q v

/-- Written with constants `C<..>`, `double`s and polynomials with `double` coefficients. -/
def X.real : X → Prop
  | .c _ => True
  | .dbl _ => True
  | .polyR _ _ _ => True
  | .bin _ l r => l.real ∧ r.real
  | .neg a => a.real
  | .pow a _ => a.real
  | _ => False

/-- The two factors of a product have only one variable between them, or one of them is a number; so do powers; the divisors are
not of integer type. -/
def X.tame : X → Prop
  | .bin .mul l r => l.tame ∧ r.tame ∧ Compat (fun v => l.uses v) (fun v => r.uses v)
  | .bin .div l r => l.tame ∧ r.tame ∧ r.real
  | .bin _ l r => l.tame ∧ r.tame
  | .neg a => a.tame
  | .pow a _ => a.tame ∧ ∃ x, ∀ v, a.uses v → v = x
  | _ => True

/-! ## Proofs -/

/-- `r` can stand for `e`. -/
structure Keeps (e r : X) : Prop where
  uses : ∀ v, r.uses v → e.uses v
  tame : r.tame
  real : e.real → r.real
  val : ∀ ρ, r.val ρ = e.val ρ

theorem Keeps.rfl {e : X} (h : e.tame) : Keeps e e := ⟨fun _ h => h, h, fun h => h, fun _ => Eq.refl _⟩

theorem Keeps.trans {a b c : X} (h : Keeps a b) (h' : Keeps b c) : Keeps a c :=
  ⟨fun v hv => h.uses v (h'.uses v hv), h'.tame, fun hr => h'.real (h.real hr), fun ρ => (h'.val ρ).trans (h.val ρ)⟩

theorem Compat.mono {P Q P' Q' : List Char → Prop} (h : Compat P Q) (hp : ∀ v, P' v → P v) (hq : ∀ v, Q' v → Q v) :
    Compat P' Q' := by
  rcases h with ⟨x, h⟩ | h | h
  · exact .inl ⟨x, fun v hv => h v (hv.imp (hp v) (hq v))⟩
  · exact .inr (.inl fun v hv => h v (hp v hv))
  · exact .inr (.inr fun v hv => h v (hq v hv))

theorem Compat.symm {P Q : List Char → Prop} (h : Compat P Q) : Compat Q P := by
  rcases h with ⟨x, h⟩ | h | h
  · exact .inl ⟨x, fun v hv => h v hv.symm⟩
  · exact .inr (.inr h)
  · exact .inr (.inl h)

/-- The factors of a product of three can be multiplied in any order. -/
theorem Compat.assoc {P Q R : List Char → Prop} (h : Compat P Q) (h' : Compat (fun v => P v ∨ Q v) R) :
    Compat Q R ∧ Compat P R ∧ Compat P (fun v => Q v ∨ R v) ∧ Compat (fun v => P v ∨ R v) Q := by
  rcases h' with ⟨x, h'⟩ | h' | h'
  · refine ⟨.inl ⟨x, fun v hv => h' v ?_⟩, .inl ⟨x, fun v hv => h' v ?_⟩, .inl ⟨x, fun v hv => h' v ?_⟩,
      .inl ⟨x, fun v hv => h' v ?_⟩⟩ <;> tauto
  · have hp : ∀ v, ¬ P v := fun v hv => h' v (.inl hv)
    have hq : ∀ v, ¬ Q v := fun v hv => h' v (.inr hv)
    exact ⟨.inr (.inl hq), .inr (.inl hp), .inr (.inl hp), .inr (.inr hq)⟩
  · refine ⟨.inr (.inr h'), .inr (.inr h'), ?_, ?_⟩
    · rcases h with ⟨x, h⟩ | h | h
      · exact .inl ⟨x, fun v hv => by rcases hv with hv | hv | hv <;> [exact h v (.inl hv); exact h v (.inr hv); exact absurd hv (h' v)]⟩
      · exact .inr (.inl h)
      · exact .inr (.inr fun v hv => hv.elim (h v) (h' v))
    · rcases h with ⟨x, h⟩ | h | h
      · exact .inl ⟨x, fun v hv => by rcases hv with (hv | hv) | hv <;> [exact h v (.inl hv); exact absurd hv (h' v); exact h v (.inr hv)]⟩
      · exact .inr (.inl fun v hv => hv.elim (h v) (h' v))
      · exact .inr (.inr h)

theorem tame_left {o : BOp} {l r : X} (h : (X.bin o l r).tame) : l.tame := by cases o <;> exact h.1

theorem tame_right {o : BOp} {l r : X} (h : (X.bin o l r).tame) : r.tame := by
  cases o
  · exact h.2
  · exact h.2
  · exact h.2.1
  · exact h.2.1

theorem tame_bin {o : BOp} {l r l' r' : X} (h : (X.bin o l r).tame) (hl : Keeps l l') (hr : Keeps r r') : (X.bin o l' r').tame := by
  cases o
  · exact ⟨hl.tame, hr.tame⟩
  · exact ⟨hl.tame, hr.tame⟩
  · exact ⟨hl.tame, hr.tame, h.2.2.mono hl.uses hr.uses⟩
  · exact ⟨hl.tame, hr.tame, hr.real h.2.2⟩

/-- The operands of an operation can be replaced. -/
theorem Keeps.bin {o : BOp} {l r l' r' : X} (h : (X.bin o l r).tame) (hl : Keeps l l') (hr : Keeps r r') :
    Keeps (.bin o l r) (.bin o l' r') :=
  ⟨fun v hv => hv.imp (hl.uses v) (hr.uses v), tame_bin h hl hr, fun hv => ⟨hl.real hv.1, hr.real hv.2⟩, fun ρ => by
    simp only [X.val, hl.val, hr.val]⟩

theorem Keeps.neg {a a' : X} (h : Keeps a a') : Keeps (.neg a) (.neg a') :=
  ⟨h.uses, h.tame, h.real, fun ρ => by simp only [X.val, h.val]⟩

/-- A polynomial or a number in place of an expression. -/
theorem Keeps.leaf {e r : X} (hu : ∀ v, r.uses v → e.uses v) (ht : r.tame) (hr : e.real → r.real) (hv : ∀ ρ, r.val ρ = e.val ρ) :
    Keeps e r := ⟨hu, ht, hr, hv⟩

theorem neg_poly {K : Type*} [CommRing K] {n : ℕ} (f r : Arr K n) (h : Pol.neg f = some r) : ∀ i, r i = -f i := by
  obtain ⟨r', e, hr⟩ := Pol.neg_spec f
  rw [h] at e
  cases e
  intro i
  have := congrArg (Polynomial.coeff · (i : ℕ)) hr
  simpa [Pol.polyOf_coeff, Pol.coef_fin] using this

theorem opNeg_keeps {a e : X} (ha : a.tame) (h : opNeg a = some e) : Keeps (.neg a) e := by
  cases a with
  | c b => simp only [opNeg, Option.some.injEq] at h; subst h; exact ⟨fun _ h => h, trivial, fun _ => trivial, fun ρ => by simp [X.val, val_neg]⟩
  | int z => simp only [opNeg, Option.some.injEq] at h; subst h; exact ⟨fun _ h => h, trivial, fun h => h, fun ρ => by simp [X.val]⟩
  | dbl y => simp only [opNeg, Option.some.injEq] at h; subst h; exact ⟨fun _ h => h, trivial, fun h => h, fun ρ => by simp [X.val]⟩
  | polyZ v n f =>
    simp only [opNeg, Option.map_eq_some_iff] at h
    obtain ⟨g, hg, rfl⟩ := h
    exact ⟨fun _ h => h, trivial, fun h => h, fun ρ => by simp [X.val, neg_poly f g hg]⟩
  | polyR v n f =>
    simp only [opNeg, Option.map_eq_some_iff] at h
    obtain ⟨g, hg, rfl⟩ := h
    exact ⟨fun _ h => h, trivial, fun h => h, fun ρ => by simp [X.val, neg_poly f g hg]⟩
  | var v => simp only [opNeg, Option.some.injEq] at h; subst h; exact .rfl ha
  | bin o l r => simp only [opNeg, Option.some.injEq] at h; subst h; exact .rfl ha
  | neg b => simp only [opNeg, Option.some.injEq] at h; subst h; exact .rfl ha
  | pow b p => simp only [opNeg, Option.some.injEq] at h; subst h; exact .rfl ha

/-- The operation on numbers. -/
theorem number_uses {a : X} (h : a.number ≠ none) (v : List Char) : ¬ a.uses v := by
  cases a <;> simp_all [X.number, X.uses]

theorem realOp_val {o : BOp} {a b y : ℝ} (h : realOp o a b = some y) : y = o.real a b := by
  cases o <;> simp only [realOp, Option.some.injEq, ite_eq_iff, reduceCtorEq, and_false, false_or] at h <;> simp_all [BOp.real]

theorem intOp_val {o : BOp} {a b z : ℤ} (ho : o ≠ .div) (h : intOp o a b = some z) : (z : ℝ) = o.real a b := by
  cases o <;> simp [intOp] at h <;> simp_all [BOp.real] <;> subst h <;> push_cast <;> rfl

theorem number_val {a : X} {y : ℝ} (h : a.number = some y) (ρ : List Char → ℝ) : a.val ρ = y := by
  cases a <;> simp_all [X.number, X.val]

theorem node_keeps {o : BOp} {l r e : X} (ht : (X.bin o l r).tame) (h : node o l r = some e) : Keeps (.bin o l r) e := by
  unfold node at h
  split at h
  · rename_i a b ha hb
    split at h
    · rename_i i j
      simp only [Option.map_eq_some_iff] at h
      obtain ⟨z, hz, rfl⟩ := h
      have ho : o ≠ .div := by rintro rfl; exact ht.2.2
      exact ⟨fun v hv => hv.elim, trivial, fun hr => hr.1.elim, fun ρ => intOp_val ho hz⟩
    · simp only [Option.map_eq_some_iff] at h
      obtain ⟨y, hy, rfl⟩ := h
      exact ⟨fun v hv => hv.elim, trivial, fun hr => trivial, fun ρ => by
        simp only [X.val]
        rw [number_val ha, number_val hb]
        exact realOp_val hy⟩
  · cases h
    exact .rfl ht

theorem isC_eq {a : C} {e : X} (h : e.isC a = true) : e = .c a := by
  cases e <;> simp_all [X.isC]

theorem apply_keeps {o : BOp} {l r e : X} (ht : (X.bin o l r).tame) (h : apply o l r = some e) : Keeps (.bin o l r) e := by
  unfold apply at h
  split at h
  · rename_i a b
    cases o with
    | add => cases h; exact ⟨fun v hv => hv.elim, trivial, fun _ => trivial, fun ρ => by simp [X.val, BOp.real, val_add]⟩
    | sub => cases h; exact ⟨fun v hv => hv.elim, trivial, fun _ => trivial, fun ρ => by simp [X.val, BOp.real, val_sub]⟩
    | mul => cases h; exact ⟨fun v hv => hv.elim, trivial, fun _ => trivial, fun ρ => by simp [X.val, BOp.real, val_mul]⟩
    | div =>
      simp only [Option.map_eq_some_iff] at h
      obtain ⟨c, hc, rfl⟩ := h
      exact ⟨fun v hv => hv.elim, trivial, fun _ => trivial, fun ρ => by simp [X.val, BOp.real, (val_div hc).2]⟩
  · cases o with
    | add =>
      dsimp only at h
      split_ifs at h with h1 h2
      · cases h; obtain rfl := isC_eq h1
        exact ⟨fun v hv => .inl hv, tame_left ht, fun hr => hr.1, fun ρ => by simp [X.val, BOp.real, val_null]⟩
      · cases h; obtain rfl := isC_eq h2
        exact ⟨fun v hv => .inr hv, tame_right ht, fun hr => hr.2, fun ρ => by simp [X.val, BOp.real, val_null]⟩
      · exact node_keeps ht h
    | sub =>
      dsimp only at h
      split_ifs at h with h1 h2
      · cases h; obtain rfl := isC_eq h1
        exact ⟨fun v hv => .inl hv, tame_left ht, fun hr => hr.1, fun ρ => by simp [X.val, BOp.real, val_null]⟩
      · obtain rfl := isC_eq h2
        have k := opNeg_keeps (tame_right ht) h
        exact ⟨fun v hv => .inr (k.uses v hv), k.tame, fun hr => k.real hr.2, fun ρ => by simp [k.val, X.val, BOp.real, val_null]⟩
      · exact node_keeps ht h
    | mul =>
      dsimp only at h
      split_ifs at h with h1 h2 h3 h4
      · cases h; obtain rfl := isC_eq h1
        exact ⟨fun v hv => hv.elim, trivial, fun hr => trivial, fun ρ => by simp [X.val, BOp.real, val_null]⟩
      · cases h; obtain rfl := isC_eq h2
        exact ⟨fun v hv => hv.elim, trivial, fun hr => trivial, fun ρ => by simp [X.val, BOp.real, val_null]⟩
      · cases h; obtain rfl := isC_eq h3
        exact ⟨fun v hv => .inl hv, tame_left ht, fun hr => hr.1, fun ρ => by simp [X.val, BOp.real, val_unity]⟩
      · cases h; obtain rfl := isC_eq h4
        exact ⟨fun v hv => .inr hv, tame_right ht, fun hr => hr.2, fun ρ => by simp [X.val, BOp.real, val_unity]⟩
      · exact node_keeps ht h
    | div => exact node_keeps ht h

theorem compat_eq {u v : List Char} {P Q : List Char → Prop} (h : Compat P Q) (hu : P u) (hv : Q v) : u = v := by
  rcases h with ⟨x, h⟩ | h | h
  · rw [h u (.inl hu), h v (.inr hv)]
  · exact absurd hu (h u)
  · exact absurd hv (h v)

/-- The rules for two polynomials. -/
theorem rulesZ_keeps {o : BOp} {u v : List Char} {n m : ℕ} {f : Arr ℤ n} {g : Arr ℤ m} {e : X}
    (ht : (X.bin o (.polyZ u n f) (.polyZ v m g)).tame) (h : rulesZ o u v f g = some (some e)) :
    Keeps (.bin o (.polyZ u n f) (.polyZ v m g)) e := by
  have ho : o ≠ .div := by rintro rfl; exact ht.2.2
  have huv : u = v := by
    cases o with
    | add => by_contra hc; simp [rulesZ, hc] at h
    | sub => by_contra hc; simp [rulesZ, hc] at h
    | mul => exact compat_eq ht.2.2 (by simp [X.uses]) (by simp [X.uses])
    | div => exact absurd _root_.rfl ho
  subst huv
  obtain ⟨r, er, hf, hi⟩ := rulesZ_ok o u f g ho
  rw [h] at er
  simp only [Option.some.injEq] at er
  subst er
  refine ⟨fun w hw => ?_, ?_, fun hr => hr.1.elim, hi⟩
  · cases hf <;> simp_all [X.uses]
  · cases hf <;> trivial

theorem rulesR_keeps {o : BOp} {u v : List Char} {n m : ℕ} {f : Arr ℝ n} {g : Arr ℝ m} {e : X}
    (hm : o = .mul → u = v) (h : rulesR o u v f g = some (some e)) :
    (∀ w, e.uses w → u = w) ∧ e.tame ∧ e.real ∧ Is o (.polyR u n f) (.polyR v m g) e := by
  by_cases ho : o = .div
  · subst ho
    cases m with
    | succ m => simp [rulesR] at h
    | zero =>
      simp only [rulesR, Option.some.injEq] at h
      split_ifs at h with h0
      obtain ⟨r, er, hr⟩ := Pol.C22_div_const f g
      rw [er] at h
      simp only [Option.map_some, Option.some.injEq] at h
      subst h
      refine ⟨fun w hw => hw, trivial, trivial, fun ρ => ?_⟩
      rw [show (X.polyR v 0 g).val ρ = g 0 by simp [X.val]]
      exact hr (ρ u)
  · have huv : u = v := by
      cases o with
      | add => by_contra hc; simp [rulesR, hc] at h
      | sub => by_contra hc; simp [rulesR, hc] at h
      | mul => exact hm _root_.rfl
      | div => exact absurd _root_.rfl ho
    subst huv
    obtain ⟨k, r, er, hi⟩ := rulesR_ok o u f g fun hd => absurd hd ho
    rw [h] at er
    simp only [Option.some.injEq] at er
    subst er
    exact ⟨fun w hw => hw, trivial, trivial, hi⟩

theorem rules_keeps {o : BOp} {l r e : X} (ht : (X.bin o l r).tame) (h : rules o l r = some (some e)) : Keeps (.bin o l r) e := by
  unfold rules at h
  split at h
  · exact rulesZ_keeps ht h
  · obtain ⟨h1, h2, h3, h4⟩ := rulesR_keeps (by rintro rfl; exact compat_eq ht.2.2 (by simp [X.uses]) (by simp [X.uses])) h
    exact ⟨fun w hw => .inl (h1 w hw), h2, fun _ => h3, h4⟩
  · obtain ⟨h1, h2, h3, h4⟩ := rulesR_keeps (by rintro rfl; exact compat_eq ht.2.2 (by simp [X.uses]) (by simp [X.uses])) h
    exact ⟨fun w hw => .inl (h1 w hw), h2, fun _ => h3, h4⟩
  · obtain ⟨h1, h2, h3, h4⟩ := rulesR_keeps (by rintro rfl; exact compat_eq ht.2.2 (by simp [X.uses]) (by simp [X.uses])) h
    exact ⟨fun w hw => .inl (h1 w hw), h2, fun _ => h3, h4⟩
  · rename_i u n f v
    split_ifs at h with h0
    obtain ⟨rfl, rfl⟩ := h0
    obtain ⟨g, eg, hg⟩ := Pol.mulVar_spec f
    rw [eg] at h
    cases h
    exact ⟨fun w hw => .inl hw, trivial, fun hr => hr.1.elim, fun ρ => by
      simp only [val_polyZ, hg]
      simp [X.val, BOp.real, Polynomial.eval₂_mul, mul_comm, ← val_polyZ]⟩
  · rename_i u n f v
    split_ifs at h with h0
    obtain ⟨rfl, rfl⟩ := h0
    obtain ⟨g, eg, hg⟩ := Pol.mulVar_spec f
    rw [eg] at h
    cases h
    exact ⟨fun w hw => .inl hw, trivial, fun hr => hr.2.elim, fun ρ => by
      simp only [val_polyR, hg]
      simp [X.val, BOp.real, Polynomial.eval_mul, mul_comm, ← val_polyR]⟩
  · cases h

theorem varPower_uses (u : List Char) (p : ℕ) (v : List Char) (h : (varPower u p).uses v) : u = v := by
  unfold varPower at h; split_ifs at h <;> simpa [X.uses] using h

theorem varPower_tame (u : List Char) (p : ℕ) : (varPower u p).tame := by
  unfold varPower; split_ifs
  · trivial
  · exact ⟨trivial, u, fun v hv => hv.symm⟩

theorem varPower_val (u : List Char) (p : ℕ) (ρ : List Char → ℝ) : (varPower u p).val ρ = ρ u ^ p := by
  unfold varPower; split_ifs with h <;> simp [X.val, h]

theorem first_keeps {o : BOp} {l r e : X} (ht : (X.bin o l r).tame) (h : first o l r = some e) : Keeps (.bin o l r) e := by
  unfold first at h
  split at h
  iterate 8
    cases h
    exact ⟨fun v hv => hv.elim, trivial, fun hr => by simp_all [X.real], fun ρ => by simp [X.val, BOp.real]⟩
  · split_ifs at h with h0
    subst h0; cases h
    exact ⟨fun v hv => .inl (varPower_uses _ _ _ hv), varPower_tame _ _, fun hr => hr.1.elim, fun ρ => by
      simp [X.val, BOp.real, varPower_val, sq]⟩
  · split_ifs at h with h0
    subst h0; cases h
    exact ⟨fun v hv => .inl (varPower_uses _ _ _ hv), varPower_tame _ _, fun hr => hr.1.elim, fun ρ => by
      simp [X.val, BOp.real, varPower_val, pow_succ]⟩
  · split_ifs at h with h0
    subst h0; cases h
    exact ⟨fun v hv => .inl (varPower_uses _ _ _ hv), varPower_tame _ _, fun hr => hr.1.elim, fun ρ => by
      simp [X.val, BOp.real, varPower_val, pow_succ']⟩
  · exact ht.2.2.elim
  · split_ifs at h with h0
    obtain ⟨rfl, -⟩ := h0; cases h
    exact ⟨fun v hv => hv.elim, trivial, fun _ => trivial, fun ρ => by simp [X.val, BOp.real]⟩
  · cases h

/-- A number as a polynomial of order 0. -/
theorem keeps_int (v : List Char) (z : ℤ) (ρ : List Char → ℝ) : (X.polyZ v 0 ![z]).val ρ = z := by simp [X.val]
theorem keeps_dbl (v : List Char) (y : ℝ) (ρ : List Char → ℝ) : (X.polyR v 0 ![y]).val ρ = y := by simp [X.val]

theorem lift_keeps {o : BOp} {l r e : X} (ht : (X.bin o l r).tame) (h : lift o l r = some e) : Keeps (.bin o l r) e := by
  unfold lift at h
  split at h
  all_goals
    first
    | (simp at h; done)
    | (cases h
       refine ⟨fun v hv => ?_, ?_, fun hr => ?_, fun ρ => by
         simp [X.val]⟩
       · simp_all [X.uses]
       · cases o <;> simp_all [X.tame, X.real, X.uses, Compat]
       · simp_all [X.real])

theorem powSub_keeps {a : X} (ha : a.tame) {x : List Char} (hx : ∀ v, a.uses v → v = x) :
    ∀ {p : ℕ} {e : X}, powSub p a = some e → Keeps (.pow a p) e
  | 0, e, h => by
    cases h
    exact ⟨fun v hv => hv.elim, trivial, fun _ => trivial, fun ρ => by simp [X.val]⟩
  | 1, e, h => by
    cases h
    exact ⟨fun v hv => hv, ha, fun hr => hr, fun ρ => by simp [X.val]⟩
  | p + 2, e, h => by
    simp only [powSub, Option.bind_eq_bind, Option.bind_eq_some_iff] at h
    obtain ⟨b, hb, h⟩ := h
    have k := powSub_keeps ha hx hb
    have kt : (X.bin .mul b a).tame := ⟨k.tame, ha, .inl ⟨x, fun v hv => hv.elim (fun hv => hx v (k.uses v hv)) (hx v)⟩⟩
    have k2 := apply_keeps kt h
    exact ⟨fun v hv => (k2.uses v hv).elim (k.uses v) id, k2.tame, fun hr => k2.real ⟨k.real hr, hr⟩, fun ρ => by
      rw [k2.val]; simp only [X.val, BOp.real, k.val]; ring⟩

/-- `orSelf` -/
theorem orSelf_keeps {s : X → Option (Option X)} (hs : ∀ e r, e.tame → s e = some (some r) → Keeps e r) {e r : X} (ht : e.tame)
    (h : orSelf e (s e) = some r) : Keeps e r := by
  simp only [orSelf, Option.map_eq_some_iff] at h
  obtain ⟨q, hq, rfl⟩ := h
  cases q with
  | none => exact .rfl ht
  | some q => exact hs e q ht hq

theorem attempt_keeps {s : X → Option (Option X)} (hs : ∀ e r, e.tame → s e = some (some r) → Keeps e r) {e g x : X} {f : X → Option X}
    (ht : e.tame) (hf : ∀ d e', Keeps e d → f d = some e' → Keeps g e') (h : attempt s e f = some (some x)) : Keeps g x := by
  simp only [attempt, Option.bind_eq_bind, Option.bind_eq_some_iff] at h
  obtain ⟨q, hq, h⟩ := h
  cases q with
  | none => simp at h
  | some d =>
    simp only [Option.bind_eq_some_iff] at h
    obtain ⟨e', he', y, hy, h⟩ := h
    cases h
    have k := hf d e' (hs e d ht hq) he'
    exact k.trans (orSelf_keeps hs k.tame hy)

theorem either_left {a b : Option (Option X)} {x : X} (h : either a b = some (.inl (some x))) : a = some (some x) ∨ b = some (some x) := by
  simp only [either, Option.bind_eq_bind, Option.bind_eq_some_iff] at h
  obtain ⟨p, hp, q, hq, h⟩ := h
  cases p <;> cases q <;> simp at h <;> subst h <;> simp_all

theorem parts_eq {o : BOp} {l a b : X} (h : l.parts o = some (a, b)) : l = .bin o a b := by
  unfold X.parts at h
  split at h
  · split_ifs at h with h0; cases h; rw [h0]
  · cases h

theorem tame_assoc {o : BOp} (ho : o = .add ∨ o = .mul) {a b c : X} (h : (X.bin o (.bin o a b) c).tame) :
    (X.bin o b c).tame ∧ (X.bin o a c).tame ∧ (X.bin o a (.bin o b c)).tame ∧ (X.bin o (.bin o a c) b).tame := by
  rcases ho with rfl | rfl
  · obtain ⟨⟨h1, h2⟩, h3⟩ := h
    exact ⟨⟨h2, h3⟩, ⟨h1, h3⟩, ⟨h1, h2, h3⟩, ⟨h1, h3⟩, h2⟩
  · obtain ⟨⟨h1, h2, h4⟩, h3, h5⟩ := h
    obtain ⟨c1, c2, c3, c4⟩ := h4.assoc h5
    exact ⟨⟨h2, h3, c1⟩, ⟨h1, h3, c2⟩, ⟨h1, ⟨h2, h3, c1⟩, c3⟩, ⟨h1, h3, c2⟩, h2, c4⟩

theorem tame_comm {o : BOp} (ho : o = .add ∨ o = .mul) {a b : X} (h : (X.bin o a b).tame) : (X.bin o b a).tame := by
  rcases ho with rfl | rfl
  · exact ⟨h.2, h.1⟩
  · exact ⟨h.2.1, h.1, h.2.2.symm⟩

theorem reorder_keeps {s : X → Option (Option X)} (hs : ∀ e r, e.tame → s e = some (some r) → Keeps e r) {o : BOp} {l r x : X}
    (ht : (X.bin o l r).tame) (h : reorder s o l r = some (some x)) : Keeps (.bin o l r) x := by
  unfold reorder at h
  split_ifs at h with ho
  · have val1 (a b c : ℝ) : o.real a (o.real b c) = o.real (o.real a b) c := by
      rcases ho with rfl | rfl <;> simp only [BOp.real] <;> ring
    have val2 (a b c : ℝ) : o.real (o.real a c) b = o.real (o.real a b) c := by
      rcases ho with rfl | rfl <;> simp only [BOp.real] <;> ring
    have val3 (a b c : ℝ) : o.real (o.real a c) b = o.real a (o.real b c) := by
      rcases ho with rfl | rfl <;> simp only [BOp.real] <;> ring
    -- the four rules
    have r1 : ∀ y, (onParts (l.parts o) fun a b => attempt s (.bin o b r) (fun d => apply o a d))
        = some (some y) → Keeps (.bin o l r) y := by
      intro y hy
      unfold onParts at hy
      split at hy
      · rename_i a b hp
        obtain rfl := parts_eq hp
        obtain ⟨t1, t2, t3, t4⟩ := tame_assoc ho ht
        refine attempt_keeps hs t1 (fun d e' kd he => ?_) hy
        have k := (Keeps.bin t3 (.rfl (tame_left t3)) kd)
        refine Keeps.trans ⟨?_, t3, ?_, fun ρ => ?_⟩ (k.trans (apply_keeps k.tame he))
        · simp only [X.uses]; tauto
        · simp only [X.real]; tauto
        · simp only [X.val, val1]
      · simp at hy
    have r2 : ∀ y, (onParts (r.parts o) fun b c => attempt s (.bin o l b) (fun d => apply o d c))
        = some (some y) → Keeps (.bin o l r) y := by
      intro y hy
      unfold onParts at hy
      split at hy
      · rename_i b c hp
        obtain rfl := parts_eq hp
        -- `l*(b*c)` as `(b*c)*l`, `(c*b)*l`
        have t0 := tame_comm ho ht
        obtain ⟨t1, t2, t3, t4⟩ := tame_assoc ho t0
        have t5 : (X.bin o l b).tame := tame_comm ho t2
        have t6 : (X.bin o (.bin o l b) c).tame := by
          rcases ho with rfl | rfl
          · exact ⟨t5, tame_right t2 |> fun _ => tame_right (tame_left t0)⟩
          · refine ⟨t5, t4.2.1, t4.2.2.mono (fun v hv => ?_) (fun _ h => h)⟩
            simp only [X.uses] at hv ⊢; tauto
        refine attempt_keeps hs t5 (fun d e' kd he => ?_) hy
        have k := (Keeps.bin t6 kd (.rfl (tame_right t6)))
        refine Keeps.trans ⟨?_, t6, ?_, fun ρ => ?_⟩ (k.trans (apply_keeps k.tame he))
        · simp only [X.uses]; tauto
        · simp only [X.real]; tauto
        · simp only [X.val, val1]
      · simp at hy
    have r3 : ∀ y, (onParts (l.parts o) fun a b => attempt s (.bin o a r) (fun d => apply o d b))
        = some (some y) → Keeps (.bin o l r) y := by
      intro y hy
      unfold onParts at hy
      split at hy
      · rename_i a b hp
        obtain rfl := parts_eq hp
        obtain ⟨t1, t2, t3, t4⟩ := tame_assoc ho ht
        refine attempt_keeps hs t2 (fun d e' kd he => ?_) hy
        have k := (Keeps.bin t4 kd (.rfl (tame_right t4)))
        refine Keeps.trans ⟨?_, t4, ?_, fun ρ => ?_⟩ (k.trans (apply_keeps k.tame he))
        · simp only [X.uses]; tauto
        · simp only [X.real]; tauto
        · simp only [X.val, val2]
      · simp at hy
    have r4 : ∀ y, (onParts (r.parts o) fun b c => attempt s (.bin o l c) (fun d => apply o d b))
        = some (some y) → Keeps (.bin o l r) y := by
      intro y hy
      unfold onParts at hy
      split at hy
      · rename_i b c hp
        obtain rfl := parts_eq hp
        have t0 := tame_comm ho ht
        obtain ⟨t1, t2, t3, t4⟩ := tame_assoc ho t0
        have t5 : (X.bin o l c).tame := tame_comm ho t1
        have t6 : (X.bin o (.bin o l c) b).tame := by
          have := tame_comm ho t3
          rcases ho with rfl | rfl
          · exact ⟨t5, this.2⟩
          · refine ⟨t5, this.2.1, this.2.2.mono (fun v hv => ?_) (fun _ h => h)⟩
            simp only [X.uses] at hv ⊢; tauto
        refine attempt_keeps hs t5 (fun d e' kd he => ?_) hy
        have k := (Keeps.bin t6 kd (.rfl (tame_right t6)))
        refine Keeps.trans ⟨?_, t6, ?_, fun ρ => ?_⟩ (k.trans (apply_keeps k.tame he))
        · simp only [X.uses]; tauto
        · simp only [X.real]; tauto
        · simp only [X.val, val3]
      · simp at hy
    simp only [Option.bind_eq_bind, Option.bind_eq_some_iff] at h
    obtain ⟨q, hq, h⟩ := h
    cases q with
    | inl q =>
      simp only [Option.some.injEq] at h
      subst h
      exact (either_left hq).elim (r1 x) (r2 x)
    | inr _ =>
      simp only [Option.bind_eq_some_iff] at h
      obtain ⟨q, hq, h⟩ := h
      cases q with
      | inl q =>
        simp only [Option.some.injEq] at h
        subst h
        exact (either_left hq).elim (r3 x) (r4 x)
      | inr _ => simp at h
  · simp at h

theorem simp_keeps : ∀ (k : ℕ) (e r : X), e.tame → simp k e = some (some r) → Keeps e r
  | 0, e, r, ht, h => by simp [simp] at h
  | k + 1, e, r, ht, h => by
    have ih := simp_keeps k
    cases e with
    | c a => simp only [simp, Option.some.injEq] at h; subst h; exact ⟨fun v hv => hv.elim, trivial, fun _ => trivial, fun ρ => rfl⟩
    | int z => simp [simp] at h
    | dbl y => simp [simp] at h
    | polyZ v n f => simp [simp] at h
    | polyR v n f => simp [simp] at h
    | var v =>
      simp only [simp, Option.some.injEq] at h; subst h
      exact ⟨fun w hw => hw, trivial, fun hr => hr.elim, fun ρ => by simp [X.val, Fin.sum_univ_succ]⟩
    | neg a =>
      simp only [simp, Option.bind_eq_bind, Option.bind_eq_some_iff] at h
      obtain ⟨q, hq, h⟩ := h
      cases q with
      | none => simp at h
      | some a' =>
        simp only [Option.bind_eq_some_iff] at h
        obtain ⟨e, he, y, hy, h⟩ := h
        cases h
        have k1 := ih a a' ht hq
        have k2 := opNeg_keeps k1.tame he
        exact k1.neg.trans (k2.trans (orSelf_keeps ih k2.tame hy))
    | pow a p =>
      by_cases hv : ∃ v, a = .var v
      · obtain ⟨v, rfl⟩ := hv
        simp only [simp, Option.bind_eq_bind, Option.bind_eq_some_iff] at h
        obtain ⟨f, hf, h⟩ := h
        cases h
        obtain ⟨f', ef, hf'⟩ := Pol.varPow_spec (K := ℤ) p
        rw [hf] at ef
        cases ef
        exact ⟨fun w hw => hw, trivial, fun hr => hr.elim, fun ρ => by rw [val_polyZ, hf']; simp [X.val]⟩
      · rw [simp] at h
        · obtain ⟨hta, x, hx⟩ := ht
          simp only [Option.bind_eq_bind, Option.bind_eq_some_iff] at h
          obtain ⟨q, hq, h⟩ := h
          cases q with
          | none =>
            simp only [Option.bind_eq_some_iff] at h
            obtain ⟨e, he, q', hs, y, rfl, h⟩ := h
            cases h
            have k1 := powSub_keeps hta hx he
            exact k1.trans (ih _ _ k1.tame hs)
          | some a' =>
            simp only [Option.bind_eq_some_iff] at h
            obtain ⟨e, he, y, hy, h⟩ := h
            cases h
            have k1 := ih a a' hta hq
            have k2 := powSub_keeps k1.tame (fun v hv => hx v (k1.uses v hv)) he
            have k3 : Keeps (.pow a p) (.pow a' p) := ⟨k1.uses, ⟨k1.tame, x, fun v hv => hx v (k1.uses v hv)⟩, k1.real, fun ρ => by
              simp only [X.val, k1.val]⟩
            exact k3.trans (k2.trans (orSelf_keeps ih k2.tame hy))
        · intro v hv'; exact hv ⟨v, hv'⟩
    | bin o l r' =>
      rw [simp] at h
      split at h
      · rename_i e he
        simp only [Option.map_eq_some_iff] at h
        obtain ⟨y, rfl, h⟩ := h
        cases h
        exact rules_keeps ht he
      · split at h
        · rename_i e he
          cases h
          exact first_keeps ht he
        · split_ifs at h with hu
          · simp only [Option.bind_eq_bind, Option.bind_eq_some_iff] at h
            obtain ⟨y, hy, h⟩ := h
            cases h
            obtain ⟨rfl, hu⟩ := hu
            obtain rfl := isC_eq hu
            refine Keeps.trans ⟨fun v hv => .inl hv, tame_left ht, fun hr => hr.1, fun ρ => ?_⟩ (orSelf_keeps ih (tame_left ht) hy)
            simp [X.val, BOp.real]
          · simp only [Option.bind_eq_bind, Option.bind_eq_some_iff] at h
            obtain ⟨p, hp, q, hq, h⟩ := h
            have kl : Keeps l (p.getD l) := by
              cases p with
              | none => exact .rfl (tame_left ht)
              | some l' => exact ih l l' (tame_left ht) hp
            have kr : Keeps r' (q.getD r') := by
              cases q with
              | none => exact .rfl (tame_right ht)
              | some l' => exact ih r' l' (tame_right ht) hq
            have kb := Keeps.bin ht kl kr
            have fin : ∀ e, apply o (p.getD l) (q.getD r') = some e → orSelf e (simp k e) = some r → Keeps (.bin o l r') r :=
              fun e he hy => (kb.trans (apply_keeps kb.tame he)).trans (orSelf_keeps ih (apply_keeps kb.tame he).tame hy)
            cases p <;> cases q <;> simp only [Option.bind_eq_some_iff] at h
            · split at h
              · rename_i e he
                simp only [Option.bind_eq_some_iff] at h
                obtain ⟨y, hy, h⟩ := h
                cases h
                have k1 := lift_keeps ht he
                exact k1.trans (orSelf_keeps ih k1.tame hy)
              · exact reorder_keeps ih ht h
            all_goals
              obtain ⟨e, he, y, hy, h⟩ := h
              cases h
              exact fin e he hy

theorem opPow_keeps {a e : X} {p : ℕ} (ht : (X.pow a p).tame) (h : opPow a p = some e) : Keeps (.pow a p) e := by
  unfold opPow at h
  split at h
  · cases h
  · split_ifs at h with h1 <;> cases h
    · exact ⟨fun v hv => hv, trivial, fun hr => hr, fun ρ => by simp [X.val, h1]⟩
    · exact ⟨fun v hv => hv, trivial, fun hr => hr.elim, fun ρ => by simp [X.val]⟩
  · split_ifs at h with h1 <;> cases h
    · exact ⟨fun v hv => hv, trivial, fun hr => hr, fun ρ => by simp [X.val, h1]⟩
    · exact ⟨fun v hv => hv, trivial, fun hr => hr, fun ρ => by simp [X.val]⟩
  · split_ifs at h with h1 <;> cases h
    · exact ⟨fun v hv => hv, ht.1, fun hr => hr, fun ρ => by simp [X.val, h1]⟩
    · exact .rfl ht

theorem build_keeps : ∀ {s e : X}, s.tame → build s = some e → Keeps s e := by
  intro s
  induction s with
  | bin o l r ihl ihr =>
    intro e ht h
    simp only [build, Option.bind_eq_bind, Option.bind_eq_some_iff] at h
    obtain ⟨l', hl, r', hr, h⟩ := h
    have k := Keeps.bin ht (ihl (tame_left ht) hl) (ihr (tame_right ht) hr)
    exact k.trans (apply_keeps k.tame h)
  | neg a ih =>
    intro e ht h
    simp only [build, Option.bind_eq_bind, Option.bind_eq_some_iff] at h
    obtain ⟨a', ha, h⟩ := h
    have k := ih ht ha
    exact k.neg.trans (opNeg_keeps k.tame h)
  | pow a p ih =>
    intro e ht h
    simp only [build, Option.bind_eq_bind, Option.bind_eq_some_iff] at h
    obtain ⟨a', ha, h⟩ := h
    obtain ⟨hta, x, hx⟩ := ht
    have k := ih hta ha
    have k3 : Keeps (.pow a p) (.pow a' p) := ⟨k.uses, ⟨k.tame, x, fun v hv => hx v (k.uses v hv)⟩, k.real, fun ρ => by
      simp only [X.val, k.val]⟩
    exact k3.trans (opPow_keeps k3.tame h)
  | _ => intro e ht h; cases h; exact .rfl ht

/-- **C98.** Whatever variables an expression has: if the two factors of every product have only one variable between them (or one of
them is free of variables), the bases of powers have only one variable and no divisor is of integer type, then the result of
`try_expand` has the value of the expression for all values of the variables, and no other variables than the expression. -/
theorem C98_value {s e r : X} (hs : s.tame) (h : build s = some e) (hr : TryExpand e r) :
    (∀ ρ, r.val ρ = s.val ρ) ∧ ∀ v, r.uses v → s.uses v := by
  have k := build_keeps hs h
  obtain ⟨n, hn⟩ := hr
  have := k.trans (orSelf_keeps (simp_keeps n) k.tame (hn n le_rfl))
  exact ⟨this.val, this.uses⟩

end Stator.Ct.Expand
