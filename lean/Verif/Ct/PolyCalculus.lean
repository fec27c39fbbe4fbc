import Verif.Ct.ExpandMany
import Verif.Ct.Calculus

/-!
# Substitution and derivatives of compile-time expressions with polynomials (C99)

The expressions are those of `Verif/Ct/Expand`: the operands of `+`, `-`, `*`, `/`, unary `-` and `pow(.., C<p>())` are integers,
`double`s (real numbers here), compile-time constants, variables and polynomials.
-/

namespace Stator.Ct.Expand

open C (val_neg val_add val_sub val_mul val_div val_null val_unity)
open Stator.Pol (Arr rd wr forUp zeros addOp mulPoly divConst mulVar varPow value polyOf coef horner derivArr)

/-! ## Specification -/

/-- Every divisor is made of constants `C<..>`, `double`s and polynomials with `double` coefficients. -/
def X.fair : X → Prop
  | .bin .div l r => l.fair ∧ r.fair ∧ r.real
  | .bin _ l r => l.fair ∧ r.fair
  | .neg a => a.fair
  | .pow a _ => a.fair
  | _ => True

/-- No divisor is zero when the variables have the values `ρ`. -/
def X.defined (ρ : List Char → ℝ) : X → Prop
  | .bin .div l r => l.defined ρ ∧ r.defined ρ ∧ r.val ρ ≠ 0
  | .bin _ l r => l.defined ρ ∧ r.defined ρ
  | .neg a => a.defined ρ
  | .pow a _ => a.defined ρ
  | _ => True

/-- No divisor is a constant `C<..>`. -/
def X.noConstDivisor : X → Prop
  | .bin .div l r => l.noConstDivisor ∧ r.noConstDivisor ∧ ∀ a, r ≠ .c a
  | .bin _ l r => l.noConstDivisor ∧ r.noConstDivisor
  | .neg a => a.noConstDivisor
  | .pow a _ => a.noConstDivisor
  | _ => True

/-! ## Model -/

/-- A polynomial with integer coefficients at `a`. The overload for other expressions, and for constants other than `Null`, cannot be
instantiated (polynomial.hpp:309 uses a member that does not exist).
models: polynomial.hpp:190-194, 206-310. -/
noncomputable def polyAtZ {n : ℕ} (f : Arr ℤ n) (a : X) : Option X :=
  match a with
  | .var w => some (.polyZ w n f)
  | .int z => (horner f z).map .int
  | .dbl y => (horner (toR f) y).map .dbl
  | .c b => if b = .null then (rd f 0).map .int else none
  | _ => none

/-- The same for `double` coefficients. models: polynomial.hpp:190-194, 206-310. -/
noncomputable def polyAtR {n : ℕ} (f : Arr ℝ n) (a : X) : Option X :=
  match a with
  | .var w => some (.polyR w n f)
  | .int z => (horner f (z : ℝ)).map .dbl
  | .dbl y => (horner f y).map .dbl
  | .c b => if b = .null then (rd f 0).map .dbl else none
  | _ => none

/-- `sub(e, x = a)`. models: sub.hpp:35-57, binary_ops.hpp:421-424, unary_ops.hpp:181-183, polynomial.hpp:190-310. -/
noncomputable def substX (x : List Char) (a : X) : X → Option X
  | .c b => some (.c b)
  | .int z => some (.int z)
  | .dbl y => some (.dbl y)
  | .var v => some (if v = x then a else .var v)
  | .polyZ v n f => if v = x then polyAtZ f a else some (.polyZ v n f)
  | .polyR v n f => if v = x then polyAtR f a else some (.polyR v n f)
  | .bin o l r => do apply o (← substX x a l) (← substX x a r)
  | .neg e => do opNeg (← substX x a e)
  | .pow e p => do opPow (← substX x a e) p

/-- The derivative of a polynomial by its variable. models: polynomial.hpp:423-444. -/
def derivZ (v : List Char) : {n : ℕ} → Arr ℤ n → Option X
  | 0, _ => some (.c .null)
  | n + 1, f => (derivArr f).map (.polyZ v n)

/-- The same for `double` coefficients. models: polynomial.hpp:423-444. -/
noncomputable def derivR (v : List Char) : {n : ℕ} → Arr ℝ n → Option X
  | 0, _ => some (.c .null)
  | n + 1, f => (derivArr f).map (.polyR v n)

/-- `derivative(e, x)`. For the power 0, `pow(.., C<-1>())` is multiplied by `Null`, which gives `Null`.
models: variable.hpp:56-71, binary_ops.hpp:361-395, unary_ops.hpp:178-179, polynomial.hpp:423-444. -/
noncomputable def derivX (x : List Char) : X → Option X
  | .c _ => some (.c .null)
  | .int _ => some (.c .null)
  | .dbl _ => some (.c .null)
  | .var v => some (.c (if v = x then .unity else .null))
  | .polyZ v _ f => if v = x then derivZ v f else some (.c .null)
  | .polyR v _ f => if v = x then derivR v f else some (.c .null)
  | .bin .add l r => do apply .add (← derivX x l) (← derivX x r)
  | .bin .sub l r => do apply .sub (← derivX x l) (← derivX x r)
  | .bin .mul l r => do apply .add (← apply .mul (← derivX x l) r) (← apply .mul l (← derivX x r))
  | .bin .div l r => do
    apply .div (← apply .sub (← apply .mul (← derivX x l) r) (← apply .mul l (← derivX x r))) (← opPow r 2)
  | .neg a => do opNeg (← derivX x a)
  | .pow a 0 => do
    let _ ← derivX x a
    some (.c .null)
  | .pow a (p + 1) => do apply .mul (← apply .mul (.c (.ofInt (p + 1))) (← derivX x a)) (← opPow a p)

/-! ## Values of the operators -/

theorem opNeg_val {a e : X} (h : opNeg a = some e) : (∀ ρ, e.val ρ = -a.val ρ) ∧ (∀ v, e.uses v → a.uses v) ∧ (a.real → e.real) := by
  cases a with
  | c b => cases h; exact ⟨fun ρ => by simp [X.val, val_neg], fun v h => h, fun _ => trivial⟩
  | int z => cases h; exact ⟨fun ρ => by simp [X.val], fun v h => h, fun h => h⟩
  | dbl y => cases h; exact ⟨fun ρ => by simp [X.val], fun v h => h, fun h => h⟩
  | polyZ v n f =>
    simp only [opNeg, Option.map_eq_some_iff] at h
    obtain ⟨g, hg, rfl⟩ := h
    exact ⟨fun ρ => by simp [X.val, neg_poly f g hg], fun v h => h, fun h => h⟩
  | polyR v n f =>
    simp only [opNeg, Option.map_eq_some_iff] at h
    obtain ⟨g, hg, rfl⟩ := h
    exact ⟨fun ρ => by simp [X.val, neg_poly f g hg], fun v h => h, fun h => h⟩
  | _ => cases h; exact ⟨fun ρ => rfl, fun v h => h, fun h => h⟩

theorem opPow_val {a e : X} {p : ℕ} (h : opPow a p = some e) :
    (∀ ρ, e.val ρ = a.val ρ ^ p) ∧ (∀ v, e.uses v → a.uses v) ∧ (a.real → e.real) ∧ (∀ z, e = .int z → p = 1) ∧ ∀ b, e ≠ .c b := by
  cases a with
  | c b => cases h
  | int z =>
    simp only [opPow] at h
    split_ifs at h with hp <;> cases h
    · exact ⟨fun ρ => by simp [X.val, hp], fun v h => h, fun h => h, fun z _ => hp, (fun b h => by cases h)⟩
    · exact ⟨fun ρ => by simp [X.val], fun v h => h, fun h => trivial, (fun z h => by cases h), (fun b h => by cases h)⟩
  | dbl z =>
    simp only [opPow] at h
    split_ifs at h with hp <;> cases h
    · exact ⟨fun ρ => by simp [X.val, hp], fun v h => h, fun h => h, fun z _ => hp, (fun b h => by cases h)⟩
    · exact ⟨fun ρ => by simp [X.val], fun v h => h, fun h => trivial, (fun z h => by cases h), (fun b h => by cases h)⟩
  | _ =>
    simp only [opPow] at h
    split_ifs at h with hp <;> cases h
    · exact ⟨fun ρ => by simp [hp], fun v h => h, fun h => h, (fun z h => by cases h), (fun b h => by cases h)⟩
    · exact ⟨fun ρ => rfl, fun v h => h, fun h => h, (fun z h => by cases h), (fun b h => by cases h)⟩

theorem node_val {o : BOp} {l r e : X} (hd : o = .div → (∃ z, l = .int z) → (∃ z, r = .int z) → False) (h : node o l r = some e) :
    (∀ ρ, e.val ρ = o.real (l.val ρ) (r.val ρ)) ∧ (∀ v, e.uses v → l.uses v ∨ r.uses v) ∧ (l.real → r.real → e.real) := by
  unfold node at h
  split at h
  · rename_i a b ha hb
    split at h
    · rename_i i j
      simp only [Option.map_eq_some_iff] at h
      obtain ⟨z, hz, rfl⟩ := h
      exact ⟨fun ρ => intOp_val (fun ho => hd ho ⟨_, rfl⟩ ⟨_, rfl⟩) hz, fun v h => h.elim, fun h => h.elim⟩
    · simp only [Option.map_eq_some_iff] at h
      obtain ⟨y, hy, rfl⟩ := h
      refine ⟨fun ρ => ?_, fun v h => h.elim, fun _ _ => trivial⟩
      rw [number_val ha, number_val hb]
      exact realOp_val hy
  · cases h
    exact ⟨fun ρ => rfl, fun v h => h, fun h1 h2 => ⟨h1, h2⟩⟩

theorem apply_val {o : BOp} {l r e : X} (hd : o = .div → (∃ z, l = .int z) → (∃ z, r = .int z) → False) (h : apply o l r = some e) :
    (∀ ρ, e.val ρ = o.real (l.val ρ) (r.val ρ)) ∧ (∀ v, e.uses v → l.uses v ∨ r.uses v) ∧ (l.real → r.real → e.real) := by
  have nd := node_val hd (e := e)
  unfold apply at h
  split at h
  · rename_i a b
    cases o with
    | add => cases h; exact ⟨fun ρ => by simp [X.val, BOp.real, val_add], fun v h => h.elim, fun _ _ => trivial⟩
    | sub => cases h; exact ⟨fun ρ => by simp [X.val, BOp.real, val_sub], fun v h => h.elim, fun _ _ => trivial⟩
    | mul => cases h; exact ⟨fun ρ => by simp [X.val, BOp.real, val_mul], fun v h => h.elim, fun _ _ => trivial⟩
    | div =>
      simp only [Option.map_eq_some_iff] at h
      obtain ⟨q, hq, rfl⟩ := h
      exact ⟨fun ρ => by simp [X.val, BOp.real, (val_div hq).2], fun v h => h.elim, fun _ _ => trivial⟩
  · cases o with
    | add =>
      simp only at h
      split_ifs at h with h1 h2
      · cases h; obtain rfl := isC_eq h1; exact ⟨fun ρ => by simp [X.val, BOp.real, val_null], fun v h => .inl h, fun h _ => h⟩
      · cases h; obtain rfl := isC_eq h2; exact ⟨fun ρ => by simp [X.val, BOp.real, val_null], fun v h => .inr h, fun _ h => h⟩
      · exact nd h
    | sub =>
      simp only at h
      split_ifs at h with h1 h2
      · cases h; obtain rfl := isC_eq h1; exact ⟨fun ρ => by simp [X.val, BOp.real, val_null], fun v h => .inl h, fun h _ => h⟩
      · obtain rfl := isC_eq h2
        obtain ⟨a1, a2, a3⟩ := opNeg_val h
        exact ⟨fun ρ => by simp [X.val, BOp.real, val_null, a1], fun v h => .inr (a2 v h), fun _ h => a3 h⟩
      · exact nd h
    | mul =>
      simp only at h
      split_ifs at h with h1 h2 h3 h4
      · cases h; obtain rfl := isC_eq h1; exact ⟨fun ρ => by simp [X.val, BOp.real, val_null], fun v h => .inr h, fun _ h => h⟩
      · cases h; obtain rfl := isC_eq h2; exact ⟨fun ρ => by simp [X.val, BOp.real, val_null], fun v h => .inl h, fun h _ => h⟩
      · cases h; obtain rfl := isC_eq h3; exact ⟨fun ρ => by simp [X.val, BOp.real, val_unity], fun v h => .inl h, fun h _ => h⟩
      · cases h; obtain rfl := isC_eq h4; exact ⟨fun ρ => by simp [X.val, BOp.real, val_unity], fun v h => .inr h, fun _ h => h⟩
      · exact nd h
    | div => exact nd h

/-! ## Expressions as the operators leave them -/

/-- The tree is one the operators build: no node that they would have replaced. -/
def X.formed : X → Prop
  | .bin o l r => l.formed ∧ r.formed ∧ apply o l r = some (.bin o l r)
  | .neg a => a.formed ∧ opNeg a = some (.neg a)
  | .pow a p => a.formed ∧ opPow a p = some (.pow a p)
  | _ => True

theorem opNeg_formed {a e : X} (ha : a.formed) (h : opNeg a = some e) : e.formed := by
  cases a with
  | c b => cases h; trivial
  | int z => cases h; trivial
  | dbl y => cases h; trivial
  | polyZ v n f => simp only [opNeg, Option.map_eq_some_iff] at h; obtain ⟨g, hg, rfl⟩ := h; trivial
  | polyR v n f => simp only [opNeg, Option.map_eq_some_iff] at h; obtain ⟨g, hg, rfl⟩ := h; trivial
  | _ => cases h; exact ⟨ha, rfl⟩

theorem opPow_formed {a e : X} {p : ℕ} (ha : a.formed) (h : opPow a p = some e) : e.formed := by
  cases a with
  | c b => cases h
  | int z => simp only [opPow] at h; split_ifs at h <;> cases h <;> trivial
  | dbl z => simp only [opPow] at h; split_ifs at h <;> cases h <;> trivial
  | _ =>
    simp only [opPow] at h
    split_ifs at h with hp <;> cases h
    · exact ha
    · exact ⟨ha, by simp [opPow, hp]⟩

theorem apply_formed {o : BOp} {l r e : X} (hl : l.formed) (hr : r.formed) (h : apply o l r = some e) : e.formed := by
  have nd : apply o l r = some e → node o l r = some e → e.formed := by
    intro ha h
    unfold node at h
    split at h
    · split at h <;> (simp only [Option.map_eq_some_iff] at h; obtain ⟨g, hg, rfl⟩ := h; trivial)
    · cases h; exact ⟨hl, hr, ha⟩
  have h0 := h
  unfold apply at h
  split at h
  · cases o with
    | div => simp only [Option.map_eq_some_iff] at h; obtain ⟨q, hq, rfl⟩ := h; trivial
    | _ => cases h; trivial
  · cases o with
    | add =>
      simp only at h
      split_ifs at h
      · cases h; exact hl
      · cases h; exact hr
      · exact nd h0 h
    | sub =>
      simp only at h
      split_ifs at h
      · cases h; exact hl
      · exact opNeg_formed hr h
      · exact nd h0 h
    | mul =>
      simp only at h
      split_ifs at h
      · cases h; trivial
      · cases h; trivial
      · cases h; exact hl
      · cases h; exact hr
      · exact nd h0 h
    | div => exact nd h0 h

theorem build_formed {s e : X} (h : build s = some e) : e.formed := by
  induction s generalizing e with
  | bin o l r ihl ihr =>
    simp only [build, Option.bind_eq_bind, Option.bind_eq_some_iff] at h
    obtain ⟨l', hl, r', hr, h⟩ := h
    exact apply_formed (ihl hl) (ihr hr) h
  | neg a ih =>
    simp only [build, Option.bind_eq_bind, Option.bind_eq_some_iff] at h
    obtain ⟨a', ha, h⟩ := h
    exact opNeg_formed (ih ha) h
  | pow a p ih =>
    simp only [build, Option.bind_eq_bind, Option.bind_eq_some_iff] at h
    obtain ⟨a', ha, h⟩ := h
    exact opPow_formed (ih ha) h
  | _ => cases h; trivial

/-- With operands that are constants only where those of the node are, an operator does not remove anything. -/
theorem formed_apply {o : BOp} {l r l' r' : X} (h : apply o l r = some (.bin o l r)) (hl : ∀ b, l' = .c b → l = .c b)
    (hr : ∀ b, r' = .c b → r = .c b) : apply o l' r' = node o l' r' := by
  have iC : ∀ {t t' : X} {b : C}, (∀ b, t' = .c b → t = .c b) → t.isC b = false → t'.isC b = false := by
    intro t t' b ht hb
    by_contra hc
    have := ht b (isC_eq (by simpa using hc))
    subst this
    simp [X.isC] at hb
  have ne1 : ∀ {t : X}, some t ≠ some (.bin o t r) := by
    intro t ht
    have := congrArg sizeOf (Option.some.inj ht)
    simp at this
    omega
  have ne2 : ∀ {t : X}, some t ≠ some (.bin o l t) := by
    intro t ht
    have := congrArg sizeOf (Option.some.inj ht)
    simp at this
  unfold apply at h
  split at h
  · cases o <;> simp [Option.map_eq_some_iff] at h
  · rename_i hcc
    unfold apply
    split
    · rename_i a b
      exact (hcc a b (hl a rfl) (hr b rfl)).elim
    · cases o with
      | add =>
        simp only at h ⊢
        split_ifs at h with h1 h2
        · exact absurd h ne1
        · exact absurd h ne2
        · simp [iC hl (by simpa using h2), iC hr (by simpa using h1)]
      | sub =>
        simp only at h ⊢
        split_ifs at h with h1 h2
        · exact absurd h ne1
        · cases r <;> simp [opNeg] at h
        · simp [iC hl (by simpa using h2), iC hr (by simpa using h1)]
      | mul =>
        simp only at h ⊢
        split_ifs at h with h1 h2 h3 h4
        · cases h
        · cases h
        · exact absurd h ne1
        · exact absurd h ne2
        · simp [iC hl (by simpa using h2), iC hr (by simpa using h1), iC hl (by simpa using h4), iC hr (by simpa using h3)]
      | div => rfl

/-! ## Substitution -/

theorem apply_uses {o : BOp} {l r e : X} (h : apply o l r = some e) {v : List Char} (hv : e.uses v) : l.uses v ∨ r.uses v := by
  by_cases hd : o = .div ∧ (∃ z, l = .int z) ∧ ∃ z, r = .int z
  · obtain ⟨rfl, ⟨i, rfl⟩, ⟨j, rfl⟩⟩ := hd
    simp only [apply, node, X.number, Option.map_eq_some_iff] at h
    obtain ⟨z, hz, rfl⟩ := h
    exact hv.elim
  · exact (apply_val (fun h1 h2 h3 => hd ⟨h1, h2, h3⟩) h).2.1 v hv

theorem at_ne {ρ : List Char → ℝ} {x v : List Char} (t : ℝ) (h : v ≠ x) : at_ ρ x t v = ρ v := by simp [at_, h]

theorem polyAtZ_val {n : ℕ} {f : Arr ℤ n} {a r : X} (x : List Char) (h : polyAtZ f a = some r) :
    (∀ ρ, r.val ρ = (X.polyZ x n f).val (at_ ρ x (a.val ρ))) ∧ (∀ v, r.uses v → a.uses v) ∧
      (∀ y, a = .dbl y → ∃ q, r = .dbl q) ∧ ∀ b, r ≠ .c b := by
  have h0 : ∀ t : ℝ, (∑ i, (f i : ℝ) * t ^ (i : ℕ)) = (polyOf f).eval₂ (Int.castRingHom ℝ) t := by
    intro t
    have := val_polyZ (fun _ => t) x n f
    simpa [X.val] using this
  unfold polyAtZ at h
  split at h
  · rename_i w
    cases h
    exact ⟨fun ρ => by simp [X.val, at_same], fun v h => h, (fun y h => by cases h), (fun b h => by cases h)⟩
  · rename_i z
    rw [Pol.horner_spec] at h
    cases h
    refine ⟨fun ρ => ?_, fun v h => h.elim, (fun y h => by cases h), (fun b h => by cases h)⟩
    simp only [X.val, at_same, h0]
    simp
  · rename_i y
    rw [Pol.horner_spec] at h
    cases h
    refine ⟨fun ρ => ?_, fun v h => h.elim, fun y h => ⟨_, rfl⟩, (fun b h => by cases h)⟩
    have := val_polyR (at_ ρ x y) x n (toR f)
    rw [val_toR, at_same] at this
    rw [X.val, ← this]
    rfl
  · rename_i b
    split_ifs at h with hb
    subst hb
    simp only [rd, Nat.zero_lt_succ, dite_true, Option.map_some, Option.some.injEq] at h
    subst h
    refine ⟨fun ρ => ?_, fun v h => h.elim, (fun y h => by cases h), (fun b h => by cases h)⟩
    simp only [X.val, at_same, val_null]
    rw [Finset.sum_eq_single 0 (fun b _ hb => by simp [hb]) (fun h => absurd (Finset.mem_univ _) h)]
    simp
  · cases h

theorem polyAtR_val {n : ℕ} {f : Arr ℝ n} {a r : X} (x : List Char) (h : polyAtR f a = some r) :
    (∀ ρ, r.val ρ = (X.polyR x n f).val (at_ ρ x (a.val ρ))) ∧ (∀ v, r.uses v → a.uses v) ∧
      (∀ y, a = .dbl y → ∃ q, r = .dbl q) ∧ r.real ∧ ∀ b, r ≠ .c b := by
  have num : ∀ {y : ℝ}, (horner f y).map X.dbl = some r → (∀ ρ, r.val ρ = (X.polyR x n f).val (at_ ρ x y)) ∧ ∃ q, r = .dbl q := by
    intro y h
    rw [Pol.horner_spec] at h
    cases h
    refine ⟨fun ρ => ?_, _, rfl⟩
    rw [val_polyR, at_same]
    rfl
  unfold polyAtR at h
  split at h
  · rename_i w
    cases h
    exact ⟨fun ρ => by simp [X.val, at_same], fun v h => h, (fun y h => by cases h), trivial, (fun b h => by cases h)⟩
  · obtain ⟨h1, q, rfl⟩ := num h
    exact ⟨h1, fun v h => h.elim, (fun y h => by cases h), trivial, (fun b h => by cases h)⟩
  · obtain ⟨h1, q, rfl⟩ := num h
    exact ⟨h1, fun v h => h.elim, fun y h => ⟨_, rfl⟩, trivial, (fun b h => by cases h)⟩
  · rename_i b
    split_ifs at h with hb
    subst hb
    simp only [rd, Nat.zero_lt_succ, dite_true, Option.map_some, Option.some.injEq] at h
    subst h
    refine ⟨fun ρ => ?_, fun v h => h.elim, (fun y h => by cases h), trivial, (fun b h => by cases h)⟩
    simp only [X.val, at_same, val_null]
    rw [Finset.sum_eq_single 0 (fun b _ hb => by simp [hb]) (fun h => absurd (Finset.mem_univ _) h)]
    simp
  · cases h

theorem substX_uses {x : List Char} {a : X} (e : X) : ∀ {r : X}, substX x a e = some r → ∀ v, r.uses v → (e.uses v ∧ v ≠ x) ∨ a.uses v := by
  induction e with
  | c b => intro r h v hv; cases h; exact hv.elim
  | int b => intro r h v hv; cases h; exact hv.elim
  | dbl b => intro r h v hv; cases h; exact hv.elim
  | var u =>
    intro r h v hv
    simp only [substX, Option.some.injEq] at h
    split_ifs at h with hu
    · subst h; exact .inr hv
    · subst h; cases hv; exact .inl ⟨rfl, hu⟩
  | polyZ u n f =>
    intro r h v hv
    simp only [substX] at h
    split_ifs at h with hu
    · exact .inr ((polyAtZ_val x h).2.1 v hv)
    · cases h; cases hv; exact .inl ⟨rfl, hu⟩
  | polyR u n f =>
    intro r h v hv
    simp only [substX] at h
    split_ifs at h with hu
    · exact .inr ((polyAtR_val x h).2.1 v hv)
    · cases h; cases hv; exact .inl ⟨rfl, hu⟩
  | bin o l r ihl ihr =>
    intro e h v hv
    simp only [substX, Option.bind_eq_bind, Option.bind_eq_some_iff] at h
    obtain ⟨l', hl, r', hr, h⟩ := h
    rcases apply_uses h hv with h | h
    · exact (ihl hl v h).imp (fun h => ⟨.inl h.1, h.2⟩) id
    · exact (ihr hr v h).imp (fun h => ⟨.inr h.1, h.2⟩) id
  | neg a ih =>
    intro e h v hv
    simp only [substX, Option.bind_eq_bind, Option.bind_eq_some_iff] at h
    obtain ⟨a', ha, h⟩ := h
    exact ih ha v ((opNeg_val h).2.1 v hv)
  | pow a p ih =>
    intro e h v hv
    simp only [substX, Option.bind_eq_bind, Option.bind_eq_some_iff] at h
    obtain ⟨a', ha, h⟩ := h
    exact ih ha v ((opPow_val h).2.1 v hv)

theorem not_real_int {e : X} (h : e.real) : ¬ ∃ z, e = .int z := by rintro ⟨z, rfl⟩; exact h

theorem substX_val {x : List Char} {a : X} (e : X) : ∀ {r : X}, substX x a e = some r →
    (e.fair → ∀ ρ, r.val ρ = e.val (at_ ρ x (a.val ρ))) ∧ (e.real → r.real) := by
  induction e with
  | c b => intro r h; cases h; exact ⟨fun _ ρ => rfl, fun h => h⟩
  | int b => intro r h; cases h; exact ⟨fun _ ρ => rfl, fun h => h⟩
  | dbl b => intro r h; cases h; exact ⟨fun _ ρ => rfl, fun h => h⟩
  | var u =>
    intro r h
    simp only [substX, Option.some.injEq] at h
    split_ifs at h with hu
    · subst h; exact ⟨fun _ ρ => by rw [X.val, hu, at_same], fun h => h.elim⟩
    · subst h; exact ⟨fun _ ρ => by rw [X.val, X.val, at_ne _ hu], fun h => h.elim⟩
  | polyZ u n f =>
    intro r h
    simp only [substX] at h
    split_ifs at h with hu
    · subst hu; exact ⟨fun _ => (polyAtZ_val u h).1, fun h => h.elim⟩
    · cases h; exact ⟨fun _ ρ => by rw [X.val, X.val, at_ne _ hu], fun h => h⟩
  | polyR u n f =>
    intro r h
    simp only [substX] at h
    split_ifs at h with hu
    · subst hu; exact ⟨fun _ => (polyAtR_val u h).1, fun _ => (polyAtR_val u h).2.2.2.1⟩
    · cases h; exact ⟨fun _ ρ => by rw [X.val, X.val, at_ne _ hu], fun h => h⟩
  | bin o l r ihl ihr =>
    intro e h
    simp only [substX, Option.bind_eq_bind, Option.bind_eq_some_iff] at h
    obtain ⟨l', hl, r', hr, h⟩ := h
    obtain ⟨vl, rl⟩ := ihl hl
    obtain ⟨vr, rr⟩ := ihr hr
    refine ⟨fun hf ρ => ?_, fun hre => ?_⟩
    · have hd : o = .div → (∃ z, l' = .int z) → (∃ z, r' = .int z) → False := by
        rintro rfl - h2
        exact not_real_int (rr hf.2.2) h2
      have fl : l.fair := by cases o <;> exact hf.1
      have fr : r.fair := by cases o; exacts [hf.2, hf.2, hf.2, hf.2.1]
      rw [(apply_val hd h).1, vl fl, vr fr]; rfl
    · exact (apply_val (fun _ _ h2 => not_real_int (rr hre.2) h2) h).2.2 (rl hre.1) (rr hre.2)
  | neg a ih =>
    intro e h
    simp only [substX, Option.bind_eq_bind, Option.bind_eq_some_iff] at h
    obtain ⟨a', ha, h⟩ := h
    obtain ⟨h1, h2, h3⟩ := opNeg_val h
    exact ⟨fun hf ρ => by rw [h1, (ih ha).1 hf]; rfl, fun hr => h3 ((ih ha).2 hr)⟩
  | pow a p ih =>
    intro e h
    simp only [substX, Option.bind_eq_bind, Option.bind_eq_some_iff] at h
    obtain ⟨a', ha, h⟩ := h
    obtain ⟨h1, h2, h3, _⟩ := opPow_val h
    exact ⟨fun hf ρ => by rw [h1, (ih ha).1 hf]; rfl, fun hr => h3 ((ih ha).2 hr)⟩

/-- **C99.** `sub(e, x = a)`, where it compiles, has the value of `e` with `x` standing for the value of `a`, and depends on no other
variables than those of `e` without `x` and those of `a`. The divisors must not be integers. -/
theorem C99_sub {x : List Char} {a e r : X} (hf : e.fair) (h : substX x a e = some r) :
    (∀ ρ, r.val ρ = e.val (at_ ρ x (a.val ρ))) ∧ ∀ v, r.uses v → (e.uses v ∧ v ≠ x) ∨ a.uses v :=
  ⟨(substX_val e h).1 hf, substX_uses e h⟩

/-- `x * y` for `x = y + 1`. -/
example : substX ['x'] (.bin .add (.var ['y']) (.int 1)) (.bin .mul (.var ['x']) (.var ['y'])) =
    some (.bin .mul (.bin .add (.var ['y']) (.int 1)) (.var ['y'])) ∧ (X.bin .mul (.var ['x']) (.var ['y'])).fair := by
  refine ⟨?_, trivial, trivial⟩
  simp [substX, apply, node, X.number, X.isC]

/-- **C99 fails for a divisor that is an integer** when integers are put in: `(x + 1) / 2` is 1 for the `int` 2. -/
theorem C99_integer_fails (x : List Char) :
    substX x (.int 2) (.bin .div (.bin .add (.var x) (.int 1)) (.int 2)) = some (.int 1) ∧
    (X.bin .div (.bin .add (.var x) (.int 1)) (.int 2)).val (at_ (fun _ => 0) x 2) = 3 / 2 := by
  constructor
  · simp [substX, apply, node, X.number, X.isC, intOp]
  · simp [X.val, BOp.real, at_same]; norm_num

/-- The same for `Null`: a polynomial with integer coefficients gives its constant term, an integer. -/
theorem C99_null_fails (x : List Char) :
    substX x (.c .null) (.bin .div (.polyZ x 1 ![1, 1]) (.int 2)) = some (.int 0) ∧
    (X.bin .div (.polyZ x 1 ![1, 1]) (.int 2)).val (at_ (fun _ => 0) x 0) = 1 / 2 := by
  constructor
  · have : (rd (![1, 1] : Arr ℤ 1) 0) = some 1 := rfl
    simp [substX, polyAtZ, this, apply, node, X.number, intOp]
  · simp [X.val, BOp.real, at_same]

theorem formed_not_ints {o : BOp} {l r : X} (h : apply o l r = some (.bin o l r)) : ¬ (l.number ≠ none ∧ r.number ≠ none) := by
  rintro ⟨hl, hr⟩
  have hn : apply o l r = node o l r := formed_apply h (fun _ h => h) (fun _ h => h)
  rw [hn] at h
  unfold node at h
  split at h
  · split at h <;> (simp only [Option.map_eq_some_iff] at h; obtain ⟨g, hg, hc⟩ := h; cases hc)
  · rename_i hc
    obtain ⟨p, hp⟩ := Option.ne_none_iff_exists'.1 hl
    obtain ⟨q, hq⟩ := Option.ne_none_iff_exists'.1 hr
    exact hc _ _ hp hq

theorem node_kind {o : BOp} {l r e : X} (hi : ¬ ((∃ z, l = .int z) ∧ ∃ z, r = .int z)) (h : node o l r = some e) :
    (∀ z, e ≠ .int z) ∧ ∀ b, e ≠ .c b := by
  unfold node at h
  split at h
  · split at h
    · exact absurd ⟨⟨_, rfl⟩, ⟨_, rfl⟩⟩ hi
    · simp only [Option.map_eq_some_iff] at h
      obtain ⟨g, hg, rfl⟩ := h
      exact ⟨(fun z h => by cases h), (fun b h => by cases h)⟩
  · cases h; exact ⟨(fun z h => by cases h), (fun b h => by cases h)⟩

theorem formed_pow {a : X} {p : ℕ} (h : opPow a p = some (.pow a p)) : a.number = none ∧ p ≠ 1 := by
  have self : ∀ {t : X}, some t ≠ some (.pow t p) := by
    intro t ht
    have := congrArg sizeOf (Option.some.inj ht)
    simp at this
    omega
  cases a with
  | c b => cases h
  | int z => simp only [opPow] at h; split_ifs at h <;> cases h
  | dbl z => simp only [opPow] at h; split_ifs at h <;> cases h
  | _ =>
    simp only [opPow] at h
    split_ifs at h with hp
    · exact absurd h self
    · exact ⟨rfl, hp⟩

/-- A number for `x`: the result, if there is one. -/
theorem number_kind {x : List Char} {y : ℝ} (e : X) (hf : e.formed) : ∀ {r : X}, substX x (.dbl y) e = some r →
    (∀ ρ, r.val ρ = e.val (at_ ρ x y)) ∧ (∀ z, r = .int z → e = .int z) ∧ ∀ b, r = .c b → e = .c b := by
  induction e with
  | c b => intro r h; cases h; exact ⟨fun ρ => rfl, (fun z h => by cases h), fun b h => h⟩
  | int b => intro r h; cases h; exact ⟨fun ρ => rfl, fun z h => h, (fun b h => by cases h)⟩
  | dbl b => intro r h; cases h; exact ⟨fun ρ => rfl, (fun z h => by cases h), (fun b h => by cases h)⟩
  | var u =>
    intro r h
    simp only [substX, Option.some.injEq] at h
    split_ifs at h with hu
    · subst h; exact ⟨fun ρ => by rw [X.val, X.val, hu, at_same], (fun z h => by cases h), (fun b h => by cases h)⟩
    · subst h; exact ⟨fun ρ => by rw [X.val, X.val, at_ne _ hu], (fun z h => by cases h), (fun b h => by cases h)⟩
  | polyZ u n f =>
    intro r h
    simp only [substX] at h
    split_ifs at h with hu
    · subst hu
      obtain ⟨h1, h2, h3, h4⟩ := polyAtZ_val u h
      obtain ⟨q, rfl⟩ := h3 y rfl
      exact ⟨h1, (fun z h => by cases h), (fun b h => by cases h)⟩
    · cases h; exact ⟨fun ρ => by rw [X.val, X.val, at_ne _ hu], (fun z h => by cases h), (fun b h => by cases h)⟩
  | polyR u n f =>
    intro r h
    simp only [substX] at h
    split_ifs at h with hu
    · subst hu
      obtain ⟨h1, h2, h3, h4⟩ := polyAtR_val u h
      obtain ⟨q, rfl⟩ := h3 y rfl
      exact ⟨h1, (fun z h => by cases h), (fun b h => by cases h)⟩
    · cases h; exact ⟨fun ρ => by rw [X.val, X.val, at_ne _ hu], (fun z h => by cases h), (fun b h => by cases h)⟩
  | bin o l r ihl ihr =>
    intro e h
    simp only [substX, Option.bind_eq_bind, Option.bind_eq_some_iff] at h
    obtain ⟨l', hl, r', hr, h⟩ := h
    obtain ⟨vl, il, cl⟩ := ihl hf.1 hl
    obtain ⟨vr, ir, cr⟩ := ihr hf.2.1 hr
    have hn : ¬ ((∃ z, l' = .int z) ∧ ∃ z, r' = .int z) := by
      rintro ⟨⟨i, hi⟩, ⟨j, hj⟩⟩
      refine formed_not_ints hf.2.2 ?_
      rw [il i hi, ir j hj]
      exact ⟨by simp [X.number], by simp [X.number]⟩
    have hv := (apply_val (fun _ h1 h2 => hn ⟨h1, h2⟩) h).1
    rw [formed_apply hf.2.2 cl cr] at h
    obtain ⟨k1, k2⟩ := node_kind hn h
    exact ⟨fun ρ => by rw [hv, vl, vr]; rfl, fun z hz => absurd hz (k1 z), fun b hb => absurd hb (k2 b)⟩
  | neg a ih =>
    intro e h
    simp only [substX, Option.bind_eq_bind, Option.bind_eq_some_iff] at h
    obtain ⟨a', ha, h⟩ := h
    obtain ⟨h1, -, -⟩ := opNeg_val h
    obtain ⟨v, i, c⟩ := ih hf.1 ha
    have hfa := hf.2
    refine ⟨fun ρ => by rw [h1, v]; rfl, fun z hz => ?_, fun b hb => ?_⟩
    · subst hz
      cases a' <;> simp only [opNeg, Option.some.injEq, Option.map_eq_some_iff, reduceCtorEq, and_false, exists_false] at h
      rw [i _ rfl] at hfa
      cases hfa
    · subst hb
      cases a' <;> simp only [opNeg, Option.some.injEq, Option.map_eq_some_iff, reduceCtorEq, and_false, exists_false] at h
      rw [c _ rfl] at hfa
      cases hfa
  | pow a p ih =>
    intro e h
    simp only [substX, Option.bind_eq_bind, Option.bind_eq_some_iff] at h
    obtain ⟨a', ha, h⟩ := h
    obtain ⟨h1, -, -, h2, h3⟩ := opPow_val h
    obtain ⟨v, i, c⟩ := ih hf.1 ha
    exact ⟨fun ρ => by rw [h1, v]; rfl, fun z hz => absurd (h2 z hz) (formed_pow hf.2).2, fun b hb => absurd hb (h3 b)⟩

/-- **C99.** A `double` for `x`: integers may be divisors, too, since nothing becomes an integer that was not one. -/
theorem C99_number {x : List Char} {y : ℝ} {s e r : X} (hb : build s = some e) (h : substX x (.dbl y) e = some r) :
    (∀ ρ, r.val ρ = e.val (at_ ρ x y)) ∧ ∀ v, r.uses v → e.uses v ∧ v ≠ x :=
  ⟨(number_kind e (build_formed hb) h).1, fun v hv => (substX_uses e h v hv).resolve_right id⟩

/-- `(x + y) / 2` is built as it is written. -/
example : build (.bin .div (.bin .add (.var ['x']) (.var ['y'])) (.int 2)) =
      some (.bin .div (.bin .add (.var ['x']) (.var ['y'])) (.int 2)) ∧
    substX ['x'] (.dbl 3) (.bin .div (.bin .add (.var ['x']) (.var ['y'])) (.int 2)) =
      some (.bin .div (.bin .add (.dbl 3) (.var ['y'])) (.int 2)) := by
  constructor
  · simp [build, apply, node, X.number, X.isC]
  · simp [substX, apply, node, X.number, X.isC]

theorem opNeg_some (a : X) : ∃ e, opNeg a = some e := by
  cases a with
  | polyZ v n f => obtain ⟨r, e, _⟩ := Pol.neg_spec f; exact ⟨_, by rw [opNeg, e]; rfl⟩
  | polyR v n f => obtain ⟨r, e, _⟩ := Pol.neg_spec f; exact ⟨_, by rw [opNeg, e]; rfl⟩
  | _ => exact ⟨_, rfl⟩

theorem opPow_some {a : X} {p : ℕ} (h : ∀ b, a ≠ .c b) : ∃ e, opPow a p = some e := by
  cases a with
  | c b => exact absurd rfl (h b)
  | _ => simp only [opPow]; split_ifs <;> exact ⟨_, rfl⟩

theorem node_some {o : BOp} {l r : X} {ρ : List Char → ℝ} (h : o = .div → r.val ρ ≠ 0) : ∃ e, node o l r = some e := by
  unfold node
  split
  · rename_i a b ha hb
    have hb0 : o = .div → b ≠ 0 := fun ho => by rw [← number_val hb ρ]; exact h ho
    split
    · rename_i i j
      have hj : o = .div → j ≠ 0 := fun ho hj => hb0 ho (by simp only [X.number, Option.some.injEq] at hb; rw [← hb, hj]; simp)
      cases o <;> simp [intOp, hj]
    · cases o <;> simp [realOp, hb0]
  · exact ⟨_, rfl⟩

theorem polyAtZ_dbl {n : ℕ} (f : Arr ℤ n) (y : ℝ) : ∃ q, polyAtZ f (.dbl y) = some (.dbl q) := by
  simp [polyAtZ, Pol.horner_spec]

theorem polyAtR_dbl {n : ℕ} (f : Arr ℝ n) (y : ℝ) : ∃ q, polyAtR f (.dbl y) = some (.dbl q) := by
  simp [polyAtR, Pol.horner_spec]

/-- There is a result unless a divisor becomes zero. -/
theorem substX_some {x : List Char} {y : ℝ} {ρ : List Char → ℝ} (e : X) (hf : e.formed) (hd : e.defined (at_ ρ x y)) :
    ∃ r, substX x (.dbl y) e = some r := by
  induction e with
  | polyZ u n f =>
    simp only [substX]
    split_ifs
    · exact ⟨_, (polyAtZ_dbl f y).choose_spec⟩
    · exact ⟨_, rfl⟩
  | polyR u n f =>
    simp only [substX]
    split_ifs
    · exact ⟨_, (polyAtR_dbl f y).choose_spec⟩
    · exact ⟨_, rfl⟩
  | bin o l r ihl ihr =>
    have dl : l.defined (at_ ρ x y) := by cases o <;> exact hd.1
    have dr : r.defined (at_ ρ x y) := by cases o; exacts [hd.2, hd.2, hd.2, hd.2.1]
    obtain ⟨l', hl⟩ := ihl hf.1 dl
    obtain ⟨r', hr⟩ := ihr hf.2.1 dr
    obtain ⟨_, _, cl⟩ := number_kind l hf.1 hl
    obtain ⟨vr, _, cr⟩ := number_kind r hf.2.1 hr
    simp only [substX, hl, hr, Option.bind_eq_bind, Option.bind_some, formed_apply hf.2.2 cl cr]
    exact node_some (ρ := ρ) fun ho => by subst ho; rw [vr]; exact hd.2.2
  | neg a ih =>
    obtain ⟨a', ha⟩ := ih hf.1 hd
    simp only [substX, ha, Option.bind_eq_bind, Option.bind_some]
    exact opNeg_some a'
  | pow a p ih =>
    obtain ⟨a', ha⟩ := ih hf.1 hd
    simp only [substX, ha, Option.bind_eq_bind, Option.bind_some]
    refine opPow_some fun b hb => ?_
    have := (number_kind a hf.1 ha).2.2 b hb
    subst this
    cases hf.2
  | _ => exact ⟨_, rfl⟩

theorem node_numbers {o : BOp} {l r e : X} (hl : l.number ≠ none) (hr : r.number ≠ none) (h : node o l r = some e) : e.number ≠ none := by
  unfold node at h
  split at h
  · split at h <;> (simp only [Option.map_eq_some_iff] at h; obtain ⟨g, hg, rfl⟩ := h; simp [X.number])
  · rename_i hc
    obtain ⟨p, hp⟩ := Option.ne_none_iff_exists'.1 hl
    obtain ⟨q, hq⟩ := Option.ne_none_iff_exists'.1 hr
    exact absurd hq (hc p q hp)

/-- The result is a number if there is no other variable. -/
theorem substX_number {x : List Char} {y : ℝ} (e : X) (hf : e.formed) (ho : ∀ v, e.uses v → v = x) : ∀ {r : X},
    substX x (.dbl y) e = some r → r.number ≠ none := by
  induction e with
  | c b => intro r h; cases h; simp [X.number]
  | int b => intro r h; cases h; simp [X.number]
  | dbl b => intro r h; cases h; simp [X.number]
  | var u =>
    intro r h
    simp only [substX, ho u rfl, if_true, Option.some.injEq] at h
    subst h; simp [X.number]
  | polyZ u n f =>
    intro r h
    simp only [substX, ho u rfl, if_true] at h
    obtain ⟨q, hq⟩ := polyAtZ_dbl f y
    rw [hq] at h; cases h; simp [X.number]
  | polyR u n f =>
    intro r h
    simp only [substX, ho u rfl, if_true] at h
    obtain ⟨q, hq⟩ := polyAtR_dbl f y
    rw [hq] at h; cases h; simp [X.number]
  | bin o l r ihl ihr =>
    intro e h
    simp only [substX, Option.bind_eq_bind, Option.bind_eq_some_iff] at h
    obtain ⟨l', hl, r', hr, h⟩ := h
    obtain ⟨_, _, cl⟩ := number_kind l hf.1 hl
    obtain ⟨_, _, cr⟩ := number_kind r hf.2.1 hr
    rw [formed_apply hf.2.2 cl cr] at h
    exact node_numbers (ihl hf.1 (fun v hv => ho v (.inl hv)) hl) (ihr hf.2.1 (fun v hv => ho v (.inr hv)) hr) h
  | neg a ih =>
    intro e h
    simp only [substX, Option.bind_eq_bind, Option.bind_eq_some_iff] at h
    obtain ⟨a', ha, h⟩ := h
    have := ih hf.1 ho ha
    cases a' <;> first | (simp [X.number] at this; done) | (cases h; simp [X.number])
  | pow a p ih =>
    intro e h
    simp only [substX, Option.bind_eq_bind, Option.bind_eq_some_iff] at h
    obtain ⟨a', ha, h⟩ := h
    have := ih hf.1 ho ha
    cases a' with
    | c b => cases h
    | int z => simp only [opPow] at h; split_ifs at h <;> cases h <;> simp [X.number]
    | dbl z => simp only [opPow] at h; split_ifs at h <;> cases h <;> simp [X.number]
    | _ => simp [X.number] at this

theorem evaluate_formed {x : List Char} {y : ℝ} {e : X} {ρ : List Char → ℝ} (hf : e.formed) (ho : ∀ v, e.uses v → v = x)
    (hd : e.defined (at_ ρ x y)) : ∃ r, substX x (.dbl y) e = some r ∧ r.number = some (e.val (at_ ρ x y)) := by
  obtain ⟨r, hr⟩ := substX_some e hf hd
  obtain ⟨q, hq⟩ := Option.ne_none_iff_exists'.1 (substX_number e hf ho hr)
  refine ⟨r, hr, ?_⟩
  rw [hq, ← (number_kind e hf hr).1, number_val hq ρ]

/-- **C99.** A `double` for the only variable gives a number, unless a divisor becomes zero: the value of the expression. -/
theorem C99_evaluate {x : List Char} {y : ℝ} {s e : X} {ρ : List Char → ℝ} (hb : build s = some e) (ho : ∀ v, e.uses v → v = x)
    (hd : e.defined (at_ ρ x y)) : ∃ r, substX x (.dbl y) e = some r ∧ r.number = some (e.val (at_ ρ x y)) :=
  evaluate_formed (build_formed hb) ho hd

/-- `(x + 1) / 2` for `x = 3`. -/
example : build (.bin .div (.bin .add (.var ['x']) (.int 1)) (.int 2)) = some (.bin .div (.bin .add (.var ['x']) (.int 1)) (.int 2)) ∧
    (∀ v, (X.bin .div (.bin .add (.var ['x']) (.int 1)) (.int 2)).uses v → v = ['x']) ∧
    (X.bin .div (.bin .add (.var ['x']) (.int 1)) (.int 2)).defined (at_ (fun _ => 0) ['x'] 3) := by
  refine ⟨by simp [build, apply, node, X.number, X.isC], ?_, ⟨trivial, trivial⟩, trivial, by simp [X.val]⟩
  rintro v ((h | h) | h)
  · exact h.symm
  · exact h.elim
  · exact h.elim

/-! ## Derivatives -/

theorem apply_deriv {o : BOp} {l r e : X} (ho : o ≠ .div) (h : apply o l r = some e) (ρ : List Char → ℝ) :
    e.val ρ = o.real (l.val ρ) (r.val ρ) := (apply_val (fun h' => absurd h' ho) h).1 ρ

theorem derivZ_val {v : List Char} {n : ℕ} {f : Arr ℤ n} {r : X} (h : derivZ v f = some r) (ρ : List Char → ℝ) :
    HasDerivAt (fun t => (X.polyZ v n f).val (at_ ρ v t)) (r.val ρ) (ρ v) := by
  have key : HasDerivAt (fun t => (X.polyZ v n f).val (at_ ρ v t))
      (((polyOf f).map (Int.castRingHom ℝ)).derivative.eval (ρ v)) (ρ v) := by
    have := ((polyOf f).map (Int.castRingHom ℝ)).hasDerivAt (ρ v)
    refine this.congr_of_eventuallyEq (Filter.Eventually.of_forall fun t => ?_)
    simp only [val_polyZ, at_same, Polynomial.eval₂_eq_eval_map]
  cases n with
  | zero =>
    cases h
    convert key using 1
    rw [X.val, val_null, Polynomial.derivative_map]
    simp [polyOf]
  | succ n =>
    obtain ⟨g, hg, hd⟩ := Pol.derivArr_spec f
    simp only [derivZ, hg, Option.map_some, Option.some.injEq] at h
    subst h
    convert key using 1
    rw [val_polyZ, hd, Polynomial.derivative_map, Polynomial.eval₂_eq_eval_map]

theorem derivR_val {v : List Char} {n : ℕ} {f : Arr ℝ n} {r : X} (h : derivR v f = some r) (ρ : List Char → ℝ) :
    HasDerivAt (fun t => (X.polyR v n f).val (at_ ρ v t)) (r.val ρ) (ρ v) := by
  have key : HasDerivAt (fun t => (X.polyR v n f).val (at_ ρ v t)) ((polyOf f).derivative.eval (ρ v)) (ρ v) := by
    refine ((polyOf f).hasDerivAt (ρ v)).congr_of_eventuallyEq (Filter.Eventually.of_forall fun t => ?_)
    simp only [val_polyR, at_same]
  cases n with
  | zero =>
    cases h
    convert key using 1
    rw [X.val, val_null]
    simp [polyOf]
  | succ n =>
    obtain ⟨g, hg, hd⟩ := Pol.derivArr_spec f
    simp only [derivR, hg, Option.map_some, Option.some.injEq] at h
    subst h
    convert key using 1
    rw [val_polyR, hd]

theorem not_int_square {a e : X} (h : opPow a 2 = some e) : ¬ ∃ z, e = .int z := by
  rintro ⟨z, hz⟩
  have := (opPow_val h).2.2.2.1 z hz
  omega

/-- **C99.** `derivative(e, x)`, where it compiles, is the derivative, wherever no divisor is zero. -/
theorem C99_derivative {x : List Char} (e : X) : ∀ {r : X}, derivX x e = some r → ∀ {ρ : List Char → ℝ}, e.defined ρ →
    HasDerivAt (fun t => e.val (at_ ρ x t)) (r.val ρ) (ρ x) := by
  induction e with
  | c b => intro r h ρ _; cases h; rw [X.val, val_null]; exact hasDerivAt_const _ _
  | int b => intro r h ρ _; cases h; rw [X.val, val_null]; exact hasDerivAt_const _ _
  | dbl b => intro r h ρ _; cases h; rw [X.val, val_null]; exact hasDerivAt_const _ _
  | var u =>
    intro r h ρ _
    simp only [derivX, Option.some.injEq] at h
    subst h
    split_ifs with hu
    · simp only [X.val, hu, at_same, val_unity]; exact hasDerivAt_id _
    · simp only [X.val, at_ne _ hu, val_null]; exact hasDerivAt_const _ _
  | polyZ u n f =>
    intro r h ρ _
    simp only [derivX] at h
    split_ifs at h with hu
    · subst hu; exact derivZ_val h ρ
    · cases h; simp only [X.val, at_ne _ hu, val_null]; exact hasDerivAt_const _ _
  | polyR u n f =>
    intro r h ρ _
    simp only [derivX] at h
    split_ifs at h with hu
    · subst hu; exact derivR_val h ρ
    · cases h; simp only [X.val, at_ne _ hu, val_null]; exact hasDerivAt_const _ _
  | bin o l r ihl ihr =>
    intro e h ρ hd
    cases o with
    | add =>
      simp only [derivX, Option.bind_eq_bind, Option.bind_eq_some_iff] at h
      obtain ⟨l', hl, r', hr, h⟩ := h
      rw [apply_deriv (by simp) h]
      exact (ihl hl hd.1).add (ihr hr hd.2)
    | sub =>
      simp only [derivX, Option.bind_eq_bind, Option.bind_eq_some_iff] at h
      obtain ⟨l', hl, r', hr, h⟩ := h
      rw [apply_deriv (by simp) h]
      exact (ihl hl hd.1).sub (ihr hr hd.2)
    | mul =>
      simp only [derivX, Option.bind_eq_bind, Option.bind_eq_some_iff] at h
      obtain ⟨l', hl, p, hp, r', hr, q, hq, h⟩ := h
      rw [apply_deriv (by simp) h, apply_deriv (by simp) hp, apply_deriv (by simp) hq]
      have := (ihl hl hd.1).mul (ihr hr hd.2)
      simp only [at_self] at this
      exact this
    | div =>
      simp only [derivX, Option.bind_eq_bind, Option.bind_eq_some_iff] at h
      obtain ⟨l', hl, p, hp, r', hr, q, hq, s, hs, w, hw, h⟩ := h
      rw [(apply_val (fun _ _ hz => not_int_square hw hz) h).1, apply_deriv (by simp) hs, apply_deriv (by simp) hp, apply_deriv (by simp) hq,
        (opPow_val hw).1]
      have := (ihl hl hd.1).div (ihr hr hd.2.1) (by rw [at_self]; exact hd.2.2)
      simp only [at_self] at this
      exact this
  | neg a ih =>
    intro e h ρ hd
    simp only [derivX, Option.bind_eq_bind, Option.bind_eq_some_iff] at h
    obtain ⟨a', ha, h⟩ := h
    rw [(opNeg_val h).1]
    exact (ih ha hd).neg
  | pow a p ih =>
    intro e h ρ hd
    cases p with
    | zero =>
      simp only [derivX, Option.bind_eq_bind, Option.bind_eq_some_iff] at h
      obtain ⟨a', ha, h⟩ := h
      cases h
      simp only [X.val, pow_zero, val_null]
      exact hasDerivAt_const _ _
    | succ p =>
      simp only [derivX, Option.bind_eq_bind, Option.bind_eq_some_iff] at h
      obtain ⟨a', ha, s, hs, w, hw, h⟩ := h
      rw [apply_deriv (by simp) h, apply_deriv (by simp) hs, (opPow_val hw).1]
      have := (ih ha hd).pow (p + 1)
      simp only [at_self, Nat.add_sub_cancel] at this
      have e2 : BOp.mul.real (BOp.mul.real ((X.c (C.ofInt (p + 1))).val ρ) (a'.val ρ)) (a.val ρ ^ p) =
          ((p + 1 : ℕ) : ℝ) * a.val ρ ^ p * a'.val ρ := by
        simp only [BOp.real, X.val, C.val_ofInt]
        push_cast
        ring
      rw [e2]
      exact this

/-- The derivative of `x / y`, for `y = 2`. -/
example : derivX ['x'] (.bin .div (.var ['x']) (.var ['y'])) = some (.bin .div (.var ['y']) (.pow (.var ['y']) 2)) ∧
    (X.bin .div (.var ['x']) (.var ['y'])).defined (fun _ => 2) := by
  refine ⟨?_, trivial, trivial, by simp [X.val]⟩
  have h : (C.unity = C.null) = False := by decide +kernel
  simp [derivX, apply, node, X.number, X.isC, opPow, h]

/-- `derivative` does not compile for a quotient by a constant `C<..>`: the square of a constant is not defined. -/
theorem C99_constant_divisor (x : List Char) (l : X) (b : C) : derivX x (.bin .div l (.c b)) = none := by
  cases h : derivX x (.bin .div l (.c b)) with
  | none => rfl
  | some e =>
    simp only [derivX, Option.bind_eq_bind, Option.bind_eq_some_iff, opPow] at h
    obtain ⟨_, _, _, _, _, _, _, _, _, _, _, h, _⟩ := h
    cases h

/-! ## Higher derivatives -/

theorem apply_some {o : BOp} (ho : o ≠ .div) (l r : X) : ∃ e, apply o l r = some e := by
  have nd : ∃ e, node o l r = some e := node_some (ρ := fun _ => 0) fun h => absurd h ho
  unfold apply
  split
  · cases o <;> first | exact ⟨_, rfl⟩ | exact absurd rfl ho
  · cases o with
    | add => simp only; split_ifs; exacts [⟨_, rfl⟩, ⟨_, rfl⟩, nd]
    | sub => simp only; split_ifs; exacts [⟨_, rfl⟩, opNeg_some _, nd]
    | mul => simp only; split_ifs; exacts [⟨_, rfl⟩, ⟨_, rfl⟩, ⟨_, rfl⟩, ⟨_, rfl⟩, nd]
    | div => exact absurd rfl ho

/-- What all derivatives keep. -/
structure Good (U : Set (List Char → ℝ)) (vs : List Char → Prop) (e : X) : Prop where
  formed : e.formed
  divisor : e.noConstDivisor
  defined : ∀ ρ ∈ U, e.defined ρ
  uses : ∀ v, e.uses v → vs v

variable {U : Set (List Char → ℝ)} {vs : List Char → Prop}

theorem good_c (b : C) : Good U vs (.c b) := ⟨trivial, trivial, fun _ _ => trivial, fun _ h => h.elim⟩

theorem good_left {o : BOp} {l r : X} (h : Good U vs (.bin o l r)) : Good U vs l := by
  refine ⟨h.formed.1, ?_, fun ρ hρ => ?_, fun v hv => h.uses v (.inl hv)⟩
  · have := h.divisor; cases o <;> exact this.1
  · have := h.defined ρ hρ; cases o <;> exact this.1

theorem good_right {o : BOp} {l r : X} (h : Good U vs (.bin o l r)) : Good U vs r := by
  refine ⟨h.formed.2.1, ?_, fun ρ hρ => ?_, fun v hv => h.uses v (.inr hv)⟩
  · have := h.divisor; cases o; exacts [this.2, this.2, this.2, this.2.1]
  · have := h.defined ρ hρ; cases o; exacts [this.2, this.2, this.2, this.2.1]

theorem good_neg {a e : X} (h : Good U vs a) (he : opNeg a = some e) : Good U vs e := by
  refine ⟨opNeg_formed h.formed he, ?_, fun ρ hρ => ?_, fun v hv => h.uses v ((opNeg_val he).2.1 v hv)⟩
  · have := h.divisor
    cases a with
    | polyZ v n f => simp only [opNeg, Option.map_eq_some_iff] at he; obtain ⟨g, hg, rfl⟩ := he; trivial
    | polyR v n f => simp only [opNeg, Option.map_eq_some_iff] at he; obtain ⟨g, hg, rfl⟩ := he; trivial
    | _ => cases he; trivial
  · have := h.defined ρ hρ
    cases a with
    | polyZ v n f => simp only [opNeg, Option.map_eq_some_iff] at he; obtain ⟨g, hg, rfl⟩ := he; trivial
    | polyR v n f => simp only [opNeg, Option.map_eq_some_iff] at he; obtain ⟨g, hg, rfl⟩ := he; trivial
    | _ => cases he; trivial

theorem good_pow {a e : X} {p : ℕ} (h : Good U vs a) (he : opPow a p = some e) : Good U vs e := by
  refine ⟨opPow_formed h.formed he, ?_, fun ρ hρ => ?_, fun v hv => h.uses v ((opPow_val he).2.1 v hv)⟩
  · have := h.divisor
    cases a with
    | c b => cases he
    | int z => simp only [opPow] at he; split_ifs at he <;> cases he <;> trivial
    | dbl z => simp only [opPow] at he; split_ifs at he <;> cases he <;> trivial
    | _ => simp only [opPow] at he; split_ifs at he <;> cases he <;> trivial
  · have := h.defined ρ hρ
    cases a with
    | c b => cases he
    | int z => simp only [opPow] at he; split_ifs at he <;> cases he <;> trivial
    | dbl z => simp only [opPow] at he; split_ifs at he <;> cases he <;> trivial
    | _ => simp only [opPow] at he; split_ifs at he <;> cases he <;> trivial

theorem good_apply {o : BOp} {l r e : X} (hl : Good U vs l) (hr : Good U vs r) (hd : o = .div → (∀ b, r ≠ .c b) ∧ ∀ ρ ∈ U, r.val ρ ≠ 0)
    (h : apply o l r = some e) : Good U vs e := by
  refine ⟨apply_formed hl.formed hr.formed h, ?_, ?_, fun v hv => (apply_uses h hv).elim (hl.uses v) (hr.uses v)⟩
  all_goals
    have nd : ∀ {e}, node o l r = some e → (∃ z, e = .int z) ∨ (∃ z, e = .dbl z) ∨ e = .bin o l r := by
      intro e h
      unfold node at h
      split at h
      · split at h <;> (simp only [Option.map_eq_some_iff] at h; obtain ⟨g, hg, rfl⟩ := h; first | exact .inl ⟨_, rfl⟩ | exact .inr (.inl ⟨_, rfl⟩))
      · cases h; exact .inr (.inr rfl)
    have cases4 : (∃ b, e = .c b) ∨ e = l ∨ e = r ∨ opNeg r = some e ∨ node o l r = some e := by
      unfold apply at h
      split at h
      · cases o with
        | div => simp only [Option.map_eq_some_iff] at h; obtain ⟨q, hq, rfl⟩ := h; exact .inl ⟨_, rfl⟩
        | _ => cases h; exact .inl ⟨_, rfl⟩
      · cases o with
        | add => simp only at h; split_ifs at h <;> first | (cases h; tauto) | tauto
        | sub => simp only at h; split_ifs at h <;> first | (cases h; tauto) | tauto
        | mul => simp only at h; split_ifs at h <;> first | (cases h; exact .inl ⟨_, rfl⟩) | (cases h; tauto) | tauto
        | div => tauto
  · rcases cases4 with ⟨b, rfl⟩ | rfl | rfl | h | h
    · trivial
    · exact hl.divisor
    · exact hr.divisor
    · exact (good_neg hr h).divisor
    · rcases nd h with ⟨z, rfl⟩ | ⟨z, rfl⟩ | rfl
      · trivial
      · trivial
      · cases o
        exacts [⟨hl.divisor, hr.divisor⟩, ⟨hl.divisor, hr.divisor⟩, ⟨hl.divisor, hr.divisor⟩, ⟨hl.divisor, hr.divisor, (hd rfl).1⟩]
  · intro ρ hρ
    rcases cases4 with ⟨b, rfl⟩ | rfl | rfl | h | h
    · trivial
    · exact hl.defined ρ hρ
    · exact hr.defined ρ hρ
    · exact (good_neg hr h).defined ρ hρ
    · rcases nd h with ⟨z, rfl⟩ | ⟨z, rfl⟩ | rfl
      · trivial
      · trivial
      · have dl := hl.defined ρ hρ
        have dr := hr.defined ρ hρ
        cases o
        exacts [⟨dl, dr⟩, ⟨dl, dr⟩, ⟨dl, dr⟩, ⟨dl, dr, (hd rfl).2 ρ hρ⟩]

theorem good_derivZ {v : List Char} {n : ℕ} (f : Arr ℤ n) (hv : vs v) : ∃ r, derivZ v f = some r ∧ Good U vs r := by
  cases n with
  | zero => exact ⟨_, rfl, good_c _⟩
  | succ n =>
    obtain ⟨g, hg, -⟩ := Pol.derivArr_spec f
    exact ⟨.polyZ v n g, by simp [derivZ, hg], trivial, trivial, fun _ _ => trivial, fun u hu => by cases hu; exact hv⟩

theorem good_derivR {v : List Char} {n : ℕ} (f : Arr ℝ n) (hv : vs v) : ∃ r, derivR v f = some r ∧ Good U vs r := by
  cases n with
  | zero => exact ⟨_, rfl, good_c _⟩
  | succ n =>
    obtain ⟨g, hg, -⟩ := Pol.derivArr_spec f
    exact ⟨.polyR v n g, by simp [derivR, hg], trivial, trivial, fun _ _ => trivial, fun u hu => by cases hu; exact hv⟩

theorem good_deriv {x : List Char} (hU : U.Nonempty) (e : X) (h : Good U vs e) : ∃ r, derivX x e = some r ∧ Good U vs r := by
  induction e with
  | c b => exact ⟨_, rfl, good_c _⟩
  | int b => exact ⟨_, rfl, good_c _⟩
  | dbl b => exact ⟨_, rfl, good_c _⟩
  | var u => exact ⟨_, rfl, good_c _⟩
  | polyZ u n f =>
    simp only [derivX]
    split_ifs
    · exact good_derivZ f (h.uses u rfl)
    · exact ⟨_, rfl, good_c _⟩
  | polyR u n f =>
    simp only [derivX]
    split_ifs
    · exact good_derivR f (h.uses u rfl)
    · exact ⟨_, rfl, good_c _⟩
  | bin o l r ihl ihr =>
    have gl := good_left h
    have gr := good_right h
    obtain ⟨l', hl, gl'⟩ := ihl gl
    obtain ⟨r', hr, gr'⟩ := ihr gr
    cases o with
    | add =>
      obtain ⟨e, he⟩ := apply_some (o := .add) (by simp) l' r'
      exact ⟨e, by simp [derivX, hl, hr, he], good_apply gl' gr' (by simp) he⟩
    | sub =>
      obtain ⟨e, he⟩ := apply_some (o := .sub) (by simp) l' r'
      exact ⟨e, by simp [derivX, hl, hr, he], good_apply gl' gr' (by simp) he⟩
    | mul =>
      obtain ⟨p, hp⟩ := apply_some (o := .mul) (by simp) l' r
      obtain ⟨q, hq⟩ := apply_some (o := .mul) (by simp) l r'
      obtain ⟨e, he⟩ := apply_some (o := .add) (by simp) p q
      exact ⟨e, by simp [derivX, hl, hr, hp, hq, he], good_apply (good_apply gl' gr (by simp) hp) (good_apply gl gr' (by simp) hq) (by simp) he⟩
    | div =>
      obtain ⟨p, hp⟩ := apply_some (o := .mul) (by simp) l' r
      obtain ⟨q, hq⟩ := apply_some (o := .mul) (by simp) l r'
      obtain ⟨s, hs⟩ := apply_some (o := .sub) (by simp) p q
      obtain ⟨w, hw⟩ := opPow_some (p := 2) h.divisor.2.2
      have hw0 : ∀ ρ ∈ U, w.val ρ ≠ 0 := fun ρ hρ => by rw [(opPow_val hw).1]; exact pow_ne_zero _ (h.defined ρ hρ).2.2
      have hwc := (opPow_val hw).2.2.2.2
      obtain ⟨ρ, hρ⟩ := hU
      have hap : apply .div s w = node .div s w := by
        unfold apply
        split
        · exact absurd rfl (hwc _)
        · rfl
      obtain ⟨e, he⟩ := node_some (o := .div) (l := s) (r := w) (ρ := ρ) fun _ => hw0 ρ hρ
      refine ⟨e, by simp [derivX, hl, hr, hp, hq, hs, hw, hap, he], ?_⟩
      exact good_apply (good_apply (good_apply gl' gr (by simp) hp) (good_apply gl gr' (by simp) hq) (by simp) hs) (good_pow gr hw)
        (fun _ => ⟨hwc, hw0⟩) (hap.trans he)
  | neg a ih =>
    have ga : Good U vs a := ⟨h.formed.1, h.divisor, h.defined, h.uses⟩
    obtain ⟨a', ha, ga'⟩ := ih ga
    obtain ⟨e, he⟩ := opNeg_some a'
    exact ⟨e, by simp [derivX, ha, he], good_neg ga' he⟩
  | pow a p ih =>
    have ga : Good U vs a := ⟨h.formed.1, h.divisor, h.defined, h.uses⟩
    obtain ⟨a', ha, ga'⟩ := ih ga
    cases p with
    | zero => exact ⟨.c .null, by simp [derivX, ha], good_c _⟩
    | succ p =>
      have hac : ∀ b, a ≠ .c b := by
        rintro b rfl
        cases h.formed.2
      obtain ⟨w, hw⟩ := opPow_some (p := p) hac
      obtain ⟨q, hq⟩ := apply_some (o := .mul) (by simp) (.c (.ofInt (p + 1))) a'
      obtain ⟨e, he⟩ := apply_some (o := .mul) (by simp) q w
      exact ⟨e, by simp [derivX, ha, hq, hw, he], good_apply (good_apply (good_c _) ga' (by simp) hq) (good_pow ga hw) (by simp) he⟩

/-- `derivative` used `k` times. -/
noncomputable def derivTimes (x : List Char) : ℕ → X → Option X
  | 0, e => some e
  | k + 1, e => do derivX x (← derivTimes x k e)

/-- **C99.** Derivatives of every order exist, unless a divisor is a constant `C<..>`: in an open set of values of `x` where no divisor is
zero they are the derivatives of the function. They bring in no new variables. -/
theorem C99_higher {x : List Char} {s e : X} (hb : build s = some e) (hc : e.noConstDivisor) {ρ : List Char → ℝ} {I : Set ℝ}
    (hI : IsOpen I) (hne : I.Nonempty) (hd : ∀ t ∈ I, e.defined (at_ ρ x t)) (k : ℕ) :
    ∃ r, derivTimes x k e = some r ∧ (∀ v, r.uses v → e.uses v) ∧
      ∀ t ∈ I, iteratedDeriv k (fun t => e.val (at_ ρ x t)) t = r.val (at_ ρ x t) := by
  let U : Set (List Char → ℝ) := {σ | ∃ t ∈ I, σ = at_ ρ x t}
  have hU : U.Nonempty := by obtain ⟨t, ht⟩ := hne; exact ⟨_, t, ht, rfl⟩
  have key : ∃ r, derivTimes x k e = some r ∧ Good U e.uses r ∧
      ∀ t ∈ I, iteratedDeriv k (fun t => e.val (at_ ρ x t)) t = r.val (at_ ρ x t) := by
    induction k with
    | zero =>
      refine ⟨e, rfl, ⟨build_formed hb, hc, ?_, fun v h => h⟩, fun t ht => by simp⟩
      rintro σ ⟨t, ht, rfl⟩
      exact hd t ht
    | succ k ih =>
      obtain ⟨r, hr, gr, hv⟩ := ih
      obtain ⟨r', hr', gr'⟩ := good_deriv (x := x) hU r gr
      refine ⟨r', by simp [derivTimes, hr, hr'], gr', fun t ht => ?_⟩
      have hD := C99_derivative r hr' (gr.defined _ ⟨t, ht, rfl⟩)
      simp only [at_at, at_same] at hD
      rw [iteratedDeriv_succ]
      refine (hD.congr_of_eventuallyEq ?_).deriv
      exact Filter.eventually_of_mem (hI.mem_nhds ht) hv
  obtain ⟨r, h1, h2, h3⟩ := key
  exact ⟨r, h1, h2.uses, h3⟩

/-- `1 / x` for positive `x`. -/
example : build (.bin .div (.int 1) (.var ['x'])) = some (.bin .div (.int 1) (.var ['x'])) ∧
    (X.bin .div (.int 1) (.var ['x'])).noConstDivisor ∧ IsOpen (Set.Ioi (0 : ℝ)) ∧ (Set.Ioi (0 : ℝ)).Nonempty ∧
    ∀ t ∈ Set.Ioi (0 : ℝ), (X.bin .div (.int 1) (.var ['x'])).defined (at_ (fun _ => 0) ['x'] t) := by
  refine ⟨by simp [build, apply, node, X.number], ⟨trivial, trivial, fun b h => by cases h⟩, isOpen_Ioi, ⟨1, by simp⟩,
    fun t ht => ⟨trivial, trivial, ?_⟩⟩
  simp only [X.val, at_same]
  exact ne_of_gt ht

/-! ## The slope of an expanded expression -/

theorem good_form {x : List Char} {r : X} (h : IsPoly x r ∨ r = .var x ∨ ∃ p, r = .pow (.var x) p) :
    ∃ d, derivX x r = some d ∧ Good Set.univ (· = x) d := by
  have gv : Good Set.univ (· = x) (.var x) := ⟨trivial, trivial, fun _ _ => trivial, fun v hv => by cases hv; rfl⟩
  rcases h with h | rfl | ⟨p, rfl⟩
  · rcases h with ⟨z, rfl⟩ | ⟨y, rfl⟩ | ⟨n, f, rfl⟩ | ⟨n, f, rfl⟩
    · exact ⟨_, rfl, good_c _⟩
    · exact ⟨_, rfl, good_c _⟩
    · simp only [derivX, if_true]; exact good_derivZ f rfl
    · simp only [derivX, if_true]; exact good_derivR f rfl
  · exact ⟨_, rfl, good_c _⟩
  · cases p with
    | zero => exact ⟨_, rfl, good_c _⟩
    | succ p =>
      obtain ⟨w, hw⟩ := opPow_some (a := .var x) (p := p) (by simp)
      obtain ⟨q, hq⟩ := apply_some (o := .mul) (by simp) (.c (.ofInt (p + 1))) (.c .unity)
      obtain ⟨e, he⟩ := apply_some (o := .mul) (by simp) q w
      exact ⟨e, by simp [derivX, hq, hw, he], good_apply (good_apply (good_c _) (good_c _) (by simp) hq) (good_pow gv hw) (by simp) he⟩

theorem form_defined {x : List Char} {r : X} (h : IsPoly x r ∨ r = .var x ∨ ∃ p, r = .pow (.var x) p) (ρ : List Char → ℝ) : r.defined ρ := by
  rcases h with (⟨z, rfl⟩ | ⟨y, rfl⟩ | ⟨n, f, rfl⟩ | ⟨n, f, rfl⟩) | rfl | ⟨p, rfl⟩ <;> trivial

/-- **C99.** The slope of an expression in one variable: expand it, take the derivative, put in a `double`. Every step succeeds, the last
gives a number, and the number is the derivative of the expression at that point. -/
theorem C99_slope {x : List Char} {s e : X} (ho : s.over x) (hx : s.exact) (hb : build s = some e) (y : ℝ) :
    ∃ r d w v, TryExpand e r ∧ (∀ r', TryExpand e r' → r' = r) ∧ derivX x r = some d ∧ substX x (.dbl y) d = some w ∧ w.number = some v ∧
      ∀ ρ, HasDerivAt (fun t => s.val (at_ ρ x t)) v y := by
  obtain ⟨r, hr, hf, hv⟩ := C79_expand ho hx hb
  obtain ⟨d, hd, gd⟩ := good_form hf
  obtain ⟨w, hw, hn⟩ := evaluate_formed (y := y) (ρ := fun _ => 0) gd.formed gd.uses (gd.defined _ trivial)
  refine ⟨r, d, w, _, (hr r).2 rfl, fun r' h => (hr r').1 h, hd, hw, hn, fun ρ => ?_⟩
  have h1 := C99_derivative r hd (form_defined hf (at_ ρ x y))
  simp only [at_at, at_same, hv] at h1
  have h2 : d.val (at_ ρ x y) = d.val (at_ (fun _ => 0) x y) := by
    have := (number_kind d gd.formed hw).1
    rw [← this, ← this, number_val hn ρ, number_val hn (fun _ => 0)]
  rwa [← h2]

/-- `(x + 1) * x / 2.5`. -/
example : (X.bin .div (.bin .mul (.bin .add (.var ['x']) (.int 1)) (.var ['x'])) (.dbl 2.5)).over ['x'] ∧
    (X.bin .div (.bin .mul (.bin .add (.var ['x']) (.int 1)) (.var ['x'])) (.dbl 2.5)).exact ∧
    ∃ e, build (.bin .div (.bin .mul (.bin .add (.var ['x']) (.int 1)) (.var ['x'])) (.dbl 2.5)) = some e := by
  refine ⟨⟨⟨⟨rfl, trivial⟩, rfl⟩, trivial⟩, ?_, ?_⟩
  · simp [X.exact, X.divisor]; norm_num
  · simp [build, apply, node, X.number, X.isC]

end Stator.Ct.Expand
