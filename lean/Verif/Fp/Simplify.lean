import Verif.Fp.Format
import Verif.Rt.SimplifyProps
import Verif.Rt.SubstProps

/-!
# `simplify` in machine arithmetic

The model of `simplify` (`Rt/Simplify`) is generic in the arithmetic of `double`. Here that arithmetic is not exact.
-/

namespace Stator.Fp

open Stator

/-! ## Specification: machine arithmetic and the computed value of an expression -/

/-- An arithmetic like that of `double`: `unOk`/`binOk` say for which arguments the result is an ordinary number (not a NaN or
an infinity). The laws are the identities IEEE 754 and the C library guarantee. -/
structure Arith (K : Type) where
  ops : NumOps K
  unOk : UnOp → K → Prop
  binOk : BinOp → K → K → Prop
  add_zero : ∀ x, ops.add x ops.zero = x
  zero_add : ∀ x, ops.add ops.zero x = x
  sub_zero : ∀ x, ops.sub x ops.zero = x
  zero_sub : ∀ x, ops.sub ops.zero x = ops.neg x
  mul_one : ∀ x, ops.mul x ops.one = x
  one_mul : ∀ x, ops.mul ops.one x = x
  mul_zero : ∀ x, ops.mul x ops.zero = ops.zero
  zero_mul : ∀ x, ops.mul ops.zero x = ops.zero
  div_one : ∀ x, ops.div x ops.one = x
  zero_div : ∀ x, binOk .div ops.zero x → ops.div ops.zero x = ops.zero
  pow_one : ∀ x, ops.pow x ops.one = x
  one_pow : ∀ x, ops.pow ops.one x = ops.one
  neg_ok : ∀ x, unOk .neg x

variable {K : Type}

open Classical in
/-- The computed value of a function. -/
noncomputable def Arith.unVal (A : Arith K) (o : UnOp) (x : K) : Option K :=
  if A.unOk o x then
    match o with
    | .sin => some (A.ops.sin x)
    | .cos => some (A.ops.cos x)
    | .exp => some (A.ops.exp x)
    | .log => some (A.ops.log x)
    | .abs => some (A.ops.abs x)
    | .neg => some (A.ops.neg x)
    | .arbsign => none
  else none

open Classical in
/-- The computed value of an operation. -/
noncomputable def Arith.binVal (A : Arith K) (o : BinOp) (x y : K) : Option K :=
  if A.binOk o x y then
    match o with
    | .add => some (A.ops.add x y)
    | .sub => some (A.ops.sub x y)
    | .mul => some (A.ops.mul x y)
    | .div => some (A.ops.div x y)
    | .pow => some (A.ops.pow x y)
    | _ => none
  else none

/-- The computed value of an expression: one machine operation per node. -/
noncomputable def Arith.eval (A : Arith K) (ρ : List Char → K) : Expr K → Option K
  | .const k => some k
  | .var n => some (ρ n)
  | .un o a => (A.eval ρ a).bind (A.unVal o)
  | .bin o l r => (A.eval ρ l).bind fun x => (A.eval ρ r).bind fun y => A.binVal o x y
  | .arr _ => none
  | .dict _ => none

/-! ## Which products may be regrouped -/

/-- May become a number: `0*x`, `0/x`, `1^x` do. -/
def mayNum : Expr K → Bool
  | .const _ => true
  | .var _ => false
  | .un _ a => mayNum a
  | .bin .mul l r => mayNum l || mayNum r
  | .bin .add l r => mayNum l && mayNum r
  | .bin .sub l r => mayNum l && mayNum r
  | .bin .eq _ _ => false
  | .bin _ l _ => mayNum l
  | .arr _ => false
  | .dict _ => false

/-- May become a product with a numeric factor (and not a number). -/
def mayProd : Expr K → Bool
  | .bin .mul l r => (mayNum l || mayNum r) && !(l.ground && r.ground)
  | .bin .add l r => (mayNum l && mayProd r) || (mayProd l && mayNum r)
  | .bin .eq _ _ => false
  | .bin _ l r => mayProd l && mayNum r
  | _ => false

/-- No product has a number as one factor and a product with a numeric factor as the other: no `2*(3*x)`. -/
def noCollect : Expr K → Bool
  | .un _ a => noCollect a
  | .bin .mul l r => noCollect l && noCollect r && !(mayNum l && mayProd r) && !(mayProd l && mayNum r)
  | .bin _ l r => noCollect l && noCollect r
  | _ => true

/-! ## Proofs -/

theorem Arith.eval_bin (A : Arith K) (ρ : List Char → K) (o : BinOp) (l r : Expr K) (v : K) :
    A.eval ρ (.bin o l r) = some v ↔ ∃ x y, A.eval ρ l = some x ∧ A.eval ρ r = some y ∧ A.binVal o x y = some v := by
  simp [Arith.eval, Option.bind_eq_some_iff]

theorem Arith.eval_scalar (A : Arith K) {ρ : List Char → K} {e : Expr K} {v : K} (h : A.eval ρ e = some v) :
    e.scalar = true := by
  induction e using Expr.ind generalizing v with
  | const => rfl
  | var => rfl
  | un o a ih =>
    simp only [Arith.eval, Option.bind_eq_some_iff] at h
    obtain ⟨x, hx, -⟩ := h
    exact ih hx
  | bin o l r ih1 ih2 =>
    obtain ⟨x, y, hx, hy, hv⟩ := (A.eval_bin ..).1 h
    have ho : o ≠ .access := by
      rintro rfl
      simp [Arith.binVal] at hv
    simp [Expr.scalar, ih1 hx, ih2 hy, ho]
  | arr => simp [Arith.eval] at h
  | dict => simp [Arith.eval] at h

theorem Arith.eval_units (A : Arith K) (ρ : List Char → K) (l r : Expr K) : A.eval ρ (.bin .units l r) = none := by
  simp only [Arith.eval]
  cases A.eval ρ l <;> cases A.eval ρ r <;> simp [Arith.binVal]

theorem Arith.eval_foldUn (A : Arith K) (ρ : List Char → K) (o : UnOp) (a : Expr K) (v : K)
    (h : A.eval ρ (.un o a) = some v) : A.eval ρ (foldUn A.ops o a) = some v := by
  unfold foldUn
  split
  · simp only [Arith.eval, Option.bind_some, Arith.unVal] at h
    split at h
    · cases o <;> simp_all [Arith.eval]
    · simp at h
  · exact h

theorem Arith.eval_foldBin (A : Arith K) (ρ : List Char → K) (o : BinOp) (x y : K) (v : K)
    (h : A.binVal o x y = some v) : A.eval ρ (foldBin A.ops o x y) = some v := by
  simp only [Arith.binVal] at h
  split at h
  · cases o <;> simp_all [Arith.eval, foldBin]
  · simp at h

/-- A product with a number as a factor. -/
def IsCP (e : Expr K) : Prop := ∃ c a, e = .bin .mul (.const c) a ∨ e = .bin .mul a (.const c)

theorem Arith.eval_sbs (A : Arith K) (ρ : List Char → K) {o : BinOp} {l r e : Expr K} (h : SBS A.ops o l r e) {v : K}
    (hv : A.eval ρ (.bin o l r) = some v)
    (h1 : o = .mul → ¬ ((∃ k, l = .const k) ∧ IsCP r)) (h2 : o = .mul → ¬ (IsCP l ∧ ∃ k, r = .const k)) :
    A.eval ρ e = some v := by
  obtain ⟨x, y, hx, hy, hb⟩ := (A.eval_bin ..).1 hv
  have hb' := hb
  simp only [Arith.binVal] at hb
  split at hb
  next hok =>
    cases h with
    | lz hz =>
      cases o <;> simp [BinOp.leftZero] at hz <;> subst hz <;> simp only [Arith.eval, Option.some.injEq] at hx hb ⊢ <;>
        subst hx <;> try (simp at hb)
      · rw [← hb, A.zero_mul]
      · rw [← hb, A.zero_div _ hok]
      · rw [← hb, A.one_pow]
    | li hz =>
      cases o <;> simp [BinOp.leftId] at hz <;> subst hz <;> simp only [Arith.eval, Option.some.injEq] at hx hb <;>
        subst hx
      · rw [hy, ← hb, A.zero_add]
      · rw [hy, ← hb, A.one_mul]
    | rz hz =>
      cases o <;> simp [BinOp.rightZero] at hz <;> subst hz <;> simp only [Arith.eval, Option.some.injEq] at hy hb ⊢ <;>
        subst hy
      rw [← hb, A.mul_zero]
    | ri hz =>
      cases o <;> simp [BinOp.rightId] at hz <;> subst hz <;> simp only [Arith.eval, Option.some.injEq] at hy hb <;>
        subst hy <;> try (simp at hb)
      · rw [hx, ← hb, A.add_zero]
      · rw [hx, ← hb, A.sub_zero]
      · rw [hx, ← hb, A.mul_one]
      · rw [hx, ← hb, A.div_one]
      · rw [hx, ← hb, A.pow_one]
    | dd hd =>
      cases hd with
      | same => exact hv
      | fold =>
        simp only [Arith.eval, Option.some.injEq] at hx hy
        subst hx hy
        exact A.eval_foldBin ρ o _ _ v hb'
      | neg =>
        simp only [Arith.eval, Option.some.injEq] at hx
        subst hx
        simp only [Arith.eval, hy, Option.bind_some, Arith.unVal, A.neg_ok, if_true]
        rw [← hb, A.zero_sub]
      | negc =>
        simp only [Arith.eval, Option.some.injEq] at hx hy ⊢
        subst hx hy
        simp only [Option.some.injEq] at hb
        rw [← hb, A.zero_sub]
      | mc1 => exact absurd ⟨⟨_, rfl⟩, _, _, .inl rfl⟩ (h1 rfl)
      | mc2 => exact absurd ⟨⟨_, rfl⟩, _, _, .inr rfl⟩ (h1 rfl)
      | mc3 => exact absurd ⟨⟨_, _, .inl rfl⟩, _, rfl⟩ (h2 rfl)
      | mc4 => exact absurd ⟨⟨_, _, .inr rfl⟩, _, rfl⟩ (h2 rfl)
      | uu => rw [A.eval_units] at hx; simp at hx
      | ul => rw [A.eval_units] at hx; simp at hx
      | ur => rw [A.eval_units] at hy; simp at hy
      | du => rw [A.eval_units] at hx; simp at hx
  next => simp at hb

theorem foldUn_shape (N : NumOps K) (o : UnOp) (a : Expr K) :
    ((∃ k, foldUn N o a = .const k) → ∃ k, a = .const k) ∧ ¬ IsCP (foldUn N o a) := by
  unfold foldUn
  split
  · refine ⟨fun _ => ⟨_, rfl⟩, ?_⟩
    rintro ⟨c, b, h | h⟩ <;> cases o <;> simp at h
  · refine ⟨by simp, ?_⟩
    rintro ⟨c, b, h | h⟩ <;> simp at h

theorem not_units (A : Arith K) {ρ : List Char → K} {e : Expr K} {x : K} (h : A.eval ρ e = some x) :
    ∀ a b, e ≠ .bin .units a b := by
  rintro a b rfl
  rw [A.eval_units] at h
  simp at h

theorem sbs_num (N : NumOps K) {o : BinOp} {l r l' r' e : Expr K} (h : SBS N o l' r' e)
    (l4 : (∃ k, l' = .const k) → mayNum l = true) (r4 : (∃ k, r' = .const k) → mayNum r = true)
    (hk : ∃ k, e = .const k) : mayNum (.bin o l r) = true := by
  cases h with
  | lz hz =>
    have := l4 ⟨_, rfl⟩
    clear l4 r4
    cases o <;> simp [BinOp.leftZero] at hz <;> simp [mayNum, this]
  | li hz =>
    have h1 := l4 ⟨_, rfl⟩
    have h2 := r4 hk
    clear l4 r4
    cases o <;> simp [BinOp.leftId] at hz <;> simp [mayNum, h1, h2]
  | rz hz =>
    have := r4 ⟨_, rfl⟩
    clear l4 r4
    cases o <;> simp [BinOp.rightZero] at hz <;> simp [mayNum, this]
  | ri hz =>
    have h1 := l4 hk
    have h2 := r4 ⟨_, rfl⟩
    clear l4 r4
    cases o <;> simp [BinOp.rightId] at hz <;> simp [mayNum, h1, h2]
  | dd hd =>
    cases hd with
    | fold =>
      have h1 := l4 ⟨_, rfl⟩
      have h2 := r4 ⟨_, rfl⟩
      clear l4 r4
      cases o <;> simp [foldBin] at hk <;> simp [mayNum, h1, h2]
    | negc => simp [mayNum, l4 ⟨_, rfl⟩, r4 ⟨_, rfl⟩]
    | _ => simp at hk

theorem sbs_prod (N : NumOps K) {o : BinOp} {l r l' r' e : Expr K} (h : SBS N o l' r' e)
    (hnu : ∀ a b, l' ≠ .bin .units a b) (hnr : ∀ a b, r' ≠ .bin .units a b)
    (l4 : (∃ k, l' = .const k) → mayNum l = true) (r4 : (∃ k, r' = .const k) → mayNum r = true)
    (l5 : IsCP l' → mayProd l = true) (r5 : IsCP r' → mayProd r = true)
    (hng : o = .mul → (l.ground && r.ground) = false)
    (hcp : IsCP e) : mayProd (.bin o l r) = true := by
  have hmul : ∀ h : o = .mul, (mayNum l = true ∨ mayNum r = true) → mayProd (.bin o l r) = true := by
    rintro rfl hm
    have := hng rfl
    simp only [mayProd, this, Bool.not_false, Bool.and_true, Bool.or_eq_true]
    exact hm
  clear hng
  cases h with
  | lz hz => obtain ⟨c, a, h | h⟩ := hcp <;> simp at h
  | rz hz => obtain ⟨c, a, h | h⟩ := hcp <;> simp at h
  | li hz =>
    have h1 := l4 ⟨_, rfl⟩
    have h2 := r5 hcp
    by_cases ho : o = .mul
    · exact hmul ho (.inl h1)
    clear l4 r4 l5 r5 hmul
    cases o <;> simp [BinOp.leftId] at hz ho <;> simp [mayProd, h1, h2]
  | ri hz =>
    have h1 := l5 hcp
    have h2 := r4 ⟨_, rfl⟩
    by_cases ho : o = .mul
    · exact hmul ho (.inr h2)
    clear l4 r4 l5 r5 hmul
    cases o <;> simp [BinOp.rightId] at hz ho <;> simp [mayProd, h1, h2]
  | dd hd =>
    cases hd with
    | same =>
      obtain ⟨c, a, h | h⟩ := hcp
      · simp only [Expr.bin.injEq] at h
        exact hmul h.1 (.inl (l4 ⟨_, h.2.1⟩))
      · simp only [Expr.bin.injEq] at h
        exact hmul h.1 (.inr (r4 ⟨_, h.2.2⟩))
    | fold => obtain ⟨c, a, h | h⟩ := hcp <;> cases o <;> simp [foldBin] at h <;> exact hmul rfl (.inl (l4 ⟨_, rfl⟩))
    | neg => obtain ⟨c, a, h | h⟩ := hcp <;> simp at h
    | negc => obtain ⟨c, a, h | h⟩ := hcp <;> simp at h
    | mc1 => exact hmul rfl (.inl (l4 ⟨_, rfl⟩))
    | mc2 => exact hmul rfl (.inl (l4 ⟨_, rfl⟩))
    | mc3 => exact hmul rfl (.inr (r4 ⟨_, rfl⟩))
    | mc4 => exact hmul rfl (.inr (r4 ⟨_, rfl⟩))
    | uu => exact absurd rfl (hnu _ _)
    | ul => exact absurd rfl (hnu _ _)
    | ur => exact absurd rfl (hnr _ _)
    | du => exact absurd rfl (hnu _ _)

/-- Everything about the result of `simplify` that the induction needs. -/
theorem simp_machine [DecidableEq K] (A : Arith K) (ρ : List Char → K) (e : Expr K) :
    ∀ v, A.eval ρ e = some v → noCollect e = true →
    ∃ e', (∀ n, e.height ≤ n → simp A.ops n e = .ok e') ∧ e'.scalar = true ∧ A.eval ρ e' = some v ∧
      ((∃ k, e' = .const k) → mayNum e = true) ∧ (IsCP e' → mayProd e = true) := by
  induction e using Expr.ind with
  | const k =>
    intro v hv _
    refine ⟨.const k, fun n hn => ?_, rfl, hv, fun _ => rfl, ?_⟩
    · cases n with
      | zero => simp [Expr.height] at hn
      | succ n => rfl
    · rintro ⟨c, a, h | h⟩ <;> simp at h
  | var m =>
    intro v hv _
    refine ⟨.var m, fun n hn => ?_, rfl, hv, by simp, ?_⟩
    · cases n with
      | zero => simp [Expr.height] at hn
      | succ n => rfl
    · rintro ⟨c, a, h | h⟩ <;> simp at h
  | un o a ih =>
    intro v hv hc
    simp only [Arith.eval, Option.bind_eq_some_iff] at hv
    obtain ⟨x, hx, hv⟩ := hv
    obtain ⟨a', h1, h2, h3, h4, h5⟩ := ih x hx hc
    obtain ⟨s1, s2⟩ := foldUn_shape A.ops o a'
    refine ⟨_, fun n hn => ?_, foldUn_scalar A.ops o a' h2, A.eval_foldUn ρ o a' v ?_, fun h => h4 (s1 h),
      fun h => absurd h s2⟩
    · cases n with
      | zero => simp [Expr.height] at hn
      | succ n =>
        rw [Expr.height] at hn
        rw [simp, h1 n (by omega)]; rfl
    · simp [Arith.eval, h3, hv]
  | bin o l r ih1 ih2 =>
    intro v hv hc
    have hsc := A.eval_scalar hv
    obtain ⟨x, y, hx, hy, hb⟩ := (A.eval_bin ..).1 hv
    have hcl : noCollect l = true ∧ noCollect r = true := by
      cases o <;> simp_all [noCollect]
    obtain ⟨l', l1, l2, l3, l4, l5⟩ := ih1 x hx hcl.1
    obtain ⟨r', r1, r2, r3, r4, r5⟩ := ih2 y hy hcl.2
    have ho : o ≠ .access := by simp [Expr.scalar] at hsc; exact hsc.1.1
    obtain ⟨e, e1, e2⟩ := simpBin_scalar A.ops o l' r' l2 r2 ho
    have hrun : ∀ n, (Expr.bin o l r).height ≤ n → simp A.ops n (.bin o l r) = .ok e := by
      intro n hn
      cases n with
      | zero => simp [Expr.height] at hn
      | succ n =>
        rw [Expr.height] at hn
        rw [simp, l1 n (by omega), Res.ok_bind, r1 n (by omega), Res.ok_bind, e2]
    have hval : A.eval ρ e = some v := by
      refine A.eval_sbs ρ e1 ((A.eval_bin ..).2 ⟨x, y, l3, r3, hb⟩) ?_ ?_
      · rintro rfl ⟨ha, hb⟩
        simp [noCollect, l4 ha, r5 hb] at hc
      · rintro rfl ⟨ha, hb⟩
        simp [noCollect, l5 ha, r4 hb] at hc
    refine ⟨e, hrun, e1.scalar l2 r2 ho, hval, ?_, ?_⟩
    · exact sbs_num A.ops e1 l4 r4
    · intro hcp
      refine sbs_prod A.ops e1 (not_units A l3) (not_units A r3) l4 r4 l5 r5 ?_ hcp
      -- a ground expression becomes a number
      rintro rfl
      by_contra hg
      simp only [Bool.not_eq_false] at hg
      have hg' : (Expr.bin .mul l r).ground = true := by simpa [Expr.ground] using hg
      obtain ⟨k, hk⟩ := simp_ground A.ops _ hg'
      have := (hk _ le_rfl).symm.trans (hrun _ le_rfl)
      simp at this
      subst this
      obtain ⟨c, a, h | h⟩ := hcp <;> simp at h
  | arr => intro v hv; simp [Arith.eval] at hv
  | dict => intro v hv; simp [Arith.eval] at hv

/-- **C67**. In machine arithmetic (every rounding, every mathematical library), `simplify` gives an expression with exactly
the same computed value, bit for bit, unless a product of a number and a product with a numeric factor is regrouped. -/
theorem C67_exact [DecidableEq K] (A : Arith K) (ρ : List Char → K) (e : Expr K) (v : K) (h : A.eval ρ e = some v)
    (hc : noCollect e = true) :
    ∃ e', (∀ n, e.height ≤ n → simp A.ops n e = .ok e') ∧ A.eval ρ e' = some v := by
  obtain ⟨e', h1, -, h2, -⟩ := simp_machine A ρ e v h hc
  exact ⟨e', h1, h2⟩

theorem ground_mayProd (e : Expr K) (h : e.ground = true) : mayProd e = false := by
  induction e using Expr.ind with
  | bin o l r ih1 ih2 =>
    simp only [Expr.ground, Bool.and_eq_true] at h
    have h1 := ih1 h.1.2
    have h2 := ih2 h.2
    cases o <;> simp [mayProd, h1, h2, h.1.2, h.2]
  | _ => simp [mayProd]

theorem ground_noCollect (e : Expr K) (h : e.ground = true) : noCollect e = true := by
  induction e using Expr.ind with
  | bin o l r ih1 ih2 =>
    simp only [Expr.ground, Bool.and_eq_true] at h
    have h1 := ih1 h.1.2
    have h2 := ih2 h.2
    cases o <;> simp [noCollect, h1, h2, ground_mayProd l h.1.2, ground_mayProd r h.2]
  | un o a ih =>
    simp only [Expr.ground, Bool.and_eq_true] at h
    exact ih h.2
  | _ => simp [noCollect]

/-- **C67**: without variables the result is the number the machine computes node by node, with no condition on the
products. -/
theorem C67_ground [DecidableEq K] (A : Arith K) (ρ : List Char → K) (e : Expr K) (v : K) (hg : e.ground = true)
    (h : A.eval ρ e = some v) : ∀ n, e.height ≤ n → simp A.ops n e = .ok (.const v) := by
  intro n hn
  obtain ⟨e', h1, h2⟩ := C67_exact A ρ e v h (ground_noCollect e hg)
  obtain ⟨k, hk⟩ := simp_ground A.ops e hg
  have := (hk n hn).symm.trans (h1 n hn)
  simp at this
  subst this
  simp only [Arith.eval, Option.some.injEq] at h2
  rw [hk n hn, h2]

/-- The dictionary `{x1: ρ x1, x2: ρ x2, ...}`. -/
def numDict (ρ : List Char → K) (xs : List (List Char)) : List (List Char × Expr K) :=
  xs.map fun n => (n, .const (ρ n))

theorem numDict_find (ρ : List Char → K) (xs : List (List Char)) (n : List Char) (h : n ∈ xs) :
    ((numDict ρ xs).find? fun p => p.1 = n) = some (n, .const (ρ n)) := by
  induction xs with
  | nil => simp at h
  | cons m xs ih =>
    simp only [numDict, List.map_cons, List.find?_cons]
    by_cases hm : m = n
    · simp [hm]
    · simp only [hm, decide_false]
      exact ih (by simpa [Ne.symm hm] using h)

/-- **C67**: inserting numbers for (at least) all variables and simplifying gives the number that the machine computes for the
expression as it was written, node by node. -/
theorem C67_insert [DecidableEq K] (A : Arith K) (ρ : List Char → K) (e : Expr K) (v : K) (xs : List (List Char))
    (h : A.eval ρ e = some v) (hx : ∀ n ∈ e.vars, n ∈ xs) (n : Nat) (hn : e.height ≤ n) :
    simp A.ops n (subDict e (numDict ρ xs)) = .ok (.const v) := by
  have key : ∀ e : Expr K, ∀ v, A.eval ρ e = some v → (∀ n ∈ e.vars, n ∈ xs) →
      (subDict e (numDict ρ xs)).ground = true ∧ A.eval ρ (subDict e (numDict ρ xs)) = some v ∧
      (subDict e (numDict ρ xs)).height = e.height := by
    intro e
    induction e using Expr.ind with
    | const k => intro v hv _; exact ⟨rfl, hv, rfl⟩
    | var m =>
      intro v hv hx
      rw [subDict_var, numDict_find ρ xs m (hx m (by simp [Expr.vars]))]
      exact ⟨rfl, hv, rfl⟩
    | un o a ih =>
      intro v hv hx
      simp only [Arith.eval, Option.bind_eq_some_iff] at hv
      obtain ⟨x, hx', hv⟩ := hv
      obtain ⟨h1, h2, h3⟩ := ih x hx' hx
      rw [subDict_un]
      refine ⟨?_, by simp [Arith.eval, h2, hv], by simp [Expr.height, h3]⟩
      have : o ≠ .arbsign := by rintro rfl; simp [Arith.unVal] at hv
      simp [Expr.ground, h1, this]
    | bin o l r ih1 ih2 =>
      intro v hv hx
      obtain ⟨x, y, hx', hy, hb⟩ := (A.eval_bin ..).1 hv
      obtain ⟨l1, l2, l3⟩ := ih1 x hx' (fun n hn => hx n (by simp [Expr.vars, hn]))
      obtain ⟨r1, r2, r3⟩ := ih2 y hy (fun n hn => hx n (by simp [Expr.vars, hn]))
      rw [subDict_bin]
      refine ⟨?_, (A.eval_bin ..).2 ⟨x, y, l2, r2, hb⟩, by simp [Expr.height, l3, r3]⟩
      simp only [Arith.binVal] at hb
      split at hb
      · cases o <;> simp_all [Expr.ground]
      · simp at hb
    | arr => intro v hv; simp [Arith.eval] at hv
    | dict => intro v hv; simp [Arith.eval] at hv
  obtain ⟨h1, h2, h3⟩ := key e v h hx
  exact C67_ground A ρ _ v h1 h2 n (by rw [h3]; exact hn)

/-! ## Rounded arithmetic -/

/-- The numbers of a format. -/
abbrev Fl (φ : Format) : Type := {x : ℝ // x ∈ φ.F}

/-- A mathematical library: any functions on the numbers of the format, with the two cases of `pow` that Annex F of the C standard
and every implementation make exact. -/
structure Libm (φ : Format) where
  sin : Fl φ → Fl φ
  cos : Fl φ → Fl φ
  exp : Fl φ → Fl φ
  log : Fl φ → Fl φ
  pow : Fl φ → Fl φ → Fl φ
  pow_one : ∀ x, pow x ⟨1, φ.one⟩ = x
  one_pow : ∀ x, pow ⟨1, φ.one⟩ x = ⟨1, φ.one⟩

theorem abs_mem (φ : Format) {x : ℝ} (h : x ∈ φ.F) : |x| ∈ φ.F := by
  rcases abs_choice x with e | e <;> rw [e]
  · exact h
  · exact φ.neg x h

/-- `double` operations: the exact result, rounded. -/
noncomputable def flOps (φ : Format) (lib : Libm φ) : NumOps (Fl φ) where
  zero := ⟨0, φ.zero⟩
  one := ⟨1, φ.one⟩
  add x y := ⟨φ.rnd (x + y), φ.mem _⟩
  sub x y := ⟨φ.rnd (x - y), φ.mem _⟩
  mul x y := ⟨φ.rnd (x * y), φ.mem _⟩
  div x y := ⟨φ.rnd (x / y), φ.mem _⟩
  pow := lib.pow
  neg x := ⟨-x, φ.neg _ x.2⟩
  sin := lib.sin
  cos := lib.cos
  exp := lib.exp
  log := lib.log
  abs x := ⟨|x.1|, abs_mem φ x.2⟩

/-- Every rounding to nearest satisfies the laws of machine arithmetic. -/
noncomputable def flArith (φ : Format) (lib : Libm φ) : Arith (Fl φ) where
  ops := flOps φ lib
  unOk o x := o = .log → 0 < x.1
  binOk o x y := (o = .div → y.1 ≠ 0) ∧ (o = .pow → powDom x.1 y.1)
  add_zero x := Subtype.ext (by simp [flOps, φ.rnd_of_mem x.2])
  zero_add x := Subtype.ext (by simp [flOps, φ.rnd_of_mem x.2])
  sub_zero x := Subtype.ext (by simp [flOps, φ.rnd_of_mem x.2])
  zero_sub x := Subtype.ext (by simp [flOps, φ.rnd_of_mem (φ.neg _ x.2)])
  mul_one x := Subtype.ext (by simp [flOps, φ.rnd_of_mem x.2])
  one_mul x := Subtype.ext (by simp [flOps, φ.rnd_of_mem x.2])
  mul_zero x := Subtype.ext (by simp [flOps, φ.rnd_of_mem φ.zero])
  zero_mul x := Subtype.ext (by simp [flOps, φ.rnd_of_mem φ.zero])
  div_one x := Subtype.ext (by simp [flOps, φ.rnd_of_mem x.2])
  zero_div x _ := Subtype.ext (by simp [flOps, φ.rnd_of_mem φ.zero])
  pow_one := lib.pow_one
  one_pow := lib.one_pow
  neg_ok x := by simp

/-- A library exists. -/
noncomputable def someLibm (φ : Format) : Libm φ where
  sin := id
  cos := id
  exp := id
  log := id
  pow x y := open Classical in if y = ⟨1, φ.one⟩ then x else ⟨1, φ.one⟩
  pow_one x := by simp
  one_pow x := by simp

theorem regroup_error (φ : Format) (a b c : ℝ) :
    |φ.rnd (φ.rnd (a * b) * c) - a * b * c| ≤
      ((1 + φ.u) ^ 2 - 1) * |a * b * c| + (φ.η + (1 + φ.u) * φ.η * |c|) := by
  have h1 := φ.error (a * b)
  have h2 := φ.error (φ.rnd (a * b) * c)
  have hu := φ.u_nonneg
  have hη := φ.η_nonneg
  have e1 : |φ.rnd (a * b) * c - a * b * c| ≤ φ.u * |a * b * c| + φ.η * |c| := by
    rw [← sub_mul, abs_mul, abs_mul (a * b) c]
    have := mul_le_mul_of_nonneg_right h1 (abs_nonneg c)
    linarith
  have e2 : |φ.rnd (a * b) * c| ≤ |a * b * c| + (φ.u * |a * b * c| + φ.η * |c|) := by
    have := abs_sub_abs_le_abs_sub (φ.rnd (a * b) * c) (a * b * c)
    linarith
  have e3 : |φ.rnd (φ.rnd (a * b) * c) - a * b * c| ≤
      |φ.rnd (φ.rnd (a * b) * c) - φ.rnd (a * b) * c| + |φ.rnd (a * b) * c - a * b * c| := abs_sub_le _ _ _
  have e4 := mul_le_mul_of_nonneg_left e2 hu
  nlinarith [abs_nonneg (a * b * c), abs_nonneg c]

/-- **C67**: what regrouping `k*(c*x)` as `(k*c)*x` can change: both are within two roundings of the exact product. -/
theorem C67_regroup_bound (φ : Format) (lib : Libm φ) (k c x : Fl φ) :
    |((flOps φ lib).mul k ((flOps φ lib).mul c x)).1 - k * c * x| ≤
      ((1 + φ.u) ^ 2 - 1) * |(k * c * x : ℝ)| + (φ.η + (1 + φ.u) * φ.η * |k.1|) ∧
    |((flOps φ lib).mul ((flOps φ lib).mul k c) x).1 - k * c * x| ≤
      ((1 + φ.u) ^ 2 - 1) * |(k * c * x : ℝ)| + (φ.η + (1 + φ.u) * φ.η * |x.1|) := by
  constructor
  · have := regroup_error φ c x k
    rw [show (c.1 * x.1 * k.1) = k.1 * c.1 * x.1 by ring, mul_comm (φ.rnd (c.1 * x.1)) k.1] at this
    exact this
  · exact regroup_error φ k c x

/-! ### The bits do change -/

theorem binRnd_val {p : ℕ} {emin : ℤ} {x : ℝ} (l : ℤ) (k : ℤ) (h1 : (2 : ℝ) ^ l ≤ x) (h2 : x < (2 : ℝ) ^ (l + 1))
    (he : emin ≤ l + 1 - p) (h3 : (k : ℝ) - 1 / 2 ≤ x / 2 ^ (l + 1 - p)) (h4 : x / 2 ^ (l + 1 - p) < k + 1 / 2) :
    binRnd p emin x = k * 2 ^ (l + 1 - p) := by
  have hx : 0 < x := lt_of_lt_of_le (two_zpow_pos l) h1
  have hl : Int.log 2 |x| = l := by
    rw [abs_of_pos hx]
    refine le_antisymm ?_ ?_
    · have := (Int.lt_zpow_iff_log_lt (b := 2) (by norm_num) hx (x := l + 1)).1 (by exact_mod_cast h2)
      omega
    · exact (Int.zpow_le_iff_le_log (b := 2) (by norm_num) hx).1 (by exact_mod_cast h1)
  have hu : ulpExp p emin x = l + 1 - p := by unfold ulpExp; rw [hl]; exact max_eq_right he
  unfold binRnd
  rw [hu]
  congr 2
  rw [round_eq]
  exact Int.floor_eq_iff.2 ⟨by push_cast; linarith, by push_cast; linarith⟩

/-- Three-bit numbers. -/
noncomputable def three : Format := bin 3 0 (by norm_num) (by norm_num)

theorem three_int (m : ℤ) (h : |m| < 8) : (m : ℝ) ∈ three.F := ⟨m, 0, le_rfl, by norm_num; exact h, by simp⟩

/-- **C67**, the failing half: `3*(5*x)` and its simplified form `15*x`, at `x = 7` in three-bit arithmetic. The first is 96, the
second 112. -/
theorem C67_regroup_fails (lib : Libm three) :
    let A := flArith three lib
    let x3 : Fl three := ⟨3, by exact_mod_cast three_int 3 (by norm_num)⟩
    let x5 : Fl three := ⟨5, by exact_mod_cast three_int 5 (by norm_num)⟩
    let x7 : Fl three := ⟨7, by exact_mod_cast three_int 7 (by norm_num)⟩
    let e : Expr (Fl three) := .bin .mul (.const x3) (.bin .mul (.const x5) (.var ['x']))
    (A.eval (fun _ => x7) e).map Subtype.val = some 96 ∧
    ∃ e', (∀ n, 3 ≤ n → (open Classical in simp A.ops n e) = .ok e') ∧
      (A.eval (fun _ => x7) e').map Subtype.val = some 112 := by
  intro A x3 x5 x7 e
  have r1 : three.rnd (5 * 7) = 32 := by
    have := binRnd_val (p := 3) (emin := 0) (x := 5 * 7) 5 4 (by norm_num) (by norm_num) (by norm_num) (by norm_num)
      (by norm_num)
    norm_num at this ⊢; exact this
  have r2 : three.rnd (3 * 32) = 96 := by
    have := binRnd_val (p := 3) (emin := 0) (x := 3 * 32) 6 6 (by norm_num) (by norm_num) (by norm_num) (by norm_num)
      (by norm_num)
    norm_num at this ⊢; exact this
  have r3 : three.rnd (3 * 5) = 16 := by
    have := binRnd_val (p := 3) (emin := 0) (x := 3 * 5) 3 8 (by norm_num) (by norm_num) (by norm_num) (by norm_num)
      (by norm_num)
    norm_num at this ⊢; exact this
  have r4 : three.rnd (16 * 7) = 112 := by
    have := binRnd_val (p := 3) (emin := 0) (x := 16 * 7) 6 7 (by norm_num) (by norm_num) (by norm_num) (by norm_num)
      (by norm_num)
    norm_num at this ⊢; exact this
  refine ⟨?_, .bin .mul (.const (A.ops.mul x3 x5)) (.var ['x']), ?_, ?_⟩
  · simp [A, e, x3, x5, x7, flArith, Arith.eval, Arith.binVal, flOps, r1, r2]
  · rintro n hn
    obtain ⟨n, rfl⟩ : ∃ m, n = m + 3 := ⟨n - 3, by omega⟩
    have n30 : (3 : ℝ) ≠ 0 := by norm_num
    have n50 : (5 : ℝ) ≠ 0 := by norm_num
    simp [simp, e, simpBin, isConst, BinOp.leftZero, BinOp.leftId, BinOp.rightZero, BinOp.rightId, ddVisit, mulUnits,
      mulConst, A, flArith, flOps, x3, x5]
  · simp [A, x3, x5, x7, flArith, Arith.eval, Arith.binVal, flOps, r3, r4]

/-- The hypotheses of `C67_exact` hold for `1/3 + x*2` in `double` arithmetic at any `x`. -/
example (lib : Libm binary64) (x : Fl binary64) :
    let c : ℝ → Fl binary64 := fun r => ⟨binary64.rnd r, binary64.mem r⟩
    let e : Expr (Fl binary64) := .bin .add (.bin .div (.const (c 1)) (.const (c 3)))
      (.bin .mul (.var ['x']) (.const (c 2)))
    noCollect e = true ∧ ∃ v, (flArith binary64 lib).eval (fun _ => x) e = some v := by
  intro c e
  refine ⟨rfl, ?_⟩
  have : binary64.rnd 3 ≠ 0 := by
    have h := binary64.mono (show (1 : ℝ) ≤ 3 by norm_num)
    rw [binary64.rnd_of_mem binary64.one] at h
    linarith
  simp [e, c, Arith.eval, Arith.binVal, flArith, this]

end Stator.Fp
