import Verif.Fp.Simplify

/-!
# `simplify` with the comparison of `double`

The model `simp` (`Rt/Simplify`) compares numbers with equality. That is right for numbers without a sign of zero; here the
comparison is a parameter, so that `-0.0 == 0.0` and `NaN != NaN` can be represented.
-/

namespace Stator

variable {K : Type}

/-- `e == c` for one of the constants `Null`, `Unity`, `NoIdentity`, with the `==` of `double`.
models: stator/symbolic/runtime.hpp:608-615. -/
def isConstE (eq : K → K → Bool) (e : Expr K) (c : Option K) : Bool :=
  match e, c with
  | .const k, some c => eq k c
  | _, _ => false

open Classical in
/-- `dd_visit` with the `==` of `double` in the test for `0 - r`; the other rules make no comparison.
models: stator/symbolic/runtime.hpp:630-692 (the comparison is in line 660). -/
noncomputable def ddVisitE (eq : K → K → Bool) (N : NumOps K) (rec : Expr K → Res (Expr K)) (o : BinOp)
    (l r : Expr K) : Res (Expr K) :=
  match o, l, r with
  | .sub, .const x, .const y => if eq x N.zero then .ok (.const (N.neg y)) else .ok (foldBin N .sub x y)
  | .sub, .const x, r => if eq x N.zero then .ok (.un .neg r) else .ok (.bin .sub (.const x) r)
  | o, l, r => ddVisit N rec o l r

/-- The constant the code returns: a new one, not the operand it was compared to. -/
def fresh (c : Option K) (e : Expr K) : Expr K :=
  match c with
  | some c => .const c
  | none => e

/-- The checks for identities and zeros, with the `==` of `double`.
models: stator/symbolic/runtime.hpp:592-628. -/
noncomputable def simpBinE (eq : K → K → Bool) (N : NumOps K) (rec : Expr K → Res (Expr K)) (o : BinOp)
    (l r : Expr K) : Res (Expr K) :=
  if isConstE eq l (o.leftZero N) then .ok (fresh (o.leftZero N) l)
  else if isConstE eq l (o.leftId N) then .ok r
  else if isConstE eq r (o.rightZero N) then .ok (fresh (o.rightZero N) r)
  else if isConstE eq r (o.rightId N) then .ok l
  else ddVisitE eq N rec o l r

/-- `simplify(const Expr&)` with the `==` of `double`.
models: stator/symbolic/runtime.hpp:567-725, array.hpp:555-571, dict.hpp:82-90. -/
noncomputable def simpE (eq : K → K → Bool) (N : NumOps K) : Nat → Expr K → Res (Expr K)
  | 0, _ => .diverge
  | _ + 1, .const k => .ok (.const k)
  | _ + 1, .var n => .ok (.var n)
  | n + 1, .un o a => do
    let a' ← simpE eq N n a
    .ok (foldUn N o a')
  | n + 1, .bin o l r => do
    let l' ← simpE eq N n l
    let r' ← simpE eq N n r
    simpBinE eq N (simpE eq N n) o l' r'
  | n + 1, .arr xs => do
    let ys ← mapRes (simpE eq N n) xs
    .ok (.arr ys)
  | n + 1, .dict kvs => do
    let ys ← mapRes (fun p : List Char × Expr K => do
      let v ← simpE eq N n p.2
      (.ok (p.1, v) : Res (List Char × Expr K))) kvs
    .ok (.dict ys)

/-! ## With equality as the comparison it is the model used elsewhere -/

theorem isConstE_decide [DecidableEq K] (e : Expr K) (c : Option K) :
    isConstE (fun a b => decide (a = b)) e c = isConst e c := by
  unfold isConstE isConst; rfl

theorem ddVisitE_decide [inst : DecidableEq K] (N : NumOps K) (rec : Expr K → Res (Expr K)) (o : BinOp) (l r : Expr K) :
    ddVisitE (fun a b => decide (a = b)) N rec o l r = ddVisit N rec o l r := by
  have hi : (fun a b => Classical.propDecidable (a = b)) = inst := Subsingleton.elim _ _
  unfold ddVisitE
  split
  · simp [ddVisit]
  · rename_i x hr
    have hr' : ∀ y, r ≠ .const y := fun y h => hr y h
    cases r <;> simp_all [ddVisit]
  · rw [hi]

theorem simpBinE_decide [DecidableEq K] (N : NumOps K) (rec : Expr K → Res (Expr K)) (o : BinOp) (l r : Expr K) :
    simpBinE (fun a b => decide (a = b)) N rec o l r = simpBin N rec o l r := by
  unfold simpBinE simpBin
  simp only [isConstE_decide, ddVisitE_decide]
  by_cases h1 : isConst l (o.leftZero N) = true
  · obtain ⟨k, rfl, h⟩ := (isConst_iff _ _).1 h1
    rw [if_pos h1, if_pos h1, h]; rfl
  by_cases h2 : isConst l (o.leftId N) = true
  · simp [h1, h2]
  by_cases h3 : isConst r (o.rightZero N) = true
  · obtain ⟨k, rfl, h⟩ := (isConst_iff _ _).1 h3
    rw [if_neg h1, if_neg h2, if_pos h3, if_neg h1, if_neg h2, if_pos h3, h]; rfl
  · simp only [h1, h2, h3]; rfl

/-- `simpE` generalises `simp`. -/
theorem simpE_decide [DecidableEq K] (N : NumOps K) (n : Nat) (e : Expr K) :
    simpE (fun a b => decide (a = b)) N n e = simp N n e := by
  induction n generalizing e with
  | zero => simp [simpE, simp]
  | succ n ih =>
    have hf : simpE (fun a b => decide (a = b)) N n = simp N n := funext ih
    cases e <;> simp [simpE, simp, hf, simpBinE_decide]

end Stator
