import Verif.Rt.Subst
import Mathlib.Analysis.SpecialFunctions.Pow.Deriv
import Mathlib.Analysis.Calculus.Deriv.Abs

/-!
# Derivatives of runtime expressions

Models `derivative(const Expr&, const VarRT&)` (`stator/symbolic/runtime.hpp:953-997`) and the rules
it dispatches to. All operands of the rules have static type `Expr`, so the operators build nodes and
rewrite nothing; the compile-time constants `C<1>`, `C<2>`, `Null` become `double`s (runtime.hpp:479).
-/

namespace Stator

mutual
/-- `derivative(f, x)`.
models: variable.hpp:57-58 (constants), variable_rt.hpp:77-79, binary_ops.hpp:362-419,
unary_ops.hpp:165-179, array.hpp:396-412. There is no rule for units, uncertainties and dictionaries:
the call converts its argument to `Expr` and dispatches to itself without end (`.diverge`). -/
def deriv {K : Type} (N : NumOps K) (x : List Char) : Expr K → Res (Expr K)
  | .const _ => .ok (.const N.zero)
  | .var n => .ok (.const (if n = x then N.one else N.zero))
  | .un o a => do
    let a' ← deriv N x a
    match o with
    | .sin => .ok (.bin .mul a' (.un .cos a))
    | .cos => .ok (.bin .mul (.un .neg a') (.un .sin a))
    | .exp => .ok (.bin .mul a' (.un .exp a))
    | .log => .ok (.bin .div a' a)
    | .abs => .ok (.bin .div (.bin .mul a' (.un .abs a)) a)
    | .arbsign => .ok (.bin .mul a' (.un .arbsign (.const N.one)))
    | .neg => .ok (.un .neg a')
  | .bin .add l r => do
    let l' ← deriv N x l
    let r' ← deriv N x r
    .ok (.bin .add l' r')
  | .bin .sub l r => do
    let l' ← deriv N x l
    let r' ← deriv N x r
    .ok (.bin .sub l' r')
  | .bin .mul l r => do
    let l' ← deriv N x l
    let r' ← deriv N x r
    .ok (.bin .add (.bin .mul l' r) (.bin .mul l r'))
  | .bin .div l r => do
    let l' ← deriv N x l
    let r' ← deriv N x r
    .ok (.bin .div (.bin .sub (.bin .mul l' r) (.bin .mul l r'))
      (.bin .pow r (.const (N.add N.one N.one))))
  | .bin .pow l r => do
    let l' ← deriv N x l
    let r' ← deriv N x r
    .ok (.bin .add
      (.bin .mul (.bin .mul r l') (.bin .pow l (.bin .sub r (.const N.one))))
      (.bin .mul (.bin .mul r' (.un .log l)) (.bin .pow l r)))
  | .bin .eq l r => do
    let l' ← deriv N x l
    let r' ← deriv N x r
    .ok (.bin .eq l' r')
  | .bin .access l r => .ok (.bin .access l r)
  | .bin .units _ _ => .diverge
  | .bin .uncert _ _ => .diverge
  | .arr xs => do
    let ys ← derivs N x xs
    .ok (.arr ys)
  | .dict _ => .diverge
/-- Element-wise derivative of an array. models: array.hpp:396-412. -/
def derivs {K : Type} (N : NumOps K) (x : List Char) : List (Expr K) → Res (List (Expr K))
  | [] => .ok []
  | e :: es => do
    let d ← deriv N x e
    let ds ← derivs N x es
    .ok (d :: ds)
end

/-! ## Specification -/

open Classical in
/-- The number obtained by inserting values for the variables and simplifying: as `Expr.eval`, except
that `0 * a`, `a * 0`, `0 / a` and `1 ^ a` are `0`, `0`, `0` and `1` even where `a` has no value. -/
noncomputable def Expr.evalS (ρ : List Char → ℝ) : Expr ℝ → Option ℝ
  | .const k => some k
  | .var n => some (ρ n)
  | .un o a => (a.evalS ρ).bind (unVal o)
  | .bin o l r =>
    if o = .mul ∧ (l.evalS ρ = some 0 ∨ r.evalS ρ = some 0) then some 0
    else if o = .div ∧ l.evalS ρ = some 0 then some 0
    else if o = .pow ∧ l.evalS ρ = some 1 then some 1
    else (l.evalS ρ).bind fun x => (r.evalS ρ).bind fun y => binVal o x y
  | .arr _ => none
  | .dict _ => none

/-- `x` is not at a point where a subexpression stops being differentiable in `x`: no absolute value
of 0, and every power has a positive base, or an exponent without `x` and a base that is not zero (or
a natural exponent), or does not contain `x`. -/
def Smooth (ρ : List Char → ℝ) (x : List Char) : Expr ℝ → Prop
  | .const _ => True
  | .var _ => True
  | .un o a => Smooth ρ x a ∧ (o = .abs → a.eval ρ ≠ some 0 ∨ x ∉ a.vars)
  | .bin o l r => Smooth ρ x l ∧ Smooth ρ x r ∧ (o = .pow →
      (∃ b, l.eval ρ = some b ∧ 0 < b) ∨
      (x ∉ r.vars ∧ ∃ b, l.eval ρ = some b ∧ b ≠ 0) ∨
      (x ∉ r.vars ∧ ∃ n : ℕ, r.eval ρ = some (n : ℝ)) ∨
      (x ∉ l.vars ∧ x ∉ r.vars))
  | .arr _ => True
  | .dict _ => True

/-- `f` has, as a function of the variable `x`, the derivative `d` at the assignment `ρ`. -/
def HasPartial (f : Expr ℝ) (ρ : List Char → ℝ) (x : List Char) (d : ℝ) : Prop :=
  ∃ F : ℝ → ℝ, (∀ᶠ t in nhds (ρ x), f.eval (Function.update ρ x t) = some (F t)) ∧
    HasDerivAt F d (ρ x)

end Stator
