import Verif.Ct.Expr

/-!
# The compile-time models on the inputs of the project's tests

Replays expectations of `tests/symbolic_generic_test.cpp` about the types of compile-time expressions.
Tests of the models; no property rests on them.
-/

namespace Stator.Conform

open Stator.Ct

/-- `C<n, d>` in lowest terms with a positive denominator. -/
def cst (n : ℤ) (d : ℕ) (h : (d : ℤ) ≠ 0 := by decide) : C := ⟨n, d, h⟩

/-! symbolic_generic_test.cpp:67-77 -/
example : C.mul .unity .unity = .unity := by decide +kernel
example : C.add .unity .unity = .ofInt 2 := by decide +kernel
example : C.add .unity .null = .unity := by decide +kernel
example : C.add .null .unity = .unity := by decide +kernel
example : C.mul .unity .null = .null := by decide +kernel
example : C.sub (C.sub (.ofInt 5) (.ofInt 3)) (.ofInt 2) = .null := by decide +kernel
/-- line 79: `pi()*pi()/pi()` is `pi()`, which is printed by its name -/
example : (C.mul .pi .pi).div .pi = some .pi := by decide +kernel
/-- lines 82-90 -/
example : C.sin .null = some .null := by decide +kernel
example : C.sin .pi = some .null := by decide +kernel
example : C.sin (C.mul (.ofInt 12) .pi) = some .null := by decide +kernel
example : C.sin (C.mul (cst 5 2) .pi) = some .unity := by decide +kernel
example : C.cos .null = some .unity := by decide +kernel
example : C.cos .pi = some .unity := by decide +kernel
example : C.cos (C.mul (.ofInt 8) .pi) = some .unity := by decide +kernel
example : C.cos (C.mul (cst 5 2) .pi) = some .null := by decide +kernel

/-! lines 72-77, 93-100: substitution and derivatives; `x`, `y` are variables -/
def vx : E := .var ['x']
def vy : E := .var ['y']

example : subst ['x'] (.c (.ofInt 100)) (.c .unity) = some (.c .unity) := rfl
example : subst ['x'] (.c (.ofInt 2)) (.c (.ofInt 5)) = some (.c (.ofInt 5)) := rfl
example : (opMul vy vy >>= fun a => opMul a vy) >>= subst ['y'] (.c .null) = some (.c .null) := by
  have h : (C.null.mul .null).mul .null = .null := by decide +kernel
  simp [opMul, vy, E.isC, node, E.number, subst, applyOp, h]
example : opMul (.c .null) vx = some (.c .null) := by simp [opMul, vx, E.isC]
example : deriv ['x'] (.c .null) = some (.c .null) := rfl
example : deriv ['x'] (.c .unity) = some (.c .null) := rfl
example : deriv ['x'] (.num (some 3.141)) = some (.c .null) := rfl

/-! lines 118-122: products with `Unity` -/
example : opMul (.c .unity) vx = some vx := by simp [opMul, vx, E.isC, C.null, C.unity, C.ofInt]
example : opMul (.c .unity) (.num (some 2)) = some (.num (some 2)) := by simp [opMul, E.isC, C.null, C.unity, C.ofInt]
example : opMul (.num (some 2)) (.c .unity) = some (.num (some 2)) := by simp [opMul, E.isC, C.null, C.unity, C.ofInt]

/-! line 131: `sub(x, x=y)` -/
example : subst ['x'] vy vx = some vy := by simp [subst, vx]

/-! line 183: `derivative(pow(x, C<1>()), x)` -/
example : opPow vx (.c .unity) >>= deriv ['x'] = some (.c .unity) := by simp [opPow, vx, deriv]

/-! lines 191-210: variables -/
example : deriv ['x'] vx = some (.c .unity) := by simp [deriv, vx]
example : deriv ['x'] vy = some (.c .null) := by simp [deriv, vy]
example : deriv ['y'] vy = some (.c .unity) := by simp [deriv, vy]
example : subst ['x'] (.num (some 3.14159265)) vx = some (.num (some 3.14159265)) := by simp [subst, vx]
example : subst ['x'] (.num (some 3.14159265)) vy = some vy := by simp [subst, vy]
/-- `derivative(sin(x), x)` is `cos(x)` -/
example : applyUn .sin vx >>= deriv ['x'] = applyUn .cos vx := by
  simp [applyUn, vx, deriv, opMul, E.isC, C.unity, C.null, C.ofInt]
/-- `derivative(x * sin(x), x)` is `sin(x) + x * cos(x)` -/
example : deriv ['x'] (.bin .mul vx (.un .sin vx)) = some (.bin .add (.un .sin vx) (.bin .mul vx (.un .cos vx))) := by
  simp [applyUn, vx, deriv, opMul, opAdd, node, E.number, E.isC, C.unity, C.null, C.ofInt]

/-! lines 238-246: factorials -/
example : C.factorial 0 = .ofInt 1 := by decide +kernel
example : C.factorial 1 = .ofInt 1 := by decide +kernel
example : C.factorial 3 = .ofInt 6 := by decide +kernel
example : C.invFactorial 0 = some (cst 1 1) := by decide +kernel
example : C.invFactorial 1 = some (cst 1 1) := by decide +kernel
example : C.invFactorial 3 = some (cst 1 6) := by decide +kernel

/-! lines 300-301: absolute values and signs -/
example : applyUn .abs (.c .unity) = some (.c .unity) := by
  simp [applyUn, C.abs, C.unity, C.ofInt]
example : applyUn .abs (.c .null) = some (.c .null) := by
  simp [applyUn, C.abs, C.null, C.ofInt]

end Stator.Conform
