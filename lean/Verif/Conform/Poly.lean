import Verif.Poly.Isolate
import Verif.Poly.Sturm
import Verif.Poly.Bairstow

/-!
# The polynomial models on the inputs of the project's tests

Replays expectations of `tests/symbolic_polynomial_test.cpp` and `tests/symbolic_poly_solve_roots_test.cpp` with rational coefficients.
Tests of the models; no property rests on them.
-/

namespace Stator.Conform

open Stator.Pol

/-- A polynomial with the given coefficients, lowest order first. -/
def poly (n : Nat) (l : List ℚ) : Arr ℚ n := fun i => l.getD i 0

/-- The coefficients of a result. -/
def coefs {n : Nat} (a : Option (Arr ℚ n)) : Option (List ℚ) := a.map List.ofFn

def x : Arr ℚ 1 := poly 1 [0, 1]

/-- The polynomial with the given roots, multiplied out. -/
def withRoots : (l : List ℚ) → Arr ℚ l.length
  | [] => poly 0 [1]
  | r :: l => (mulPoly (withRoots l) (poly 1 [-r, 1])).getD (zeros _)

/-- symbolic_polynomial_test.cpp:141-159 poly_addition -/
example : coefs (addOp (· + ·) (poly 1 [0, 5/2]) (poly 0 [3/10])) = some [3/10, 5/2] := by decide +kernel
example : coefs (addOp (· + ·) (poly 0 [3/10]) (poly 1 [0, 5/2])) = some [3/10, 5/2] := by decide +kernel

/-- symbolic_polynomial_test.cpp:162-172 poly_multiplication: `(2 - x + x * x) * -2` -/
example : coefs (mulPoly (poly 2 [2, -1, 1]) (poly 0 [-2])) = some [-4, 2, -2] := by decide +kernel

/-- symbolic_polynomial_test.cpp:185-193 poly_division: `(2 - x + x * x) / 0.5` -/
example : coefs (divConst (poly 2 [2, -1, 1]) (poly 0 [1/2])) = some [4, -2, 2] := by decide +kernel

/-- symbolic_polynomial_test.cpp:207-220 poly_lower_order -/
example : coefs (changeOrder 2 (poly 3 [2, -1, 1, 0])) = some [2, -1, 1] := by decide +kernel
example : horner (poly 3 [2, -1, 1, 0]) 123 = horner (poly 2 [2, -1, 1]) 123 := by decide +kernel

/-- symbolic_polynomial_test.cpp:239-240 poly_simplify: `(x+2)^3` -/
example : coefs ((mulPoly (poly 1 [2, 1]) (poly 1 [2, 1])).bind fun g => mulPoly g (poly 1 [2, 1])) = some [8, 12, 6, 1] := by decide +kernel

/-- symbolic_polynomial_test.cpp:249-276 poly_eval_limits -/
example : horner (poly 2 [3, -1, 1]) 0 = some 3 := by decide +kernel
example : evalInf (poly 2 [3, -1, 1]) false = some (.inf false) := by decide +kernel
example : evalInf (poly 2 [3, -1, 1]) true = some (.inf false) := by decide +kernel
example : horner (poly 2 [3, 1, -1]) 0 = some 3 := by decide +kernel
example : evalInf (poly 2 [3, 1, -1]) false = some (.inf true) := by decide +kernel
example : evalInf (poly 2 [3, 1, -1]) true = some (.inf true) := by decide +kernel
example : evalInf (poly 3 [3, 1, 0, 1]) false = some (.inf false) := by decide +kernel
example : evalInf (poly 3 [3, 1, 0, 1]) true = some (.inf true) := by decide +kernel
example : evalInf (poly 3 [3, 1, 0, -1]) false = some (.inf true) := by decide +kernel
example : evalInf (poly 3 [3, 1, 0, -1]) true = some (.inf false) := by decide +kernel

/-- symbolic_polynomial_test.cpp:284-300 poly_derivative -/
example : coefs (derivArr (poly 4 [0, 1, 1, 1, 1])) = some [1, 2, 3, 4] := by decide +kernel
example : (evalDerivatives 1 (poly 4 [0, 1, 1, 1, 1]) (314159/100000)).bind (rd · 1) = horner (poly 3 [1, 2, 3, 4]) (314159/100000) := by
  decide +kernel
example : coefs (derivArr (poly 2 [2, -1, 2])) = some [-1, 4] := by decide +kernel
example : horner (poly 1 [-1, 4]) 0 = some (-1) := by decide +kernel
example : horner (poly 1 [-1, 4]) 1 = some 3 := by decide +kernel

/-- symbolic_polynomial_test.cpp:312-317 poly_zero_derivative -/
example : coefs (derivArr x) = some [1] := by decide +kernel

/-- symbolic_polynomial_test.cpp:320-353 poly_deflation, with exact arithmetic: whatever the precision estimates, the quotient. -/
example : ∀ r1 ∈ [-1000, 4000, 0, 314159265/100000000], ∀ r2 ∈ [-1000, 4000, 0, -314159265/100000000],
    ∀ s ∈ [0, 17],
      coefs (deflate 53 (fun _ _ => s) (withRoots [r1, r2, 4000]) r1) = coefs (some (withRoots [r2, 4000])) ∧
      coefs (deflate 53 (fun _ _ => s) (withRoots [r1, r2, 4000]) r2) = coefs (some (withRoots [r1, 4000])) ∧
      coefs (deflate 53 (fun _ _ => s) (withRoots [r1, r2, 4000]) 4000) = coefs (some (withRoots [r1, r2])) := by decide +kernel

/-- symbolic_polynomial_test.cpp:356-374 poly_shift -/
example : ∀ r1 ∈ [-1000, 4000, 0], ∀ r2 ∈ [-1000, 0, -314159265/100000000], ∀ t ∈ [-1, 2, 1000, 314159265/100000000, -100000],
    ((shift (withRoots [r1, r2, 4000]) t).bind fun g => horner g 0) = horner (withRoots [r1, r2, 4000]) t ∧
    ((shift (withRoots [r1, r2, 4000]) t).bind fun g => horner g 1000) = horner (withRoots [r1, r2, 4000]) (1000 + t) := by
  decide +kernel

/-- The polynomial `q * g + r` of the tests of `gcd`. -/
def qgr {m n k : Nat} (q : Arr ℚ m) (g : Arr ℚ n) (r : Arr ℚ k) : Arr ℚ (max k (m + n)) :=
  ((mulPoly q g).bind fun p => addOp (· + ·) p r).getD (zeros _)

/-- symbolic_polynomial_test.cpp:380-394 poly_gcd: with remainder -/
example : ((divide 0 (qgr (poly 3 [-2, 3, 0, 1]) (poly 2 [0, -2, 1]) (poly 1 [-2, 4])) 2 (poly 2 [0, -2, 1])).map
    fun r => (List.ofFn r.1, List.ofFn r.2)) = some ([-2, 3, 0, 1, 0, 0], [-2, 4]) := by decide +kernel
/-- without remainder -/
example : ((divide 0 (qgr (poly 3 [-2, 3, 0, 1]) (poly 2 [0, -2, 1]) (poly 0 [0])) 2 (poly 2 [0, -2, 1])).map
    fun r => (List.ofFn r.1, List.ofFn r.2)) = some ([-2, 3, 0, 1, 0, 0], [0, 0]) := by decide +kernel
/-- with a zero leading coefficient of the divisor -/
example : ((divide 0 (qgr (poly 3 [-2, 3, 0, 1]) (poly 3 [0, -2, 1, 0]) (poly 0 [0])) 3 (poly 3 [0, -2, 1, 0])).map
    fun r => (List.ofFn r.1, List.ofFn r.2)) = some ([-2, 3, 0, 1, 0, 0, 0], [0, 0, 0]) := by decide +kernel
/-- by a constant -/
example : ((divide 0 (qgr (poly 3 [-2, 3, 0, 1]) (poly 0 [1/2]) (poly 0 [0])) 0 (poly 0 [1/2])).map
    fun r => (List.ofFn r.1, List.ofFn r.2)) = some ([-2, 3, 0, 1], [0]) := by decide +kernel
/-- by a polynomial of higher order which is a constant -/
example : ((divide 0 (qgr (poly 3 [-2, 3, 0, 1]) (poly 3 [1/4, 0, 0, 0]) (poly 0 [0])) 3 (poly 3 [1/4, 0, 0, 0])).map
    fun r => (List.ofFn r.1, List.ofFn r.2)) = some ([-2, 3, 0, 1, 0, 0, 0], [0, 0, 0]) := by decide +kernel

/-! symbolic_poly_solve_roots_test.cpp:362-388 poly_Sturm_chains -/

def wiki : Arr ℚ 4 := poly 4 [-1, -1, 0, 1, 1]

example : coefs ((sturmChain 0 wiki).bind (·.get 0)) = some [-1, -1, 0, 1, 1] := by decide +kernel
example : coefs ((sturmChain 0 wiki).bind (·.get 1)) = some [-1, 0, 3, 4, 0] := by decide +kernel
example : coefs ((sturmChain 0 wiki).bind (·.get 2)) = some [15/16, 3/4, 3/16, 0, 0] := by decide +kernel
example : coefs ((sturmChain 0 wiki).bind (·.get 3)) = some [-64, -32, 0, 0, 0] := by decide +kernel
example : coefs ((sturmChain 0 wiki).bind (·.get 4)) = some [-3/16, 0, 0, 0, 0] := by decide +kernel
example : coefs ((sturmChain 0 wiki).bind (·.get 5)) = some [0, 0, 0, 0, 0] := by decide +kernel
example : coefs ((sturmChain 0 wiki).bind (·.get 6)) = some [0, 0, 0, 0, 0] := by decide +kernel
example : (sturmChain 0 wiki).bind (·.signChanges (fun p => signAtInf true p)) = some 3 := by decide +kernel
example : (sturmChain 0 wiki).bind (·.signChanges (fun p => signAt 0 p)) = some 2 := by decide +kernel
example : (sturmChain 0 wiki).bind (·.signChanges (fun p => signAtInf false p)) = some 1 := by decide +kernel
example : (sturmChain 0 wiki).bind (·.roots (1/2) 3) = some 1 := by decide +kernel
example : (sturmChain 0 wiki).bind (·.roots (-2141/1000) (-314159265/1000000000)) = some 1 := by decide +kernel
example : (sturmChain 0 wiki).bind (·.rootsInf) = some 2 := by decide +kernel

/-! symbolic_poly_solve_roots_test.cpp:390-471, for some of the choices of five roots -/

/-- The number of the given roots strictly between `a` and `b`. -/
def between (l : List ℚ) (a b : ℚ) : Nat := (l.filter fun r => a < r ∧ r < b).length

/-- The checks of lines 419-469 that do not mention infinite values, and those of `roots(-inf, inf)`. -/
def counts (l : List ℚ) (s : ℚ) : Bool :=
  let f1 := (mulPoly (withRoots l) (poly 0 [s])).getD (zeros _)
  let f2 := (mulPoly f1 (poly 2 [4, -3, 1])).getD (zeros _)
  let n := between l 0 1
  let pos := between l 0 100000000
  let close (m : Option Nat) (k : Nat) : Bool := if k ≤ 1 then m == some k else m.any (k ≤ ·)
  close (budan f1) n && close (budan f2) n && close (alesinaGaluzzi f1 0 1) n && close (alesinaGaluzzi f2 0 1) n &&
  (sturmChain 0 f1).bind (·.roots 0 1) == some n && (sturmChain 0 f2).bind (·.roots 0 1) == some n &&
  close (descartes f1) pos &&
  (sturmChain 0 f1).bind (·.rootsInf) == some 5 && (sturmChain 0 f2).bind (·.rootsInf) == some 5 &&
  (alesinaGaluzzi f1 (-1) 30).any (between l (-1) 30 ≤ ·) && (alesinaGaluzzi f1 (-1/100) 5).any (between l (-1/100) 5 ≤ ·)

example : counts [-100000, -14159265/100000000, -1/10000, 1/10, 3333/10000] 1 = true := by decide +kernel
example : counts [1/2, 4/5, 1001/1000, 2, 314159265/100000000] (-1) = true := by decide +kernel
example : counts [-100000, 1/2, 2, 10000000, 1/10] 1 = true := by decide +kernel
example : counts [-1/10000, 3333/10000, 4/5, 2, 10000000] (-1) = true := by decide +kernel

end Stator.Conform
