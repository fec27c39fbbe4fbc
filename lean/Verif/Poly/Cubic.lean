import Verif.Poly.Roots
import Verif.Num.RootFind
import Mathlib.Analysis.SpecialFunctions.Trigonometric.Inverse
import Mathlib.Data.List.Sort

/-! # Model of the cubic solver -/

namespace Stator.Pol

/-- `std::cbrt`. -/
noncomputable def cbrt (x : ℝ) : ℝ :=
  if x < 0 then -((-x) ^ ((1 : ℝ) / 3)) else x ^ ((1 : ℝ) / 3)

/-- The lambda `[&](double x){ return eval_derivatives<2>(f, x); }`
(stator/symbolic/polynomial.hpp:843). -/
noncomputable def derivObj {n : ℕ} (f : Arr ℝ n) : Num.Obj := fun x i =>
  match evalDerivatives 2 f x with
  | some r => coef r i
  | none => 0

/-- What the cubic solver is run with: the range of `size_t`, the choices of
`subtraction_precision`, the sign of zero derivatives, the precision of `halleys_method` and the
square root of the largest `double`. -/
structure Env where
  S : ℕ
  sp : ℝ → ℝ → ℕ
  z : Bool
  prec : ℝ
  maxSqrt : ℝ

/-- models: stator/symbolic/polynomial.hpp:843 `halleys_method(f', root)` with its default
arguments; only the change of `root` is used. -/
noncomputable def polish (E : Env) {n : ℕ} (f : Arr ℝ n) (x : ℝ) : ℝ :=
  (Num.halley (derivObj f) E.z (E.S - 1) E.prec x ⊥ ⊤ 0).2

/-- models: stator/symbolic/polynomial.hpp:833-848 `deflate_and_solve_polynomial` for order 3. -/
noncomputable def deflateAndSolve (E : Env) (f : Arr ℝ 3) (root : ℝ) : Option (List ℝ) := do
  let g ← deflate E.S E.sp f root
  let roots ← solve2 E.maxSqrt g
  let roots := roots.map (polish E f)
  some ((roots ++ [root]).insertionSort (· ≤ ·))

/-- models: stator/symbolic/polynomial.hpp:907-938 the guess used when intermediate results would
overflow. -/
noncomputable def rangeGuess (f0 f1 f2 : ℝ) : ℝ :=
  if f2 = 0 then
    if f1 > 0 then -f0 / f1
    else if f1 < 0 then -Real.sqrt (-f1)
    else 0
  else -f1 / f2

/-- models: stator/symbolic/polynomial.hpp:967-1004 the case of three real roots. -/
noncomputable def trigRoots (E : Env) (g : Arr ℝ 3) (f2 uo3 v : ℝ) : List ℝ :=
  let muo3 := -uo3
  let s := if muo3 > 0 then (if f2 > 0 then -Real.sqrt muo3 else Real.sqrt muo3) else 0
  let scube := s * muo3
  if scube = 0 then [-f2 / 3]
  else
    let t := min (max (-v / (scube + scube)) (-1)) 1
    let k := Real.arccos t / 3
    let cosk := Real.cos k
    let r0 := (s + s) * cosk - f2 / 3
    let sinsqk := 1 - cosk * cosk
    if sinsqk < 0 then [r0]
    else
      let rt3sink := Real.sqrt 3 * Real.sqrt sinsqk
      let r1 := s * (-cosk + rt3sink) - f2 / 3
      let r2 := s * (-cosk - rt3sink) - f2 / 3
      ([polish E g r0, polish E g r1, polish E g r2]).insertionSort (· ≤ ·)

/-- models: stator/symbolic/polynomial.hpp:858-1005 `solve_real_roots` for order 3. -/
noncomputable def solve3 (E : Env) (f : Arr ℝ 3) : Option (List ℝ) :=
  if f 3 = 0 then do
    let g ← changeOrder 2 f
    solve2 E.maxSqrt g
  else if f 0 = 0 then deflateAndSolve E f 0
  else do
    let g ← divConst f (fun _ => f 3 : Arr ℝ 0)
    let f0 ← rd g 0
    let f1 ← rd g 1
    let f2 ← rd g 2
    if f2 = 0 ∧ f1 = 0 then some [cbrt (-f0)]
    else if f2 > E.maxSqrt ∨ f2 < -E.maxSqrt then deflateAndSolve E g (-f2)
    else if f1 > E.maxSqrt then deflateAndSolve E g (-f0 / f1)
    else if f1 < -E.maxSqrt then deflateAndSolve E g (-Real.sqrt (-f1))
    else if f0 > E.maxSqrt ∨ f0 < -E.maxSqrt then deflateAndSolve E g (-cbrt f0)
    else
      let v := f0 + (2 * f2 * f2 / 9 - f1) * (f2 / 3)
      if v > E.maxSqrt ∨ v < -E.maxSqrt then deflateAndSolve E g (-f2)
      else
        let uo3 := f1 / 3 - f2 * f2 / 9
        let u2o3 := uo3 + uo3
        if u2o3 > E.maxSqrt ∨ u2o3 < -E.maxSqrt then deflateAndSolve E g (rangeGuess f0 f1 f2)
        else
          let uo3sq4 := u2o3 * u2o3
          if uo3sq4 > E.maxSqrt then deflateAndSolve E g (rangeGuess f0 f1 f2)
          else
            let j := uo3sq4 * uo3 + v * v
            if j > 0 then
              let w := Real.sqrt j
              let root := if v < 0
                then cbrt (1 / 2 * (w - v)) - uo3 * cbrt (2 / (w - v)) - f2 / 3
                else uo3 * cbrt (2 / (w + v)) - cbrt (1 / 2 * (w + v)) - f2 / 3
              deflateAndSolve E g (polish E g root)
            else if uo3 ≥ 0 then some [cbrt v - f2 / 3]
            else some (trigRoots E g f2 uo3 v)

end Stator.Pol
