import Mathlib.Data.EReal.Basic
import Mathlib.Data.Real.Basic

/-!
# Model of the iterative root finders of stator/symbolic/numeric.hpp

Arithmetic is exact (`ℝ`), bounds are `EReal` because their defaults are infinite.  The objective
function is any function returning the value (index 0) and the derivatives; nothing says that index 1
really is the derivative.
-/

namespace Stator.Num

/-- The objective function: `f x 0` is the value, `f x 1`, `f x 2` the "derivatives". -/
abbrev Obj := ℝ → ℕ → ℝ

/-- The variables the step functions change through references. -/
structure St where
  x : ℝ
  lo : EReal
  hi : EReal
  st : ℕ → ℝ

/-- `std::signbit` of a value; the sign of a zero is `false` (`+0`). -/
noncomputable def signbit (v : ℝ) : Bool := decide (v < 0)

/-- models: stator/symbolic/numeric.hpp:33-80 `process_iterative_step`. The first component is the
status: 0 error, 1 success, 2 converged. -/
noncomputable def processStep (f : Obj) (prec : ℝ) (s : St) (newX : ℝ) : ℕ × St :=
  if s.hi ≤ (newX : EReal) ∨ (newX : EReal) ≤ s.lo then (0, s)
  else
    let ns := f newX
    let delta := newX - s.x
    if |delta| < |prec * newX| ∨ ns 0 = 0 then (2, { s with x := newX, st := ns })
    else if |ns 0| > |s.st 0| then (0, s)
    else (1, { x := newX, st := ns,
               lo := if delta ≥ 0 then (s.x : EReal) else s.lo,
               hi := if delta ≤ 0 then (s.x : EReal) else s.hi })

/-- models: stator/symbolic/numeric.hpp:85-98 `newton_raphson_step`. -/
noncomputable def newtonStep (f : Obj) (prec : ℝ) (s : St) : ℕ × St :=
  if s.st 1 = 0 then (0, s)
  else processStep f prec s (s.x - s.st 0 / s.st 1)

/-- The IEEE sign bit of a factor: of a zero it is `z`. -/
noncomputable def sgn (z : Bool) (v : ℝ) : Bool := if v = 0 then z else decide (v < 0)

/-- models: stator/symbolic/numeric.hpp:102-132 `halley_step`. The sign bits of `delta` and `deltaNR`
are computed from those of their factors by the IEEE rule for products and quotients, because both
can be zero or infinite when `curr_state[1]` is a zero, whose sign `z` is arbitrary.
`std::isfinite(denominator)` always holds in exact arithmetic. -/
noncomputable def halleyStep (f : Obj) (z : Bool) (prec : ℝ) (s : St) : ℕ × St :=
  let numerator := 2 * s.st 0 * s.st 1
  let denominator := 2 * s.st 1 * s.st 1 - s.st 0 * s.st 2
  if denominator = 0 then (0, s)
  else
    let delta := -numerator / denominator
    let sDelta := !(xor (xor (sgn z (s.st 0)) (sgn z (s.st 1))) (sgn z denominator))
    let sDeltaNR := !(xor (sgn z (s.st 0)) (sgn z (s.st 1)))
    if sDelta ≠ sDeltaNR then (0, s)
    else processStep f prec s (s.x + delta)

/-- models: stator/symbolic/numeric.hpp:136-145 `schroeder_step`. -/
noncomputable def schroederStep (f : Obj) (prec : ℝ) (s : St) : ℕ × St :=
  if s.st 1 = 0 then (0, s)
  else processStep f prec s
    (s.x - 2 * s.st 0 * s.st 1 - s.st 2 * s.st 0 * s.st 0 / (2 * s.st 1 * s.st 1 * s.st 1))

/-- models: stator/symbolic/numeric.hpp:149-200 `bisection_step`. -/
noncomputable def bisectStep (f : Obj) (prec : ℝ) (s : St) : ℕ × St :=
  if s.lo ≥ s.hi ∨ s.lo = ⊥ ∨ s.lo = ⊤ ∨ s.hi = ⊥ ∨ s.hi = ⊤ then (0, s)
  else
    let l := s.lo.toReal
    let h := s.hi.toReal
    if signbit (f l 0) = signbit (f h 0) then (0, s)
    else
      let mid := (l + h) / 2
      let ns := f mid
      let delta := mid - s.x
      if |delta| < |prec * mid| ∨ ns 0 = 0 ∨ mid = l ∨ mid = h then
        (2, { s with x := mid, st := ns })
      else if signbit (ns 0) = signbit (f h 0) then
        (1, { s with x := mid, st := ns, hi := (mid : EReal) })
      else (1, { s with x := mid, st := ns, lo := (mid : EReal) })

/-- models: stator/symbolic/numeric.hpp:222-230 and 256-267: try one method, and the next one if it
fails (a failing step leaves the state as it is). -/
def orElse (a b : St → ℕ × St) (s : St) : ℕ × St :=
  let r := a s
  if r.1 = 0 then b r.2 else r

/-- models: stator/symbolic/numeric.hpp:222-230 `while ((--iterations) && (status != 2))`; the first
argument is the number of steps still allowed. -/
def iterate (step : St → ℕ × St) : ℕ → ℕ → St → ℕ × St
  | 0, status, s => (status, s)
  | n + 1, status, s =>
    if status = 2 then (status, s)
    else
      let r := step s
      if r.1 = 0 then (0, r.2) else iterate step n r.1 r.2

/-- The number of iterations: 0 stands for the largest `size_t`. -/
def iters (maxSize iterations : ℕ) : ℕ := if iterations = 0 then maxSize else iterations

/-- Common shape of models: stator/symbolic/numeric.hpp:207-233 and 240-270. The result is the
return value and the final `x`. -/
noncomputable def solveWith (step : St → ℕ × St) (f : Obj) (maxSize : ℕ) (x : ℝ) (lo hi : EReal)
    (iterations : ℕ) : Bool × ℝ :=
  if f x 0 = 0 then (true, x)
  else
    let r := iterate step (iters maxSize iterations - 1) 1 ⟨x, lo, hi, f x⟩
    (decide (r.1 = 2), r.2.x)

/-- models: stator/symbolic/numeric.hpp:207-233 `newton_raphson`; `prec` is `ldexp(1.0, 1 - digits)`. -/
noncomputable def newtonRaphson (f : Obj) (maxSize : ℕ) (prec : ℝ) (x : ℝ) (lo hi : EReal)
    (iterations : ℕ) : Bool × ℝ :=
  solveWith (orElse (newtonStep f prec) (bisectStep f prec)) f maxSize x lo hi iterations

/-- models: stator/symbolic/numeric.hpp:240-270 `halleys_method`. -/
noncomputable def halley (f : Obj) (z : Bool) (maxSize : ℕ) (prec : ℝ) (x : ℝ) (lo hi : EReal)
    (iterations : ℕ) : Bool × ℝ :=
  solveWith (orElse (halleyStep f z prec) (orElse (newtonStep f prec) (bisectStep f prec))) f maxSize
    x lo hi iterations

/-- models: stator/symbolic/numeric.hpp:296-322 the loop of `bisection`; `none` = iterations used up,
`some x` = converged. `x` is not changed in the loop. -/
noncomputable def bisectLoop (f : ℝ → ℝ) (prec : ℝ) (x : ℝ) : ℕ → ℝ → ℝ → Bool → Option ℝ
  | 0, _, _, _ => none
  | n + 1, lo, hi, sHigh =>
    let mid := (lo + hi) / 2
    let v := f mid
    if |mid - x| < |prec * mid| ∨ v = 0 ∨ mid = lo ∨ mid = hi then some mid
    else if signbit v = sHigh then bisectLoop f prec x n lo mid (signbit v)
    else bisectLoop f prec x n mid hi sHigh

/-- models: stator/symbolic/numeric.hpp:272-328 `bisection` with finite bounds (infinite ones are
rejected at once); the result is the return value and the final `x`. -/
noncomputable def bisection (f : ℝ → ℝ) (maxSize : ℕ) (prec : ℝ) (x lo hi : ℝ) (iterations : ℕ) :
    Bool × ℝ :=
  if lo ≥ hi then (false, x)
  else if signbit (f lo) = signbit (f hi) then (false, x)
  else
    let x := if |f lo| < |f hi| then lo else hi
    match bisectLoop f prec x (iters maxSize iterations - 1) lo hi (signbit (f hi)) with
    | some m => (true, m)
    | none => (false, x)

end Stator.Num
