import Verif.Poly.Ops
import Mathlib.Data.Real.Sqrt
import Mathlib.Analysis.SpecialFunctions.Pow.Real

/-!
# Model of the root counting, root bounding and closed-form root finding on `sym::Polynomial`

Exact arithmetic, as in Verif/Poly/Ops.lean.
-/

namespace Stator.Pol

variable {K : Type}

/-- models: stator/symbolic/polynomial.hpp:1222 and 1101
`(f[i] != 0) * (1 - 2 * std::signbit(f[i]))`. -/
def signOf [Zero K] [LinearOrder K] (c : K) : ℤ :=
  if c ≠ 0 then (if c < 0 then -1 else 1) else 0

/-- models: stator/symbolic/polynomial.hpp:1216-1227 `descartes_rule_of_signs`. -/
def descartes [Zero K] [LinearOrder K] {n : ℕ} (f : Arr K n) : Option ℕ := do
  let s ← forUp (fun i (s : ℕ × ℤ) => do
    let c ← rd f i
    let current := signOf c
    some (s.1 + (if current ≠ 0 ∧ s.2 ≠ 0 ∧ current ≠ s.2 then 1 else 0),
      if current ≠ 0 then current else s.2)) 0 (n + 1) (0, 0)
  some s.1

/-- models: stator/symbolic/polynomial.hpp:1253-1256 `budan_01_test`. -/
def budan [CommRing K] [LinearOrder K] {n : ℕ} (f : Arr K n) : Option ℕ := do
  let g ← invertTaylorShift f
  descartes g

/-- models: stator/symbolic/polynomial.hpp:1268-1271 `alesina_galuzzi_test`. -/
def alesinaGaluzzi [CommRing K] [LinearOrder K] {n : ℕ} (f : Arr K n) (a b : K) : Option ℕ := do
  let g ← shift f a
  let h ← scale g (b - a)
  budan h

/-- models: stator/symbolic/polynomial.hpp:1288-1290: the effective order,
`while ((real_order > 0) && (f[real_order] == 0)) --real_order;` -/
def realOrder [Zero K] [DecidableEq K] {n : ℕ} (f : Arr K n) : ℕ → Option ℕ
  | 0 => some 0
  | i + 1 => do
    let c ← rd f (i + 1)
    if c = 0 then realOrder f i else some (i + 1)

/-- models: stator/symbolic/polynomial.hpp:1295-1302 the loop over `k` for one `m`; the state is
`times_used` and `tempub` (`none` = infinity). `1 << t` is taken as `2^t` (in C++ it overflows an
`int` for `t ≥ 31`). -/
noncomputable def lmqInner {n : ℕ} (f : Arr ℝ n) (m : ℕ) (order : ℕ)
    (times : Arr ℕ n) : Option (Arr ℕ n × Option ℝ) :=
  forDown (fun c (s : Arr ℕ n × Option ℝ) => do
    let k := m + c
    let fk ← rd f k
    let fm ← rd f m
    if fk ≠ 0 ∧ (decide (fk < 0)) ≠ decide (fm < 0) then
      let t ← rd s.1 k
      let temp := (-(2 : ℝ) ^ t * fm / fk) ^ ((1 : ℝ) / ((k - m : ℕ) : ℝ))
      let times ← wr s.1 k (t + 1)
      some (times, some (match s.2 with | none => temp | some u => min temp u))
    else some s) (order - m) (times, none)

/-- models: stator/symbolic/polynomial.hpp:1292-1303 the loop over `m`; the state is `times_used` and
`ub`, `none` for an infinite `ub`. -/
noncomputable def lmqOuter {n : ℕ} (f : Arr ℝ n) (order : ℕ) :
    Option (Arr ℕ n × Option ℝ) :=
  forDown (fun c (s : Arr ℕ n × Option ℝ) => do
    let m := c - 1
    let fm ← rd f m
    let fo ← rd f order
    if fm ≠ 0 ∧ (decide (fm < 0)) ≠ decide (fo < 0) then
      let r ← lmqInner f m order s.1
      some (r.1, match r.2, s.2 with
        | some t, some u => some (max t u)
        | _, _ => none)
    else some s) order ((fun _ => 1), some 0)

/-- models: stator/symbolic/polynomial.hpp:1282-1305 `LMQ_upper_bound`; the outer `Option` is bounds
checking, the inner one is `none` for infinity. -/
noncomputable def lmqUpper {n : ℕ} (f : Arr ℝ n) : Option (Option ℝ) := do
  let order ← realOrder f n
  let s ← lmqOuter f order
  some s.2

/-- models: stator/symbolic/polynomial.hpp:1324-1327 `LMQ_lower_bound`: `1.0 / LMQ_upper_bound` of the
reversed coefficients; `none` = infinity (from `1.0 / 0`). -/
noncomputable def lmqLower {n : ℕ} (f : Arr ℝ n) : Option (Option ℝ) := do
  let u ← lmqUpper (fun i => f i.rev : Arr ℝ n)
  some (match u with
    | none => some 0
    | some u => if u = 0 then none else some (1 / u))

/-- models: stator/symbolic/polynomial.hpp:758-761 order 0: no roots. -/
def solve0 (_ : Arr ℝ 0) : List ℝ := []

/-- models: stator/symbolic/polynomial.hpp:768-774 order 1. -/
noncomputable def solve1 (f : Arr ℝ 1) : List ℝ := if f 1 ≠ 0 then [-f 0 / f 1] else []

/-- `std::copysign(a, b)` for `a ≥ 0` (the sign of a zero is not modelled: `+0`). -/
noncomputable def copysign (a b : ℝ) : ℝ := if b < 0 then -|a| else |a|

/-- models: stator/symbolic/polynomial.hpp:783-823 order 2; `maxSqrt` is the square root of the
largest `double`. -/
noncomputable def solve2 (maxSqrt : ℝ) (f : Arr ℝ 2) : Option (List ℝ) :=
  if f 2 = 0 then do
    let g ← changeOrder 1 f
    some (solve1 g)
  else do
    -- `f = expand(f / f[2])`
    let g ← divConst f (fun _ => f 2 : Arr ℝ 0)
    let f0 ← rd g 0
    let f1 ← rd g 1
    if f0 = 0 then some [min (-f1) 0, max (-f1) 0]
    else if |f1| > maxSqrt then
      let a := -f1
      let b := -f0 / f1
      some (if a > b then [b, a] else [a, b])
    else
      let arg := f1 * f1 - 4 * f0
      if arg < 0 then some []
      else if arg = 0 then some [-f1 * (1 / 2)]
      else
        let root1 := -(f1 + copysign (Real.sqrt arg) f1) * (1 / 2)
        let root2 := f0 / root1
        some (if root1 > root2 then [root2, root1] else [root1, root2])

end Stator.Pol
