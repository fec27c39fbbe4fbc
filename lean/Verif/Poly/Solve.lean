import Verif.Poly.Sturm
import Verif.Poly.Isolate
import Verif.Poly.Cubic

/-!
# Model of the general root solver (stator/symbolic/polynomial.hpp:1720-1889)

Exact arithmetic. The `while` loop of the Sturm solver is run with a fuel that bounds the number of its
iterations.
-/

namespace Stator.Pol

/-- models: stator/symbolic/polynomial.hpp:1744, 1788, 1836, 1844: the lambda `f_bisection` and the call
`bisection(f_bisection, root, a, b)` with default arguments (`root` is not initialised; 0 here). -/
noncomputable def callBisection (E : Env) {n : ℕ} (f : Arr ℝ n) (a b : ℝ) : Bool × ℝ :=
  Num.bisection (fun x => (horner f x).getD 0) (E.S - 1) E.prec 0 a b 0

/-- A region of the Sturm solver: `(xmin, xmax, roots)`. -/
abbrev Region := ℝ × ℝ × ℕ

/-- models: stator/orphan/stack_vector.hpp:115-122 `push_back` on the vector `regions`, kept with its
last element first. -/
def pushRegion (cap : ℕ) (r : Region) (l : List Region) : Option (List Region) :=
  if l.length + 1 ≤ cap then some (r :: l) else none

/-- models: stator/symbolic/polynomial.hpp:1783-1796 and 1797-1810: what is done with one half of a
region. Simplification: `try_bisection` is never set to `false`, the branches for that are left out. -/
noncomputable def sturmHalf (E : Env) {n : ℕ} (f : Arr ℝ n) (lo hi : ℝ) (k : ℕ)
    (s : List Region × List ℝ) : Option (List Region × List ℝ) :=
  if k > 1 then do
    let r ← pushRegion n (lo, hi, k) s.1
    some (r, s.2)
  else if k = 1 then
    match callBisection E f lo hi with
    | (true, root) => do
      let ret ← svPush n s.2 root
      some (s.1, ret)
    | (false, _) => do
      let r ← pushRegion n (lo, hi, k) s.1
      some (r, s.2)
  else some s

/-- models: stator/symbolic/polynomial.hpp:1746-1811 the body of the loop of
`solve_real_positive_roots_poly_sturm` after popping a region. -/
noncomputable def sturmStep (E : Env) (eps : ℝ) {n : ℕ} (f : Arr ℝ n) (c : SturmChain ℝ n)
    (xmin xmax : ℝ) (roots : ℕ) (s : List Region × List ℝ) : Option (List Region × List ℝ) :=
  if |xmin - xmax| ≤ eps * min |xmin| |xmax| then do
    let ret ← svPushAll n s.2 (List.replicate roots ((xmin + xmax) / 2))
    some (s.1, ret)
  else do
    let xmid := (xmin + xmax) / 2
    let a ← c.roots xmin xmid
    let b ← c.roots xmid xmax
    if a + b ≠ roots then
      let xmid := (xmid + xmax) / 2
      let a ← c.roots xmin xmid
      let b ← c.roots xmid xmax
      if a + b ≠ roots then
        let ret ← svPush n s.2 ((xmin + xmax) / 2)
        some (s.1, ret)
      else
        let s ← sturmHalf E f xmin xmid a s
        sturmHalf E f xmid xmax b s
    else
      let s ← sturmHalf E f xmin xmid a s
      sturmHalf E f xmid xmax b s

/-- models: stator/symbolic/polynomial.hpp:1746 `while(!regions.empty())` and 1813. -/
noncomputable def sturmLoop (E : Env) (eps : ℝ) {n : ℕ} (f : Arr ℝ n) (c : SturmChain ℝ n) :
    ℕ → List Region × List ℝ → Out (List ℝ)
  | _, ([], ret) => .ok ret
  | 0, _ => .more
  | fuel + 1, ((xmin, xmax, roots) :: rest, ret) =>
    (Out.lift (sturmStep E eps f c xmin xmax roots (rest, ret))).bind fun s =>
      sturmLoop E eps f c fuel s

/-- models: stator/symbolic/polynomial.hpp:1724-1814 `solve_real_positive_roots_poly_sturm`; `none` as
lower bound is `+∞`. `inf`: see `divide`; the quotients of the chain are not used. -/
noncomputable def solveSturm (E : Env) (eps inf : ℝ) {n : ℕ} (fuel : ℕ) (f : Arr ℝ n) : Out (List ℝ) :=
  (Out.lift (lmqUpper f)).bind fun u =>
  (Out.lift u).bind fun max =>
  (Out.lift (lmqLower f)).bind fun l =>
  match l with
  | none => .ok []
  | some min =>
    if min > max then .ok []
    else (Out.lift (sturmChain inf f)).bind fun c =>
      (Out.lift (c.roots min max)).bind fun k =>
      sturmLoop E eps f c fuel (([(min, max, k)] : List Region).take n, [])

/-- models: stator/symbolic/polynomial.hpp:1836-1853: bisection of every interval, in order; the result
`none` is the exception "Bisection failed!". -/
noncomputable def bisectAll (E : Env) {n : ℕ} (f : Arr ℝ n) :
    List (Option ℝ × Option ℝ) → List ℝ → Out (Option (List ℝ))
  | [], ret => .ok (some ret)
  | (some a, some b) :: l, ret =>
    match callBisection E f a b with
    | (true, root) => (Out.lift (svPush n ret root)).bind fun ret => bisectAll E f l ret
    | (false, _) => .ok none
  | _ :: _, _ => .ok none  -- an infinite bound is rejected by `bisection`

/-- models: stator/symbolic/polynomial.hpp:1648-1650 `PolyRootBounder`. -/
inductive Bounder
  | sturm
  | vca
  | vas

/-- models: stator/symbolic/polynomial.hpp:1822-1855 `solve_real_positive_roots_poly`; the outer `none`
is the exception. -/
noncomputable def solvePositive (E : Env) (eps inf peps : ℝ) (mode : Bounder) {n : ℕ} (fuel : ℕ)
    (f : Arr ℝ n) : Out (Option (List ℝ)) :=
  match mode with
  | .sturm => (solveSturm E eps inf fuel f).bind fun l => .ok (some l)
  | .vca => (vca fuel f).bind fun bounds =>
    (bisectAll E f (bounds.map fun b => (some b.1, some b.2)) []).bind fun r =>
      .ok (r.map fun l => l.insertionSort (· ≤ ·))
  | .vas => (vas peps fuel f).bind fun bounds =>
    (bisectAll E f bounds []).bind fun r => .ok (r.map fun l => l.insertionSort (· ≤ ·))

/-- models: stator/symbolic/polynomial.hpp:1880-1888: the part of the general `solve_real_roots` for
non-zero `f[0]` and `f[Order]`. -/
noncomputable def solveBoth (E : Env) (eps inf peps : ℝ) (mode : Bounder) {n : ℕ} (fuel : ℕ)
    (f : Arr ℝ n) : Out (Option (List ℝ)) :=
  (solvePositive E eps inf peps mode fuel f).bind fun r =>
  match r with
  | none => .ok none
  | some roots => (Out.lift (reflect f)).bind fun g =>
    (solvePositive E eps inf peps mode fuel g).bind fun r =>
    match r with
    | none => .ok none
    | some negRoots =>
      (Out.lift (svPushAll n roots (negRoots.map fun x => -x))).bind fun l =>
      .ok (some (l.insertionSort (· ≤ ·)))

/-- models: stator/symbolic/polynomial.hpp:1867-1889 `solve_real_roots` for order 4 and above, and the
overloads 758-1006 for orders 0 to 3. The recursive calls at 1873 and 1878 do not pass on the template
arguments: they use the default bounder, Sturm chains. -/
noncomputable def solveRealRoots (E : Env) (eps inf peps : ℝ) (mode : Bounder) :
    {n : ℕ} → (fuel : ℕ) → Arr ℝ n → Out (Option (List ℝ))
  | 0, _, f => .ok (some (solve0 f))
  | 1, _, f => .ok (some (solve1 f))
  | 2, _, f => (Out.lift (solve2 E.maxSqrt f)).bind fun l => .ok (some l)
  | 3, _, f => (Out.lift (solve3 E f)).bind fun l => .ok (some l)
  | n + 4, fuel, f =>
    if f 0 = 0 then
      (Out.lift (deflateZero f)).bind fun g => solveRealRoots E eps inf peps .sturm fuel g
    else if f (Fin.last (n + 4)) = 0 then
      (Out.lift (changeOrder (n + 3) f)).bind fun g => solveRealRoots E eps inf peps .sturm fuel g
    else solveBoth E eps inf peps mode fuel f

end Stator.Pol
