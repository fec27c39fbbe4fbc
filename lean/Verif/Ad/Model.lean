import Verif.Rt.Eval
import Verif.Rt.Simplify
import Verif.Poly.Mem

/-!
# Model: automatic differentiation (`stator/symbolic/ad.hpp`)

`ad<Nd>(f, x = a)` returns an `Eigen::Matrix<double, Nd+1, 1>`. As for the polynomials, the array is
kept as it is (`Arr ℝ Nd`), an access outside it is `none`. `double` is idealised as `ℝ`; where the
arithmetic leaves the reals (a division by zero, the logarithm of a non-positive number, a power
outside its domain, the NaN of a variable other than `x`) the result is `none` too: the array returned
by the code then contains NaN or an infinity.
-/

namespace Stator.Ad

open Stator.Pol

/-- `x / y`; `none` = division by zero. -/
noncomputable def quo (x y : ℝ) : Option ℝ := open Classical in if y = 0 then none else some (x / y)

/-- `Matrix::Zero()`. -/
def zeros (N : ℕ) : Arr ℝ N := fun _ => 0

/-- `s[k] += v` -/
def addTo {N : ℕ} (s : Arr ℝ N) (k : ℕ) (v : ℝ) : Option (Arr ℝ N) :=
  (rd s k).bind fun x => wr s k (x + v)

/-- A constant. models: ad.hpp:28-34. -/
def adConst (N : ℕ) (v : ℝ) : Option (Arr ℝ N) := wr (zeros N) 0 v

/-- A variable. models: ad.hpp:36-46. -/
def adVar (N : ℕ) (n x : List Char) (a : ℝ) : Option (Arr ℝ N) :=
  if n = x then
    (wr (zeros N) 0 a).bind fun r => if N > 0 then wr r 1 1 else some r
  else none

/-- Sum. models: ad.hpp:48-51 (the sum of the two Eigen vectors). -/
def adAdd {N : ℕ} (l r : Arr ℝ N) : Option (Arr ℝ N) := some fun i => l i + r i

/-- Difference. models: ad.hpp:53-56. -/
def adSub {N : ℕ} (l r : Arr ℝ N) : Option (Arr ℝ N) := some fun i => l i - r i

/-- Product. models: ad.hpp:58-70. -/
def adMul {N : ℕ} (l r : Arr ℝ N) : Option (Arr ℝ N) := do
  let l0 ← rd l 0
  let r0 ← rd r 0
  let s ← wr (zeros N) 0 (l0 * r0)
  forUp (fun k s =>
    forUp (fun i s => do
      let x ← rd l i
      let y ← rd r (k - i)
      addTo s k (x * y)) 0 (k + 1) s) 1 N s

/-- Quotient. models: ad.hpp:72-87. -/
noncomputable def adDiv {N : ℕ} (l r : Arr ℝ N) : Option (Arr ℝ N) := do
  let l0 ← rd l 0
  let r0 ← rd r 0
  let q ← quo l0 r0
  let s ← wr (zeros N) 0 q
  forUp (fun k s => do
    let lk ← rd l k
    let s ← wr s k lk
    let s ← forUp (fun i s => do
      let x ← rd s i
      let y ← rd r (k - i)
      addTo s k (-(x * y))) 0 k s
    let v ← rd s k
    let v ← quo v r0
    wr s k v) 1 N s

/-- Exponential. models: ad.hpp:89-102. -/
noncomputable def adExp {N : ℕ} (g : Arr ℝ N) : Option (Arr ℝ N) := do
  let g0 ← rd g 0
  let s ← wr (zeros N) 0 (Real.exp g0)
  forUp (fun k s => do
    let s ← forUp (fun i s => do
      let x ← rd g i
      let y ← rd s (k - i)
      addTo s k (i * x * y)) 1 k s
    let v ← rd s k
    let v ← quo v k
    wr s k v) 1 N s

/-- `std::log`; `none` = not a real number. -/
noncomputable def log? (x : ℝ) : Option ℝ :=
  open Classical in if 0 < x then some (Real.log x) else none

/-- Logarithm. models: ad.hpp:104-118. -/
noncomputable def adLog {N : ℕ} (g : Arr ℝ N) : Option (Arr ℝ N) := do
  let g0 ← rd g 0
  let l0 ← log? g0
  let s ← wr (zeros N) 0 l0
  forUp (fun k s => do
    let s ← forUp (fun i s => do
      let x ← rd s i
      let y ← rd g (k - i)
      addTo s k (i * x * y)) 1 (k - 1) s
    let v ← rd s k
    let gk ← rd g k
    let v ← quo v k
    let v ← quo (gk - v) g0
    wr s k v) 1 N s

/-- The common part of sine and cosine: the pair of arrays `(sin, cos)`.
models: ad.hpp:120-139, 141-160 (the two updates in the inner loop are in the other order for the
cosine; they write to different arrays and read entries below `k` only, so the order does not
matter). -/
noncomputable def adSinCos {N : ℕ} (g : Arr ℝ N) : Option (Arr ℝ N × Arr ℝ N) := do
  let g0 ← rd g 0
  let c ← wr (zeros N) 0 (Real.cos g0)
  let s ← wr (zeros N) 0 (Real.sin g0)
  forUp (fun k p => do
    let p ← forUp (fun i p => do
      let x ← rd g i
      let y ← rd p.2 (k - i)
      let s ← addTo p.1 k (i * x * y)
      let z ← rd s (k - i)
      let c ← addTo p.2 k (i * x * z)
      some (s, c)) 1 k p
    let v ← rd p.1 k
    let v ← quo v k
    let s ← wr p.1 k v
    let w ← rd p.2 k
    let w ← quo w (-(k : ℝ))
    let c ← wr p.2 k w
    some (s, c)) 1 N (s, c)

/-- models: ad.hpp:120-139. -/
noncomputable def adSin {N : ℕ} (g : Arr ℝ N) : Option (Arr ℝ N) := (adSinCos g).map Prod.fst

/-- models: ad.hpp:141-160. -/
noncomputable def adCos {N : ℕ} (g : Arr ℝ N) : Option (Arr ℝ N) := (adSinCos g).map Prod.snd

/-- `std::pow`; `none` = not a real number. -/
noncomputable def pow? (x y : ℝ) : Option ℝ :=
  open Classical in if powDom x y then some (x ^ y) else none

/-- Power with a constant exponent. models: ad.hpp:163-178. -/
noncomputable def adPowConst {N : ℕ} (g : Arr ℝ N) (a : ℝ) : Option (Arr ℝ N) := do
  let g0 ← rd g 0
  let p ← pow? g0 a
  let s ← wr (zeros N) 0 p
  forUp (fun k s => do
    let s ← forUp (fun i s => do
      let q ← quo ((a + 1) * i) k
      let x ← rd g i
      let y ← rd s (k - i)
      addTo s k ((q - 1) * x * y)) 1 k s
    let v ← rd s k
    let v ← quo v g0
    wr s k v) 1 N s

/-- Power with a variable exponent; `lnf` is `ad` of `log(lhs)`. models: ad.hpp:180-205. -/
noncomputable def adPow {N : ℕ} (f g lnf : Arr ℝ N) : Option (Arr ℝ N) := do
  let f0 ← rd f 0
  let g0 ← rd g 0
  let p ← pow? f0 g0
  let s ← wr (zeros N) 0 p
  forUp (fun m s => do
    let s ← forUp (fun j s =>
      forUp (fun i s => do
        let flnf ← forUp (fun k (acc : ℝ) => do
          let x ← rd f k
          let y ← rd lnf (m - i - j - k)
          some (acc + x * y)) 0 (m - i - j + 1) 0
        let ri ← rd s i
        let fj ← rd f j
        let gm ← rd g (m - i - j)
        let gj ← rd g j
        addTo s m (j * ri * (fj * gm + gj * flnf))) 0 (m - j + 1) s) 1 m s
    let s ← forUp (fun j s => do
      let x ← rd f (m - j)
      let y ← rd s j
      addTo s m (-(j * x * y))) 1 (m - 1) s
    let v ← rd s m
    let v ← quo v (m * f0)
    wr s m v) 1 N s

/-- `ad<Nd>(f, x = a)` on a runtime expression, with fuel. A node without an overload of its own
(negation, absolute value, ±, equations, array access, units, uncertainties, arrays, dictionaries) is
converted back to an `Expr` (the constructor `Expr(const RTBase &)` is not explicit) and visited
again. models: ad.hpp:28-251, runtime.hpp:159,470 (`Expr(const RTBase &)`). -/
noncomputable def ad (N : ℕ) (x : List Char) (a : ℝ) : ℕ → Expr ℝ → Res (Option (Arr ℝ N))
  | 0, _ => .diverge
  | _ + 1, .const v => .ok (adConst N v)
  | _ + 1, .var n => .ok (adVar N n x a)
  | n + 1, .un .exp u => do
    let g ← ad N x a n u
    .ok (g.bind adExp)
  | n + 1, .un .log u => do
    let g ← ad N x a n u
    .ok (g.bind adLog)
  | n + 1, .un .sin u => do
    let g ← ad N x a n u
    .ok (g.bind adSin)
  | n + 1, .un .cos u => do
    let g ← ad N x a n u
    .ok (g.bind adCos)
  | n + 1, .bin .add l r => do
    let l ← ad N x a n l
    let r ← ad N x a n r
    .ok (l.bind fun l => r.bind (adAdd l))
  | n + 1, .bin .sub l r => do
    let l ← ad N x a n l
    let r ← ad N x a n r
    .ok (l.bind fun l => r.bind (adSub l))
  | n + 1, .bin .mul l r => do
    let l ← ad N x a n l
    let r ← ad N x a n r
    .ok (l.bind fun l => r.bind (adMul l))
  | n + 1, .bin .div l r => do
    let l ← ad N x a n l
    let r ← ad N x a n r
    .ok (l.bind fun l => r.bind (adDiv l))
  | n + 1, .bin .pow l (.const c) => do
    let l ← ad N x a n l
    .ok (l.bind fun l => adPowConst l c)
  | n + 1, .bin .pow l r => do
    let f ← ad N x a n l
    let g ← ad N x a n r
    .ok (f.bind fun f => g.bind fun g => (adLog f).bind (adPow f g))
  | n + 1, e => ad N x a n e

end Stator.Ad
