import Verif.Poly.Mem

/-!
# Model of the operations on `sym::Polynomial`

Arithmetic is exact: `Coeff_t` is an arbitrary field (ring where no division happens).
-/

namespace Stator.Pol

variable {K : Type*}

/-- models: stator/symbolic/polynomial.hpp:86 default constructor, `Base::fill(empty_sum(Coeff_t()))`. -/
def zeros [Zero K] (n : ℕ) : Arr K n := fun _ => 0

/-- models: stator/symbolic/polynomial.hpp:98-108 construction from an initializer list; too long a
list throws (`none`). -/
def ofList [Zero K] (n : ℕ) (l : List K) : Option (Arr K n) :=
  if l.length > n + 1 then none else some fun i => l.getD i 0

/-- models: stator/symbolic/polynomial.hpp:110-122 construction from an iterator range; too long a
range throws (`none`). The `for` loop copies while both `it != last` and `i <= Order`. -/
def ofRange [Zero K] (n : ℕ) : List K → ℕ → Arr K n → Option (Arr K n)
  | [], _, a => some a
  | c :: l, i, a => if i ≤ n then (wr a i c).bind (ofRange n l (i + 1)) else none

/-- models: stator/symbolic/polynomial.hpp:127-135 construction from a polynomial of lower order
(`N ≤ Order`). -/
def promote [Zero K] {n : ℕ} (m : ℕ) (f : Arr K n) : Option (Arr K m) :=
  forUp (fun i a => do let c ← rd f i; wr a i c) 0 (n + 1) (zeros m)

/-- models: stator/symbolic/polynomial.hpp:138-143 unary minus. -/
def neg [Zero K] [Neg K] {n : ℕ} (f : Arr K n) : Option (Arr K n) :=
  forUp (fun i a => do let c ← rd f i; wr a i (-c)) 0 (n + 1) (zeros n)

/-- models: stator/symbolic/polynomial.hpp:151-158 `change_order<NewOrder>`:
`std::copy(f.begin(), f.begin() + std::min(Order, NewOrder) + 1, retval.begin())`. -/
def changeOrder [Zero K] {n : ℕ} (m : ℕ) (f : Arr K n) : Option (Arr K m) :=
  forUp (fun i a => do let c ← rd f i; wr a i c) 0 (min n m + 1) (zeros m)

/-- models: stator/symbolic/polynomial.hpp:221-264 numeric `sub` at a finite argument (Horner). -/
def horner [CommRing K] {n : ℕ} (f : Arr K n) (x : K) : Option K :=
  if n = 0 then rd f 0
  else do
    let s ← forDown (fun i s => do let c ← rd f i; some (s * x + c)) n 0
    let c ← rd f 0
    some (s * x + c)

/-- models: stator/symbolic/polynomial.hpp:266-310 symbolic `sub` through `PolySubWorker<Order>`;
`stage` is the template argument. (Here `x` is a value of the ring.) -/
def polySubWorker [CommRing K] {n : ℕ} (f : Arr K n) (x : K) : ℕ → Option K
  | 0 => rd f n
  | stage + 1 => do
    let c ← rd f (n - (stage + 1))
    let r ← polySubWorker f x stage
    some (c + x * r)

/-- A value of `Coeff_t` with infinities: `fin v`, or `inf neg`. -/
inductive Ext (K : Type*) where
  | fin (v : K)
  | inf (neg : Bool)
deriving DecidableEq

/-- models: stator/symbolic/polynomial.hpp:221-250 numeric `sub` at `x = ±infinity`
(`neg`: the sign of `x`). `f[i] * x` for `f[i] ≠ 0` is the infinity with the product of the signs.
Simplification: for `Order == 0` the code returns `f[0]` before looking at `x`, as this does. -/
def hornerInf [Field K] [LinearOrder K] {n : ℕ} (f : Arr K n) (neg : Bool) : ℕ → Option (Ext K)
  | 0 => (rd f 0).map Ext.fin
  | i + 1 => do
    let c ← rd f (i + 1)
    if c ≠ 0 then
      if n % 2 = 1 then some (.inf (xor (decide (c < 0)) neg))
      else some (.inf (decide (c < 0)))
    else hornerInf f neg i

/-- models: stator/symbolic/polynomial.hpp:237-249, the call of the loop from `i = Order`. -/
def evalInf [Field K] [LinearOrder K] {n : ℕ} (f : Arr K n) (neg : Bool) : Option (Ext K) :=
  hornerInf f neg n

/-- models: stator/symbolic/polynomial.hpp:319-338 `eval_derivatives<D>`. -/
def evalDerivatives [CommRing K] {n : ℕ} (D : ℕ) (f : Arr K n) (x : K) : Option (Arr K D) := do
  let c ← rd f n
  let r ← wr (zeros D) 0 c
  let r ← forDown (fun i r => do
    let r ← forDown (fun j r => do
      let rj ← rd r j
      let rj1 ← rd r (j - 1)
      wr r j (rj * x + rj1)) (min D (n - (i - 1))) r
    let r0 ← rd r 0
    let c ← rd f (i - 1)
    wr r 0 (r0 * x + c)) n r
  let (_, r) ← forUp (fun i (s : K × Arr K D) => do
    let cnst := s.1 * (i : K)
    let ri ← rd s.2 i
    let r ← wr s.2 i (ri * cnst)
    some (cnst, r)) 2 (D - 1) ((1 : K), r)
  some r

/-- models: stator/symbolic/simplify.hpp:369-387 sum and difference of two polynomials;
`op` is `Op::apply`. -/
def addOp [Zero K] (op : K → K → K) {n m : ℕ} (f : Arr K n) (g : Arr K m) :
    Option (Arr K (max m n)) := do
  let r ← forUp (fun i r => do let a ← rd f i; let b ← rd g i; wr r i (op a b))
    0 (min n m + 1) (zeros (max m n))
  let r ← forUp (fun i r => do let a ← rd f i; wr r i (op a 0)) (min n m + 1) (n - min n m) r
  forUp (fun i r => do let b ← rd g i; wr r i (op 0 b)) (min n m + 1) (m - min n m) r

/-- models: stator/symbolic/simplify.hpp:389-402 product of two polynomials. -/
def mulPoly [CommRing K] {m n : ℕ} (f : Arr K m) (g : Arr K n) : Option (Arr K (m + n)) :=
  forUp (fun i r =>
    let lo := if i > n then i - n else 0
    forUp (fun j r => do
      let ri ← rd r i
      let a ← rd f j
      let b ← rd g (i - j)
      wr r i (ri + a * b)) lo (min i m + 1 - lo) r) 0 (n + m + 1) (zeros (m + n))

/-- models: stator/symbolic/simplify.hpp:404-414 quotient by a polynomial of order 0. -/
def divConst [Field K] {m : ℕ} (f : Arr K m) (g : Arr K 0) : Option (Arr K m) :=
  forUp (fun i r => do
    let ri ← rd r i
    let a ← rd f i
    let b ← rd g 0
    wr r i (ri + a / b)) 0 (m + 1) (zeros m)

/-- models: stator/symbolic/simplify.hpp:286-308 product with the variable. -/
def mulVar [Zero K] {n : ℕ} (f : Arr K n) : Option (Arr K (n + 1)) := do
  let r ← wr (zeros (n + 1)) 0 0
  forUp (fun i r => do let c ← rd f i; wr r (1 + i) c) 0 (n + 1) r

/-- models: stator/symbolic/simplify.hpp:310-324 `x^Power` as a polynomial
(`x` itself is `Polynomial<1>{0,1}`). -/
def varPow [Zero K] [One K] (p : ℕ) : Option (Arr K p) := wr (zeros p) p 1

/-- models: stator/symbolic/polynomial.hpp:396-408 `gcd` by a constant; `inf` stands for
`std::numeric_limits<Coeff_t>::infinity()`. -/
def divideConst [Field K] [DecidableEq K] (inf : K) {n1 : ℕ} (f : Arr K n1) (g : Arr K 0) :
    Option (Arr K n1 × Arr K 0) := do
  let g0 ← rd g 0
  if g0 = 0 then
    let q ← wr (zeros n1) 0 inf
    some (q, zeros 0)
  else
    let q ← mulPoly f (fun _ => 1 / g0 : Arr K 0)
    some (q, zeros 0)

/-- models: stator/symbolic/polynomial.hpp:377-391 the long division loop of `gcd`, for a divisor
whose leading coefficient is not zero. -/
def longDivision [Field K] {n1 n2 : ℕ} (f : Arr K n1) (g : Arr K n2) :
    Option (Arr K n1 × Arr K n1) :=
  forDown (fun c (s : Arr K n1 × Arr K n1) => do
    -- `k` runs from `Order1` down to `Order2`
    let k := c - 1 + n2
    let rk ← rd s.2 k
    let gl ← rd g n2
    let q ← wr s.1 (k - n2) (rk / gl)
    let r ← forUp (fun j r => do
      let rv ← rd r (k + j - n2)
      let qv ← rd q (k - n2)
      let gv ← rd g j
      wr r (k + j - n2) (rv - qv * gv)) 0 (n2 + 1) s.2
    some (q, r)) (n1 + 1 - n2) (zeros n1, f)

/-- models: stator/symbolic/polynomial.hpp:361-408 `gcd` (Euclidean division), returning quotient and
remainder. -/
def divide [Field K] [DecidableEq K] (inf : K) {n1 : ℕ} (f : Arr K n1) :
    (n2 : ℕ) → Arr K n2 → Option (Arr K n1 × Arr K (n2 - 1))
  | 0, g => divideConst inf f g
  | n2 + 1, g => do
    let gl ← rd g (n2 + 1)
    if gl = 0 then
      let g' ← changeOrder n2 g
      let lower ← divide inf f n2 g'
      let r ← promote n2 lower.2
      some (lower.1, r)
    else
      let qr ← longDivision f g
      let r ← changeOrder n2 qr.2
      some (qr.1, r)

/-- models: stator/symbolic/polynomial.hpp:423-433 `derivative` in the polynomial's own variable,
order > 0 (otherwise the code returns the compile-time `Null`, 436-444). -/
def derivArr [CommRing K] {n : ℕ} (f : Arr K (n + 1)) : Option (Arr K n) :=
  forUp (fun i r => do let c ← rd f (i + 1); wr r i (c * ((i : K) + 1))) 0 (n + 1) (zeros n)

/-- models: stator/symbolic/polynomial.hpp:494-509 `shift_function(f, t)`. -/
def shift [CommRing K] [DecidableEq K] {n : ℕ} (f : Arr K n) (t : K) : Option (Arr K n) :=
  if t = 0 then some f
  else do
    let c ← rd f n
    let r ← wr (zeros n) 0 c
    forDown (fun i r => do
      let r ← forDown (fun j r => do
        let rj ← rd r j
        let rj1 ← rd r (j - 1)
        wr r j (rj * t + rj1)) (n - (i - 1)) r
      let r0 ← rd r 0
      let c ← rd f (i - 1)
      wr r 0 (r0 * t + c)) n r

/-- models: stator/symbolic/polynomial.hpp:516-526 `shift_function(f, Unity)`. -/
def shiftOne [CommRing K] {n : ℕ} (f : Arr K n) : Option (Arr K n) := do
  let c ← rd f n
  let r ← wr (zeros n) 0 c
  forDown (fun i r => do
    let r ← forDown (fun j r => do
      let rj ← rd r j
      let rj1 ← rd r (j - 1)
      wr r j (rj + rj1)) (n - (i - 1)) r
    let r0 ← rd r 0
    let c ← rd f (i - 1)
    wr r 0 (r0 + c)) n r

/-- models: stator/symbolic/polynomial.hpp:566-576 `invert_taylor_shift`. -/
def invertTaylorShift [CommRing K] {n : ℕ} (f : Arr K n) : Option (Arr K n) := do
  let c ← rd f 0
  let r ← wr (zeros n) 0 c
  forDown (fun i r => do
    let r ← forDown (fun j r => do
      let rj ← rd r j
      let rj1 ← rd r (j - 1)
      wr r j (rj + rj1)) (n - (i - 1)) r
    let r0 ← rd r 0
    let c ← rd f (n - (i - 1))
    wr r 0 (r0 + c)) n r

/-- models: stator/symbolic/polynomial.hpp:580-586 `reflect_poly`; the loop visits `i = 1, 3, 5, …`
up to `Order`. -/
def reflect [CommRing K] {n : ℕ} (f : Arr K n) : Option (Arr K n) :=
  forUp (fun c g => do let v ← rd g (1 + 2 * c); wr g (1 + 2 * c) (-v)) 0 ((n + 1) / 2) f

/-- models: stator/symbolic/polynomial.hpp:591-598 `scale_poly`. -/
def scale [CommRing K] {n : ℕ} (f : Arr K n) (a : K) : Option (Arr K n) := do
  let s ← forUp (fun i (s : K × Arr K n) => do
    let factor := s.1 * a
    let v ← rd s.2 i
    let g ← wr s.2 i (v * factor)
    some (factor, g)) 1 n ((1 : K), f)
  some s.2

/-- models: stator/symbolic/polynomial.hpp:736-741 `deflate_polynomial(a, Null)`:
`std::copy(a.begin()+1, a.end(), b.begin())`; `a` has order `n + 1`. -/
def deflateZero [Zero K] {n : ℕ} (a : Arr K (n + 1)) : Option (Arr K n) :=
  forUp (fun i b => do let c ← rd a (1 + i); wr b i c) 0 (n + 1) (zeros n)

/-- models: stator/symbolic/polynomial.hpp:714-725 the `while (i_t >= i_b)` loop of
`deflate_polynomial`; indices are `size_t`, with arithmetic modulo `S` (2^64 on usual
targets), so `i_t + 1` wraps. `sp` stands for
`subtraction_precision` (stator/symbolic/precision.hpp:41-53), whose value (from `std::frexp`) is not
modelled. `none` also when `fuel` runs out. -/
def deflateLoop [Field K] (S : ℕ) (sp : K → K → ℕ) {n : ℕ} (a : Arr K (n + 1)) (root : K) :
    ℕ → ℕ → ℕ → Arr K n → Option (Arr K n)
  | 0, it, ib, b => if it ≥ ib then none else some b
  | fuel + 1, it, ib, b =>
    if it ≥ ib then do
      let bt ← rd b ((it + 1) % S)
      let d := root * bt
      let bb ← rd b ib
      let ab ← rd a ib
      let at1 ← rd a ((it + 1) % S)
      if sp bb ab > sp at1 (-d) then
        let bp ← rd b (ib - 1)
        let b ← wr b ib ((bp - ab) / root)
        deflateLoop S sp a root fuel it (ib + 1) b
      else
        let b ← wr b it (at1 + d)
        deflateLoop S sp a root fuel (it - 1) ib b
    else some b

/-- models: stator/symbolic/polynomial.hpp:703-727 `deflate_polynomial(a, root)`; `a` has order
`n + 1`, so `i_t = Order - 2` wraps around for order 1. -/
def deflate [Field K] [DecidableEq K] (S : ℕ) (sp : K → K → ℕ) {n : ℕ} (a : Arr K (n + 1)) (root : K) :
    Option (Arr K n) :=
  if root = 0 then deflateZero a
  else do
    let c ← rd a (n + 1)
    let b ← wr (zeros n) n c
    let a0 ← rd a 0
    let b ← wr b 0 (-a0 / root)
    deflateLoop S sp a root (n + 1) ((n + S - 1) % S) 1 b

end Stator.Pol
