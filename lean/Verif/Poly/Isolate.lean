import Verif.Poly.Roots

/-!
# Model of the real root isolation routines on `sym::Polynomial` (VCA and VAS)

Exact arithmetic, as in Verif/Poly/Ops.lean.  The two recursive routines need not terminate; they are
run with a fuel that bounds the depth of the recursion together with the number of `continue`s.
-/

namespace Stator.Pol

/-- The outcome of a run: a value, an access out of bounds (or an operation on a NaN or infinity that
the model excludes), or the fuel ran out. -/
inductive Out (α : Type*) where
  | ok (a : α)
  | bad
  | more

namespace Out

/-- Sequencing. -/
def bind {α β : Type*} : Out α → (α → Out β) → Out β
  | ok a, f => f a
  | bad, _ => bad
  | more, _ => more

/-- A computation without recursion. -/
def lift {α : Type*} : Option α → Out α
  | some a => ok a
  | none => bad

instance : Monad Out where
  pure := ok
  bind := bind

end Out

variable {K : Type}

/-- models: stator/orphan/stack_vector.hpp:115-122 `push_back` on a `StackVector<T, cap>`. Pushing to
a full vector (undefined behaviour, or an exception with `STATOR_DEBUG`) is `none`. -/
def svPush {α : Type*} (cap : ℕ) (l : List α) (a : α) : Option (List α) :=
  if l.length + 1 ≤ cap then some (l ++ [a]) else none

/-- models: the `for (const auto& b: r) retval.push_back(b)` loops, stator/symbolic/polynomial.hpp:1403-1404,
1594-1595, 1602-1603. -/
def svPushAll {α : Type*} (cap : ℕ) : List α → List α → Option (List α)
  | l, [] => some l
  | l, a :: r => (svPush cap l a).bind fun l => svPushAll cap l r

/-- models: stator/symbolic/polynomial.hpp:1378-1379, `p1[i] *= (1 << (Order-i))`. The shift is taken
as `2^(Order-i)` (in C++ it overflows an `int` for `Order - i ≥ 31`). -/
def vcaScale [CommRing K] {n : ℕ} (f : Arr K n) : Option (Arr K n) :=
  forUp (fun i p => do let v ← rd p i; wr p i (v * 2 ^ (n - i))) 0 (n + 1) f

/-- models: stator/symbolic/polynomial.hpp:1356-1408 `VCA_real_root_bounds_worker`. -/
def vcaWorker [Field K] [LinearOrder K] {n : ℕ} : ℕ → Arr K n → Out (List (K × K))
  | 0, _ => .more
  | fuel + 1, f => (Out.lift (budan f)).bind fun v =>
    match v with
    | 0 => .ok []
    | 1 => .ok (([(0, 1)] : List (K × K)).take n)
    | _ => (Out.lift (vcaScale f)).bind fun p1 =>
      (Out.lift (shiftOne p1)).bind fun p2 =>
      (vcaWorker fuel p1).bind fun r1 =>
      (vcaWorker fuel p2).bind fun r2 =>
      Out.lift (svPushAll n (r1.map fun b => (b.1 / 2, b.2 / 2))
        (r2.map fun b => (b.1 / 2 + 1 / 2, b.2 / 2 + 1 / 2)))

/-- models: stator/symbolic/polynomial.hpp:1419-1439 `VCA_real_root_bounds`. An infinite upper bound
(never returned, see `C30_upper`) is `bad`. -/
noncomputable def vca {n : ℕ} (fuel : ℕ) (f : Arr ℝ n) : Out (List (ℝ × ℝ)) :=
  (Out.lift (lmqUpper f)).bind fun u =>
  (Out.lift u).bind fun u =>
  if u = 0 then .ok []
  else (Out.lift (scale f u)).bind fun g =>
    (vcaWorker fuel g).bind fun r => .ok (r.map fun b => (b.1 * u, b.2 * u))

/-- models: stator/symbolic/polynomial.hpp:1457-1464 `MobiusTransform`: `x ↦ (a x + b) / (c x + d)`. -/
structure Mobius where
  a : ℝ
  b : ℝ
  c : ℝ
  d : ℝ

namespace Mobius

/-- models: stator/symbolic/polynomial.hpp:1469-1488 `eval`; `none` is an infinity, as argument (`+∞`)
and as result (sign not modelled). `finite / ∞ = 0`, `∞ / finite = ∞`, `finite / 0 = ∞`; `0 / 0` (a NaN)
is also `none`: with the Möbius transformations of the code the denominator is never 0. -/
noncomputable def eval (M : Mobius) (x : Option ℝ) : Option ℝ :=
  if M.a = 0 ∧ M.c = 0 then (if M.d = 0 then none else some (M.b / M.d))
  else match x with
    | none =>
      if M.a ≠ 0 ∧ M.c ≠ 0 then some (M.a / M.c)
      else if M.a ≠ 0 then none else some 0
    | some x =>
      let num := if M.a ≠ 0 then M.b + x * M.a else M.b
      let den := if M.c ≠ 0 then M.d + x * M.c else M.d
      if den = 0 then none else some (num / den)

/-- models: stator/symbolic/polynomial.hpp:1493-1496 `shift`. -/
noncomputable def shift (M : Mobius) (x : ℝ) : Mobius := ⟨M.a, M.b + M.a * x, M.c, M.d + M.c * x⟩

/-- models: stator/symbolic/polynomial.hpp:1501-1504 `scale`. -/
noncomputable def scale (M : Mobius) (x : ℝ) : Mobius := ⟨M.a * x, M.b, M.c * x, M.d⟩

/-- models: stator/symbolic/polynomial.hpp:1509-1511 `invert_taylor_shift`. -/
noncomputable def invertTaylorShift (M : Mobius) : Mobius := ⟨M.b, M.a + M.b, M.d, M.c + M.d⟩

end Mobius

/-- models: stator/symbolic/polynomial.hpp:622-644 `precision(f, x)` for a finite `x`; `eps` is the
constant `1.06 / 2^digits`. -/
noncomputable def precision (eps : ℝ) {n : ℕ} (f : Arr ℝ n) (x : ℝ) : Option ℝ :=
  if n = 0 then some 0
  else do
    let c ← rd f 0
    let s ← forUp (fun i (s : ℝ × ℝ) => do
      let c ← rd f i
      some (s.1 + (2 * (i : ℝ) + 1) * |c| * s.2, s.2 * |x|)) 1 n (c, |x|)
    some (s.1 * eps)

/-- models: stator/symbolic/polynomial.hpp:1582-1587: `f[0] == 0` pushes `(M(0), M(0))` and divides by
`x`; the quotient, of order one less, is stored back in a polynomial of order `n`. Order 0 has its own
overload (1609-1613) and never gets here. -/
noncomputable def vasRootZero : {n : ℕ} → Arr ℝ n → Mobius →
    Option (Arr ℝ n × List (Option ℝ × Option ℝ))
  | 0, f, _ => some (f, [])
  | m + 1, f, M => do
    let c ← rd f 0
    if c = 0 then
      let l ← svPush (m + 1) [] (M.eval (some 0), M.eval (some 0))
      let g ← deflateZero f
      let f ← promote (m + 1) g
      some (f, l)
    else some (f, [])

/-- models: stator/symbolic/polynomial.hpp:1525-1607 `VAS_real_root_bounds_worker`; the results are
pairs of possibly infinite numbers. An infinite lower bound is `bad` (never happens there). -/
noncomputable def vasWorker (eps : ℝ) {n : ℕ} :
    ℕ → Arr ℝ n → Mobius → Out (List (Option ℝ × Option ℝ))
  | 0, _, _ => .more
  | fuel + 1, f, M => (Out.lift (descartes f)).bind fun signChanges =>
    if signChanges = 0 then .ok []
    else if signChanges = 1 then
      .ok (([(M.eval (some 0), M.eval none)] : List (Option ℝ × Option ℝ)).take n)
    else (Out.lift (lmqLower f)).bind fun lb =>
      (Out.lift lb).bind fun lb =>
      (Out.lift (if 16 ≤ lb then (scale f lb).map fun g => (g, M.scale lb, (1 : ℝ))
        else some (f, M, lb))).bind fun s =>
      let f := s.1
      let M := s.2.1
      let lb := s.2.2
      if 1 ≤ lb then
        (Out.lift (shift f lb)).bind fun g => vasWorker eps fuel g (M.shift lb)
      else (Out.lift (horner f 1)).bind fun v =>
        (Out.lift (precision eps f 1)).bind fun p =>
        if |v| ≤ 100 * p then
          (Out.lift (scale f 2)).bind fun g => vasWorker eps fuel g (M.scale 2)
        else (Out.lift (vasRootZero f M)).bind fun s =>
          (Out.lift (invertTaylorShift s.1)).bind fun p01 =>
          (vasWorker eps fuel p01 M.invertTaylorShift).bind fun r1 =>
          (Out.lift (svPushAll n s.2 r1)).bind fun retval =>
          (Out.lift (shiftOne s.1)).bind fun p1inf =>
          (vasWorker eps fuel p1inf (M.shift 1)).bind fun r2 =>
          Out.lift (svPushAll n retval r2)

/-- models: stator/symbolic/polynomial.hpp:1633-1640: order the two bounds and replace an infinite
upper bound. -/
noncomputable def vasFinish (u : ℝ) (b : Option ℝ × Option ℝ) : Option ℝ × Option ℝ :=
  let b : Option ℝ × Option ℝ := match b with
    | (some x, some y) => if x > y then (some y, some x) else (some x, some y)
    | (none, some y) => (some y, none)
    | (x, none) => (x, none)
  match b with
  | (x, none) => (x, some u)
  | b => b

/-- models: stator/symbolic/polynomial.hpp:1623-1643 `VAS_real_root_bounds`. -/
noncomputable def vas (eps : ℝ) {n : ℕ} (fuel : ℕ) (f : Arr ℝ n) :
    Out (List (Option ℝ × Option ℝ)) :=
  (Out.lift (lmqUpper f)).bind fun u =>
  (Out.lift u).bind fun u =>
  if u = 0 then .ok []
  else (vasWorker eps fuel f ⟨1, 0, 0, 1⟩).bind fun r => .ok (r.map (vasFinish u))

end Stator.Pol
