import Verif.Poly.Roots

/-! # Model of Sturm chains on `sym::Polynomial` (stator/symbolic/polynomial.hpp:1007-1204) -/

namespace Stator.Pol

variable {K : Type}

/-- models: stator/symbolic/polynomial.hpp:1011-1018 `mrem`: minus the remainder. -/
def mrem [Field K] [DecidableEq K] (inf : K) {m : ℕ} (f : Arr K (m + 2)) (g : Arr K (m + 1)) :
    Option (Arr K m) := do
  let qr ← divide inf f (m + 1) g
  neg qr.2

/-- A Sturm chain: the polynomial `_p_n` of order `n` and the chain `_p_nminus1` below it.
models: stator/symbolic/polynomial.hpp:1038-1039 and (order 0) 1129. -/
inductive SturmChain (K : Type) : ℕ → Type
  | last (p : Arr K 0) : SturmChain K 0
  | cons {n : ℕ} (p : Arr K (n + 1)) (rest : SturmChain K n) : SturmChain K (n + 1)

/-- models: stator/symbolic/polynomial.hpp:1034-1036, 1115-1116: an intermediate element, from the two
polynomials `p_nplus1` and `p_n`. -/
def SturmChain.tail [Field K] [DecidableEq K] (inf : K) : (n : ℕ) → Arr K (n + 1) → Arr K n →
    Option (SturmChain K n)
  | 0, _, p => some (.last p)
  | n + 1, p', p => do
    let r ← mrem inf p' p
    let t ← SturmChain.tail inf n p r
    some (.cons p t)

/-- models: stator/symbolic/polynomial.hpp:1201-1204 `sturm_chain(f)`, 1027-1029. -/
def sturmChain [Field K] [DecidableEq K] (inf : K) : {n : ℕ} → Arr K n → Option (SturmChain K n)
  | 0, f => some (.last f)
  | n + 1, f => do
    let d ← derivArr f
    let t ← SturmChain.tail inf n f d
    some (.cons f t)

/-- models: stator/symbolic/polynomial.hpp:1048-1053, 1118-1122 `get(i)`, promoted to the order of the
chain. -/
def SturmChain.get [Zero K] : {n : ℕ} → SturmChain K n → ℕ → Option (Arr K n)
  | 0, .last p, i => some (if i = 0 then p else zeros 0)
  | _ + 1, .cons p t, i => match i with
    | 0 => some p
    | i + 1 => do let q ← t.get i; promote _ q

/-- models: stator/symbolic/polynomial.hpp:1084-1092, 1131-1137 `sign_change_helper`. `sign p` is the
sign of `sub(p, x)`, see `signAt` and `signAtInf`. -/
def SturmChain.signChangeHelper (sign : ∀ {n : ℕ}, Arr K n → Option ℤ) :
    {n : ℕ} → SturmChain K n → ℤ → Option ℕ
  | _, .last p, lastSign => do
    let current ← sign p
    some (if current ≠ 0 ∧ lastSign ≠ 0 ∧ current ≠ lastSign then 1 else 0)
  | _, .cons p t, lastSign => do
    let current ← sign p
    let next := if current ≠ 0 then current else lastSign
    let r ← t.signChangeHelper sign next
    some (r + if current ≠ 0 ∧ lastSign ≠ 0 ∧ current ≠ lastSign then 1 else 0)

/-- models: stator/symbolic/polynomial.hpp:1086-1087: the sign of the value at a finite `x`. -/
def signAt [Field K] [LinearOrder K] (x : K) {n : ℕ} (p : Arr K n) : Option ℤ :=
  (horner p x).map signOf

/-- models: stator/symbolic/polynomial.hpp:1086-1087 with `x = ±infinity` (`isNeg`: `-infinity`). -/
def signAtInf [Field K] [LinearOrder K] (isNeg : Bool) {n : ℕ} (p : Arr K n) : Option ℤ :=
  (evalInf p isNeg).map fun
    | .fin v => signOf v
    | .inf s => if s then -1 else 1

/-- models: stator/symbolic/polynomial.hpp:1061-1064, 1124-1127 `sign_changes(x)`; for a chain of
order 0 the code returns 0. -/
def SturmChain.signChanges (sign : ∀ {n : ℕ}, Arr K n → Option ℤ) :
    {n : ℕ} → SturmChain K n → Option ℕ
  | 0, _ => some 0
  | _ + 1, c => c.signChangeHelper sign 0

/-- models: stator/symbolic/polynomial.hpp:1066-1071 `roots(a, b)`. -/
def SturmChain.roots [Field K] [LinearOrder K] {n : ℕ} (c : SturmChain K n) (a b : K) : Option ℕ := do
  let sa ← c.signChanges (fun p => signAt a p)
  let sb ← c.signChanges (fun p => signAt b p)
  some ((sa : ℤ) - (sb : ℤ)).natAbs

/-- models: the same with `a = -infinity` and `b = +infinity`. -/
def SturmChain.rootsInf [Field K] [LinearOrder K] {n : ℕ} (c : SturmChain K n) : Option ℕ := do
  let sa ← c.signChanges (fun p => signAtInf true p)
  let sb ← c.signChanges (fun p => signAtInf false p)
  some ((sa : ℤ) - (sb : ℤ)).natAbs

end Stator.Pol
