import Verif.Ct.Const
import Verif.Rt.Eval

/-!
# Model: compile-time expressions

Expression templates: the C++ type of an expression is its tree, and every operator is a function that
looks at the types of its operands. Here a tree is a value of type `E`, and an operator is a function
into `Option E`, with `none` for a program that does not compile.

Numbers (`double`) are real numbers; `none` is a NaN or an infinity. (Integers are not distinguished
from `double`: an integer division in C++ truncates, which is not modelled. Matrices, complex numbers,
polynomials, arrays and equations as operands are not modelled either.)
-/

namespace Stator.Ct

/-- The binary operations. models: binary_ops.hpp:58-161. -/
inductive Op
  | add | sub | mul | div | pow
  deriving DecidableEq

/-- The same operation of the runtime expressions, whose real value is `binVal`. -/
def Op.rt : Op → BinOp
  | .add => .add | .sub => .sub | .mul => .mul | .div => .div | .pow => .pow

/-- A compile-time expression. models: constants.hpp:30-35, variable.hpp:17-31, unary_ops.hpp:24-31,
binary_ops.hpp:25-35. -/
inductive E
  | c (a : C)
  | num (v : Option ℝ)
  | var (n : List Char)
  | un (o : UnOp) (a : E)
  | bin (o : Op) (l r : E)

/-- A constant as a real number, `C::operator double`. models: constants.hpp:32-34. -/
noncomputable def C.val (a : C) : ℝ := (a.num : ℝ) / (a.den : ℝ)

/-- The type of the expression is `C<a>`. -/
def E.isC (a : C) : E → Bool
  | .c b => decide (b = a)
  | _ => false

/-- Values that are not symbolic: numbers, and constants through their conversion to `double`. -/
noncomputable def E.number : E → Option (Option ℝ)
  | .c a => some (some a.val)
  | .num v => some v
  | _ => none

/-- Arithmetic on `double`s. -/
noncomputable def numOp (o : Op) (x y : Option ℝ) : Option ℝ :=
  x.bind fun x => y.bind fun y => binVal o.rt x y

/-- The built-in operator if both operands are numbers, a tree otherwise.
models: binary_ops.hpp:241-278. -/
noncomputable def node (o : Op) (l r : E) : E :=
  match l.number, r.number with
  | some x, some y => .num (numOp o x y)
  | _, _ => .bin o l r

/-- `operator+`. models: constants.hpp:114-117, 138-141; binary_ops.hpp:241-246. -/
noncomputable def opAdd (l r : E) : Option E :=
  match l, r with
  | .c a, .c b => some (.c (a.add b))
  | l, r => if r.isC .null then some l else if l.isC .null then some r else some (node .add l r)

/-- Unary `operator-`. models: constants.hpp:108-109, unary_ops.hpp:124-129. -/
noncomputable def opNeg : E → Option E
  | .c a => some (.c a.neg)
  | .num v => some (.num (v.bind (unVal .neg)))
  | e => some (.un .neg e)

/-- Binary `operator-`. models: constants.hpp:119-122, 142-145; binary_ops.hpp:260-265. -/
noncomputable def opSub (l r : E) : Option E :=
  match l, r with
  | .c a, .c b => some (.c (a.sub b))
  | l, r => if r.isC .null then some l else if l.isC .null then opNeg r else some (node .sub l r)

/-- `operator*`. models: constants.hpp:124-127, 146-154; binary_ops.hpp:248-258. -/
noncomputable def opMul (l r : E) : Option E :=
  match l, r with
  | .c a, .c b => some (.c (a.mul b))
  | l, r =>
    if r.isC .null then some (.c .null) else if l.isC .null then some (.c .null)
    else if r.isC .unity then some l else if l.isC .unity then some r
    else some (node .mul l r)

/-- `operator/`. models: constants.hpp:129-132, binary_ops.hpp:267-272. -/
noncomputable def opDiv (l r : E) : Option E :=
  match l, r with
  | .c a, .c b => (a.div b).map .c
  | l, r => some (node .div l r)

/-- `std::cbrt`. -/
noncomputable def cbrt (x : ℝ) : ℝ := if x < 0 then -((-x) ^ ((1 : ℝ) / 3)) else x ^ ((1 : ℝ) / 3)

/-- The constant `C<1,3>`. -/
def C.third : C := ⟨1, 3, by decide⟩

/-- `pow`. A power of two constants does not compile (`pow(C<..>, C<n>)` calls `sub(l, n)` with an
integer, and is ambiguous for `n = 1`), nor does a constant raised to a number.
models: binary_ops.hpp:275-341. -/
noncomputable def opPow (l r : E) : Option E :=
  match l, r with
  | .c _, .c _ => none
  | .c _, .num _ => none
  | .num v, .c b =>
    if b = .unity then some (.num v)
    else if b = .third then some (.num (v.map cbrt))
    else some (.num (numOp .pow v (some b.val)))
  | l, .c b => if b = .unity then some l else some (.bin .pow l (.c b))
  | l, r => some (node .pow l r)

/-- `Op::apply`. models: binary_ops.hpp:75, 95, 115, 135, 155-159. -/
noncomputable def applyOp : Op → E → E → Option E
  | .add => opAdd | .sub => opSub | .mul => opMul | .div => opDiv | .pow => opPow

/-- `Op::apply` of the unary operators and functions. models: unary_ops.hpp:44-162,
constants.hpp:108-109, 180-203. -/
noncomputable def applyUn (o : UnOp) (e : E) : Option E :=
  match o with
  | .neg => opNeg e
  | .arbsign => some (.un .arbsign e)
  | o =>
    match e with
    | .c a =>
      match o with
      | .sin => a.sin.map .c
      | .cos => a.cos.map .c
      | .abs => some (.c a.abs)
      | o => some (.num (unVal o a.val))
    | .num v => some (.num (v.bind (unVal o)))
    | e => some (.un o e)

/-- `derivative(f, x)`.
models: variable.hpp:56-70, binary_ops.hpp:362-402, unary_ops.hpp:165-179. -/
noncomputable def deriv (x : List Char) : E → Option E
  | .c _ => some (.c .null)
  | .num _ => some (.c .null)
  | .var n => some (.c (if n = x then .unity else .null))
  | .un o a => do
    let a' ← deriv x a
    match o with
    | .sin => do opMul a' (← applyUn .cos a)
    | .cos => do opMul (← opNeg a') (← applyUn .sin a)
    | .exp => opMul a' (.un .exp a)
    | .log => opDiv a' a
    | .abs => do opDiv (← opMul a' (← applyUn .abs a)) a
    | .arbsign => opMul a' (.un .arbsign (.c .unity))
    | .neg => opNeg a'
  | .bin .add l r => do opAdd (← deriv x l) (← deriv x r)
  | .bin .sub l r => do opSub (← deriv x l) (← deriv x r)
  | .bin .mul l r => do opAdd (← opMul (← deriv x l) r) (← opMul l (← deriv x r))
  | .bin .div l r => do
    opDiv (← opSub (← opMul (← deriv x l) r) (← opMul l (← deriv x r)))
      (← opPow r (.c (.ofInt 2)))
  | .bin .pow l (.c a) => do
    opMul (← opMul (.c a) (← deriv x l)) (← opPow l (.c (a.sub .unity)))
  | .bin .pow l r => do
    opAdd (← opMul (← opMul r (← deriv x l)) (← opPow l (← opSub r (.c .unity))))
      (← opMul (← opMul (← deriv x r) (← applyUn .log l)) (.bin .pow l r))

/-- `sub(f, x = a)`. models: sub.hpp:35-57, binary_ops.hpp:421-424, unary_ops.hpp:181-183. -/
noncomputable def subst (x : List Char) (a : E) : E → Option E
  | .c b => some (.c b)
  | .num v => some (.num v)
  | .var n => some (if n = x then a else .var n)
  | .un o e => do applyUn o (← subst x a e)
  | .bin o l r => do applyOp o (← subst x a l) (← subst x a r)

/-- `TaylorSeriesWorker<State, max_Order, Var>::eval(f, a)`; the first argument is
`max_Order - State`. models: taylor.hpp:27-49. -/
noncomputable def taylorWorker (x : List Char) (a : E) : ℕ → ℕ → E → Option E
  | 0, state, f =>
    if f.isC .null then some (.c .null)
    else do opMul (.c (← C.invFactorial state)) (← subst x a f)
  | n + 1, state, f =>
    if f.isC .null then some (.c .null)
    else do
      opAdd (← opMul (.c (← C.invFactorial state)) (← subst x a f))
        (← opMul (← opSub (.var x) a) (← taylorWorker x a n (state + 1) (← deriv x f)))

/-- `integrate(f, x)`. A sum, a difference or a power of the variable has its own overload, which is
more specialised than the one for constants. The integral of the variable itself is written with
`pow<2>(x)`, which is no longer a function of the library, so it does not compile; nor does
`C<1, Power+1>` for the power `-1`. models: integrate.hpp:31-75. -/
noncomputable def integrate (x : List Char) : E → Option E
  | .bin .add l r => do opAdd (← integrate x l) (← integrate x r)
  | .bin .sub l r => do opSub (← integrate x l) (← integrate x r)
  | e =>
    match e with
    | .bin .pow (.var n) (.c ⟨p, 1, h⟩) =>
      if n = x then
        if hp : p + 1 = 0 then none
        else do opMul (.c ⟨1, p + 1, hp⟩) (← opPow (.var n) (.c (.ofInt (p + 1))))
      else constant (.bin .pow (.var n) (.c ⟨p, 1, h⟩))
    | e => constant e
where
  /-- Integration of an expression whose derivative has the type `Null`. models: integrate.hpp:38-41. -/
  constant (e : E) : Option E :=
    match deriv x e with
    | some d => if d.isC .null then opMul e (.var x) else none
    | none => none

/-! ## Specification -/

/-- The values of an expression: none where it is undefined, several if it contains `±`. -/
noncomputable def E.vals (ρ : List Char → ℝ) : E → Set ℝ
  | .c a => {(a.num : ℝ) / (a.den : ℝ)}
  | .num v => {x | v = some x}
  | .var n => {ρ n}
  | .un .arbsign a => {x | x ∈ a.vals ρ ∨ -x ∈ a.vals ρ}
  | .un o a => {x | ∃ y ∈ a.vals ρ, unVal o y = some x}
  | .bin o l r => {x | ∃ y ∈ l.vals ρ, ∃ z ∈ r.vals ρ, binVal o.rt y z = some x}

/-- The assignment in which `x` has the value `t`. -/
def at_ (ρ : List Char → ℝ) (x : List Char) (t : ℝ) : List Char → ℝ := fun n => if n = x then t else ρ n

/-- The expression does not contain `±`. -/
def E.plain : E → Prop
  | .c _ => True
  | .num _ => True
  | .var _ => True
  | .un o a => o ≠ .arbsign ∧ a.plain
  | .bin _ l r => l.plain ∧ r.plain

end Stator.Ct
