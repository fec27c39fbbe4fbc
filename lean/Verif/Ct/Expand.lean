import Verif.Ct.Expr
import Verif.Poly.OpsProps

/-!
# Expansion of compile-time expressions into polynomials (C79)

`expand` and `try_expand`: `simplify` with the options `expand_to_Polynomial` and `expand_Constants`.
The operands are integers, `double`s (real numbers here), compile-time constants, variables and
polynomials whose coefficients are integers or `double`s. An integer has no bounds here (overflow is
not modelled), but the division of integers truncates, as in C++.

`simp` follows the overload resolution of simplify.hpp: it returns `some none` if there is no overload
of `simplify` for the expression, `some (some r)` if there is one and it returns `r`, and `none` if the
template recursion goes deeper than the first argument, the program does not compile, its behaviour is
undefined, or a division of `double`s by zero occurs. Overloads that lose against another one are not
evaluated in the model (in C++ their types are, which can only add errors of compilation).
-/

namespace Stator.Ct.Expand

open Stator.Pol (Arr rd wr forUp zeros addOp mulPoly divConst mulVar varPow value)

/-- The binary operations, without powers. models: binary_ops.hpp:58-140. -/
inductive BOp
  | add | sub | mul | div
  deriving DecidableEq

/-- An expression: a constant `C<..>`, an `int`, a `double`, a variable, a `Polynomial<n, int, Var<v>>`,
a `Polynomial<n, double, Var<v>>`, a `BinaryOp`, a negation, or a `PowerOp<a, C<p>>`. -/
inductive X
  | c (a : C)
  | int (z : ℤ)
  | dbl (y : ℝ)
  | var (v : List Char)
  | polyZ (v : List Char) (n : ℕ) (f : Arr ℤ n)
  | polyR (v : List Char) (n : ℕ) (f : Arr ℝ n)
  | bin (o : BOp) (l r : X)
  | neg (a : X)
  | pow (a : X) (p : ℕ)

/-! ## Specification -/

/-- The operation on real numbers. -/
noncomputable def BOp.real : BOp → ℝ → ℝ → ℝ
  | .add => (· + ·) | .sub => (· - ·) | .mul => (· * ·) | .div => (· / ·)

/-- The value of an expression when the variables have the values `ρ`. -/
noncomputable def X.val (ρ : List Char → ℝ) : X → ℝ
  | .c a => a.val
  | .int z => z
  | .dbl y => y
  | .var v => ρ v
  | .polyZ v _ f => ∑ i, (f i : ℝ) * ρ v ^ (i : ℕ)
  | .polyR v _ f => ∑ i, f i * ρ v ^ (i : ℕ)
  | .bin o l r => o.real (l.val ρ) (r.val ρ)
  | .neg a => -a.val ρ
  | .pow a p => a.val ρ ^ p

/-- The only variable is `x`. -/
def X.over (x : List Char) : X → Prop
  | .c _ => True
  | .int _ => True
  | .dbl _ => True
  | .var v => v = x
  | .polyZ v _ _ => v = x
  | .polyR v _ _ => v = x
  | .bin _ l r => l.over x ∧ r.over x
  | .neg a => a.over x
  | .pow a _ => a.over x

/-- Written with constants `C<..>` only. -/
def X.constants : X → Prop
  | .c _ => True
  | .bin _ l r => l.constants ∧ r.constants
  | .neg a => a.constants
  | .pow a _ => a.constants
  | _ => False

/-- A number to divide by: a `double`, or an expression of constants `C<..>`, other than zero. -/
def X.divisor : X → Prop
  | .dbl y => y ≠ 0
  | e => e.constants ∧ e.val (fun _ => 0) ≠ 0

/-- Every divisor is such a number (in particular, nothing is divided by an `int`). -/
def X.exact : X → Prop
  | .bin .div l r => l.exact ∧ r.divisor
  | .bin _ l r => l.exact ∧ r.exact
  | .neg a => a.exact
  | .pow a _ => a.exact
  | _ => True

/-! ## Model: the operators -/

/-- A number: an `int`, a `double`, or a constant through its conversion to `double`. -/
noncomputable def X.number : X → Option ℝ
  | .c a => some a.val
  | .int z => some z
  | .dbl y => some y
  | _ => none

/-- Operations of `double`s. -/
noncomputable def realOp : BOp → ℝ → ℝ → Option ℝ
  | .add, a, b => some (a + b)
  | .sub, a, b => some (a - b)
  | .mul, a, b => some (a * b)
  | .div, a, b => if b = 0 then none else some (a / b)

/-- Operations of `int`s. -/
def intOp : BOp → ℤ → ℤ → Option ℤ
  | .add, a, b => some (a + b)
  | .sub, a, b => some (a - b)
  | .mul, a, b => some (a * b)
  | .div, a, b => if b = 0 then none else some (a.tdiv b)

/-- The built-in operator if both operands are numbers, a tree otherwise.
models: binary_ops.hpp:241-273. -/
noncomputable def node (o : BOp) (l r : X) : Option X :=
  match l.number, r.number with
  | some a, some b =>
    match l, r with
    | .int i, .int j => (intOp o i j).map .int
    | _, _ => (realOp o a b).map .dbl
  | _, _ => some (.bin o l r)

/-- The type is `C<a>`. -/
def X.isC (a : C) : X → Bool
  | .c b => decide (b = a)
  | _ => false

/-- Unary `operator-`. models: constants.hpp:108-109, unary_ops.hpp:124-129, polynomial.hpp:138-143. -/
noncomputable def opNeg : X → Option X
  | .c a => some (.c a.neg)
  | .int z => some (.int (-z))
  | .dbl y => some (.dbl (-y))
  | .polyZ v n f => (Pol.neg f).map (.polyZ v n)
  | .polyR v n f => (Pol.neg f).map (.polyR v n)
  | e => some (.neg e)

/-- `Op::apply`, the binary operators.
models: constants.hpp:114-154, binary_ops.hpp:75, 95, 115, 135, 241-273. -/
noncomputable def apply (o : BOp) (l r : X) : Option X :=
  match l, r with
  | .c a, .c b =>
    match o with
    | .add => some (.c (a.add b))
    | .sub => some (.c (a.sub b))
    | .mul => some (.c (a.mul b))
    | .div => (a.div b).map .c
  | l, r =>
    match o with
    | .add => if r.isC .null then some l else if l.isC .null then some r else node .add l r
    | .sub => if r.isC .null then some l else if l.isC .null then opNeg r else node .sub l r
    | .mul =>
      if r.isC .null then some (.c .null) else if l.isC .null then some (.c .null)
      else if r.isC .unity then some l else if l.isC .unity then some r
      else node .mul l r
    | .div => node .div l r

/-- `pow(a, C<p>())`; a power of a constant does not compile. models: binary_ops.hpp:275-341. -/
noncomputable def opPow (a : X) (p : ℕ) : Option X :=
  match a with
  | .c _ => none
  | .int z => if p = 1 then some (.int z) else some (.dbl ((z : ℝ) ^ p))
  | .dbl y => if p = 1 then some (.dbl y) else some (.dbl (y ^ p))
  | a => if p = 1 then some a else some (.pow a p)

/-- `PowerOpSub<p>::eval`. models: binary_ops.hpp:308-336. -/
noncomputable def powSub : ℕ → X → Option X
  | 0, _ => some (.c .unity)
  | 1, a => some a
  | p + 2, a => do apply .mul (← powSub (p + 1) a) a

/-- The expression a C++ expression evaluates to: the operators are used from the leaves up. -/
noncomputable def build : X → Option X
  | .bin o l r => do apply o (← build l) (← build r)
  | .neg a => do opNeg (← build a)
  | .pow a p => do opPow (← build a) p
  | e => some e

/-! ## Model: the overloads for polynomials -/

/-- Integer coefficients converted to `double`. -/
noncomputable def toR {n : ℕ} (f : Arr ℤ n) : Arr ℝ n := fun i => (f i : ℝ)

/-- The quotient of an integer polynomial and an integer polynomial of order 0.
models: simplify.hpp:404-414. -/
def divInt {m : ℕ} (f : Arr ℤ m) (g : Arr ℤ 0) : Option (Arr ℤ m) :=
  forUp (fun i r => do
    let ri ← rd r i
    let a ← rd f i
    let b ← rd g 0
    let q ← intOp .div a b
    wr r i (ri + q)) 0 (m + 1) (zeros m)

/-- The overloads of `simplify` for two polynomials with integer coefficients; the outer `none` means that
there is none. A product does not ask whether the variables are the same.
models: simplify.hpp:367-414. -/
def rulesZ (o : BOp) (u v : List Char) {n : ℕ} (f : Arr ℤ n) : {m : ℕ} → Arr ℤ m → Option (Option X)
  | m, g =>
    match o with
    | .add => if u = v then some ((addOp (· + ·) f g).map (.polyZ u (max m n))) else none
    | .sub => if u = v then some ((addOp (· - ·) f g).map (.polyZ u (max m n))) else none
    | .mul => some ((mulPoly f g).map (.polyZ u (n + m)))
    | .div =>
      match m, g with
      | 0, g => some ((divInt f g).map (.polyZ u n))
      | _ + 1, _ => none

/-- The same for `double`s. models: simplify.hpp:367-414. -/
noncomputable def rulesR (o : BOp) (u v : List Char) {n : ℕ} (f : Arr ℝ n) :
    {m : ℕ} → Arr ℝ m → Option (Option X)
  | m, g =>
    match o with
    | .add => if u = v then some ((addOp (· + ·) f g).map (.polyR u (max m n))) else none
    | .sub => if u = v then some ((addOp (· - ·) f g).map (.polyR u (max m n))) else none
    | .mul => some ((mulPoly f g).map (.polyR u (n + m)))
    | .div =>
      match m, g with
      | 0, g => some (if g 0 = 0 then none else (divConst f g).map (.polyR u n))
      | _ + 1, _ => none

/-- The overloads of `simplify` for an operation with a polynomial. The one for `Var * Polynomial` takes
its argument by a reference that is not `const`, and is never chosen.
models: simplify.hpp:286-308, 367-414. -/
noncomputable def rules (o : BOp) (l r : X) : Option (Option X) :=
  match l, r with
  | .polyZ u _ f, .polyZ v _ g => rulesZ o u v f g
  | .polyZ u _ f, .polyR v _ g => rulesR o u v (toR f) g
  | .polyR u _ f, .polyZ v _ g => rulesR o u v f (toR g)
  | .polyR u _ f, .polyR v _ g => rulesR o u v f g
  | .polyZ u n f, .var v =>
    if o = .mul ∧ u = v then some ((mulVar f).map (.polyZ u (n + 1))) else none
  | .polyR u n f, .var v =>
    if o = .mul ∧ u = v then some ((mulVar f).map (.polyR u (n + 1))) else none
  | _, _ => none

/-- `pow(Var<v>(), C<p>())`. -/
def varPower (v : List Char) (p : ℕ) : X := if p = 1 then .var v else .pow (.var v) p

/-- The rules of the highest priority whose result is not simplified again. (The rules for `Null` and
`Unity` in sums and products are left out: the operators never leave those in a tree. Sums and products of
two numbers are built by the rules for reordering only.)
models: simplify.hpp:137-140, 147-149, 164-167, 174-189. -/
noncomputable def first (o : BOp) (l r : X) : Option X :=
  match o, l, r with
  | .add, .int a, .int b => some (.int (a + b))
  | .add, .int a, .dbl b => some (.dbl (a + b))
  | .add, .dbl a, .int b => some (.dbl (a + b))
  | .add, .dbl a, .dbl b => some (.dbl (a + b))
  | .mul, .int a, .int b => some (.int (a * b))
  | .mul, .int a, .dbl b => some (.dbl (a * b))
  | .mul, .dbl a, .int b => some (.dbl (a * b))
  | .mul, .dbl a, .dbl b => some (.dbl (a * b))
  | .mul, .var u, .var v => if u = v then some (varPower u 2) else none
  | .mul, .pow (.var u) p, .var v => if u = v then some (varPower u (p + 1)) else none
  | .mul, .var u, .pow (.var v) p => if u = v then some (varPower u (p + 1)) else none
  | .div, .var u, .var v => if u = v then some (.c .unity) else none
  | .div, .c a, r => if a = .null ∧ r.isC .unity = false then some (.c .null) else none
  | _, _, _ => none

/-- A number next to a polynomial becomes a polynomial of order 0 in its variable; `none` if there is no
such rule. models: simplify.hpp:326-343, 348-360. -/
noncomputable def lift (o : BOp) (l r : X) : Option X :=
  match l, r with
  | .polyZ v n f, .int z => some (.bin o (.polyZ v n f) (.polyZ v 0 ![z]))
  | .polyZ v n f, .dbl y => some (.bin o (.polyZ v n f) (.polyR v 0 ![y]))
  | .polyR v n f, .int z => some (.bin o (.polyR v n f) (.polyZ v 0 ![z]))
  | .polyR v n f, .dbl y => some (.bin o (.polyR v n f) (.polyR v 0 ![y]))
  | .int z, .polyZ v n f => some (.bin o (.polyZ v 0 ![z]) (.polyZ v n f))
  | .dbl y, .polyZ v n f => some (.bin o (.polyR v 0 ![y]) (.polyZ v n f))
  | .int z, .polyR v n f => some (.bin o (.polyZ v 0 ![z]) (.polyR v n f))
  | .dbl y, .polyR v n f => some (.bin o (.polyR v 0 ![y]) (.polyR v n f))
  | _, _ => none

/-- The operands of an expression that is a `BinaryOp` with the operator `o`. -/
def X.parts (o : BOp) : X → Option (X × X)
  | .bin p a b => if p = o then some (a, b) else none
  | _ => none

/-- `try_simplify`, given what `simplify` does with its argument. models: simplify.hpp:72-92. -/
def orSelf (e : X) (r : Option (Option X)) : Option X := r.map (·.getD e)

/-- One of the rules for reordering: the partial operation `e` is simplified, if it can be, and the operator is used on the result
and the third operand; `s` is `simplify`. models: simplify.hpp:248-269. -/
def attempt (s : X → Option (Option X)) (e : X) (f : X → Option X) : Option (Option X) := do
  match ← s e with
  | none => some none
  | some d =>
    let e' ← f d
    some (some (← orSelf e' (s e')))

/-- Two rules of the same priority: if both can be used, the call is ambiguous and `simplify` is not available. -/
def either (a b : Option (Option X)) : Option (Option X ⊕ Unit) := do
  match ← a, ← b with
  | some x, none => some (.inl (some x))
  | none, some x => some (.inl (some x))
  | some _, some _ => some (.inl none)
  | none, none => some (.inr ())

/-- A rule for an operand that is itself a `BinaryOp` with the same operator. -/
def onParts (p : Option (X × X)) (f : X → X → Option (Option X)) : Option (Option X) :=
  match p with
  | some (a, b) => f a b
  | none => some none

/-- `(A*B)*C` as `A*(B*C)` and `A*(B*C)` as `(A*B)*C`, then `(A*B)*C` as `(A*C)*B` and `A*(B*C)` as `(A*C)*B`.
models: simplify.hpp:247-269. -/
noncomputable def reorder (s : X → Option (Option X)) (o : BOp) (l r : X) : Option (Option X) :=
  if o = .add ∨ o = .mul then do
    let c6 ← either
      (onParts (l.parts o) fun a b => attempt s (.bin o b r) (fun d => apply o a d))
      (onParts (r.parts o) fun b c => attempt s (.bin o l b) (fun d => apply o d c))
    match c6 with
    | .inl x => some x
    | .inr () => do
      let c7 ← either
        (onParts (l.parts o) fun a b => attempt s (.bin o a r) (fun d => apply o d b))
        (onParts (r.parts o) fun b c => attempt s (.bin o l c) (fun d => apply o d b))
      match c7 with
      | .inl x => some x
      | .inr () => some none
  else some none

/-- `simplify<ExpandConfig>`; the first argument bounds the depth of the template recursion. -/
noncomputable def simp : ℕ → X → Option (Option X)
  | 0, _ => none
  -- models: simplify.hpp:344-346
  | _ + 1, .c a => some (some (.dbl a.val))
  | _ + 1, .int _ => some none
  | _ + 1, .dbl _ => some none
  | _ + 1, .polyZ _ _ _ => some none
  | _ + 1, .polyR _ _ _ => some none
  -- models: simplify.hpp:310-313
  | _ + 1, .var v => some (some (.polyZ v 1 ![0, 1]))
  -- models: simplify.hpp:315-324
  | _ + 1, .pow (.var v) p => do some (some (.polyZ v p (← varPow p)))
  -- models: simplify.hpp:210-233
  | k + 1, .pow a p => do
    match ← simp k a with
    | some a' =>
      let e ← powSub p a'
      some (some (← orSelf e (simp k e)))
    | none => some (some (← ← simp k (← powSub p a)))
  -- models: simplify.hpp:447-449
  | k + 1, .neg a => do
    match ← simp k a with
    | some a' =>
      let e ← opNeg a'
      some (some (← orSelf e (simp k e)))
    | none => some none
  -- models: simplify.hpp:152-155, 192-206, 273-274, 348-360
  | k + 1, .bin o l r =>
    match rules o l r with
    | some e => e.map some
    | none =>
      match first o l r with
      | some e => some (some e)
      | none =>
        if o = .div ∧ r.isC .unity then do some (some (← orSelf l (simp k l)))
        else do
          match ← simp k l, ← simp k r with
          | some l', some r' =>
            let e ← apply o l' r'
            some (some (← orSelf e (simp k e)))
          | some l', none =>
            let e ← apply o l' r
            some (some (← orSelf e (simp k e)))
          | none, some r' =>
            let e ← apply o l r'
            some (some (← orSelf e (simp k e)))
          | none, none =>
            match lift o l r with
            | some e => do some (some (← orSelf e (simp k e)))
            | none => reorder (simp k) o l r

/-- What `try_expand` makes of an expression. -/
def TryExpand (e r : X) : Prop := ∃ k, ∀ m, k ≤ m → orSelf e (simp m e) = some r

end Stator.Ct.Expand
