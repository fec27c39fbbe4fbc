import Verif.Rt.Parse

/-!
# `simplify` on runtime expressions

Models `sym::detail::SimplifyRT` (`stator/symbolic/runtime.hpp:567-719`) and the operator overloads
it dispatches to. `double` arithmetic is abstract (`NumOps`). The visitor's convention of returning
a null pointer for "unchanged" is not represented: the model returns the expression itself, which is
what `simplify(const Expr&)` (runtime.hpp:714-719) turns it into.
-/

namespace Stator

/-- The arithmetic of `double` used by the simplifier. -/
structure NumOps (K : Type) where
  zero : K
  one : K
  add : K → K → K
  sub : K → K → K
  mul : K → K → K
  div : K → K → K
  pow : K → K → K
  neg : K → K
  sin : K → K
  cos : K → K
  exp : K → K
  log : K → K
  abs : K → K

/-- `map` with exceptions and divergence, left to right. -/
def mapRes {α β : Type} (f : α → Res β) : List α → Res (List β)
  | [] => .ok []
  | x :: xs => do
    let y ← f x
    let ys ← mapRes f xs
    .ok (y :: ys)

/-- `UnaryEval<Op>`: the operator applied to a `double`; anything else is rebuilt.
`Arbsign::apply(double)` stays symbolic. models: runtime.hpp:694-716, unary_ops.hpp:44-115. -/
def foldUn {K : Type} (N : NumOps K) (o : UnOp) : Expr K → Expr K
  | .const k =>
    match o with
    | .sin => .const (N.sin k)
    | .cos => .const (N.cos k)
    | .exp => .const (N.exp k)
    | .log => .const (N.log k)
    | .abs => .const (N.abs k)
    | .neg => .const (N.neg k)
    | .arbsign => .un .arbsign (.const k)
  | e => .un o e

/-- `Op::left_zero`. models: binary_ops.hpp:66,87,107,127,154,171,200; units.hpp:47; uncertainty.hpp:47. -/
def BinOp.leftZero {K : Type} (N : NumOps K) : BinOp → Option K
  | .mul => some N.zero
  | .div => some N.zero
  | .pow => some N.one
  | .units => some N.zero
  | _ => none

/-- `Op::left_identity`. models: binary_ops.hpp:64,85,105,125,151; units.hpp:45; uncertainty.hpp:45. -/
def BinOp.leftId {K : Type} (N : NumOps K) : BinOp → Option K
  | .add => some N.zero
  | .mul => some N.one
  | _ => none

/-- `Op::right_zero`. models: binary_ops.hpp:67,88,108,128,153; units.hpp:48; uncertainty.hpp:48. -/
def BinOp.rightZero {K : Type} (N : NumOps K) : BinOp → Option K
  | .mul => some N.zero
  | _ => none

/-- `Op::right_identity`. models: binary_ops.hpp:65,86,106,126,152; units.hpp:46; uncertainty.hpp:46. -/
def BinOp.rightId {K : Type} (N : NumOps K) : BinOp → Option K
  | .add => some N.zero
  | .sub => some N.zero
  | .mul => some N.one
  | .div => some N.one
  | .pow => some N.one
  | .units => some N.one
  | .uncert => some N.zero
  | _ => none

/-- `e == c` for one of the constants `Null`, `Unity`, `NoIdentity` (which equals nothing). -/
def isConst {K : Type} [DecidableEq K] (e : Expr K) (c : Option K) : Bool :=
  match e, c with
  | .const k, some c => decide (k = c)
  | _, _ => false

/-- `l * c` where `l` has its dynamic type and `c` is an `Expr` (or the mirror image): element-wise
if the typed factor is an array. models: array.hpp:523-535, binary_ops.hpp:241-252. -/
def mulTyped {K : Type} (typed c : Expr K) (left : Bool) : Expr K :=
  match typed with
  | .arr xs => .arr (xs.map fun x => if left then .bin .mul x c else .bin .mul c x)
  | t => if left then .bin .mul t c else .bin .mul c t

/-- `l * r` where `l` and `r` have their dynamic type: units are pulled out.
models: units.hpp:89-104 (note that line 103 attaches `r._l`, the value, as the unit). -/
def mulUnits {K : Type} : Expr K → Expr K → Option (Expr K)
  | .bin .units a b, .bin .units c d => some (.bin .units (.bin .mul a c) (.bin .mul b d))
  | .bin .units a b, r => some (.bin .units (mulTyped r a false) b)
  | l, .bin .units c _ => some (.bin .units (mulTyped l c true) c)
  | _, _ => none

/-- `double * (c * R)`, `double * (L * c)`: the constants are collected.
models: runtime.hpp:672-692. -/
def mulConst {K : Type} (N : NumOps K) (k : K) (a b : Expr K) : Expr K → Expr K := fun unchanged =>
  match a, b with
  | .const c, b => .bin .mul (.const (N.mul k c)) b
  | a, .const c => .bin .mul (.const (N.mul k c)) a
  | _, _ => unchanged

/-- The operator on two `double`s. models: runtime.hpp:630-635, 661-670 (`Op::apply(double, double)`);
an equation, a unit and an uncertainty stay symbolic. -/
def foldBin {K : Type} (N : NumOps K) (o : BinOp) (x y : K) : Expr K :=
  match o with
  | .add => .const (N.add x y)
  | .sub => .const (N.sub x y)
  | .mul => .const (N.mul x y)
  | .div => .const (N.div x y)
  | .pow => .const (N.pow x y)
  | o => .bin o (.const x) (.const y)

/-- `a op b` for two element expressions or an element and an operand of an array operation
(`operation(*lp, r)`): the elements have static type `Expr`, so nothing but the unit rules for the
typed operand can apply; those come first (`mulUnits`). -/
def elemOp {K : Type} (o : BinOp) (l r : Expr K) : Expr K := .bin o l r

/-- `dd_visit(l, r, Op())`; `rec` is `simplify` on the elements of an array (or, for a power of two
arrays, on the power itself).
models: runtime.hpp:630-692, array.hpp:414-553, units.hpp:89-110. -/
def ddVisit {K : Type} [DecidableEq K] (N : NumOps K) (rec : Expr K → Res (Expr K)) (o : BinOp)
    (l r : Expr K) : Res (Expr K) :=
  match o with
  | .access =>
    match l, r with
    | .arr _, .const _ => .ok (.bin .access l r)
    | _, _ => .throw
  | .mul =>
    match mulUnits l r with
    | some e => .ok e
    | none =>
      match l, r with
      | .arr xs, .arr ys =>
        if xs.length = ys.length then do
          let zs ← mapRes rec (List.zipWith (elemOp .mul) xs ys)
          .ok (.arr zs)
        else .throw
      | .arr xs, r => .ok (.arr (xs.map fun x => elemOp .mul x r))
      | l, .arr ys => .ok (.arr (ys.map fun y => elemOp .mul l y))
      | .const x, .const y => .ok (foldBin N .mul x y)
      | .const k, .bin .mul a b => .ok (mulConst N k a b (.bin .mul l r))
      | .bin .mul a b, .const k => .ok (mulConst N k a b (.bin .mul l r))
      | l, r => .ok (.bin .mul l r)
  | .div =>
    match l, r with
    | .bin .units a b, .bin .units c d => .ok (.bin .units (.bin .div a c) (.bin .div b d))
    | .arr xs, .arr ys =>
      if xs.length = ys.length then do
        let zs ← mapRes rec (List.zipWith (elemOp .div) xs ys)
        .ok (.arr zs)
      else .throw
    | .arr xs, r => .ok (.arr (xs.map fun x => elemOp .div x r))
    | .const x, .const y => .ok (foldBin N .div x y)
    | l, r => .ok (.bin .div l r)
  | .add =>
    match l, r with
    | .arr xs, .arr ys =>
      if xs.length = ys.length then do
        let zs ← mapRes rec (List.zipWith (elemOp .add) xs ys)
        .ok (.arr zs)
      else .throw
    | .arr xs, r => .ok (.arr (xs.map fun x => elemOp .add x r))
    | .const x, .const y => .ok (foldBin N .add x y)
    | l, r => .ok (.bin .add l r)
  | .sub =>
    match l, r with
    | .arr xs, .arr ys =>
      if xs.length = ys.length then do
        let zs ← mapRes rec (List.zipWith (elemOp .sub) xs ys)
        .ok (.arr zs)
      else .throw
    | .arr xs, r => .ok (.arr (xs.map fun x => elemOp .sub x r))
    | .const x, .const y =>
      if x = N.zero then .ok (.const (N.neg y)) else .ok (foldBin N .sub x y)
    | .const x, r => if x = N.zero then .ok (.un .neg r) else .ok (.bin .sub (.const x) r)
    | l, r => .ok (.bin .sub l r)
  | .pow =>
    match l, r with
    | .arr _, .arr _ => rec (.bin .pow l r)
    | .const x, .const y => .ok (foldBin N .pow x y)
    | l, r => .ok (.bin .pow l r)
  | o => .ok (.bin o l r)

/-- The checks for identities and zeros, in the order of the code, then `dd_visit`.
models: runtime.hpp:592-628. -/
def simpBin {K : Type} [DecidableEq K] (N : NumOps K) (rec : Expr K → Res (Expr K)) (o : BinOp)
    (l r : Expr K) : Res (Expr K) :=
  if isConst l (o.leftZero N) then .ok l
  else if isConst l (o.leftId N) then .ok r
  else if isConst r (o.rightZero N) then .ok r
  else if isConst r (o.rightId N) then .ok l
  else ddVisit N rec o l r

/-- `simplify(const Expr&)` / `SimplifyRT`, with fuel.
models: runtime.hpp:567-725, array.hpp:555-571, dict.hpp:82-90. -/
def simp {K : Type} [DecidableEq K] (N : NumOps K) : Nat → Expr K → Res (Expr K)
  | 0, _ => .diverge
  | _ + 1, .const k => .ok (.const k)
  | _ + 1, .var n => .ok (.var n)
  | n + 1, .un o a => do
    let a' ← simp N n a
    .ok (foldUn N o a')
  | n + 1, .bin o l r => do
    let l' ← simp N n l
    let r' ← simp N n r
    simpBin N (simp N n) o l' r'
  | n + 1, .arr xs => do
    let ys ← mapRes (simp N n) xs
    .ok (.arr ys)
  | n + 1, .dict kvs => do
    let ys ← mapRes (fun p : List Char × Expr K => do
      let v ← simp N n p.2
      (.ok (p.1, v) : Res (List Char × Expr K))) kvs
    .ok (.dict ys)

end Stator
