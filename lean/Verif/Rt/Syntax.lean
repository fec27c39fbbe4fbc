/-!
# Runtime expressions: syntax and binding powers

Models the runtime AST of `sym::Expr` (`stator/symbolic/runtime.hpp`) and the
binding-power tables of the operators.
-/

namespace Stator

/-- The unary operators that can occur in a runtime expression.
models: stator/symbolic/unary_ops.hpp:44-115 (Sine, Cosine, Exp, Log, Absolute, Arbsign, Negate). -/
inductive UnOp
  | sin | cos | exp | log | abs | arbsign | neg
  deriving DecidableEq, Repr

/-- The binary operators that can occur in a runtime expression.
models: stator/symbolic/binary_ops.hpp:58-204, units.hpp:38-61, uncertainty.hpp:38-61. -/
inductive BinOp
  | add | sub | mul | div | pow | eq | access | units | uncert
  deriving DecidableEq, Repr

/-- A runtime expression.
models: the node kinds of stator/symbolic/runtime.hpp:243-265 (`VisitorInterface`).
`K` is the type of constants (`ConstantRT<double>`). `ArrayRT` is one-dimensional
(array_rt.hpp:27). Simplifications: sharing through `shared_ptr` is not represented (it is in
`Verif/Rt/Compare`); a `DictRT` is the list of its entries in iteration order and its keys
are variables (the parser, parser.hpp:403, only creates such keys). -/
inductive Expr (K : Type) where
  | const (k : K)
  | var (name : List Char)
  | un (op : UnOp) (arg : Expr K)
  | bin (op : BinOp) (l r : Expr K)
  | arr (xs : List (Expr K))
  | dict (kvs : List (List Char × Expr K))

/-- `std::numeric_limits<int>::max()` (32 bit `int`). -/
def intMax : Int := 2147483647

/-- `Op::leftBindingPower`.
models: binary_ops.hpp:59,80,100,120,140,164,186; units.hpp:40; uncertainty.hpp:40. -/
def BinOp.lbp : BinOp → Int
  | .eq => 10
  | .add => 20
  | .sub => 20
  | .mul => 30
  | .div => 30
  | .pow => 40
  | .access => 50
  | .units => 60
  | .uncert => 70

/-- `Op::associativity == Associativity::RIGHT` (no operator uses NONE).
models: binary_ops.hpp:60,81,101,121,141,165,187; units.hpp:41; uncertainty.hpp:41. -/
def BinOp.rightAssoc : BinOp → Bool
  | .eq => true
  | .pow => true
  | _ => false

/-- `Op::wrapped`.
models: binary_ops.hpp:63,84,104,124,144,168,190; units.hpp:44; uncertainty.hpp:44. -/
def BinOp.wrapped : BinOp → Bool
  | .access => true
  | .units => true
  | _ => false

/-- `RBP<Op>()`. models: binary_ops.hpp:48-51. -/
def BinOp.rbp (o : BinOp) : Int := o.lbp + (if o.rightAssoc then 0 else 1)

/-- `NBP<Op>()`. models: binary_ops.hpp:53-56. -/
def BinOp.nbp (o : BinOp) : Int := o.lbp - (if o.rightAssoc then 1 else 0)

/-- `Op::BP` of the unary operators. models: unary_ops.hpp:45,55,65,75,85,95,108. -/
def UnOp.bp : UnOp → Int
  | .sin | .cos | .exp | .log => intMax
  | .abs | .arbsign => 0
  | .neg => 21

/-- `BP(const Expr&)`: the (left, right) binding powers used by the printer.
models: runtime.hpp:408-425, binary_ops.hpp:439-444, unary_ops.hpp:189-191,
array.hpp:573-577 and the generic overloads for constants and variables (INT_MAX).
`none`: there is no `BP` overload for `DictRT`; the call converts the dictionary to
`Expr` and recurses without end (stack overflow). -/
def Expr.BP {K : Type} : Expr K → Option (Int × Int)
  | .const _ => some (intMax, intMax)
  | .var _ => some (intMax, intMax)
  | .un o _ => some (0, o.bp)
  | .bin o _ _ => some (o.lbp, o.rbp)
  | .arr _ => some (intMax, intMax)
  | .dict _ => none

end Stator
