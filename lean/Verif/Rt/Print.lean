import Verif.Rt.Syntax
import Verif.Rt.Lex

/-!
# Printing runtime expressions

Models `sym::repr` with the default configuration (no LaTeX output, no forced parentheses).
-/

namespace Stator

/-- `Op::repr()`. models: binary_ops.hpp:69,90,110,130,146,174,192; units.hpp:50; uncertainty.hpp:50. -/
def BinOp.text : BinOp → List Char
  | .eq => ['=']
  | .add => ['+']
  | .sub => ['-']
  | .mul => ['*']
  | .div => ['/']
  | .pow => ['^']
  | .access => ['[']
  | .units => ['{']
  | .uncert => pmSign

/-- `Op::r_repr()` of the binary operators (`l_repr()` is empty for all of them).
models: binary_ops.hpp:70,91,111,131,147,175,193; units.hpp:51; uncertainty.hpp:51. -/
def BinOp.rtext : BinOp → List Char
  | .access => [']']
  | .units => ['}']
  | _ => []

/-- `Op::l_repr()` of the unary operators. models: unary_ops.hpp:47,57,67,77,87,97,110. -/
def UnOp.ltext : UnOp → List Char
  | .sin => ['s', 'i', 'n', ' ']
  | .cos => ['c', 'o', 's', ' ']
  | .exp => ['e', 'x', 'p', ' ']
  | .log => ['l', 'n', ' ']
  | .abs => ['|']
  | .arbsign => pmSign ++ ['|']
  | .neg => ['-']

/-- `Op::r_repr()` of the unary operators. models: unary_ops.hpp:48,58,68,78,88,98,111. -/
def UnOp.rtext : UnOp → List Char
  | .abs => ['|']
  | .arbsign => ['|']
  | _ => []

/-- `paren_wrap` if `b`. models: binary_ops.hpp:430-433. -/
def wrapIf (b : Bool) (s : List Char) : List Char :=
  if b then ['('] ++ s ++ [')'] else s

/-- `out.substr(0, out.size() - 2)`. models: array.hpp:393, dict.hpp:103. -/
def dropTwo (s : List Char) : List Char := s.dropLast.dropLast

mutual

/-- `repr(const Expr&)`; `showK` is the printing of a `double` (repr.hpp:56-75). `none`: the
printer does not terminate (it asks for the binding power of a dictionary, see `Expr.BP`).
models: binary_ops.hpp:448-467, unary_ops.hpp:193-208, array.hpp:382-394, dict.hpp:92-104,
runtime.hpp:1128-1194, variable.hpp (a variable prints as its name). -/
def Expr.repr {K : Type} (showK : K → List Char) : Expr K → Option (List Char)
  | .const k => some (showK k)
  | .var n => some n
  | .un o a => do
    let s ← a.repr showK
    let abp ← a.BP
    some (o.ltext ++ wrapIf (decide (abp.1 < o.bp)) s ++ o.rtext)
  | .bin o l r => do
    let lbp ← l.BP
    let rbp ← r.BP
    let ls ← l.repr showK
    let rs ← r.repr showK
    some (wrapIf (decide (lbp.2 < o.lbp)) ls ++ o.text
      ++ wrapIf (decide (o.rbp > rbp.1) && !o.wrapped) rs ++ o.rtext)
  | .arr [] => some ['[', ']']
  | .arr (x :: xs) => do
    let s ← reprTerms showK (x :: xs)
    some (dropTwo (['['] ++ s) ++ [']'])
  | .dict [] => some ['{', '}']
  | .dict (p :: kvs) => do
    let s ← reprEntries showK (p :: kvs)
    some (dropTwo (['{'] ++ s) ++ ['}'])

/-- The loop `for (term : f) out += repr(term) + ", "`. models: array.hpp:390-391. -/
def reprTerms {K : Type} (showK : K → List Char) : List (Expr K) → Option (List Char)
  | [] => some []
  | x :: xs => do
    let s ← x.repr showK
    let ss ← reprTerms showK xs
    some (s ++ [',', ' '] ++ ss)

/-- The loop `for (term : f) out += repr(term.first) + ":" + repr(term.second) + ", "`.
models: dict.hpp:100-101. -/
def reprEntries {K : Type} (showK : K → List Char) :
    List (List Char × Expr K) → Option (List Char)
  | [] => some []
  | (k, v) :: kvs => do
    let s ← v.repr showK
    let ss ← reprEntries showK kvs
    some (k ++ [':'] ++ s ++ [',', ' '] ++ ss)

end

end Stator
