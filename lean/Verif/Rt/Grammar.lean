import Verif.Rt.Parse

/-!
# Specification: the language of expressions

An ambiguous grammar, independent of binding powers: which token sequences are *some* way to write
an expression tree. Used to state that an accepted text is entirely part of the expression.
-/

namespace Stator

/-- The characters of a token. -/
def Tok.text : Tok → List Char
  | .num s => s
  | .word s => s
  | .sym s => s
  | .bad => []

/-- The token that writes an infix operator. -/
def infixTok : BinOp → Option Tok
  | .eq => some (.sym ['='])
  | .add => some (.sym ['+'])
  | .sub => some (.sym ['-'])
  | .mul => some (.sym ['*'])
  | .div => some (.sym ['/'])
  | .pow => some (.sym ['^'])
  | .uncert => some (.sym pmSign)
  | .access => none
  | .units => none

/-- The names of the functions. -/
def fnName : UnOp → Option (List Char)
  | .sin => some ['s', 'i', 'n']
  | .cos => some ['c', 'o', 's']
  | .exp => some ['e', 'x', 'p']
  | .log => some ['l', 'n']
  | _ => none

/-- The dictionary `kvs` is the map written as the entries `es`: no key occurs twice, and the value of
a key is the one written last. -/
def MapOf {K : Type} (es kvs : List (List Char × Expr K)) : Prop :=
  (kvs.map Prod.fst).Nodup ∧ ∀ k v, (k, v) ∈ kvs ↔ ∃ a b, es = a ++ (k, v) :: b ∧ k ∉ b.map Prod.fst

mutual

/-- `Gram L ts e`: the token sequence `ts` is a way to write the expression `e`. -/
inductive Gram {K : Type} (L : NumLex K) : List Tok → Expr K → Prop
  | num (s) : Gram L [.num s] (.const (L.ofLit s))
  | var (s) : (∀ o, fnName o ≠ some s) → Gram L [.word s] (.var s)
  | plus {ts e} : Gram L ts e → Gram L (.sym ['+'] :: ts) e
  | minus {ts e} : Gram L ts e → Gram L (.sym ['-'] :: ts) (negate L e)
  | fn {ts e o s} : fnName o = some s → Gram L ts e → Gram L (.word s :: ts) (.un o e)
  | paren {ts e} : Gram L ts e → Gram L ([.sym ['(']] ++ ts ++ [.sym [')']]) e
  | infix {ts1 ts2 l r o t} : infixTok o = some t → Gram L ts1 l → Gram L ts2 r →
      Gram L (ts1 ++ [t] ++ ts2) (.bin o l r)
  | access {ts1 ts2 l r} : Gram L ts1 l → Gram L ts2 r →
      Gram L (ts1 ++ [.sym ['[']] ++ ts2 ++ [.sym [']']]) (.bin .access l r)
  | units {ts1 ts2 l r} : Gram L ts1 l → Gram L ts2 r →
      Gram L (ts1 ++ [.sym ['{']] ++ ts2 ++ [.sym ['}']]) (.bin .units l r)
  | arr0 : Gram L [.sym ['['], .sym [']']] (.arr [])
  | arr {ts xs} : GramArr L ts xs → Gram L ([.sym ['[']] ++ ts ++ [.sym [']']]) (.arr xs)
  | dict0 : Gram L [.sym ['{'], .sym ['}']] (.dict [])
  | dict {ts es kvs} : GramDict L ts es → MapOf es kvs → Gram L ([.sym ['{']] ++ ts ++ [.sym ['}']]) (.dict kvs)

/-- Comma separated elements. -/
inductive GramArr {K : Type} (L : NumLex K) : List Tok → List (Expr K) → Prop
  | one {ts e} : Gram L ts e → GramArr L ts [e]
  | more {ts1 ts2 xs e} : GramArr L ts1 xs → Gram L ts2 e →
      GramArr L (ts1 ++ [.sym [',']] ++ ts2) (xs ++ [e])

/-- Comma separated `key : value` entries, in the order they are written. -/
inductive GramDict {K : Type} (L : NumLex K) : List Tok → List (List Char × Expr K) → Prop
  | one {ts1 ts2 k v} : Gram L ts1 (.var k) → Gram L ts2 v →
      GramDict L (ts1 ++ [.sym [':']] ++ ts2) [(k, v)]
  | more {ts1 ts2 ts3 es k v} : GramDict L ts1 es → Gram L ts2 (.var k) → Gram L ts3 v →
      GramDict L (ts1 ++ [.sym [',']] ++ ts2 ++ [.sym [':']] ++ ts3) (es ++ [(k, v)])

end

/-- Bracket discipline: `bal stack ts` reads `ts` with a stack of expected closing brackets. -/
def bal : List (List Char) → List Tok → Bool
  | st, [] => st.isEmpty
  | st, .sym ['('] :: ts => bal ([')'] :: st) ts
  | st, .sym ['['] :: ts => bal ([']'] :: st) ts
  | st, .sym ['{'] :: ts => bal (['}'] :: st) ts
  | st, .sym [')'] :: ts => match st with
    | [')'] :: st => bal st ts
    | _ => false
  | st, .sym [']'] :: ts => match st with
    | [']'] :: st => bal st ts
    | _ => false
  | st, .sym ['}'] :: ts => match st with
    | ['}'] :: st => bal st ts
    | _ => false
  | st, _ :: ts => bal st ts

/-- Operands: numbers, variables, functions applied to operands, and any accepted expression in
parentheses. -/
inductive Operand {K : Type} (L : NumLex K) : List Tok → Expr K → Prop
  | num (s) : Operand L [.num s] (.const (L.ofLit s))
  | var (s) : (∀ o, fnName o ≠ some s) → Operand L [.word s] (.var s)
  | fn {ts e o s} : fnName o = some s → Operand L ts e → Operand L (.word s :: ts) (.un o e)
  | paren {ts e n} : parseToks L n ts = .ok e →
      Operand L ([.sym ['(']] ++ ts ++ [.sym [')']]) e

/-- Precedence levels, loosest first. -/
def prec : BinOp → Nat
  | .eq => 1
  | .add => 2
  | .sub => 2
  | .mul => 3
  | .div => 3
  | .pow => 4
  | .access => 5
  | .units => 6
  | .uncert => 7

/-- In `a o1 b o2 c`, does `b` belong to `o2`? -/
def groupsRight (o1 o2 : BinOp) : Prop :=
  prec o1 < prec o2 ∨ (prec o1 = prec o2 ∧ (o1 = .pow ∨ o1 = .eq))

instance (o1 o2 : BinOp) : Decidable (groupsRight o1 o2) := by
  unfold groupsRight; infer_instance

end Stator
