import Verif.Rt.Print
import Verif.Rt.Grammar
import Verif.Rt.LexLemmas

/-!
# Specification: the expressions for which printing and parsing are inverse
-/

namespace Stator

/-- A name the tokenizer reads as a variable. -/
def IsName (n : List Char) : Prop :=
  n ≠ [] ∧ (∀ c ∈ n, isAlpha c = true) ∧ ∀ o, fnName o ≠ some n

def Expr.isDict {K : Type} : Expr K → Bool
  | .dict _ => true
  | _ => false

def Expr.isConst {K : Type} : Expr K → Bool
  | .const _ => true
  | _ => false

/-- Is the root the binary operator `o`? -/
def Expr.isBin {K : Type} (o : BinOp) : Expr K → Bool
  | .bin o' _ _ => o == o'
  | _ => false

/-- Left and right binding power (a dictionary, never an operand here, gets 0). -/
def Expr.lb {K : Type} (e : Expr K) : Int := (e.BP.getD (0, 0)).1
def Expr.rb {K : Type} (e : Expr K) : Int := (e.BP.getD (0, 0)).2

/-- The printer puts the argument of a unary operator in parentheses. -/
def parenU {K : Type} (o : UnOp) (a : Expr K) : Bool := decide (a.lb < o.bp)
/-- The printer puts the left operand in parentheses. -/
def parenL {K : Type} (o : BinOp) (l : Expr K) : Bool := decide (l.rb < o.lbp)
/-- The printer puts the right operand in parentheses, or the operator is itself a pair of brackets. -/
def parenR {K : Type} (o : BinOp) (r : Expr K) : Bool := o.wrapped || decide (r.lb < o.rbp)

/-- The operators that bind weaker than the unary minus. -/
def BinOp.weak : BinOp → Bool
  | .eq | .add | .sub => true
  | _ => false

/-- The constant prints as a literal that reads back as the constant. -/
def PosConst {K : Type} (L : NumLex K) (showK : K → List Char) (k : K) : Prop :=
  IsLit (showK k) ∧ L.ofLit (showK k) = k

/-- The constant prints as a minus sign and a literal that reads back as the negated constant. -/
def NegConst {K : Type} (L : NumLex K) (showK : K → List Char) (k : K) : Prop :=
  ∃ t, showK k = '-' :: t ∧ IsLit t ∧ L.neg (L.ofLit t) = k

/-- Expressions that can be written at all: every constant reads back (so it is finite), names are names,
and the keys of a dictionary are different names. -/
inductive Writable {K : Type} (L : NumLex K) (showK : K → List Char) : Expr K → Prop
  | const {k} : PosConst L showK k ∨ NegConst L showK k → Writable L showK (.const k)
  | var {n} : IsName n → Writable L showK (.var n)
  | un {o a} : Writable L showK a → Writable L showK (.un o a)
  | bin {o l r} : Writable L showK l → Writable L showK r → Writable L showK (.bin o l r)
  | arr {xs} : (∀ x ∈ xs, Writable L showK x) → Writable L showK (.arr xs)
  | dict {kvs} : (kvs.map Prod.fst).Nodup → (∀ p ∈ kvs, IsName p.1) →
      (∀ p ∈ kvs, Writable L showK p.2) → Writable L showK (.dict kvs)

/-- Expressions outside the defects of the printer (see `RoundTripProps`). `loose` says that what
follows the printed text is nothing, a closing bracket, a separator or an operator that binds weaker than
the unary minus. A negative constant has to be in such a place; there is no `|..|`, no `±|..|`, no power
whose base is a power and no equation whose left side is an equation, no negation of a constant, and
dictionaries are not operands. -/
inductive Printable {K : Type} (L : NumLex K) (showK : K → List Char) : Bool → Expr K → Prop
  | const {loose k} : PosConst L showK k → Printable L showK loose (.const k)
  | negc {k} : NegConst L showK k → Printable L showK true (.const k)
  | var {loose n} : IsName n → Printable L showK loose (.var n)
  | fn {loose o a s} : fnName o = some s → a.isDict = false → Printable L showK (parenU o a || loose) a →
      Printable L showK loose (.un o a)
  | neg {loose a} : a.isDict = false → a.isConst = false → Printable L showK (parenU .neg a || loose) a →
      Printable L showK loose (.un .neg a)
  | bin {loose o l r} : l.isDict = false → r.isDict = false → (o = .pow → l.isBin .pow = false) →
      (o = .eq → l.isBin .eq = false) → Printable L showK (parenL o l || o.weak) l →
      Printable L showK (parenR o r || loose) r → Printable L showK loose (.bin o l r)
  | arr {loose xs} : (∀ x ∈ xs, Printable L showK true x) → Printable L showK loose (.arr xs)
  | dict {loose kvs} : (kvs.map Prod.fst).Nodup → (∀ p ∈ kvs, IsName p.1) →
      (∀ p ∈ kvs, Printable L showK true p.2) → Printable L showK loose (.dict kvs)

end Stator
