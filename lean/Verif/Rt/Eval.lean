import Verif.Rt.Simplify
import Mathlib.Analysis.SpecialFunctions.Pow.Real
import Mathlib.Analysis.SpecialFunctions.Trigonometric.Basic

/-!
# Specification: the real value of a scalar expression

Exact real arithmetic, partial where the mathematical function is.
-/

namespace Stator

/-- `double` arithmetic idealised as exact real arithmetic. -/
noncomputable def realOps : NumOps ℝ where
  zero := 0
  one := 1
  add := (· + ·)
  sub := (· - ·)
  mul := (· * ·)
  div := (· / ·)
  pow := (· ^ ·)
  neg := (- ·)
  sin := Real.sin
  cos := Real.cos
  exp := Real.exp
  log := Real.log
  abs := (|·|)

open Classical in
/-- Value of a function application, where it is defined. (`±|x|` has no single value.) -/
noncomputable def unVal (o : UnOp) (x : ℝ) : Option ℝ :=
  match o with
  | .sin => some (Real.sin x)
  | .cos => some (Real.cos x)
  | .exp => some (Real.exp x)
  | .log => if 0 < x then some (Real.log x) else none
  | .abs => some |x|
  | .neg => some (-x)
  | .arbsign => none

/-- Where `x ^ y` has a real value. -/
def powDom (x y : ℝ) : Prop := 0 < x ∨ (x = 0 ∧ 0 ≤ y) ∨ (x < 0 ∧ ∃ n : ℤ, y = n)

open Classical in
/-- Value of an arithmetic operation, where it is defined. -/
noncomputable def binVal (o : BinOp) (x y : ℝ) : Option ℝ :=
  match o with
  | .add => some (x + y)
  | .sub => some (x - y)
  | .mul => some (x * y)
  | .div => if y = 0 then none else some (x / y)
  | .pow => if powDom x y then some (x ^ y) else none
  | _ => none

/-- Value of an expression under an assignment of the variables. -/
noncomputable def Expr.eval (ρ : List Char → ℝ) : Expr ℝ → Option ℝ
  | .const k => some k
  | .var n => some (ρ n)
  | .un o a => (a.eval ρ).bind (unVal o)
  | .bin o l r => (l.eval ρ).bind fun x => (r.eval ρ).bind fun y => binVal o x y
  | .arr _ => none
  | .dict _ => none

/-- Expressions without arrays, dictionaries and array access. -/
def Expr.scalar {K : Type} : Expr K → Bool
  | .const _ => true
  | .var _ => true
  | .un _ a => a.scalar
  | .bin o l r => o != .access && l.scalar && r.scalar
  | .arr _ => false
  | .dict _ => false

/-- Number of nodes on the longest path. -/
def Expr.height {K : Type} : Expr K → Nat
  | .const _ => 1
  | .var _ => 1
  | .un _ a => a.height + 1
  | .bin _ l r => max l.height r.height + 1
  | .arr _ => 1
  | .dict _ => 1

/-- Ground arithmetic expressions: no variables, only operations that have a numeric result. -/
def Expr.ground {K : Type} : Expr K → Bool
  | .const _ => true
  | .var _ => false
  | .un o a => o != .arbsign && a.ground
  | .bin o l r => (o == .add || o == .sub || o == .mul || o == .div || o == .pow)
      && l.ground && r.ground
  | .arr _ => false
  | .dict _ => false

mutual
/-- The variables of an expression (dictionary keys are names, not occurrences). -/
def Expr.vars {K : Type} : Expr K → List (List Char)
  | .const _ => []
  | .var n => [n]
  | .un _ a => a.vars
  | .bin _ l r => l.vars ++ r.vars
  | .arr xs => varsList xs
  | .dict kvs => varsDict kvs
def varsList {K : Type} : List (Expr K) → List (List Char)
  | [] => []
  | x :: xs => x.vars ++ varsList xs
def varsDict {K : Type} : List (List Char × Expr K) → List (List Char)
  | [] => []
  | (_, v) :: kvs => v.vars ++ varsDict kvs
end

mutual
/-- A measure of the work of `simplify`: nodes are added up, except that the elements of an array
count as if they were worked on side by side. -/
def Expr.weight {K : Type} : Expr K → Nat
  | .const _ => 1
  | .var _ => 1
  | .un _ a => a.weight + 1
  | .bin _ l r => l.weight + r.weight + 1
  | .arr xs => weightList xs + 1
  | .dict kvs => weightDict kvs + 1
def weightList {K : Type} : List (Expr K) → Nat
  | [] => 0
  | x :: xs => max x.weight (weightList xs)
def weightDict {K : Type} : List (List Char × Expr K) → Nat
  | [] => 0
  | (_, v) :: kvs => max v.weight (weightDict kvs)
end

mutual
/-- Expressions, possibly with arrays and dictionaries, that contain no units and no power of two
arrays (at least one side of every power is a scalar). -/
def Expr.tame {K : Type} : Expr K → Bool
  | .const _ => true
  | .var _ => true
  | .un _ a => a.tame
  | .bin o l r => l.tame && r.tame && o != .units && (o != .pow || l.scalar || r.scalar)
  | .arr xs => tameList xs
  | .dict kvs => tameDict kvs
def tameList {K : Type} : List (Expr K) → Bool
  | [] => true
  | x :: xs => x.tame && tameList xs
def tameDict {K : Type} : List (List Char × Expr K) → Bool
  | [] => true
  | (_, v) :: kvs => v.tame && tameDict kvs
end

end Stator
