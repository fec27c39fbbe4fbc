import Verif.Rt.ParserFacts
import Verif.Rt.Print
import Verif.Rt.Simplify
import Verif.Rt.Subst
import Verif.Rt.Deriv

/-!
# Checking the models against the tests of the project

The modules in `Verif/Conform` replay what the tests in `/repo/tests` expect, on the models, by evaluation in the kernel.
They are tests of the models, not proofs about them: no property rests on them.

Numbers are rational numbers, or symbolic applications of operations to numbers where the result is not rational, so that the tests of
`simplify` can be run.
-/

namespace Stator.Conform

/-- Numbers for the tests. -/
inductive Num
  | q (r : Rat)
  | un (o : UnOp) (x : Num)
  | bin (o : BinOp) (x y : Num)
  deriving DecidableEq

def Num.ap1 (o : UnOp) (f : Rat → Rat) : Num → Num
  | .q r => .q (f r)
  | x => .un o x

def Num.ap2 (o : BinOp) (f : Rat → Rat → Rat) : Num → Num → Num
  | .q r, .q s => .q (f r s)
  | x, y => .bin o x y

def Num.pow : Num → Num → Num
  | .q r, .q s => if s.den = 1 then .q (if 0 ≤ s.num then r ^ s.num.toNat else (1 / r) ^ s.num.natAbs) else .bin .pow (.q r) (.q s)
  | x, y => .bin .pow x y

def ops : NumOps Num where
  zero := .q 0
  one := .q 1
  add := Num.ap2 .add (· + ·)
  sub := Num.ap2 .sub (· - ·)
  mul := Num.ap2 .mul (· * ·)
  div := Num.ap2 .div (· / ·)
  pow := Num.pow
  neg := Num.ap1 .neg (fun r => -r)
  sin := .un .sin
  cos := .un .cos
  exp := .un .exp
  log := .un .log
  abs := Num.ap1 .abs (fun r => if r < 0 then -r else r)

/-- The value of a decimal literal: digits so far, number of digits after the point. -/
def litGo (acc : Nat) (scale : Nat) (dot : Bool) : List Char → Rat
  | [] => (acc : Rat) / (10 ^ scale : Nat)
  | '.' :: cs => litGo acc scale true cs
  | 'e' :: '-' :: cs => (acc : Rat) / (10 ^ scale : Nat) / (10 ^ (litGo 0 0 false cs).num.toNat : Nat)
  | 'e' :: cs => (acc : Rat) / (10 ^ scale : Nat) * (10 ^ (litGo 0 0 false cs).num.toNat : Nat)
  | c :: cs => litGo (10 * acc + (c.toNat - '0'.toNat)) (if dot then scale + 1 else scale) dot cs

def lexNum : NumLex Num where
  ofLit s := .q (litGo 0 0 false s)
  neg := Num.ap1 .neg (fun r => -r)

/-- The digits of a number, at most `fuel` of them. -/
def digits : Nat → Nat → List Char
  | 0, _ => []
  | f + 1, n => if n < 10 then [Char.ofNat (48 + n)] else digits f (n / 10) ++ [Char.ofNat (48 + n % 10)]

/-- The digits after the point. -/
def decimals : Nat → Nat → Nat → List Char
  | 0, _, _ => []
  | f + 1, r, d => if r = 0 then [] else Char.ofNat (48 + 10 * r / d) :: decimals f (10 * r % d) d

def showNum : Num → List Char
  | .q r =>
    (if r.num < 0 then ['-'] else []) ++ digits 40 (r.num.natAbs / r.den) ++
      (if r.den = 1 then [] else '.' :: decimals 17 (r.num.natAbs % r.den) r.den)
  | _ => ['?']

/-- `ExprTokenizer(s).parseExpression()` and the end of the text. -/
def read (s : List Char) : Res (Expr Num) := parseToks lexNum (3 * s.length + 2) (lexFuel s.length s)

/-- It is the parser of the model. -/
theorem read_eq (s : List Char) : read s = parse lexNum s := (parse_eq_fuel lexNum s).symm

/-- `simplify`. -/
def simplify (e : Expr Num) : Res (Expr Num) := Stator.simp ops 400 e

/-- `Expr(s)`: read and simplified. -/
def expr (s : List Char) : Res (Expr Num) := (read s).bind simplify

/-- `repr`. -/
def text : Res (Expr Num) → Option (List Char)
  | .ok e => e.repr showNum
  | _ => none

/-- `as<double>()`. -/
def value : Res (Expr Num) → Option Num
  | .ok (.const k) => some k
  | _ => none

def throws {α : Type} : Res α → Bool
  | .throw => true
  | _ => false

end Stator.Conform
