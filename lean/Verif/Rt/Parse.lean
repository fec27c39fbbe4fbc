import Verif.Rt.Syntax
import Verif.Rt.Lex

/-!
# The operator-precedence parser

Models `sym::detail::ExprTokenizer::parseExpression`, `parseToken` and the operator objects
(`stator/symbolic/parser.hpp:59-606`).

The parser state is the list of the tokens not yet consumed; its head is the current token
(`next()`), the empty list is `empty()`. Recursion is on explicit fuel; running out of fuel is the
separate outcome `diverge`, so that termination is a theorem and not an artefact of the model.
-/

namespace Stator

/-- Outcome of a computation: a value, a C++ exception, or (fuel exhausted) no answer. -/
inductive Res (α : Type) where
  | ok (a : α)
  | throw
  | diverge
  deriving Repr

/-- Sequencing: exceptions and divergence propagate. -/
@[inline] def Res.bind {α β : Type} (x : Res α) (f : α → Res β) : Res β :=
  match x with
  | .ok a => f a
  | .throw => .throw
  | .diverge => .diverge

instance : Monad Res where
  pure := .ok
  bind := Res.bind

/-- What the parser needs to know about constants: reading a literal with `stringstream >> double`
(parser.hpp:494-497), negating a `double` (parser.hpp:460). -/
structure NumLex (K : Type) where
  ofLit : List Char → K
  neg : K → K

/-- Entry of the `_right_operators` table. -/
inductive RightOp
  | bin (o : BinOp)
  | halt
  deriving DecidableEq

/-- `_right_operators.find(token)`. models: parser.hpp:101-134. -/
def rightOp : Tok → Option RightOp
  | .sym ['='] => some (.bin .eq)
  | .sym ['+'] => some (.bin .add)
  | .sym ['-'] => some (.bin .sub)
  | .sym ['*'] => some (.bin .mul)
  | .sym ['/'] => some (.bin .div)
  | .sym ['^'] => some (.bin .pow)
  | .sym ['{'] => some (.bin .units)
  | .sym ['\u00c2', '\u00b1'] => some (.bin .uncert)
  | .sym ['['] => some (.bin .access)
  | .sym [')'] => some .halt
  | .sym [','] => some .halt
  | .sym [']'] => some .halt
  | .sym [':'] => some .halt
  | .sym ['}'] => some .halt
  | _ => none

/-- `LBP()` of a right operator. models: parser.hpp:326, 335. -/
def RightOp.lbp : RightOp → Int
  | .bin o => o.lbp
  | .halt => -1

/-- `Op::r_repr()` of the wrapped operators. models: binary_ops.hpp:193, units.hpp:51. -/
def BinOp.closer : BinOp → List Char
  | .access => [']']
  | .units => ['}']
  | _ => []

/-- Entry of the `_left_operators` table. -/
inductive LeftOp
  | skip | minus | paren | array | dict | fn (o : UnOp)
  deriving DecidableEq

/-- `_left_operators.find(token)`. models: parser.hpp:111-140. -/
def leftOp : Tok → Option LeftOp
  | .sym ['+'] => some .skip
  | .sym ['-'] => some .minus
  | .sym ['('] => some .paren
  | .sym ['['] => some .array
  | .sym ['{'] => some .dict
  | .word ['s', 'i', 'n'] => some (.fn .sin)
  | .word ['c', 'o', 's'] => some (.fn .cos)
  | .word ['e', 'x', 'p'] => some (.fn .exp)
  | .word ['l', 'n'] => some (.fn .log)
  | _ => none

/-- `consume()`: drop the current token; throws if the next one cannot be recognised.
models: parser.hpp:165-217. -/
def consume : List Tok → Res (List Tok)
  | [] => .ok []
  | _ :: .bad :: _ => .throw
  | _ :: ts => .ok ts

/-- `expect(token)`. models: parser.hpp:152-158. -/
def expect (t : Tok) (ts : List Tok) : Res (List Tok) :=
  if ts.head? = some t then consume ts else .throw

/-- The visitor of `UnaryNegative`: a constant is negated, anything else is wrapped.
models: parser.hpp:455-468. -/
def negate {K : Type} (L : NumLex K) : Expr K → Expr K
  | .const k => .const (L.neg k)
  | e => .un .neg e

/-- `a[key] = value` on the dictionary being built. models: parser.hpp:407. -/
def dictSet {K : Type} (kvs : List (List Char × Expr K)) (k : List Char) (v : Expr K) :
    List (List Char × Expr K) :=
  if kvs.any (fun p => p.1 == k) then kvs.map (fun p => if p.1 = k then (k, v) else p)
  else kvs ++ [(k, v)]

mutual

/-- `parseExpression(minLBP)`. models: parser.hpp:562-606. -/
def parseExpr {K : Type} (L : NumLex K) (fuel : Nat) (minLBP : Int) (ts : List Tok) :
    Res (Expr K × List Tok) :=
  match fuel with
  | 0 => .diverge
  | n + 1 => do
    let (t, ts) ← parseToken L n ts
    opLoop L n minLBP intMax t ts

/-- The `while(true)` loop of `parseExpression`, with the loop variables `t` and `maxLBP`.
models: parser.hpp:575-603 (and `BinaryOpToken::apply`, 315-324). -/
def opLoop {K : Type} (L : NumLex K) (fuel : Nat) (minLBP maxLBP : Int) (t : Expr K)
    (ts : List Tok) : Res (Expr K × List Tok) :=
  match fuel with
  | 0 => .diverge
  | n + 1 =>
    match ts with
    | [] => .ok (t, [])
    | tok :: _ =>
      match rightOp tok with
      | none => .throw
      | some o =>
        if minLBP > o.lbp ∨ o.lbp > maxLBP then .ok (t, ts)
        else do
          let ts ← consume ts
          match o with
          | .halt => .throw
          | .bin b =>
            if b.wrapped then
              let (r, ts) ← parseExpr L n 0 ts
              let ts ← expect (.sym b.closer) ts
              opLoop L n minLBP b.nbp (.bin b t r) ts
            else
              let (r, ts) ← parseExpr L n b.rbp ts
              opLoop L n minLBP b.nbp (.bin b t r) ts

/-- `parseToken()`. models: parser.hpp:482-517 and the `apply` of the left operators, 339-474. -/
def parseToken {K : Type} (L : NumLex K) (fuel : Nat) (ts : List Tok) :
    Res (Expr K × List Tok) :=
  match fuel with
  | 0 => .diverge
  | n + 1 => do
    let rest ← consume ts
    match ts with
    | [] => .throw
    | tok :: _ =>
      match tok with
      | .num s => .ok (.const (L.ofLit s), rest)
      | tok =>
        match leftOp tok with
        | some .skip => parseExpr L n 21 rest
        | some .minus => do
          let (e, ts) ← parseExpr L n 21 rest
          .ok (negate L e, ts)
        | some .paren => do
          let (e, ts) ← parseExpr L n 0 rest
          let ts ← expect (.sym [')']) ts
          .ok (e, ts)
        | some .array =>
          if rest.head? = some (.sym [']']) then do
            let ts ← consume rest
            .ok (.arr [], ts)
          else arrayItems L n [] rest
        | some .dict =>
          if rest.head? = some (.sym ['}']) then do
            let ts ← consume rest
            .ok (.dict [], ts)
          else dictItems L n [] rest
        | some (.fn o) => do
          let (e, ts) ← parseExpr L n o.bp rest
          .ok (.un o e, ts)
        | none =>
          match tok with
          | .word s => .ok (.var s, rest)
          | _ => .throw

/-- The loop of `ArrayToken::apply`; `acc` are the elements pushed so far.
models: parser.hpp:367-377. -/
def arrayItems {K : Type} (L : NumLex K) (fuel : Nat) (acc : List (Expr K)) (ts : List Tok) :
    Res (Expr K × List Tok) :=
  match fuel with
  | 0 => .diverge
  | n + 1 => do
    let (e, ts) ← parseExpr L n 0 ts
    if ts.head? = some (.sym [']']) then do
      let ts ← expect (.sym [']']) ts
      .ok (.arr (acc ++ [e]), ts)
    else do
      let ts ← expect (.sym [',']) ts
      arrayItems L n (acc ++ [e]) ts

/-- The loop of `DictToken::apply`; `acc` are the entries so far.
models: parser.hpp:400-414. -/
def dictItems {K : Type} (L : NumLex K) (fuel : Nat) (acc : List (List Char × Expr K))
    (ts : List Tok) : Res (Expr K × List Tok) :=
  match fuel with
  | 0 => .diverge
  | n + 1 => do
    let (k, ts) ← parseExpr L n 0 ts
    match k with
    | .var key => do
      let ts ← expect (.sym [':']) ts
      let (v, ts) ← parseExpr L n 0 ts
      if ts.head? = some (.sym ['}']) then do
        let ts ← expect (.sym ['}']) ts
        .ok (.dict (dictSet acc key v), ts)
      else do
        let ts ← expect (.sym [',']) ts
        dictItems L n (dictSet acc key v) ts
    | _ => .throw

end

/-- The tokenizer constructor followed by `parseExpression()` and the check that the tokenizer is
empty, as in `Expr::Expr(const std::string&)` but without the `simplify` step (which cannot affect
the tokenizer). models: parser.hpp:62-145, 615-627. -/
def parseToks {K : Type} (L : NumLex K) (fuel : Nat) (ts : List Tok) : Res (Expr K) :=
  match ts with
  | .bad :: _ => .throw
  | ts => do
    let (e, rest) ← parseExpr L fuel 0 ts
    if rest.isEmpty then .ok e else .throw

/-- `Expr::Expr(const std::string&)` without `simplify`. -/
def parseString {K : Type} (L : NumLex K) (fuel : Nat) (s : List Char) : Res (Expr K) :=
  parseToks L fuel (lex s)

end Stator
