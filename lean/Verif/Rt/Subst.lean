import Verif.Rt.Parse
import Verif.Rt.Eval

/-!
# Substitution in runtime expressions

Models `sym::sub` and the visitors `SubstituteRT`, `SubstituteDictRT`, `SubstituteExprRT`
(`stator/symbolic/runtime.hpp:728-948`). `none` is the null `Expr()` a visitor returns for
"unchanged".
-/

namespace Stator

mutual
/-- `SubstituteRT`. A dictionary is not descended into (default `apply`, runtime.hpp:733-737); a
function whose argument is unchanged returns itself, not null.
models: runtime.hpp:729-811. -/
def substRT {K : Type} (x : List Char) (g : Expr K) : Expr K → Option (Expr K)
  | .const _ => none
  | .var n => if n = x then some g else none
  | .un o a =>
    match substRT x g a with
    | some a' => some (.un o a')
    | none => some (.un o a)
  | .bin o l r =>
    match substRT x g l, substRT x g r with
    | none, none => none
    | l', r' => some (.bin o (l'.getD l) (r'.getD r))
  | .arr xs => (substRTs x g xs [] none).map .arr
  | .dict _ => none
/-- The loop over the elements of an array: `skipped` are the elements passed so far, `out` is the
regenerated array once a replacement has been made (`_replaced`). models: runtime.hpp:749-788. -/
def substRTs {K : Type} (x : List Char) (g : Expr K) :
    List (Expr K) → List (Expr K) → Option (List (Expr K)) → Option (List (Expr K))
  | [], _, out => out
  | e :: es, skipped, out =>
    let t := substRT x g e
    let out := if t.isSome && out.isNone then some skipped else out
    let out := out.map fun o => o ++ [t.getD e]
    substRTs x g es (skipped ++ [e]) out
end

mutual
/-- `SubstituteDictRT`; the dictionary is a list of entries with distinct keys, `find` is a search.
models: runtime.hpp:816-902. -/
def substDict {K : Type} (d : List (List Char × Expr K)) : Expr K → Option (Expr K)
  | .const _ => none
  | .var n => (d.find? fun p => p.1 = n).map (·.2)
  | .un o a => (substDict d a).map (.un o)
  | .bin o l r =>
    match substDict d l, substDict d r with
    | none, none => none
    | l', r' => some (.bin o (l'.getD l) (r'.getD r))
  | .arr xs => (substDicts d xs [] none).map .arr
  | .dict _ => none
/-- The same loop in `SubstituteDictRT`. models: runtime.hpp:841-880. -/
def substDicts {K : Type} (d : List (List Char × Expr K)) :
    List (Expr K) → List (Expr K) → Option (List (Expr K)) → Option (List (Expr K))
  | [], _, out => out
  | e :: es, skipped, out =>
    let t := substDict d e
    let out := if t.isSome && out.isNone then some skipped else out
    let out := out.map fun o => o ++ [t.getD e]
    substDicts d es (skipped ++ [e]) out
end

/-- `sub(f, x = g)` with a variable on the left. models: runtime.hpp:906-913, 940-946. -/
def subVar {K : Type} (f : Expr K) (x : List Char) (g : Expr K) : Expr K := (substRT x g f).getD f

/-- `sub(f, dict)`. models: runtime.hpp:915-920. -/
def subDict {K : Type} (f : Expr K) (d : List (List Char × Expr K)) : Expr K := (substDict d f).getD f

/-- `sub(f, rep)` for two runtime expressions: an equation with a variable on the left or a
dictionary; anything else throws. models: runtime.hpp:922-957. -/
def sub {K : Type} (f rep : Expr K) : Res (Expr K) :=
  match rep with
  | .dict d => .ok (subDict f d)
  | .bin .eq (.var x) g => .ok (subVar f x g)
  | _ => .throw

/-! ## Specification -/

mutual
/-- No dictionary occurs in the expression. -/
def Expr.noDict {K : Type} : Expr K → Bool
  | .const _ => true
  | .var _ => true
  | .un _ a => a.noDict
  | .bin _ l r => l.noDict && r.noDict
  | .arr xs => noDictList xs
  | .dict _ => false
def noDictList {K : Type} : List (Expr K) → Bool
  | [] => true
  | x :: xs => x.noDict && noDictList xs
end

/-- A compositional interpretation of expressions in an arbitrary domain `V`. -/
structure Algebra (K V : Type) where
  const : K → V
  un : UnOp → V → V
  bin : BinOp → V → V → V
  arr : List V → V
  dict : List (List Char × Expr K) → V

mutual
/-- The meaning of an expression in an interpretation, under an assignment of its variables. (A
dictionary is opaque.) -/
def Expr.interp {K V : Type} (A : Algebra K V) (ρ : List Char → V) : Expr K → V
  | .const k => A.const k
  | .var n => ρ n
  | .un o a => A.un o (a.interp A ρ)
  | .bin o l r => A.bin o (l.interp A ρ) (r.interp A ρ)
  | .arr xs => A.arr (interpList A ρ xs)
  | .dict d => A.dict d
def interpList {K V : Type} (A : Algebra K V) (ρ : List Char → V) : List (Expr K) → List V
  | [] => []
  | x :: xs => x.interp A ρ :: interpList A ρ xs
end

end Stator
