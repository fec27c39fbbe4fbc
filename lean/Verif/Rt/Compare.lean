import Verif.Rt.Syntax

/-!
# Comparison and hashing of runtime expressions

Models `Expr::operator==` (double dispatch, `stator/symbolic/runtime.hpp:113-117, 191, 355-403`) with
its pointer shortcuts, and `std::hash<sym::Expr>` (`runtime.hpp:431-460`).
-/

namespace Stator

/-- An expression as it lies in memory: every node has an address (the shared pointer's target).
`Expr` forgets the addresses. -/
inductive HExpr (K : Type) where
  | const (addr : Nat) (k : K)
  | var (addr : Nat) (name : List Char)
  | un (addr : Nat) (op : UnOp) (arg : HExpr K)
  | bin (addr : Nat) (op : BinOp) (l r : HExpr K)
  | arr (addr : Nat) (xs : List (HExpr K))
  | dict (addr : Nat) (kvs : List (List Char × HExpr K))

/-- The address of a node. -/
def HExpr.addr {K : Type} : HExpr K → Nat
  | .const a _ => a
  | .var a _ => a
  | .un a _ _ => a
  | .bin a _ _ _ => a
  | .arr a _ => a
  | .dict a _ => a

mutual
/-- The expression without its addresses. -/
def HExpr.erase {K : Type} : HExpr K → Expr K
  | .const _ k => .const k
  | .var _ n => .var n
  | .un _ o a => .un o a.erase
  | .bin _ o l r => .bin o l.erase r.erase
  | .arr _ xs => .arr (eraseList xs)
  | .dict _ kvs => .dict (eraseDict kvs)
def eraseList {K : Type} : List (HExpr K) → List (Expr K)
  | [] => []
  | x :: xs => x.erase :: eraseList xs
def eraseDict {K : Type} : List (List Char × HExpr K) → List (List Char × Expr K)
  | [] => []
  | (k, v) :: xs => (k, v.erase) :: eraseDict xs
end

mutual
/-- `a == b`. `eqK` is `==` on `double`. Operands of different kinds compare unequal
(`ComparisonVisitor::compare_impl(choice<1>)`).
models: runtime.hpp:355-403 (dispatch), constants_rt.hpp:32-39, variable_rt.hpp:50-53,
unary_ops_rt.hpp:38-41, binary_ops_rt.hpp:37-40 (pointer shortcuts `this == &o`),
array_rt.hpp:53-56, dict.hpp:53-57 (`std::unordered_map ==`: same size, every key found, values
compare equal). -/
def HExpr.cmp {K : Type} (eqK : K → K → Bool) : HExpr K → HExpr K → Bool
  | .const _ x, .const _ y => eqK x y
  | .var a m, .var b n => a == b || m == n
  | .un a o x, .un b p y => o == p && (a == b || x.cmp eqK y)
  | .bin a o l r, .bin b p l' r' => o == p && (a == b || (l.cmp eqK l' && r.cmp eqK r'))
  | .arr _ xs, .arr _ ys => cmpList eqK xs ys
  | .dict a xs, .dict b ys => a == b || (xs.length == ys.length && cmpDict eqK xs ys)
  | _, _ => false
/-- Element by element, with equal lengths. models: array_rt.hpp:54-56. -/
def cmpList {K : Type} (eqK : K → K → Bool) : List (HExpr K) → List (HExpr K) → Bool
  | [], [] => true
  | x :: xs, y :: ys => x.cmp eqK y && cmpList eqK xs ys
  | _, _ => false
/-- Every entry of the first map is found in the second with an equal value. -/
def cmpDict {K : Type} (eqK : K → K → Bool) : List (List Char × HExpr K) →
    List (List Char × HExpr K) → Bool
  | [], _ => true
  | (k, v) :: xs, ys =>
    (match ys.find? fun p => p.1 == k with
      | some q => v.cmp eqK q.2
      | none => false) && cmpDict eqK xs ys
end

/-- The type indices that seed the hashes.
models: unary_ops.hpp:44-115, binary_ops.hpp:58-204, units.hpp:59, uncertainty.hpp:59. -/
def UnOp.typeIndex : UnOp → UInt64
  | .sin => 2 | .cos => 3 | .log => 4 | .exp => 5 | .abs => 6 | .arbsign => 7 | .neg => 17
def BinOp.typeIndex : BinOp → UInt64
  | .add => 8 | .sub => 9 | .mul => 10 | .div => 11 | .pow => 12 | .eq => 13 | .access => 14
  | .units => 18 | .uncert => 19

/-- `stator::hash_combine` (with `std::hash<size_t>` the identity, as in libstdc++).
models: stator/hash.hpp:25-27. -/
def hashCombine (seed v : UInt64) : UInt64 :=
  seed ^^^ (v + (0x9e3779b9 : UInt64) + (seed <<< (6 : UInt64)) + (seed >>> (2 : UInt64)))

mutual
/-- `std::hash<sym::Expr>`; `hK`, `hS` are `std::hash<double>` and `std::hash<std::string>`.
models: runtime.hpp:431-460, variable.hpp:96-104, unary_ops.hpp:213-221, binary_ops.hpp:470-479,
array.hpp:580-595, dict.hpp:108-120. -/
def Expr.hash {K : Type} (hK : K → UInt64) (hS : List Char → UInt64) : Expr K → UInt64
  | .const k => hK k
  | .var n => hashCombine 1 (hS n)
  | .un o a => hashCombine o.typeIndex (a.hash hK hS)
  | .bin o l r => hashCombine (hashCombine o.typeIndex (l.hash hK hS)) (r.hash hK hS)
  | .arr xs => hashList hK hS 15 xs
  | .dict kvs => hashDict hK hS 16 kvs
def hashList {K : Type} (hK : K → UInt64) (hS : List Char → UInt64) : UInt64 → List (Expr K) → UInt64
  | seed, [] => seed
  | seed, x :: xs => hashList hK hS (hashCombine seed (x.hash hK hS)) xs
def hashDict {K : Type} (hK : K → UInt64) (hS : List Char → UInt64) :
    UInt64 → List (List Char × Expr K) → UInt64
  | seed, [] => seed
  | seed, (n, v) :: xs =>
    hashDict hK hS (hashCombine (hashCombine seed (hashCombine 1 (hS n))) (v.hash hK hS)) xs
end

/-! ## Specification -/

/-- Two trees are the same operator by operator; constants agree in the sense of `R`; dictionaries
agree as finite maps. -/
inductive SameTree {K : Type} (R : K → K → Prop) : Expr K → Expr K → Prop
  | const {x y} : R x y → SameTree R (.const x) (.const y)
  | var {n} : SameTree R (.var n) (.var n)
  | un {o a b} : SameTree R a b → SameTree R (.un o a) (.un o b)
  | bin {o l r l' r'} : SameTree R l l' → SameTree R r r' → SameTree R (.bin o l r) (.bin o l' r')
  | arr {xs ys} (hl : xs.length = ys.length)
      (h : ∀ i (h1 : i < xs.length) (h2 : i < ys.length), SameTree R xs[i] ys[i]) :
      SameTree R (.arr xs) (.arr ys)
  | dict {xs ys : List (List Char × Expr K)} (hk : ∀ k, k ∈ xs.map (·.1) ↔ k ∈ ys.map (·.1))
      (h : ∀ k v w, (k, v) ∈ xs → (k, w) ∈ ys → SameTree R v w) : SameTree R (.dict xs) (.dict ys)

/-- Wherever the two expressions have dictionaries at the same place, these iterate over their keys in the
same order. (The place of an entry of a dictionary is its key.) -/
inductive SameOrder {K : Type} : Expr K → Expr K → Prop
  | const {x y} : SameOrder (.const x) (.const y)
  | var {m n} : SameOrder (.var m) (.var n)
  | un {o p a b} : SameOrder a b → SameOrder (.un o a) (.un p b)
  | bin {o p l r l' r'} : SameOrder l l' → SameOrder r r' → SameOrder (.bin o l r) (.bin p l' r')
  | arr {xs ys} (h : ∀ i (h1 : i < xs.length) (h2 : i < ys.length), SameOrder xs[i] ys[i]) :
      SameOrder (.arr xs) (.arr ys)
  | dict {xs ys : List (List Char × Expr K)} (hk : xs.map (·.1) = ys.map (·.1))
      (h : ∀ k v w, (k, v) ∈ xs → (k, w) ∈ ys → SameOrder v w) : SameOrder (.dict xs) (.dict ys)

mutual
/-- All constants satisfy `P`. -/
def Expr.allConst {K : Type} (P : K → Prop) : Expr K → Prop
  | .const k => P k
  | .var _ => True
  | .un _ a => a.allConst P
  | .bin _ l r => l.allConst P ∧ r.allConst P
  | .arr xs => allConstList P xs
  | .dict kvs => allConstDict P kvs
def allConstList {K : Type} (P : K → Prop) : List (Expr K) → Prop
  | [] => True
  | x :: xs => x.allConst P ∧ allConstList P xs
def allConstDict {K : Type} (P : K → Prop) : List (List Char × Expr K) → Prop
  | [] => True
  | (_, v) :: xs => v.allConst P ∧ allConstDict P xs
end

mutual
/-- Every dictionary is a map: its keys are distinct. -/
def Expr.mapsOk {K : Type} : Expr K → Prop
  | .const _ => True
  | .var _ => True
  | .un _ a => a.mapsOk
  | .bin _ l r => l.mapsOk ∧ r.mapsOk
  | .arr xs => mapsOkList xs
  | .dict kvs => (kvs.map (·.1)).Nodup ∧ mapsOkDict kvs
def mapsOkList {K : Type} : List (Expr K) → Prop
  | [] => True
  | x :: xs => x.mapsOk ∧ mapsOkList xs
def mapsOkDict {K : Type} : List (List Char × Expr K) → Prop
  | [] => True
  | (_, v) :: xs => v.mapsOk ∧ mapsOkDict xs
end

mutual
/-- All nodes of an expression in memory. -/
def HExpr.nodes {K : Type} : HExpr K → List (HExpr K)
  | .const a k => [.const a k]
  | .var a n => [.var a n]
  | .un a o x => .un a o x :: x.nodes
  | .bin a o l r => .bin a o l r :: (l.nodes ++ r.nodes)
  | .arr a xs => .arr a xs :: nodesList xs
  | .dict a kvs => .dict a kvs :: nodesDict kvs
def nodesList {K : Type} : List (HExpr K) → List (HExpr K)
  | [] => []
  | x :: xs => x.nodes ++ nodesList xs
def nodesDict {K : Type} : List (List Char × HExpr K) → List (HExpr K)
  | [] => []
  | (_, v) :: xs => v.nodes ++ nodesDict xs
end

/-- In a memory, one address holds one node. -/
def Coherent {K : Type} (a b : HExpr K) : Prop :=
  ∀ x ∈ a.nodes, ∀ y ∈ b.nodes, x.addr = y.addr → x.erase = y.erase

end Stator
