import Verif.Rt.Compare

/-!
# Dispatch on the class of a node (runtime.hpp, *_rt.hpp)

Every operation on a runtime expression finds the class of a node from an integer stored in it, with a `switch` of
`static_cast`s. A cast to a class that is not the class of the object is undefined. `as<T>()` uses `dynamic_cast` instead.
-/

namespace Stator.Disp

/-- The classes derived from `RTBase`. `num T` is `ConstantRT<T>`; `T` is `true` for `double` and `false` for any other type.
models: stator/symbolic/constants_rt.hpp:23-46, variable_rt.hpp:22-60, unary_ops_rt.hpp:25-45, binary_ops_rt.hpp:24-45,
array_rt.hpp:25-58, dict_rt.hpp:25-45. -/
inductive Cls
  | num (isDouble : Bool)
  | var
  | un (o : UnOp)
  | bin (o : BinOp)
  | arr
  | dict
  deriving DecidableEq

/-- `_type_idx`, set by the constructor: `Type_index<Derived>::value`.
models: stator/symbolic/runtime.hpp:108, 395; constants_rt.hpp:49-50 (for every `ConstantRT<T>`), variable.hpp:89-90,
unary_ops.hpp:41-42 with 51, 61, 71, 81, 91, 101, 114, binary_ops.hpp:38-39 with 76, 96, 116, 136, 160, 182, 203,
units.hpp:60, uncertainty.hpp:60, array_rt.hpp:60, dict_rt.hpp:49. -/
def Cls.index : Cls → Nat
  | .num _ => 0
  | .var => 1
  | .un .sin => 2
  | .un .cos => 3
  | .un .exp => 5
  | .un .log => 4
  | .un .abs => 6
  | .un .arbsign => 7
  | .un .neg => 17
  | .bin .add => 8
  | .bin .sub => 9
  | .bin .mul => 10
  | .bin .div => 11
  | .bin .pow => 12
  | .bin .eq => 13
  | .bin .access => 14
  | .bin .units => 18
  | .bin .uncert => 19
  | .arr => 15
  | .dict => 16

/-- The cases of the `switch`, in their order: the index of the label and the class of the cast.
models: stator/symbolic/runtime.hpp:1083-1121. -/
def cases : List (Nat × Cls) :=
  [.num true, .var, .un .sin, .un .cos, .un .log, .un .exp, .un .abs, .un .arbsign, .bin .add, .bin .sub, .bin .mul, .bin .div,
    .bin .pow, .bin .eq, .bin .access, .bin .units, .bin .uncert, .arr, .dict, .un .neg].map fun c => (c.index, c)

/-- The result of a C++ expression. -/
inductive Out (R : Type)
  | ok (r : R)
  | throws
  | ub
  deriving DecidableEq

variable {Pay : Cls → Type}

/-- An object: its class and its fields. -/
structure Obj (Pay : Cls → Type) where
  cls : Cls
  pay : Pay cls

/-- `static_cast<const C&>(*this)` and a call with it. -/
def Obj.staticCast {R : Type} (x : Obj Pay) (c : Cls) (f : Pay c → R) : Out R :=
  if h : x.cls = c then .ok (f (h ▸ x.pay)) else .ub

/-- `visit`: `V c` is the overload of the visitor for `c`.
models: stator/symbolic/runtime.hpp:1078-1125; 241-266, 274-350 (every overload calls `apply` with its argument). -/
def visit {R : Type} (x : Obj Pay) (V : (c : Cls) → Pay c → R) : Out R :=
  match cases.find? fun p => p.1 == x.cls.index with
  | some (_, c) => x.staticCast c (V c)
  | none => .throws

/-- Double dispatch: a visitor of the left operand that visits the right operand.
models: stator/symbolic/runtime.hpp:535-560. -/
def visit2 {R : Type} (l r : Obj Pay) (V : (c : Cls) → Pay c → (d : Cls) → Pay d → R) : Out R :=
  match visit l fun c p => visit r fun d q => V c p d q with
  | .ok o => o
  | .throws => .throws
  | .ub => .ub

/-- `as<T>()`: `dynamic_cast`, which looks at the class of the object, not at the index.
models: stator/symbolic/runtime.hpp:509-517, 525-533. -/
def as (x : Obj Pay) (c : Cls) : Out (Pay c) := if h : x.cls = c then .ok (h ▸ x.pay) else .throws

/-- **C85**: every operation on a node is carried out by the code for its own class, with its own fields: no cast is wrong and no
class is without a case. The only requirement is that numbers are `ConstantRT<double>`, which is all that `Expr` makes. -/
theorem C85_visit {R : Type} (x : Obj Pay) (hx : x.cls ≠ .num false) (V : (c : Cls) → Pay c → R) :
    visit x V = .ok (V x.cls x.pay) := by
  obtain ⟨c, p⟩ := x
  have h : cases.find? (fun q => q.1 == c.index) = some (c.index, c) := by
    rcases c with a | _ | o | o | _ | _
    · cases a
      · exact absurd rfl hx
      · rfl
    · rfl
    · cases o <;> rfl
    · cases o <;> rfl
    · rfl
    · rfl
  simp [visit, h, Obj.staticCast]

/-- **C85**: a binary rule is chosen by the classes of both operands. -/
theorem C85_visit_two {R : Type} (l r : Obj Pay) (hl : l.cls ≠ .num false) (hr : r.cls ≠ .num false)
    (V : (c : Cls) → Pay c → (d : Cls) → Pay d → R) : visit2 l r V = .ok (V l.cls l.pay r.cls r.pay) := by
  unfold visit2
  rw [C85_visit l hl]
  exact C85_visit r hr _

/-- **C85**: `as<T>()` gives the node if it is a `T` and throws otherwise; it never misreads a node. -/
theorem C85_as (x : Obj Pay) (c : Cls) :
    (∀ p, as x c = .ok p ↔ x = ⟨c, p⟩) ∧ (as x c = .throws ↔ x.cls ≠ c) ∧ as x c ≠ .ub := by
  obtain ⟨d, q⟩ := x
  unfold as
  by_cases h : d = c
  · subst h
    simp
  · simp only [h, dite_false, reduceCtorEq, false_iff, ne_eq, not_false_eq_true, and_true]
    exact fun p hp => h (by cases hp; rfl)

/-- **C85**, why the type of constants matters: a `ConstantRT<float>` put into an `Expr` (its constructor from a `shared_ptr`
accepts it) has the index of `ConstantRT<double>`; everything that is done with it is undefined, except `as`, which throws. -/
theorem C85_other_constants_fail {R : Type} (p : Pay (.num false)) (V : (c : Cls) → Pay c → R) :
    visit (⟨.num false, p⟩ : Obj Pay) V = .ub ∧ as (⟨.num false, p⟩ : Obj Pay) (.num true) = .throws := by
  constructor
  · rfl
  · simp [as]

/-- The top node of an expression as an object. -/
def Fields (K : Type) : Cls → Type
  | .num _ => K
  | .var => List Char
  | .un _ => Expr K
  | .bin _ => Expr K × Expr K
  | .arr => List (Expr K)
  | .dict => List (List Char × Expr K)

/-- models: stator/symbolic/runtime.hpp:472-507 (the constructors of `Expr`). -/
def node {K : Type} : Expr K → Obj (Fields K)
  | .const k => ⟨.num true, k⟩
  | .var n => ⟨.var, n⟩
  | .un o a => ⟨.un o, a⟩
  | .bin o l r => ⟨.bin o, (l, r)⟩
  | .arr xs => ⟨.arr, xs⟩
  | .dict kvs => ⟨.dict, kvs⟩

/-- **C85** for the expressions of the model: matching on the constructor of an expression, as all definitions of `Rt/` do, is
what `visit` does. -/
theorem C85_expr {K R : Type} (e : Expr K) (V : (c : Cls) → Fields K c → R) :
    visit (node e) V = .ok (match e with
      | .const k => V (.num true) k
      | .var n => V .var n
      | .un o a => V (.un o) a
      | .bin o l r => V (.bin o) (l, r)
      | .arr xs => V .arr xs
      | .dict kvs => V .dict kvs) := by
  rw [C85_visit]
  · cases e <;> rfl
  · cases e <;> simp [node]

/-- The seeds of the hashes are these indices. models: stator/symbolic/unary_ops.hpp:217, binary_ops.hpp:476. -/
theorem index_hash : (∀ o : UnOp, (o.typeIndex).toNat = Cls.index (.un o)) ∧ ∀ o : BinOp, (o.typeIndex).toNat = Cls.index (.bin o) :=
  ⟨fun o => by cases o <;> rfl, fun o => by cases o <;> rfl⟩

example : visit (node (Expr.un .exp (.const 2) : Expr Nat)) (fun c _ => c) = .ok (.un .exp) := by rw [C85_expr]
example : as (node (.bin .add (.const 1) (.const 2) : Expr Nat)) (.bin .sub) = .throws := by simp [as, node]

end Stator.Disp
