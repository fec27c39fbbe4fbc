/-!
# Outcomes of C++ code that can throw or be undefined
-/

namespace Stator.Ds

/-- A value, an exception, or undefined behaviour (reading or writing outside of an object). -/
inductive Out (α : Type) where
  | ok (a : α)
  | throw
  | ub
  deriving DecidableEq, Repr

/-- Sequencing. -/
def Out.bind {α β : Type} : Out α → (α → Out β) → Out β
  | .ok a, f => f a
  | .throw, _ => .throw
  | .ub, _ => .ub

instance : Monad Out where
  pure := .ok
  bind := Out.bind

@[simp] theorem Out.pure_eq {α : Type} (a : α) : (pure a : Out α) = .ok a := rfl
@[simp] theorem Out.ok_bind {α β : Type} (a : α) (f : α → Out β) : (Out.ok a >>= f) = f a := rfl
@[simp] theorem Out.throw_bind {α β : Type} (f : α → Out β) : (Out.throw >>= f) = .throw := rfl
@[simp] theorem Out.ub_bind {α β : Type} (f : α → Out β) : (Out.ub >>= f) = .ub := rfl

/-- `xs[i]`, undefined outside of the object. -/
def rd {α : Type} (xs : List α) (i : Nat) : Out α :=
  match xs[i]? with
  | some x => .ok x
  | none => .ub

/-- `xs[i] = v`, undefined outside of the object. -/
def wr {α : Type} (xs : List α) (i : Nat) (v : α) : Out (List α) :=
  if i < xs.length then .ok (xs.set i v) else .ub

theorem rd_ok {α : Type} {xs : List α} {i : Nat} (h : i < xs.length) : rd xs i = .ok xs[i] := by
  simp [rd, h]

theorem rd_ub {α : Type} {xs : List α} {i : Nat} (h : xs.length ≤ i) : rd xs i = .ub := by
  simp [rd, h]

end Stator.Ds
