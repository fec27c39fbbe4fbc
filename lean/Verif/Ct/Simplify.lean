import Verif.Ct.ExprLemmas

/-!
# Model: `simplify`, `try_simplify` and `N` of compile-time expressions

Which of the rules of simplify.hpp is used is decided by the overload resolution of C++. The relation
`Simp a b` leaves that choice open: it holds whenever `b` can be reached from `a` by using any rules,
anywhere in the tree, in any order. The result of `simplify`, `try_simplify` and `N` is one of these.
Rules for polynomial operands are not modelled here but in `Verif.Ct.Expand`.
-/

namespace Stator.Ct

/-- `PowerOpSub<n>::eval`. models: binary_ops.hpp:308-336. -/
noncomputable def powSub : ℕ → E → Option E
  | 0, _ => some (.c .unity)
  | 1, x => some x
  | n + 2, x => do opMul (← powSub (n + 1) x) x

/-- The rules of `simplify`. -/
inductive Simp : E → E → Prop
  /-- No simplification available. models: simplify.hpp:80-83. -/
  | refl (a : E) : Simp a a
  /-- The result is simplified again. -/
  | trans {a b c : E} : Simp a b → Simp b c → Simp a c
  /-- models: simplify.hpp:137-140. -/
  | prune {o : Op} {l r e : E} : applyOp o l r = some e → Simp (.bin o l r) e
  /-- `right_zero`, only of a product. models: simplify.hpp:143-145, binary_ops.hpp:108. -/
  | rightZero (l : E) : Simp (.bin .mul l (.c .null)) (.c .null)
  /-- `left_zero` of a product, a quotient and a power.
  models: simplify.hpp:147-149, binary_ops.hpp:107, 127, 154. -/
  | mulLeftZero (r : E) : Simp (.bin .mul (.c .null) r) (.c .null)
  | divLeftZero (r : E) : Simp (.bin .div (.c .null) r) (.c .null)
  | powLeftZero (r : E) : Simp (.bin .pow (.c .unity) r) (.c .unity)
  /-- `right_identity`. models: simplify.hpp:152-155, binary_ops.hpp:65, 86, 106, 126, 152. -/
  | addRightId (l : E) : Simp (.bin .add l (.c .null)) l
  | subRightId (l : E) : Simp (.bin .sub l (.c .null)) l
  | mulRightId (l : E) : Simp (.bin .mul l (.c .unity)) l
  | divRightId (l : E) : Simp (.bin .div l (.c .unity)) l
  | powRightId (l : E) : Simp (.bin .pow l (.c .unity)) l
  /-- `left_identity`. models: simplify.hpp:157-161, binary_ops.hpp:64, 105. -/
  | addLeftId (r : E) : Simp (.bin .add (.c .null) r) r
  | mulLeftId (r : E) : Simp (.bin .mul (.c .unity) r) r
  /-- A variable divided by itself. models: simplify.hpp:164-167. -/
  | divSelf (n : List Char) : Simp (.bin .div (.var n) (.var n)) (.c .unity)
  /-- models: simplify.hpp:170-171. -/
  | nullSub {r e : E} : opNeg r = some e → Simp (.bin .sub (.c .null) r) e
  /-- models: simplify.hpp:174-177. -/
  | square {n : List Char} {e : E} :
    opPow (.var n) (.c (.ofInt 2)) = some e → Simp (.bin .mul (.var n) (.var n)) e
  /-- models: simplify.hpp:179-183. -/
  | powMul {n : List Char} {o o' e : E} :
    opAdd o (.c .unity) = some o' → opPow (.var n) o' = some e →
    Simp (.bin .mul (.bin .pow (.var n) o) (.var n)) e
  /-- models: simplify.hpp:185-189. -/
  | mulPow {n : List Char} {o o' e : E} :
    opAdd o (.c .unity) = some o' → opPow (.var n) o' = some e →
    Simp (.bin .mul (.var n) (.bin .pow (.var n) o)) e
  /-- The operands are simplified and the operator is used again. models: simplify.hpp:192-206. -/
  | operands {o : Op} {l l' r r' e : E} :
    Simp l l' → Simp r r' → applyOp o l' r' = some e → Simp (.bin o l r) e
  /-- A natural power is written as a product. models: simplify.hpp:210-233. -/
  | power {n : ℕ} {a a' e : E} :
    Simp a a' → powSub n a' = some e → Simp (.bin .pow a (.c (.ofInt n))) e
  /-- Reordering of sums and products. models: simplify.hpp:248-274. -/
  | assocRight {o : Op} {a b c d e : E} : o = .add ∨ o = .mul →
    Simp (.bin o b c) d → applyOp o a d = some e → Simp (.bin o (.bin o a b) c) e
  | assocLeft {o : Op} {a b c d e : E} : o = .add ∨ o = .mul →
    Simp (.bin o a b) d → applyOp o d c = some e → Simp (.bin o a (.bin o b c)) e
  | commRight {o : Op} {a b c d e : E} : o = .add ∨ o = .mul →
    Simp (.bin o a c) d → applyOp o d b = some e → Simp (.bin o (.bin o a b) c) e
  | commLeft {o : Op} {a b c d e : E} : o = .add ∨ o = .mul →
    Simp (.bin o a c) d → applyOp o d b = some e → Simp (.bin o a (.bin o b c)) e
  /-- models: simplify.hpp:442-444. -/
  | arbsignArbsign (a : E) : Simp (.un .arbsign (.un .arbsign a)) (.un .arbsign a)
  /-- The argument of a function is simplified and the function is used again. A `sin` or `cos` whose
  argument becomes a constant other than zero is left out: it is treated as an exact multiple of the
  real number `π` (C40). models: simplify.hpp:447-449. -/
  | argument {o : UnOp} {a a' e : E} :
    Simp a a' → applyUn o a' = some e → TrigOk o a' → Simp (.un o a) e
  /-- models: simplify.hpp:457-461. -/
  | signBoth {o : Op} {a b e : E} : o = .mul ∨ o = .div →
    applyOp o a b = some e → Simp (.bin o (.un .arbsign a) (.un .arbsign b)) (.un .arbsign e)
  /-- models: simplify.hpp:463-467. -/
  | signRight {o : Op} {a b e : E} : o = .mul ∨ o = .div →
    applyOp o a b = some e → Simp (.bin o a (.un .arbsign b)) (.un .arbsign e)
  /-- models: simplify.hpp:469-473. -/
  | signLeft {o : Op} {a b e : E} : o = .mul ∨ o = .div →
    applyOp o a b = some e → Simp (.bin o (.un .arbsign a) b) (.un .arbsign e)
  /-- models: simplify.hpp:476-479. -/
  | signEven {p : ℤ} {a e : E} : p.tmod 2 = 0 → opPow a (.c (.ofInt p)) = some e →
    Simp (.bin .pow (.un .arbsign a) (.c (.ofInt p))) e
  /-- models: simplify.hpp:482-485. -/
  | signOdd {p : ℤ} {a e : E} : p.tmod 2 ≠ 0 → opPow a (.c (.ofInt p)) = some e →
    Simp (.bin .pow (.un .arbsign a) (.c (.ofInt p))) (.un .arbsign e)
  /-- `N` turns constants into numbers. models: simplify.hpp:344-346. -/
  | constant (a : C) : Simp (.c a) (.num (some a.val))

end Stator.Ct
