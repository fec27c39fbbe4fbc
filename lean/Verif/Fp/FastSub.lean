import Verif.Fp.Simplify
import Verif.Rt.NumericEval

/-!
# C74: fast numeric substitution

The visitor `FastSubRT` evaluates an expression of one variable without building trees; its only memory is one number.
(`fast_sub` itself, runtime.hpp:1070-1076, cannot be instantiated: an equation has no members `_var` and `_val`. The visitor is
modelled as started with the variable and the number.)
-/

namespace Stator

variable {K : Type}

/-- `Op::apply` of a function on a `double`; `none`: the result is not a number (`arbsign`), so that the generic, throwing
`apply` is chosen. models: runtime.hpp:1026-1032, unary_ops.hpp:37-135. -/
def applyUn (N : NumOps K) : UnOp → K → Option K
  | .sin, x => some (N.sin x)
  | .cos, x => some (N.cos x)
  | .exp, x => some (N.exp x)
  | .log, x => some (N.log x)
  | .abs, x => some (N.abs x)
  | .neg, x => some (N.neg x)
  | .arbsign, _ => none

/-- `Op::apply` of an operator on two `double`s; `none`: overloads that throw (equality, array access, units, uncertainty).
models: runtime.hpp:1034-1062. -/
def applyBin (N : NumOps K) : BinOp → K → K → Option K
  | .add, x, y => some (N.add x y)
  | .sub, x, y => some (N.sub x y)
  | .mul, x, y => some (N.mul x y)
  | .div, x, y => some (N.div x y)
  | .pow, x, y => some (N.pow x y)
  | _, _, _ => none

/-- The visitor: the state is `_intermediate`. A node whose operator it does not take throws before its operands are visited.
models: runtime.hpp:999-1067. -/
def fastVisit (N : NumOps K) (x : List Char) (a : K) : Expr K → K → Res K
  | .const k, _ => .ok k
  | .var n, _ => if n = x then .ok a else .throw
  | .un o e, s =>
    if o = .arbsign then .throw
    else (fastVisit N x a e s) >>= fun s => match applyUn N o s with | some r => .ok r | none => .throw
  | .bin o l r, s =>
    if o = .eq ∨ o = .access ∨ o = .units ∨ o = .uncert then .throw
    else (fastVisit N x a l s) >>= fun lval => (fastVisit N x a r lval) >>= fun s =>
      match applyBin N o lval s with | some r => .ok r | none => .throw
  | .arr _, _ => .throw
  | .dict _, _ => .throw

/-- `fast_sub(f, x = a)`; `s` is the uninitialised content of `_intermediate`. models: runtime.hpp:1070-1076. -/
def fastSub (N : NumOps K) (x : List Char) (a s : K) (f : Expr K) : Res K := fastVisit N x a f s

theorem fast_bin (N : NumOps K) (x : List Char) (a s : K) (o : BinOp) (l r : Expr K) (v : K) :
    fastVisit N x a (.bin o l r) s = .ok v ↔
      ∃ p q, fastVisit N x a l s = .ok p ∧ fastVisit N x a r p = .ok q ∧ applyBin N o p q = some v := by
  rw [fastVisit]
  by_cases ho : o = .eq ∨ o = .access ∨ o = .units ∨ o = .uncert
  · rw [if_pos ho]
    constructor
    · intro h; cases h
    · rintro ⟨p, q, -, -, h⟩
      rcases ho with rfl | rfl | rfl | rfl <;> cases h
  · rw [if_neg ho]
    simp only [Res.bind_eq_ok]
    constructor
    · rintro ⟨p, h1, q, h2, h3⟩
      refine ⟨p, q, h1, h2, ?_⟩
      split at h3 <;> simp_all
    · rintro ⟨p, q, h1, h2, h3⟩
      exact ⟨p, h1, q, h2, by rw [h3]⟩

theorem fast_un (N : NumOps K) (x : List Char) (a s : K) (o : UnOp) (e : Expr K) (v : K) :
    fastVisit N x a (.un o e) s = .ok v ↔ ∃ p, fastVisit N x a e s = .ok p ∧ applyUn N o p = some v := by
  rw [fastVisit]
  by_cases ho : o = .arbsign
  · rw [if_pos ho]
    constructor
    · intro h; cases h
    · rintro ⟨p, -, h⟩
      subst ho; cases h
  · rw [if_neg ho]
    simp only [Res.bind_eq_ok]
    constructor
    · rintro ⟨p, h1, h3⟩
      refine ⟨p, h1, ?_⟩
      split at h3 <;> simp_all
    · rintro ⟨p, h1, h3⟩
      exact ⟨p, h1, by rw [h3]⟩

/-- **C74**: it succeeds exactly on arithmetic expressions in the one variable, whatever the numbers are, and the result does not
depend on the initial memory. -/
theorem C74_succeeds (N : NumOps K) (x : List Char) (a s : K) (f : Expr K) :
    (∃ v, fastSub N x a s f = .ok v) ↔ f.arith = true ∧ ∀ n ∈ f.vars, n = x := by
  unfold fastSub
  induction f using Expr.ind generalizing s with
  | const k => simp [fastVisit, Expr.arith, Expr.vars]
  | var n =>
    by_cases h : n = x <;> simp [fastVisit, Expr.arith, Expr.vars, h]
  | un o e ih =>
    simp only [fast_un, Expr.arith, Expr.vars, Bool.and_eq_true]
    rw [and_assoc, ← ih s]
    constructor
    · rintro ⟨v, p, h1, h2⟩
      exact ⟨by cases o <;> simp_all [applyUn], p, h1⟩
    · rintro ⟨h1, p, h2⟩
      obtain ⟨v, hv⟩ : ∃ v, applyUn N o p = some v := by cases o <;> simp_all [applyUn]
      exact ⟨v, p, h2, hv⟩
  | bin o l r ihl ihr =>
    simp only [fast_bin, Expr.arith, Expr.vars, Bool.and_eq_true, List.mem_append]
    constructor
    · rintro ⟨v, p, q, h1, h2, h3⟩
      have hl := (ihl s).1 ⟨p, h1⟩
      have hr := (ihr p).1 ⟨q, h2⟩
      refine ⟨⟨⟨by cases o <;> simp_all [applyBin], hl.1⟩, hr.1⟩, ?_⟩
      rintro n (hn | hn)
      · exact hl.2 n hn
      · exact hr.2 n hn
    · rintro ⟨⟨⟨h1, h2⟩, h3⟩, h4⟩
      obtain ⟨p, hp⟩ := (ihl s).2 ⟨h2, fun n hn => h4 n (.inl hn)⟩
      obtain ⟨q, hq⟩ := (ihr p).2 ⟨h3, fun n hn => h4 n (.inr hn)⟩
      obtain ⟨v, hv⟩ : ∃ v, applyBin N o p q = some v := by cases o <;> simp_all [applyBin]
      exact ⟨v, p, q, hp, hq, hv⟩
  | arr => simp [fastVisit, Expr.arith]
  | dict => simp [fastVisit, Expr.arith]

/-- **C74**: the memory of the visitor when it starts does not matter. -/
theorem C74_initial_memory (N : NumOps K) (x : List Char) (a s s' : K) (f : Expr K) :
    fastSub N x a s f = fastSub N x a s' f := by
  unfold fastSub
  induction f using Expr.ind generalizing s s' with
  | un o e ih => simp only [fastVisit, ih s s']
  | bin o l r ihl ihr => simp only [fastVisit, ihl s s']
  | _ => rfl

/-- **C74**: the result is the value of the expression at `x = a`: a number where the real value is defined, not a number
elsewhere. -/
theorem C74_value (x : List Char) (a : ℝ) (s : Option ℝ) (f : Expr ℝ) (hf : f.arith = true) (hx : ∀ n ∈ f.vars, n = x) :
    fastSub nanOps x (some a) s f.embed = .ok (f.eval fun _ => a) := by
  unfold fastSub
  induction f using Expr.ind generalizing s with
  | const k => simp [Expr.embed, fastVisit, Expr.eval]
  | var n =>
    have := hx n (by simp [Expr.vars])
    simp [Expr.embed, fastVisit, Expr.eval, this]
  | un o e ih =>
    simp only [Expr.arith, Bool.and_eq_true] at hf
    rw [Expr.embed, fast_un]
    exact ⟨_, ih s hf.2 hx, by cases o <;> simp_all [applyUn, nanOps, Expr.eval]⟩
  | bin o l r ihl ihr =>
    simp only [Expr.arith, Bool.and_eq_true] at hf
    rw [Expr.embed, fast_bin]
    refine ⟨_, _, ihl s hf.1.2 fun n hn => hx n (by simp [Expr.vars, hn]),
      ihr _ hf.2 fun n hn => hx n (by simp [Expr.vars, hn]), ?_⟩
    cases o <;> simp_all [applyBin, nanOps, Expr.eval]
  | arr => simp [Expr.arith] at hf
  | dict => simp [Expr.arith] at hf

open Fp in
/-- **C74**: in machine arithmetic the result has the same bits as that of inserting the number and simplifying, as long as no
operation leaves the ordinary numbers. -/
theorem C74_same_bits [DecidableEq K] (A : Arith K) (x : List Char) (a s : K) (f : Expr K) (v : K)
    (h : A.eval (fun _ => a) f = some v) (hx : ∀ n ∈ f.vars, n = x) (n : ℕ) (hn : f.height ≤ n) :
    fastSub A.ops x a s f = .ok v ∧ simp A.ops n (subDict f [(x, .const a)]) = .ok (.const v) := by
  constructor
  · unfold fastSub
    clear hn
    induction f using Expr.ind generalizing s v with
    | const k => simp_all [fastVisit, Arith.eval]
    | var n =>
      have := hx n (by simp [Expr.vars])
      simp_all [fastVisit, Arith.eval]
    | un o e ih =>
      simp only [Arith.eval, Option.bind_eq_some_iff] at h
      obtain ⟨p, h1, h2⟩ := h
      rw [fast_un]
      refine ⟨p, ih s p h1 hx, ?_⟩
      unfold Arith.unVal at h2
      split at h2
      · cases o <;> simp_all [applyUn]
      · cases h2
    | bin o l r ihl ihr =>
      obtain ⟨p, q, h1, h2, h3⟩ := (A.eval_bin ..).1 h
      rw [fast_bin]
      refine ⟨p, q, ihl s p h1 fun n hn => hx n (by simp [Expr.vars, hn]),
        ihr p q h2 fun n hn => hx n (by simp [Expr.vars, hn]), ?_⟩
      unfold Arith.binVal at h3
      split at h3
      · cases o <;> simp_all [applyBin]
      · cases h3
    | arr => simp [Arith.eval] at h
    | dict => simp [Arith.eval] at h
  · have := C67_insert A (fun _ => a) f v [x] h (by simpa using hx) n hn
    simpa [numDict] using this

/-- **C74**: where an operation leaves the ordinary numbers the two ways differ: `0*log(x)` at `x = -1` is 0 after `simplify`,
and not a number in `fast_sub`. -/
theorem C74_nan_differs :
    let f : Expr (Option ℝ) := .bin .mul (.const (some 0)) (.un .log (.var ['x']))
    fastSub nanOps ['x'] (some (-1)) none f = .ok none ∧
      simp nanOps 3 (subDict f [(['x'], .const (some (-1)))]) = .ok (.const (some 0)) := by
  intro f
  have h : ¬ (0 : ℝ) < -1 := by norm_num
  constructor
  · simp [f, fastSub, fastVisit, applyUn, applyBin, nanOps, unVal, Res.bind, h]
  · simp [f, subDict, substDict, simp, foldUn, simpBin, isConst, BinOp.leftZero, BinOp.leftId, nanOps, unVal]

/-- A case: `sin(x)*x + 2`. -/
example : let f : Expr ℝ := .bin .add (.bin .mul (.un .sin (.var ['x'])) (.var ['x'])) (.const 2)
    f.arith = true ∧ (∀ n ∈ f.vars, n = ['x']) ∧ f.eval (fun _ => 3) = some (Real.sin 3 * 3 + 2) := by
  simp [Expr.arith, Expr.vars, Expr.eval, unVal, binVal]

end Stator
