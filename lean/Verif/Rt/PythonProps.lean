import Verif.Rt.ArrayProps
import Verif.Rt.SimplifyProps

/-!
# The Python module (C49)

Models the operators and conversions of `pysrc/stator/core.cpp`. What Python and pybind11 do is modelled as
follows: `a op b` calls `a.__op__(b)` when `a` is an `Expr`; when `a` is a number (whose own method does not
know `Expr`) it calls `b.__rop__(a)`; a number argument is converted to an `Expr`
(core.cpp:98-99).
-/

namespace Stator

/-- A Python object this module hands out or takes. -/
inductive Py (K : Type)
  | num (k : K)
  | expr (e : Expr K)
  | list (xs : List (Py K))
  | dict (kvs : List (List Char × Py K))

/-- `to_python`: simplify, then convert; arrays and dictionaries become lists and dicts of converted items.
models: pysrc/stator/core.cpp:10-43. -/
def toPython {K : Type} [DecidableEq K] (N : NumOps K) : Nat → Expr K → Res (Py K)
  | 0, _ => .diverge
  | n + 1, e => do
    let b ← simp N n e
    match b with
    | .const k => .ok (.num k)
    | .arr xs => do
      let ys ← mapRes (toPython N n) xs
      .ok (.list ys)
    | .dict kvs => do
      let ys ← mapRes (fun p : List Char × Expr K => do
        let v ← toPython N n p.2
        (.ok (p.1, v) : Res (List Char × Py K))) kvs
      .ok (.dict ys)
    | b => .ok (.expr b)

/-- `make_Expr` from a Python list of numbers and expressions. models: core.cpp:56-62. -/
def makeList {K : Type} : List (Py K) → Option (List (Expr K))
  | [] => some []
  | .num k :: t => (makeList t).map (Expr.const k :: ·)
  | .expr e :: t => (makeList t).map (e :: ·)
  | _ :: _ => none

/-- The method `__op__` of `Expr`. models: core.cpp:77-85 (`__add__`, `__sub__`, `__mul__`, `__truediv__`,
`__div__`). -/
def pyMethod {K : Type} [DecidableEq K] (N : NumOps K) (n : Nat) (o : BinOp) (self other : Expr K) : Res (Py K) :=
  toPython N n (.bin o self other)

/-- The method `__rop__` of `Expr`: the same body, called with the right operand as `self`.
models: core.cpp:78-86 (`__radd__`, `__rsub__`, `__rmul__`, `__rtruediv__`, `__rdiv__`). -/
def pyReflected {K : Type} [DecidableEq K] (N : NumOps K) (n : Nat) (o : BinOp) (self other : Expr K) :
    Res (Py K) :=
  toPython N n (.bin o self other)

/-- The Python expression `a op b`, for operands that are expressions or numbers, not both numbers (then
Python computes itself: `none`). -/
def pyBin {K : Type} [DecidableEq K] (N : NumOps K) (n : Nat) (o : BinOp) : Py K → Py K → Option (Res (Py K))
  | .expr a, .expr b => some (pyMethod N n o a b)
  | .expr a, .num k => some (pyMethod N n o a (.const k))
  | .num k, .expr b => some (pyReflected N n o b (.const k))
  | _, _ => none

/-! ## Specification -/

/-- The value of a Python object. -/
inductive PyVal (ρ : List Char → ℝ) : Py ℝ → Val → Prop
  | num (x) : PyVal ρ (.num x) (.num x)
  | expr {e v} : EvalV ρ e v → PyVal ρ (.expr e) v
  | nil : PyVal ρ (.list []) (.arr [])
  | cons {p v ps vs} : PyVal ρ p v → PyVal ρ (.list ps) (.arr vs) → PyVal ρ (.list (p :: ps)) (.arr (v :: vs))

/-! ## C49 -/

theorem toPython_value (ρ : List Char → ℝ) : ∀ (v : Val) (e : Expr ℝ), EvalV ρ e v →
    ∃ p n₀, (∀ n, n₀ ≤ n → toPython realOps n e = .ok p) ∧ PyVal ρ p v ∧
      (∀ vs, v = .arr vs → ∃ ps, p = .list ps)
  | .num x, e, h => by
    obtain ⟨e', h1, h2⟩ := C09_array_value ρ e _ h
    have key : ∀ p : Py ℝ, (∀ n, e.weight ≤ n → toPython realOps (n + 1) e = .ok p) → PyVal ρ p (.num x) →
        ∃ p n₀, (∀ n, n₀ ≤ n → toPython realOps n e = .ok p) ∧ PyVal ρ p (.num x) ∧
          (∀ vs, Val.num x = .arr vs → ∃ ps, p = .list ps) := by
      intro p hp hv
      refine ⟨p, e.weight + 1, fun n hn => ?_, hv, fun vs h => by cases h⟩
      obtain ⟨m, rfl⟩ : ∃ m, n = m + 1 := ⟨n - 1, by omega⟩
      exact hp m (by omega)
    cases e' with
    | const k =>
      have := EvalV.num_iff.1 h2
      simp [Expr.eval] at this
      subst this
      exact key (.num k) (fun n hn => by simp [toPython, h1 n hn]) (.num k)
    | arr xs =>
      obtain ⟨vs, hv, -⟩ := evalV_arr_iff.1 h2
      cases hv
    | dict kvs =>
      have := EvalV.num_iff.1 h2
      simp [Expr.eval] at this
    | var nm => exact key (.expr (.var nm)) (fun n hn => by simp [toPython, h1 n hn]) (.expr h2)
    | un o a => exact key (.expr (.un o a)) (fun n hn => by simp [toPython, h1 n hn]) (.expr h2)
    | bin o l r => exact key (.expr (.bin o l r)) (fun n hn => by simp [toPython, h1 n hn]) (.expr h2)
  | .arr vs, e, h => by
    obtain ⟨ys, h1, h2⟩ := C46_literal ρ e vs h
    have hl : ∀ (vs' : List Val), (∀ v ∈ vs', v ∈ vs) → ∀ ys', List.Forall₂ (EvalV ρ) ys' vs' →
        ∃ ps n₀, (∀ n, n₀ ≤ n → mapRes (toPython realOps n) ys' = .ok ps) ∧ PyVal ρ (.list ps) (.arr vs') := by
      intro vs'
      induction vs' with
      | nil =>
        intro _ ys' hf
        cases hf
        exact ⟨[], 0, fun n _ => rfl, .nil⟩
      | cons v vs' ih =>
        intro hm ys' hf
        cases hf with
        | cons hy hys =>
          rename_i y ys'
          have hmem := hm v (by simp)
          obtain ⟨p, n₁, hp, hpv, -⟩ := toPython_value ρ v y hy
          obtain ⟨ps, n₂, hps, hpsv⟩ := ih (fun w hw => hm w (by simp [hw])) ys' hys
          refine ⟨p :: ps, max n₁ n₂, fun n hn => ?_, .cons hpv hpsv⟩
          have e1 := hp n (by omega)
          have e2 := hps n (by omega)
          simp [mapRes, e1, e2]
    obtain ⟨ps, n₀, hps, hv⟩ := hl vs (fun _ h => h) ys h2
    refine ⟨.list ps, max n₀ e.weight + 1, fun n hn => ?_, hv, fun _ _ => ⟨ps, rfl⟩⟩
    obtain ⟨m, rfl⟩ : ∃ m, n = m + 1 := ⟨n - 1, by omega⟩
    simp [toPython, h1 m (by omega), hps m (by omega)]
termination_by v => sizeOf v
decreasing_by
  have := List.sizeOf_lt_of_mem hmem
  simp only [Val.arr.sizeOf_spec]
  omega

/-- C49: an operator whose left operand is an expression gives Python an object with the value the operation
has, and a list when that is an array. -/
theorem C49_operator (ρ : List Char → ℝ) (o : BinOp) (a b : Expr ℝ) (v : Val)
    (h : EvalV ρ (.bin o a b) v) :
    ∃ p n₀, (∀ n, n₀ ≤ n → pyBin realOps n o (.expr a) (.expr b) = some (.ok p)) ∧ PyVal ρ p v ∧
      (∀ vs, v = .arr vs → ∃ ps, p = .list ps) := by
  obtain ⟨p, n₀, h1, h2, h3⟩ := toPython_value ρ v _ h
  exact ⟨p, n₀, fun n hn => by simp [pyBin, pyMethod, h1 n hn], h2, h3⟩

/-- C49: the same with a number on the right. -/
theorem C49_operator_number (ρ : List Char → ℝ) (o : BinOp) (a : Expr ℝ) (k : ℝ) (v : Val)
    (h : EvalV ρ (.bin o a (.const k)) v) :
    ∃ p n₀, (∀ n, n₀ ≤ n → pyBin realOps n o (.expr a) (.num k) = some (.ok p)) ∧ PyVal ρ p v := by
  obtain ⟨p, n₀, h1, h2, -⟩ := toPython_value ρ v _ h
  exact ⟨p, n₀, fun n hn => by simp [pyBin, pyMethod, h1 n hn], h2⟩

/-- C49: with a number on the left `+` and `*` of a scalar expression still give the value of the
operation. -/
theorem C49_reflected_commutative (ρ : List Char → ℝ) (o : BinOp) (ho : o = .add ∨ o = .mul) (b : Expr ℝ)
    (k x : ℝ) (hb : b.eval ρ = some x) :
    ∃ p n₀, (∀ n, n₀ ≤ n → pyBin realOps n o (.num k) (.expr b) = some (.ok p)) ∧
      ∃ z, binVal o k x = some z ∧ PyVal ρ p (.num z) := by
  have hz : ∃ z, binVal o k x = some z ∧ binVal o x k = some z := by
    rcases ho with rfl | rfl
    · exact ⟨k + x, rfl, by simp [binVal, add_comm]⟩
    · exact ⟨k * x, rfl, by simp [binVal, mul_comm]⟩
  obtain ⟨z, hz1, hz2⟩ := hz
  have h : EvalV ρ (.bin o b (.const k)) (.num z) :=
    .num (by simp [Expr.eval, hb, hz2])
  obtain ⟨p, n₀, h1, h2, -⟩ := toPython_value ρ _ _ h
  exact ⟨p, n₀, fun n hn => by simp [pyBin, pyReflected, h1 n hn], z, hz1, h2⟩

/-- C49 fails for `-` with a number on the left: `k - b` gives the value of `b - k`. -/
theorem C49_reflected_sub_swapped (ρ : List Char → ℝ) (b : Expr ℝ) (k x : ℝ) (hb : b.eval ρ = some x) :
    ∃ p n₀, (∀ n, n₀ ≤ n → pyBin realOps n .sub (.num k) (.expr b) = some (.ok p)) ∧
      PyVal ρ p (.num (x - k)) := by
  have h : EvalV ρ (.bin .sub b (.const k)) (.num (x - k)) :=
    .num (by simp [Expr.eval, hb, binVal])
  obtain ⟨p, n₀, h1, h2, -⟩ := toPython_value ρ _ _ h
  exact ⟨p, n₀, fun n hn => by simp [pyBin, pyReflected, h1 n hn], h2⟩

/-- C49 fails for `/` with a number on the left: `k / b` gives the value of `b / k`. -/
theorem C49_reflected_div_swapped (ρ : List Char → ℝ) (b : Expr ℝ) (k x : ℝ) (hk : k ≠ 0)
    (hb : b.eval ρ = some x) :
    ∃ p n₀, (∀ n, n₀ ≤ n → pyBin realOps n .div (.num k) (.expr b) = some (.ok p)) ∧
      PyVal ρ p (.num (x / k)) := by
  have h : EvalV ρ (.bin .div b (.const k)) (.num (x / k)) :=
    .num (by simp [Expr.eval, hb, binVal, hk])
  obtain ⟨p, n₀, h1, h2, -⟩ := toPython_value ρ _ _ h
  exact ⟨p, n₀, fun n hn => by simp [pyBin, pyReflected, h1 n hn], h2⟩

/-- An object has at most one value, so those are wrong results: `5 - x` at `x = 2` is `-3`, not `3`. -/
theorem C49_value_unique {ρ : List Char → ℝ} {p : Py ℝ} {v w : Val} (hv : PyVal ρ p v) (hw : PyVal ρ p w) :
    v = w := by
  induction hv generalizing w with
  | num x =>
    cases hw
    rfl
  | expr h =>
    cases hw with
    | expr h' => exact C46_unique h h'
  | nil =>
    cases hw
    rfl
  | cons _ _ ih1 ih2 =>
    cases hw with
    | cons h1 h2 =>
      have e1 := ih1 h1
      have e2 := ih2 h2
      cases e2
      rw [e1]

/-- C49: a list of numbers and expressions put into an expression and taken out again comes back item by item:
the same numbers, and expressions with the same value. -/
theorem C49_list_round_trip (ρ : List Char → ℝ) (l : List (Py ℝ)) (xs : List (Expr ℝ)) (vs : List Val)
    (hl : makeList l = some xs) (hv : PyVal ρ (.list l) (.arr vs)) :
    ∃ ps n₀, (∀ n, n₀ ≤ n → toPython realOps n (.arr xs) = .ok (.list ps)) ∧ PyVal ρ (.list ps) (.arr vs) := by
  have h : ∀ (l : List (Py ℝ)) xs vs, makeList l = some xs → PyVal ρ (.list l) (.arr vs) →
      List.Forall₂ (EvalV ρ) xs vs := by
    intro l
    induction l with
    | nil => intro xs vs h1 h2; cases h2; simp [makeList] at h1; subst h1; exact .nil
    | cons p l ih =>
      intro xs vs h1 h2
      cases h2 with
      | cons hp hr =>
        cases p with
        | num k =>
          simp only [makeList, Option.map_eq_some_iff] at h1
          obtain ⟨ys, h3, rfl⟩ := h1
          cases hp
          exact .cons (.num rfl) (ih _ _ h3 hr)
        | expr e =>
          simp only [makeList, Option.map_eq_some_iff] at h1
          obtain ⟨ys, h3, rfl⟩ := h1
          cases hp with
          | expr he => exact .cons he (ih _ _ h3 hr)
        | list => simp [makeList] at h1
        | dict => simp [makeList] at h1
  obtain ⟨p, n₀, h1, h2, h3⟩ := toPython_value ρ _ _ (evalV_arr_iff.2 ⟨vs, rfl, h l xs vs hl hv⟩)
  obtain ⟨ps, rfl⟩ := h3 vs rfl
  exact ⟨ps, n₀, h1, h2⟩

/-- The hypotheses are met: `5 - x` with `x = 2` is `-3`, and `x - 5` too. -/
example : (Expr.var ['x']).eval (fun _ => (2 : ℝ)) = some 2 ∧ (5 : ℝ) - 2 ≠ 2 - 5 ∧
    EvalV (fun _ => (2 : ℝ)) (.bin .sub (.var ['x']) (.const 5)) (.num (2 - 5)) := by
  refine ⟨rfl, by norm_num, .num ?_⟩
  simp [Expr.eval, binVal]

end Stator
