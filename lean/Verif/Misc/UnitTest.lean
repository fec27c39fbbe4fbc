import Mathlib.Data.Real.Basic
import Mathlib.Algebra.Order.Field.Basic
import Mathlib.Tactic.Linarith
import Mathlib.Tactic.NormNum

/-!
# The unit-test harness (stator/unit_test.hpp)

A test is given by what it does when it runs: the results of the checks it makes, in order, and how it ends. (Checks do not stop a
test and a test cannot see the counter of errors, so this does not depend on the harness.) The texts written are not modelled.
-/

namespace Stator.Misc

/-- How a test function ends. -/
inductive End
  /-- it returns -/
  | returns
  /-- with an exception derived from `std::exception` -/
  | throwsStd
  /-- with any other exception -/
  | throwsOther
  deriving DecidableEq

/-- A test: the results of its checks, in order, and its end. -/
structure Test where
  checks : List Bool
  fin : End

/-- How the process ends. -/
inductive Exit
  /-- `main` returns this number -/
  | code (n : ℕ)
  /-- `std::terminate` -/
  | terminate
  deriving DecidableEq

/-- `_error_counter` (a 64-bit `size_t`) after some checks.
models: stator/unit_test.hpp:86-92 (`check_equal`), 94-99 (`check`), 108-110 (`check_close`), 113-118 (`check_small`),
120-123 (`error`: a check that fails). -/
def count (c : UInt64) (l : List Bool) : UInt64 := l.foldl (fun c ok => if ok then c else c + 1) c

/-- `run_tests` and `main`: the number of tests started and the end of the process.
models: stator/unit_test.hpp:61-84 (`run_tests`), 158-165 (`main`: an exception that is not a `std::exception` is not caught). -/
def run : List Test → UInt64 → ℕ × Exit
  | [], c => (0, .code (if c > 0 then 1 else 0))
  | t :: ts, c =>
    let c := count c t.checks
    match t.fin with
    | .returns => let r := run ts c; (r.1 + 1, r.2)
    | .throwsStd => (1, .code (if c + 1 > 0 then 1 else 0))
    | .throwsOther => (1, .terminate)

/-- models: stator/unit_test.hpp:49 (the counter starts at 0), 158-165. -/
def main (ts : List Test) : ℕ × Exit := run ts 0

/-- The number of errors in tests that are started: failed checks, and one for an exception. -/
def errors : List Test → ℕ
  | [] => 0
  | t :: ts => t.checks.count false + match t.fin with
    | .returns => errors ts
    | .throwsStd => 1
    | .throwsOther => 0

theorem count_ofNat (l : List Bool) : ∀ n : ℕ, count (UInt64.ofNat n) l = UInt64.ofNat (n + l.count false) := by
  induction l with
  | nil => intro n; simp [count]
  | cons b l ih =>
    intro n
    cases b
    · have : count (UInt64.ofNat n) (false :: l) = count (UInt64.ofNat (n + 1)) l := by
        simp [count, UInt64.ofNat_add]
      rw [this, ih]
      rw [List.count_cons_self, show n + 1 + l.count false = n + (l.count false + 1) by omega]
    · have : count (UInt64.ofNat n) (true :: l) = count (UInt64.ofNat n) l := by simp [count]
      rw [this, ih]
      simp

theorem pos_ofNat (n : ℕ) : UInt64.ofNat n > 0 ↔ n % 2 ^ 64 ≠ 0 := by
  rw [gt_iff_lt, UInt64.lt_iff_toNat_lt]
  simp [UInt64.toNat_ofNat']
  omega

/-- The first test that does not return, if any. -/
def firstBad (ts : List Test) : Option Test := ts.find? fun t => t.fin ≠ .returns

theorem firstBad_ret (l : List Bool) (ts : List Test) : firstBad (⟨l, .returns⟩ :: ts) = firstBad ts :=
  List.find?_cons_of_neg (by simp)

theorem firstBad_bad (t : Test) (ts : List Test) (h : t.fin ≠ .returns) : firstBad (t :: ts) = some t :=
  List.find?_cons_of_pos (by simpa using h)

/-- The exit code after so many errors. -/
def codeOf (m : ℕ) : ℕ := if m % 2 ^ 64 = 0 then 0 else 1

theorem run_exit (ts : List Test) : ∀ n : ℕ, (run ts (UInt64.ofNat n)).2 =
    if (firstBad ts).map (·.fin) = some .throwsOther then .terminate
    else .code (codeOf (n + errors ts)) := by
  have code : ∀ m : ℕ, (if UInt64.ofNat m > 0 then 1 else 0) = codeOf m := by
    intro m
    unfold codeOf
    by_cases h : m % 2 ^ 64 = 0
    · rw [if_pos h, if_neg (fun h' => (pos_ofNat m).1 h' h)]
    · rw [if_neg h, if_pos ((pos_ofNat m).2 h)]
  induction ts with
  | nil =>
    intro n
    rw [if_neg (by simp [firstBad])]
    show Exit.code _ = _
    rw [code]
    rfl
  | cons t ts ih =>
    intro n
    obtain ⟨l, e⟩ := t
    cases e
    · rw [firstBad_ret]
      simp only [run, count_ofNat, ih, errors, Nat.add_assoc]
    · have h : UInt64.ofNat (n + l.count false) + 1 = UInt64.ofNat (n + (l.count false + 1)) := by
        rw [← Nat.add_assoc, UInt64.ofNat_add (n + _) 1]; rfl
      rw [firstBad_bad _ _ (by simp), if_neg (by simp)]
      simp only [run, count_ofNat, errors, h]
      rw [code]
    · rw [firstBad_bad _ _ (by simp), if_pos (by simp)]
      rfl

/-- **C84**: a test program with fewer than 2⁶⁴ errors ends with exit code 0 exactly if every registered test ran to its end and
every check in every test passed. -/
theorem C84_green (ts : List Test) (h : errors ts < 2 ^ 64) :
    (main ts).2 = .code 0 ↔ ∀ t ∈ ts, t.fin = .returns ∧ ∀ b ∈ t.checks, b = true := by
  have h0 := run_exit ts 0
  have he : errors ts = 0 ∧ (firstBad ts).map (·.fin) ≠ some .throwsOther ↔
      ∀ t ∈ ts, t.fin = .returns ∧ ∀ b ∈ t.checks, b = true := by
    clear h h0
    induction ts with
    | nil => simp [errors, firstBad]
    | cons t ts ih =>
      obtain ⟨l, e⟩ := t
      cases e
      · rw [List.forall_mem_cons, ← ih]
        simp only [errors, firstBad_ret, Nat.add_eq_zero_iff, true_and]
        rw [and_assoc, List.count_eq_zero]
        have : false ∉ l ↔ ∀ b ∈ l, b = true :=
          ⟨fun h b hb => by cases b; exact absurd hb h; rfl, fun h hf => by cases h _ hf⟩
        rw [this]
      · simp [errors]
      · rw [firstBad_bad _ _ (by simp)]; simp
  rw [← he]
  show (run ts 0).2 = _ ↔ _
  rw [show (0 : UInt64) = UInt64.ofNat 0 from rfl, h0]
  by_cases hb : (firstBad ts).map (·.fin) = some .throwsOther
  · simp [hb]
  · rw [if_neg hb, Nat.zero_add, codeOf, Nat.mod_eq_of_lt h]
    by_cases h1 : errors ts = 0 <;> simp [h1, hb]

/-- **C84**: tests run in the order of registration. One that throws is the last one: those registered after it are not run at
all; with an exception that is not a `std::exception` the program is terminated, otherwise it ends with code 1. -/
theorem C84_throwing (a b : List Test) (t : Test) (ha : ∀ s ∈ a, s.fin = .returns) (ht : t.fin ≠ .returns)
    (he : errors (a ++ t :: b) < 2 ^ 64) :
    main (a ++ t :: b) = (a.length + 1, if t.fin = .throwsOther then .terminate else .code 1) := by
  have h1 : ∀ c, (run (a ++ t :: b) c).1 = a.length + 1 := by
    clear he
    induction a with
    | nil => intro c; obtain ⟨l, e⟩ := t; cases e <;> simp_all [run]
    | cons s a ih =>
      intro c
      rw [List.forall_mem_cons] at ha
      simp only [List.cons_append, run, ha.1, ih ha.2, List.length_cons]
  have h2 : firstBad (a ++ t :: b) = some t := by
    unfold firstBad
    rw [List.find?_append, List.find?_eq_none.2 (by simpa using ha), List.find?_cons_of_pos (by simpa using ht)]
    rfl
  have h3 : t.fin = .throwsStd → errors (a ++ t :: b) ≠ 0 := by
    clear he h1 h2
    intro h
    induction a with
    | nil => simp [errors, h]
    | cons s a ih =>
      rw [List.forall_mem_cons] at ha
      simp only [List.cons_append, errors, ha.1]
      have := ih ha.2
      omega
  refine Prod.ext (h1 _) ?_
  show (run _ 0).2 = _
  rw [show (0 : UInt64) = UInt64.ofNat 0 from rfl, run_exit, h2, Nat.zero_add, codeOf, Nat.mod_eq_of_lt he]
  obtain ⟨l, e⟩ := t
  cases e
  · exact absurd rfl ht
  · simp [h3 rfl]
  · simp

theorem run_replicate (n : ℕ) (h : n % 2 ^ 64 = 0) : (main [⟨List.replicate n false, .returns⟩]).2 = .code 0 := by
  have he : errors [⟨List.replicate n false, .returns⟩] = n := by
    simp only [errors, Nat.add_zero]
    exact List.count_replicate_self
  show (run _ (UInt64.ofNat 0)).2 = _
  rw [run_exit, firstBad_ret, he, Nat.zero_add, codeOf, if_pos h, if_neg (by simp [firstBad])]

/-- **C84**, why the number of errors is bounded: with exactly 2⁶⁴ of them the counter is 0 again. -/
theorem C84_wraps : ∃ n, n = 2 ^ 64 ∧ (main [⟨List.replicate n false, .returns⟩]).2 = .code 0 :=
  ⟨_, rfl, run_replicate _ (Nat.mod_self _)⟩

example : main [⟨[true, true], .returns⟩, ⟨[], .returns⟩] = (2, .code 0) := by decide
example : main [⟨[true, false], .returns⟩, ⟨[true], .throwsStd⟩, ⟨[false], .returns⟩] = (2, .code 1) := by decide

/-! ## Checks of floating-point numbers -/

/-- A `double`; finite ones are real numbers (differences and quotients are not rounded here). -/
inductive Dbl
  | nan
  | inf (neg : Bool)
  | fin (x : ℝ)

/-- `l - r` -/
noncomputable def Dbl.sub : Dbl → Dbl → Dbl
  | .nan, _ => .nan
  | _, .nan => .nan
  | .inf a, .inf b => if a = b then .nan else .inf a
  | .inf a, .fin _ => .inf a
  | .fin _, .inf b => .inf !b
  | .fin x, .fin y => .fin (x - y)

/-- `std::abs` -/
noncomputable def Dbl.abs : Dbl → Dbl
  | .nan => .nan
  | .inf _ => .inf false
  | .fin x => .fin |x|

/-- The quotient of numbers without a sign. -/
noncomputable def Dbl.div : Dbl → Dbl → Dbl
  | .nan, _ => .nan
  | _, .nan => .nan
  | .inf _, .inf _ => .nan
  | .inf a, .fin _ => .inf a
  | .fin _, .inf _ => .fin 0
  | .fin x, .fin y => open Classical in if y = 0 then (if x = 0 then .nan else .inf false) else .fin (x / y)

/-- `<=`, false if one is NaN -/
def Dbl.le : Dbl → Dbl → Prop
  | .nan, _ => False
  | _, .nan => False
  | .inf true, _ => True
  | _, .inf false => True
  | .inf false, _ => False
  | _, .inf true => False
  | .fin x, .fin y => x ≤ y

/-- `<` -/
def Dbl.lt : Dbl → Dbl → Prop
  | .nan, _ => False
  | _, .nan => False
  | _, .inf true => False
  | .inf false, _ => False
  | .inf true, _ => True
  | _, .inf false => True
  | .fin x, .fin y => x < y

open Classical in
/-- `std::max(a, b)`: `(a < b) ? b : a` -/
noncomputable def Dbl.max (a b : Dbl) : Dbl := if a.lt b then b else a

/-- `l == 0` -/
def Dbl.isZero : Dbl → Prop
  | .fin x => x = 0
  | _ => False

open Classical in
/-- Whether `check_close` passes.
models: stator/unit_test.hpp:101-108. -/
noncomputable def close (l r tol : Dbl) : Prop :=
  let d := ((l.sub r).abs.div l.abs).max ((l.sub r).abs.div r.abs)
  let d := if l.isZero then r.abs else d
  d.le tol

/-- Whether `check_small` passes. models: stator/unit_test.hpp:113-114. -/
def small (l tol : Dbl) : Prop := l.abs.le tol.abs

/-- **C84**: `check_close` of finite numbers. If neither is 0, both relative differences are at most the tolerance; if the first is
0, the second is an absolute difference; if only the second is 0 it always fails. -/
theorem C84_close (l r tol : ℝ) :
    close (.fin l) (.fin r) (.fin tol) ↔
      (l = 0 ∧ |r| ≤ tol) ∨ (l ≠ 0 ∧ r ≠ 0 ∧ |l - r| ≤ tol * |l| ∧ |l - r| ≤ tol * |r|) := by
  classical
  by_cases hl : l = 0
  · subst hl; simp [close, Dbl.isZero, Dbl.abs, Dbl.le]
  · have hl' : 0 < |l| := abs_pos.2 hl
    by_cases hr : r = 0
    · subst hr
      simp [close, Dbl.isZero, hl, Dbl.abs, Dbl.sub, Dbl.div, Dbl.max, Dbl.lt, Dbl.le]
    · have hr' : 0 < |r| := abs_pos.2 hr
      simp only [close, Dbl.isZero, hl, if_false, Dbl.sub, Dbl.abs, Dbl.div, abs_eq_zero, hr, Dbl.max, Dbl.lt]
      rw [← div_le_iff₀ hl', ← div_le_iff₀ hr']
      simp only [false_and, ne_eq, false_or]
      split
      · rename_i h
        exact ⟨fun h' => ⟨hl, hr, h.le.trans h', h'⟩, fun h' => h'.2.2.2⟩
      · rename_i h
        exact ⟨fun h' => ⟨hl, hr, h', (not_lt.1 h).trans h'⟩, fun h' => h'.2.2.1⟩

/-- **C84**: with a finite tolerance, a passing check has finite arguments: NaN and infinities (even two equal ones) are errors. -/
theorem C84_close_finite (l r : Dbl) (tol : ℝ) (h : close l r (.fin tol)) : ∃ x y, l = .fin x ∧ r = .fin y := by
  classical
  rcases l with _ | a | x <;> rcases r with _ | b | y
  case fin.fin => exact ⟨x, y, rfl, rfl⟩
  case fin.nan =>
    exfalso; simp [close, Dbl.isZero, Dbl.sub, Dbl.abs, Dbl.div, Dbl.max, Dbl.lt, Dbl.le] at h
  case fin.inf =>
    exfalso
    simp [close, Dbl.isZero, Dbl.sub, Dbl.abs, Dbl.div, Dbl.max, Dbl.lt, Dbl.le] at h
  case inf.inf =>
    exfalso
    cases a <;> cases b <;> simp [close, Dbl.isZero, Dbl.sub, Dbl.abs, Dbl.div, Dbl.max, Dbl.lt, Dbl.le] at h
  all_goals
    exfalso
    simp [close, Dbl.isZero, Dbl.sub, Dbl.abs, Dbl.div, Dbl.max, Dbl.lt, Dbl.le] at h

/-- **C84**: the order of the arguments matters when one is 0, and only then. -/
theorem C84_close_order (l r tol : ℝ) :
    (l ≠ 0 → r ≠ 0 → (close (.fin l) (.fin r) (.fin tol) ↔ close (.fin r) (.fin l) (.fin tol))) ∧
    (r ≠ 0 → |r| ≤ tol → close (.fin 0) (.fin r) (.fin tol) ∧ ¬ close (.fin r) (.fin 0) (.fin tol)) := by
  simp only [C84_close]
  refine ⟨fun hl hr => ?_, fun hr h => ?_⟩
  · simp only [hl, hr, false_and, false_or, ne_eq, not_false_eq_true, true_and, abs_sub_comm r l]
    exact and_comm
  · simp [hr, h]

/-- **C84**: `check_small` passes exactly if the number is at most the tolerance in absolute value; NaN fails. -/
theorem C84_small (l tol : Dbl) : small l tol ↔
    (∃ x y, l = .fin x ∧ tol = .fin y ∧ |x| ≤ |y|) ∨ (l ≠ .nan ∧ ∃ b, tol = .inf b) := by
  rcases l with _ | a | x <;> rcases tol with _ | b | y <;> simp [small, Dbl.abs, Dbl.le]

example : close (.fin 2) (.fin 3) (.fin (1 / 2)) ∧ ¬ close (.fin 2) (.fin 3) (.fin (1 / 3)) := by
  simp only [C84_close]; constructor <;> norm_num

/-! ## Checks of integers -/

/-- `check_close` of two `int`s: the divisions are integer divisions, made before `l == 0` is tested; `none` is a division by 0,
which is undefined. (`std::abs(INT_MIN)` and the overflow of the difference are not modelled.)
models: stator/unit_test.hpp:101-108. -/
def closeInt (l r : ℤ) : Option ℤ :=
  if l = 0 ∨ r = 0 then none
  else some (max ((|l - r|).tdiv |l|) ((|l - r|).tdiv |r|))

/-- **C84**: between integers `check_close` does not check what it says: it is undefined if one of them is 0 (even if both are), and
with a tolerance below 1 it passes exactly if the difference is less than either of them, so `check_close(3, 2, 0.1)` passes. -/
theorem C84_close_integers (l r : ℤ) (tol : ℝ) (h0 : 0 ≤ tol) (h1 : tol < 1) :
    (closeInt l r = none ↔ l = 0 ∨ r = 0) ∧
    ((∃ d : ℤ, closeInt l r = some d ∧ (d : ℝ) ≤ tol) ↔ l ≠ 0 ∧ r ≠ 0 ∧ |l - r| < |l| ∧ |l - r| < |r|) := by
  constructor
  · by_cases h : l = 0 ∨ r = 0 <;> simp [closeInt, h]
  · by_cases hl : l = 0
    · simp [closeInt, hl]
    by_cases hr : r = 0
    · simp [closeInt, hr]
    have hl' : 0 < |l| := abs_pos.2 hl
    have hr' : 0 < |r| := abs_pos.2 hr
    have key : ∀ n m : ℤ, 0 ≤ n → 0 < m → (n.tdiv m ≤ 0 ↔ n < m) := by
      intro n m hn hm
      rw [Int.tdiv_eq_ediv_of_nonneg hn]
      constructor
      · intro h
        by_contra hc
        have := (Int.le_ediv_iff_mul_le hm).2 (show 1 * m ≤ n by omega)
        omega
      · intro h; rw [Int.ediv_eq_zero_of_lt hn h]
    have e : ∀ d : ℤ, (d : ℝ) ≤ tol ↔ d ≤ 0 := by
      intro d
      constructor
      · intro h
        have : (d : ℝ) < 1 := lt_of_le_of_lt h h1
        have : d < 1 := by exact_mod_cast this
        omega
      · intro h
        exact le_trans (by exact_mod_cast h) h0
    simp only [closeInt, hl, hr, or_self, if_false, Option.some.injEq, exists_eq_left', e, max_le_iff, key _ _ (abs_nonneg _) hl',
      key _ _ (abs_nonneg _) hr', ne_eq, not_false_eq_true, true_and]

example : closeInt 3 2 = some 0 := by decide

end Stator.Misc
