import Verif.Poly.CountProps
import Verif.Poly.OpsProps
import Mathlib.Tactic.LinearCombination

/-! # Property C27: the linear and quadratic solvers -/

namespace Stator.Pol

open Polynomial

theorem value_one (f : Arr ℝ 1) (x : ℝ) : value f x = f 0 + f 1 * x := by
  simp [value, Fin.sum_univ_succ]

theorem value_two (f : Arr ℝ 2) (x : ℝ) : value f x = f 0 + f 1 * x + f 2 * x ^ 2 := by
  simp [value, Fin.sum_univ_succ]; ring

/-- **C27**, order 0: a non-zero constant has no root. -/
theorem C27_constant (f : Arr ℝ 0) (hf : f ≠ 0) (x : ℝ) : x ∈ solve0 f ↔ value f x = 0 := by
  have h : f 0 ≠ 0 := fun h => hf (by funext i; rw [Fin.fin_one_eq_zero i, h]; rfl)
  simp [solve0, value, h]

/-- **C27**, order 1: exactly the roots, whatever the coefficients (not both zero). -/
theorem C27_linear (f : Arr ℝ 1) (hf : f ≠ 0) (x : ℝ) : x ∈ solve1 f ↔ value f x = 0 := by
  rw [value_one, solve1]
  by_cases h1 : f 1 = 0
  · have h0 : f 0 ≠ 0 := fun h => hf (by
      funext i; fin_cases i
      · exact h
      · exact h1)
    simp [h1, h0]
  · simp only [ne_eq, h1, not_false_eq_true, if_true, List.mem_singleton]
    constructor
    · rintro rfl; field_simp; ring
    · intro h; field_simp; linear_combination h

theorem copysign_sq (a b : ℝ) : copysign a b ^ 2 = a ^ 2 := by
  unfold copysign; split <;> simp

/-- The part of the quadratic solver after division by the leading coefficient. -/
theorem quad_core (p q : ℝ) (hq : q ≠ 0) (hpos : 0 < p * p - 4 * q) :
    let r1 := -(p + copysign (Real.sqrt (p * p - 4 * q)) p) * (1 / 2)
    r1 ≠ 0 ∧ ∀ x, (x = r1 ∨ x = q / r1) ↔ q + p * x + x ^ 2 = 0 := by
  intro r1
  have hs : copysign (Real.sqrt (p * p - 4 * q)) p ^ 2 = p * p - 4 * q := by
    rw [copysign_sq, Real.sq_sqrt hpos.le]
  have hroot : q + p * r1 + r1 ^ 2 = 0 := by
    simp only [r1]; linear_combination hs / 4
  have hr1 : r1 ≠ 0 := by
    intro h; rw [h] at hroot; apply hq; linear_combination hroot
  refine ⟨hr1, fun x => ?_⟩
  have hfac : q + p * x + x ^ 2 = (x - r1) * (x - q / r1) := by
    field_simp
    linear_combination x * hroot
  rw [hfac, mul_eq_zero, sub_eq_zero, sub_eq_zero]

/-- **C27**, order 2: for every polynomial that is not identically zero the result is sorted and
consists of exactly the real roots, as long as the code does not take its overflow branch. -/
theorem C27_quadratic (maxSqrt : ℝ) (f : Arr ℝ 2) (hf : f ≠ 0) (hr : |f 1 / f 2| ≤ maxSqrt) :
    ∃ l, solve2 maxSqrt f = some l ∧ l.Pairwise (· ≤ ·) ∧ ∀ x, x ∈ l ↔ value f x = 0 := by
  unfold solve2
  by_cases h2 : f 2 = 0
  · rw [if_pos h2]
    obtain ⟨g, e, hv⟩ := C33_value 1 f (fun i hi => by
      have : i = 2 := by
        apply Fin.ext; have := i.2; simp at hi ⊢; omega
      rw [this, h2])
    have hg : g ≠ 0 := by
      rintro rfl
      apply hf
      have : ∀ x, value f x = 0 := fun x => by rw [← hv x]; simp [value]
      apply polyOf_inj
      rw [show polyOf (0 : Arr ℝ 2) = 0 from polyOf_zeros 2]
      exact Polynomial.funext fun x => by rw [← value_eq, this]; simp
    refine ⟨solve1 g, by simp [e], ?_, fun x => by rw [C27_linear g hg, hv]⟩
    unfold solve1; split <;> simp
  · rw [if_neg h2]
    obtain ⟨g, e, hg⟩ := divConst_spec f (fun _ => f 2 : Arr ℝ 0)
    have hc : ∀ i, coef g i = coef f i / f 2 := fun i => by rw [hg]; rfl
    have hg0 : rd g 0 = some (f 0 / f 2) := by
      rw [rd_coef g (by omega), hc]; rfl
    have hg1 : rd g 1 = some (f 1 / f 2) := by
      rw [rd_coef g (by omega), hc]; rfl
    set p := f 1 / f 2 with hp
    set q := f 0 / f 2 with hq
    have hval : ∀ x, value f x = 0 ↔ q + p * x + x ^ 2 = 0 := by
      intro x
      have : value f x = f 2 * (q + p * x + x ^ 2) := by
        rw [value_two, hp, hq]; field_simp
      rw [this, mul_eq_zero, or_iff_right h2]
    simp only [e, hg0, hg1, Option.bind_eq_bind, Option.bind_some]
    by_cases hq0 : q = 0
    · rw [if_pos hq0]
      refine ⟨_, rfl, by simp, fun x => ?_⟩
      rw [hval, hq0]
      have : (0 : ℝ) + p * x + x ^ 2 = x * (x + p) := by ring
      rw [this, mul_eq_zero]
      simp only [List.mem_cons, List.not_mem_nil, or_false]
      rcases le_total (-p) 0 with h | h
      · rw [min_eq_left h, max_eq_right h, eq_neg_iff_add_eq_zero, or_comm]
      · rw [min_eq_right h, max_eq_left h, eq_neg_iff_add_eq_zero]
    · rw [if_neg hq0, if_neg (not_lt.2 hr)]
      split
      · next harg =>
        refine ⟨_, rfl, by simp, fun x => ?_⟩
        rw [hval]
        simp only [List.not_mem_nil, false_iff]
        intro h
        nlinarith [sq_nonneg (2 * x + p)]
      · next harg =>
        split
        · next harg0 =>
          refine ⟨_, rfl, by simp, fun x => ?_⟩
          rw [hval, List.mem_singleton]
          have : q + p * x + x ^ 2 = (x - -p * (1 / 2)) ^ 2 := by linear_combination -harg0 / 4
          rw [this, sq_eq_zero_iff, sub_eq_zero]
        · next harg0 =>
          have hpos : 0 < p * p - 4 * q := lt_of_le_of_ne (not_lt.1 harg) (Ne.symm harg0)
          obtain ⟨hr1, hx⟩ := quad_core p q hq0 hpos
          refine ⟨_, rfl, ?_, fun x => ?_⟩
          · split
            · next h => simpa using h.le
            · next h => simpa using not_lt.1 h
          · rw [hval, ← hx x]
            split <;> simp [or_comm]

/-- **C27**: multiplicity. A double root is returned once, except the double root 0, which is
returned twice. -/
theorem C27_double_root (maxSqrt : ℝ) (a r : ℝ) (ha : a ≠ 0) (hr : |2 * r| ≤ maxSqrt) :
    solve2 maxSqrt ![a * r ^ 2, -2 * a * r, a] = some (if r = 0 then [0, 0] else [r]) := by
  have h2 : ¬ (![a * r ^ 2, -2 * a * r, a] : Arr ℝ 2) 2 = 0 := by simpa using ha
  unfold solve2
  rw [if_neg h2]
  obtain ⟨g, e, hg⟩ := divConst_spec (![a * r ^ 2, -2 * a * r, a] : Arr ℝ 2)
    (fun _ => (![a * r ^ 2, -2 * a * r, a] : Arr ℝ 2) 2 : Arr ℝ 0)
  have hg0 : rd g 0 = some (r ^ 2) := by
    rw [rd_coef g (by omega), hg]
    simp [coef, ha]
  have hg1 : rd g 1 = some (-2 * r) := by
    rw [rd_coef g (by omega), hg]
    simp [coef]
    field_simp
  simp only [e, hg0, hg1, Option.bind_eq_bind, Option.bind_some]
  by_cases h : r = 0
  · subst h; simp
  · have : ¬ r ^ 2 = 0 := by simpa using h
    rw [if_neg this, if_neg h, if_neg (by rw [not_lt, neg_mul, abs_neg]; exact hr)]
    have harg : -2 * r * (-2 * r) - 4 * r ^ 2 = 0 := by ring
    rw [harg, if_neg (lt_irrefl _), if_pos rfl]
    simp only [Option.some.injEq, List.cons.injEq, and_true]
    ring

/-- **C27** in the overflow branch: neither returned value is a root; the residuals of the monic
polynomial are `f₀` and `(f₀/f₁)²`. -/
theorem C27_overflow (maxSqrt : ℝ) (p q : ℝ) (hq : q ≠ 0) (hp : maxSqrt < |p|) (hm : 0 < maxSqrt) :
    ∃ a b, (solve2 maxSqrt ![q, p, 1] = some [a, b] ∨ solve2 maxSqrt ![q, p, 1] = some [b, a]) ∧
      value ![q, p, 1] a = q ∧ value ![q, p, 1] b = (q / p) ^ 2 := by
  have hp0 : p ≠ 0 := by rintro rfl; simp at hp; linarith
  refine ⟨-p, -q / p, ?_, ?_, ?_⟩
  · have h2 : ¬ (![q, p, 1] : Arr ℝ 2) 2 = 0 := by simp
    unfold solve2
    rw [if_neg h2]
    obtain ⟨g, e, hg⟩ := divConst_spec (![q, p, 1] : Arr ℝ 2)
      (fun _ => (![q, p, 1] : Arr ℝ 2) 2 : Arr ℝ 0)
    have hg0 : rd g 0 = some q := by rw [rd_coef g (by omega), hg]; simp [coef]
    have hg1 : rd g 1 = some p := by rw [rd_coef g (by omega), hg]; simp [coef]
    simp only [e, hg0, hg1, Option.bind_eq_bind, Option.bind_some]
    rw [if_neg hq, if_pos hp]
    split
    · exact .inr rfl
    · exact .inl rfl
  · rw [value_two]; simp; ring
  · rw [value_two]; simp; field_simp; ring

-- 2x² - 6x + 4 = 2(x-1)(x-2)
example : ∃ l, solve2 (10 ^ 154) ![4, -6, 2] = some l ∧ l.Pairwise (· ≤ ·) ∧
    ∀ x, x ∈ l ↔ value (![4, -6, 2] : Arr ℝ 2) x = 0 :=
  C27_quadratic _ _ (fun h => by simpa using congrFun h 2) (by
    show |(-6 : ℝ) / 2| ≤ 10 ^ 154
    rw [show (-6 : ℝ) / 2 = -3 by norm_num, abs_neg]; norm_num)

end Stator.Pol
