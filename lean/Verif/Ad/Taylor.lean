import Mathlib.Analysis.Calculus.IteratedDeriv.Lemmas
import Mathlib.Analysis.SpecialFunctions.Pow.Deriv
import Mathlib.Analysis.SpecialFunctions.Complex.Analytic
import Mathlib.Analysis.SpecialFunctions.Trigonometric.Deriv
import Mathlib.Analysis.SpecialFunctions.ExpDeriv
import Mathlib.Analysis.Analytic.IsolatedZeros
import Mathlib.Analysis.Calculus.FDeriv.Analytic

/-!
# Taylor coefficients of analytic functions

`T f a k = f⁽ᵏ⁾(a) / k!`, and the recurrences they satisfy.
-/

namespace Stator.Ad

open Filter Topology Finset
open scoped ContDiff

/-- The `k`-th Taylor coefficient of `f` at `a`. -/
noncomputable def T (f : ℝ → ℝ) (a : ℝ) (k : ℕ) : ℝ := iteratedDeriv k f a / k.factorial

theorem T_zero (f : ℝ → ℝ) (a : ℝ) : T f a 0 = f a := by simp [T]

theorem T_congr {f g : ℝ → ℝ} {a : ℝ} (h : f =ᶠ[𝓝 a] g) (k : ℕ) : T f a k = T g a k := by
  unfold T; rw [(h.iteratedDeriv k).self_of_nhds]

theorem T_deriv (f : ℝ → ℝ) (a : ℝ) (k : ℕ) : T (deriv f) a k = (k + 1) * T f a (k + 1) := by
  unfold T
  rw [iteratedDeriv_succ', Nat.factorial_succ]
  have : (k.factorial : ℝ) ≠ 0 := by positivity
  have : (k : ℝ) + 1 ≠ 0 := by positivity
  push_cast; field_simp

theorem T_add {f g : ℝ → ℝ} {a : ℝ} (hf : AnalyticAt ℝ f a) (hg : AnalyticAt ℝ g a) (k : ℕ) :
    T (f + g) a k = T f a k + T g a k := by
  unfold T; rw [iteratedDeriv_add hf.contDiffAt hg.contDiffAt, add_div]

theorem T_sub {f g : ℝ → ℝ} {a : ℝ} (hf : AnalyticAt ℝ f a) (hg : AnalyticAt ℝ g a) (k : ℕ) :
    T (f - g) a k = T f a k - T g a k := by
  unfold T; rw [iteratedDeriv_sub hf.contDiffAt hg.contDiffAt, sub_div]

theorem T_mul {f g : ℝ → ℝ} {a : ℝ} (hf : AnalyticAt ℝ f a) (hg : AnalyticAt ℝ g a) (k : ℕ) :
    T (f * g) a k = ∑ i ∈ range (k + 1), T f a i * T g a (k - i) := by
  unfold T
  rw [iteratedDeriv_mul hf.contDiffAt hg.contDiffAt, sum_div]
  refine sum_congr rfl fun i hi => ?_
  have hi : i ≤ k := by simp at hi; omega
  rw [Nat.choose_eq_factorial_div_factorial hi, Nat.cast_div (Nat.factorial_mul_factorial_dvd_factorial hi)
    (by positivity)]
  have : (k.factorial : ℝ) ≠ 0 := by positivity
  have : (i.factorial : ℝ) ≠ 0 := by positivity
  have : ((k - i).factorial : ℝ) ≠ 0 := by positivity
  push_cast; field_simp

theorem T_const (c a : ℝ) (k : ℕ) : T (fun _ => c) a k = if k = 0 then c else 0 := by
  unfold T
  rw [iteratedDeriv_const]
  split
  · subst_vars; simp
  · simp

theorem T_id (a : ℝ) (k : ℕ) : T (fun t => t) a k = if k = 0 then a else if k = 1 then 1 else 0 := by
  unfold T
  rw [iteratedDeriv_fun_id]
  split
  · subst_vars; simp
  · split
    · subst_vars; simp
    · simp

/-- `f' g = p' q` near `a`, on coefficients. -/
theorem T_deriv_mul {f g : ℝ → ℝ} {a : ℝ} (hf : AnalyticAt ℝ f a) (hg : AnalyticAt ℝ g a) (k : ℕ) :
    T (deriv f * g) a k = ∑ i ∈ range (k + 1), ((i : ℝ) + 1) * T f a (i + 1) * T g a (k - i) := by
  rw [T_mul hf.deriv hg]
  exact sum_congr rfl fun i _ => by rw [T_deriv]

/-! ### the recurrences -/

theorem rec_div {f g h : ℝ → ℝ} {a : ℝ} (hg : AnalyticAt ℝ g a) (hh : AnalyticAt ℝ h a)
    (e : (h * g) =ᶠ[𝓝 a] f) (hg0 : g a ≠ 0) (k : ℕ) :
    T h a k = (T f a k - ∑ i ∈ range k, T h a i * T g a (k - i)) / g a := by
  rw [← T_congr e, T_mul hh hg, sum_range_succ, Nat.sub_self, T_zero g]
  field_simp; ring

theorem rec_exp {g : ℝ → ℝ} {a : ℝ} (hg : AnalyticAt ℝ g a) (k : ℕ) :
    T (fun t => Real.exp (g t)) a (k + 1) =
      (∑ i ∈ range (k + 1), ((i : ℝ) + 1) * T g a (i + 1) * T (fun t => Real.exp (g t)) a (k - i))
        / (k + 1) := by
  have hh : AnalyticAt ℝ (fun t => Real.exp (g t)) a := hg.rexp'
  have e : deriv (fun t => Real.exp (g t)) =ᶠ[𝓝 a] deriv g * fun t => Real.exp (g t) := by
    filter_upwards [hg.eventually_analyticAt] with t ht
    rw [deriv_exp ht.differentiableAt]
    simp [mul_comm]
  rw [← T_deriv_mul hg hh, ← T_congr e, T_deriv]
  have : (k : ℝ) + 1 ≠ 0 := by positivity
  field_simp

theorem rec_log {g : ℝ → ℝ} {a : ℝ} (hg : AnalyticAt ℝ g a) (h0 : 0 < g a) (k : ℕ) :
    T (fun t => Real.log (g t)) a (k + 1) =
      (T g a (k + 1) - (∑ i ∈ range k, ((i : ℝ) + 1) * T (fun t => Real.log (g t)) a (i + 1)
        * T g a (k - i)) / (k + 1)) / g a := by
  have hh : AnalyticAt ℝ (fun t => Real.log (g t)) a := hg.log h0
  have e : (deriv fun t => Real.log (g t)) * g =ᶠ[𝓝 a] deriv g := by
    filter_upwards [hg.eventually_analyticAt, hg.continuousAt.eventually_ne h0.ne'] with t ht h1
    simp only [Pi.mul_apply]
    rw [deriv.log ht.differentiableAt h1]
    field_simp
  have key := T_deriv_mul hh hg k
  rw [T_congr e, T_deriv, sum_range_succ, Nat.sub_self, T_zero g] at key
  have : (k : ℝ) + 1 ≠ 0 := by positivity
  have := h0.ne'
  rw [eq_div_iff this, eq_sub_iff_add_eq, ← eq_sub_iff_add_eq', div_eq_iff (by positivity)]
  linear_combination -key

theorem rec_sin {g : ℝ → ℝ} {a : ℝ} (hg : AnalyticAt ℝ g a) (k : ℕ) :
    T (fun t => Real.sin (g t)) a (k + 1) =
      (∑ i ∈ range (k + 1), ((i : ℝ) + 1) * T g a (i + 1) * T (fun t => Real.cos (g t)) a (k - i))
        / (k + 1) := by
  have hh : AnalyticAt ℝ (fun t => Real.cos (g t)) a := Real.analyticAt_cos.comp hg
  have e : deriv (fun t => Real.sin (g t)) =ᶠ[𝓝 a] deriv g * fun t => Real.cos (g t) := by
    filter_upwards [hg.eventually_analyticAt] with t ht
    rw [deriv_sin ht.differentiableAt]
    simp [mul_comm]
  rw [← T_deriv_mul hg hh, ← T_congr e, T_deriv]
  have : (k : ℝ) + 1 ≠ 0 := by positivity
  field_simp

theorem rec_cos {g : ℝ → ℝ} {a : ℝ} (hg : AnalyticAt ℝ g a) (k : ℕ) :
    T (fun t => Real.cos (g t)) a (k + 1) =
      (∑ i ∈ range (k + 1), ((i : ℝ) + 1) * T g a (i + 1) * T (fun t => Real.sin (g t)) a (k - i))
        / -(k + 1) := by
  have hh : AnalyticAt ℝ (fun t => Real.sin (g t)) a := Real.analyticAt_sin.comp hg
  have hc : AnalyticAt ℝ (fun t => Real.cos (g t)) a := Real.analyticAt_cos.comp hg
  have e : deriv (fun t => Real.cos (g t)) + deriv g * (fun t => Real.sin (g t)) =ᶠ[𝓝 a] fun _ => 0 := by
    filter_upwards [hg.eventually_analyticAt] with t ht
    simp only [Pi.add_apply, Pi.mul_apply]
    rw [deriv_cos ht.differentiableAt]
    ring
  have key := T_congr e k
  rw [T_add hc.deriv (hg.deriv.mul hh), T_deriv_mul hg hh, T_deriv, T_const] at key
  have : (k : ℝ) + 1 ≠ 0 := by positivity
  rw [eq_div_iff (by simpa using neg_ne_zero.2 this)]
  simp only [ite_self] at key
  linear_combination -key

theorem analyticAt_rpow {f g : ℝ → ℝ} {a : ℝ} (hf : AnalyticAt ℝ f a) (hg : AnalyticAt ℝ g a)
    (h0 : f a ≠ 0) : AnalyticAt ℝ (fun t => f t ^ g t) a := by
  exact ContDiffAt.analyticAt (hf.contDiffAt.rpow hg.contDiffAt h0)

theorem rec_powConst {g : ℝ → ℝ} {a p : ℝ} (hg : AnalyticAt ℝ g a) (h0 : g a ≠ 0) (k : ℕ) :
    T (fun t => g t ^ p) a (k + 1) =
      (∑ i ∈ range (k + 1), ((p + 1) * (i + 1) / (k + 1) - 1) * T g a (i + 1)
        * T (fun t => g t ^ p) a (k - i)) / g a := by
  have hh : AnalyticAt ℝ (fun t => g t ^ p) a := analyticAt_rpow hg analyticAt_const h0
  have e : g * (deriv fun t => g t ^ p) =ᶠ[𝓝 a] (fun _ => p) * (deriv g * fun t => g t ^ p) := by
    filter_upwards [hg.eventually_analyticAt, hg.continuousAt.eventually_ne h0] with t ht h1
    simp only [Pi.mul_apply]
    rw [(ht.differentiableAt.hasDerivAt.rpow_const (Or.inl h1)).deriv, Real.rpow_sub_one h1]
    field_simp
  have k1 := T_congr e k
  rw [T_mul analyticAt_const (hg.deriv.mul hh), T_mul hg hh.deriv] at k1
  simp only [T_const] at k1
  rw [sum_range_succ' (fun i => (if i = 0 then p else 0) * _)] at k1
  simp only [Nat.add_eq_zero_iff, one_ne_zero, and_false, if_false, zero_mul, sum_const_zero,
    zero_add, if_true, Nat.sub_zero] at k1
  rw [T_deriv_mul hg hh, sum_range_succ', Nat.sub_zero, T_deriv, T_zero] at k1
  have k2 : ∑ i ∈ range k, T g a (i + 1) * T (deriv fun t => g t ^ p) a (k - (i + 1)) =
      ∑ i ∈ range (k + 1), ((k : ℝ) - i) * T g a (i + 1) * T (fun t => g t ^ p) a (k - i) := by
    rw [sum_range_succ]
    simp only [sub_self, zero_mul, add_zero]
    refine sum_congr rfl fun i hi => ?_
    have hi : i < k := by simpa using hi
    rw [T_deriv, show k - (i + 1) + 1 = k - i by omega, Nat.cast_sub (by omega)]
    push_cast; ring
  rw [k2] at k1
  have : (k : ℝ) + 1 ≠ 0 := by positivity
  rw [eq_div_iff h0]
  have k3 : ((k : ℝ) + 1) * (T (fun t => g t ^ p) a (k + 1) * g a) = ((k : ℝ) + 1) *
      ∑ i ∈ range (k + 1), ((p + 1) * (i + 1) / (k + 1) - 1) * T g a (i + 1)
        * T (fun t => g t ^ p) a (k - i) := by
    rw [mul_sum]
    have k4 : ∀ i ∈ range (k + 1), ((k : ℝ) + 1) * (((p + 1) * (i + 1) / (k + 1) - 1) * T g a (i + 1)
        * T (fun t => g t ^ p) a (k - i)) = p * (((i : ℝ) + 1) * T g a (i + 1)
        * T (fun t => g t ^ p) a (k - i)) - ((k : ℝ) - i) * T g a (i + 1)
        * T (fun t => g t ^ p) a (k - i) := by
      intro i _; field_simp; ring
    rw [sum_congr rfl k4, sum_sub_distrib, ← mul_sum]
    linear_combination k1
  exact mul_left_cancel₀ this k3

/-- The recurrence for `f ^ g`, in the form of the code. -/
theorem rec_pow {f g : ℝ → ℝ} {a : ℝ} (hf : AnalyticAt ℝ f a) (hg : AnalyticAt ℝ g a) (h0 : 0 < f a)
    (k : ℕ) :
    T (fun t => f t ^ g t) a (k + 1) =
      (∑ j ∈ range (k + 1), ∑ i ∈ range (k - j + 1),
          ((j : ℝ) + 1) * T (fun t => f t ^ g t) a i *
            (T f a (j + 1) * T g a (k - i - j) +
             T g a (j + 1) * ∑ q ∈ range (k - i - j + 1),
                T f a q * T (fun t => Real.log (f t)) a (k - i - j - q))
        - ∑ j ∈ range k, ((j : ℝ) + 1) * T f a (k - j) * T (fun t => f t ^ g t) a (j + 1))
        / ((k + 1) * f a) := by
  have hh : AnalyticAt ℝ (fun t => f t ^ g t) a := analyticAt_rpow hf hg h0.ne'
  have hl : AnalyticAt ℝ (fun t => Real.log (f t)) a := hf.log h0
  have e : deriv (fun t => f t ^ g t) * f =ᶠ[𝓝 a]
      deriv f * ((fun t => f t ^ g t) * g) +
        deriv g * ((fun t => f t ^ g t) * (f * fun t => Real.log (f t))) := by
    filter_upwards [hf.eventually_analyticAt, hg.eventually_analyticAt,
      hf.continuousAt.eventually (lt_mem_nhds h0)] with t h1 h2 h3
    simp only [Pi.mul_apply, Pi.add_apply]
    rw [(h1.differentiableAt.hasDerivAt.rpow h2.differentiableAt.hasDerivAt h3).deriv,
      Real.rpow_sub_one h3.ne']
    field_simp
    try ring
  have k1 := T_congr e k
  have hfl := hf.mul hl
  rw [T_add (hf.deriv.mul (hh.mul hg)) (hg.deriv.mul (hh.mul hfl)), T_deriv_mul hh hf,
    T_deriv_mul hf (hh.mul hg), T_deriv_mul hg (hh.mul hfl), sum_range_succ, Nat.sub_self,
    T_zero f, ← sum_add_distrib] at k1
  have k2 : ∀ j ∈ range (k + 1), ((j : ℝ) + 1) * T f a (j + 1) * T ((fun t => f t ^ g t) * g) a (k - j)
      + ((j : ℝ) + 1) * T g a (j + 1) *
        T ((fun t => f t ^ g t) * (f * fun t => Real.log (f t))) a (k - j) =
      ∑ i ∈ range (k - j + 1),
          ((j : ℝ) + 1) * T (fun t => f t ^ g t) a i *
            (T f a (j + 1) * T g a (k - i - j) +
             T g a (j + 1) * ∑ q ∈ range (k - i - j + 1),
                T f a q * T (fun t => Real.log (f t)) a (k - i - j - q)) := by
    intro j _
    rw [T_mul hh hg, T_mul hh hfl, mul_sum, mul_sum, ← sum_add_distrib]
    refine sum_congr rfl fun i _ => ?_
    rw [T_mul hf hl, show k - j - i = k - i - j by omega]
    ring
  rw [sum_congr rfl k2] at k1
  have : (k : ℝ) + 1 ≠ 0 := by positivity
  rw [eq_div_iff (mul_ne_zero this h0.ne'), ← k1]
  have k3 : ∀ j ∈ range k, ((j : ℝ) + 1) * T f a (k - j) * T (fun t => f t ^ g t) a (j + 1) =
      ((j : ℝ) + 1) * T (fun t => f t ^ g t) a (j + 1) * T f a (k - j) := by
    intro j _; ring
  rw [sum_congr rfl k3]
  ring

end Stator.Ad
