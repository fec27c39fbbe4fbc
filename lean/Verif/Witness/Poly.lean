import Verif.Poly.CountProps
import Verif.Poly.VcaProps
import Verif.Poly.SolveMultiple
import Verif.Poly.SolveVas

/-! # Theorems about roots of polynomials, applied to concrete cases -/

namespace Stator.Pol

open Polynomial

/-- C29: `x² + 3x + 1` has no positive root. -/
example (x : ℝ) (hx : 0 < x) : value (![1, 3, 1] : Arr ℝ 2) x ≠ 0 :=
  C29_zero _ (fun h => by simpa using congrFun h 0) (by norm_num [descartes, forUp, rd, signOf]) x hx

/-- C29: `x² + 3x - 1` has one. -/
example : ∃! x : ℝ, 0 < x ∧ value (![-1, 3, 1] : Arr ℝ 2) x = 0 :=
  C29_one _ (fun h => by simpa using congrFun h 0) (by norm_num [descartes, forUp, rd, signOf])

/-- C32: VCA does not end for `(x-1)²(x+2)(2x²-3)`. -/
example (fuel : ℕ) : vca fuel lossy = .more := by
  have hf : lossy ≠ 0 := fun h => by simpa [lossy] using congrFun h 5
  refine C32_vca_multiple_root lossy hf 1 one_pos ?_ ?_ fuel
  · have h1 : (polyOf lossy).IsRoot 1 := by rw [IsRoot.def, ← value_eq, value_lossy]; norm_num
    have h2 : (derivative (polyOf lossy)).IsRoot 1 := by rw [IsRoot.def, deriv_lossy]; norm_num
    exact (one_lt_rootMultiplicity_iff_isRoot (polyOf_ne_zero hf)).2 ⟨h1, h2⟩
  · rintro ⟨u, hu, k, m, h⟩
    rw [lmqUpper_lossy] at hu
    cases hu
    have h2 : (0 : ℝ) < 2 ^ m := by positivity
    have h3 : ((3 * k : ℕ) : ℝ) = ((2 ^ m : ℕ) : ℝ) := by
      push_cast
      field_simp at h
      linarith
    have h4 : 3 * k = 2 ^ m := by exact_mod_cast h3
    have := Nat.Prime.dvd_of_dvd_pow Nat.prime_three ⟨k, h4.symm⟩
    omega

/-- C31: `2x - 1` has one root between 0 and 1. -/
example : ∃! x : ℝ, (0 < x ∧ x < 1) ∧ value (![-1, 2] : Arr ℝ 1) x = 0 :=
  C31_budan_one _ (fun h => by simpa using congrFun h 0)
    (by norm_num [budan, invertTaylorShift, descartes, forUp, forDown, rd, wr, signOf, shiftOne, zeros])

/-- C31: `x² + x + 1` has none. -/
example (x : ℝ) (h0 : 0 < x) (h1 : x < 1) : value (![1, 1, 1] : Arr ℝ 2) x ≠ 0 :=
  C31_budan_zero _ (fun h => by simpa using congrFun h 0)
    (by norm_num [budan, invertTaylorShift, descartes, forUp, forDown, rd, wr, signOf, shiftOne, zeros]) x h0 h1

/-- C31: `x² + x - 1` has no root between 2 and 5. -/
example (x : ℝ) (h0 : 2 < x) (h1 : x < 5) : value (![-1, 1, 1] : Arr ℝ 2) x ≠ 0 :=
  C31_alesina_galuzzi_zero _ (fun h => by simpa using congrFun h 0) 2 5 (by norm_num)
    (by norm_num [alesinaGaluzzi, shift, scale, budan, invertTaylorShift, descartes, forUp, forDown, rd, wr, signOf, shiftOne, zeros]) x h0 h1

theorem lmqUpper_sq2 : lmqUpper (![-2, 0, 1] : Arr ℝ 2) = some (some 2) := by
  have h4 : (4 : ℝ) ^ ((1 : ℝ) / 2) = 2 := by rw [show (4 : ℝ) = 2 ^ 2 by norm_num, rpow_half_sq (by norm_num)]
  have h : lmqUpper (![-2, 0, 1] : Arr ℝ 2) = some (some (max ((4 : ℝ) ^ ((1 : ℝ) / 2)) 0)) := by
    norm_num [lmqUpper, realOrder, rd, lmqOuter, lmqInner, forDown, forUp, wr]
  rw [h, h4, max_eq_left (by norm_num)]

theorem bisectLoop_none {f : ℝ → ℝ} (hf : ∀ q : ℚ, f q ≠ 0) (x : ℝ) (n : ℕ) : ∀ (l h : ℚ) (s : Bool), l < h →
    Num.bisectLoop f 0 x n l h s = none := by
  induction n with
  | zero => intro l h s _; rfl
  | succ n ih =>
    intro l h s hlt
    have e : ((l : ℝ) + h) / 2 = (((l + h) / 2 : ℚ) : ℝ) := by push_cast; ring
    rw [Num.bisectLoop]
    simp only [e]
    rw [if_neg]
    · split
      · exact ih _ _ _ (by linarith)
      · exact ih _ _ _ (by linarith)
    · rintro (k | k | k | k)
      · rw [zero_mul, abs_zero] at k
        exact absurd k (not_lt.2 (abs_nonneg _))
      · exact hf _ k
      · have := Rat.cast_injective k; linarith
      · have := Rat.cast_injective k; linarith

/-- C54: `x² - 2` makes `solve_real_positive_roots_poly` throw for the precision 0: it has a simple positive root, which is not dyadic. -/
example (S : ℕ) (sp : ℝ → ℝ → ℕ) (z : Bool) (m eps inf : ℝ) (fuel : ℕ) :
    solvePositive ⟨S, sp, z, 0, m⟩ eps inf 0 .vas (fuel + 1) (![-2, 0, 1] : Arr ℝ 2) = .ok none := by
  have hv : vas 0 (fuel + 1) (![-2, 0, 1] : Arr ℝ 2) = .ok [(some 0, some 2)] := by
    have hd : descartes (![-2, 0, 1] : Arr ℝ 2) = some 1 := by norm_num [descartes, forUp, rd, signOf]
    rw [vas, lmqUpper_sq2]
    simp [Out.lift, Out.bind, vasWorker, hd, Mobius.eval, vasFinish]
  have hh (q : ℚ) : (horner (![-2, 0, 1] : Arr ℝ 2) (q : ℝ)).getD 0 ≠ 0 := by
    have : (horner (![-2, 0, 1] : Arr ℝ 2) (q : ℝ)).getD 0 = q ^ 2 - 2 := by
      norm_num [horner, forDown, rd]; ring
    rw [this]
    intro h
    have : (q : ℝ) ^ 2 = 2 := by linarith
    have h3 : (|q| : ℝ) = √2 := by rw [← this, Real.sqrt_sq_eq_abs]
    exact irrational_sqrt_two ⟨|q|, by rw [← h3]; push_cast; rfl⟩
  have hc : (callBisection ⟨S, sp, z, 0, m⟩ (![-2, 0, 1] : Arr ℝ 2) 0 2).1 = false := by
    rw [callBisection, Num.bisection]
    split
    · rfl
    · split
      · rfl
      · have := bisectLoop_none (f := fun x => (horner (![-2, 0, 1] : Arr ℝ 2) x).getD 0) hh (if |(horner (![-2, 0, 1] : Arr ℝ 2) (0 : ℝ)).getD 0| < |(horner (![-2, 0, 1] : Arr ℝ 2) (2 : ℝ)).getD 0|
            then (0 : ℝ) else 2) (Num.iters (S - 1) 0 - 1) 0 2 (Num.signbit ((horner (![-2, 0, 1] : Arr ℝ 2) (2 : ℝ)).getD 0)) (by norm_num)
        push_cast at this
        simp only [this]
  rw [solvePositive, hv]
  show (bisectAll _ _ [(some 0, some 2)] []).bind _ = _
  rw [bisectAll]
  rcases e : callBisection ⟨S, sp, z, 0, m⟩ (![-2, 0, 1] : Arr ℝ 2) 0 2 with ⟨b, r⟩
  rw [e] at hc
  cases hc
  rfl
end Stator.Pol
