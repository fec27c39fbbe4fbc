import Verif.Fp.Format
import Mathlib.Data.Int.Log

/-!
# C73: the precision estimate for subtraction and addition

`subtraction_precision` compares the exponents of its arguments.
-/

namespace Stator.Fp

/-- The exponent `std::frexp` returns: `|f| = m 2^e` with `1/2 ≤ m < 1`. -/
noncomputable def frexp (f : ℝ) : ℤ := Int.log 2 |f| + 1

open Classical in
/-- `none` is `std::numeric_limits<size_t>::max()`. Signs are those of real numbers: a zero is caught before.
models: precision.hpp:41-53. -/
noncomputable def subtractionPrecision (f1 f2 : ℝ) : Option ℕ :=
  if f1 = 0 ∨ f2 = 0 ∨ decide (f1 < 0) ≠ decide (f2 < 0) then none
  else some (frexp f1 - frexp f2).natAbs

/-- models: precision.hpp:63-66. -/
noncomputable def additionPrecision (f1 f2 : ℝ) : Option ℕ := subtractionPrecision f1 (-f2)

/-! ## Specification -/

/-- At least the fraction `q` of the larger operand is left: the digits that remain. `q = 1`: no cancellation at all. -/
def Left (q f1 f2 : ℝ) : Prop := q * max |f1| |f2| ≤ |f1 - f2|

/-! ## Proofs -/

/-- `frexp` is what it should be. -/
theorem frexp_spec {f : ℝ} (hf : f ≠ 0) : (2 : ℝ) ^ (frexp f - 1) ≤ |f| ∧ |f| < 2 ^ frexp f := by
  have h1 := Int.zpow_log_le_self (b := 2) (by norm_num) (abs_pos.2 hf)
  have h2 := Int.lt_zpow_succ_log_self (b := 2) (by norm_num) |f|
  unfold frexp
  exact ⟨by simpa using h1, by simpa using h2⟩

theorem frexp_unique {f : ℝ} (hf : f ≠ 0) {e : ℤ} (h1 : (2 : ℝ) ^ (e - 1) ≤ |f|) (h2 : |f| < 2 ^ e) : frexp f = e := by
  obtain ⟨h3, h4⟩ := frexp_spec hf
  have h5 : e - 1 < frexp f := (zpow_lt_zpow_iff_right₀ (by norm_num : (1 : ℝ) < 2)).1 (h1.trans_lt h4)
  have h6 : frexp f - 1 < e := (zpow_lt_zpow_iff_right₀ (by norm_num : (1 : ℝ) < 2)).1 (h3.trans_lt h2)
  omega

theorem precision_some {f1 f2 : ℝ} {k : ℕ} (h : subtractionPrecision f1 f2 = some k) :
    f1 ≠ 0 ∧ f2 ≠ 0 ∧ (f1 < 0 ↔ f2 < 0) ∧ (frexp f1 - frexp f2).natAbs = k := by
  unfold subtractionPrecision at h
  split at h
  · cases h
  · rename_i h0
    push Not at h0
    obtain ⟨a, b, c⟩ := h0
    exact ⟨a, b, by simpa using c, by simpa using h⟩

/-- **C73**: the maximum is returned exactly if there is nothing to cancel: then the result is at least as large as both operands. -/
theorem C73_no_subtraction (f1 f2 : ℝ) : subtractionPrecision f1 f2 = none ↔ Left 1 f1 f2 := by
  have key : ∀ a b : ℝ, 0 < a → 0 < b → ¬ max a b ≤ |a - b| := by
    intro a b ha hb h
    rcases le_total a b with h1 | h1
    · rw [abs_of_nonpos (by linarith)] at h
      have := le_max_right a b
      linarith
    · rw [abs_of_nonneg (by linarith)] at h
      have := le_max_left a b
      linarith
  unfold subtractionPrecision Left
  rw [one_mul]
  constructor
  · intro h
    split at h
    · rename_i h0
      rcases h0 with rfl | rfl | h0
      · simp
      · simp
      · rcases lt_or_ge f1 0 with h1 | h1 <;> rcases lt_or_ge f2 0 with h2 | h2
        · simp [h1, h2] at h0
        · rw [abs_of_neg h1, abs_of_nonneg h2, abs_of_nonpos (by linarith)]
          exact max_le (by linarith) (by linarith)
        · rw [abs_of_neg h2, abs_of_nonneg h1, abs_of_nonneg (by linarith)]
          exact max_le (by linarith) (by linarith)
        · simp [not_lt.2 h1, not_lt.2 h2] at h0
    · cases h
  · intro h
    split
    · rfl
    · rename_i h0
      exfalso
      push Not at h0
      obtain ⟨a, b, c⟩ := h0
      have hc : f1 < 0 ↔ f2 < 0 := by simpa using c
      rcases lt_or_gt_of_ne a with h1 | h1
      · have h2 := hc.1 h1
        have := key (-f1) (-f2) (by linarith) (by linarith)
        rw [abs_of_neg h1, abs_of_neg h2] at h
        rw [show -f1 - -f2 = -(f1 - f2) by ring, abs_neg] at this
        exact this h
      · have h2 : 0 < f2 := lt_of_le_of_ne (not_lt.1 fun h => absurd (hc.2 h) (by linarith)) (Ne.symm b)
        rw [abs_of_pos h1, abs_of_pos h2] at h
        exact key f1 f2 h1 h2 h

theorem left_of_lt {a b : ℝ} {k : ℕ} (ha : a ≠ 0) (hb : b ≠ 0) (h : frexp b + k ≤ frexp a) :
    Left (1 - 2 * (1 / 2) ^ k) a b := by
  obtain ⟨h1, -⟩ := frexp_spec ha
  obtain ⟨-, h4⟩ := frexp_spec hb
  have hba : |b| ≤ 2 * (1 / 2) ^ k * |a| := by
    have h5 : (2 : ℝ) ^ frexp b ≤ 2 ^ (frexp a - k) := zpow_le_zpow_right₀ (by norm_num) (by omega)
    have h6 : (2 : ℝ) ^ (frexp a - k) = 2 * (1 / 2) ^ k * 2 ^ (frexp a - 1) := by
      rw [zpow_sub₀ (by norm_num), zpow_sub₀ (by norm_num)]
      simp
      field_simp
    have h7 : (0 : ℝ) < 2 * (1 / 2) ^ k := by positivity
    calc |b| ≤ 2 * (1 / 2) ^ k * 2 ^ (frexp a - 1) := by rw [← h6]; exact h4.le.trans h5
      _ ≤ _ := mul_le_mul_of_nonneg_left h1 h7.le
  have h8 := abs_sub_abs_le_abs_sub a b
  unfold Left
  rcases le_total |b| |a| with h9 | h9
  · rw [max_eq_left h9]; nlinarith
  · rw [max_eq_right h9]
    have : 0 ≤ |a - b| := abs_nonneg _
    -- then the factor is at least 1
    have h10 : 0 < |b| := abs_pos.2 hb
    have h11 : 0 < |a| := abs_pos.2 ha
    have : (1 : ℝ) ≤ 2 * (1 / 2) ^ k := by
      by_contra h
      push Not at h
      nlinarith
    nlinarith

theorem Left.symm {q a b : ℝ} (h : Left q a b) : Left q b a := by
  unfold Left at *
  rw [max_comm, abs_sub_comm]
  exact h

/-- **C73**: with the precision `k`, the difference is at least `1 - 2^(1-k)` of the larger operand: half of it for `k = 2`,
at most one bit is lost. -/
theorem C73_subtraction {f1 f2 : ℝ} {k : ℕ} (h : subtractionPrecision f1 f2 = some k) :
    Left (1 - 2 * (1 / 2) ^ k) f1 f2 := by
  obtain ⟨h1, h2, -, h3⟩ := precision_some h
  rcases le_total (frexp f2) (frexp f1) with h4 | h4
  · exact left_of_lt h1 h2 (by omega)
  · exact (left_of_lt h2 h1 (by omega)).symm

/-- **C73**: the bound is sharp: no larger fraction can be promised. -/
theorem C73_sharp (k : ℕ) (hk : 0 < k) (ε : ℝ) (hε : 0 < ε) :
    ∃ f1 f2, subtractionPrecision f1 f2 = some k ∧ ¬ Left (1 - 2 * (1 / 2) ^ k + ε) f1 f2 := by
  -- 2^(k-1) and a number just below 1
  obtain ⟨δ, hδ, hδ1, hδ2⟩ : ∃ δ : ℝ, 0 < δ ∧ δ < 1 / 2 ∧ δ < ε :=
    ⟨min (1 / 4) (ε / 2), by positivity, (min_le_left _ _).trans_lt (by norm_num), (min_le_right _ _).trans_lt (by linarith)⟩
  obtain ⟨j, rfl⟩ : ∃ j, k = j + 1 := ⟨k - 1, by omega⟩
  have hj : (1 : ℝ) ≤ 2 ^ j := one_le_pow₀ (by norm_num)
  have e1 : frexp (2 ^ j) = j + 1 := by
    refine frexp_unique (by positivity) ?_ ?_
    · rw [abs_of_pos (by positivity)]; simp
    · rw [abs_of_pos (by positivity), ← Nat.cast_succ, zpow_natCast]; exact pow_lt_pow_right₀ (by norm_num) (by omega)
  have e2 : frexp (1 - δ) = 0 := by
    refine frexp_unique (by linarith) ?_ ?_
    · rw [abs_of_pos (by linarith)]; norm_num; linarith
    · rw [abs_of_pos (by linarith)]; norm_num; linarith
  have hne : (2 : ℝ) ^ j ≠ 0 := by positivity
  have hp : ¬ (2 : ℝ) ^ j < 0 := by linarith
  have hd : ¬ (1 - δ) < 0 := by linarith
  refine ⟨2 ^ j, 1 - δ, ?_, ?_⟩
  · unfold subtractionPrecision
    rw [if_neg (by simp [hne, hp, hd]; linarith), e1, e2]
    simp
    omega
  · unfold Left
    rw [abs_of_pos (by positivity : (0 : ℝ) < 2 ^ j), abs_of_pos (by linarith : 0 < 1 - δ), max_eq_left (by linarith),
      abs_of_nonneg (by linarith)]
    have h1 : (2 : ℝ) * (1 / 2) ^ (j + 1) * 2 ^ j = 1 := by
      rw [pow_succ]
      have : ((1 : ℝ) / 2) ^ j * 2 ^ j = 1 := by rw [← mul_pow]; norm_num
      nlinarith [this]
    push Not
    nlinarith

/-- **C73**, the failing half: "a larger difference is always better" is wrong: there is a subtraction of precision 1 that loses
more than one of precision 0. -/
theorem C73_larger_not_better (ε : ℝ) (hε : 0 < ε) :
    ∃ f1 f2 g1 g2, subtractionPrecision f1 f2 = some 1 ∧ subtractionPrecision g1 g2 = some 0 ∧
      ¬ Left ε f1 f2 ∧ Left (1 / 3) g1 g2 := by
  obtain ⟨f1, f2, h1, h2⟩ := C73_sharp 1 (by norm_num) ε hε
  norm_num at h2
  refine ⟨f1, f2, 3 / 2, 1, h1, ?_, h2, ?_⟩
  · have e1 : frexp (3 / 2) = 1 := by
      refine frexp_unique (by norm_num) ?_ ?_ <;> rw [abs_of_pos (by norm_num)] <;> norm_num
    have e2 : frexp 1 = 1 := by
      refine frexp_unique (by norm_num) ?_ ?_ <;> rw [abs_of_pos (by norm_num)] <;> norm_num
    unfold subtractionPrecision
    rw [if_neg (by norm_num), e1, e2]
    simp
  · unfold Left
    norm_num

/-- **C73**: the relative error of a subtraction of inexact operands: with precision `k ≥ 2` relative errors `δ` of the operands
are amplified at most by `2 / (1 - 2^(1-k))`, which is 4 for `k = 2`. -/
theorem C73_error {f1 f2 g1 g2 δ : ℝ} {k : ℕ} (h : subtractionPrecision f1 f2 = some k) (hk : 2 ≤ k)
    (h1 : |g1 - f1| ≤ δ * |f1|) (h2 : |g2 - f2| ≤ δ * |f2|) :
    |(g1 - g2) - (f1 - f2)| ≤ 2 / (1 - 2 * (1 / 2) ^ k) * δ * |f1 - f2| := by
  have hl := C73_subtraction h
  obtain ⟨n1, n2, -, -⟩ := precision_some h
  have hq : (0 : ℝ) < 1 - 2 * (1 / 2) ^ k := by
    have : ((1 : ℝ) / 2) ^ k ≤ (1 / 2) ^ 2 := pow_le_pow_of_le_one (by norm_num) (by norm_num) hk
    norm_num at this ⊢
    linarith
  have hδ : 0 ≤ δ := by
    by_contra hn
    push Not at hn
    have := abs_nonneg (g1 - f1)
    have := abs_pos.2 n1
    nlinarith
  have h3 : |(g1 - g2) - (f1 - f2)| ≤ |g1 - f1| + |g2 - f2| := by
    rw [show (g1 - g2) - (f1 - f2) = (g1 - f1) - (g2 - f2) by ring]
    exact abs_sub _ _
  have h4 : |g1 - f1| + |g2 - f2| ≤ 2 * δ * max |f1| |f2| := by
    have := mul_le_mul_of_nonneg_left (le_max_left |f1| |f2|) hδ
    have := mul_le_mul_of_nonneg_left (le_max_right |f1| |f2|) hδ
    linarith
  have h5 : max |f1| |f2| ≤ |f1 - f2| / (1 - 2 * (1 / 2) ^ k) := by
    rw [le_div_iff₀ hq, mul_comm]
    exact hl
  calc _ ≤ 2 * δ * max |f1| |f2| := h3.trans h4
    _ ≤ 2 * δ * (|f1 - f2| / (1 - 2 * (1 / 2) ^ k)) := mul_le_mul_of_nonneg_left h5 (by linarith)
    _ = _ := by ring

/-- **C73**: addition: the same for `f1 + f2`. -/
theorem C73_addition (f1 f2 : ℝ) :
    (additionPrecision f1 f2 = none ↔ max |f1| |f2| ≤ |f1 + f2|) ∧
      ∀ k, additionPrecision f1 f2 = some k → (1 - 2 * (1 / 2) ^ k) * max |f1| |f2| ≤ |f1 + f2| := by
  refine ⟨?_, fun k h => ?_⟩
  · have := C73_no_subtraction f1 (-f2)
    simpa [Left, additionPrecision] using this
  · have := C73_subtraction h
    simpa [Left] using this

/-- A case: 7 - 1 has precision 2. -/
example : subtractionPrecision 7 1 = some 2 := by
  have e1 : frexp 7 = 3 := by
    refine frexp_unique (by norm_num) ?_ ?_ <;> rw [abs_of_pos (by norm_num)] <;> norm_num
  have e2 : frexp 1 = 1 := by
    refine frexp_unique (by norm_num) ?_ ?_ <;> rw [abs_of_pos (by norm_num)] <;> norm_num
  unfold subtractionPrecision
  rw [if_neg (by norm_num), e1, e2]
  rfl

end Stator.Fp
