import Mathlib.Data.Real.Archimedean
import Mathlib.Data.Int.Log
import Mathlib.Algebra.Order.Round
import Mathlib.Algebra.Order.Archimedean.Real.Basic
import Mathlib.Data.Set.Finite.Lattice
import Mathlib.Order.Interval.Finset.Defs
import Mathlib.Data.Int.Interval
import Mathlib.Order.Interval.Set.Infinite
import Mathlib.Tactic.Linarith
import Mathlib.Tactic.Ring
import Mathlib.Tactic.NormNum
import Mathlib.Tactic.Positivity
import Mathlib.Tactic.FieldSimp

/-!
# Specification: rounded arithmetic

What IEEE 754 says about the finite values of a binary floating-point type: every operation gives the exact result
rounded to a nearest representable number (any rule for ties). Gradual underflow is included. Overflow, infinities and
NaN are not: the exponents are unbounded above. The sign of a zero is not represented.
-/

namespace Stator.Fp

/-- A set of representable numbers and a rounding to nearest. `u` bounds the relative error, `η` the absolute error where
the results are subnormal. -/
structure Format where
  /-- the representable numbers -/
  F : Set ℝ
  /-- rounding -/
  rnd : ℝ → ℝ
  /-- unit roundoff -/
  u : ℝ
  /-- half the smallest positive number -/
  η : ℝ
  mem : ∀ x, rnd x ∈ F
  nearest : ∀ x, ∀ y ∈ F, |rnd x - x| ≤ |y - x|
  one : (1 : ℝ) ∈ F
  neg : ∀ x ∈ F, -x ∈ F
  dbl : ∀ x ∈ F, 2 * x ∈ F
  half : ∀ a ∈ F, ∀ b ∈ F, rnd (a + b) / 2 ∈ F ∨ rnd (a + b) = a + b
  finite : ∀ a b : ℝ, (F ∩ Set.Icc a b).Finite
  u_nonneg : 0 ≤ u
  η_nonneg : 0 ≤ η
  err : ∀ x, |rnd x - x| ≤ u * |x| ∨ |rnd x - x| ≤ η

namespace Format

variable (φ : Format)

theorem rnd_of_mem {x : ℝ} (h : x ∈ φ.F) : φ.rnd x = x := by
  have h1 := φ.nearest x x h
  rw [sub_self, abs_zero] at h1
  have := abs_nonpos_iff.1 h1
  linarith

theorem rnd_rnd (x : ℝ) : φ.rnd (φ.rnd x) = φ.rnd x := φ.rnd_of_mem (φ.mem x)

theorem mono : Monotone φ.rnd := by
  intro x y hxy
  rcases hxy.eq_or_lt with rfl | hlt
  · exact le_rfl
  · by_contra h
    push Not at h
    have h1 := φ.nearest x (φ.rnd y) (φ.mem y)
    have h2 := φ.nearest y (φ.rnd x) (φ.mem x)
    rcases abs_cases (φ.rnd x - x) with ⟨e1, _⟩ | ⟨e1, _⟩ <;>
    rcases abs_cases (φ.rnd y - x) with ⟨e2, _⟩ | ⟨e2, _⟩ <;>
    rcases abs_cases (φ.rnd y - y) with ⟨e3, _⟩ | ⟨e3, _⟩ <;>
    rcases abs_cases (φ.rnd x - y) with ⟨e4, _⟩ | ⟨e4, _⟩ <;>
    rw [e1, e2] at h1 <;> rw [e3, e4] at h2 <;> linarith

theorem zero : (0 : ℝ) ∈ φ.F := by
  rcases φ.half 1 φ.one (-1) (φ.neg 1 φ.one) with h | h
  · have h0 := φ.mem (1 + -1)
    rw [show (1 : ℝ) + -1 = 0 by norm_num] at h h0
    -- `r / 2` is representable, and nearest to 0 is at least as near as `r / 2`
    have h1 := φ.nearest 0 _ h
    rw [sub_zero, sub_zero, abs_div, abs_of_pos (by norm_num : (0 : ℝ) < 2)] at h1
    have : |φ.rnd 0| ≤ 0 := by linarith
    have h2 := abs_nonpos_iff.1 this
    rw [h2] at h0
    exact h0
  · have h0 := φ.mem (1 + -1)
    rw [h] at h0
    norm_num at h0
    exact h0

theorem two : (2 : ℝ) ∈ φ.F := by
  have := φ.dbl 1 φ.one
  norm_num at this
  exact this

/-- The error of one operation. -/
theorem error (x : ℝ) : |φ.rnd x - x| ≤ φ.u * |x| + φ.η := by
  rcases φ.err x with h | h
  · linarith [φ.η_nonneg]
  · linarith [mul_nonneg φ.u_nonneg (abs_nonneg x)]

end Format

/-! ## Binary formats exist

`bin p emin` has the numbers `m * 2^e` with `|m| < 2^p` and `e ≥ emin`; `double` is `bin 53 (-1074)`, except that its
exponents are bounded above. -/

/-- The representable numbers. -/
def binF (p : ℕ) (emin : ℤ) : Set ℝ := {x | ∃ m e : ℤ, emin ≤ e ∧ |m| < 2 ^ p ∧ x = m * (2 : ℝ) ^ e}

/-- The exponent of the last place at `x`. -/
noncomputable def ulpExp (p : ℕ) (emin : ℤ) (x : ℝ) : ℤ := max emin (Int.log 2 |x| + 1 - p)

/-- Rounding to nearest. -/
noncomputable def binRnd (p : ℕ) (emin : ℤ) (x : ℝ) : ℝ :=
  round (x / (2 : ℝ) ^ ulpExp p emin x) * (2 : ℝ) ^ ulpExp p emin x

theorem two_zpow_pos (e : ℤ) : (0 : ℝ) < 2 ^ e := zpow_pos (by norm_num) e

theorem binF_multiple {p : ℕ} {emin : ℤ} {x : ℝ} (h : x ∈ binF p emin) : ∃ k : ℤ, x = k * (2 : ℝ) ^ emin := by
  obtain ⟨m, e, he, -, rfl⟩ := h
  refine ⟨m * 2 ^ (e - emin).toNat, ?_⟩
  push_cast
  rw [mul_assoc, ← zpow_natCast, ← zpow_add₀ (by norm_num)]
  congr 2
  omega

/-- Integers up to `2^p` at an allowed exponent are representable. -/
theorem binF_of_le {p : ℕ} (hp : 0 < p) {emin : ℤ} {m e : ℤ} (he : emin ≤ e) (hm : |m| ≤ 2 ^ p) :
    (m : ℝ) * 2 ^ e ∈ binF p emin := by
  rcases hm.eq_or_lt with h | h
  · obtain ⟨q, rfl⟩ : ∃ q, p = q + 1 := ⟨p - 1, by omega⟩
    rcases abs_choice m with h' | h'
    · refine ⟨2 ^ q, e + 1, by omega, ?_, ?_⟩
      · rw [abs_of_pos (by positivity)]; exact pow_lt_pow_right₀ (by norm_num) (by omega)
      · rw [show m = 2 ^ (q + 1) by rw [← h, h'], zpow_add₀ (by norm_num)]; push_cast; ring
    · refine ⟨-2 ^ q, e + 1, by omega, ?_, ?_⟩
      · rw [abs_neg, abs_of_pos (by positivity)]; exact pow_lt_pow_right₀ (by norm_num) (by omega)
      · rw [show m = -2 ^ (q + 1) by rw [← h, h', neg_neg], zpow_add₀ (by norm_num)]; push_cast; ring
  · exact ⟨m, e, he, h, rfl⟩

theorem abs_lt_ulp (p : ℕ) (emin : ℤ) (x : ℝ) : |x| < 2 ^ p * (2 : ℝ) ^ ulpExp p emin x := by
  have h1 := Int.lt_zpow_succ_log_self (b := 2) (by norm_num) |x|
  refine lt_of_lt_of_le h1 ?_
  rw [← zpow_natCast (2 : ℝ) p, ← zpow_add₀ (by norm_num)]
  push_cast
  refine zpow_le_zpow_right₀ (by norm_num) ?_
  unfold ulpExp
  have := le_max_right emin (Int.log 2 |x| + 1 - p)
  omega

theorem binRnd_mem {p : ℕ} (hp : 0 < p) (emin : ℤ) (x : ℝ) : binRnd p emin x ∈ binF p emin := by
  refine binF_of_le hp (le_max_left _ _) ?_
  have h1 := abs_lt_ulp p emin x
  have hpos := two_zpow_pos (ulpExp p emin x)
  have h2 : |x / (2 : ℝ) ^ ulpExp p emin x| < 2 ^ p := by
    rw [abs_div, abs_of_pos hpos, div_lt_iff₀ hpos]; exact h1
  have h3 := round_le (x / (2 : ℝ) ^ ulpExp p emin x) (2 ^ p)
  have h4 := round_le (x / (2 : ℝ) ^ ulpExp p emin x) (-2 ^ p)
  rw [abs_lt] at h2
  push_cast at h3 h4
  have h5 : |((round (x / (2 : ℝ) ^ ulpExp p emin x) : ℤ) : ℝ)| ≤ 2 ^ p := by
    rw [abs_le]
    rw [abs_of_neg (show x / (2 : ℝ) ^ ulpExp p emin x - 2 ^ p < 0 by linarith)] at h3
    rw [abs_of_pos (show 0 < x / (2 : ℝ) ^ ulpExp p emin x - -2 ^ p by linarith)] at h4
    rw [abs_le] at h3 h4
    constructor <;> linarith
  exact_mod_cast h5

theorem binRnd_nearest {p : ℕ} (hp : 0 < p) (emin : ℤ) (x y : ℝ) (hy : y ∈ binF p emin) :
    |binRnd p emin x - x| ≤ |y - x| := by
  have hpos := two_zpow_pos (ulpExp p emin x)
  -- against multiples of the last place
  have key : ∀ k : ℤ, |binRnd p emin x - x| ≤ |k * (2 : ℝ) ^ ulpExp p emin x - x| := by
    intro k
    have h := round_le (x / (2 : ℝ) ^ ulpExp p emin x) k
    have e1 : binRnd p emin x - x =
        -((x / (2 : ℝ) ^ ulpExp p emin x - round (x / (2 : ℝ) ^ ulpExp p emin x)) * 2 ^ ulpExp p emin x) := by
      unfold binRnd; rw [sub_mul, div_mul_cancel₀ _ hpos.ne']; ring
    have e2 : k * (2 : ℝ) ^ ulpExp p emin x - x =
        -((x / (2 : ℝ) ^ ulpExp p emin x - k) * 2 ^ ulpExp p emin x) := by
      rw [sub_mul, div_mul_cancel₀ _ hpos.ne']; ring
    rw [e1, e2, abs_neg, abs_neg, abs_mul, abs_mul]
    exact mul_le_mul_of_nonneg_right h (abs_nonneg _)
  obtain ⟨m, e, he, hm, rfl⟩ := hy
  by_cases hle : ulpExp p emin x ≤ e
  · have := key (m * 2 ^ (e - ulpExp p emin x).toNat)
    push_cast at this
    rw [mul_assoc, ← zpow_natCast, ← zpow_add₀ (by norm_num),
      show ((e - ulpExp p emin x).toNat : ℤ) + ulpExp p emin x = e by omega] at this
    exact this
  · push Not at hle
    -- `x` is normal and `y` is below the binade of `x`
    have hE : ulpExp p emin x = Int.log 2 |x| + 1 - p := by
      rcases max_choice emin (Int.log 2 |x| + 1 - p) with h | h
      · exfalso; unfold ulpExp at hle; omega
      · exact h
    by_cases hx : x = 0
    · subst hx
      have hz : binRnd p emin 0 = 0 := by simp [binRnd]
      rw [hz, sub_zero, abs_zero]
      exact abs_nonneg _
    have hlog := Int.zpow_log_le_self (b := 2) (by norm_num) (abs_pos.2 hx)
    push_cast at hlog
    have hy : |(m : ℝ) * 2 ^ e| < 2 ^ Int.log 2 |x| := by
      rw [abs_mul, abs_of_pos (two_zpow_pos e)]
      have h1 : |(m : ℝ)| < 2 ^ p := by exact_mod_cast hm
      have h2 : (2 : ℝ) ^ p * 2 ^ e ≤ 2 ^ Int.log 2 |x| := by
        rw [← zpow_natCast (2 : ℝ) p, ← zpow_add₀ (by norm_num)]
        exact zpow_le_zpow_right₀ (by norm_num) (by omega)
      exact lt_of_lt_of_le (mul_lt_mul_of_pos_right h1 (two_zpow_pos e)) h2
    obtain ⟨q, rfl⟩ : ∃ q, p = q + 1 := ⟨p - 1, by omega⟩
    have hb : (2 : ℝ) ^ q * 2 ^ ulpExp (q + 1) emin x = 2 ^ Int.log 2 |x| := by
      rw [← zpow_natCast (2 : ℝ) q, ← zpow_add₀ (by norm_num)]
      congr 1
      rw [hE]; push_cast; ring
    generalize (2 : ℝ) ^ Int.log 2 |x| = L at *
    rw [abs_lt] at hy
    rcases lt_or_gt_of_ne hx with hneg | hpos'
    · rw [abs_of_neg hneg] at hlog
      have := key (-2 ^ q)
      push_cast at this
      rw [neg_mul, hb, abs_of_nonneg (a := -L - x) (by linarith)] at this
      rw [abs_of_nonneg (a := (m : ℝ) * 2 ^ e - x) (by linarith [hy.1])]
      linarith [hy.1]
    · rw [abs_of_pos hpos'] at hlog
      have := key (2 ^ q)
      push_cast at this
      rw [hb, abs_of_nonpos (a := L - x) (by linarith)] at this
      rw [abs_of_nonpos (a := (m : ℝ) * 2 ^ e - x) (by linarith [hy.2])]
      linarith [hy.2]

theorem binRnd_err {p : ℕ} (emin : ℤ) (x : ℝ) :
    |binRnd p emin x - x| ≤ (2 : ℝ) ^ (-(p : ℤ)) * |x| ∨ |binRnd p emin x - x| ≤ 2 ^ (emin - 1) := by
  have hpos := two_zpow_pos (ulpExp p emin x)
  have h : |binRnd p emin x - x| ≤ 2 ^ (ulpExp p emin x - 1) := by
    have h0 := abs_sub_round (x / (2 : ℝ) ^ ulpExp p emin x)
    have e1 : binRnd p emin x - x =
        -((x / (2 : ℝ) ^ ulpExp p emin x - round (x / (2 : ℝ) ^ ulpExp p emin x)) * 2 ^ ulpExp p emin x) := by
      unfold binRnd; rw [sub_mul, div_mul_cancel₀ _ hpos.ne']; ring
    rw [e1, abs_neg, abs_mul, abs_of_pos hpos, zpow_sub₀ (by norm_num), zpow_one]
    have := mul_le_mul_of_nonneg_right h0 hpos.le
    linarith
  rcases max_choice emin (Int.log 2 |x| + 1 - p) with hE | hE
  · right; rw [ulpExp, hE] at h; exact h
  · left
    rw [ulpExp, hE] at h
    by_cases hx : x = 0
    · subst hx; simp [binRnd]
    · have hlog := Int.zpow_log_le_self (b := 2) (by norm_num) (abs_pos.2 hx)
      push_cast at hlog
      refine h.trans ?_
      rw [show Int.log 2 |x| + 1 - (p : ℤ) - 1 = -(p : ℤ) + Int.log 2 |x| by ring, zpow_add₀ (by norm_num)]
      exact mul_le_mul_of_nonneg_left hlog (two_zpow_pos _).le

/-- The binary format with `p` bits and last place at least `2^emin`. -/
noncomputable def bin (p : ℕ) (emin : ℤ) (hp : 0 < p) (he : emin ≤ 0) : Format where
  F := binF p emin
  rnd := binRnd p emin
  u := (2 : ℝ) ^ (-(p : ℤ))
  η := (2 : ℝ) ^ (emin - 1)
  mem := binRnd_mem hp emin
  nearest := fun x y hy => binRnd_nearest hp emin x y hy
  one := ⟨1, 0, he, by rw [abs_one]; exact one_lt_pow₀ (by norm_num) (by omega), by simp⟩
  neg := by
    rintro _ ⟨m, e, h1, h2, rfl⟩
    exact ⟨-m, e, h1, by rwa [abs_neg], by push_cast; ring⟩
  dbl := by
    rintro _ ⟨m, e, h1, h2, rfl⟩
    exact ⟨m, e + 1, by omega, h2, by rw [zpow_add₀ (by norm_num)]; ring⟩
  half := by
    intro a ha b hb
    obtain ⟨m, e, h1, h2, h3⟩ := binRnd_mem hp emin (a + b)
    by_cases hlt : emin < e
    · left
      refine ⟨m, e - 1, by omega, h2, ?_⟩
      rw [h3, zpow_sub₀ (by norm_num)]; ring
    · right
      have hee : e = emin := by omega
      subst hee
      obtain ⟨j, rfl⟩ := binF_multiple ha
      obtain ⟨k, rfl⟩ := binF_multiple hb
      have hpos := two_zpow_pos e
      -- the sum is at most `2^p` last places
      have hsum : |j + k| ≤ 2 ^ p := by
        by_contra hc
        push Not at hc
        have hB : ((2 : ℝ) ^ p * 2 ^ e) ∈ binF p e := by
          have := binF_of_le hp (emin := e) (m := 2 ^ p) (e := e) le_rfl (by rw [abs_of_pos (by positivity)])
          push_cast at this; exact this
        have hB' : (-(2 : ℝ) ^ p * 2 ^ e) ∈ binF p e := by
          have := binF_of_le hp (emin := e) (m := -2 ^ p) (e := e) le_rfl (by rw [abs_neg, abs_of_pos (by positivity)])
          push_cast at this; exact this
        have n1 := binRnd_nearest hp e (j * 2 ^ e + k * 2 ^ e) _ hB
        have n2 := binRnd_nearest hp e (j * 2 ^ e + k * 2 ^ e) _ hB'
        rw [h3] at n1 n2
        have hm : |(m : ℝ)| < 2 ^ p := by exact_mod_cast h2
        rw [show (m : ℝ) * 2 ^ e - (j * 2 ^ e + k * 2 ^ e) = (m - (j + k)) * 2 ^ e by ring,
          abs_mul, abs_of_pos hpos] at n1 n2
        rw [show (2 : ℝ) ^ p * 2 ^ e - (j * 2 ^ e + k * 2 ^ e) = (2 ^ p - (j + k)) * 2 ^ e by ring,
          abs_mul, abs_of_pos hpos] at n1
        rw [show -(2 : ℝ) ^ p * 2 ^ e - (j * 2 ^ e + k * 2 ^ e) = (-2 ^ p - (j + k)) * 2 ^ e by ring,
          abs_mul, abs_of_pos hpos] at n2
        have n1 := le_of_mul_le_mul_right n1 hpos
        have n2 := le_of_mul_le_mul_right n2 hpos
        rw [abs_lt] at hm
        have hc' : (2 : ℝ) ^ p < |(j : ℝ) + k| := by exact_mod_cast hc
        rcases lt_abs.1 hc' with hc' | hc'
        · rw [abs_of_neg (by linarith), abs_of_neg (by linarith)] at n1; linarith
        · rw [abs_of_pos (by linarith), abs_of_pos (by linarith)] at n2; linarith
      have hmem : ((j : ℝ) * 2 ^ e + k * 2 ^ e) ∈ binF p e := by
        have := binF_of_le hp (emin := e) (e := e) le_rfl hsum
        push_cast at this
        rwa [add_mul] at this
      have := binRnd_nearest hp e (j * 2 ^ e + k * 2 ^ e) _ hmem
      rw [sub_self, abs_zero] at this
      have := abs_nonpos_iff.1 this
      linarith
  finite := by
    intro a b
    have hpos := two_zpow_pos emin
    refine ((Set.finite_Icc ⌊a / 2 ^ emin⌋ ⌈b / 2 ^ emin⌉).image fun k : ℤ => (k : ℝ) * 2 ^ emin).subset ?_
    rintro x ⟨hx, h1, h2⟩
    obtain ⟨k, rfl⟩ := binF_multiple hx
    refine ⟨k, ⟨?_, ?_⟩, rfl⟩
    · have : (⌊a / (2 : ℝ) ^ emin⌋ : ℝ) ≤ k := (Int.floor_le _).trans ((div_le_iff₀ hpos).2 h1)
      exact_mod_cast this
    · have : (k : ℝ) ≤ (⌈b / (2 : ℝ) ^ emin⌉ : ℝ) := ((le_div_iff₀ hpos).2 h2).trans (Int.le_ceil _)
      exact_mod_cast this
  u_nonneg := (two_zpow_pos _).le
  η_nonneg := (two_zpow_pos _).le
  err := binRnd_err emin

/-- `double`, apart from overflow. -/
noncomputable def binary64 : Format := bin 53 (-1074) (by norm_num) (by norm_num)

end Stator.Fp
