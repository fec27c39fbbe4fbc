import Verif.Ct.Const
import Mathlib.Analysis.Real.Pi.Bounds
import Mathlib.Analysis.Complex.ExponentialBounds
import Mathlib.Analysis.SpecialFunctions.Trigonometric.Basic

/-!
# Properties of the compile-time constants (C39, C40, C55)
-/

namespace Stator.Ct.C

theorem wrap_toRat_num (a : C) : a.rnum = a.toRat.num ∧ a.rden = a.toRat.den := by
  have h := Rat.divInt_eq_div a.num a.den
  have hq : a.toRat = Rat.divInt a.num a.den := by rw [h]; rfl
  have hd : a.den ≠ 0 := a.ok
  rw [hq, Rat.num_divInt, Rat.den_divInt]
  unfold rnum rden
  rw [if_neg hd, Int.gcd_comm]
  refine ⟨rfl, ?_⟩
  rw [Int.abs_eq_natAbs]
  simp [Int.gcd_comm]

theorem wrap_eq (a : C) : a.wrap = ofRat a.toRat := by
  obtain ⟨h1, h2⟩ := wrap_toRat_num a
  simp only [wrap, ofRat]
  congr

theorem toRat_ofRat (q : ℚ) : (ofRat q).toRat = q := by
  simp [toRat, ofRat, Rat.num_div_den]

theorem rnum_div_rden (a : C) : (a.rnum : ℚ) / (a.rden : ℚ) = a.toRat := by
  obtain ⟨h1, h2⟩ := wrap_toRat_num a
  rw [h1, h2]; exact_mod_cast Rat.num_div_den a.toRat

theorem rdenQ (a : C) : (a.rden : ℚ) ≠ 0 := by exact_mod_cast a.rden_ne

theorem rnum_eq_zero (a : C) : a.rnum = 0 ↔ a.toRat = 0 := by
  rw [(wrap_toRat_num a).1, Rat.num_eq_zero]

/-- **C39.** The arithmetic of constants is that of the rational numbers, and the result of a binary
operation is in lowest terms; only a division by zero is rejected. -/
theorem C39_arithmetic (a b : C) :
    a.add b = ofRat (a.toRat + b.toRat) ∧ a.sub b = ofRat (a.toRat - b.toRat) ∧
    a.mul b = ofRat (a.toRat * b.toRat) ∧
    a.div b = (if b.toRat = 0 then none else some (ofRat (a.toRat / b.toRat))) := by
  have ha := rdenQ a
  have hb := rdenQ b
  refine ⟨?_, ?_, ?_, ?_⟩
  · rw [add, wrap_eq]; congr 1; rw [← rnum_div_rden a, ← rnum_div_rden b]
    simp only [toRat]; push_cast; field_simp
  · rw [sub, wrap_eq]; congr 1; rw [← rnum_div_rden a, ← rnum_div_rden b]
    simp only [toRat]; push_cast; field_simp
  · rw [mul, wrap_eq]; congr 1; rw [← rnum_div_rden a, ← rnum_div_rden b]
    simp only [toRat]; push_cast; field_simp
  · unfold div
    by_cases h : b.rnum = 0
    · rw [dif_pos h, if_pos ((rnum_eq_zero b).1 h)]
    · have h' : (b.rnum : ℚ) ≠ 0 := by exact_mod_cast h
      rw [dif_neg h, if_neg (fun e => h ((rnum_eq_zero b).2 e)), wrap_eq]
      congr 2; rw [← rnum_div_rden a, ← rnum_div_rden b]
      simp only [toRat]; push_cast; field_simp

/-- A result in lowest terms stands for the number it was computed from. -/
theorem C39_value (q : ℚ) : (ofRat q).toRat = q ∧ (ofRat q).num.gcd (ofRat q).den = 1 ∧
    0 < (ofRat q).den := by
  refine ⟨toRat_ofRat q, ?_, ?_⟩
  · have := q.reduced; simpa [ofRat, Int.gcd] using this
  · simpa [ofRat] using q.den_pos

/-- **C39.** `==` is equality of the rational numbers. -/
theorem C39_equality (a b : C) : a.eq b = true ↔ a.toRat = b.toRat := by
  obtain ⟨h1, h2⟩ := wrap_toRat_num a
  obtain ⟨h3, h4⟩ := wrap_toRat_num b
  simp only [eq, Bool.and_eq_true, beq_iff_eq, h1, h2, h3, h4]
  constructor
  · rintro ⟨hn, hd⟩
    exact Rat.ext hn (by exact_mod_cast hd)
  · intro h; rw [h]; simp

/-- **C39.** Negation and absolute value. -/
theorem C39_neg_abs (a : C) : a.neg.toRat = -a.toRat ∧ a.abs.toRat = |a.toRat| := by
  constructor
  · simp [neg, toRat, neg_div]
  · unfold abs toRat
    rw [abs_div]
    by_cases h1 : a.num < 0 <;> by_cases h2 : a.den < 0 <;>
      simp only [h1, h2, if_true, if_false] <;> push_cast <;>
      [rw [abs_of_neg (by exact_mod_cast h1), abs_of_neg (by exact_mod_cast h2)];
       rw [abs_of_neg (by exact_mod_cast h1), abs_of_nonneg (by exact_mod_cast not_lt.1 h2)];
       rw [abs_of_nonneg (by exact_mod_cast not_lt.1 h1), abs_of_neg (by exact_mod_cast h2)];
       rw [abs_of_nonneg (by exact_mod_cast not_lt.1 h1), abs_of_nonneg (by exact_mod_cast not_lt.1 h2)]]
      <;> ring

theorem rnum_ofInt (n : ℤ) : (ofInt n).rnum = n ∧ (ofInt n).rden = 1 := by
  simp [rnum, rden, ofInt]

theorem toRat_ofInt (n : ℤ) : (ofInt n).toRat = n := by simp [ofInt, toRat]

theorem factorial_eq (i : ℕ) : factorial i = ofInt (Nat.factorial i : ℤ) := by
  fun_induction factorial i with
  | case1 => rfl
  | case2 => rfl
  | case3 i ih => rw [ih, (rnum_ofInt _).1, Nat.factorial_succ (i + 1)]; push_cast; rfl

/-- **C39.** The factorials and inverse factorials. -/
theorem C39_factorial (i : ℕ) : (factorial i).toRat = (Nat.factorial i : ℚ) ∧
    ∃ c, invFactorial i = some c ∧ c.toRat = 1 / (Nat.factorial i : ℚ) := by
  have h0 : ((Nat.factorial i : ℕ) : ℤ) ≠ 0 := by exact_mod_cast Nat.factorial_ne_zero i
  constructor
  · rw [factorial_eq, toRat_ofInt]; simp
  · unfold invFactorial
    rw [factorial_eq]
    simp only [(rnum_ofInt _).1, (rnum_ofInt _).2, h0, dif_neg, not_false_eq_true]
    exact ⟨_, rfl, by simp [toRat]⟩

/-- **C39.** `toArithmetic` of a constant with an integer value is that integer. -/
theorem C39_toArithmetic (a : C) : (∀ n, a.toInt = some n → a.toRat = n) ∧
    (a.toInt = none → ¬ ∃ n : ℤ, a.toRat = n) := by
  have hd : (a.den : ℚ) ≠ 0 := by exact_mod_cast a.ok
  unfold toInt toRat
  constructor
  · intro n h
    split at h
    · rename_i hm
      have : a.num = a.den * n := by
        have := Int.tmod_add_mul_tdiv a.num a.den
        rw [hm] at this
        simp only [Option.some.injEq] at h
        rw [← h]; omega
      rw [this]; push_cast; field_simp
    · simp at h
  · intro h
    split at h
    · simp at h
    · rename_i hm
      rintro ⟨n, hn⟩
      rw [div_eq_iff hd] at hn
      have : a.num = n * a.den := by exact_mod_cast hn
      exact hm (by rw [this, Int.mul_tmod_left])

/-- `1/3 + 1/6 = 1/2`, in lowest terms; `2/4` and `1/2` compare equal; `5! = 120`. -/
example : (⟨1, 3, by decide⟩ : C).add ⟨1, 6, by decide⟩ = ⟨1, 2, by decide⟩ ∧
    (⟨2, 4, by decide⟩ : C).eq ⟨-1, -2, by decide⟩ = true ∧ factorial 5 = ofInt 120 := by decide

/-! ## Sine and cosine -/

theorem toRat_pi : pi.toRat = 47627751 / 15160384 := by
  rw [pi, wrap_eq, toRat_ofRat]; simp [toRat]

theorem toRat_halfPi : halfPi.toRat = pi.toRat / 2 := by
  rw [halfPi, wrap_eq, toRat_ofRat, ← rnum_div_rden pi]
  simp only [toRat]; push_cast; ring

theorem pi_pos : 0 < pi.toRat := by rw [toRat_pi]; norm_num

theorem isWholeFactor_iff (a f o : C) (hf : f.toRat ≠ 0) :
    isWholeFactor a f o = true ↔ ∃ k : ℤ, a.toRat = o.toRat + k * f.toRat := by
  unfold isWholeFactor
  rw [(C39_arithmetic _ _).2.2.2, if_neg hf]
  simp only [beq_iff_eq]
  rw [(C39_arithmetic a o).2.1, toRat_ofRat, (wrap_toRat_num _).2, toRat_ofRat]
  constructor
  · intro h
    have h1 : ((a.toRat - o.toRat) / f.toRat).den = 1 := by exact_mod_cast h
    refine ⟨((a.toRat - o.toRat) / f.toRat).num, ?_⟩
    have h2 : (((a.toRat - o.toRat) / f.toRat).num : ℚ) = (a.toRat - o.toRat) / f.toRat :=
      Rat.den_eq_one_iff _ |>.1 h1
    rw [h2]; field_simp; ring
  · rintro ⟨k, hk⟩
    have : (a.toRat - o.toRat) / f.toRat = k := by rw [hk]; field_simp; ring
    rw [this]; simp

/-- Exactly one of the two overloads can apply. -/
theorem whole_half (q : ℚ) (h1 : ∃ k : ℤ, q = k) (h2 : ∃ k : ℤ, q = 1 / 2 + k) : False := by
  obtain ⟨k, rfl⟩ := h1
  obtain ⟨l, hl⟩ := h2
  have : (2 * k : ℚ) = 1 + 2 * l := by rw [hl]; ring
  have : 2 * k = 1 + 2 * l := by exact_mod_cast this
  omega

/-- What `sin` and `cos` of the constant `q π` (with the rational approximation of `π`) are: `q` must
be an integer or an integer plus one half, anything else does not compile. -/
theorem C40_result (a : C) (q : ℚ) (h : a.toRat = q * pi.toRat) (r : C) :
    (a.sin = some r ↔ ((∃ k : ℤ, q = k) ∧ r = null) ∨ ((∃ k : ℤ, q = 1 / 2 + k) ∧ r = unity)) ∧
    (a.cos = some r ↔ ((∃ k : ℤ, q = k) ∧ r = unity) ∨ ((∃ k : ℤ, q = 1 / 2 + k) ∧ r = null)) := by
  have hp := pi_pos.ne'
  have e1 : isWholeFactor a pi null = true ↔ ∃ k : ℤ, q = k := by
    rw [isWholeFactor_iff _ _ _ hp, h]
    refine exists_congr fun k => ?_
    rw [null, toRat_ofInt, Int.cast_zero, zero_add, mul_left_inj' hp]
  have e2 : isWholeFactor a pi halfPi = true ↔ ∃ k : ℤ, q = 1 / 2 + k := by
    rw [isWholeFactor_iff _ _ _ hp, h, toRat_halfPi]
    refine exists_congr fun k => ?_
    rw [show pi.toRat / 2 + k * pi.toRat = (1 / 2 + k) * pi.toRat by ring, mul_left_inj' hp]
  have e3 := whole_half q
  unfold sin cos
  by_cases h1 : isWholeFactor a pi null = true
  · have h1' := e1.1 h1
    have h2' : ¬ ∃ k : ℤ, q = 1 / 2 + k := fun h => e3 h1' h
    rw [if_pos h1, if_pos h1]
    simp only [h1', h2', true_and, false_and, or_false, Option.some.injEq]
    exact ⟨eq_comm, eq_comm⟩
  · have h1' : ¬ ∃ k : ℤ, q = k := fun h => h1 (e1.2 h)
    rw [if_neg h1, if_neg h1]
    by_cases h2 : isWholeFactor a pi halfPi = true
    · have h2' := e2.1 h2
      rw [if_pos h2, if_pos h2]
      simp only [h1', h2', true_and, false_and, false_or, Option.some.injEq]
      exact ⟨eq_comm, eq_comm⟩
    · have h2' : ¬ ∃ k : ℤ, q = 1 / 2 + k := fun h => h2 (e2.2 h)
      rw [if_neg h2, if_neg h2]
      simp only [h1', h2', false_and, or_false, reduceCtorEq, and_self]

theorem sin_half (k : ℤ) : Real.sin ((1 / 2 + k) * Real.pi) = if Even k then 1 else -1 := by
  rw [show (1 / 2 + (k : ℝ)) * Real.pi = k * Real.pi + Real.pi / 2 by ring, Real.sin_add_pi_div_two]
  split
  · rename_i h; obtain ⟨m, rfl⟩ := h
    rw [show ((m + m : ℤ) : ℝ) * Real.pi = m * (2 * Real.pi) by push_cast; ring,
      Real.cos_int_mul_two_pi]
  · rename_i h; obtain ⟨m, rfl⟩ := Int.not_even_iff_odd.1 h
    rw [show ((2 * m + 1 : ℤ) : ℝ) * Real.pi = Real.pi + m * (2 * Real.pi) by push_cast; ring,
      Real.cos_add_int_mul_two_pi, Real.cos_pi]

theorem cos_whole (k : ℤ) : Real.cos (k * Real.pi) = if Even k then 1 else -1 := by
  rw [← sin_half k, show (1 / 2 + (k : ℝ)) * Real.pi = k * Real.pi + Real.pi / 2 by ring,
    Real.sin_add_pi_div_two]

theorem cos_half (k : ℤ) : Real.cos ((1 / 2 + k) * Real.pi) = 0 := by
  rw [show (1 / 2 + (k : ℝ)) * Real.pi = k * Real.pi + Real.pi / 2 by ring, Real.cos_add_pi_div_two,
    Real.sin_int_mul_pi, neg_zero]

/-- **C40.** For a compile-time multiple `q π` of `π` for which `sin` compiles, its value is the sine
of `q π`, except when `q` is an odd integer plus one half (`3π/2`, `-π/2`, …): there the code says `1`
and the sine is `-1`. -/
theorem C40_sin (a : C) (q : ℚ) (h : a.toRat = q * pi.toRat) (r : C) (hr : a.sin = some r) :
    ((r.toRat : ℝ) = Real.sin (q * Real.pi) ↔ ¬ ∃ k : ℤ, Odd k ∧ q = 1 / 2 + k) ∧
    ((∃ k : ℤ, Odd k ∧ q = 1 / 2 + k) → r.toRat = 1 ∧ Real.sin (q * Real.pi) = -1) := by
  rcases ((C40_result a q h r).1.1 hr) with ⟨⟨k, hk⟩, rfl⟩ | ⟨⟨k, hk⟩, rfl⟩
  · have hn : ¬ ∃ k : ℤ, Odd k ∧ q = 1 / 2 + k := by
      rintro ⟨l, _, hl⟩; exact whole_half q ⟨k, hk⟩ ⟨l, hl⟩
    refine ⟨⟨fun _ => hn, fun _ => ?_⟩, fun h => absurd h hn⟩
    rw [null, toRat_ofInt, hk]
    push_cast
    rw [Real.sin_int_mul_pi]
  · have hu : (unity.toRat) = 1 := by rw [unity, toRat_ofInt]; rfl
    have hodd : (∃ k : ℤ, Odd k ∧ q = 1 / 2 + k) ↔ Odd k := by
      constructor
      · rintro ⟨l, hl, h'⟩
        have : (l : ℚ) = k := by linarith
        rwa [show l = k by exact_mod_cast this] at hl
      · exact fun h => ⟨k, h, hk⟩
    have hs : Real.sin (q * Real.pi) = if Even k then 1 else -1 := by
      rw [← sin_half, hk]; push_cast; rfl
    rw [hodd, hs, hu]
    by_cases he : Even k
    · simp [he]
    · have : Odd k := Int.not_even_iff_odd.1 he
      simp only [he, this, if_false, not_true, iff_false]
      exact ⟨by norm_num, fun _ => ⟨trivial, trivial⟩⟩

/-- **C40.** For a compile-time multiple `q π` of `π` for which `cos` compiles, its value is the cosine
of `q π`, except when `q` is an odd integer (`π`, `-π`, `3π`, …): there the code says `1` and the cosine
is `-1`. -/
theorem C40_cos (a : C) (q : ℚ) (h : a.toRat = q * pi.toRat) (r : C) (hr : a.cos = some r) :
    ((r.toRat : ℝ) = Real.cos (q * Real.pi) ↔ ¬ ∃ k : ℤ, Odd k ∧ q = k) ∧
    ((∃ k : ℤ, Odd k ∧ q = k) → r.toRat = 1 ∧ Real.cos (q * Real.pi) = -1) := by
  have hu : (unity.toRat) = 1 := by rw [unity, toRat_ofInt]; rfl
  rcases ((C40_result a q h r).2.1 hr) with ⟨⟨k, hk⟩, rfl⟩ | ⟨⟨k, hk⟩, rfl⟩
  · have hodd : (∃ k : ℤ, Odd k ∧ q = k) ↔ Odd k := by
      constructor
      · rintro ⟨l, hl, h'⟩
        have : (l : ℚ) = k := by linarith
        rwa [show l = k by exact_mod_cast this] at hl
      · exact fun h => ⟨k, h, hk⟩
    have hs : Real.cos (q * Real.pi) = if Even k then 1 else -1 := by
      rw [← cos_whole, hk]; push_cast; rfl
    rw [hodd, hs, hu]
    by_cases he : Even k
    · simp [he]
    · have : Odd k := Int.not_even_iff_odd.1 he
      simp only [he, this, if_false, not_true, iff_false]
      exact ⟨by norm_num, fun _ => ⟨trivial, trivial⟩⟩
  · have hn : ¬ ∃ k : ℤ, Odd k ∧ q = k := by
      rintro ⟨l, _, hl⟩; exact whole_half q ⟨l, hl⟩ ⟨k, hk⟩
    refine ⟨⟨fun _ => hn, fun _ => ?_⟩, fun h => absurd h hn⟩
    rw [null, toRat_ofInt, hk]
    push_cast
    rw [cos_half]

/-- `cos(π)` compiles, and is `1`. -/
example : pi.cos = some unity ∧ pi.sin = some null ∧ halfPi.sin = some unity ∧ halfPi.cos = some null ∧
    (pi.add halfPi).sin = some unity ∧ unity.sin = none := by decide +kernel

/-- **C55.** How good the compile-time values of `π` and `e` are. (The remainders in the documentation,
`1.5987…e-14` for `π` and `+8.88…e-16` for `e`, are not these.) -/
theorem C55_accuracy :
    (1.609e-14 : ℝ) < Real.pi - (pi.toRat : ℝ) ∧ Real.pi - (pi.toRat : ℝ) < 1.610e-14 ∧
    (-6.17e-16 : ℝ) < Real.exp 1 - (e.toRat : ℝ) ∧ Real.exp 1 - (e.toRat : ℝ) < -6.16e-16 := by
  have he : e.toRat = 28245729 / 10391023 := by rw [e, wrap_eq, toRat_ofRat]; simp [toRat]
  rw [toRat_pi, he]
  push_cast
  have h1 := Real.pi_gt_d20
  have h2 := Real.pi_lt_d20
  have h3 := Real.exp_one_near_20
  rw [abs_le] at h3
  obtain ⟨h3, h4⟩ := h3
  norm_num at h1 h2 h3 h4 ⊢
  refine ⟨?_, ?_, ?_, ?_⟩ <;> linarith

end Stator.Ct.C
