import Verif.Poly.OpsProps
import Mathlib.Tactic.LinearCombination
import Mathlib.Tactic.IntervalCases
import Mathlib.RingTheory.Polynomial.Basic

/-!
# The Lin-Bairstow search for a quadratic factor (stator/symbolic/polynomial.hpp:1658-1717)

Exact arithmetic over an ordered field. The inverse of a singular matrix consists of NaN and infinities;
from then on no comparison with the tolerance succeeds, and the search ends with its exception. So a
singular matrix is modelled as that exception.
-/

namespace Stator.Pol

open Polynomial

variable {K : Type} [Field K] [LinearOrder K]

/-- One round: the new guess and the squared length of the change; the inner `none` is a singular
Jacobian. models: polynomial.hpp:1678-1697. -/
def lbStep (inf : K) {n : ℕ} (f : Arr K n) (guess : Arr K 2) : Option (Option (Arr K 2 × K)) := do
  let (p1, rem1) ← divide inf f 2 guess
  let (_, rem2) ← divide inf p1 2 guess
  let s ← rd rem1 0
  let r ← rd rem1 1
  let r0 ← rd rem2 0
  let r1 ← rd rem2 1
  let c ← rd guess 0
  let b ← rd guess 1
  -- the matrix `J`
  let j00 := -r0
  let j01 := c * r1
  let j10 := -r1
  let j11 := b * r1 - r0
  let det := j00 * j11 - j01 * j10
  if det = 0 then some none
  else
    let d0 := (j11 * -s - j01 * -r) / det
    let d1 := (-j10 * -s + j00 * -r) / det
    let guess ← wr guess 0 (c + d0)
    let guess ← wr guess 1 (b + d1)
    some (some (guess, d0 * d0 + d1 * d1))

/-- The loop over the iterations that are left; the inner `none` is the exception
"Iteration count exceeded". models: polynomial.hpp:1677-1703. -/
def lbLoop (inf : K) {n : ℕ} (f : Arr K n) (tol : K) : ℕ → Arr K 2 → Option (Option (Arr K 2))
  | 0, _ => some none
  | k + 1, guess => do
    match ← lbStep inf f guess with
    | none => some none
    | some (guess, len2) =>
      if len2 ≤ tol * tol then some (some guess) else lbLoop inf f tol k guess

/-- The default guess `{0,0,1}`. -/
def lbDefault : Arr K 2 := ![0, 0, 1]

/-- `LinBairstowSolve`; order 2 and below return the polynomial itself, and a zero leading coefficient
reduces the order, without passing on the guess. models: polynomial.hpp:1666-1717. -/
def linBairstow (inf tol : K) : {n : ℕ} → Arr K n → Arr K 2 → Option (Option (Arr K 2))
  | 0, f, _ => (promote 2 f).map some
  | 1, f, _ => (promote 2 f).map some
  | 2, f, _ => (promote 2 f).map some
  | n + 3, f, guess => do
    let lead ← rd f (n + 3)
    if lead = 0 then
      let g ← changeOrder (n + 2) f
      linBairstow inf tol g lbDefault
    else lbLoop inf f tol 20 guess

/-! ## Lemmas -/

omit [LinearOrder K] in
theorem polyOf_one (a : Arr K 1) : polyOf a = C (coef a 0) + C (coef a 1) * X := by
  simp [polyOf, Fin.sum_univ_succ, coef]

omit [LinearOrder K] in
theorem polyOf_two (a : Arr K 2) : polyOf a = C (coef a 0) + C (coef a 1) * X + C (coef a 2) * X ^ 2 := by
  simp [polyOf, Fin.sum_univ_succ, coef]; ring

/-- What one round computes. -/
theorem lbStep_spec (inf : K) {n : ℕ} (hn : 2 ≤ n) (f : Arr K n) (guess : Arr K 2)
    (hg : coef guess 2 = 1) :
    ∃ (P1 P2 : K[X]) (s r r0 r1 : K),
      polyOf f = P1 * polyOf guess + (C s + C r * X) ∧
      P1 = P2 * polyOf guess + (C r0 + C r1 * X) ∧
      (r0 ^ 2 - coef guess 1 * r0 * r1 + coef guess 0 * r1 ^ 2 = 0 → lbStep inf f guess = some none) ∧
      (r0 ^ 2 - coef guess 1 * r0 * r1 + coef guess 0 * r1 ^ 2 ≠ 0 →
        ∃ q d0 d1, lbStep inf f guess = some (some (q, d0 * d0 + d1 * d1)) ∧
          coef q 0 = coef guess 0 + d0 ∧ coef q 1 = coef guess 1 + d1 ∧ coef q 2 = 1 ∧
          s = r0 * d0 - coef guess 0 * r1 * d1 ∧
          r = r1 * d0 - coef guess 1 * r1 * d1 + r0 * d1 ∧
          (s = 0 → r = 0 → d0 = 0 ∧ d1 = 0)) := by
  have hne : polyOf guess ≠ 0 := by
    intro h
    have := polyOf_coeff guess 2
    rw [h, hg] at this; simp at this
  obtain ⟨p1, rem1, e1, h1, -⟩ := divide_spec inf f 2 guess hn hne
  obtain ⟨p2, rem2, e2, h2, -⟩ := divide_spec inf p1 2 guess hn hne
  refine ⟨polyOf p1, polyOf p2, coef rem1 0, coef rem1 1, coef rem2 0, coef rem2 1, ?_, ?_, ?_, ?_⟩
  · rw [h1, polyOf_one]
  · rw [h2, polyOf_one]
  · intro hd
    have hd' : -coef rem2 0 * (coef guess 1 * coef rem2 1 - coef rem2 0)
        - coef guess 0 * coef rem2 1 * -coef rem2 1 = 0 := by linear_combination hd
    simp only [lbStep, e1, e2, rd_coef rem1 (show 0 ≤ 2 - 1 by omega), rd_coef rem1 (show 1 ≤ 2 - 1 by omega),
      rd_coef rem2 (show 0 ≤ 2 - 1 by omega), rd_coef rem2 (show 1 ≤ 2 - 1 by omega),
      rd_coef guess (show 0 ≤ 2 by omega), rd_coef guess (show 1 ≤ 2 by omega), Option.bind_eq_bind,
      Option.bind_some]
    rw [if_pos hd']
  · intro hd
    set r0 := coef rem2 0
    set r1 := coef rem2 1
    set c := coef guess 0
    set b := coef guess 1
    set s := coef rem1 0
    set r := coef rem1 1
    have hd' : -r0 * (b * r1 - r0) - c * r1 * -r1 ≠ 0 := fun h => hd (by linear_combination h)
    obtain ⟨q1, w1, c1⟩ := wr_coef guess (i := 0)
      (c + ((b * r1 - r0) * -s - c * r1 * -r) / (-r0 * (b * r1 - r0) - c * r1 * -r1)) (by omega)
    obtain ⟨q2, w2, c2⟩ := wr_coef q1 (i := 1)
      (b + (- -r1 * -s + -r0 * -r) / (-r0 * (b * r1 - r0) - c * r1 * -r1)) (by omega)
    refine ⟨q2, ((b * r1 - r0) * -s - c * r1 * -r) / (-r0 * (b * r1 - r0) - c * r1 * -r1),
      (- -r1 * -s + -r0 * -r) / (-r0 * (b * r1 - r0) - c * r1 * -r1), ?_, ?_, ?_, ?_, ?_, ?_, ?_⟩
    · simp only [lbStep, e1, e2, rd_coef rem1 (show 0 ≤ 2 - 1 by omega), rd_coef rem1 (show 1 ≤ 2 - 1 by omega),
        rd_coef rem2 (show 0 ≤ 2 - 1 by omega), rd_coef rem2 (show 1 ≤ 2 - 1 by omega),
        rd_coef guess (show 0 ≤ 2 by omega), rd_coef guess (show 1 ≤ 2 by omega), Option.bind_eq_bind,
        Option.bind_some]
      rw [if_neg hd', w1, Option.bind_some, w2, Option.bind_some]
    · rw [c2, c1]; simp
    · rw [c2]; simp
    · rw [c2, c1]; simpa using hg
    · obtain ⟨D, hD⟩ : ∃ D, D = -r0 * (b * r1 - r0) - c * r1 * -r1 := ⟨_, rfl⟩
      rw [← hD] at hd' ⊢
      field_simp
      rw [hD]; ring
    · obtain ⟨D, hD⟩ : ∃ D, D = -r0 * (b * r1 - r0) - c * r1 * -r1 := ⟨_, rfl⟩
      rw [← hD] at hd' ⊢
      field_simp
      rw [hD]; ring
    · rintro h h'; simp [h, h']

theorem lbStep_total (inf : K) {n : ℕ} (hn : 2 ≤ n) (f : Arr K n) (guess : Arr K 2)
    (hg : coef guess 2 = 1) :
    lbStep inf f guess = some none ∨
      ∃ q l, lbStep inf f guess = some (some (q, l)) ∧ coef q 2 = 1 := by
  obtain ⟨P1, P2, s, r, r0, r1, -, -, h0, h1⟩ := lbStep_spec inf hn f guess hg
  by_cases hd : r0 ^ 2 - coef guess 1 * r0 * r1 + coef guess 0 * r1 ^ 2 = 0
  · exact .inl (h0 hd)
  · obtain ⟨q, d0, d1, e, -, -, h2, -⟩ := h1 hd
    exact .inr ⟨q, _, e, h2⟩

/-- Specification: `q` is a monic quadratic which divides `f` up to a remainder that is of second order
in a change `d0 + d1 x` of length at most `tol`. -/
def NearFactor (tol : K) (f : K[X]) (q : K[X]) : Prop :=
  ∃ d0 d1 κ : K, ∃ P : K[X], d0 ^ 2 + d1 ^ 2 ≤ tol ^ 2 ∧
    q ∣ f - (C d0 + C d1 * X) * ((C d0 + C d1 * X) * P + C (κ * d1))

theorem lbLoop_spec (inf : K) {n : ℕ} (hn : 2 ≤ n) (f : Arr K n) (tol : K) (k : ℕ) (guess : Arr K 2)
    (hg : coef guess 2 = 1) :
    ∃ r, lbLoop inf f tol k guess = some r ∧
      ∀ q, r = some q → coef q 2 = 1 ∧ NearFactor tol (polyOf f) (polyOf q) := by
  induction k generalizing guess with
  | zero => exact ⟨none, rfl, by simp⟩
  | succ k ih =>
    obtain ⟨P1, P2, s, r, r0, r1, hf, hp, h0, h1⟩ := lbStep_spec inf hn f guess hg
    by_cases hd : r0 ^ 2 - coef guess 1 * r0 * r1 + coef guess 0 * r1 ^ 2 = 0
    · exact ⟨none, by simp [lbLoop, h0 hd], by simp⟩
    · obtain ⟨q, d0, d1, e, q0, q1, q2, hs, hr, -⟩ := h1 hd
      by_cases ht : d0 * d0 + d1 * d1 ≤ tol * tol
      · refine ⟨some q, by simp [lbLoop, e, ht], ?_⟩
        rintro _ ⟨rfl⟩
        refine ⟨q2, d0, d1, r1, P2, by simpa [sq] using ht, P1 - (C d0 + C d1 * X) * P2 - C (r1 * d1), ?_⟩
        rw [hf, hp, hs, hr, polyOf_two q, polyOf_two guess, q0, q1, q2, hg]
        simp only [map_add, map_mul, map_sub, map_one]
        ring
      · obtain ⟨r, e', hr⟩ := ih q q2
        exact ⟨r, by simp [lbLoop, e, ht, e'], hr⟩

theorem NearFactor.exact {f q : K[X]} (h : NearFactor 0 f q) [IsStrictOrderedRing K] : q ∣ f := by
  obtain ⟨d0, d1, κ, P, h, hd⟩ := h
  have h0 : d0 = 0 := by nlinarith [sq_nonneg d0, sq_nonneg d1]
  have h1 : d1 = 0 := by nlinarith [sq_nonneg d0, sq_nonneg d1]
  simpa [h0, h1] using hd

/-! ## C64 -/

/-- **C64**: `LinBairstowSolve` always ends, with a polynomial or with its exception, and accesses nothing
out of bounds; a polynomial it returns is a factor of `f` up to a remainder of second order in the tolerance. -/
theorem C64_near_factor [IsStrictOrderedRing K] (inf tol : K) {n : ℕ} (f : Arr K n) (guess : Arr K 2) (hg : guess 2 = 1) :
    ∃ r, linBairstow inf tol f guess = some r ∧ ∀ q, r = some q → NearFactor tol (polyOf f) (polyOf q) := by
  have triv : ∀ {m : ℕ} (f : Arr K m), m ≤ 2 → ∃ r, (promote 2 f).map some = some r ∧
      ∀ q, r = some q → NearFactor tol (polyOf f) (polyOf q) := by
    intro m f hm
    obtain ⟨g, e, h⟩ := promote_spec f hm
    refine ⟨some g, by rw [e]; rfl, ?_⟩
    rintro _ ⟨rfl⟩
    refine ⟨0, 0, 0, 0, ?_, by simp [h]⟩
    simp only [ne_eq, OfNat.ofNat_ne_zero, not_false_eq_true, zero_pow, add_zero]
    exact sq_nonneg tol
  induction n generalizing guess with
  | zero => exact triv f (by omega)
  | succ n ih =>
    match n, f, ih with
    | 0, f, _ => exact triv f (by omega)
    | 1, f, _ => exact triv f (by omega)
    | n + 2, f, ih =>
      have hg2 : coef guess 2 = 1 := by rw [← hg]; exact coef_fin guess 2
      rw [linBairstow, rd_coef f (le_refl _)]
      simp only [Option.bind_eq_bind, Option.bind_some]
      split
      · rename_i h0
        obtain ⟨g, e, hc⟩ := changeOrder_poly (n + 2) f (fun i hi => by
          by_cases hi' : i = n + 3
          · rw [hi']; exact h0
          · exact coef_gt f (by omega))
        rw [e, Option.bind_some, ← hc]
        exact ih g lbDefault rfl
      · obtain ⟨r, e, h⟩ := lbLoop_spec inf (by omega) f tol 20 guess hg2
        exact ⟨r, e, fun q hq => (h q hq).2⟩

/-- **C64**: with tolerance zero, whatever is returned divides `f`. -/
theorem C64_exact_factor [IsStrictOrderedRing K] (inf : K) {n : ℕ} (f : Arr K n) (guess q : Arr K 2)
    (hg : guess 2 = 1) (h : linBairstow inf 0 f guess = some (some q)) : polyOf q ∣ polyOf f := by
  obtain ⟨r, e, hr⟩ := C64_near_factor inf 0 f guess hg
  rw [e] at h
  exact (hr q (by simpa using h)).exact

/-- **C64**: started at a factor, it returns this factor if it is coprime to the cofactor, and throws if not
(for instance at a double factor), for every tolerance. -/
theorem C64_start_at_factor (inf tol : K) [IsStrictOrderedRing K] {n : ℕ} (f : Arr K (n + 3))
    (hf : f (Fin.last (n + 3)) ≠ 0) (guess : Arr K 2) (hg : guess 2 = 1) (P : K[X])
    (hP : polyOf f = P * polyOf guess) :
    (IsCoprime P (polyOf guess) → linBairstow inf tol f guess = some (some guess)) ∧
    (¬ IsCoprime P (polyOf guess) → linBairstow inf tol f guess = some none) := by
  have hg2 : coef guess 2 = 1 := by rw [← hg]; exact coef_fin guess 2
  have hf' : coef f (n + 3) ≠ 0 := by
    have := coef_fin f (Fin.last (n + 3)); rw [Fin.val_last] at this; rwa [this]
  have hgp := polyOf_two guess
  rw [hg2, C_1, one_mul] at hgp
  set c := coef guess 0
  set b := coef guess 1
  have hmonic : (polyOf guess).Monic := by
    rw [hgp]
    have : C c + C b * X + X ^ 2 = X ^ 2 + (C b * X + C c) := by ring
    rw [this]
    refine monic_X_pow_add ?_
    exact (degree_linear_le).trans_lt (by norm_num)
  have hdeg : (polyOf guess).degree = 2 := by
    rw [hgp, show C c + C b * X + X ^ 2 = C 1 * X ^ 2 + C b * X + C c by rw [C_1]; ring]
    exact degree_quadratic one_ne_zero
  obtain ⟨P1, P2, s, r, r0, r1, h1, h2, h3, h4⟩ := lbStep_spec inf (by omega) f guess hg2
  have huniq : P1 = P ∧ s = 0 ∧ r = 0 := by
    have e : (P - P1) * polyOf guess = C r * X + C s := by
      linear_combination h1 - hP
    have hz : P - P1 = 0 := by
      by_contra hne
      have hd : ((P - P1) * polyOf guess).degree ≤ 1 := by rw [e]; exact degree_linear_le
      rw [degree_mul, hdeg, degree_eq_natDegree hne] at hd
      have : ((P - P1).natDegree + 2 : ℕ) ≤ (1 : WithBot ℕ) := by exact_mod_cast hd
      have : (P - P1).natDegree + 2 ≤ 1 := by exact_mod_cast this
      omega
    rw [hz, zero_mul] at e
    have e0 := congrArg (fun p => coeff p 0) e
    have e1 := congrArg (fun p => coeff p 1) e
    simp at e0 e1
    exact ⟨(sub_eq_zero.1 hz).symm, e0.symm, e1.symm⟩
  obtain ⟨rfl, rfl, rfl⟩ := huniq
  have hdet : r0 ^ 2 - b * r0 * r1 + c * r1 ^ 2 ≠ 0 ↔ IsCoprime P1 (polyOf guess) := by
    constructor
    · intro hd
      refine ⟨-C (r0 ^ 2 - b * r0 * r1 + c * r1 ^ 2)⁻¹ * (C r1 * X + C (b * r1 - r0)),
        C (r0 ^ 2 - b * r0 * r1 + c * r1 ^ 2)⁻¹ * (C (r1 ^ 2) + P2 * (C r1 * X + C (b * r1 - r0))), ?_⟩
      have : C (r0 ^ 2 - b * r0 * r1 + c * r1 ^ 2)⁻¹ * C (r0 ^ 2 - b * r0 * r1 + c * r1 ^ 2) = 1 := by
        rw [← C_mul, inv_mul_cancel₀ hd, C_1]
      rw [h2, ← this, hgp]
      simp only [map_add, map_mul, map_sub, map_pow]
      ring
    · rintro ⟨A, B, hAB⟩ hd
      by_cases hr1 : r1 = 0
      · have hr0 : r0 = 0 := by rw [hr1] at hd; simpa using hd
        have hu : IsUnit (polyOf guess) := by
          refine isUnit_of_dvd_one ⟨A * P2 + B, ?_⟩
          rw [← hAB, h2, hr0, hr1]; simp; ring
        have := degree_eq_zero_of_isUnit hu
        rw [hdeg] at this; exact absurd this (by norm_num)
      · have hev := congrArg (eval (-r0 / r1)) hAB
        have hz : eval (-r0 / r1) (polyOf guess) = 0 := by
          rw [hgp]; simp only [eval_add, eval_mul, eval_C, eval_X, eval_pow]
          field_simp; linear_combination hd
        have hz1 : eval (-r0 / r1) P1 = 0 := by
          rw [h2]; simp only [eval_add, eval_mul, eval_C, eval_X, hz]
          field_simp; ring
        simp [hz, hz1] at hev
  rw [linBairstow, rd_coef f (le_refl _)]
  simp only [Option.bind_eq_bind, Option.bind_some]
  rw [if_neg hf']
  refine ⟨fun hc => ?_, fun hc => ?_⟩
  · obtain ⟨q, d0, d1, e, q0, q1, q2, -, -, hz⟩ := h4 (hdet.2 hc)
    obtain ⟨rfl, rfl⟩ := hz rfl rfl
    have : q = guess := arr_ext fun i hi => by
      interval_cases i
      · simpa using q0
      · simpa using q1
      · rw [q2, hg2]
    subst this
    have h0 : (0 : K) * 0 + 0 * 0 ≤ tol * tol := by
      have := mul_self_nonneg tol; simpa using this
    rw [lbLoop, e]
    simp only [Option.bind_eq_bind, Option.bind_some]
    rw [if_pos h0]
  · rw [lbLoop, h3 (by by_contra h; exact hc (hdet.1 h))]; rfl

/-- **C64**: with a zero leading coefficient the guess has no effect: the search starts from `x²`. -/
theorem C64_guess_ignored (inf tol : K) {n : ℕ} (f : Arr K (n + 3)) (hf : f (Fin.last (n + 3)) = 0)
    (guess guess' : Arr K 2) : linBairstow inf tol f guess = linBairstow inf tol f guess' := by
  have hf' : coef f (n + 3) = 0 := by
    have := coef_fin f (Fin.last (n + 3)); rw [Fin.val_last] at this; rwa [this]
  rw [linBairstow, linBairstow, rd_coef f (le_refl _)]
  simp only [Option.bind_eq_bind, Option.bind_some]
  rw [if_pos hf', if_pos hf']

/-- **C64**: a given guess is used when the leading coefficient is not zero: `(x²+1)(x-2)` started at
`x²+1` gives `x²+1`. -/
example : linBairstow (0 : ℚ) 0 (![-2, 1, -2, 1] : Arr ℚ 3) ![1, 0, 1] = some (some ![1, 0, 1]) := by
  decide +kernel

/-- A double factor, `(x²+1)²`, started at this factor: the exception. -/
example : linBairstow (0 : ℚ) 1 (![1, 0, 2, 0, 1] : Arr ℚ 4) ![1, 0, 1] = some none := by
  decide +kernel

/-- The hypotheses of `C64_start_at_factor` are met by `(x-2)(x²+1)`. -/
example : linBairstow (0 : ℚ) (1/10) (![-2, 1, -2, 1] : Arr ℚ 3) ![1, 0, 1] = some (some ![1, 0, 1]) := by
  refine (C64_start_at_factor 0 (1/10) ![-2, 1, -2, 1] (by decide +kernel) ![1, 0, 1] rfl (X - C 2) ?_).1 ?_
  · simp [polyOf, Fin.sum_univ_succ]; ring_nf
  · refine ⟨-C (1/5) * (X + C 2), C (1/5), ?_⟩
    rw [polyOf_two]
    have : C (5⁻¹ : ℚ) * C 5 = 1 := by rw [← C_mul]; norm_num
    simp [coef]
    have h2 : (2 : ℚ[X]) = C 2 := rfl
    have h5 : C (5 : ℚ) = 5 := rfl
    rw [h5] at this
    rw [← h2]
    linear_combination this

/-- From the default guess `x²`: the first round does not end the search, the second does. -/
example : linBairstow (0 : ℚ) 0 (![-2, 1, -2, 1] : Arr ℚ 3) lbDefault = some (some ![1, 0, 1]) ∧
    lbLoop (0 : ℚ) (![-2, 1, -2, 1] : Arr ℚ 3) 0 1 lbDefault = some none := by
  decide +kernel

end Stator.Pol
