import Verif.Fp.Horner
import Verif.Poly.QuadraticProps
import Mathlib.Tactic.LinearCombination

/-!
# The quadratic solver in rounded arithmetic

`solve_real_roots` of a polynomial of order 2 with `double` coefficients: how far the computed values are from the roots.
-/

namespace Stator.Fp

open Stator.Pol

/-- models: stator/symbolic/polynomial.hpp:768-774 order 1 with rounding. -/
noncomputable def solve1R (rnd : ℝ → ℝ) (f : Arr ℝ 1) : List ℝ := if f 1 ≠ 0 then [rnd (-f 0 / f 1)] else []

/-- models: stator/symbolic/simplify.hpp:404-414 quotient by a polynomial of order 0, with rounding. -/
noncomputable def divConstR (rnd : ℝ → ℝ) {m : ℕ} (f : Arr ℝ m) (g : Arr ℝ 0) : Option (Arr ℝ m) :=
  forUp (fun i r => do
    let ri ← rd r i
    let a ← rd f i
    let b ← rd g 0
    wr r i (rnd (ri + rnd (a / b)))) 0 (m + 1) (zeros m)

/-- models: stator/symbolic/polynomial.hpp:783-823 order 2; `rnd` is applied to the result of every `double` operation (changes of
sign, `min`, `max` and `copysign` are exact). (No fused multiply-add.) -/
noncomputable def solve2R (rnd : ℝ → ℝ) (maxSqrt : ℝ) (f : Arr ℝ 2) : Option (List ℝ) :=
  if f 2 = 0 then do
    let g ← changeOrder 1 f
    some (solve1R rnd g)
  else do
    let g ← divConstR rnd f (fun _ => f 2 : Arr ℝ 0)
    let f0 ← rd g 0
    let f1 ← rd g 1
    if f0 = 0 then some [min (-f1) 0, max (-f1) 0]
    else if |f1| > maxSqrt then
      let a := -f1
      let b := rnd (-f0 / f1)
      some (if a > b then [b, a] else [a, b])
    else
      let arg := rnd (rnd (f1 * f1) - rnd (4 * f0))
      if arg < 0 then some []
      else if arg = 0 then some [rnd (-f1 * (1 / 2))]
      else
        let root1 := rnd (-(rnd (f1 + copysign (rnd (Real.sqrt arg)) f1)) * (1 / 2))
        let root2 := rnd (f0 / root1)
        some (if root1 > root2 then [root2, root1] else [root1, root2])

/-- With exact arithmetic this is the model of `Verif/Poly/Roots.lean`. -/
theorem solve2R_id (maxSqrt : ℝ) (f : Arr ℝ 2) : solve2R id maxSqrt f = solve2 maxSqrt f := rfl

/-! ## Specification -/

/-- What is needed for underflow to do no harm with `x² + P x + Q`: the square of the linear coefficient, the constant and their
quotient are far enough above the subnormal numbers (for `double`: above `2^-1020`). -/
structure Clear (φ : Format) (P Q : ℝ) : Prop where
  lin : P = 0 ∨ 4 * φ.η ≤ φ.u * P ^ 2
  const : 4 * φ.η ≤ φ.u * |Q|
  quot : 4 * φ.η ≤ φ.u * (|Q| / (|P| + Real.sqrt |Q|))

/-! ## Single operations -/

theorem Format.rel (φ : Format) {x : ℝ} (h : φ.η ≤ φ.u * |x|) : ∃ δ, |δ| ≤ φ.u ∧ φ.rnd x = x * (1 + δ) := by
  by_cases hx : x = 0
  · refine ⟨0, by rw [abs_zero]; exact φ.u_nonneg, ?_⟩
    subst hx; rw [φ.rnd_of_mem φ.zero]; ring
  · have he : |φ.rnd x - x| ≤ φ.u * |x| := by rcases φ.err x with h' | h' <;> linarith
    refine ⟨(φ.rnd x - x) / x, ?_, by field_simp; ring⟩
    rw [abs_div, div_le_iff₀ (abs_pos.2 hx)]; exact he

section Bin

variable {p : ℕ} {emin : ℤ} {hp : 0 < p} {he : emin ≤ 0}

/-- Sums do not underflow. -/
theorem bin_sum {a b : ℝ} (ha : a ∈ (bin p emin hp he).F) (hb : b ∈ (bin p emin hp he).F) :
    ∃ δ, |δ| ≤ (bin p emin hp he).u ∧ (bin p emin hp he).rnd (a + b) = (a + b) * (1 + δ) := by
  set φ := bin p emin hp he with hφ
  obtain ⟨j, hj⟩ := binF_multiple (p := p) (emin := emin) ha
  obtain ⟨k, hk⟩ := binF_multiple (p := p) (emin := emin) hb
  have hpos := two_zpow_pos emin
  have hsum : a + b = ((j + k : ℤ) : ℝ) * 2 ^ emin := by rw [hj, hk]; push_cast; ring
  by_cases h : |j + k| ≤ 2 ^ p
  · have hm : a + b ∈ φ.F := by
      rw [hsum]; exact binF_of_le hp le_rfl h
    exact ⟨0, by rw [abs_zero]; exact φ.u_nonneg, by rw [φ.rnd_of_mem hm]; ring⟩
  · push Not at h
    refine φ.rel ?_
    have h' : (2 : ℝ) ^ p ≤ |((j + k : ℤ) : ℝ)| := by exact_mod_cast h.le
    rw [hsum, abs_mul, abs_of_pos hpos]
    show (2 : ℝ) ^ (emin - 1) ≤ 2 ^ (-(p : ℤ)) * _
    have e1 : (2 : ℝ) ^ (-(p : ℤ)) * 2 ^ p = 1 := by
      rw [← zpow_natCast (2 : ℝ) p, ← zpow_add₀ (by norm_num)]; simp
    have e2 : (2 : ℝ) ^ (emin - 1) = 2 ^ emin / 2 := by rw [zpow_sub₀ (by norm_num)]; simp
    have h3 := mul_le_mul_of_nonneg_left h' (two_zpow_pos (-(p : ℤ))).le
    rw [e1] at h3
    have h4 := mul_le_mul_of_nonneg_right h3 hpos.le
    rw [e2, ← mul_assoc]
    linarith

/-- Halving is exact above the subnormal numbers. -/
theorem bin_half {y : ℝ} (hy : y ∈ (bin p emin hp he).F) (h : 2 * (bin p emin hp he).η ≤ (bin p emin hp he).u * |y|) :
    (bin p emin hp he).rnd (y * (1 / 2)) = y * (1 / 2) := by
  refine Format.rnd_of_mem _ ?_
  obtain ⟨m, e, h1, h2, rfl⟩ := hy
  change 2 * (2 : ℝ) ^ (emin - 1) ≤ 2 ^ (-(p : ℤ)) * _ at h
  by_cases hlt : emin < e
  · exact ⟨m, e - 1, by omega, h2, by rw [zpow_sub₀ (by norm_num)]; ring⟩
  · exfalso
    have : e = emin := by omega
    subst this
    have hpos := two_zpow_pos e
    have e2 : (2 : ℝ) ^ (e - 1) = 2 ^ e / 2 := by rw [zpow_sub₀ (by norm_num)]; simp
    have e1 : (2 : ℝ) ^ (-(p : ℤ)) * 2 ^ p = 1 := by
      rw [← zpow_natCast (2 : ℝ) p, ← zpow_add₀ (by norm_num)]; simp
    have h2' : |(m : ℝ)| < 2 ^ p := by exact_mod_cast h2
    rw [abs_mul, abs_of_pos hpos, e2, ← mul_assoc] at h
    have h3 := mul_lt_mul_of_pos_left h2' (two_zpow_pos (-(p : ℤ)))
    rw [e1] at h3
    have := mul_lt_mul_of_pos_right h3 hpos
    linarith

end Bin

/-- What the proofs use of a binary format. -/
structure Format.Good (φ : Format) : Prop where
  u_le : φ.u ≤ 1 / 64
  η_pos : 0 < φ.η
  η_le : φ.η ≤ 2 * φ.u ^ 2
  sum : ∀ a ∈ φ.F, ∀ b ∈ φ.F, ∃ δ, |δ| ≤ φ.u ∧ φ.rnd (a + b) = (a + b) * (1 + δ)
  halve : ∀ y ∈ φ.F, 2 * φ.η ≤ φ.u * |y| → φ.rnd (y * (1 / 2)) = y * (1 / 2)
  least : ∀ y ∈ φ.F, 0 < y → 2 * φ.η ≤ y

theorem bin_good {p : ℕ} {emin : ℤ} (hp : 6 ≤ p) (he : emin ≤ 2 - 2 * p) :
    (bin p emin (by omega) (by omega)).Good where
  u_le := by
    show (2 : ℝ) ^ (-(p : ℤ)) ≤ 1 / 64
    calc (2 : ℝ) ^ (-(p : ℤ)) ≤ 2 ^ (-6 : ℤ) := zpow_le_zpow_right₀ (by norm_num) (by omega)
      _ = 1 / 64 := by norm_num
  η_pos := two_zpow_pos _
  η_le := by
    show (2 : ℝ) ^ (emin - 1) ≤ 2 * (2 ^ (-(p : ℤ))) ^ 2
    rw [← zpow_natCast ((2 : ℝ) ^ (-(p : ℤ))) 2, ← zpow_mul]
    calc (2 : ℝ) ^ (emin - 1) ≤ 2 ^ (1 + -(p : ℤ) * ((2 : ℕ) : ℤ)) := zpow_le_zpow_right₀ (by norm_num) (by push_cast; omega)
      _ = _ := by rw [zpow_add₀ (by norm_num), zpow_one]
  sum := fun a ha b hb => bin_sum ha hb
  halve := fun y hy h => bin_half hy h
  least := by
    intro y hy h
    obtain ⟨k, rfl⟩ := binF_multiple (p := p) (emin := emin) hy
    have hpos := two_zpow_pos emin
    have hk : 0 < k := by
      have : (0 : ℝ) < k := by
        by_contra hc
        push Not at hc
        exact absurd h (not_lt.2 (mul_nonpos_of_nonpos_of_nonneg hc hpos.le))
      exact_mod_cast this
    have hk' : (1 : ℝ) ≤ k := by exact_mod_cast hk
    show 2 * (2 : ℝ) ^ (emin - 1) ≤ _
    rw [show (2 : ℝ) ^ (emin - 1) = 2 ^ emin / 2 by rw [zpow_sub₀ (by norm_num)]; simp]
    nlinarith

/-! ## One run of the solver -/

section Run

variable {φ : Format}

theorem Format.Good.root (hφ : φ.Good) {X : ℝ} (hX : 0 ≤ X) (h : 4 * φ.η ≤ φ.u * X) : 3 * φ.η ≤ φ.u * Real.sqrt X := by
  have h1 := hφ.u_le
  have h2 := hφ.η_le
  have h3 := hφ.η_pos
  have h0 := φ.u_nonneg
  refine abs_le_of_sq_le_sq' ?_ (mul_nonneg h0 (Real.sqrt_nonneg X)) |>.2
  rw [mul_pow φ.u, Real.sq_sqrt hX]
  nlinarith [mul_le_mul_of_nonneg_left h h0, mul_le_mul_of_nonneg_left h2 h3.le, mul_nonneg h3.le h0]

theorem Format.Good.u_pos (hφ : φ.Good) : 0 < φ.u := by
  have h2 := hφ.η_le
  have h3 := hφ.η_pos
  rcases φ.u_nonneg.lt_or_eq with h | h
  · exact h
  · rw [← h] at h2; norm_num at h2; linarith

theorem Clear.Q_ne {P Q : ℝ} (hφ : φ.Good) (h : Clear φ P Q) : Q ≠ 0 := by
  rintro rfl
  have := h.const
  rw [abs_zero, mul_zero] at this
  linarith [hφ.η_pos]

/-- The coefficients and the argument of the square root. -/
theorem steps_arg {P Q : ℝ} (hφ : φ.Good) (h : Clear φ P Q) :
    ∃ d1 d2 d3 d4, |d1| ≤ φ.u ∧ |d2| ≤ φ.u ∧ |d3| ≤ φ.u ∧ |d4| ≤ φ.u ∧ φ.rnd P = P * (1 + d1) ∧ φ.rnd Q = Q * (1 + d2) ∧
      φ.rnd (φ.rnd P * φ.rnd P) = φ.rnd P * φ.rnd P * (1 + d3) ∧ φ.rnd (4 * φ.rnd Q) = 4 * φ.rnd Q ∧
      φ.rnd (φ.rnd (φ.rnd P * φ.rnd P) - φ.rnd (4 * φ.rnd Q)) =
        (φ.rnd P * φ.rnd P * (1 + d3) - 4 * φ.rnd Q) * (1 + d4) := by
  have hu := hφ.u_le
  have hu0 := hφ.u_pos
  have hη := hφ.η_pos
  have hP : P = 0 ∨ 3 * φ.η ≤ φ.u * |P| := by
    rcases h.lin with h1 | h1
    · exact .inl h1
    · right
      have := hφ.root (sq_nonneg P) h1
      rwa [Real.sqrt_sq_eq_abs] at this
  obtain ⟨d1, b1, e1⟩ : ∃ δ, |δ| ≤ φ.u ∧ φ.rnd P = P * (1 + δ) := by
    rcases hP with rfl | h1
    · exact ⟨0, by rw [abs_zero]; exact hu0.le, by rw [φ.rnd_of_mem φ.zero]; ring⟩
    · exact φ.rel (by linarith)
  obtain ⟨d2, b2, e2⟩ := φ.rel (x := Q) (by linarith [h.const])
  obtain ⟨d3, b3, e3⟩ : ∃ δ, |δ| ≤ φ.u ∧ φ.rnd (φ.rnd P * φ.rnd P) = φ.rnd P * φ.rnd P * (1 + δ) := by
    rcases h.lin with rfl | h1
    · exact ⟨0, by rw [abs_zero]; exact hu0.le, by rw [φ.rnd_of_mem φ.zero, mul_zero, φ.rnd_of_mem φ.zero]; ring⟩
    · refine φ.rel ?_
      rw [abs_of_nonneg (mul_self_nonneg _), e1]
      have hd : (1 / 4 : ℝ) ≤ (1 + d1) ^ 2 := by
        have := (abs_le.1 b1).1
        nlinarith
      have : φ.u * P ^ 2 * (1 / 4) ≤ φ.u * P ^ 2 * (1 + d1) ^ 2 :=
        mul_le_mul_of_nonneg_left hd (mul_nonneg hu0.le (sq_nonneg P))
      nlinarith
  have hq4 : 4 * φ.rnd Q ∈ φ.F := by
    have := φ.dbl _ (φ.dbl _ (φ.mem Q))
    rwa [← mul_assoc, show (2 : ℝ) * 2 = 4 by norm_num] at this
  have e4 := φ.rnd_of_mem hq4
  obtain ⟨d4, b4, e5⟩ := hφ.sum _ (φ.mem (φ.rnd P * φ.rnd P)) _ (φ.neg _ hq4)
  refine ⟨d1, d2, d3, d4, b1, b2, b3, b4, e1, e2, e3, e4, ?_⟩
  rw [e4, sub_eq_add_neg, e5, e3]
  ring

/-- A factor `1 + δ`. -/
theorem factor {u d : ℝ} (hu : u ≤ 1 / 64) (h : |d| ≤ u) : 1 - u ≤ 1 + d ∧ 1 + d ≤ 1 + u ∧ 0 < 1 - u ∧ 0 < 1 + d ∧ 0 ≤ u := by
  have := abs_le.1 h
  refine ⟨by linarith, by linarith, by linarith, by linarith, ?_⟩
  exact (abs_nonneg d).trans h

/-- The argument of the square root is not much larger than its exact value with the sign of the constant ignored. -/
theorem arg_le {u P Q d1 d2 d3 d4 : ℝ} (hu : u ≤ 1 / 64) (b1 : |d1| ≤ u) (b2 : |d2| ≤ u) (b3 : |d3| ≤ u) (b4 : |d4| ≤ u) :
    (P * (1 + d1) * (P * (1 + d1)) * (1 + d3) - 4 * (Q * (1 + d2))) * (1 + d4) ≤ ((1 + u) ^ 2) ^ 2 * (P ^ 2 + 4 * |Q|) := by
  obtain ⟨l1, r1, hp, p1, u0⟩ := factor hu b1
  obtain ⟨l2, r2, -, p2, -⟩ := factor hu b2
  obtain ⟨l3, r3, -, p3, -⟩ := factor hu b3
  obtain ⟨l4, r4, -, p4, -⟩ := factor hu b4
  have hP := sq_nonneg P
  have hQ := abs_nonneg Q
  have a1 : (1 + d1) ^ 2 * (1 + d3) ≤ (1 + u) ^ 3 := by
    calc (1 + d1) ^ 2 * (1 + d3) ≤ (1 + u) ^ 2 * (1 + u) := by gcongr
      _ = _ := by ring
  have a2 : P * (1 + d1) * (P * (1 + d1)) * (1 + d3) ≤ (1 + u) ^ 3 * P ^ 2 := by
    have := mul_le_mul_of_nonneg_left a1 hP
    nlinarith
  have a3 : -(4 * (Q * (1 + d2))) ≤ (1 + u) ^ 3 * (4 * |Q|) := by
    have h1 : -Q * (1 + d2) ≤ |Q| * (1 + u) := by
      have := mul_le_mul_of_nonneg_right (neg_le_abs Q) p2.le
      have := mul_le_mul_of_nonneg_left r2 hQ
      linarith
    have h2 : (1 + u) ≤ (1 + u) ^ 3 := by nlinarith [mul_nonneg u0 u0, mul_nonneg u0 (mul_nonneg u0 u0)]
    have := mul_le_mul_of_nonneg_left h2 hQ
    linarith
  have a4 : P * (1 + d1) * (P * (1 + d1)) * (1 + d3) - 4 * (Q * (1 + d2)) ≤ (1 + u) ^ 3 * (P ^ 2 + 4 * |Q|) := by linarith
  have a5 : 0 ≤ (1 + u) ^ 3 * (P ^ 2 + 4 * |Q|) := by positivity
  calc _ ≤ (1 + u) ^ 3 * (P ^ 2 + 4 * |Q|) * (1 + d4) := mul_le_mul_of_nonneg_right a4 p4.le
    _ ≤ (1 + u) ^ 3 * (P ^ 2 + 4 * |Q|) * (1 + u) := mul_le_mul_of_nonneg_left r4 a5
    _ = _ := by ring

theorem sqrt_scale {t X : ℝ} (ht : 0 ≤ t) : Real.sqrt (t ^ 2 * X) = t * Real.sqrt X := by
  rw [Real.sqrt_mul (sq_nonneg t), Real.sqrt_sq ht]

theorem sqrt_sum_le (P Q : ℝ) : Real.sqrt (P ^ 2 + 4 * |Q|) ≤ |P| + 2 * Real.sqrt |Q| := by
  have hs := Real.sqrt_nonneg |Q|
  refine Real.sqrt_le_iff.2 ⟨by positivity, ?_⟩
  nlinarith [Real.sq_sqrt (abs_nonneg Q), sq_abs P, mul_nonneg (abs_nonneg P) hs]

set_option maxHeartbeats 1000000 in
/-- Both roots. -/
theorem steps_roots {P Q : ℝ} (hφ : φ.Good) (h : Clear φ P Q)
    (hpos : 0 < φ.rnd (φ.rnd (φ.rnd P * φ.rnd P) - φ.rnd (4 * φ.rnd Q))) :
    let arg := φ.rnd (φ.rnd (φ.rnd P * φ.rnd P) - φ.rnd (4 * φ.rnd Q))
    let root1 := φ.rnd (-(φ.rnd (φ.rnd P + copysign (φ.rnd (Real.sqrt arg)) (φ.rnd P))) * (1 / 2))
    ∃ d5 d6 d7 σ, |d5| ≤ φ.u ∧ |d6| ≤ φ.u ∧ |d7| ≤ φ.u ∧ (σ = 1 ∨ σ = -1) ∧ P = σ * |P| ∧ root1 ≠ 0 ∧
      root1 = -σ * ((|φ.rnd P| + Real.sqrt arg * (1 + d5)) * (1 + d6) / 2) ∧
      φ.rnd (φ.rnd Q / root1) = φ.rnd Q / root1 * (1 + d7) := by
  intro arg root1
  obtain ⟨d1, d2, d3, d4, b1, b2, b3, b4, e1, e2, e3, e4, e5⟩ := steps_arg hφ h
  have hu := hφ.u_le
  have hu0 := hφ.u_pos
  have hη := hφ.η_pos
  obtain ⟨l1, r1, up, p1, -⟩ := factor hu b1
  obtain ⟨l2, r2, -, p2, -⟩ := factor hu b2
  obtain ⟨l3, r3, -, p3, -⟩ := factor hu b3
  obtain ⟨l4, r4, -, p4, -⟩ := factor hu b4
  have harg : arg = (φ.rnd P * φ.rnd P * (1 + d3) - 4 * φ.rnd Q) * (1 + d4) := e5
  have hargpos : 0 < arg := hpos
  have hs0 := Real.sqrt_nonneg arg
  -- the square root does not underflow
  obtain ⟨d5, b5, e6⟩ : ∃ δ, |δ| ≤ φ.u ∧ φ.rnd (Real.sqrt arg) = Real.sqrt arg * (1 + δ) := by
    refine φ.rel ?_
    rw [abs_of_nonneg hs0]
    have hl := hφ.least _ (φ.mem _) hargpos
    refine abs_le_of_sq_le_sq' ?_ (mul_nonneg hu0.le hs0) |>.2
    rw [mul_pow, Real.sq_sqrt hargpos.le]
    have h1 : φ.η * φ.η ≤ φ.η * (2 * φ.u ^ 2) := mul_le_mul_of_nonneg_left hφ.η_le hη.le
    have h2 : φ.u ^ 2 * (2 * φ.η) ≤ φ.u ^ 2 * arg := mul_le_mul_of_nonneg_left hl (sq_nonneg _)
    nlinarith
  obtain ⟨l5, r5, -, p5, -⟩ := factor hu b5
  have hsq0 : 0 ≤ φ.rnd (Real.sqrt arg) := by rw [e6]; exact mul_nonneg hs0 p5.le
  -- the sign
  obtain ⟨σ, hσ, hPσ, hpσ, hcs⟩ : ∃ σ : ℝ, (σ = 1 ∨ σ = -1) ∧ P = σ * |P| ∧ φ.rnd P = σ * |φ.rnd P| ∧
      copysign (φ.rnd (Real.sqrt arg)) (φ.rnd P) = σ * φ.rnd (Real.sqrt arg) := by
    by_cases hneg : φ.rnd P < 0
    · refine ⟨-1, .inr rfl, ?_, ?_, ?_⟩
      · have : P ≤ 0 := by
          by_contra hc
          push Not at hc
          rw [e1] at hneg
          exact absurd hneg (not_lt.2 (mul_nonneg hc.le p1.le))
        rw [abs_of_nonpos this]; ring
      · rw [abs_of_neg hneg]; ring
      · unfold copysign; rw [if_pos hneg, abs_of_nonneg hsq0]; ring
    · refine ⟨1, .inl rfl, ?_, ?_, ?_⟩
      · have : 0 ≤ P := by
          by_contra hc
          push Not at hc
          rw [e1] at hneg
          exact hneg (mul_neg_of_neg_of_pos hc p1)
        rw [abs_of_nonneg this]; ring
      · rw [abs_of_nonneg (not_lt.1 hneg)]; ring
      · unfold copysign; rw [if_neg hneg, abs_of_nonneg hsq0]; ring
  have hσσ : |σ| = 1 := by rcases hσ with rfl | rfl <;> simp
  -- the sum
  have hmem : copysign (φ.rnd (Real.sqrt arg)) (φ.rnd P) ∈ φ.F := by
    unfold copysign
    rw [abs_of_nonneg hsq0]
    split
    · exact φ.neg _ (φ.mem _)
    · exact φ.mem _
  obtain ⟨d6, b6, e7⟩ := hφ.sum _ (φ.mem P) _ hmem
  obtain ⟨l6, r6, -, p6, -⟩ := factor hu b6
  have hy : φ.rnd (φ.rnd P + copysign (φ.rnd (Real.sqrt arg)) (φ.rnd P)) =
      σ * ((|φ.rnd P| + Real.sqrt arg * (1 + d5)) * (1 + d6)) := by
    rw [e7, hcs, e6]
    nth_rw 1 [hpσ]
    ring
  have hB0 : 0 ≤ (|φ.rnd P| + Real.sqrt arg * (1 + d5)) * (1 + d6) :=
    mul_nonneg (add_nonneg (abs_nonneg _) (mul_nonneg hs0 p5.le)) p6.le
  have hyabs : |φ.rnd (φ.rnd P + copysign (φ.rnd (Real.sqrt arg)) (φ.rnd P))| =
      (|φ.rnd P| + Real.sqrt arg * (1 + d5)) * (1 + d6) := by
    rw [hy, abs_mul, hσσ, one_mul, abs_of_nonneg hB0]
  have habsP : |φ.rnd P| = |P| * (1 + d1) := by rw [e1, abs_mul, abs_of_pos p1]
  -- it is well above the subnormal numbers
  have hlow : 2 * φ.η ≤ φ.u * ((|φ.rnd P| + Real.sqrt arg * (1 + d5)) * (1 + d6)) := by
    obtain ⟨X, hX0, hX1, hX2⟩ : ∃ X, 0 ≤ X ∧ 3 * φ.η ≤ φ.u * X ∧ X * (1 - φ.u) ≤ |φ.rnd P| + Real.sqrt arg * (1 + d5) := by
      rcases lt_or_gt_of_ne (h.Q_ne hφ) with hQ | hQ
      · refine ⟨Real.sqrt |Q|, Real.sqrt_nonneg _, hφ.root (abs_nonneg Q) h.const, ?_⟩
        have h1 : |Q| ≤ arg := by
          rw [harg, e2, abs_of_neg hQ]
          have h2 : 0 ≤ φ.rnd P * φ.rnd P * (1 + d3) := mul_nonneg (mul_self_nonneg _) p3.le
          have h3 : -Q * (1 - φ.u) ≤ -Q * (1 + d2) := mul_le_mul_of_nonneg_left l2 (by linarith)
          have h4 : -Q * (63 / 64) * 4 ≤ φ.rnd P * φ.rnd P * (1 + d3) - 4 * (Q * (1 + d2)) := by nlinarith
          have h5 : 0 ≤ -Q * (63 / 64) * 4 := by linarith
          calc -Q ≤ -Q * (63 / 64) * 4 * (63 / 64) := by nlinarith
            _ ≤ -Q * (63 / 64) * 4 * (1 + d4) := mul_le_mul_of_nonneg_left (by linarith) h5
            _ ≤ _ := mul_le_mul_of_nonneg_right h4 p4.le
        have h2 := Real.sqrt_le_sqrt h1
        have h3 : Real.sqrt |Q| * (1 - φ.u) ≤ Real.sqrt arg * (1 + d5) := mul_le_mul h2 l5 up.le hs0
        linarith [abs_nonneg (φ.rnd P)]
      · have hP0 : P ≠ 0 := by
          intro h0
          rw [harg, e1, e2, h0] at hargpos
          have : (0 * (1 + d1) * (0 * (1 + d1)) * (1 + d3) - 4 * (Q * (1 + d2))) * (1 + d4) < 0 := by
            refine mul_neg_of_neg_of_pos ?_ p4
            have := mul_pos hQ p2
            linarith
          linarith
        refine ⟨|P|, abs_nonneg P, ?_, ?_⟩
        · have := hφ.root (sq_nonneg P) (h.lin.resolve_left hP0)
          rwa [Real.sqrt_sq_eq_abs] at this
        · rw [habsP]
          have := mul_le_mul_of_nonneg_left l1 (abs_nonneg P)
          linarith [mul_nonneg hs0 p5.le]
    have h1 : X * (1 - φ.u) * (1 - φ.u) ≤ (|φ.rnd P| + Real.sqrt arg * (1 + d5)) * (1 + d6) :=
      mul_le_mul hX2 l6 up.le (add_nonneg (abs_nonneg _) (mul_nonneg hs0 p5.le))
    have h2 : X * (2 / 3) ≤ X * (1 - φ.u) * (1 - φ.u) := by
      rw [mul_assoc]; refine mul_le_mul_of_nonneg_left ?_ hX0
      nlinarith
    have h3 := mul_le_mul_of_nonneg_left (h2.trans h1) hu0.le
    linarith
  have hr1 : root1 = -σ * ((|φ.rnd P| + Real.sqrt arg * (1 + d5)) * (1 + d6) / 2) := by
    show φ.rnd (-(φ.rnd (φ.rnd P + copysign (φ.rnd (Real.sqrt arg)) (φ.rnd P))) * (1 / 2)) = _
    rw [hφ.halve _ (φ.neg _ (φ.mem _)) (by rw [abs_neg, hyabs]; exact hlow), hy]
    ring
  have hBpos : 0 < (|φ.rnd P| + Real.sqrt arg * (1 + d5)) * (1 + d6) := by
    by_contra hc
    push Not at hc
    have := mul_nonpos_of_nonneg_of_nonpos hu0.le hc
    linarith
  have hr1abs : |root1| = (|φ.rnd P| + Real.sqrt arg * (1 + d5)) * (1 + d6) / 2 := by
    rw [hr1, abs_mul, abs_neg, hσσ, one_mul, abs_of_pos (by linarith)]
  have hr1ne : root1 ≠ 0 := by
    rw [← abs_pos, hr1abs]; linarith
  -- the quotient
  have hup : |root1| ≤ (1 + φ.u) ^ 4 * (|P| + Real.sqrt |Q|) := by
    rw [hr1abs]
    have h1 : Real.sqrt arg ≤ (1 + φ.u) ^ 2 * (|P| + 2 * Real.sqrt |Q|) := by
      have := Real.sqrt_le_sqrt (arg_le (P := P) (Q := Q) hu b1 b2 b3 b4)
      rw [sqrt_scale (by positivity)] at this
      rw [harg, e1, e2]
      exact this.trans (mul_le_mul_of_nonneg_left (sqrt_sum_le P Q) (by positivity))
    have h2 : Real.sqrt arg * (1 + d5) ≤ (1 + φ.u) ^ 2 * (|P| + 2 * Real.sqrt |Q|) * (1 + φ.u) :=
      mul_le_mul h1 r5 p5.le (by positivity)
    have h3 : |φ.rnd P| ≤ (1 + φ.u) ^ 3 * |P| := by
      rw [habsP, mul_comm]
      refine mul_le_mul_of_nonneg_right (r1.trans ?_) (abs_nonneg P)
      nlinarith [mul_nonneg hu0.le hu0.le, mul_nonneg hu0.le (mul_nonneg hu0.le hu0.le)]
    have h4 : |φ.rnd P| + Real.sqrt arg * (1 + d5) ≤ 2 * ((1 + φ.u) ^ 3 * (|P| + Real.sqrt |Q|)) := by
      linear_combination h2 + h3
    have h5 : (|φ.rnd P| + Real.sqrt arg * (1 + d5)) * (1 + d6) ≤
        2 * ((1 + φ.u) ^ 3 * (|P| + Real.sqrt |Q|)) * (1 + φ.u) :=
      mul_le_mul h4 r6 p6.le (by positivity)
    calc _ ≤ 2 * ((1 + φ.u) ^ 3 * (|P| + Real.sqrt |Q|)) * (1 + φ.u) / 2 := by linarith
      _ = _ := by ring
  obtain ⟨d7, b7, e8⟩ : ∃ δ, |δ| ≤ φ.u ∧ φ.rnd (φ.rnd Q / root1) = φ.rnd Q / root1 * (1 + δ) := by
    refine φ.rel ?_
    have hT : 0 < |P| + Real.sqrt |Q| := by
      have := Real.sqrt_pos.2 (abs_pos.2 (h.Q_ne hφ))
      linarith [abs_nonneg P]
    rw [abs_div, e2, abs_mul, abs_of_pos p2]
    have h1 : |Q| / (|P| + Real.sqrt |Q|) * (1 / 4) ≤ |Q| * (1 + d2) / |root1| := by
      rw [le_div_iff₀ (abs_pos.2 hr1ne)]
      have h2 : (1 + φ.u) ^ 4 ≤ 2 := by
        calc (1 + φ.u) ^ 4 ≤ (1 + 1 / 64) ^ 4 := by gcongr
          _ ≤ 2 := by norm_num
      have h3 : |root1| ≤ 2 * (|P| + Real.sqrt |Q|) := hup.trans (mul_le_mul_of_nonneg_right h2 hT.le)
      have h4 : |Q| / (|P| + Real.sqrt |Q|) * (|P| + Real.sqrt |Q|) = |Q| := div_mul_cancel₀ _ hT.ne'
      have h5 : 0 ≤ |Q| / (|P| + Real.sqrt |Q|) := by positivity
      have h6 := mul_le_mul_of_nonneg_left h3 h5
      have h7 := mul_le_mul_of_nonneg_left l2 (abs_nonneg Q)
      have h9 : |Q| * (1 / 2) ≤ |Q| * (1 - φ.u) := mul_le_mul_of_nonneg_left (by linarith) (abs_nonneg Q)
      generalize |Q| / (|P| + Real.sqrt |Q|) = X at h4 h6 ⊢
      generalize |P| + Real.sqrt |Q| = T at h4 h6
      generalize |root1| = r at h6 ⊢
      clear * - h4 h6 h7 h9
      linarith
    have := mul_le_mul_of_nonneg_left h1 hu0.le
    linarith [h.quot]
  exact ⟨d5, d6, d7, σ, b5, b6, b7, hσ, hPσ, hr1ne, hr1, e8⟩

end Run

end Stator.Fp
