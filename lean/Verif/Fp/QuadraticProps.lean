import Verif.Fp.Quadratic

/-!
# C81: the quadratic solver in rounded arithmetic

`bin p emin` is any binary format; `double` is `bin 53 (-1074)`.
-/

namespace Stator.Fp

open Stator.Pol

/-- The solver in terms of the rounded quotients. -/
theorem solve2R_eq (φ : Format) (maxSqrt : ℝ) (f : Arr ℝ 2) (h2 : f 2 ≠ 0) :
    solve2R φ.rnd maxSqrt f =
      (let f0 := φ.rnd (f 0 / f 2)
       let f1 := φ.rnd (f 1 / f 2)
       if f0 = 0 then some [min (-f1) 0, max (-f1) 0]
       else if |f1| > maxSqrt then
         let a := -f1
         let b := φ.rnd (-f0 / f1)
         some (if a > b then [b, a] else [a, b])
       else
         let arg := φ.rnd (φ.rnd (f1 * f1) - φ.rnd (4 * f0))
         if arg < 0 then some []
         else if arg = 0 then some [φ.rnd (-f1 * (1 / 2))]
         else
           let root1 := φ.rnd (-(φ.rnd (f1 + copysign (φ.rnd (Real.sqrt arg)) f1)) * (1 / 2))
           let root2 := φ.rnd (f0 / root1)
           some (if root1 > root2 then [root2, root1] else [root1, root2])) := by
  have key : ∃ g : Arr ℝ 2, divConstR φ.rnd f (fun _ => f 2 : Arr ℝ 0) = some g ∧ g 0 = φ.rnd (f 0 / f 2) ∧
      g 1 = φ.rnd (f 1 / f 2) := by
    refine ⟨_, by simp [divConstR, forUp, rd, wr, zeros]; rfl, ?_, ?_⟩ <;> simp [φ.rnd_rnd]
  obtain ⟨g, e, e0, e1⟩ := key
  unfold solve2R
  rw [if_neg h2, e]
  have r0 : rd g 0 = some (g 0) := rfl
  have r1 : rd g 1 = some (g 1) := rfl
  simp only [Option.bind_eq_bind, Option.bind_some, r0, r1, e0, e1]

/-! ## A negative constant: relative errors of the roots -/

/-- The argument of the square root is not much smaller either, if there is no cancellation. -/
theorem le_arg {u P Q d1 d2 d3 d4 : ℝ} (hu : u ≤ 1 / 64) (hQ : Q < 0) (b1 : |d1| ≤ u) (b2 : |d2| ≤ u) (b3 : |d3| ≤ u)
    (b4 : |d4| ≤ u) :
    ((1 - u) ^ 2) ^ 2 * (P ^ 2 + 4 * |Q|) ≤ (P * (1 + d1) * (P * (1 + d1)) * (1 + d3) - 4 * (Q * (1 + d2))) * (1 + d4) := by
  obtain ⟨l1, r1, hp, p1, u0⟩ := factor hu b1
  obtain ⟨l2, r2, -, p2, -⟩ := factor hu b2
  obtain ⟨l3, r3, -, p3, -⟩ := factor hu b3
  obtain ⟨l4, r4, -, p4, -⟩ := factor hu b4
  have hP := sq_nonneg P
  have a1 : (1 - u) ^ 3 ≤ (1 + d1) ^ 2 * (1 + d3) := by
    calc (1 - u) ^ 3 = (1 - u) ^ 2 * (1 - u) := by ring
      _ ≤ _ := by gcongr
  have a2 : (1 - u) ^ 3 * P ^ 2 ≤ P * (1 + d1) * (P * (1 + d1)) * (1 + d3) := by
    have := mul_le_mul_of_nonneg_left a1 hP
    linarith
  have a3 : (1 - u) ^ 3 * (4 * |Q|) ≤ -(4 * (Q * (1 + d2))) := by
    rw [abs_of_neg hQ]
    have h2 : (1 - u) ^ 3 ≤ 1 - u := by
      have : (1 - u) ^ 2 ≤ 1 := pow_le_one₀ hp.le (by linarith)
      nlinarith
    have := mul_le_mul_of_nonneg_left (h2.trans l2) (show 0 ≤ -Q by linarith)
    linarith
  have a4 : (1 - u) ^ 3 * (P ^ 2 + 4 * |Q|) ≤ P * (1 + d1) * (P * (1 + d1)) * (1 + d3) - 4 * (Q * (1 + d2)) := by linarith
  have a5 : 0 ≤ (1 - u) ^ 3 * (P ^ 2 + 4 * |Q|) := by positivity
  calc _ = (1 - u) ^ 3 * (P ^ 2 + 4 * |Q|) * (1 - u) := by ring
    _ ≤ (1 - u) ^ 3 * (P ^ 2 + 4 * |Q|) * (1 + d4) := mul_le_mul_of_nonneg_left l4 a5
    _ ≤ _ := mul_le_mul_of_nonneg_right a4 p4.le

/-- The magnitude of the first root. -/
theorem first_root {u P Q d1 d5 d6 arg : ℝ} (hu : u ≤ 1 / 64) (b1 : |d1| ≤ u) (b5 : |d5| ≤ u) (b6 : |d6| ≤ u)
    (hl : ((1 - u) ^ 2) ^ 2 * (P ^ 2 + 4 * |Q|) ≤ arg) (hr : arg ≤ ((1 + u) ^ 2) ^ 2 * (P ^ 2 + 4 * |Q|)) :
    (1 - u) ^ 4 * ((|P| + Real.sqrt (P ^ 2 + 4 * |Q|)) / 2) ≤ (|P| * (1 + d1) + Real.sqrt arg * (1 + d5)) * (1 + d6) / 2 ∧
    (|P| * (1 + d1) + Real.sqrt arg * (1 + d5)) * (1 + d6) / 2 ≤ (1 + u) ^ 4 * ((|P| + Real.sqrt (P ^ 2 + 4 * |Q|)) / 2) := by
  obtain ⟨l1, r1, hp, p1, u0⟩ := factor hu b1
  obtain ⟨l5, r5, -, p5, -⟩ := factor hu b5
  obtain ⟨l6, r6, -, p6, -⟩ := factor hu b6
  have hs := Real.sqrt_nonneg arg
  have hD := Real.sqrt_nonneg (P ^ 2 + 4 * |Q|)
  have s1 := Real.sqrt_le_sqrt hl
  have s2 := Real.sqrt_le_sqrt hr
  rw [sqrt_scale (by positivity)] at s1 s2
  generalize Real.sqrt (P ^ 2 + 4 * |Q|) = D at *
  generalize Real.sqrt arg = S at *
  have hP := abs_nonneg P
  generalize |P| = A at *
  constructor
  · have h1 : (1 - u) ^ 2 * D * (1 - u) ≤ S * (1 + d5) := mul_le_mul s1 l5 hp.le hs
    have h2 : (1 - u) ^ 3 * A ≤ A * (1 + d1) := by
      rw [mul_comm]
      refine mul_le_mul_of_nonneg_left (le_trans ?_ l1) hP
      have : (1 - u) ^ 2 ≤ 1 := pow_le_one₀ hp.le (by linarith)
      nlinarith
    have h3 : (1 - u) ^ 3 * (A + D) ≤ A * (1 + d1) + S * (1 + d5) := by linear_combination h1 + h2
    have h4 : (1 - u) ^ 3 * (A + D) * (1 - u) ≤ (A * (1 + d1) + S * (1 + d5)) * (1 + d6) :=
      mul_le_mul h3 l6 hp.le (by positivity)
    linear_combination h4 / 2
  · have h1 : S * (1 + d5) ≤ (1 + u) ^ 2 * D * (1 + u) := mul_le_mul s2 r5 p5.le (by positivity)
    have h2 : A * (1 + d1) ≤ (1 + u) ^ 3 * A := by
      rw [mul_comm _ A]
      refine mul_le_mul_of_nonneg_left (r1.trans ?_) hP
      nlinarith [mul_nonneg u0 u0, mul_nonneg u0 (mul_nonneg u0 u0)]
    have h3 : A * (1 + d1) + S * (1 + d5) ≤ (1 + u) ^ 3 * (A + D) := by linear_combination h1 + h2
    have h4 : (A * (1 + d1) + S * (1 + d5)) * (1 + d6) ≤ (1 + u) ^ 3 * (A + D) * (1 + u) :=
      mul_le_mul h3 r6 p6.le (by positivity)
    linear_combination h4 / 2

/-- From factors to relative errors. -/
theorem near_of_factors {u r R q Q s : ℝ} (hu : u ≤ 1 / 64) (hu0 : 0 ≤ u) (hR : 0 < R) (hQ : 0 < Q)
    (h1 : (1 - u) ^ 4 * R ≤ r) (h2 : r ≤ (1 + u) ^ 4 * R) (h3 : (1 - u) ^ 2 * Q ≤ q) (h4 : q ≤ (1 + u) ^ 2 * Q)
    (hs : s = q / r) : |r - R| ≤ 7 * u * R ∧ |s - Q / R| ≤ 7 * u * (Q / R) := by
  have hp : 0 < 1 - u := by linarith
  have hr : 0 < r := lt_of_lt_of_le (mul_pos (pow_pos hp 4) hR) h1
  have a1 : (1 + u) ^ 4 ≤ 1 + 7 * u := by
    nlinarith [mul_nonneg hu0 hu0, mul_nonneg hu0 (mul_nonneg hu0 hu0), mul_nonneg (mul_nonneg hu0 hu0) (mul_nonneg hu0 hu0)]
  have a2 : 1 - 7 * u ≤ (1 - u) ^ 4 := by
    have := one_add_mul_le_pow (show (-2 : ℝ) ≤ -u by linarith) 4
    norm_num at this
    have e : (1 + -u) ^ 4 = (1 - u) ^ 4 := by ring
    rw [e] at this
    linarith
  have k1 : u ^ 2 ≤ u / 64 := by nlinarith
  have a3 : (1 + u) ^ 2 ≤ (1 + 7 * u) * (1 - u) ^ 4 := by
    have : 1 - 4 * u ≤ (1 - u) ^ 4 := by
      have := one_add_mul_le_pow (show (-2 : ℝ) ≤ -u by linarith) 4
      norm_num at this
      have e : (1 + -u) ^ 4 = (1 - u) ^ 4 := by ring
      rw [e] at this
      linarith
    have := mul_le_mul_of_nonneg_left this (show 0 ≤ 1 + 7 * u by linarith)
    nlinarith
  have a4 : (1 - 7 * u) * (1 + u) ^ 4 ≤ (1 - u) ^ 2 := by
    have a5 : (1 + u) ^ 4 ≤ 1 + 4 * u + 7 * u ^ 2 := by
      nlinarith [mul_nonneg hu0 hu0, mul_nonneg hu0 (mul_nonneg hu0 hu0), mul_nonneg (mul_nonneg hu0 hu0) (mul_nonneg hu0 hu0)]
    have := mul_le_mul_of_nonneg_left a5 (show 0 ≤ 1 - 7 * u by linarith)
    nlinarith [mul_nonneg hu0 (mul_nonneg hu0 hu0)]
  refine ⟨?_, ?_⟩
  · rw [abs_le]
    have b1 := mul_le_mul_of_nonneg_right a1 hR.le
    have b2 := mul_le_mul_of_nonneg_right a2 hR.le
    constructor <;> linarith
  · have hX : 0 < Q / R := div_pos hQ hR
    have hXR : Q / R * R = Q := div_mul_cancel₀ _ hR.ne'
    rw [abs_le, hs]
    constructor
    · rw [neg_le_sub_iff_le_add, ← sub_le_iff_le_add, le_div_iff₀ hr]
      calc (Q / R - 7 * u * (Q / R)) * r = (1 - 7 * u) * (Q / R) * r := by ring
        _ ≤ (1 - 7 * u) * (Q / R) * ((1 + u) ^ 4 * R) :=
          mul_le_mul_of_nonneg_left h2 (mul_nonneg (by linarith) hX.le)
        _ = (1 - 7 * u) * (1 + u) ^ 4 * (Q / R * R) := by ring
        _ = (1 - 7 * u) * (1 + u) ^ 4 * Q := by rw [hXR]
        _ ≤ (1 - u) ^ 2 * Q := mul_le_mul_of_nonneg_right a4 hQ.le
        _ ≤ q := h3
    · rw [sub_le_iff_le_add, div_le_iff₀ hr]
      calc q ≤ (1 + u) ^ 2 * Q := h4
        _ ≤ (1 + 7 * u) * (1 - u) ^ 4 * Q := mul_le_mul_of_nonneg_right a3 hQ.le
        _ = (1 + 7 * u) * (1 - u) ^ 4 * (Q / R * R) := by rw [hXR]
        _ = (1 + 7 * u) * (Q / R) * ((1 - u) ^ 4 * R) := by ring
        _ ≤ (1 + 7 * u) * (Q / R) * r :=
          mul_le_mul_of_nonneg_left h1 (mul_nonneg (by linarith) hX.le)
        _ = (7 * u * (Q / R) + Q / R) * r := by ring

set_option maxHeartbeats 800000 in
/-- If constant and leading coefficient have opposite signs, there is one root on each side of 0, and the solver returns both with
relative errors of at most `7 u`: whatever the linear coefficient is, there is no loss by cancellation. -/
theorem C81_opposite_signs {p : ℕ} {emin : ℤ} (hp : 6 ≤ p) (he : emin ≤ 2 - 2 * p) (maxSqrt : ℝ) (f : Arr ℝ 2)
    (hQ : f 0 / f 2 < 0) (hC : Clear (bin p emin (by omega) (by omega)) (f 1 / f 2) (f 0 / f 2))
    (hm : (1 + (bin p emin (by omega) (by omega)).u) * |f 1 / f 2| ≤ maxSqrt) :
    ∃ x1 x2 y1 y2, value f x1 = 0 ∧ value f x2 = 0 ∧ x1 < 0 ∧ 0 < x2 ∧
      solve2R (bin p emin (by omega) (by omega)).rnd maxSqrt f = some [y1, y2] ∧
      |y1 - x1| ≤ 7 * (bin p emin (by omega) (by omega)).u * |x1| ∧
      |y2 - x2| ≤ 7 * (bin p emin (by omega) (by omega)).u * |x2| := by
  have hφ := bin_good hp he
  generalize bin p emin (by omega) (by omega) = φ at *
  have h2 : f 2 ≠ 0 := by intro h0; rw [h0, div_zero] at hQ; exact lt_irrefl _ hQ
  obtain ⟨d1, d2, d3, d4, b1, b2, b3, b4, e1, e2, e3, e4, e5⟩ := steps_arg hφ hC
  have hu := hφ.u_le
  have hu0 := hφ.u_pos
  have lo := le_arg (P := f 1 / f 2) hu hQ b1 b2 b3 b4
  have hi := arg_le (P := f 1 / f 2) (Q := f 0 / f 2) hu b1 b2 b3 b4
  rw [← e1, ← e2, ← e5] at lo hi
  have hD : 0 < (f 1 / f 2) ^ 2 + 4 * |f 0 / f 2| := by
    have := abs_pos.2 hQ.ne
    have := sq_nonneg (f 1 / f 2)
    linarith
  obtain ⟨l1, r1, hp1, p1, -⟩ := factor hu b1
  obtain ⟨l2, r2, -, p2, -⟩ := factor hu b2
  have hpos : 0 < φ.rnd (φ.rnd (φ.rnd (f 1 / f 2) * φ.rnd (f 1 / f 2)) - φ.rnd (4 * φ.rnd (f 0 / f 2))) :=
    lt_of_lt_of_le (mul_pos (by positivity) hD) lo
  obtain ⟨d5, d6, d7, σ, b5, b6, b7, hσ, hPσ, hne, hr1, hr2⟩ := steps_roots hφ hC hpos
  obtain ⟨l7, r7, -, p7, -⟩ := factor hu b7
  rw [solve2R_eq φ maxSqrt f h2]
  have hqne : φ.rnd (f 0 / f 2) ≠ 0 := by rw [e2]; exact mul_ne_zero hQ.ne p2.ne'
  have hmax : ¬ |φ.rnd (f 1 / f 2)| > maxSqrt := by
    rw [not_lt, e1, abs_mul, abs_of_pos p1]
    refine le_trans ?_ hm
    rw [mul_comm]
    exact mul_le_mul_of_nonneg_right r1 (abs_nonneg _)
  simp only [if_neg hqne, if_neg hmax, if_neg (not_lt.2 hpos.le), if_neg hpos.ne']
  generalize harg : φ.rnd (φ.rnd (φ.rnd (f 1 / f 2) * φ.rnd (f 1 / f 2)) - φ.rnd (4 * φ.rnd (f 0 / f 2))) = arg at *
  generalize hroot : φ.rnd (-(φ.rnd (φ.rnd (f 1 / f 2) + copysign (φ.rnd (Real.sqrt arg)) (φ.rnd (f 1 / f 2)))) * (1 / 2)) =
    root1 at *
  generalize hroot2 : φ.rnd (φ.rnd (f 0 / f 2) / root1) = root2 at *
  have hP1 : |φ.rnd (f 1 / f 2)| = |f 1 / f 2| * (1 + d1) := by rw [e1, abs_mul, abs_of_pos p1]
  rw [hP1] at hr1
  obtain ⟨f1, f2⟩ := first_root hu b1 b5 b6 lo hi
  rw [e2] at hr2
  -- the exact roots
  generalize hP : f 1 / f 2 = P at *
  generalize hQ' : f 0 / f 2 = Q at *
  have hS := Real.sq_sqrt hD.le
  have hSpos := Real.sqrt_pos.2 hD
  generalize Real.sqrt (P ^ 2 + 4 * |Q|) = S at *
  generalize (|P| * (1 + d1) + Real.sqrt arg * (1 + d5)) * (1 + d6) / 2 = r at *
  have hRpos : 0 < (|P| + S) / 2 := by linarith [abs_nonneg P]
  have hrpos : 0 < r := lt_of_lt_of_le (mul_pos (pow_pos hp1 4) hRpos) f1
  have hQpos : 0 < |Q| := abs_pos.2 hQ.ne
  have hA : |Q| * (1 - φ.u) ≤ |Q| * (1 + d2) := mul_le_mul_of_nonneg_left l2 hQpos.le
  have hB : |Q| * (1 + d2) ≤ |Q| * (1 + φ.u) := mul_le_mul_of_nonneg_left r2 hQpos.le
  obtain ⟨n1, n2⟩ := near_of_factors (r := r) (R := (|P| + S) / 2) (q := |Q| * (1 + d2) * (1 + d7)) (Q := |Q|) hu hu0.le hRpos hQpos
    f1 f2
    (by calc (1 - φ.u) ^ 2 * |Q| = |Q| * (1 - φ.u) * (1 - φ.u) := by ring
          _ ≤ _ := mul_le_mul hA l7 hp1.le (mul_nonneg hQpos.le p2.le))
    (by calc |Q| * (1 + d2) * (1 + d7) ≤ |Q| * (1 + φ.u) * (1 + φ.u) := mul_le_mul hB r7 p7.le (by positivity)
          _ = _ := by ring) rfl
  have hquad : ((|P| + S) / 2) ^ 2 - |P| * ((|P| + S) / 2) = |Q| := by
    linear_combination hS / 4 - sq_abs P / 4
  have hval : ∀ x, x ^ 2 + P * x + Q = 0 → value f x = 0 := by
    intro x hx
    have : value f x = f 2 * (x ^ 2 + P * x + Q) := by
      rw [value_two, ← hP, ← hQ']; field_simp; ring
    rw [this, hx, mul_zero]
  have hQabs : |Q| = -Q := abs_of_neg hQ
  have hroot2v : root2 = σ * (|Q| * (1 + d2) * (1 + d7) / r) := by
    rw [hr2, hr1, hQabs]
    rcases hσ with rfl | rfl <;> field_simp
  generalize hR : (|P| + S) / 2 = R at *
  have hx1 : value f (-σ * R) = 0 := by
    apply hval
    rw [hPσ]
    rcases hσ with rfl | rfl <;> linear_combination hquad + hQabs
  have hx2 : value f (σ * (|Q| / R)) = 0 := by
    apply hval
    rw [hPσ]
    have hT : |Q| / R * R = |Q| := div_mul_cancel₀ _ hRpos.ne'
    have hT2 : (|Q| / R) ^ 2 + |P| * (|Q| / R) - |Q| = 0 := by
      field_simp
      linear_combination (-|Q|) * hquad
    rcases hσ with rfl | rfl <;> linear_combination hT2 + hQabs
  have hspos : 0 < |Q| * (1 + d2) * (1 + d7) / r := by positivity
  have hXpos : 0 < |Q| / R := by positivity
  generalize |Q| * (1 + d2) * (1 + d7) / r = s at *
  rcases hσ with rfl | rfl
  · refine ⟨-1 * R, 1 * (|Q| / R), root1, root2, hx1, hx2, by linarith, by linarith, ?_, ?_, ?_⟩
    · rw [if_neg]
      rw [hr1, hroot2v]; linarith
    · rw [hr1, show -1 * r - -1 * R = -(r - R) by ring, abs_neg, show -1 * R = -R by ring, abs_neg, abs_of_pos hRpos]
      exact n1
    · rw [hroot2v, one_mul, one_mul, abs_of_pos hXpos]; exact n2
  · refine ⟨-1 * (|Q| / R), - -1 * R, root2, root1, hx2, hx1, by linarith, by linarith, ?_, ?_, ?_⟩
    · rw [if_pos]
      rw [hr1, hroot2v]; linarith
    · rw [hroot2v, show -1 * s - -1 * (|Q| / R) = -(s - |Q| / R) by ring, abs_neg, show -1 * (|Q| / R) = -(|Q| / R) by ring, abs_neg,
        abs_of_pos hXpos]
      exact n2
    · rw [hr1, neg_neg, one_mul, one_mul, abs_of_pos hRpos]; exact n1

/-! ## A positive constant: the values are the roots of a polynomial nearby -/

/-- The constants. -/
theorem consts {u : ℝ} (hu : u ≤ 1 / 64) (u0 : 0 ≤ u) :
    (1 + u) ≤ (1 + 3.1 * u) * (1 - u) ^ 2 ∧ (1 - 3 * u) * (1 + u) ^ 2 ≤ 1 - u ∧ (1 + u) ^ 2 ≤ 1 + 3.1 * u ∧
    1 - 3 * u ≤ (1 - u) ^ 2 ∧ (1 + 3.1 * u) * ((1 + 1.01 * u) * (1 + u)) ≤ 1 + 6 * u ∧
    1 - 6 * u ≤ (1 - 3 * u) * ((1 - 1.01 * u) * (1 - u)) := by
  have u2 : u * u ≤ u / 64 := by nlinarith
  have u3 : 0 ≤ u * u := mul_nonneg u0 u0
  have u4 : 0 ≤ u * (u * u) := mul_nonneg u0 u3
  have u5 : u * (u * u) ≤ u * u / 64 := by nlinarith
  norm_num
  refine ⟨?_, ?_, ?_, ?_, ?_, ?_⟩ <;> nlinarith

set_option maxHeartbeats 800000 in
/-- The sum of the two values is close to the linear coefficient. -/
theorem sum_near {u A π q d1 d3 d4 d5 d6 d7 arg r s : ℝ} (hu : u ≤ 1 / 64) (hA : 0 < A) (hπ : π = A * (1 + d1)) (hq : 0 < q)
    (b1 : |d1| ≤ u) (b3 : |d3| ≤ u) (b4 : |d4| ≤ u) (b5 : |d5| ≤ u) (b6 : |d6| ≤ u) (b7 : |d7| ≤ u)
    (harg : arg = (π * π * (1 + d3) - 4 * q) * (1 + d4)) (hpos : 0 < arg)
    (hr : r = (π + Real.sqrt arg * (1 + d5)) * (1 + d6) / 2) (hs : s = q / r * (1 + d7)) :
    |(r + s) / A - 1| ≤ 6 * u := by
  obtain ⟨l1, r1, hp, p1, u0⟩ := factor hu b1
  obtain ⟨l3, r3, -, p3, -⟩ := factor hu b3
  obtain ⟨l4, r4, -, p4, -⟩ := factor hu b4
  obtain ⟨l5, r5, -, p5, -⟩ := factor hu b5
  obtain ⟨l6, r6, -, p6, -⟩ := factor hu b6
  obtain ⟨l7, r7, -, p7, -⟩ := factor hu b7
  have hπ0 : 0 < π := by rw [hπ]; positivity
  have hS2 := Real.sq_sqrt hpos.le
  have hS := Real.sqrt_pos.2 hpos
  generalize Real.sqrt arg = S at *
  have hm : 0 < π * π * (1 + d3) - 4 * q := by
    by_contra hc
    push Not at hc
    have := mul_nonpos_of_nonpos_of_nonneg hc p4.le
    linarith
  -- without rounding of root, sum and quotient
  obtain ⟨y, hy⟩ : ∃ y, y = (π + S) / 2 := ⟨_, rfl⟩
  have hy0 : 0 < y := by rw [hy]; linarith
  have hyπ : π / 2 ≤ y := by rw [hy]; linarith
  have hW : (y + q / y - π) * (4 * y) = arg - π ^ 2 + 4 * q := by
    have : (y + q / y - π) * (4 * y) = 4 * (y ^ 2 + q - π * y) := by field_simp
    rw [this, hy]
    linear_combination hS2
  have hdev : |arg - π ^ 2 + 4 * q| ≤ 2.02 * u * π ^ 2 := by
    have e : arg - π ^ 2 + 4 * q = π ^ 2 * d3 + (π * π * (1 + d3) - 4 * q) * d4 := by rw [harg]; ring
    rw [e]
    refine (abs_add_le _ _).trans ?_
    rw [abs_mul, abs_mul, abs_of_pos hm, abs_of_pos (by positivity : 0 < π ^ 2)]
    have k1 : π ^ 2 * |d3| ≤ π ^ 2 * u := mul_le_mul_of_nonneg_left b3 (by positivity)
    have k2 : π * π * (1 + d3) - 4 * q ≤ π ^ 2 * (1 + u) := by
      have := mul_le_mul_of_nonneg_left r3 (by positivity : 0 ≤ π ^ 2)
      linarith
    have k3 : (π * π * (1 + d3) - 4 * q) * |d4| ≤ π ^ 2 * (1 + u) * u := mul_le_mul k2 b4 (abs_nonneg _) (by positivity)
    have k4 : π ^ 2 * u * u ≤ π ^ 2 * u * (1 / 64) := mul_le_mul_of_nonneg_left hu (by positivity)
    have k5 : 0 ≤ π ^ 2 * u := by positivity
    norm_num
    linarith
  have hW2 : |y + q / y - π| ≤ 1.01 * u * π := by
    have h1 : |y + q / y - π| * (4 * y) ≤ 2.02 * u * π ^ 2 := by
      rw [← abs_of_pos (by positivity : 0 < 4 * y), ← abs_mul, hW]; exact hdev
    have h2 : |y + q / y - π| * (2 * π) ≤ |y + q / y - π| * (4 * y) :=
      mul_le_mul_of_nonneg_left (by linarith) (abs_nonneg _)
    have h3 : |y + q / y - π| * (2 * π) ≤ (1.01 * u * π) * (2 * π) := by
      refine (h2.trans h1).trans (le_of_eq ?_); ring
    exact le_of_mul_le_mul_right h3 (by positivity)
  -- with rounding
  have hr_lo : (1 - u) ^ 2 * y ≤ r := by
    have h1 : S * (1 - u) ≤ S * (1 + d5) := mul_le_mul_of_nonneg_left l5 hS.le
    have h2 : (π + S) * (1 - u) ≤ π + S * (1 + d5) := by
      have := mul_nonneg hπ0.le u0
      linarith
    have h3 : (π + S) * (1 - u) * (1 - u) ≤ (π + S * (1 + d5)) * (1 + d6) := mul_le_mul h2 l6 hp.le (by positivity)
    rw [hr, hy]
    linear_combination h3 / 2
  have hr_hi : r ≤ (1 + u) ^ 2 * y := by
    have h1 : S * (1 + d5) ≤ S * (1 + u) := mul_le_mul_of_nonneg_left r5 hS.le
    have h2 : π + S * (1 + d5) ≤ (π + S) * (1 + u) := by
      have := mul_nonneg hπ0.le u0
      linarith
    have h3 : (π + S * (1 + d5)) * (1 + d6) ≤ (π + S) * (1 + u) * (1 + u) := mul_le_mul h2 r6 p6.le (by positivity)
    rw [hr, hy]
    linear_combination h3 / 2
  have hr0 : 0 < r := lt_of_lt_of_le (by positivity) hr_lo
  have hz0 : 0 < q / y := by positivity
  have hzy : q / y * y = q := div_mul_cancel₀ _ hy0.ne'
  obtain ⟨c1, c2, c3, c4, c5, c6⟩ := consts hu u0
  have hs_hi : s ≤ (1 + 3.1 * u) * (q / y) := by
    rw [hs, div_mul_eq_mul_div, div_le_iff₀ hr0]
    calc q * (1 + d7) ≤ q * (1 + u) := mul_le_mul_of_nonneg_left r7 hq.le
      _ ≤ q * ((1 + 3.1 * u) * (1 - u) ^ 2) := mul_le_mul_of_nonneg_left c1 hq.le
      _ = (1 + 3.1 * u) * (q / y) * ((1 - u) ^ 2 * y) := by rw [← hzy]; field_simp
      _ ≤ (1 + 3.1 * u) * (q / y) * r := mul_le_mul_of_nonneg_left hr_lo (by positivity)
  have hs_lo : (1 - 3 * u) * (q / y) ≤ s := by
    rw [hs, div_mul_eq_mul_div, le_div_iff₀ hr0]
    calc (1 - 3 * u) * (q / y) * r ≤ (1 - 3 * u) * (q / y) * ((1 + u) ^ 2 * y) :=
          mul_le_mul_of_nonneg_left hr_hi (mul_nonneg (by linarith) hz0.le)
      _ = q * ((1 - 3 * u) * (1 + u) ^ 2) := by rw [← hzy]; field_simp
      _ ≤ q * (1 - u) := mul_le_mul_of_nonneg_left c2 hq.le
      _ ≤ q * (1 + d7) := mul_le_mul_of_nonneg_left l7 hq.le
  have hr_hi' : r ≤ (1 + 3.1 * u) * y := hr_hi.trans (mul_le_mul_of_nonneg_right c3 hy0.le)
  have hr_lo' : (1 - 3 * u) * y ≤ r := (mul_le_mul_of_nonneg_right c4 hy0.le).trans hr_lo
  obtain ⟨w1, w2⟩ := abs_le.1 hW2
  generalize q / y = z at *
  have hπ_hi : π ≤ A * (1 + u) := by rw [hπ]; exact mul_le_mul_of_nonneg_left r1 hA.le
  have hπ_lo : A * (1 - u) ≤ π := by rw [hπ]; exact mul_le_mul_of_nonneg_left l1 hA.le
  have t1 : r + s ≤ (1 + 6 * u) * A := by
    have h1 : y + z ≤ (1 + 1.01 * u) * (A * (1 + u)) := by
      have := mul_le_mul_of_nonneg_left hπ_hi (show 0 ≤ 1 + 1.01 * u by positivity)
      linarith
    have h2 : (1 + 3.1 * u) * (y + z) ≤ (1 + 3.1 * u) * ((1 + 1.01 * u) * (A * (1 + u))) :=
      mul_le_mul_of_nonneg_left h1 (by positivity)
    have h4 := mul_le_mul_of_nonneg_right c5 hA.le
    linarith
  have t2 : (1 - 6 * u) * A ≤ r + s := by
    have h1 : (1 - 1.01 * u) * (A * (1 - u)) ≤ y + z := by
      have := mul_le_mul_of_nonneg_left hπ_lo (show 0 ≤ 1 - 1.01 * u by norm_num; linarith)
      linarith
    have h2 : (1 - 3 * u) * ((1 - 1.01 * u) * (A * (1 - u))) ≤ (1 - 3 * u) * (y + z) :=
      mul_le_mul_of_nonneg_left h1 (by linarith)
    have h4 := mul_le_mul_of_nonneg_right c6 hA.le
    linarith
  rw [abs_le]
  constructor
  · rw [neg_le_sub_iff_le_add, ← sub_le_iff_le_add, le_div_iff₀ hA]; exact t2
  · rw [sub_le_iff_le_add, div_le_iff₀ hA]; linarith

theorem quotient_near {u a b : ℝ} (hu : u ≤ 1 / 64) (ha : |a| ≤ u) (hb : |b| ≤ u) : |(1 + a) / (1 + b) - 1| ≤ 3 * u := by
  obtain ⟨l1, r1, hp, p1, u0⟩ := factor hu ha
  obtain ⟨l2, r2, -, p2, -⟩ := factor hu hb
  have : (1 + a) / (1 + b) - 1 = (a - b) / (1 + b) := by field_simp; ring
  rw [this, abs_div, abs_of_pos p2, div_le_iff₀ p2]
  have h1 := abs_sub a b
  have h2 : 3 * u * (1 - u) ≤ 3 * u * (1 + b) := mul_le_mul_of_nonneg_left l2 (by linarith)
  nlinarith

theorem product_near {u a b : ℝ} (hu : u ≤ 1 / 64) (ha : |a| ≤ u) (hb : |b| ≤ u) : |(1 + a) * (1 + b) - 1| ≤ 3 * u := by
  obtain ⟨l1, r1, hp, p1, u0⟩ := factor hu ha
  rw [show (1 + a) * (1 + b) - 1 = a + b + a * b by ring]
  refine (abs_add_three _ _ _).trans ?_
  rw [abs_mul]
  have := mul_le_mul ha hb (abs_nonneg b) u0
  nlinarith

set_option maxHeartbeats 1000000 in
/-- If constant and leading coefficient have the same sign, what the solver returns - two values, one or none - are exactly the real
roots, in ascending order, of a polynomial whose constant differs from the one given by a relative `3 u`, and whose linear
coefficient by a relative `6 u`. -/
theorem C81_same_sign {p : ℕ} {emin : ℤ} (hp : 6 ≤ p) (he : emin ≤ 2 - 2 * p) (maxSqrt : ℝ) (f : Arr ℝ 2)
    (hQ : 0 < f 0 / f 2) (hC : Clear (bin p emin (by omega) (by omega)) (f 1 / f 2) (f 0 / f 2))
    (hm : (1 + (bin p emin (by omega) (by omega)).u) * |f 1 / f 2| ≤ maxSqrt) :
    ∃ l ε1 ε0, solve2R (bin p emin (by omega) (by omega)).rnd maxSqrt f = some l ∧
      |ε1| ≤ 6 * (bin p emin (by omega) (by omega)).u ∧ |ε0| ≤ 3 * (bin p emin (by omega) (by omega)).u ∧
      l.Pairwise (· ≤ ·) ∧ l.length ≤ 2 ∧ ∀ x, x ∈ l ↔ f 2 * x ^ 2 + f 1 * (1 + ε1) * x + f 0 * (1 + ε0) = 0 := by
  have hφ := bin_good hp he
  generalize bin p emin (by omega) (by omega) = φ at *
  have h2 : f 2 ≠ 0 := by intro h0; rw [h0, div_zero] at hQ; exact lt_irrefl _ hQ
  obtain ⟨d1, d2, d3, d4, b1, b2, b3, b4, e1, e2, e3, e4, e5⟩ := steps_arg hφ hC
  have hu := hφ.u_le
  have hu0 := hφ.u_pos
  have hη := hφ.η_pos
  obtain ⟨l1, r1, hp1, p1, -⟩ := factor hu b1
  obtain ⟨l2, r2, -, p2, -⟩ := factor hu b2
  obtain ⟨l3, r3, -, p3, -⟩ := factor hu b3
  obtain ⟨l4, r4, -, p4, -⟩ := factor hu b4
  rw [solve2R_eq φ maxSqrt f h2]
  have hqne : φ.rnd (f 0 / f 2) ≠ 0 := by rw [e2]; exact mul_ne_zero hQ.ne' p2.ne'
  have hmax : ¬ |φ.rnd (f 1 / f 2)| > maxSqrt := by
    rw [not_lt, e1, abs_mul, abs_of_pos p1]
    refine le_trans ?_ hm
    rw [mul_comm]
    exact mul_le_mul_of_nonneg_right r1 (abs_nonneg _)
  simp only [if_neg hqne, if_neg hmax]
  have hpoly : ∀ ε1 ε0 x, f 2 * x ^ 2 + f 1 * (1 + ε1) * x + f 0 * (1 + ε0) = 0 ↔
      x ^ 2 + f 1 / f 2 * (1 + ε1) * x + f 0 / f 2 * (1 + ε0) = 0 := by
    intro ε1 ε0 x
    have : f 2 * x ^ 2 + f 1 * (1 + ε1) * x + f 0 * (1 + ε0) =
        f 2 * (x ^ 2 + f 1 / f 2 * (1 + ε1) * x + f 0 / f 2 * (1 + ε0)) := by field_simp
    rw [this, mul_eq_zero, or_iff_right h2]
  have hsteps := fun h => steps_roots hφ hC h
  simp only [hpoly]
  generalize hP : f 1 / f 2 = P at *
  generalize hQ' : f 0 / f 2 = Q at *
  generalize harg : φ.rnd (φ.rnd (φ.rnd P * φ.rnd P) - φ.rnd (4 * φ.rnd Q)) = arg at *
  rcases lt_trichotomy arg 0 with hlt | heq | hgt
  · -- no roots
    refine ⟨[], d1, (1 + d2) / (1 + d3) - 1, by rw [if_pos hlt], by linarith, quotient_near hu b2 b3, List.Pairwise.nil,
      by simp, ?_⟩
    intro x
    simp only [List.not_mem_nil, false_iff]
    intro hx
    have hneg : φ.rnd P * φ.rnd P * (1 + d3) - 4 * φ.rnd Q < 0 := by
      by_contra hc
      push Not at hc
      have := mul_nonneg hc p4.le
      linarith
    rw [← e1, show Q * (1 + ((1 + d2) / (1 + d3) - 1)) = φ.rnd Q / (1 + d3) by rw [e2]; field_simp; ring] at hx
    have h4 : φ.rnd Q / (1 + d3) * (1 + d3) = φ.rnd Q := div_mul_cancel₀ _ p3.ne'
    generalize φ.rnd Q / (1 + d3) = c at *
    rw [← h4] at hneg
    have : φ.rnd P * φ.rnd P - 4 * c < 0 := by
      by_contra hc
      push Not at hc
      have := mul_nonneg hc p3.le
      linarith
    nlinarith [sq_nonneg (2 * x + φ.rnd P)]
  · -- a double root
    have hz : φ.rnd P * φ.rnd P * (1 + d3) - 4 * φ.rnd Q = 0 := by
      rw [heq] at e5
      rcases mul_eq_zero.1 e5.symm with h | h
      · exact h
      · exact absurd h p4.ne'
    have hP0 : P ≠ 0 := by
      rintro rfl
      rw [e1] at hz
      apply hqne
      linarith
    have hhalf : φ.rnd (-φ.rnd P * (1 / 2)) = -φ.rnd P * (1 / 2) := by
      refine hφ.halve _ (φ.neg _ (φ.mem _)) ?_
      have h1 := hφ.root (sq_nonneg P) (hC.lin.resolve_left hP0)
      rw [Real.sqrt_sq_eq_abs] at h1
      rw [abs_neg, e1, abs_mul, abs_of_pos p1]
      have h3 : |P| * (2 / 3) ≤ |P| * (1 + d1) := mul_le_mul_of_nonneg_left (by linarith) (abs_nonneg P)
      have := mul_le_mul_of_nonneg_left h3 hu0.le
      linarith
    refine ⟨[φ.rnd (-φ.rnd P * (1 / 2))], d1, (1 + d2) / (1 + d3) - 1, by rw [if_neg heq.symm.not_gt, if_pos heq], by linarith,
      quotient_near hu b2 b3, List.pairwise_singleton _ _, by simp, ?_⟩
    intro x
    rw [List.mem_singleton, hhalf, ← e1,
      show Q * (1 + ((1 + d2) / (1 + d3) - 1)) = φ.rnd Q / (1 + d3) by rw [e2]; field_simp; ring]
    have h4 : φ.rnd Q / (1 + d3) = φ.rnd P * φ.rnd P / 4 := by
      rw [div_eq_iff p3.ne']; linarith
    rw [h4, show x ^ 2 + φ.rnd P * x + φ.rnd P * φ.rnd P / 4 = (x - -φ.rnd P * (1 / 2)) ^ 2 by ring, sq_eq_zero_iff, sub_eq_zero]
  · -- two roots
    obtain ⟨d5, d6, d7, σ, b5, b6, b7, hσ, hPσ, hne, hr1, hr2⟩ := hsteps hgt
    obtain ⟨l7, r7, -, p7, -⟩ := factor hu b7
    rw [if_neg (not_lt.2 hgt.le), if_neg hgt.ne']
    generalize hroot : φ.rnd (-(φ.rnd (φ.rnd P + copysign (φ.rnd (Real.sqrt arg)) (φ.rnd P))) * (1 / 2)) = root1 at *
    generalize hroot2 : φ.rnd (φ.rnd Q / root1) = root2 at *
    have hP0 : P ≠ 0 := by
      rintro rfl
      rw [e1, e2] at e5
      have : (0 * (1 + d1) * (0 * (1 + d1)) * (1 + d3) - 4 * (Q * (1 + d2))) * (1 + d4) < 0 := by
        refine mul_neg_of_neg_of_pos ?_ p4
        have := mul_pos hQ p2
        linarith
      linarith
    have hA : 0 < |P| := abs_pos.2 hP0
    have hq : 0 < φ.rnd Q := by rw [e2]; positivity
    have hπ : |φ.rnd P| = |P| * (1 + d1) := by rw [e1, abs_mul, abs_of_pos p1]
    have harg' : arg = (|φ.rnd P| * |φ.rnd P| * (1 + d3) - 4 * φ.rnd Q) * (1 + d4) := by
      rw [e5, abs_mul_abs_self]
    have hnear := sum_near hu hA hπ hq b1 b3 b4 b5 b6 b7 harg' hgt rfl rfl
    generalize hr : (|φ.rnd P| + Real.sqrt arg * (1 + d5)) * (1 + d6) / 2 = r at *
    have hrne : r ≠ 0 := by rintro rfl; apply hne; rw [hr1, mul_zero]
    have hroot2v : root2 = -σ * (φ.rnd Q / r * (1 + d7)) := by
      rw [hr2, hr1]
      rcases hσ with rfl | rfl <;> field_simp
    generalize hs : φ.rnd Q / r * (1 + d7) = s at *
    have hrs : r * s = Q * (1 + d2) * (1 + d7) := by
      rw [← hs, e2]; field_simp
    have hfac : ∀ x, x ^ 2 + P * (1 + ((r + s) / |P| - 1)) * x + Q * (1 + ((1 + d2) * (1 + d7) - 1)) =
        (x - root1) * (x - root2) := by
      intro x
      have k1 : P * (1 + ((r + s) / |P| - 1)) = σ * (r + s) := by
        have : P = σ * |P| := hPσ
        calc P * (1 + ((r + s) / |P| - 1)) = P / |P| * (r + s) := by field_simp; ring
          _ = σ * (r + s) := by
            congr 1
            rw [div_eq_iff hA.ne']
            exact hPσ
      have k2 : σ * σ = 1 := by rcases hσ with rfl | rfl <;> norm_num
      rw [k1, hr1, hroot2v]
      linear_combination (-1) * hrs - r * s * k2
    refine ⟨if root1 > root2 then [root2, root1] else [root1, root2], (r + s) / |P| - 1, (1 + d2) * (1 + d7) - 1, rfl, hnear,
      product_near hu b2 b7, ?_, by split <;> simp, ?_⟩
    · split
      · rename_i h
        simp [h.le]
      · rename_i h
        simp [not_lt.1 h]
    · intro x
      rw [hfac, mul_eq_zero, sub_eq_zero, sub_eq_zero]
      split
      · simp [or_comm]
      · simp

/-- The number of values is right unless the discriminant is within the rounding errors of 0. -/
theorem C81_count {p : ℕ} {emin : ℤ} (hp : 6 ≤ p) (he : emin ≤ 2 - 2 * p) (maxSqrt : ℝ) (f : Arr ℝ 2)
    (hQ : 0 < f 0 / f 2) (hC : Clear (bin p emin (by omega) (by omega)) (f 1 / f 2) (f 0 / f 2))
    (hm : (1 + (bin p emin (by omega) (by omega)).u) * |f 1 / f 2| ≤ maxSqrt) :
    ∃ l, solve2R (bin p emin (by omega) (by omega)).rnd maxSqrt f = some l ∧
      ((1 + 3 * (bin p emin (by omega) (by omega)).u) * (4 * f 0 * f 2) <
        (1 - 6 * (bin p emin (by omega) (by omega)).u) ^ 2 * f 1 ^ 2 → ∃ a b, a < b ∧ l = [a, b]) ∧
      ((1 + 6 * (bin p emin (by omega) (by omega)).u) ^ 2 * f 1 ^ 2 <
        (1 - 3 * (bin p emin (by omega) (by omega)).u) * (4 * f 0 * f 2) → l = []) := by
  obtain ⟨l, ε1, ε0, h1, hε1, hε0, hs, hl, hx⟩ := C81_same_sign hp he maxSqrt f hQ hC hm
  have hu := (bin_good hp he).u_le
  have hu0 := (bin_good hp he).u_pos
  generalize (bin p emin (by omega) (by omega)).u = u at *
  have h2 : f 2 ≠ 0 := by intro h0; rw [h0, div_zero] at hQ; exact lt_irrefl _ hQ
  have h02 : 0 < 4 * f 0 * f 2 := by
    have := mul_pos hQ (by positivity : 0 < f 2 ^ 2)
    rw [show f 0 / f 2 * f 2 ^ 2 = f 0 * f 2 by field_simp] at this
    linarith
  obtain ⟨a1, a2⟩ := abs_le.1 hε1
  obtain ⟨a3, a4⟩ := abs_le.1 hε0
  refine ⟨l, h1, ?_, ?_⟩
  · intro hD
    have hD' : 0 < (f 1 * (1 + ε1)) ^ 2 - 4 * f 2 * (f 0 * (1 + ε0)) := by
      have k1 : (1 + ε0) * (4 * f 0 * f 2) ≤ (1 + 3 * u) * (4 * f 0 * f 2) := mul_le_mul_of_nonneg_right (by linarith) h02.le
      have k2 : (1 - 6 * u) ^ 2 * f 1 ^ 2 ≤ (1 + ε1) ^ 2 * f 1 ^ 2 :=
        mul_le_mul_of_nonneg_right (pow_le_pow_left₀ (by linarith) (by linarith) 2) (sq_nonneg _)
      nlinarith
    generalize f 1 * (1 + ε1) = B at *
    generalize f 0 * (1 + ε0) = c at *
    have hS := Real.sq_sqrt hD'.le
    have hSp := Real.sqrt_pos.2 hD'
    generalize Real.sqrt (B ^ 2 - 4 * f 2 * c) = S at *
    have m1 : (-B + S) / (2 * f 2) ∈ l := by
      rw [hx]; field_simp; linear_combination hS
    have m2 : (-B - S) / (2 * f 2) ∈ l := by
      rw [hx]; field_simp; linear_combination hS
    have hne : (-B + S) / (2 * f 2) ≠ (-B - S) / (2 * f 2) := by
      intro h
      rw [div_left_inj' (by simpa using h2)] at h
      linarith
    match l, hl, hs, m1, m2 with
    | [], _, _, m1, _ => simp at m1
    | [a], _, _, m1, m2 => rw [List.mem_singleton] at m1 m2; exact absurd (m1.trans m2.symm) hne
    | [a, b], _, hs, m1, m2 =>
      refine ⟨a, b, ?_, rfl⟩
      have hab : a ≤ b := by simpa using hs
      refine lt_of_le_of_ne hab ?_
      rintro rfl
      simp only [List.mem_cons, List.not_mem_nil, or_false, or_self] at m1 m2
      exact hne (m1.trans m2.symm)
  · intro hD
    rw [List.eq_nil_iff_forall_not_mem]
    intro x hxl
    rw [hx] at hxl
    have k1 : (1 - 3 * u) * (4 * f 0 * f 2) ≤ (1 + ε0) * (4 * f 0 * f 2) := mul_le_mul_of_nonneg_right (by linarith) h02.le
    have k2 : (1 + ε1) ^ 2 * f 1 ^ 2 ≤ (1 + 6 * u) ^ 2 * f 1 ^ 2 :=
      mul_le_mul_of_nonneg_right (pow_le_pow_left₀ (by linarith) (by linarith) 2) (sq_nonneg _)
    have k3 : (2 * f 2 * x + f 1 * (1 + ε1)) ^ 2 = (1 + ε1) ^ 2 * f 1 ^ 2 - (1 + ε0) * (4 * f 0 * f 2) := by
      linear_combination 4 * f 2 * hxl
    have := sq_nonneg (2 * f 2 * x + f 1 * (1 + ε1))
    linarith

/-- Without a constant the solver returns 0 and the negated rounded quotient of the other coefficients. -/
theorem C81_no_constant (φ : Format) (maxSqrt : ℝ) (f : Arr ℝ 2) (h2 : f 2 ≠ 0) (h0 : f 0 = 0)
    (hP : f 1 = 0 ∨ φ.η ≤ φ.u * |f 1 / f 2|) :
    ∃ x y, solve2R φ.rnd maxSqrt f = some [min y 0, max y 0] ∧ (∀ z, value f z = 0 ↔ z = 0 ∨ z = x) ∧ |y - x| ≤ φ.u * |x| := by
  refine ⟨-(f 1 / f 2), -φ.rnd (f 1 / f 2), ?_, ?_, ?_⟩
  · rw [solve2R_eq φ maxSqrt f h2]
    simp only [h0, zero_div, φ.rnd_of_mem φ.zero, if_true]
  · intro z
    have : value f z = f 2 * (z * (z - -(f 1 / f 2))) := by rw [value_two, h0]; field_simp; ring
    rw [this, mul_eq_zero, mul_eq_zero, or_iff_right h2, sub_eq_zero]
  · rcases hP with hP | hP
    · rw [hP, zero_div, φ.rnd_of_mem φ.zero]; simp
    · obtain ⟨δ, b, e⟩ := φ.rel hP
      rw [e, show -(f 1 / f 2 * (1 + δ)) - -(f 1 / f 2) = -(f 1 / f 2) * δ by ring, abs_mul, mul_comm]
      exact mul_le_mul_of_nonneg_right b (abs_nonneg _)

/-- A polynomial that is linear is solved with one rounding. -/
theorem C81_linear (φ : Format) (maxSqrt : ℝ) (f : Arr ℝ 2) (h2 : f 2 = 0) (h1 : f 1 ≠ 0) (hx : φ.η ≤ φ.u * |f 0 / f 1|) :
    ∃ x y, solve2R φ.rnd maxSqrt f = some [y] ∧ (∀ z, value f z = 0 ↔ z = x) ∧ |y - x| ≤ φ.u * |x| := by
  obtain ⟨δ, b, e⟩ := φ.rel (x := -f 0 / f 1) (by rwa [neg_div, abs_neg])
  refine ⟨-f 0 / f 1, φ.rnd (-f 0 / f 1), ?_, ?_, ?_⟩
  · unfold solve2R
    rw [if_pos h2]
    have : ∃ g : Arr ℝ 1, changeOrder 1 f = some g ∧ g 0 = f 0 ∧ g 1 = f 1 := by
      refine ⟨_, by simp [changeOrder, forUp, rd, wr]; rfl, ?_, ?_⟩ <;> simp
    obtain ⟨g, hg, g0, g1⟩ := this
    rw [hg]
    simp only [Option.bind_eq_bind, Option.bind_some, solve1R, g0, g1]
    rw [if_pos h1]
  · intro z
    rw [value_two, h2, eq_div_iff h1]
    constructor <;> intro h <;> linarith
  · rw [e, show -f 0 / f 1 * (1 + δ) - -f 0 / f 1 = -f 0 / f 1 * δ by ring, abs_mul, mul_comm]
    exact mul_le_mul_of_nonneg_right b (abs_nonneg _)

/-- `binary64` meets the conditions on the format. -/
example : (6 : ℕ) ≤ 53 ∧ (-1074 : ℤ) ≤ 2 - 2 * (53 : ℕ) := by norm_num

/-- `2x² - 6x + 4` is clear of underflow in `double`. -/
example : Clear binary64 (-6 / 2) (4 / 2) where
  lin := .inr (by
    show 4 * (2 : ℝ) ^ ((-1074 : ℤ) - 1) ≤ 2 ^ (-((53 : ℕ) : ℤ)) * _
    have : 4 * (2 : ℝ) ^ ((-1074 : ℤ) - 1) = 2 ^ (-1073 : ℤ) := by
      rw [show (4 : ℝ) = 2 ^ (2 : ℤ) by norm_num, ← zpow_add₀ (by norm_num)]; norm_num
    rw [this]
    calc (2 : ℝ) ^ (-1073 : ℤ) ≤ 2 ^ (-((53 : ℕ) : ℤ)) * 1 := by
          rw [mul_one]; exact zpow_le_zpow_right₀ (by norm_num) (by norm_num)
      _ ≤ _ := mul_le_mul_of_nonneg_left (by norm_num) (two_zpow_pos _).le)
  const := by
    show 4 * (2 : ℝ) ^ ((-1074 : ℤ) - 1) ≤ 2 ^ (-((53 : ℕ) : ℤ)) * _
    have : 4 * (2 : ℝ) ^ ((-1074 : ℤ) - 1) = 2 ^ (-1073 : ℤ) := by
      rw [show (4 : ℝ) = 2 ^ (2 : ℤ) by norm_num, ← zpow_add₀ (by norm_num)]; norm_num
    rw [this]
    calc (2 : ℝ) ^ (-1073 : ℤ) ≤ 2 ^ (-((53 : ℕ) : ℤ)) * 1 := by
          rw [mul_one]; exact zpow_le_zpow_right₀ (by norm_num) (by norm_num)
      _ ≤ _ := mul_le_mul_of_nonneg_left (by norm_num) (two_zpow_pos _).le
  quot := by
    show 4 * (2 : ℝ) ^ ((-1074 : ℤ) - 1) ≤ 2 ^ (-((53 : ℕ) : ℤ)) * _
    have : 4 * (2 : ℝ) ^ ((-1074 : ℤ) - 1) = 2 ^ (-1073 : ℤ) := by
      rw [show (4 : ℝ) = 2 ^ (2 : ℤ) by norm_num, ← zpow_add₀ (by norm_num)]; norm_num
    rw [this]
    have hs : Real.sqrt 2 ≤ 2 := by
      rw [Real.sqrt_le_left (by norm_num)]; norm_num
    calc (2 : ℝ) ^ (-1073 : ℤ) ≤ 2 ^ (-((53 : ℕ) : ℤ)) * 2 ^ (-2 : ℤ) := by
          rw [← zpow_add₀ (by norm_num)]; exact zpow_le_zpow_right₀ (by norm_num) (by norm_num)
      _ ≤ _ := mul_le_mul_of_nonneg_left (by
          have h0 := Real.sqrt_nonneg |(4 : ℝ) / 2|
          rw [le_div_iff₀ (by norm_num; positivity)]
          norm_num
          linarith) (two_zpow_pos _).le

end Stator.Fp
