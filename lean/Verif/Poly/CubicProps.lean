import Verif.Poly.Cubic
import Verif.Poly.QuadraticProps
import Verif.Num.RootFindProps

/-! # Property C53: the cubic solver, in exact arithmetic -/

namespace Stator.Pol

open Polynomial

theorem cbrt_cube (x : ℝ) : cbrt x ^ 3 = x := by
  have key : ∀ y : ℝ, 0 ≤ y → (y ^ ((1 : ℝ) / 3)) ^ 3 = y := by
    intro y hy
    rw [← Real.rpow_natCast, ← Real.rpow_mul hy]; norm_num
  unfold cbrt
  split
  · next h =>
    rw [Odd.neg_pow (by decide), key _ (by linarith)]; ring
  · next h => exact key x (not_lt.1 h)

theorem cube_inj {a b : ℝ} (h : a ^ 3 = b ^ 3) : a = b :=
  (Odd.strictMono_pow (n := 3) (by decide)).injective h

theorem cbrt_inv {a : ℝ} : cbrt a⁻¹ = (cbrt a)⁻¹ := by
  apply cube_inj
  rw [cbrt_cube, inv_pow, cbrt_cube]

theorem value_three (f : Arr ℝ 3) (x : ℝ) :
    value f x = f 0 + f 1 * x + f 2 * x ^ 2 + f 3 * x ^ 3 := by
  simp [value, Fin.sum_univ_succ]; ring

theorem polish_root (E : Env) {n : ℕ} (f : Arr ℝ n) (x : ℝ) (h : value f x = 0) :
    polish E f x = x := by
  unfold polish
  have : derivObj f x 0 = 0 := by
    obtain ⟨r, e, hr⟩ := C21_eval_derivatives 2 f x
    unfold derivObj
    rw [e]
    have := hr 0
    rw [Fin.val_zero, Function.iterate_zero, id, ← value_eq, h] at this
    rw [← this, ← coef_fin r]; rfl
  rw [(Num.C35_exact_root _ E.z _ _ _ _ _ _ this).2]

/-- Deflation by a root, followed by the quadratic solver. -/
theorem deflateAndSolve_spec (E : Env) (hS : 2 < E.S) (f : Arr ℝ 3) (root : ℝ)
    (hroot : value f root = 0) (h3 : f 3 ≠ 0) (hr : |f 2 / f 3 + root| ≤ E.maxSqrt) :
    ∃ l, deflateAndSolve E f root = some l ∧ l.Pairwise (· ≤ ·) ∧ ∀ x, x ∈ l ↔ value f x = 0 := by
  obtain ⟨b, eb, hb⟩ := C26_deflate E.S E.sp (n := 2) hS f root hroot (.inr (by norm_num))
  -- the coefficients of the quotient
  have hp : polyOf f = (X - C root) * polyOf b := Polynomial.funext fun x => by
    rw [eval_mul, ← value_eq, ← value_eq, hb]; simp
  have c3 : f 3 = b 2 := by
    have := congrArg (fun p => coeff p 3) hp
    simp only [sub_mul, coeff_sub, coeff_C_mul, coeff_X_mul, polyOf_coeff] at this
    rw [coef_gt b (i := 3) (by norm_num)] at this
    simpa [coef] using this
  have c2 : f 2 = b 1 - root * b 2 := by
    have := congrArg (fun p => coeff p 2) hp
    simp only [sub_mul, coeff_sub, coeff_C_mul, coeff_X_mul, polyOf_coeff] at this
    simpa [coef] using this
  have hb2 : b 2 ≠ 0 := c3 ▸ h3
  obtain ⟨l, el, -, hl⟩ := C27_quadratic E.maxSqrt b (fun h => hb2 (by rw [h]; rfl)) (by
    have : b 1 / b 2 = f 2 / f 3 + root := by
      rw [c2, c3]; field_simp; ring
    rw [this]; exact hr)
  have hmap : l.map (polish E f) = l := by
    conv_rhs => rw [← List.map_id l]
    apply List.map_congr_left
    intro x hx
    rw [polish_root E f x (by rw [hb, (hl x).1 hx, mul_zero])]; rfl
  refine ⟨(l.map (polish E f) ++ [root]).insertionSort (· ≤ ·), by simp [deflateAndSolve, eb, el],
    List.pairwise_insertionSort _ _, fun x => ?_⟩
  rw [List.mem_insertionSort, hmap, List.mem_append, List.mem_singleton, hl, hb, mul_eq_zero,
    sub_eq_zero, or_comm]

/-- The depressed form. -/
theorem depressed (f0 f1 f2 x : ℝ) :
    f0 + f1 * x + f2 * x ^ 2 + x ^ 3 = (x + f2 / 3) ^ 3 + 3 * (f1 / 3 - f2 * f2 / 9) * (x + f2 / 3) +
      (f0 + (2 * f2 * f2 / 9 - f1) * (f2 / 3)) := by
  ring

theorem cardano_neg {u v j : ℝ} (hj : j = (u + u) * (u + u) * u + v * v) (hpos : 0 < j) (hv : v < 0) :
    let y := cbrt (1 / 2 * (Real.sqrt j - v)) - u * cbrt (2 / (Real.sqrt j - v))
    y ^ 3 + 3 * u * y + v = 0 := by
  intro y
  have hw := Real.sqrt_pos.2 hpos
  have hw2 := Real.sq_sqrt hpos.le
  set w := Real.sqrt j
  have hA : 1 / 2 * (w - v) ≠ 0 := by
    have : 0 < w - v := by linarith
    positivity
  have hB : 2 / (w - v) = (1 / 2 * (w - v))⁻¹ := by
    rw [mul_inv, one_div, inv_inv]; rfl
  set A := cbrt (1 / 2 * (w - v))
  have hA3 : A ^ 3 = 1 / 2 * (w - v) := cbrt_cube _
  have hA0 : A ≠ 0 := by rintro h; rw [h] at hA3; apply hA; rw [← hA3]; norm_num
  have hy : y = A - u * A⁻¹ := by simp only [y]; rw [hB, cbrt_inv]
  have e1 : (y ^ 3 + 3 * u * y + v) * A ^ 3 = A ^ 6 - u ^ 3 + v * A ^ 3 := by
    rw [hy]; field_simp; ring
  have e2 : (y ^ 3 + 3 * u * y + v) * A ^ 3 = 0 := by
    rw [e1, show A ^ 6 = (A ^ 3) ^ 2 by ring, hA3]
    nlinarith
  exact (mul_eq_zero.1 e2).resolve_right (pow_ne_zero 3 hA0)

theorem cardano_nonneg {u v j : ℝ} (hj : j = (u + u) * (u + u) * u + v * v) (hpos : 0 < j)
    (hv : 0 ≤ v) :
    let y := u * cbrt (2 / (Real.sqrt j + v)) - cbrt (1 / 2 * (Real.sqrt j + v))
    y ^ 3 + 3 * u * y + v = 0 := by
  intro y
  have hw := Real.sqrt_pos.2 hpos
  have hw2 := Real.sq_sqrt hpos.le
  set w := Real.sqrt j
  have hA : 1 / 2 * (w + v) ≠ 0 := by
    have : 0 < w + v := by linarith
    positivity
  have hB : 2 / (w + v) = (1 / 2 * (w + v))⁻¹ := by
    rw [mul_inv, one_div, inv_inv]; rfl
  set A := cbrt (1 / 2 * (w + v))
  have hA3 : A ^ 3 = 1 / 2 * (w + v) := cbrt_cube _
  have hA0 : A ≠ 0 := by rintro h; rw [h] at hA3; apply hA; rw [← hA3]; norm_num
  have hy : y = u * A⁻¹ - A := by simp only [y]; rw [hB, cbrt_inv]
  have e1 : (y ^ 3 + 3 * u * y + v) * A ^ 3 = u ^ 3 - A ^ 6 + v * A ^ 3 := by
    rw [hy]; field_simp; ring
  have e2 : (y ^ 3 + 3 * u * y + v) * A ^ 3 = 0 := by
    rw [e1, show A ^ 6 = (A ^ 3) ^ 2 by ring, hA3]
    nlinarith
  exact (mul_eq_zero.1 e2).resolve_right (pow_ne_zero 3 hA0)

/-- The three roots in the trigonometric case. -/
theorem trigRoots_spec (E : Env) (g : Arr ℝ 3) (f0 f1 f2 uo3 v : ℝ)
    (hg : ∀ x, value g x = f0 + f1 * x + f2 * x ^ 2 + x ^ 3)
    (hv : v = f0 + (2 * f2 * f2 / 9 - f1) * (f2 / 3)) (hu : uo3 = f1 / 3 - f2 * f2 / 9)
    (hneg : uo3 < 0) (hj : (uo3 + uo3) * (uo3 + uo3) * uo3 + v * v ≤ 0) :
    (trigRoots E g f2 uo3 v).Pairwise (· ≤ ·) ∧
      ∀ x, x ∈ trigRoots E g f2 uo3 v ↔ value g x = 0 := by
  have hm : -uo3 > 0 := by linarith
  unfold trigRoots
  simp only [if_pos hm]
  set s : ℝ := if f2 > 0 then -Real.sqrt (-uo3) else Real.sqrt (-uo3) with hs
  have hs2 : s ^ 2 = -uo3 := by
    rw [hs]; split
    · rw [neg_sq, Real.sq_sqrt hm.le]
    · rw [Real.sq_sqrt hm.le]
  have hs0 : s ≠ 0 := by rintro h; rw [h] at hs2; norm_num at hs2; linarith
  have hsc : s * -uo3 ≠ 0 := mul_ne_zero hs0 hm.ne'
  rw [if_neg hsc]
  -- the clamp is inactive
  have ht1 : |-v / (s * -uo3 + s * -uo3)| ≤ 1 := by
    rw [abs_div, div_le_one (abs_pos.2 (by
      have : s * -uo3 + s * -uo3 = 2 * (s * -uo3) := by ring
      rw [this]; exact mul_ne_zero two_ne_zero hsc)), abs_neg]
    rw [← sq_le_sq]
    have : (s * -uo3 + s * -uo3) ^ 2 = 4 * s ^ 2 * uo3 ^ 2 := by ring
    rw [this, hs2]
    nlinarith
  have hclamp : min (max (-v / (s * -uo3 + s * -uo3)) (-1)) 1 = -v / (s * -uo3 + s * -uo3) := by
    rw [max_eq_left (abs_le.1 ht1).1, min_eq_left (abs_le.1 ht1).2]
  rw [hclamp]
  set t := -v / (s * -uo3 + s * -uo3) with ht
  have htv : 2 * s ^ 3 * t = -v := by
    rw [ht, show s ^ 3 = s * s ^ 2 by ring, hs2]
    have hu0 : uo3 ≠ 0 := hneg.ne
    field_simp; ring
  set k := Real.arccos t / 3 with hk
  have hcos3 : 4 * Real.cos k ^ 3 - 3 * Real.cos k = t := by
    rw [← Real.cos_three_mul, hk, show 3 * (Real.arccos t / 3) = Real.arccos t by ring,
      Real.cos_arccos (abs_le.1 ht1).1 (abs_le.1 ht1).2]
  set c := Real.cos k with hc
  have hsin : ¬ 1 - c * c < 0 := by
    have := Real.sin_sq_add_cos_sq k
    nlinarith [sq_nonneg (Real.sin k)]
  rw [if_neg hsin]
  set σ := Real.sqrt (1 - c * c) with hσ
  have hσ2 : σ ^ 2 = 1 - c * c := Real.sq_sqrt (not_lt.1 hsin)
  set q := Real.sqrt 3 with hq
  have hq2 : q ^ 2 = 3 := Real.sq_sqrt (by norm_num)
  have hfac : ∀ x, value g x = (x - ((s + s) * c - f2 / 3)) * (x - (s * (-c + q * σ) - f2 / 3)) *
      (x - (s * (-c - q * σ) - f2 / 3)) := by
    intro x
    rw [hg, depressed, ← hu, ← hv]
    set y := x + f2 / 3 with hy
    have e : (x - ((s + s) * c - f2 / 3)) * (x - (s * (-c + q * σ) - f2 / 3)) *
      (x - (s * (-c - q * σ) - f2 / 3)) = (y - 2 * s * c) * ((y + s * c) ^ 2 - s ^ 2 * (q ^ 2 * σ ^ 2)) := by
      rw [hy]; ring
    rw [e, hq2, hσ2]
    linear_combination 3 * y * hs2 + 2 * s ^ 3 * hcos3 + htv
  have hroot : ∀ r, (r = (s + s) * c - f2 / 3 ∨ r = s * (-c + q * σ) - f2 / 3 ∨
      r = s * (-c - q * σ) - f2 / 3) ↔ value g r = 0 := by
    intro r
    rw [hfac, mul_eq_zero, mul_eq_zero, sub_eq_zero, sub_eq_zero, sub_eq_zero, or_assoc]
  rw [polish_root E g _ ((hroot _).1 (.inl rfl)), polish_root E g _ ((hroot _).1 (.inr (.inl rfl))),
    polish_root E g _ ((hroot _).1 (.inr (.inr rfl)))]
  refine ⟨List.pairwise_insertionSort _ _, fun x => ?_⟩
  rw [List.mem_insertionSort, ← hroot]
  simp

/-- A root of a monic cubic is at most one larger than the coefficients. -/
theorem root_bound {f0 f1 f2 B r : ℝ} (h0 : |f0| ≤ B) (h1 : |f1| ≤ B) (h2 : |f2| ≤ B)
    (h : f0 + f1 * r + f2 * r ^ 2 + r ^ 3 = 0) : |r| ≤ 1 + B := by
  have hB : 0 ≤ B := (abs_nonneg _).trans h0
  by_contra hlt
  rw [not_le] at hlt
  have e : |r| ^ 3 = |f0 + f1 * r + f2 * r ^ 2| := by
    rw [← abs_pow, ← abs_neg (f0 + f1 * r + f2 * r ^ 2)]; congr 1; linear_combination h
  have e2 : |f0 + f1 * r + f2 * r ^ 2| ≤ B + B * |r| + B * |r| ^ 2 := by
    calc |f0 + f1 * r + f2 * r ^ 2| ≤ |f0| + |f1 * r| + |f2 * r ^ 2| := abs_add_three _ _ _
      _ = |f0| + |f1| * |r| + |f2| * |r| ^ 2 := by rw [abs_mul, abs_mul, abs_pow]
      _ ≤ _ := by gcongr
  have hr1 : 1 < |r| := by linarith
  nlinarith [sq_nonneg (|r|), mul_pos (sub_pos.2 hlt) (show 0 < |r| ^ 2 by positivity),
    mul_pos (show (0 : ℝ) < |r| by linarith) (sub_pos.2 hr1)]

/-- **C53**: for every cubic with `f₃ ≠ 0` whose coefficients, divided by `f₃`, are bounded by some
`B` with `(1 + B)⁴ ≤ √(largest double)`, the result is sorted and consists of exactly the real
roots. -/
theorem C53_cubic (E : Env) (hS : 2 < E.S) (f : Arr ℝ 3) (h3 : f 3 ≠ 0) (B : ℝ)
    (h0 : |f 0 / f 3| ≤ B) (h1 : |f 1 / f 3| ≤ B) (h2 : |f 2 / f 3| ≤ B)
    (hB : (1 + B) ^ 4 ≤ E.maxSqrt) :
    ∃ l, solve3 E f = some l ∧ l.Pairwise (· ≤ ·) ∧ ∀ x, x ∈ l ↔ value f x = 0 := by
  have hB0 : 0 ≤ B := (abs_nonneg _).trans h0
  have hM1 : 1 + B ≤ E.maxSqrt := le_trans (by nlinarith [sq_nonneg B, mul_nonneg hB0 hB0, mul_nonneg (mul_nonneg hB0 hB0) hB0, sq_nonneg (B*B)]) hB
  have hM2 : (1 + B) ^ 2 ≤ E.maxSqrt := le_trans (by
    exact pow_le_pow_right₀ (by linarith) (by norm_num)) hB
  have hM3 : (1 + B) ^ 3 ≤ E.maxSqrt := le_trans (by
    exact pow_le_pow_right₀ (by linarith) (by norm_num)) hB
  unfold solve3
  rw [if_neg h3]
  by_cases hf0 : f 0 = 0
  · rw [if_pos hf0]
    exact deflateAndSolve_spec E hS f 0 (by rw [value_three, hf0]; ring) h3
      (by rw [add_zero]; linarith)
  · rw [if_neg hf0]
    obtain ⟨g, e, hgc⟩ := divConst_spec f (fun _ => f 3 : Arr ℝ 0)
    have hc : ∀ i, coef g i = coef f i / f 3 := fun i => by rw [hgc]; rfl
    have r0 : rd g 0 = some (f 0 / f 3) := by rw [rd_coef g (by omega), hc]; rfl
    have r1 : rd g 1 = some (f 1 / f 3) := by rw [rd_coef g (by omega), hc]; rfl
    have r2 : rd g 2 = some (f 2 / f 3) := by rw [rd_coef g (by omega), hc]; rfl
    have g2 : g 2 = f 2 / f 3 := by
      have := hc 2; rwa [show coef g 2 = g 2 from rfl] at this
    have g3 : g 3 = 1 := by
      have := hc 3
      rw [show coef g 3 = g 3 from rfl, show coef f 3 = f 3 from rfl, div_self h3] at this
      exact this
    have hgv : ∀ x, value g x = f 0 / f 3 + f 1 / f 3 * x + f 2 / f 3 * x ^ 2 + x ^ 3 := by
      intro x
      have a0 := hc 0; rw [show coef g 0 = g 0 from rfl, show coef f 0 = f 0 from rfl] at a0
      have a1 := hc 1; rw [show coef g 1 = g 1 from rfl, show coef f 1 = f 1 from rfl] at a1
      rw [value_three, a0, a1, g2, g3]; ring
    have hfv : ∀ x, value f x = 0 ↔ value g x = 0 := by
      intro x
      have : value f x = f 3 * value g x := by rw [value_three, hgv]; field_simp
      rw [this, mul_eq_zero, or_iff_right h3]
    simp only [e, r0, r1, r2, Option.bind_eq_bind, Option.bind_some]
    set f0 := f 0 / f 3 with ef0
    set f1 := f 1 / f 3 with ef1
    set f2 := f 2 / f 3 with ef2
    have hf0' : f0 ≠ 0 := div_ne_zero hf0 h3
    have hdefl : ∀ r, value g r = 0 → ∃ l, deflateAndSolve E g r = some l ∧ l.Pairwise (· ≤ ·) ∧
        ∀ x, x ∈ l ↔ value f x = 0 := by
      intro r hr
      obtain ⟨l, el, hl, hx⟩ := deflateAndSolve_spec E hS g r hr (by rw [g3]; norm_num) (by
        have hb := root_bound h0 h1 h2 (by rw [← hgv]; exact hr)
        rw [g2, g3, div_one]
        refine (abs_add_le _ _).trans ?_
        nlinarith)
      exact ⟨l, el, hl, fun x => by rw [hx, hfv]⟩
    by_cases hsp : f2 = 0 ∧ f1 = 0
    · rw [if_pos hsp]
      refine ⟨_, rfl, by simp, fun x => ?_⟩
      rw [hfv, hgv, hsp.1, hsp.2, List.mem_singleton]
      constructor
      · rintro rfl; rw [cbrt_cube]; ring
      · intro h
        apply cube_inj
        rw [cbrt_cube]; linear_combination h
    · rw [if_neg hsp]
      have a0 := abs_le.1 h0
      have a1 := abs_le.1 h1
      have a2 := abs_le.1 h2
      have b22 : f2 * f2 ≤ B * B := by nlinarith
      have hv3 : |f0 + (2 * f2 * f2 / 9 - f1) * (f2 / 3)| ≤ (1 + B) ^ 3 := by
        have t1 : |(2 * f2 * f2 / 9 - f1) * (f2 / 3)| ≤ (2 * (B * B) / 9 + B) * (B / 3) := by
          rw [abs_mul, abs_div, abs_of_pos (show (0 : ℝ) < 3 by norm_num)]
          have : |2 * f2 * f2 / 9 - f1| ≤ 2 * (B * B) / 9 + B := by
            refine (abs_sub _ _).trans (add_le_add ?_ h1)
            rw [abs_of_nonneg (by nlinarith [mul_self_nonneg f2])]
            nlinarith
          gcongr
        refine (abs_add_le _ _).trans ((add_le_add h0 t1).trans ?_)
        nlinarith [mul_nonneg hB0 hB0, mul_nonneg (mul_nonneg hB0 hB0) hB0]
      have hu2 : |(f1 / 3 - f2 * f2 / 9) + (f1 / 3 - f2 * f2 / 9)| ≤ (1 + B) ^ 2 := by
        rw [abs_le]; constructor <;> nlinarith [mul_self_nonneg f2, mul_nonneg hB0 hB0]
      have hv3' := abs_le.1 hv3
      have hu2' := abs_le.1 hu2
      rw [if_neg (by rw [not_or]; constructor <;> linarith), if_neg (by linarith),
        if_neg (by linarith), if_neg (by rw [not_or]; constructor <;> linarith),
        if_neg (by rw [not_or]; constructor <;> linarith),
        if_neg (by rw [not_or]; constructor <;> linarith)]
      set v := f0 + (2 * f2 * f2 / 9 - f1) * (f2 / 3) with ev
      set u := f1 / 3 - f2 * f2 / 9 with eu
      have hu4 : (u + u) * (u + u) ≤ (1 + B) ^ 4 := by
        have h := mul_self_le_mul_self (abs_nonneg _) hu2
        rw [abs_mul_abs_self] at h
        calc (u + u) * (u + u) ≤ (1 + B) ^ 2 * (1 + B) ^ 2 := h
          _ = _ := by ring
      rw [if_neg (by linarith)]
      split
      · next hj =>
        have hroot : ∀ y, y ^ 3 + 3 * u * y + v = 0 → value g (y - f2 / 3) = 0 := by
          intro y hy
          rw [hgv, depressed, ← ev, ← eu]
          rw [sub_add_cancel]; exact hy
        split
        · next hv =>
          have := hroot _ (cardano_neg (u := u) (v := v) rfl hj hv)
          rw [polish_root E g _ this]
          exact hdefl _ this
        · next hv =>
          have := hroot _ (cardano_nonneg (u := u) (v := v) rfl hj (not_lt.1 hv))
          rw [polish_root E g _ this]
          exact hdefl _ this
      · next hj =>
        rw [gt_iff_lt, not_lt] at hj
        split
        · next hu =>
          have hu3 : 0 ≤ (u + u) * (u + u) * u := mul_nonneg (mul_self_nonneg _) hu
          have hv0 : v = 0 := by
            have : v * v ≤ 0 := by linarith
            exact mul_self_eq_zero.1 (le_antisymm this (mul_self_nonneg v))
          have hu0 : u = 0 := by
            rw [hv0] at hj
            have h4 : 4 * u ^ 3 ≤ 0 := by nlinarith
            by_contra hne
            have : 0 < u := lt_of_le_of_ne hu (Ne.symm hne)
            have : 0 < u ^ 3 := by positivity
            linarith
          refine ⟨_, rfl, by simp, fun x => ?_⟩
          rw [hfv, hgv, depressed, ← ev, ← eu, hv0, hu0, List.mem_singleton]
          have hc0 : cbrt 0 = 0 := by
            have := cbrt_cube 0
            exact pow_eq_zero_iff (by norm_num) |>.1 this
          rw [hc0]
          constructor
          · rintro rfl; ring
          · intro h
            have : (x + f2 / 3) ^ 3 = 0 := by linear_combination h
            have := (pow_eq_zero_iff (by norm_num)).1 this
            linear_combination this
        · next hu =>
          obtain ⟨hl, hx⟩ := trigRoots_spec E g f0 f1 f2 u v hgv rfl rfl (not_le.1 hu) hj
          exact ⟨_, rfl, hl, fun x => by rw [hx, hfv]⟩

/-- **C53**: a cubic with `f₃ = 0` is handed to the quadratic solver. -/
theorem C53_degenerate (E : Env) (f : Arr ℝ 3) (h3 : f 3 = 0) (hf : f ≠ 0)
    (hr : |f 1 / f 2| ≤ E.maxSqrt) :
    ∃ l, solve3 E f = some l ∧ l.Pairwise (· ≤ ·) ∧ ∀ x, x ∈ l ↔ value f x = 0 := by
  unfold solve3
  rw [if_pos h3]
  obtain ⟨g, e, hg⟩ := C33_coefficients 2 f
  have g0 : g 0 = f 0 := hg 0
  have g1 : g 1 = f 1 := hg 1
  have g2 : g 2 = f 2 := hg 2
  obtain ⟨l, el, hl, hx⟩ := C27_quadratic E.maxSqrt g (by
    rintro rfl
    apply hf
    funext i; fin_cases i
    · exact g0.symm
    · exact g1.symm
    · exact g2.symm
    · exact h3) (by rw [g1, g2]; exact hr)
  refine ⟨l, by simp [e, el], hl, fun x => ?_⟩
  rw [hx, value_two, value_three, g0, g1, g2, h3]; simp

/-- **C53** fails outside that range, for every value of `√(largest double)`: there is a cubic for
which the guess used to avoid an overflow, 0, is returned as a root although the value there is 1. -/
theorem C53_range_fails (E : Env) (hM : 27000 ≤ E.maxSqrt) :
    ∃ f : Arr ℝ 3, f 3 = 1 ∧ ∃ l, solve3 E f = some l ∧ 0 ∈ l ∧ value f 0 = 1 := by
  set M := E.maxSqrt with hMdef
  set t := cbrt M with ht
  have ht3 : t ^ 3 = M := cbrt_cube M
  have ht30 : 30 ≤ t := by
    by_contra h
    rw [not_le] at h
    have : t ^ 3 < 30 ^ 3 := (Odd.strictMono_pow (n := 3) (by decide)) h
    rw [ht3] at this; linarith
  have hM0 : 0 ≤ M := by linarith
  refine ⟨![1, 0, t, 1], rfl, ?_⟩
  have hval : value (![1, 0, t, 1] : Arr ℝ 3) 0 = 1 := by rw [value_three]; simp
  unfold solve3
  rw [if_neg (by show (1 : ℝ) ≠ 0; norm_num), if_neg (by show (1 : ℝ) ≠ 0; norm_num)]
  obtain ⟨g, e, hgc⟩ := divConst_spec (![1, 0, t, 1] : Arr ℝ 3)
    (fun _ => (![1, 0, t, 1] : Arr ℝ 3) 3 : Arr ℝ 0)
  have hc : ∀ i, coef g i = coef (![1, 0, t, 1] : Arr ℝ 3) i / 1 := fun i => by rw [hgc]; rfl
  have r0 : rd g 0 = some 1 := by rw [rd_coef g (by omega), hc, div_one]; rfl
  have r1 : rd g 1 = some 0 := by rw [rd_coef g (by omega), hc, div_one]; rfl
  have r2 : rd g 2 = some t := by rw [rd_coef g (by omega), hc, div_one]; rfl
  simp only [e, r0, r1, r2, Option.bind_eq_bind, Option.bind_some]
  have t0 : 0 < t := by linarith
  have tM : t ≤ M := by rw [← ht3]; nlinarith [mul_pos t0 t0]
  have t2M : t * t ≤ M := by rw [← ht3]; nlinarith [mul_pos t0 t0]
  have t4M : 30 * M ≤ t * t * (t * t) := by rw [← ht3]; nlinarith [mul_pos (mul_pos t0 t0) t0]
  have hv : (1 : ℝ) + (2 * t * t / 9 - 0) * (t / 3) = 1 + 2 * M / 27 := by rw [← ht3]; ring
  rw [if_neg (by rintro ⟨h, -⟩; linarith), if_neg (by rw [not_or]; constructor <;> linarith),
    if_neg (by linarith), if_neg (by linarith), if_neg (by rw [not_or]; constructor <;> linarith),
    if_neg (by rw [hv, not_or]; constructor <;> linarith),
    if_neg (by rw [not_or]; constructor <;> nlinarith), if_pos (by nlinarith)]
  have hg0 : rangeGuess 1 0 t = 0 := by simp [rangeGuess, t0.ne']
  rw [hg0]
  -- deflation by 0 just drops the constant term
  unfold deflateAndSolve deflate
  rw [if_pos rfl]
  unfold deflateZero
  obtain ⟨b, eb, hb⟩ := forUp_fill (K := ℝ) (m := 2) (lo := 0) (s := 0) (cnt := 3)
    (body := fun i b => do let c ← rd g (1 + i); wr b i c) (fun i => coef g (1 + i))
    (fun i a _ hi => by simp [rd_coef g (show 1 + i ≤ 3 by omega)]) (by norm_num) (zeros 2)
  have b1 : b 1 = t := by
    have := hb 1
    rw [if_pos (by norm_num), hc, div_one] at this
    exact this
  have b2 : b 2 = 1 := by
    have := hb 2
    rw [if_pos (by norm_num), hc, div_one] at this
    exact this
  obtain ⟨l, el, -, -⟩ := C27_quadratic E.maxSqrt b (fun h => by rw [h] at b2; simp at b2)
    (by rw [b1, b2, div_one, abs_of_pos t0]; exact tM)
  simp only [Option.bind_eq_bind] at eb
  refine ⟨(l.map (polish E g) ++ [0]).insertionSort (· ≤ ·), by simp [eb, el], ?_, hval⟩
  rw [List.mem_insertionSort]; simp

-- 2(x-1)(x-2)(x+3) = 2x³ - 14x + 12
example (E : Env) (hS : 2 < E.S) (hM : 10 ^ 4 ≤ E.maxSqrt) :
    ∃ l, solve3 E ![12, -14, 0, 2] = some l ∧ l.Pairwise (· ≤ ·) ∧
      ∀ x, x ∈ l ↔ value (![12, -14, 0, 2] : Arr ℝ 3) x = 0 := by
  refine C53_cubic E hS _ (by show (2 : ℝ) ≠ 0; norm_num) 9 ?_ ?_ ?_ (le_trans (by norm_num) hM)
  · show |(12 : ℝ) / 2| ≤ 9; norm_num [abs_of_nonneg]
  · show |(-14 : ℝ) / 2| ≤ 9; rw [show (-14 : ℝ) / 2 = -7 by norm_num, abs_neg]; norm_num [abs_of_nonneg]
  · show |(0 : ℝ) / 2| ≤ 9; norm_num

end Stator.Pol
