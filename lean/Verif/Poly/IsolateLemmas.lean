import Verif.Poly.Isolate
import Verif.Poly.OpsProps
import Verif.Poly.LmqProps

/-! # Lemmas for the root isolation routines -/

namespace Stator.Pol

open Polynomial

/-! ## Sign changes need coefficients of opposite sign -/

theorem descartes_opp {n : ℕ} (f : Arr ℝ n) {v : ℕ} (e : descartes f = some v) (hv : v ≠ 0) :
    ∃ i j, coef f i * coef f j < 0 := by
  by_contra hno
  push Not at hno
  have key := forUp_inv (lo := 0) (body := fun i (s : ℕ × ℤ) => do
      let c ← rd f i
      let current := signOf c
      some (s.1 + (if current ≠ 0 ∧ s.2 ≠ 0 ∧ current ≠ s.2 then 1 else 0),
        if current ≠ 0 then current else s.2)) (fun c s => s.1 = 0 ∧
      (s.2 = 0 ∨ ∃ i, coef f i ≠ 0 ∧ s.2 = signOf (coef f i))) (n + 1) (0, 0) ⟨rfl, .inl rfl⟩
      (by
        rintro c ⟨s1, s2⟩ hc ⟨h1, h2⟩
        simp only at h1 h2
        subst h1
        rw [Nat.zero_add]
        refine ⟨_, by rw [rd_coef f (show c ≤ n by omega)]; rfl, ?_, ?_⟩
        · simp only [Nat.zero_add]
          rw [if_neg]
          rintro ⟨h3, h4, h5⟩
          rcases h2 with h2 | ⟨i, hi, h2⟩
          · exact h4 h2
          · rw [h2] at h5
            have := hno c i
            unfold signOf at h3 h5
            by_cases hc0 : coef f c = 0
            · simp [hc0] at h3
            · simp only [ne_eq, hc0, hi, not_false_eq_true, if_true] at h5
              rcases lt_or_gt_of_ne hc0 with hc1 | hc1 <;> rcases lt_or_gt_of_ne hi with hi1 | hi1
              · simp [hc1, hi1] at h5
              · nlinarith
              · nlinarith
              · simp [hc1.le.not_gt, hi1.le.not_gt] at h5
        · simp only
          by_cases hc0 : coef f c = 0
          · have hs : signOf (coef f c) = 0 := by simp [signOf, hc0]
            rw [hs]
            simpa using h2
          · right
            refine ⟨c, hc0, ?_⟩
            rw [if_pos]
            unfold signOf
            simp only [ne_eq, hc0, not_false_eq_true, if_true]
            split <;> decide)
  obtain ⟨s, es, h1, -⟩ := key
  rw [descartes, es] at e
  simp [h1] at e
  exact hv e.symm

/-! ## Values of the transformed polynomials -/

theorem invertTaylorShift_val {n : ℕ} (f : Arr ℝ n) :
    ∃ g, invertTaylorShift f = some g ∧
      ∀ x, 0 ≤ x → (value g x = 0 ↔ value f ((x + 1)⁻¹) = 0) := by
  obtain ⟨g, e, h⟩ := invertTaylorShift_spec f
  refine ⟨g, e, fun x hx => ?_⟩
  have hx1 : x + 1 ≠ 0 := by linarith
  rw [value_eq, value_eq, h, eval_comp, eval_add, eval_X, eval_C, eval_revArr f _ hx1]
  simp [hx1]

theorem vasRootZero_val {n : ℕ} (f : Arr ℝ n) (hn : n ≠ 0) (M : Mobius) :
    ∃ g l, vasRootZero f M = some (g, l) ∧ (∀ x, 0 < x → (value g x = 0 ↔ value f x = 0)) ∧
      ((value f 0 ≠ 0 ∧ l = []) ∨ (value f 0 = 0 ∧ l = [(M.eval (some 0), M.eval (some 0))])) := by
  obtain ⟨m, rfl⟩ := Nat.exists_eq_succ_of_ne_zero hn
  have h0 : value f 0 = coef f 0 := by
    rw [value_eq, ← coeff_zero_eq_eval_zero, polyOf_coeff]
  simp only [vasRootZero, rd_coef f (Nat.zero_le _), Option.bind_eq_bind, Option.bind_some]
  by_cases h : coef f 0 = 0
  · rw [if_pos h]
    obtain ⟨b, eb, hb⟩ := deflateZero_spec f h
    obtain ⟨r, er, hr⟩ := promote_spec (m := m + 1) b (by omega)
    refine ⟨r, [(M.eval (some 0), M.eval (some 0))], ?_, fun x hx => ?_, .inr ⟨by rw [h0, h], rfl⟩⟩
    · simp [svPush, eb, er]
    · rw [value_eq, value_eq, hr, hb, eval_mul, eval_X]
      simp [hx.ne']
  · rw [if_neg h]
    exact ⟨f, [], rfl, fun x _ => Iff.rfl, .inl ⟨by rw [h0]; exact h, rfl⟩⟩

theorem horner_val {n : ℕ} (f : Arr ℝ n) (x : ℝ) : horner f x = some (value f x) := by
  rw [horner_spec, value_eq]

/-- The tolerance is not negative at a root at 1. -/
theorem precision_nonneg (eps : ℝ) (he : 0 ≤ eps) {n : ℕ} (f : Arr ℝ n) :
    ∃ p, precision eps f 1 = some p ∧ (value f 1 = 0 → 0 ≤ p) := by
  unfold precision
  split
  · exact ⟨0, rfl, fun _ => le_refl _⟩
  · next hn =>
    obtain ⟨s, e, h1, h2⟩ := forUp_inv (lo := 1) (body := fun i (s : ℝ × ℝ) => do
      let c ← rd f i
      some (s.1 + (2 * (i : ℝ) + 1) * |c| * s.2, s.2 * |(1 : ℝ)|))
      (fun c s => s.2 = 1 ∧ coef f 0 + ∑ i ∈ Finset.range c, coef f (i + 1) ≤ s.1) n
      (coef f 0, |(1 : ℝ)|) ⟨by simp, by simp⟩
      (by
        rintro c ⟨s1, s2⟩ hc ⟨h1, h2⟩
        simp only at h1 h2
        subst h1
        refine ⟨_, by rw [rd_coef f (show 1 + c ≤ n by omega)]; rfl, by simp, ?_⟩
        simp only
        rw [Finset.sum_range_succ, Nat.add_comm 1 c]
        have h3 := le_abs_self (coef f (c + 1))
        have h4 : |coef f (c + 1)| ≤ (2 * ((c + 1 : ℕ) : ℝ) + 1) * |coef f (c + 1)| * 1 := by
          have : (0 : ℝ) ≤ ((c + 1 : ℕ) : ℝ) := by positivity
          nlinarith [abs_nonneg (coef f (c + 1))]
        linarith)
    refine ⟨s.1 * eps, by rw [rd_coef f (Nat.zero_le _)]; simp only [Option.bind_eq_bind, Option.bind_some] at e ⊢; rw [e]; rfl, fun h => ?_⟩
    apply mul_nonneg _ he
    refine le_trans (le_of_eq ?_) h2
    rw [value_eq, polyOf_eq_sum, eval_finsetSum, Finset.sum_range_succ'] at h
    simp at h
    linarith

/-! ## `push_back` in a loop -/

theorem svPushAll_eq {α : Type*} (cap : ℕ) (l r : List α) (h : l.length + r.length ≤ cap) :
    svPushAll cap l r = some (l ++ r) := by
  induction r generalizing l with
  | nil => simp [svPushAll]
  | cons a r ih =>
    simp only [List.length_cons] at h
    rw [svPushAll, svPush, if_pos (by omega), Option.bind_some, ih _ (by simp; omega)]
    simp

/-! ## Möbius transformations -/

/-- The value `(a x + b) / (c x + d)`. -/
noncomputable def mv (M : Mobius) (x : ℝ) : ℝ := (M.a * x + M.b) / (M.c * x + M.d)

/-- What holds for all transformations that occur. -/
structure Good (M : Mobius) : Prop where
  a : 0 ≤ M.a
  b : 0 ≤ M.b
  c : 0 ≤ M.c
  d : 0 < M.d
  det : M.a * M.d - M.b * M.c ≠ 0

/-- `z` lies strictly between the two bounds, in any order; `none` is `+∞`. -/
def Btw : Option ℝ × Option ℝ → ℝ → Prop
  | (some p, some q), z => (p < z ∧ z < q) ∨ (q < z ∧ z < p)
  | (some p, none), z => p < z
  | (none, some q), z => q < z
  | (none, none), _ => False

theorem Good.den {M : Mobius} (h : Good M) {x : ℝ} (hx : 0 ≤ x) : 0 < M.c * x + M.d := by
  have := mul_nonneg h.c hx
  linarith [h.d]

theorem Good.shift {M : Mobius} (h : Good M) {t : ℝ} (ht : 0 ≤ t) : Good (M.shift t) := by
  refine ⟨h.a, add_nonneg h.b (mul_nonneg h.a ht), h.c, ?_, ?_⟩
  · exact add_pos_of_pos_of_nonneg h.d (mul_nonneg h.c ht)
  · have := h.det
    intro h0
    apply this
    simp only [Mobius.shift] at h0
    linarith

theorem Good.scale {M : Mobius} (h : Good M) {t : ℝ} (ht : 0 < t) : Good (M.scale t) := by
  refine ⟨mul_nonneg h.a ht.le, h.b, mul_nonneg h.c ht.le, h.d, ?_⟩
  have := h.det
  intro h0
  apply this
  simp only [Mobius.scale] at h0
  have : t * (M.a * M.d - M.b * M.c) = 0 := by linarith
  exact (mul_eq_zero.1 this).resolve_left ht.ne'

theorem Good.inv {M : Mobius} (h : Good M) : Good M.invertTaylorShift := by
  refine ⟨h.b, add_nonneg h.a h.b, h.d.le, add_pos_of_nonneg_of_pos h.c h.d, ?_⟩
  have := h.det
  intro h0
  apply this
  simp only [Mobius.invertTaylorShift] at h0
  linarith

theorem mv_shift (M : Mobius) (t x : ℝ) : mv (M.shift t) x = mv M (x + t) := by
  simp only [mv, Mobius.shift]
  congr 1 <;> ring

theorem mv_scale (M : Mobius) (t x : ℝ) : mv (M.scale t) x = mv M (t * x) := by
  simp only [mv, Mobius.scale]
  congr 1 <;> ring

theorem mv_inv (M : Mobius) (x : ℝ) (hx : 0 ≤ x) : mv M.invertTaylorShift x = mv M ((x + 1)⁻¹) := by
  have h1 : x + 1 ≠ 0 := by linarith
  simp only [mv, Mobius.invertTaylorShift]
  rw [show M.b * x + (M.a + M.b) = (M.a * (x + 1)⁻¹ + M.b) * (x + 1) by field_simp; ring,
    show M.d * x + (M.c + M.d) = (M.c * (x + 1)⁻¹ + M.d) * (x + 1) by field_simp; ring,
    mul_div_mul_right _ _ h1]

theorem mv_inj {M : Mobius} (h : Good M) {x y : ℝ} (hx : 0 ≤ x) (hy : 0 ≤ y)
    (e : mv M x = mv M y) : x = y := by
  unfold mv at e
  rw [div_eq_div_iff (h.den hx).ne' (h.den hy).ne'] at e
  have : (M.a * M.d - M.b * M.c) * (x - y) = 0 := by linarith
  have := (mul_eq_zero.1 this).resolve_left h.det
  linarith

theorem eval_zero {M : Mobius} (h : Good M) : M.eval (some 0) = some (mv M 0) := by
  have hd := h.d.ne'
  have hdet := h.det
  unfold Mobius.eval mv
  rw [if_neg (by rintro ⟨h1, h2⟩; rw [h1, h2] at hdet; simp at hdet)]
  simp [hd]

theorem eval_inf {M : Mobius} (h : Good M) :
    M.eval none = if M.c = 0 then none else some (M.a / M.c) := by
  have hdet := h.det
  unfold Mobius.eval
  rw [if_neg (by rintro ⟨h1, h2⟩; rw [h1, h2] at hdet; simp at hdet)]
  by_cases hc : M.c = 0
  · have ha : M.a ≠ 0 := by rintro ha; rw [ha, hc] at hdet; simp at hdet
    simp [hc, ha]
  · by_cases ha : M.a = 0 <;> simp [hc, ha]

theorem btw_image {M : Mobius} (h : Good M) (z : ℝ) :
    Btw (M.eval (some 0), M.eval none) z ↔ ∃ x, 0 < x ∧ mv M x = z := by
  have hd := h.d
  rw [eval_zero h, eval_inf h]
  by_cases hc : M.c = 0
  · have hdet := h.det
    rw [hc, mul_zero, sub_zero] at hdet
    have ha : 0 < M.a := lt_of_le_of_ne h.a fun e => hdet (by rw [← e, zero_mul])
    rw [if_pos hc]
    simp only [Btw, mv, hc, zero_mul, zero_add, mul_zero]
    rw [div_lt_iff₀ hd]
    constructor
    · intro hz
      refine ⟨(z * M.d - M.b) / M.a, div_pos (by linarith) ha, ?_⟩
      field_simp; ring
    · rintro ⟨x, hx, rfl⟩
      rw [div_mul_cancel₀ _ hd.ne']
      have := mul_pos ha hx
      linarith
  · have hc0 : 0 < M.c := lt_of_le_of_ne h.c (Ne.symm hc)
    rw [if_neg hc]
    simp only [Btw, mv, mul_zero, zero_add]
    rw [div_lt_iff₀ hd, lt_div_iff₀ hc0, div_lt_iff₀ hc0, lt_div_iff₀ hd]
    constructor
    · intro hz
      have key : ∀ x, (M.a - z * M.c) * x = z * M.d - M.b → M.c * x + M.d ≠ 0 →
          (M.a * x + M.b) / (M.c * x + M.d) = z := by
        intro x hx hx'
        rw [div_eq_iff hx']; linarith
      refine ⟨(z * M.d - M.b) / (M.a - z * M.c), ?_, ?_⟩
      · rcases hz with ⟨h1, h2⟩ | ⟨h1, h2⟩
        · exact div_pos (by linarith) (by linarith)
        · exact div_pos_of_neg_of_neg (by linarith) (by linarith)
      · have hx : 0 < (z * M.d - M.b) / (M.a - z * M.c) := by
          rcases hz with ⟨h1, h2⟩ | ⟨h1, h2⟩
          · exact div_pos (by linarith) (by linarith)
          · exact div_pos_of_neg_of_neg (by linarith) (by linarith)
        refine key _ (mul_div_cancel₀ _ ?_) (h.den hx.le).ne'
        rcases hz with ⟨h1, h2⟩ | ⟨h1, h2⟩
        · linarith
        · linarith
    · rintro ⟨x, hx, rfl⟩
      have hden := h.den hx.le
      rw [div_mul_eq_mul_div, div_mul_eq_mul_div, lt_div_iff₀ hden, div_lt_iff₀ hden,
        lt_div_iff₀ hden, div_lt_iff₀ hden]
      rcases lt_or_gt_of_ne h.det with hdet | hdet
      · right
        constructor
        · nlinarith
        · have := mul_pos hx (neg_pos.2 hdet)
          nlinarith
      · left
        constructor
        · have := mul_pos hx hdet
          nlinarith
        · nlinarith

end Stator.Pol
