import Verif.Poly.Count

/-!
# Properties C29 and C31: sign-variation tests

`(polyOf f).roots` is Mathlib's multiset of roots, with multiplicity, of `∑ fᵢ Xⁱ`.
-/

namespace Stator.Pol

open Polynomial

/-- From a bound with the right parity to exact statements for 0 and 1. -/
theorem one_root {P : ℝ[X]} (hP : P ≠ 0) (A : ℝ → Prop) [DecidablePred A]
    (h : P.roots.countP A = 1) : ∃! x, A x ∧ P.eval x = 0 := by
  rw [Multiset.countP_eq_card_filter, Multiset.card_eq_one] at h
  obtain ⟨r, hr⟩ := h
  have mem : ∀ x, (A x ∧ P.eval x = 0) ↔ x = r := by
    intro x
    have h1 : x ∈ P.roots.filter A ↔ x = r := by rw [hr, Multiset.mem_singleton]
    rw [Multiset.mem_filter, mem_roots', IsRoot] at h1
    tauto
  exact ⟨r, (mem r).2 rfl, fun y hy => (mem y).1 hy⟩

theorem no_root {P : ℝ[X]} (hP : P ≠ 0) (A : ℝ → Prop) [DecidablePred A]
    (h : P.roots.countP A = 0) (x : ℝ) (hx : A x) : P.eval x ≠ 0 := by
  rw [Multiset.countP_eq_zero] at h
  exact fun h0 => h x (mem_roots'.2 ⟨hP, h0⟩) hx

theorem polyOf_ne_zero {n : ℕ} {f : Arr ℝ n} (hf : f ≠ 0) : polyOf f ≠ 0 :=
  fun h => hf (polyOf_inj (h.trans (polyOf_zeros n).symm))

/-! ## C29 -/

/-- **C29**: `descartes_rule_of_signs` bounds the number of positive roots, counted with
multiplicity, and has its parity. -/
theorem C29_bound {n : ℕ} (f : Arr ℝ n) (hf : f ≠ 0) :
    ∃ v, descartes f = some v ∧ (polyOf f).roots.countP (0 < ·) ≤ v ∧
      (polyOf f).roots.countP (0 < ·) % 2 = v % 2 :=
  ⟨_, descartes_eq f, roots_countP_pos_le_signVariations _, roots_parity _ (polyOf_ne_zero hf)⟩

/-- **C29**: 0 means that there is no positive root. -/
theorem C29_zero {n : ℕ} (f : Arr ℝ n) (hf : f ≠ 0) (h : descartes f = some 0) (x : ℝ)
    (hx : 0 < x) : value f x ≠ 0 := by
  obtain ⟨v, e, h1, -⟩ := C29_bound f hf
  rw [h] at e; cases e
  rw [value_eq]
  exact no_root (polyOf_ne_zero hf) _ (Nat.le_zero.1 h1) x hx

/-- **C29**: 1 means that there is exactly one positive root. -/
theorem C29_one {n : ℕ} (f : Arr ℝ n) (hf : f ≠ 0) (h : descartes f = some 1) :
    ∃! x, 0 < x ∧ value f x = 0 := by
  obtain ⟨v, e, h1, h2⟩ := C29_bound f hf
  rw [h] at e; cases e
  have := one_root (polyOf_ne_zero hf) (0 < ·) (by omega)
  simpa only [value_eq] using this

-- x³ - 7x + 6 = (x-1)(x-2)(x+3): two variations
example : descartes (![6, -7, 0, 1] : Arr ℚ 3) = some 2 := by
  decide +kernel


-- x² + x - 1
example : descartes (![-1, 1, 1] : Arr ℝ 2) = some 1 := by
  norm_num [descartes, forUp, rd, signOf]

/-! ## C31 -/

theorem budan_count {n : ℕ} (f : Arr ℝ n) (hf : f ≠ 0) :
    ∃ g, invertTaylorShift f = some g ∧ polyOf g ≠ 0 ∧
      (polyOf f).roots.countP (fun x => 0 < x ∧ x < 1) = (polyOf g).roots.countP (0 < ·) := by
  obtain ⟨g, e, hg⟩ := invertTaylorShift_spec f
  refine ⟨g, e, ?_, ?_⟩
  · rw [hg, polyOf_revArr]
    intro h
    have := congrArg (fun p => p.comp (X - C 1)) h
    simp only [comp_assoc, add_comp, X_comp, C_comp, sub_add_cancel, comp_X, zero_comp] at this
    exact polyOf_ne_zero hf (reflect_eq_zero_iff.1 this)
  · refine countP_transport _ _ (fun r => r⁻¹ - 1) (fun s => (s + 1)⁻¹) ?_ ?_ ?_ ?_ ?_
    · rintro r ⟨h0, h1⟩
      have := (one_lt_inv₀ h0).2 h1
      show 0 < r⁻¹ - 1; linarith
    · intro s hs
      have h1 : (0 : ℝ) < s + 1 := by linarith
      exact ⟨inv_pos.2 h1, inv_lt_one_of_one_lt₀ (by linarith)⟩
    · rintro r ⟨h0, h1⟩; simp
    · intro s hs; simp
    · rintro r ⟨h0, h1⟩
      have := rootMultiplicity_linear (polyOf (revArr f)) 1 1 (r⁻¹ - 1) one_ne_zero
      rw [C_1, one_mul, one_mul, sub_add_cancel] at this
      rw [hg, C_1, this, polyOf_revArr, rootMultiplicity_reflect (polyOf_degree f) h0.ne']

/-- **C31**: `budan_01_test` bounds the number of roots in (0,1), counted with multiplicity, and has
its parity. -/
theorem C31_budan {n : ℕ} (f : Arr ℝ n) (hf : f ≠ 0) :
    ∃ v, budan f = some v ∧ (polyOf f).roots.countP (fun x => 0 < x ∧ x < 1) ≤ v ∧
      (polyOf f).roots.countP (fun x => 0 < x ∧ x < 1) % 2 = v % 2 := by
  obtain ⟨g, e, h0, hc⟩ := budan_count f hf
  refine ⟨(polyOf g).signVariations, ?_, ?_, ?_⟩
  · rw [budan, e]; exact descartes_eq g
  · rw [hc]; exact roots_countP_pos_le_signVariations _
  · rw [hc]; exact roots_parity _ h0

/-- **C31**: 0 means no root in (0,1). -/
theorem C31_budan_zero {n : ℕ} (f : Arr ℝ n) (hf : f ≠ 0) (h : budan f = some 0) (x : ℝ)
    (h0 : 0 < x) (h1 : x < 1) : value f x ≠ 0 := by
  obtain ⟨v, e, h2, -⟩ := C31_budan f hf
  rw [h] at e; cases e
  rw [value_eq]
  exact no_root (polyOf_ne_zero hf) _ (Nat.le_zero.1 h2) x ⟨h0, h1⟩

/-- **C31**: 1 means exactly one root in (0,1). -/
theorem C31_budan_one {n : ℕ} (f : Arr ℝ n) (hf : f ≠ 0) (h : budan f = some 1) :
    ∃! x, (0 < x ∧ x < 1) ∧ value f x = 0 := by
  obtain ⟨v, e, h1, h2⟩ := C31_budan f hf
  rw [h] at e; cases e
  have := one_root (polyOf_ne_zero hf) (fun x => 0 < x ∧ x < 1) (by omega)
  simpa only [value_eq] using this

/-- **C31**: `alesina_galuzzi_test(f, a, b)` bounds the number of roots in (a,b), counted with
multiplicity, and has its parity. -/
theorem C31_alesina_galuzzi {n : ℕ} (f : Arr ℝ n) (hf : f ≠ 0) (a b : ℝ) (hab : a < b) :
    ∃ v, alesinaGaluzzi f a b = some v ∧ (polyOf f).roots.countP (fun x => a < x ∧ x < b) ≤ v ∧
      (polyOf f).roots.countP (fun x => a < x ∧ x < b) % 2 = v % 2 := by
  obtain ⟨g, eg, hg⟩ := shift_spec f a
  obtain ⟨h, eh, hh⟩ := scale_spec g (b - a)
  have hba : b - a ≠ 0 := by linarith
  have hcomp : polyOf h = (polyOf f).comp (C (b - a) * X + C a) := by
    rw [hh, hg, comp_assoc]; congr 1; simp
  have hmul : ∀ x, (polyOf h).rootMultiplicity x = (polyOf f).rootMultiplicity ((b - a) * x + a) := by
    intro x; rw [hcomp, rootMultiplicity_linear _ _ _ _ hba]
  have hh0 : h ≠ 0 := by
    rintro rfl
    have h1 := hcomp
    rw [show polyOf (0 : Arr ℝ n) = 0 from polyOf_zeros n] at h1
    have := congrArg (fun p => p.comp (C (b - a)⁻¹ * (X - C a))) h1
    simp only [zero_comp, comp_assoc, add_comp, mul_comp, C_comp, X_comp, ← mul_assoc, ← C_mul,
      mul_inv_cancel₀ hba, C_1, one_mul, sub_add_cancel, comp_X] at this
    exact polyOf_ne_zero hf this.symm
  have hc : (polyOf f).roots.countP (fun x => a < x ∧ x < b) =
      (polyOf h).roots.countP (fun x => 0 < x ∧ x < 1) := by
    refine countP_transport _ _ (fun r => (r - a) / (b - a)) (fun s => (b - a) * s + a) ?_ ?_ ?_ ?_ ?_
    · rintro r ⟨h0, h1⟩
      exact ⟨div_pos (by linarith) (by linarith), (div_lt_one (by linarith)).2 (by linarith)⟩
    · rintro s ⟨h0, h1⟩
      have hp : 0 < b - a := by linarith
      constructor <;> nlinarith
    · intro r _; field_simp; ring
    · intro s _; field_simp; ring
    · intro r _
      rw [hmul]; congr 1; field_simp; ring
  obtain ⟨v, ev, h1, h2⟩ := C31_budan h hh0
  refine ⟨v, ?_, by rw [hc]; exact h1, by rw [hc]; exact h2⟩
  rw [alesinaGaluzzi, eg]
  simp [eh, ev]

/-- **C31**: 0 means no root in (a,b). -/
theorem C31_alesina_galuzzi_zero {n : ℕ} (f : Arr ℝ n) (hf : f ≠ 0) (a b : ℝ) (hab : a < b)
    (h : alesinaGaluzzi f a b = some 0) (x : ℝ) (h0 : a < x) (h1 : x < b) : value f x ≠ 0 := by
  obtain ⟨v, e, h2, -⟩ := C31_alesina_galuzzi f hf a b hab
  rw [h] at e; cases e
  rw [value_eq]
  exact no_root (polyOf_ne_zero hf) _ (Nat.le_zero.1 h2) x ⟨h0, h1⟩

/-- **C31**: 1 means exactly one root in (a,b). -/
theorem C31_alesina_galuzzi_one {n : ℕ} (f : Arr ℝ n) (hf : f ≠ 0) (a b : ℝ) (hab : a < b)
    (h : alesinaGaluzzi f a b = some 1) : ∃! x, (a < x ∧ x < b) ∧ value f x = 0 := by
  obtain ⟨v, e, h1, h2⟩ := C31_alesina_galuzzi f hf a b hab
  rw [h] at e; cases e
  have := one_root (polyOf_ne_zero hf) (fun x => a < x ∧ x < b) (by omega)
  simpa only [value_eq] using this

-- 2x² - 5x + 2 = (2x-1)(x-2): one root in (0,1); one in (1,3)
example : budan (![2, -5, 2] : Arr ℚ 2) = some 1 := by decide +kernel
example : alesinaGaluzzi (![2, -5, 2] : Arr ℚ 2) 1 3 = some 1 := by decide +kernel
example : budan (![2, -5, 2] : Arr ℝ 2) = some 1 := by
  norm_num [budan, invertTaylorShift, forDown, wr, zeros, descartes, forUp, rd, signOf]
example : alesinaGaluzzi (![2, -5, 2] : Arr ℝ 2) 1 3 = some 1 := by
  norm_num [alesinaGaluzzi, budan, shift, scale, invertTaylorShift, forDown, wr, zeros, descartes,
    forUp, rd, signOf]

end Stator.Pol
