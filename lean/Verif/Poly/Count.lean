import Verif.Poly.Descartes
import Mathlib.Algebra.Polynomial.Reverse
import Mathlib.Algebra.Polynomial.RingDivision

/-! # Transport of root multiplicities along the substitutions used by the root isolators -/

namespace Stator.Pol

open Polynomial

theorem countP_transport {P Q : ℝ[X]} (A B : ℝ → Prop) [DecidablePred A] [DecidablePred B]
    (σ τ : ℝ → ℝ) (hσ : ∀ r, A r → B (σ r)) (hτ : ∀ s, B s → A (τ s))
    (h1 : ∀ r, A r → τ (σ r) = r) (h2 : ∀ s, B s → σ (τ s) = s)
    (hm : ∀ r, A r → Q.rootMultiplicity (σ r) = P.rootMultiplicity r) :
    P.roots.countP A = Q.roots.countP B := by
  have key : Q.roots.filter B = (P.roots.filter A).map σ := by
    ext s
    by_cases hs : B s
    · rw [Multiset.count_filter_of_pos hs, count_roots]
      have ha := hτ s hs
      have hmul := hm _ ha
      rw [h2 s hs] at hmul
      rw [hmul]
      by_cases hmem : τ s ∈ P.roots.filter A
      · have := Multiset.count_map_eq_count σ (P.roots.filter A) (fun x hx y hy e => by
          have hx' : A x := (Multiset.mem_filter.1 hx).2
          have hy' : A y := (Multiset.mem_filter.1 hy).2
          rw [← h1 x hx', ← h1 y hy', e]) (τ s) hmem
        rw [h2 s hs] at this
        rw [this, Multiset.count_filter_of_pos ha, count_roots]
      · have h0 : P.rootMultiplicity (τ s) = 0 := by
          rw [← count_roots, Multiset.count_eq_zero]
          exact fun h => hmem (Multiset.mem_filter.2 ⟨h, ha⟩)
        rw [h0]
        symm
        rw [Multiset.count_eq_zero]
        intro hc
        obtain ⟨x, hx, rfl⟩ := Multiset.mem_map.1 hc
        apply hmem
        rwa [h1 x (Multiset.mem_filter.1 hx).2]
    · rw [Multiset.count_filter_of_neg hs]
      symm
      rw [Multiset.count_eq_zero]
      intro hc
      obtain ⟨x, hx, rfl⟩ := Multiset.mem_map.1 hc
      exact hs (hσ x (Multiset.mem_filter.1 hx).2)
  rw [Multiset.countP_eq_card_filter, Multiset.countP_eq_card_filter, key, Multiset.card_map]

theorem rootMultiplicity_linear (P : ℝ[X]) (a b x : ℝ) (ha : a ≠ 0) :
    (P.comp (C a * X + C b)).rootMultiplicity x = P.rootMultiplicity (a * x + b) :=
  rootMultiplicity_comp_C_mul_X_add_C P a b x ha.isUnit

theorem reflect_X_sub_C (r : ℝ) : Polynomial.reflect 1 (X - C r) = 1 - C r * X := by
  rw [reflect_sub, reflect_C, show (X : ℝ[X]) = C 1 * X ^ 1 by simp, reflect_C_mul_X_pow]
  simp

theorem dvd_reflect {N m : ℕ} {f : ℝ[X]} (hf : f.natDegree ≤ N) (h0 : f ≠ 0) {r : ℝ} (hr : r ≠ 0)
    (h : (X - C r) ^ m ∣ f) : (X - C r⁻¹) ^ m ∣ Polynomial.reflect N f := by
  obtain ⟨q, rfl⟩ := h
  have hq : q ≠ 0 := right_ne_zero_of_mul h0
  have hm : ((X - C r) ^ m).natDegree = m := by simp
  have hd : m + q.natDegree ≤ N := by
    rw [natDegree_mul (left_ne_zero_of_mul h0) hq, hm] at hf; exact hf
  obtain ⟨k, rfl⟩ := Nat.exists_eq_add_of_le (show m ≤ N by omega)
  rw [reflect_mul _ _ hm.le (show q.natDegree ≤ k by omega)]
  have hp : ∀ m : ℕ, Polynomial.reflect m ((X - C r) ^ m) = (1 - C r * X) ^ m := by
    intro m
    induction m with
    | zero => simp
    | succ m ih =>
      rw [pow_succ, pow_succ, reflect_mul _ _ (by simp) (by simp), ih, reflect_X_sub_C]
  rw [hp]
  refine Dvd.dvd.mul_right (pow_dvd_pow_of_dvd ⟨C (-r), ?_⟩ m) _
  have : C r⁻¹ * C r = (1 : ℝ[X]) := by rw [← C_mul, inv_mul_cancel₀ hr, C_1]
  rw [C_neg]
  linear_combination -this

theorem rootMultiplicity_reflect {N : ℕ} {f : ℝ[X]} (hf : f.natDegree ≤ N) {r : ℝ} (hr : r ≠ 0) :
    (Polynomial.reflect N f).rootMultiplicity r⁻¹ = f.rootMultiplicity r := by
  by_cases h0 : f = 0
  · subst h0; simp
  have h0' : Polynomial.reflect N f ≠ 0 := by rwa [Ne, reflect_eq_zero_iff]
  have hf' : (Polynomial.reflect N f).natDegree ≤ N := (natDegree_reflect_le).trans (by simp [hf])
  apply le_antisymm
  · rw [le_rootMultiplicity_iff h0]
    have := dvd_reflect hf' h0' (inv_ne_zero hr) (pow_rootMultiplicity_dvd _ _)
    rwa [inv_inv, reflect_reflect] at this
  · rw [le_rootMultiplicity_iff h0']
    exact dvd_reflect hf h0 hr (pow_rootMultiplicity_dvd _ _)

theorem polyOf_revArr {n : ℕ} (f : Arr ℝ n) : polyOf (revArr f) = Polynomial.reflect n (polyOf f) := by
  apply polyOf_eq
  intro i
  rw [coeff_reflect, polyOf_coeff]
  by_cases h : i ≤ n
  · rw [coef_revArr f h, revAt_le h]
  · rw [coef_gt _ (by omega), revAt_eq_self_of_lt (by omega), coef_gt _ (by omega)]

end Stator.Pol
