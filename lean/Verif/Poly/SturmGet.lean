import Verif.Poly.SturmProps

/-! # The members of the Sturm chain (C28) -/

namespace Stator.Pol
open Polynomial

/-- Specification: the sequence of polynomials that starts with `p` and `q` and continues with minus the
remainder of dividing by the previous one, until that is zero. -/
noncomputable def remainders (p q : ℝ[X]) : ℕ → ℝ[X]
  | 0 => p
  | i + 1 => remainders q (if q = 0 then 0 else -(p % q)) i

theorem remainders_zero : ∀ i, remainders 0 0 i = 0
  | 0 => rfl
  | i + 1 => by simp [remainders, remainders_zero i]

theorem remainders_const (p : ℝ[X]) : ∀ i, remainders p 0 (i + 1) = 0
  | i => by simpa [remainders] using remainders_zero i

theorem mrem_mod (inf : ℝ) {m : ℕ} (f : Arr ℝ (m + 2)) (g : Arr ℝ (m + 1)) :
    ∃ r, mrem inf f g = some r ∧ polyOf r = if polyOf g = 0 then 0 else -(polyOf f % polyOf g) := by
  by_cases hg : polyOf g = 0
  · simpa [hg] using mrem_zero inf f g hg
  · obtain ⟨q, r, e, h, hd⟩ := divide_spec inf f (m + 1) g (by omega) hg
    obtain ⟨r', e', h'⟩ := neg_spec r
    refine ⟨r', by simp [mrem, e, e'], ?_⟩
    rw [if_neg hg, h', h, Polynomial.add_mod, EuclideanDomain.mod_eq_zero.2 (dvd_mul_left _ _), zero_add,
      (Polynomial.mod_eq_self_iff hg).2 hd]

theorem tail_get (inf : ℝ) : (n : ℕ) → (prev : Arr ℝ (n + 1)) → (cur : Arr ℝ n) →
    ∃ c, SturmChain.tail inf n prev cur = some c ∧ ∀ i, ∃ g, c.get i = some g ∧
      polyOf g = remainders (polyOf cur) (if polyOf cur = 0 then 0 else -(polyOf prev % polyOf cur)) i
  | 0, prev, cur => by
    refine ⟨_, rfl, fun i => ⟨_, rfl, ?_⟩⟩
    have hz : (if polyOf cur = 0 then 0 else -(polyOf prev % polyOf cur)) = 0 := by
      split
      · rfl
      · rename_i h
        rw [polyOf_zero_order] at h ⊢
        have : coef cur 0 ≠ 0 := fun h' => h (by rw [h', C_0])
        rw [EuclideanDomain.mod_eq_zero.2 ((isUnit_C.2 (isUnit_iff_ne_zero.2 this)).dvd), neg_zero]
    rw [hz]
    cases i with
    | zero => simp [remainders]
    | succ i => rw [remainders_const]; simpa using polyOf_zeros (K := ℝ) 0
  | n + 1, prev, cur => by
    obtain ⟨r, er, hr⟩ := mrem_mod inf prev cur
    obtain ⟨t, et, ht⟩ := tail_get inf n cur r
    refine ⟨.cons cur t, by simp [SturmChain.tail, er, et], fun i => ?_⟩
    cases i with
    | zero => exact ⟨cur, rfl, rfl⟩
    | succ i =>
      obtain ⟨g, eg, hg⟩ := ht i
      obtain ⟨g', eg', hg'⟩ := promote_spec (m := n + 1) g (by omega)
      refine ⟨g', by simp [SturmChain.get, eg, eg'], ?_⟩
      rw [hg', hg, remainders, ← hr]

/-- **C28**: the polynomials of the chain. `sturm_chain(f).get(i)` is, for every `i`, the `i`-th member of
the sequence `f, f', -rem(f, f'), ...` of the documentation, and the zero polynomial after its end. -/
theorem C28_get (inf : ℝ) {n : ℕ} (f : Arr ℝ n) : ∃ c, sturmChain inf f = some c ∧
    ∀ i, ∃ g, c.get i = some g ∧ polyOf g = remainders (polyOf f) (derivative (polyOf f)) i := by
  cases n with
  | zero =>
    refine ⟨_, rfl, fun i => ⟨_, rfl, ?_⟩⟩
    have hd : derivative (polyOf f) = 0 := by rw [polyOf_zero_order]; simp
    rw [hd]
    cases i with
    | zero => simp [remainders]
    | succ i => rw [remainders_const]; simpa using polyOf_zeros (K := ℝ) 0
  | succ n =>
    obtain ⟨d, ed, hd⟩ := derivArr_spec f
    obtain ⟨t, et, ht⟩ := tail_get inf n f d
    refine ⟨.cons f t, by simp [sturmChain, ed, et], fun i => ?_⟩
    cases i with
    | zero => exact ⟨f, rfl, rfl⟩
    | succ i =>
      obtain ⟨g, eg, hg⟩ := ht i
      obtain ⟨g', eg', hg'⟩ := promote_spec (m := n + 1) g (by omega)
      refine ⟨g', by simp [SturmChain.get, eg, eg'], ?_⟩
      rw [hg', hg, remainders, hd]

/-- The chain of `x² - 1`: the members are `x² - 1`, `2x` and the constant `1`, then zero. -/
example : remainders (X ^ 2 - 1) (derivative (X ^ 2 - 1)) 2 = (1 : ℝ[X]) ∧
    ∀ i, remainders (X ^ 2 - 1) (derivative (X ^ 2 - 1)) (i + 3) = (0 : ℝ[X]) := by
  have hd : derivative (X ^ 2 - 1 : ℝ[X]) = C 2 * X := by
    simp [one_add_one_eq_two]
  have h2 : (C 2 * X : ℝ[X]) ≠ 0 := by simp
  have hm : (X ^ 2 - 1 : ℝ[X]) % (C 2 * X) = -1 := by
    have e : (X ^ 2 - 1 : ℝ[X]) = (C (1 / 2) * X) * (C 2 * X) + -1 := by
      have : (C (1 / 2) * X) * (C 2 * X) = (C (1 / 2 * 2) * X ^ 2 : ℝ[X]) := by rw [C_mul]; ring
      rw [this]; norm_num; ring
    rw [e, Polynomial.add_mod, EuclideanDomain.mod_eq_zero.2 (dvd_mul_left _ _), zero_add, Polynomial.mod_eq_self_iff h2]
    rw [degree_neg, degree_one, degree_C_mul_X (by norm_num)]
    decide
  have h1 : (C 2 * X : ℝ[X]) % 1 = 0 := by simp
  constructor
  · simp only [remainders, hd, if_neg h2, hm, neg_neg]
  · intro i
    simp only [remainders, hd, if_neg h2, hm, neg_neg, one_ne_zero, if_false, h1, neg_zero, if_true]
    cases i with
    | zero => rfl
    | succ i => simpa using remainders_zero (i + 1)

end Stator.Pol
