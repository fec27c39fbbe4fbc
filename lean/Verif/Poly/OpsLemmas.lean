import Verif.Poly.Ops
import Mathlib.Algebra.Polynomial.Taylor
import Mathlib.Algebra.Polynomial.FieldDivision
import Mathlib.Algebra.Polynomial.Reverse
import Mathlib.Tactic.LinearCombination
import Mathlib.Tactic.Ring

/-! # What the polynomial operations compute, in terms of Mathlib's polynomials -/

namespace Stator.Pol

open Polynomial

variable {K : Type*}

theorem coef_zeros [Zero K] (n i : ℕ) : coef (zeros n : Arr K n) i = 0 := by
  unfold coef zeros; split <;> rfl

theorem polyOf_zeros [Semiring K] (n : ℕ) : polyOf (zeros n : Arr K n) = 0 :=
  polyOf_eq fun i => by simp [coef_zeros]

theorem polyOf_zero_order [Semiring K] (g : Arr K 0) : polyOf g = C (coef g 0) := by
  apply polyOf_eq
  intro i
  cases i with
  | zero => simp
  | succ i => rw [coef_gt g (by omega), coeff_C_succ]

/-- A loop that writes `v i` to position `s + i` for `lo ≤ i < lo + cnt`. -/
theorem forUp_fill [Zero K] {m : ℕ} {body : ℕ → Arr K m → Option (Arr K m)} {lo s cnt : ℕ}
    (v : ℕ → K) (hb : ∀ i a, lo ≤ i → i < lo + cnt → body i a = wr a (s + i) (v i))
    (hm : cnt = 0 ∨ s + lo + cnt ≤ m + 1) (a : Arr K m) :
    ∃ b, forUp body lo cnt a = some b ∧
      ∀ j, coef b j = if s + lo ≤ j ∧ j < s + lo + cnt then v (j - s) else coef a j := by
  refine forUp_inv (fun c b => ∀ j, coef b j =
    if s + lo ≤ j ∧ j < s + lo + c then v (j - s) else coef a j) cnt a ?_ ?_
  · intro j; rw [if_neg (by omega)]
  · intro c b hc hI
    obtain ⟨b', e, h'⟩ := wr_coef b (i := s + (lo + c)) (v (lo + c)) (by omega)
    refine ⟨b', by rw [hb _ _ (by omega) (by omega), e], fun j => ?_⟩
    rw [h', hI]
    by_cases h1 : j = s + (lo + c)
    · subst h1
      rw [if_pos rfl, if_pos (by omega), Nat.add_sub_cancel_left]
    · rw [if_neg h1]
      by_cases h2 : s + lo ≤ j ∧ j < s + lo + c
      · rw [if_pos h2, if_pos (by omega)]
      · rw [if_neg h2, if_neg (by omega)]

theorem promote_spec [Semiring K] {n m : ℕ} (f : Arr K n) (h : n ≤ m) :
    ∃ g, promote m f = some g ∧ polyOf g = polyOf f := by
  unfold promote
  obtain ⟨b, e, hb⟩ := forUp_fill (m := m) (lo := 0) (s := 0) (cnt := n + 1)
    (body := fun i a => do let c ← rd f i; wr a i c) (coef f)
    (fun i a _ hi => by simp [rd_coef f (show i ≤ n by omega)]) (by omega) (zeros m)
  refine ⟨b, e, polyOf_eq fun i => ?_⟩
  rw [hb, polyOf_coeff, coef_zeros]
  split
  · rfl
  · rw [coef_gt f (by omega)]

theorem neg_spec [CommRing K] {n : ℕ} (f : Arr K n) :
    ∃ g, neg f = some g ∧ polyOf g = -polyOf f := by
  unfold neg
  obtain ⟨b, e, hb⟩ := forUp_fill (m := n) (lo := 0) (s := 0) (cnt := n + 1)
    (body := fun i a => do let c ← rd f i; wr a i (-c)) (fun i => -coef f i)
    (fun i a _ hi => by simp [rd_coef f (show i ≤ n by omega)]) (by omega) (zeros n)
  refine ⟨b, e, polyOf_eq fun i => ?_⟩
  rw [hb, coeff_neg, polyOf_coeff, coef_zeros]
  split
  · rfl
  · rw [coef_gt f (by omega), neg_zero]

theorem changeOrder_coef [Zero K] {n : ℕ} (m : ℕ) (f : Arr K n) :
    ∃ g, changeOrder m f = some g ∧ ∀ i, coef g i = if i ≤ m then coef f i else 0 := by
  unfold changeOrder
  obtain ⟨b, e, hb⟩ := forUp_fill (m := m) (lo := 0) (s := 0) (cnt := min n m + 1)
    (body := fun i a => do let c ← rd f i; wr a i c) (coef f)
    (fun i a _ hi => by simp [rd_coef f (show i ≤ n by omega)]) (by omega) (zeros m)
  refine ⟨b, e, fun i => ?_⟩
  rw [hb, coef_zeros]
  by_cases h : i ≤ m
  · by_cases h2 : i ≤ n
    · rw [if_pos (by omega), if_pos h]; rfl
    · rw [if_neg (by omega), if_pos h, coef_gt f (by omega)]
  · rw [if_neg (by omega), if_neg h]

theorem changeOrder_poly [Semiring K] {n : ℕ} (m : ℕ) (f : Arr K n)
    (h : ∀ i, m < i → coef f i = 0) :
    ∃ g, changeOrder m f = some g ∧ polyOf g = polyOf f := by
  obtain ⟨g, e, hg⟩ := changeOrder_coef m f
  refine ⟨g, e, polyOf_eq fun i => ?_⟩
  rw [hg, polyOf_coeff]
  split
  · rfl
  · exact (h i (by omega)).symm

/-! ### Horner -/

/-- `∑_{k≥i} fₖ y^(k-i)`, the partial results of Horner's scheme. -/
def hp [CommRing K] {R : Type*} [CommRing R] (φ : K →+* R) {n : ℕ} (f : Arr K n) (y : R) (i : ℕ) : R :=
  ∑ k ∈ Finset.range (n + 1 - i), φ (coef f (i + k)) * y ^ k

theorem hp_step [CommRing K] {R : Type*} [CommRing R] (φ : K →+* R) {n : ℕ} (f : Arr K n) (y : R)
    {i : ℕ} (h : i ≤ n) : hp φ f y i = hp φ f y (i + 1) * y + φ (coef f i) := by
  unfold hp
  rw [show n + 1 - i = (n + 1 - (i + 1)) + 1 by omega, Finset.sum_range_succ', Finset.sum_mul]
  congr 1
  · apply Finset.sum_congr rfl
    intro k _
    rw [show i + (k + 1) = i + 1 + k by omega]; ring
  · simp

theorem hp_top [CommRing K] {R : Type*} [CommRing R] (φ : K →+* R) {n : ℕ} (f : Arr K n) (y : R) :
    hp φ f y n = φ (coef f n) := by
  unfold hp; rw [show n + 1 - n = 1 by omega]; simp

theorem hp_over [CommRing K] {R : Type*} [CommRing R] (φ : K →+* R) {n : ℕ} (f : Arr K n) (y : R) :
    hp φ f y (n + 1) = 0 := by
  unfold hp; simp

theorem polyOf_eq_sum [CommRing K] {n : ℕ} (f : Arr K n) :
    polyOf f = ∑ k ∈ Finset.range (n + 1), C (coef f k) * X ^ k := by
  unfold polyOf
  rw [Finset.sum_range]
  apply Finset.sum_congr rfl
  intro i _
  rw [coef_fin]

theorem hp_zero [CommRing K] {R : Type*} [CommRing R] (φ : K →+* R) {n : ℕ} (f : Arr K n) (y : R) :
    hp φ f y 0 = (polyOf f).eval₂ φ y := by
  rw [polyOf_eq_sum, eval₂_finsetSum]
  simp [hp]

theorem horner_spec [CommRing K] {n : ℕ} (f : Arr K n) (x : K) :
    horner f x = some ((polyOf f).eval x) := by
  unfold horner
  split
  · next h =>
    subst h
    rw [rd_coef f (le_refl _), polyOf_zero_order, eval_C]
  · next h =>
    obtain ⟨s, e, hs⟩ := forDown_inv
      (body := fun i (s : K) => do let c ← rd f i; some (s * x + c))
      (fun i s => s = hp (RingHom.id K) f x (i + 1)) n 0 (hp_over _ f x).symm
      (fun i s hi h => ⟨s * x + coef f (i + 1), by simp [rd_coef f (show i + 1 ≤ n by omega)], by
        rw [hp_step _ f x (show i + 1 ≤ n by omega), ← h]; rfl⟩)
    rw [e, rd_coef f (Nat.zero_le n)]
    simp only [Option.bind_eq_bind, Option.bind_some, hs]
    have := hp_step (RingHom.id K) f x (Nat.zero_le n)
    rw [hp_zero] at this
    rw [eval, this]; rfl

theorem polySubWorker_spec [CommRing K] {n : ℕ} (f : Arr K n) (x : K) :
    ∀ stage, stage ≤ n → polySubWorker f x stage = some (hp (RingHom.id K) f x (n - stage))
  | 0, _ => by rw [polySubWorker, rd_coef f (le_refl _), Nat.sub_zero, hp_top]; rfl
  | s + 1, h => by
    rw [polySubWorker, rd_coef f (by omega), polySubWorker_spec f x s (by omega)]
    simp only [Option.bind_eq_bind, Option.bind_some, Option.some.injEq]
    rw [hp_step _ f x (show n - (s + 1) ≤ n by omega), show n - (s + 1) + 1 = n - s by omega]
    simp only [RingHom.id_apply]; ring

/-! ### The in-place multiplication by `X + t` -/

theorem natDegree_X_add_C_le' [CommRing K] (t : K) : (X + C t : K[X]).natDegree ≤ 1 :=
  (natDegree_add_le _ _).trans (max_le natDegree_X_le (by simp))

/-- The inner loop of the shift functions. -/
theorem inner_spec [CommRing K] {n : ℕ} (t : K) (body : ℕ → Arr K n → Option (Arr K n))
    (hb : ∀ j r, 0 < j → j ≤ n → body j r = wr r j (coef r j * t + coef r (j - 1)))
    (m : ℕ) (hm : m ≤ n) (r : Arr K n) :
    ∃ r', forDown body m r = some r' ∧
      ∀ j, coef r' j = if 0 < j ∧ j ≤ m then coef r j * t + coef r (j - 1) else coef r j := by
  obtain ⟨r', e, h⟩ := forDown_inv (body := body)
    (fun i r' => ∀ j, coef r' j =
      if i < j ∧ j ≤ m then coef r j * t + coef r (j - 1) else coef r j) m r
    (fun j => by rw [if_neg (by omega)])
    (fun i s hi hI => by
      obtain ⟨s', e', h'⟩ := wr_coef s (i := i + 1) (coef s (i + 1) * t + coef s (i + 1 - 1)) (by omega)
      refine ⟨s', by rw [hb _ _ (by omega) (by omega), e'], fun j => ?_⟩
      rw [h']
      by_cases hj : j = i + 1
      · subst hj
        rw [if_pos rfl, if_pos (by omega), hI, if_neg (by omega), hI, if_neg (by omega)]
      · rw [if_neg hj, hI]
        by_cases h2 : i < j ∧ j ≤ m
        · rw [if_pos (by omega), if_pos (by omega)]
        · rw [if_neg (by omega), if_neg (by omega)])
  exact ⟨r', e, h⟩

/-- The outer loop, truncated at order `D` (`D = n` for shifts). `src i` is the coefficient read. -/
theorem outer_spec [CommRing K] {n D : ℕ} (t : K) (F : Arr K n)
    (body : ℕ → Arr K D → Option (Arr K D)) (inner : ℕ → Arr K D → Option (Arr K D))
    (hin : ∀ j r, 0 < j → j ≤ D → inner j r = wr r j (coef r j * t + coef r (j - 1)))
    (hb : ∀ i r r', 0 < i → i ≤ n → forDown inner (min D (n - (i - 1))) r = some r' →
      body i r = wr r' 0 (coef r' 0 * t + coef F (i - 1)))
    (r0 : Arr K D) (h0 : ∀ j, coef r0 j = if j = 0 then coef F n else 0) :
    ∃ r, forDown body n r0 = some r ∧
      ∀ j, j ≤ D → coef r j = ((polyOf F).comp (X + C t)).coeff j := by
  have key := forDown_inv (body := body)
    (fun i r => ∀ j, j ≤ D → coef r j = (hp C F (X + C t) i).coeff j) n r0
    (fun j hj => by
      rw [h0, hp_top, coeff_C])
    (fun i r hi hI => by
      obtain ⟨r1, e1, h1⟩ := inner_spec t inner hin (min D (n - (i + 1 - 1))) (by omega) r
      obtain ⟨r2, e2, h2⟩ := wr_coef r1 (i := 0) (coef r1 0 * t + coef F (i + 1 - 1)) (by omega)
      refine ⟨r2, by rw [hb _ _ _ (by omega) (by omega) e1, e2], fun j hj => ?_⟩
      have hdeg : ∀ j, n - (i + 1) < j → (hp C F (X + C t) (i + 1)).coeff j = 0 := by
        intro j hj
        apply coeff_eq_zero_of_natDegree_lt
        refine lt_of_le_of_lt ?_ hj
        unfold hp
        apply natDegree_sum_le_of_forall_le
        intro k hk
        refine (natDegree_C_mul_le _ _).trans ((natDegree_pow_le).trans ?_)
        have : (X + C t).natDegree ≤ 1 := natDegree_X_add_C_le' t
        have hk' := Finset.mem_range.1 hk
        calc k * (X + C t).natDegree ≤ k * 1 := Nat.mul_le_mul_left _ this
          _ ≤ n - (i + 1) := by omega
      rw [hp_step C F (X + C t) (show i ≤ n by omega), mul_add, h2, Nat.add_sub_cancel]
      by_cases hj0 : j = 0
      · subst hj0
        rw [if_pos rfl, h1, if_neg (by omega), hI 0 hj]
        simp
      · obtain ⟨j, rfl⟩ := Nat.exists_eq_succ_of_ne_zero hj0
        rw [if_neg hj0, h1]
        simp only [Nat.succ_eq_add_one, coeff_add, coeff_mul_X, coeff_mul_C, coeff_C_succ, add_zero]
        by_cases hm : 0 < j + 1 ∧ j + 1 ≤ min D (n - (i + 1 - 1))
        · rw [if_pos (by simpa using hm), hI _ hj, Nat.add_sub_cancel, hI j (by omega)]
          ring
        · rw [if_neg (by simpa using hm), hI _ hj, hdeg j (by omega), hdeg (j + 1) (by omega)]
          ring)
  obtain ⟨r, e, h⟩ := key
  refine ⟨r, e, fun j hj => ?_⟩
  rw [h j hj, hp_zero]; rfl

theorem polyOf_eq_le [CommRing K] {n : ℕ} {a : Arr K n} {p : K[X]} (hp : p.natDegree ≤ n)
    (h : ∀ i, i ≤ n → coef a i = p.coeff i) : polyOf a = p :=
  polyOf_eq fun i => by
    by_cases hi : i ≤ n
    · exact h i hi
    · rw [coef_gt a (by omega), coeff_eq_zero_of_natDegree_lt (by omega)]

theorem natDegree_comp_shift [CommRing K] {n : ℕ} (f : Arr K n) (t : K) :
    ((polyOf f).comp (X + C t)).natDegree ≤ n :=
  natDegree_comp_le.trans ((Nat.mul_le_mul (polyOf_degree f) (natDegree_X_add_C_le' t)).trans (Nat.mul_one n).le)

theorem outer_shift [CommRing K] {n : ℕ} (t : K) (F : Arr K n)
    {body : ℕ → Arr K n → Option (Arr K n)} (inner : ℕ → Arr K n → Option (Arr K n))
    (hin : ∀ j r, 0 < j → j ≤ n → inner j r = wr r j (coef r j * t + coef r (j - 1)))
    (hb : ∀ i r r', 0 < i → i ≤ n → forDown inner (n - (i - 1)) r = some r' →
      body i r = wr r' 0 (coef r' 0 * t + coef F (i - 1)))
    (r0 : Arr K n) (h0 : ∀ j, coef r0 j = if j = 0 then coef F n else 0) :
    ∃ r, forDown body n r0 = some r ∧ polyOf r = (polyOf F).comp (X + C t) := by
  obtain ⟨r, e, h⟩ := outer_spec t F body inner hin (fun i r r' h1 h2 hr => by
    rw [show min n (n - (i - 1)) = n - (i - 1) by omega] at hr
    exact hb i r r' h1 h2 hr) r0 h0
  exact ⟨r, e, polyOf_eq_le (natDegree_comp_shift F t) h⟩

theorem shift_spec [CommRing K] [DecidableEq K] {n : ℕ} (f : Arr K n) (t : K) :
    ∃ g, shift f t = some g ∧ polyOf g = (polyOf f).comp (X + C t) := by
  unfold shift
  split
  · next h => subst h; exact ⟨f, rfl, by simp⟩
  · obtain ⟨r0, e0, h0⟩ := wr_coef (zeros n : Arr K n) (i := 0) (coef f n) (by omega)
    simp only [rd_coef f (le_refl n), Option.bind_eq_bind, Option.bind_some, e0]
    refine outer_shift t f (fun j r => (rd r j).bind fun rj =>
        (rd r (j - 1)).bind fun rj1 => wr r j (rj * t + rj1))
      (fun j r _ hj => by simp [rd_coef r hj, rd_coef r (show j - 1 ≤ n by omega)])
      (fun i r r' h1 h2 hr => by
        rw [hr, Option.bind_some, rd_coef r' (by omega), rd_coef f (show i - 1 ≤ n by omega)]
        rfl) r0 (fun j => by rw [h0, coef_zeros])

theorem shiftOne_spec [CommRing K] {n : ℕ} (f : Arr K n) :
    ∃ g, shiftOne f = some g ∧ polyOf g = (polyOf f).comp (X + C 1) := by
  unfold shiftOne
  obtain ⟨r0, e0, h0⟩ := wr_coef (zeros n : Arr K n) (i := 0) (coef f n) (by omega)
  simp only [rd_coef f (le_refl n), Option.bind_eq_bind, Option.bind_some, e0]
  refine outer_shift 1 f (fun j r => (rd r j).bind fun rj =>
      (rd r (j - 1)).bind fun rj1 => wr r j (rj + rj1))
    (fun j r _ hj => by simp [rd_coef r hj, rd_coef r (show j - 1 ≤ n by omega)])
    (fun i r r' h1 h2 hr => by
      rw [hr, Option.bind_some, rd_coef r' (by omega), rd_coef f (show i - 1 ≤ n by omega)]
      simp) r0 (fun j => by rw [h0, coef_zeros])

/-- The reversed array. -/
def revArr {n : ℕ} (f : Arr K n) : Arr K n := fun i => f i.rev

theorem coef_revArr [Zero K] {n : ℕ} (f : Arr K n) {i : ℕ} (h : i ≤ n) :
    coef (revArr f) i = coef f (n - i) := by
  unfold coef revArr
  rw [dif_pos (by omega), dif_pos (by omega)]
  congr 1
  ext
  simp [Fin.rev]

theorem invertTaylorShift_spec [CommRing K] {n : ℕ} (f : Arr K n) :
    ∃ g, invertTaylorShift f = some g ∧ polyOf g = (polyOf (revArr f)).comp (X + C 1) := by
  unfold invertTaylorShift
  obtain ⟨r0, e0, h0⟩ := wr_coef (zeros n : Arr K n) (i := 0) (coef f 0) (by omega)
  simp only [rd_coef f (Nat.zero_le n), Option.bind_eq_bind, Option.bind_some, e0]
  refine outer_shift 1 (revArr f) (fun j r => (rd r j).bind fun rj =>
      (rd r (j - 1)).bind fun rj1 => wr r j (rj + rj1))
    (fun j r _ hj => by simp [rd_coef r hj, rd_coef r (show j - 1 ≤ n by omega)])
    (fun i r r' h1 h2 hr => by
      rw [hr, Option.bind_some, rd_coef r' (by omega), rd_coef f (show n - (i - 1) ≤ n by omega),
        coef_revArr f (by omega)]
      simp) r0 (fun j => by rw [h0, coef_zeros, coef_revArr f (le_refl n), Nat.sub_self])

theorem eval_revArr [Field K] {n : ℕ} (f : Arr K n) (x : K) (hx : x ≠ 0) :
    (polyOf (revArr f)).eval x = x ^ n * (polyOf f).eval x⁻¹ := by
  rw [polyOf_eq_sum, polyOf_eq_sum, eval_finsetSum, eval_finsetSum, Finset.mul_sum,
    ← Finset.sum_range_reflect]
  apply Finset.sum_congr rfl
  intro k hk
  have hk' := Finset.mem_range.1 hk
  rw [coef_revArr f (by omega)]
  simp only [eval_mul, eval_C, eval_pow, eval_X]
  rw [show n - (n + 1 - 1 - k) = k by omega, show n + 1 - 1 - k = n - k by omega]
  have : x ^ n = x ^ (n - k) * x ^ k := by rw [← pow_add]; congr 1; omega
  rw [this, inv_pow]
  field_simp

end Stator.Pol
