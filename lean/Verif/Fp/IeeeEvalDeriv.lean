import Verif.Fp.EvalDeriv

/-!
# C97: the derivatives of a polynomial at a point, on the whole of `double`
-/

namespace Stator.Fp

open Stator Pol Ieee Num

variable {φ : Format} {M : ℝ}

/-- What the numbers computed for the `j`-th derivative cannot exceed. -/
noncomputable def derivBound (φ : Format) {n : ℕ} (a : Arr ℝ n) (y : ℝ) (j : ℕ) : ℝ :=
  (1 + φ.u) ^ (2 * n + 1) * derivSum (absArr a) (max 1 |y|) j + ((1 + φ.u) * (j.factorial * underflowSum φ (max 1 |y|) n j) + φ.η)

/-- The factors of the `D`-th derivative are numbers of the type. -/
def Factorials (φ : Format) (M : ℝ) (D : ℕ) : Prop :=
  ∀ i, i ≤ D → (i : ℝ) ∈ φ.F ∧ (i.factorial : ℝ) ∈ φ.F ∧ (i.factorial : ℝ) ≤ M

/-- A bound for the entries after `k` turns. -/
noncomputable def magS (φ : Format) {n : ℕ} (a : Arr ℝ n) (B : ℝ) (k j : ℕ) : ℝ :=
  (1 + φ.u) ^ (2 * k) * exactS (absArr a) B k j + φ.η * (2 + φ.u) * gSum (1 + φ.u) ((1 + φ.u) ^ 2 * B) k j

theorem exactS_mono {n : ℕ} (a : Arr ℝ n) {b B : ℝ} (hb : 0 ≤ b) (h : b ≤ B) : ∀ k j, exactS (absArr a) b k j ≤ exactS (absArr a) B k j
  | 0, 0 => le_rfl
  | 0, j + 1 => le_rfl
  | k + 1, 0 => by
    have h1 := exactS_mono a hb h k 0
    have h2 := exactS_nonneg a (hb.trans h) k 0
    simp only [exactS, seqS] at h1 h2 ⊢
    exact add_le_add (mul_le_mul h1 h hb h2) le_rfl
  | k + 1, j + 1 => by
    have h1 := exactS_mono a hb h k (j + 1)
    have h2 := exactS_nonneg a (hb.trans h) k (j + 1)
    have h3 := exactS_mono a hb h k j
    simp only [exactS, seqS] at h1 h2 h3 ⊢
    split
    · exact add_le_add (mul_le_mul h1 h hb h2) h3
    · exact le_rfl

theorem gSum_mono {v y y' : ℝ} (hv : 0 ≤ v) (hy : 0 ≤ y) (h : y ≤ y') (k j : ℕ) : gSum v y k j ≤ gSum v y' k j :=
  Finset.sum_le_sum fun _ _ => mul_le_mul_of_nonneg_left (Finset.sum_le_sum fun _ _ =>
    mul_le_mul_of_nonneg_left (pow_le_pow_left₀ hy h _) (Nat.cast_nonneg _)) (pow_nonneg hv _)

theorem roundS_mag (φ : Format) {n : ℕ} (a : Arr ℝ n) {x B : ℝ} (h : |x| ≤ B) (k j : ℕ) : |roundS φ a x k j| ≤ magS φ a B k j := by
  have hu := φ.u_nonneg
  have hη := φ.η_nonneg
  have h1 := roundS_error φ a x k j
  have h2 := exactS_abs a x k j
  have h3 := exactS_mono a (abs_nonneg x) h k j
  have h4 := gSum_mono (v := 1 + φ.u) (y := (1 + φ.u) ^ 2 * |x|) (y' := (1 + φ.u) ^ 2 * B) (by linarith) (by positivity)
    (mul_le_mul_of_nonneg_left h (by positivity)) k j
  have h5 := mul_le_mul_of_nonneg_left h4 (mul_nonneg hη (by linarith : 0 ≤ 2 + φ.u))
  have h6 := mul_le_mul_of_nonneg_left h3 (by positivity : 0 ≤ (1 + φ.u) ^ (2 * k))
  have h7 := abs_sub_abs_le_abs_sub (roundS φ a x k j) (exactS a x k j)
  unfold magS
  linarith

theorem exactS_succ_le {n : ℕ} (a : Arr ℝ n) {B : ℝ} (hB : 0 ≤ B) {k j : ℕ} (hj : j ≤ k + 1) :
    exactS (absArr a) B k j * B ≤ exactS (absArr a) B (k + 1) j := by
  cases j with
  | zero =>
    have e : exactS (absArr a) B (k + 1) 0 = exactS (absArr a) B k 0 * B + |a ⟨n - (k + 1), by omega⟩| := rfl
    rw [e]; linarith [abs_nonneg (a ⟨n - (k + 1), by omega⟩)]
  | succ j =>
    have e : exactS (absArr a) B (k + 1) (j + 1) = if j ≤ k then exactS (absArr a) B k (j + 1) * B + exactS (absArr a) B k j else 0 := rfl
    rw [e, if_pos (by omega)]; linarith [exactS_nonneg a hB k j]

theorem gSum_succ_le {v y : ℝ} (hv : 0 ≤ v) (hy : 0 ≤ y) (k j : ℕ) : 1 + y * gSum v y k j ≤ gSum v y (k + 1) j := by
  cases j with
  | zero => rw [gSum_zero]
  | succ j => rw [gSum_succ]; linarith [mul_nonneg hv (gSum_nonneg hv hy k j)]

/-- The product of the step is within the bound of the next turn. -/
theorem prod_mag (φ : Format) {n : ℕ} (a : Arr ℝ n) {x B : ℝ} (h : |x| ≤ B) {k j : ℕ} (hj : j ≤ k + 1) :
    |φ.rnd (roundS φ a x k j * x)| ≤ magS φ a B (k + 1) j := by
  have hu := φ.u_nonneg
  have hη := φ.η_nonneg
  have hB := (abs_nonneg x).trans h
  have h1 := rnd_abs_le φ (roundS φ a x k j * x)
  have h2 := roundS_mag φ a h k j
  have hm := (abs_nonneg _).trans h2
  have h3 : |roundS φ a x k j * x| ≤ magS φ a B k j * B := by
    rw [abs_mul]; exact mul_le_mul h2 h (abs_nonneg _) hm
  have h4 := exactS_succ_le a hB hj
  have hy : 0 ≤ (1 + φ.u) ^ 2 * B := by positivity
  have h5 := gSum_succ_le (v := 1 + φ.u) (by linarith) hy k j
  have hA := exactS_nonneg a hB k j
  have hG := gSum_nonneg (v := 1 + φ.u) (by linarith) hy k j
  have h6 := mul_le_mul_of_nonneg_left h4 (by positivity : 0 ≤ (1 + φ.u) ^ (2 * (k + 1)))
  have h7 := mul_le_mul_of_nonneg_left h5 (mul_nonneg hη (by linarith : 0 ≤ 2 + φ.u))
  have eg : (1 + φ.u) ^ (2 * (k + 1)) = (1 + φ.u) ^ (2 * k) * (1 + φ.u) ^ 2 := by rw [← pow_add]; congr 1
  have h8 := mul_le_mul_of_nonneg_left h3 (by linarith : 0 ≤ 1 + φ.u)
  refine h1.trans ((add_le_add h8 le_rfl).trans ?_)
  unfold magS
  refine le_trans ?_ (add_le_add h6 h7)
  rw [eg]
  have hg : 0 ≤ (1 + φ.u) ^ (2 * k) := by positivity
  generalize (1 + φ.u) ^ (2 * k) = g at hg ⊢
  generalize exactS (absArr a) B k j = A at hA ⊢
  generalize gSum (1 + φ.u) ((1 + φ.u) ^ 2 * B) k j = G at hG ⊢
  have k1 : 0 ≤ g * A * B * ((1 + φ.u) * φ.u) := by positivity
  have k2 : 0 ≤ φ.η * (1 + φ.u) := by positivity
  have k3 : 0 ≤ φ.η * (2 + φ.u) * (G * B) * ((1 + φ.u) * φ.u) := by positivity
  have e : g * (1 + φ.u) ^ 2 * (A * B) + φ.η * (2 + φ.u) * (1 + (1 + φ.u) ^ 2 * B * G) -
    ((1 + φ.u) * ((g * A + φ.η * (2 + φ.u) * G) * B) + φ.η) =
    g * A * B * ((1 + φ.u) * φ.u) + φ.η * (1 + φ.u) + φ.η * (2 + φ.u) * (G * B) * ((1 + φ.u) * φ.u) := by ring
  linarith

theorem magS_succ (φ : Format) {n : ℕ} (a : Arr ℝ n) {B : ℝ} (hB : 1 ≤ B) (k j : ℕ) : magS φ a B k j ≤ magS φ a B (k + 1) j := by
  have hu := φ.u_nonneg
  have hη := φ.η_nonneg
  have hB0 : 0 ≤ B := by linarith
  have hA := exactS_nonneg a hB0 k j
  have hA' : exactS (absArr a) B k j ≤ exactS (absArr a) B (k + 1) j := by
    by_cases hj : j ≤ k + 1
    · exact (le_mul_of_one_le_right hA hB).trans (exactS_succ_le a hB0 hj)
    · rw [show exactS (absArr a) B k j = 0 from seqS_zero _ _ _ (by omega)]
      exact exactS_nonneg a hB0 _ _
  have hv : 1 ≤ 1 + φ.u := by linarith
  have hy1 : 1 ≤ (1 + φ.u) ^ 2 * B := one_le_mul_of_one_le_of_one_le (one_le_pow₀ hv) hB
  have hG := gSum_nonneg (v := 1 + φ.u) (y := (1 + φ.u) ^ 2 * B) (by linarith) (by linarith) k j
  have hG' : gSum (1 + φ.u) ((1 + φ.u) ^ 2 * B) k j ≤ gSum (1 + φ.u) ((1 + φ.u) ^ 2 * B) (k + 1) j := by
    have := gSum_succ_le (v := 1 + φ.u) (y := (1 + φ.u) ^ 2 * B) (by linarith) (by linarith) k j
    have := le_mul_of_one_le_left hG hy1
    linarith
  unfold magS
  exact add_le_add (mul_le_mul (pow_le_pow_right₀ hv (by omega)) hA' hA (by positivity))
    (mul_le_mul_of_nonneg_left hG' (mul_nonneg hη (by linarith)))

theorem magS_top (φ : Format) {n : ℕ} (a : Arr ℝ n) {B : ℝ} (hB : 1 ≤ B) {k m : ℕ} (h : k ≤ m) (j : ℕ) : magS φ a B k j ≤ magS φ a B m j := by
  induction m, h using Nat.le_induction with
  | base => exact le_rfl
  | succ m _ ih => exact ih.trans (magS_succ φ a hB m j)

theorem derivBound_eq (φ : Format) {n : ℕ} (a : Arr ℝ n) (y : ℝ) (j : ℕ) :
    derivBound φ a y j = (1 + φ.u) * (magS φ a (max 1 |y|) n j * j.factorial) + φ.η := by
  unfold derivBound magS
  rw [← exactS_deriv, underflowSum_eq, abs_of_nonneg (a := max 1 |y|) (by positivity), pow_succ]
  ring

/-- The entries of the array are the numbers of the rounded scheme. -/
theorem entries_num {n : ℕ} (D : ℕ) {f : Arr (Ieee φ M) n} {a : Arr ℝ n} {x : Ieee φ M} {y : ℝ} (hf : Coefs f a) (hx : x.IsNum y)
    (hb : ∀ j, j ≤ D → magS φ a (max 1 |y|) n j ≤ M) : ∀ k, k ≤ n → ∀ j, j ≤ D →
    (seqS (fun s c => (s.mul x).add c) (.zero false) f k j).IsNum (roundS φ a y k j) := by
  have hy : |y| ≤ max 1 |y| := le_max_right _ _
  have hB : (1 : ℝ) ≤ max 1 |y| := le_max_left _ _
  intro k
  induction k with
  | zero =>
    intro _ j _
    cases j with
    | zero => exact hf _
    | succ j => exact zero_num false
  | succ k ih =>
    intro hk j hj
    have p1 : j ≤ k + 1 → |φ.rnd (roundS φ a y k j * y)| ≤ M := fun h =>
      ((prod_mag φ a hy h).trans (magS_top φ a hB hk j)).trans (hb j hj)
    have p2 : |roundS φ a y (k + 1) j| ≤ M := ((roundS_mag φ a hy (k + 1) j).trans (magS_top φ a hB hk j)).trans (hb j hj)
    cases j with
    | zero => exact ((ih (by omega) 0 hj).mul hx (p1 (by omega))).add (hf _) p2
    | succ j =>
      have e1 : seqS (fun s c => (s.mul x).add c) (.zero false) f (k + 1) (j + 1) =
        if j ≤ k then ((seqS (fun s c => (s.mul x).add c) (.zero false) f k (j + 1)).mul x).add
          (seqS (fun s c => (s.mul x).add c) (.zero false) f k j) else .zero false := rfl
      have e2 : roundS φ a y (k + 1) (j + 1) = if j ≤ k then φ.rnd (φ.rnd (roundS φ a y k (j + 1) * y) + roundS φ a y k j) else 0 := rfl
      rw [e1]
      rw [e2] at p2 ⊢
      by_cases h : j ≤ k
      · rw [if_pos h] at p2 ⊢
        rw [if_pos h]
        exact ((ih (by omega) (j + 1) hj).mul hx (p1 (by omega))).add (ih (by omega) j (by omega)) p2
      · rw [if_neg h, if_neg h]
        exact zero_num false

theorem factors_num (hM : 1 ≤ M) {D : ℕ} (hD : Factorials φ M D) : ∀ i, i ≤ D →
    (seqC (fun (s : Ieee φ M) i => s.mul (pack false (i : ℝ))) (.one hM) i).IsNum
      (seqC (fun (s : ℝ) i => φ.rnd (s * φ.rnd (i : ℝ))) 1 i) ∧
    seqC (fun (s : ℝ) i => φ.rnd (s * φ.rnd (i : ℝ))) 1 i = (i.factorial : ℝ) := by
  intro i
  induction i with
  | zero => intro _; exact ⟨rfl, by simp [seqC]⟩
  | succ i ih =>
    intro hi
    cases i with
    | zero => exact ⟨rfl, by simp [seqC]⟩
    | succ i =>
      obtain ⟨h1, h2⟩ := ih (by omega)
      obtain ⟨m1, m2, m3⟩ := hD _ hi
      have e : φ.rnd (seqC (fun (s : ℝ) i => φ.rnd (s * φ.rnd (i : ℝ))) 1 (i + 1) * φ.rnd ((i + 2 : ℕ) : ℝ)) = ((i + 2).factorial : ℝ) := by
        rw [h2, φ.rnd_of_mem m1]
        have : ((i + 1).factorial : ℝ) * ((i + 2 : ℕ) : ℝ) = ((i + 2).factorial : ℝ) := by
          rw [Nat.factorial_succ (i + 1)]; push_cast; ring
        rw [this, φ.rnd_of_mem m2]
      have hi' : |φ.rnd ((i + 2 : ℕ) : ℝ)| ≤ M := by
        rw [φ.rnd_of_mem m1, abs_of_nonneg (Nat.cast_nonneg _)]
        refine le_trans ?_ m3
        exact_mod_cast Nat.self_le_factorial (i + 2)
      refine ⟨?_, ?_⟩
      · rw [seqC, seqC]
        refine h1.mul (pack_num false _ hi') ?_
        rw [e, abs_of_nonneg (Nat.cast_nonneg _)]
        exact m3
      · rw [seqC]; exact e

/-- **C97** on the type: if the bounds are within the range, nothing overflows, and the result is that of the rounded arithmetic. -/
theorem C97_agrees (hM : 1 ≤ M) {n : ℕ} (D : ℕ) {f : Arr (Ieee φ M) n} {a : Arr ℝ n} {x : Ieee φ M} {y : ℝ} (hf : Coefs f a)
    (hx : x.IsNum y) (hD : Factorials φ M D) (hb : ∀ j, j ≤ D → derivBound φ a y j ≤ M) :
    ∃ c r, evalDerivI hM D f x = some c ∧ evalDerivR φ.rnd D a y = some r ∧ ∀ j, (c j).IsNum (r j) := by
  have hu := φ.u_nonneg
  have hη := φ.η_nonneg
  have hy : |y| ≤ max 1 |y| := le_max_right _ _
  have hmag : ∀ j, 0 ≤ magS φ a (max 1 |y|) n j := fun j => (abs_nonneg _).trans (roundS_mag φ a hy n j)
  have hfac : ∀ j : ℕ, (1 : ℝ) ≤ (j.factorial : ℝ) := fun j => by
    exact_mod_cast Nat.one_le_iff_ne_zero.2 (Nat.factorial_ne_zero _)
  have hb' : ∀ j, j ≤ D → magS φ a (max 1 |y|) n j ≤ M := fun j hj => by
    refine le_trans ?_ (hb j hj)
    rw [derivBound_eq]
    have h1 := le_mul_of_one_le_right (hmag j) (hfac j)
    have h2 := mul_nonneg hu ((hmag j).trans h1)
    linarith
  obtain ⟨c, e, hc⟩ := evalDerivI_run hM D f x
  obtain ⟨r, e', hr⟩ := evalDerivR_run φ.rnd D a y
  refine ⟨c, r, e, e', fun j => ?_⟩
  have hS := entries_num D hf hx hb' n le_rfl j (by omega)
  obtain ⟨c1, c2⟩ := factors_num hM hD j (by omega)
  rw [hc, hr]
  split
  · exact hS
  · refine hS.mul c1 ?_
    refine le_trans ?_ (hb j (by omega))
    rw [derivBound_eq, c2]
    refine (rnd_abs_le φ _).trans (add_le_add (mul_le_mul_of_nonneg_left ?_ (by linarith)) le_rfl)
    rw [abs_mul, abs_of_nonneg (a := ((j : ℕ).factorial : ℝ)) (Nat.cast_nonneg _)]
    exact mul_le_mul_of_nonneg_right (roundS_mag φ a hy n j) (Nat.cast_nonneg _)

/-- **C97** on the type: the derivatives are numbers, and how far they are from the derivatives of the polynomial. -/
theorem C97_ieee (hM : 1 ≤ M) {n : ℕ} (D : ℕ) {f : Arr (Ieee φ M) n} {a : Arr ℝ n} {x : Ieee φ M} {y : ℝ} (hf : Coefs f a)
    (hx : x.IsNum y) (hD : Factorials φ M D) (hb : ∀ j, j ≤ D → derivBound φ a y j ≤ M) :
    ∃ c : Arr (Ieee φ M) D, evalDerivI hM D f x = some c ∧ ∀ j, ∃ r, (c j).IsNum r ∧
      |r - derivSum a y j| ≤ ((1 + φ.u) ^ (2 * n + 1) - 1) * derivSum (absArr a) |y| j +
        ((1 + φ.u) * ((j : ℕ).factorial * underflowSum φ y n j) + φ.η) := by
  obtain ⟨c, r, e, e', h⟩ := C97_agrees hM D hf hx hD hb
  obtain ⟨r', e'', h'⟩ := C97_error_higher φ D a y (fun i hi => ⟨(hD i hi).1, (hD i hi).2.1⟩)
  rw [e'] at e''
  obtain rfl := Option.some.inj e''
  exact ⟨c, e, fun j => ⟨_, h j, h' j⟩⟩

/-! ## `double` -/

theorem nat_mem (m k : ℕ) (hm : m < 2 ^ 53) : ((m * 2 ^ k : ℕ) : ℝ) ∈ binary64.F :=
  ⟨m, k, by omega, by rw [abs_of_nonneg (by omega)]; exact_mod_cast hm, by push_cast; rw [zpow_natCast]⟩

/-- For `double` up to the 22nd derivative. -/
theorem factorials_double {D : ℕ} (h : D ≤ 22) : Factorials binary64 maxDouble D := by
  have hM : (2 : ℝ) ^ (100 : ℤ) ≤ maxDouble := pow_le_maxDouble (by norm_num)
  intro i hi
  have key : ∃ m k : ℕ, m < 2 ^ 53 ∧ i.factorial = m * 2 ^ k ∧ i.factorial ≤ 2 ^ 100 := by
    have : i ≤ 22 := hi.trans h
    interval_cases i <;> simp only [Nat.factorial]
    · exact ⟨1, 0, by norm_num, by norm_num, by norm_num⟩
    · exact ⟨1, 0, by norm_num, by norm_num, by norm_num⟩
    · exact ⟨2, 0, by norm_num, by norm_num, by norm_num⟩
    · exact ⟨6, 0, by norm_num, by norm_num, by norm_num⟩
    · exact ⟨24, 0, by norm_num, by norm_num, by norm_num⟩
    · exact ⟨120, 0, by norm_num, by norm_num, by norm_num⟩
    · exact ⟨720, 0, by norm_num, by norm_num, by norm_num⟩
    · exact ⟨5040, 0, by norm_num, by norm_num, by norm_num⟩
    · exact ⟨40320, 0, by norm_num, by norm_num, by norm_num⟩
    · exact ⟨362880, 0, by norm_num, by norm_num, by norm_num⟩
    · exact ⟨3628800, 0, by norm_num, by norm_num, by norm_num⟩
    · exact ⟨39916800, 0, by norm_num, by norm_num, by norm_num⟩
    · exact ⟨479001600, 0, by norm_num, by norm_num, by norm_num⟩
    · exact ⟨6227020800, 0, by norm_num, by norm_num, by norm_num⟩
    · exact ⟨87178291200, 0, by norm_num, by norm_num, by norm_num⟩
    · exact ⟨1307674368000, 0, by norm_num, by norm_num, by norm_num⟩
    · exact ⟨20922789888000, 0, by norm_num, by norm_num, by norm_num⟩
    · exact ⟨355687428096000, 0, by norm_num, by norm_num, by norm_num⟩
    · exact ⟨6402373705728000, 0, by norm_num, by norm_num, by norm_num⟩
    · exact ⟨121645100408832000 / 2 ^ 16, 16, by norm_num, by norm_num, by norm_num⟩
    · exact ⟨2432902008176640000 / 2 ^ 16, 16, by norm_num, by norm_num, by norm_num⟩
    · exact ⟨51090942171709440000 / 2 ^ 16, 16, by norm_num, by norm_num, by norm_num⟩
    · exact ⟨1124000727777607680000 / 2 ^ 19, 19, by norm_num, by norm_num, by norm_num⟩
  obtain ⟨m, k, h1, h2, h3⟩ := key
  refine ⟨?_, by rw [h2]; exact nat_mem m k h1, le_trans ?_ hM⟩
  · have := nat_mem i 0 (by omega)
    simpa using this
  · have : ((i.factorial : ℕ) : ℝ) ≤ ((2 ^ 100 : ℕ) : ℝ) := by exact_mod_cast h3
    refine this.trans (le_of_eq ?_)
    push_cast
    norm_num

theorem derivBound_double {n : ℕ} {a : Arr ℝ n} {y B C : ℝ} {j : ℕ} (hn : n ≤ 1099511627776) (hj : j ≤ 22) (hB : 1 ≤ B) (hy : |y| ≤ B)
    (hC : 1 ≤ C) (ha : ∀ i, |a i| ≤ C) (h : (n + 1) ^ (j + 1) * C * B ^ n ≤ 2 ^ (1022 : ℤ)) : derivBound binary64 a y j ≤ maxDouble := by
  have hB0 : (0 : ℝ) ≤ B := by linarith
  refine le_trans ?_ (pow_le_maxDouble (k := 1023) le_rfl)
  have h23 : (2 : ℝ) ^ (1023 : ℤ) = 2 * 2 ^ (1022 : ℤ) := by
    rw [show (1023 : ℤ) = 1 + 1022 by norm_num, zpow_add₀ (by norm_num), zpow_one]
  rw [h23]
  have hW1 : (1 : ℝ) ≤ (n + 1) ^ (j + 1) * C * B ^ n :=
    one_le_mul_of_one_le_of_one_le (one_le_mul_of_one_le_of_one_le (one_le_pow₀ (by linarith [(Nat.cast_nonneg n : (0 : ℝ) ≤ n)])) hC)
      (one_le_pow₀ hB)
  have hu : (binary64 : Format).u = 2 ^ (-53 : ℤ) := rfl
  have hη : (binary64 : Format).η = 2 ^ (-1075 : ℤ) := rfl
  have hmax : max 1 |y| ≤ B := max_le hB hy
  have hmax0 : (0 : ℝ) ≤ max 1 |y| := by positivity
  have hg : ∀ m, m ≤ 2 * n + 1 → (1 + binary64.u) ^ m ≤ 1 + 1 / 512 := by
    intro m hm
    have h2 : (1 + binary64.u) ≤ Real.exp (2 ^ (-53 : ℤ)) := by rw [hu, add_comm]; exact Real.add_one_le_exp _
    have h3 : (1 + binary64.u) ^ m ≤ Real.exp (2 ^ (-53 : ℤ)) ^ m := pow_le_pow_left₀ (by rw [hu]; norm_num) h2 _
    rw [← Real.exp_nat_mul] at h3
    have h4 : (m : ℝ) * 2 ^ (-53 : ℤ) ≤ 1 / 2048 := by
      have : (m : ℝ) ≤ 2199023255553 := by exact_mod_cast (by omega : m ≤ 2199023255553)
      norm_num
      linarith
    have h4' := Real.exp_le_exp.2 h4
    have h5 : Real.exp (1 / 2048) ≤ 1 + 1 / 512 := by
      have := Real.exp_bound_div_one_sub_of_interval (x := 1 / 2048) (by norm_num) (by norm_num)
      linarith [show (1 : ℝ) / (1 - 1 / 2048) ≤ 1 + 1 / 512 by norm_num]
    exact h3.trans (h4'.trans h5)
  have hn1 : (1 : ℝ) ≤ n + 1 := by linarith [(Nat.cast_nonneg n : (0 : ℝ) ≤ n)]
  have hS : derivSum (absArr a) (max 1 |y|) j ≤ (n + 1) ^ (j + 1) * C * B ^ n := by
    have : derivSum (absArr a) (max 1 |y|) j ≤ ∑ _i : Fin (n + 1), ((n : ℝ) + 1) ^ j * (C * B ^ n) := by
      unfold derivSum
      refine Finset.sum_le_sum fun i _ => ?_
      refine mul_le_mul ?_ ?_ (mul_nonneg (abs_nonneg _) (by positivity)) (by positivity)
      · have h1 : (i : ℕ).descFactorial j ≤ (n + 1) ^ j :=
          (Nat.descFactorial_le_pow _ _).trans (Nat.pow_le_pow_left (by omega) _)
        have : (((i : ℕ).descFactorial j : ℕ) : ℝ) ≤ (((n + 1) ^ j : ℕ) : ℝ) := Nat.cast_le.2 h1
        simpa using this
      · refine mul_le_mul (ha i) ?_ (by positivity) (by linarith)
        exact (pow_le_pow_left₀ hmax0 hmax _).trans (pow_le_pow_right₀ hB (by omega))
    rw [Finset.sum_const, Finset.card_univ, Fintype.card_fin, nsmul_eq_mul] at this
    refine this.trans (le_of_eq ?_)
    push_cast
    ring
  have hG : gSum (1 + binary64.u) ((1 + binary64.u) ^ 2 * max 1 |y|) n j ≤ 23 * (4 * ((n + 1) ^ (j + 1) * C * B ^ n)) := by
    have hpw : ∀ m, m ≤ 2 * n + 1 → (1 + binary64.u) ^ m ≤ 2 := fun m hm => (hg m hm).trans (by norm_num)
    have inner : ∀ l, l ≤ j → binSum ((1 + binary64.u) ^ 2 * max 1 |y|) n l ≤ 2 * ((n + 1) ^ (j + 1) * C * B ^ n) := by
      intro l hl
      have : binSum ((1 + binary64.u) ^ 2 * max 1 |y|) n l ≤ ∑ _i ∈ Finset.range n, ((n : ℝ) + 1) ^ j * (2 * B ^ n) := by
        unfold binSum
        refine Finset.sum_le_sum fun i hi => ?_
        have hi' := Finset.mem_range.1 hi
        refine mul_le_mul ?_ ?_ (by positivity) (by positivity)
        · have h1 : (i.choose l : ℝ) ≤ (((n + 1) ^ l : ℕ) : ℝ) :=
            Nat.cast_le.2 ((Nat.choose_le_pow _ _).trans (Nat.pow_le_pow_left (by omega) _))
          refine h1.trans ?_
          push_cast
          exact pow_le_pow_right₀ hn1 hl
        · rw [mul_pow, ← pow_mul]
          refine mul_le_mul (hpw _ (by omega)) ?_ (by positivity) (by norm_num)
          exact (pow_le_pow_left₀ hmax0 hmax _).trans (pow_le_pow_right₀ hB (by omega))
      rw [Finset.sum_const, Finset.card_range, nsmul_eq_mul] at this
      refine this.trans ?_
      have h1 : (n : ℝ) * (((n : ℝ) + 1) ^ j * (2 * B ^ n)) ≤ 2 * ((n + 1) ^ (j + 1) * 1 * B ^ n) := by
        have hq : 0 ≤ ((n : ℝ) + 1) ^ j * (2 * B ^ n) := by positivity
        have := mul_le_mul_of_nonneg_right (by linarith : (n : ℝ) ≤ n + 1) hq
        refine this.trans (le_of_eq ?_)
        ring
      refine h1.trans (mul_le_mul_of_nonneg_left ?_ (by norm_num))
      exact mul_le_mul_of_nonneg_right (mul_le_mul_of_nonneg_left hC (by positivity)) (by positivity)
    unfold gSum
    have : ∀ l ∈ Finset.range (j + 1), (1 + binary64.u) ^ l * binSum ((1 + binary64.u) ^ 2 * max 1 |y|) n l ≤
        4 * ((n + 1) ^ (j + 1) * C * B ^ n) := by
      intro l hl
      have hl' := Finset.mem_range.1 hl
      have h1 : (1 + binary64.u) ^ l ≤ 2 := by
        have h1 : (1 + binary64.u) ^ l ≤ (1 + 1 / 1024) ^ l := pow_le_pow_left₀ (by rw [hu]; norm_num) (by rw [hu]; norm_num) _
        have h2 : (1 + 1 / 1024 : ℝ) ^ l ≤ (1 + 1 / 1024) ^ 22 := pow_le_pow_right₀ (by norm_num) (by omega)
        exact h1.trans (h2.trans (by norm_num))
      have h0 : 0 ≤ binSum ((1 + binary64.u) ^ 2 * max 1 |y|) n l :=
        Finset.sum_nonneg fun _ _ => mul_nonneg (Nat.cast_nonneg _) (pow_nonneg (by positivity) _)
      refine (mul_le_mul h1 (inner l (by omega)) h0 (by norm_num)).trans (le_of_eq ?_)
      ring
    refine (Finset.sum_le_sum this).trans ?_
    rw [Finset.sum_const, Finset.card_range, nsmul_eq_mul]
    refine mul_le_mul_of_nonneg_right ?_ (by linarith)
    exact_mod_cast (by omega : j + 1 ≤ 23)
  have hfac : ((j.factorial : ℕ) : ℝ) ≤ 2 ^ (71 : ℤ) := by
    have h1 : j.factorial ≤ (22 : ℕ).factorial := Nat.factorial_le hj
    have h2 : (22 : ℕ).factorial ≤ 2 ^ 71 := by simp only [Nat.factorial]; norm_num
    have : ((j.factorial : ℕ) : ℝ) ≤ ((2 ^ 71 : ℕ) : ℝ) := Nat.cast_le.2 (h1.trans h2)
    refine this.trans (le_of_eq ?_)
    push_cast
    norm_num
  have hG0 : 0 ≤ gSum (1 + binary64.u) ((1 + binary64.u) ^ 2 * max 1 |y|) n j :=
    gSum_nonneg (by linarith [binary64.u_nonneg]) (by positivity) _ _
  have hH : (1 + binary64.u) * ((j.factorial : ℕ) * (binary64.η * (2 + binary64.u))) ≤ 1 / 1024 := by
    have h1 : 1 + binary64.u ≤ 2 := by rw [hu]; norm_num
    have h2 : 2 + binary64.u ≤ 4 := by rw [hu]; norm_num
    have h4 : binary64.η ≤ 2 ^ (-90 : ℤ) := by rw [hη]; exact zpow_le_zpow_right₀ (by norm_num) (by norm_num)
    have h5 : ((j.factorial : ℕ) : ℝ) * (binary64.η * (2 + binary64.u)) ≤ 2 ^ (71 : ℤ) * (2 ^ (-90 : ℤ) * 4) :=
      mul_le_mul hfac (mul_le_mul h4 h2 (by linarith [binary64.u_nonneg]) (two_zpow_pos _).le)
        (mul_nonneg binary64.η_nonneg (by linarith [binary64.u_nonneg])) (two_zpow_pos _).le
    refine (mul_le_mul h1 h5 (mul_nonneg (Nat.cast_nonneg _) (mul_nonneg binary64.η_nonneg (by linarith [binary64.u_nonneg])))
      (by norm_num)).trans ?_
    norm_num
  have hη1 : binary64.η ≤ 1 / 8 := by
    rw [hη]
    calc (2 : ℝ) ^ (-1075 : ℤ) ≤ 2 ^ (-3 : ℤ) := zpow_le_zpow_right₀ (by norm_num) (by norm_num)
      _ = 1 / 8 := by norm_num
  have hS0 : 0 ≤ derivSum (absArr a) (max 1 |y|) j :=
    Finset.sum_nonneg fun i _ => mul_nonneg (Nat.cast_nonneg _) (mul_nonneg (abs_nonneg _) (pow_nonneg hmax0 _))
  have hg' := hg (2 * n + 1) le_rfl
  unfold derivBound
  rw [underflowSum_eq, abs_of_nonneg hmax0]
  have e : (1 + binary64.u) * ((j.factorial : ℕ) * (binary64.η * (2 + binary64.u) *
      gSum (1 + binary64.u) ((1 + binary64.u) ^ 2 * max 1 |y|) n j)) =
    (1 + binary64.u) * ((j.factorial : ℕ) * (binary64.η * (2 + binary64.u))) *
      gSum (1 + binary64.u) ((1 + binary64.u) ^ 2 * max 1 |y|) n j := by ring
  rw [e]
  clear e hg hu hη hfac
  generalize gSum (1 + binary64.u) ((1 + binary64.u) ^ 2 * max 1 |y|) n j = G at *
  generalize (1 + binary64.u) * (((j.factorial : ℕ) : ℝ) * (binary64.η * (2 + binary64.u))) = H at *
  generalize (1 + binary64.u) ^ (2 * n + 1) = g at *
  generalize derivSum (absArr a) (max 1 |y|) j = S at *
  generalize binary64.η = e at *
  generalize ((n : ℝ) + 1) ^ (j + 1) * C * B ^ n = W at *
  generalize (2 : ℝ) ^ (1022 : ℤ) = Z at *
  clear h23
  have k1 : g * S ≤ (1 + 1 / 512) * S := mul_le_mul_of_nonneg_right hg' hS0
  have k2 : H * G ≤ 1 / 1024 * G := mul_le_mul_of_nonneg_right hH hG0
  linarith

/-- **C97** for `double`: coefficients up to `C ≥ 1`, arguments up to `B ≥ 1`, order `n` up to `2^40`, at most the 22nd derivative. -/
theorem C97_double {n : ℕ} {D : ℕ} {f : Arr (Ieee binary64 maxDouble) n} {a : Arr ℝ n} {x : Ieee binary64 maxDouble} {y B C : ℝ}
    (hf : Coefs f a) (hx : x.IsNum y) (hn : n ≤ 1099511627776) (hD : D ≤ 22) (hB : 1 ≤ B) (hy : |y| ≤ B) (hC : 1 ≤ C)
    (ha : ∀ i, |a i| ≤ C) (h : (n + 1) ^ (D + 1) * C * B ^ n ≤ 2 ^ (1022 : ℤ)) :
    ∃ c : Arr (Ieee binary64 maxDouble) D, evalDerivI one_le_maxDouble D f x = some c ∧ ∀ j, ∃ r, (c j).IsNum r ∧
      |r - derivSum a y j| ≤ ((1 + binary64.u) ^ (2 * n + 1) - 1) * derivSum (absArr a) |y| j +
        ((1 + binary64.u) * ((j : ℕ).factorial * underflowSum binary64 y n j) + binary64.η) := by
  refine C97_ieee one_le_maxDouble D hf hx (factorials_double hD) fun j hj => derivBound_double hn (hj.trans hD) hB hy hC ha (le_trans ?_ h)
  refine mul_le_mul_of_nonneg_right (mul_le_mul_of_nonneg_right ?_ (by linarith)) (by positivity)
  exact pow_le_pow_right₀ (by linarith [(Nat.cast_nonneg n : (0 : ℝ) ≤ n)]) (by omega)

end Stator.Fp
