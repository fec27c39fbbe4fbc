import Verif.Fp.Bisect
import Verif.Poly.OpsProps
import Mathlib.Algebra.BigOperators.Fin

/-!
# Evaluation of polynomials in rounded arithmetic

`sub(f, x == value)` for a polynomial with floating-point coefficients: how far the computed value can be from the value of the
polynomial, when it is exact, and what that means for a bisection with it.
-/

namespace Stator.Fp

open Stator.Pol Stator.Num

/-- models: stator/symbolic/polynomial.hpp:221-264 numeric `sub` at a finite argument (Horner); `rnd` is applied to the result of
every `double` operation. (No fused multiply-add.) -/
noncomputable def hornerR (rnd : ℝ → ℝ) {n : ℕ} (f : Arr ℝ n) (x : ℝ) : Option ℝ :=
  if n = 0 then rd f 0
  else do
    let s ← forDown (fun i s => do let c ← rd f i; some (rnd (rnd (s * x) + c))) n 0
    let c ← rd f 0
    some (rnd (rnd (s * x) + c))

/-- With exact arithmetic this is the model of `Verif/Poly/Ops.lean`. -/
theorem hornerR_id {n : ℕ} (f : Arr ℝ n) (x : ℝ) : hornerR id f x = horner f x := rfl

/-! ## Specification -/

/-- The value of the polynomial with the absolute values of the coefficients at the absolute value of the argument. -/
def absValue {n : ℕ} (f : Arr ℝ n) (x : ℝ) : ℝ := ∑ i : Fin (n + 1), |f i| * |x| ^ (i : ℕ)

/-- The error bound for a polynomial of order `n`: two roundings per coefficient. The second part is there because of underflow. -/
noncomputable def hornerBound (φ : Format) {n : ℕ} (f : Arr ℝ n) (x : ℝ) : ℝ :=
  ((1 + φ.u) ^ (2 * n) - 1) * absValue f x + φ.η * (2 + φ.u) * ∑ k ∈ Finset.range n, ((1 + φ.u) ^ 2 * |x|) ^ k

/-! ## Proofs -/

/-- What the loop has summed after `k` steps, without rounding. -/
def tailSum {n : ℕ} (f : Arr ℝ n) (x : ℝ) (k : ℕ) : ℝ := ∑ j ∈ Finset.range (k + 1), coef f (n - k + j) * x ^ j

theorem tailSum_succ {n : ℕ} (f : Arr ℝ n) (x : ℝ) (k : ℕ) (h : k < n) :
    tailSum f x (k + 1) = tailSum f x k * x + coef f (n - (k + 1)) := by
  unfold tailSum
  rw [Finset.sum_range_succ' _ (k + 1), Finset.sum_mul]
  congr 1
  · refine Finset.sum_congr rfl fun j _ => ?_
    rw [show n - (k + 1) + (j + 1) = n - k + j by omega, pow_succ]; ring
  · simp

theorem tailSum_zero {n : ℕ} (f : Arr ℝ n) (x : ℝ) : tailSum f x 0 = coef f n := by simp [tailSum]

theorem tailSum_full {n : ℕ} (f : Arr ℝ n) (x : ℝ) : tailSum f x n = value f x := by
  unfold tailSum value
  rw [Finset.sum_range]
  refine Finset.sum_congr rfl fun i _ => ?_
  rw [Nat.sub_self, Nat.zero_add, coef_fin]

/-- The polynomial with the absolute values of the coefficients. -/
def absArr {n : ℕ} (f : Arr ℝ n) : Arr ℝ n := fun i => |f i|

theorem absArr_coef {n : ℕ} (f : Arr ℝ n) (i : ℕ) : coef (absArr f) i = |coef f i| := by
  unfold coef absArr
  split <;> simp

theorem tailSum_le {n : ℕ} (f : Arr ℝ n) (x : ℝ) (k : ℕ) : |tailSum f x k| ≤ tailSum (absArr f) |x| k := by
  unfold tailSum
  refine (Finset.abs_sum_le_sum_abs _ _).trans (Finset.sum_le_sum fun j _ => ?_)
  rw [absArr_coef, abs_mul, abs_pow]

theorem tailSum_abs_nonneg {n : ℕ} (f : Arr ℝ n) (x : ℝ) (k : ℕ) : 0 ≤ tailSum (absArr f) |x| k :=
  (abs_nonneg _).trans (tailSum_le f x k)

/-- One step of the loop. -/
theorem horner_step (φ : Format) {s x a T A A' e : ℝ} (h1 : |s - T| ≤ e) (h2 : |T| ≤ A) (h3 : |T * x + a| ≤ A')  :
    |φ.rnd (φ.rnd (s * x) + a) - (T * x + a)| ≤
      φ.u * A' + (1 + φ.u) * φ.u * |x| * A + (1 + φ.u) ^ 2 * |x| * e + (2 + φ.u) * φ.η := by
  have hu := φ.u_nonneg
  have hη := φ.η_nonneg
  have hx := abs_nonneg x
  have e1 := φ.error (s * x)
  have e2 := φ.error (φ.rnd (s * x) + a)
  have e3 : |s| ≤ A + e := by have := abs_sub_abs_le_abs_sub s T; linarith
  have e4 : |φ.rnd (s * x) - s * x| ≤ φ.u * ((A + e) * |x|) + φ.η := by
    rw [abs_mul] at e1
    have := mul_le_mul_of_nonneg_left (mul_le_mul_of_nonneg_right e3 hx) hu
    linarith
  have e5 : |(s - T) * x| ≤ e * |x| := by rw [abs_mul]; exact mul_le_mul_of_nonneg_right h1 hx
  have e6 : |φ.rnd (s * x) + a| ≤ A' + (φ.u * ((A + e) * |x|) + φ.η) + e * |x| := by
    have : φ.rnd (s * x) + a = (T * x + a) + (φ.rnd (s * x) - s * x) + (s - T) * x := by ring
    rw [this]
    have := abs_add_three (T * x + a) (φ.rnd (s * x) - s * x) ((s - T) * x)
    linarith
  have e7 : φ.rnd (φ.rnd (s * x) + a) - (T * x + a) =
      (φ.rnd (φ.rnd (s * x) + a) - (φ.rnd (s * x) + a)) + (φ.rnd (s * x) - s * x) + (s - T) * x := by ring
  rw [e7]
  refine (abs_add_three _ _ _).trans ?_
  have := mul_le_mul_of_nonneg_left e6 hu
  nlinarith

theorem hornerR_run (rnd : ℝ → ℝ) (I : ℕ → ℝ → Prop) {n : ℕ} (f : Arr ℝ n) (x : ℝ) (h0 : I 0 (rnd (rnd (0 * x) + coef f n)))
    (hz : n = 0 → I 0 (coef f 0))
    (hs : ∀ k s, k < n → I k s → I (k + 1) (rnd (rnd (s * x) + coef f (n - (k + 1))))) :
    ∃ r, hornerR rnd f x = some r ∧ I n r := by
  unfold hornerR
  split
  · rename_i hn
    subst hn
    exact ⟨_, rd_coef f le_rfl, hz rfl⟩
  · rename_i hn
    obtain ⟨m, rfl⟩ : ∃ m, n = m + 1 := ⟨n - 1, by omega⟩
    have hfirst : forDown (fun i s => do let c ← rd f i; some (rnd (rnd (s * x) + c))) (m + 1) 0 =
        forDown (fun i s => do let c ← rd f i; some (rnd (rnd (s * x) + c))) m (rnd (rnd (0 * x) + coef f (m + 1))) := by
      simp [forDown, rd_coef f le_rfl]
    obtain ⟨s, h1, h2⟩ := forDown_inv (body := fun i s => do let c ← rd f i; some (rnd (rnd (s * x) + c)))
      (fun i s => I (m - i) s) m (rnd (rnd (0 * x) + coef f (m + 1))) (by simpa using h0) (by
        intro i s hi hI
        simp only [rd_coef f (show i + 1 ≤ m + 1 by omega)]
        refine ⟨_, rfl, ?_⟩
        have := hs (m - (i + 1)) s (by omega) hI
        rwa [show m - (i + 1) + 1 = m - i by omega, show m + 1 - (m - i) = i + 1 by omega] at this)
    simp only [Nat.sub_zero] at h2
    refine ⟨_, ?_, hs m s (by omega) h2⟩
    simp only [bind, Option.bind] at h1 hfirst ⊢
    rw [hfirst, h1, rd_coef f (Nat.zero_le _)]
    simp

variable (φ : Format)

theorem absValue_tail {n : ℕ} (f : Arr ℝ n) (x : ℝ) : absValue f x = tailSum (absArr f) |x| n := by
  rw [tailSum_full]; rfl

/-- **C69**: the computed value of a polynomial with representable coefficients at a representable point differs from its value by at
most the bound. -/
theorem C69_error {n : ℕ} (f : Arr ℝ n) (x : ℝ) (hf : ∀ i, f i ∈ φ.F) :
    ∃ r, hornerR φ.rnd f x = some r ∧ |r - ∑ i : Fin (n + 1), f i * x ^ (i : ℕ)| ≤ hornerBound φ f x := by
  have hu := φ.u_nonneg
  have hη := φ.η_nonneg
  have hmem : ∀ i, coef f i ∈ φ.F := by
    intro i; unfold coef; split
    · exact hf _
    · exact φ.zero
  obtain ⟨r, h1, h2⟩ := hornerR_run φ.rnd (fun k s => |s - tailSum f x k| ≤
      ((1 + φ.u) ^ (2 * k) - 1) * tailSum (absArr f) |x| k +
        φ.η * (2 + φ.u) * ∑ j ∈ Finset.range k, ((1 + φ.u) ^ 2 * |x|) ^ j) f x
    (by rw [zero_mul, φ.rnd_of_mem φ.zero, zero_add, φ.rnd_of_mem (hmem n), tailSum_zero]; simp)
    (by rintro rfl; rw [tailSum_zero]; simp)
    (by
      intro k s hk hI
      have hA := tailSum_abs_nonneg f x k
      have hA' := tailSum_abs_nonneg f x (k + 1)
      have hst := horner_step φ hI (tailSum_le f x k) (a := coef f (n - (k + 1))) (A' := tailSum (absArr f) |x| (k + 1))
        (by rw [← tailSum_succ f x k hk]; exact tailSum_le f x (k + 1))
      rw [← tailSum_succ f x k hk] at hst
      refine hst.trans ?_
      have hle : |x| * tailSum (absArr f) |x| k ≤ tailSum (absArr f) |x| (k + 1) := by
        rw [tailSum_succ _ _ k hk, absArr_coef, mul_comm]
        linarith [abs_nonneg (coef f (n - (k + 1)))]
      have hg : 1 ≤ (1 + φ.u) ^ (2 * k) := one_le_pow₀ (by linarith)
      rw [Finset.sum_range_succ', show 2 * (k + 1) = 2 * k + 2 by ring, pow_add]
      simp only [pow_succ _ (_ : ℕ), ← Finset.sum_mul]
      simp only [pow_zero, one_mul]
      generalize (1 + φ.u) ^ (2 * k) = g at hg hI ⊢
      generalize ∑ i ∈ Finset.range k, ((1 + φ.u) * (1 + φ.u) * |x|) ^ i = E
      generalize tailSum (absArr f) |x| (k + 1) = A' at *
      generalize tailSum (absArr f) |x| k = A at *
      have hkey : 0 ≤ (g * ((1 + φ.u) * (1 + φ.u)) - 1 - φ.u) * (A' - |x| * A) := by
        refine mul_nonneg ?_ (by linarith)
        nlinarith [mul_nonneg hu hu]
      nlinarith)
  refine ⟨r, h1, ?_⟩
  rw [tailSum_full] at h2
  unfold hornerBound
  rw [absValue_tail]
  exact h2

/-- **C69**: outside of its error bound the computed value has the right sign. -/
theorem C69_sign {n : ℕ} (f : Arr ℝ n) (x : ℝ) (hf : ∀ i, f i ∈ φ.F)
    (h : hornerBound φ f x < |∑ i : Fin (n + 1), f i * x ^ (i : ℕ)|) :
    ∃ r, hornerR φ.rnd f x = some r ∧ r ≠ 0 ∧ (0 < r ↔ 0 < ∑ i : Fin (n + 1), f i * x ^ (i : ℕ)) := by
  obtain ⟨r, h1, h2⟩ := C69_error φ f x hf
  refine ⟨r, h1, ?_⟩
  have h3 := abs_le.1 (h2.trans h.le)
  rcases abs_cases (∑ i : Fin (n + 1), f i * x ^ (i : ℕ)) with ⟨e, _⟩ | ⟨e, _⟩ <;> rw [e] at h h3 <;>
    rcases abs_cases (r - ∑ i : Fin (n + 1), f i * x ^ (i : ℕ)) with ⟨e', _⟩ | ⟨e', _⟩ <;> rw [e'] at h2
  all_goals refine ⟨?_, ?_, ?_⟩
  all_goals first | (rintro rfl; linarith) | (intro; linarith)

/-- **C69**: integer polynomials at integers are computed without error as long as the numbers stay below `2^p`. -/
theorem C69_integers (p : ℕ) (emin : ℤ) (hp : 0 < p) (he : emin ≤ 0) {n : ℕ} (a : Arr ℤ n) (x : ℤ)
    (h : ∑ i : Fin (n + 1), |a i| * |x| ^ (i : ℕ) ≤ 2 ^ p) :
    hornerR (bin p emin hp he).rnd (fun i => (a i : ℝ)) x = some ((∑ i : Fin (n + 1), a i * x ^ (i : ℕ) : ℤ) : ℝ) := by
  set φ := bin p emin hp he with hφ
  set f : Arr ℝ n := fun i => (a i : ℝ) with hfdef
  have hint : ∀ m : ℤ, |m| ≤ 2 ^ p → φ.rnd (m : ℝ) = m := fun m hm => φ.rnd_of_mem (by
    have := binF_of_le hp (e := 0) he hm
    rw [zpow_zero, mul_one] at this
    exact this)
  have hcf : ∀ i, coef f i = (coef a i : ℤ) := by intro i; unfold coef; split <;> simp [f]
  have hcle : ∀ i, |coef a i| * |x| ^ i ≤ 2 ^ p := by
    intro i
    unfold coef; split
    · rename_i hi
      refine le_trans ?_ h
      exact Finset.single_le_sum (f := fun j : Fin (n + 1) => |a j| * |x| ^ (j : ℕ)) (fun j _ => by positivity)
        (Finset.mem_univ (⟨i, hi⟩ : Fin (n + 1)))
    · simp
  have hval : (∑ i : Fin (n + 1), a i * x ^ (i : ℕ) : ℤ) = value f (x : ℝ) := by
    unfold value; push_cast; rfl
  rw [hval]
  rcases eq_or_ne x 0 with rfl | hx0
  · -- only the last coefficient counts
    obtain ⟨r, h1, h2⟩ := hornerR_run φ.rnd (fun k s => k = n → s = coef f 0) f ((0 : ℤ) : ℝ)
      (by
        rintro rfl
        have := hcle 0
        rw [pow_zero, mul_one] at this
        simp only [Int.cast_zero, mul_zero, φ.rnd_of_mem φ.zero, zero_add]
        rw [hcf, hint _ this])
      (by intros; trivial)
      (by
        intro k s hk _ hkn
        have := hcle 0
        rw [pow_zero, mul_one] at this
        simp only [Int.cast_zero, mul_zero, φ.rnd_of_mem φ.zero, zero_add]
        rw [hkn, Nat.sub_self, hcf, hint _ this])
    rw [h1, h2 rfl, value_eq, Int.cast_zero, ← Polynomial.coeff_zero_eq_eval_zero, polyOf_coeff]
  · have hx1 : (1 : ℝ) ≤ |(x : ℝ)| := by
      rw [← Int.cast_abs]; exact_mod_cast Int.one_le_abs hx0
    have habs : tailSum (absArr f) |(x : ℝ)| n ≤ 2 ^ p := by
      rw [← absValue_tail]
      unfold absValue
      have : ((∑ i : Fin (n + 1), |a i| * |x| ^ (i : ℕ) : ℤ) : ℝ) ≤ ((2 ^ p : ℤ) : ℝ) := by exact_mod_cast h
      push_cast at this
      exact this
    have hmono : ∀ d k, k + d = n → tailSum (absArr f) |(x : ℝ)| k ≤ 2 ^ p := by
      intro d
      induction d with
      | zero => intro k hk; rw [add_zero] at hk; rw [hk]; exact habs
      | succ d ih =>
        intro k hk
        refine le_trans ?_ (ih (k + 1) (by omega))
        rw [tailSum_succ _ _ _ (by omega), absArr_coef]
        nlinarith [abs_nonneg (coef f (n - (k + 1))), tailSum_abs_nonneg f (x : ℝ) k]
    have htint : ∀ k, ∃ m : ℤ, tailSum f (x : ℝ) k = m := fun k =>
      ⟨∑ j ∈ Finset.range (k + 1), coef a (n - k + j) * x ^ j, by unfold tailSum; push_cast; simp only [hcf]⟩
    have hrt : ∀ k, k ≤ n → φ.rnd (tailSum f (x : ℝ) k) = tailSum f (x : ℝ) k := by
      intro k hk
      obtain ⟨m, hm⟩ := htint k
      rw [hm, hint m]
      have := (tailSum_le f (x : ℝ) k).trans (hmono (n - k) k (by omega))
      rw [hm] at this
      exact_mod_cast this
    obtain ⟨r, h1, h2⟩ := hornerR_run φ.rnd (fun k s => s = tailSum f (x : ℝ) k) f (x : ℝ)
      (by rw [zero_mul, φ.rnd_of_mem φ.zero, zero_add, ← tailSum_zero f (x : ℝ)]; exact hrt 0 (Nat.zero_le _))
      (by rintro rfl; rw [tailSum_zero])
      (by
        rintro k s hk rfl
        have hprod : φ.rnd (tailSum f (x : ℝ) k * x) = tailSum f (x : ℝ) k * x := by
          obtain ⟨m, hm⟩ := htint k
          rw [hm, show (m : ℝ) * x = ((m * x : ℤ) : ℝ) by push_cast; ring, hint (m * x)]
          have h3 : |tailSum f (x : ℝ) k * x| ≤ 2 ^ p := by
            rw [abs_mul]
            have h4 := mul_le_mul_of_nonneg_right (tailSum_le f (x : ℝ) k) (abs_nonneg (x : ℝ))
            have h5 := hmono (n - (k + 1)) (k + 1) (by omega)
            rw [tailSum_succ _ _ _ (by omega), absArr_coef] at h5
            linarith [abs_nonneg (coef f (n - (k + 1)))]
          rw [hm] at h3
          exact_mod_cast h3
        rw [hprod, ← tailSum_succ f _ k hk]
        exact hrt (k + 1) hk)
    rw [h1, h2, tailSum_full]

/-- The function whose sign `bisection` looks at when it is given a polynomial. -/
noncomputable def computed {n : ℕ} (f : Arr ℝ n) (x : ℝ) : ℝ := (hornerR φ.rnd f x).getD 0

/-- A change of sign of computed values: there is a root between the points, or one of the two values is within its error bound. -/
theorem C69_sign_change {n : ℕ} (f : Arr ℝ n) (hf : ∀ i, f i ∈ φ.F) {a b : ℝ} (hab : a ≤ b)
    (h : SignChange (computed φ f) a b) :
    (∃ c, a ≤ c ∧ c ≤ b ∧ value f c = 0) ∨ |value f a| ≤ hornerBound φ f a ∨ |value f b| ≤ hornerBound φ f b := by
  by_cases ha : |value f a| ≤ hornerBound φ f a
  · exact .inr (.inl ha)
  by_cases hb : |value f b| ≤ hornerBound φ f b
  · exact .inr (.inr hb)
  left
  obtain ⟨ra, a1, a2, a3⟩ := C69_sign φ f a hf (not_le.1 ha)
  obtain ⟨rb, b1, b2, b3⟩ := C69_sign φ f b hf (not_le.1 hb)
  have hcont : Continuous fun t => value f t := by
    unfold value; exact continuous_finsetSum _ fun i _ => continuous_const.mul (continuous_id.pow _)
  have ea : computed φ f a = ra := by simp [computed, a1]
  have eb : computed φ f b = rb := by simp [computed, b1]
  have hsc : SignChange (value f) a b := by
    unfold SignChange at h ⊢
    rw [ea, eb] at h
    have na : value f a ≠ 0 := by
      intro e; have := not_le.1 ha; rw [e, abs_zero] at this
      have hnn : |ra - value f a| ≤ hornerBound φ f a := by
        obtain ⟨r, h1, h2⟩ := C69_error φ f a hf
        rw [a1] at h1; obtain rfl := Option.some.inj h1; exact h2
      linarith [abs_nonneg (ra - value f a)]
    change 0 < ra ↔ 0 < value f a at a3
    change 0 < rb ↔ 0 < value f b at b3
    have nb : value f b ≠ 0 := by
      intro e; have := not_le.1 hb; rw [e, abs_zero] at this
      have hnn : |rb - value f b| ≤ hornerBound φ f b := by
        obtain ⟨r, h1, h2⟩ := C69_error φ f b hf
        rw [b1] at h1; obtain rfl := Option.some.inj h1; exact h2
      linarith [abs_nonneg (rb - value f b)]
    rcases h with ⟨h1, h2⟩ | ⟨h1, h2⟩
    · exact .inl ⟨lt_of_le_of_ne (not_lt.1 fun h => absurd (a3.2 h) h1.not_gt) na, (b3.1 (lt_of_le_of_ne h2 b2.symm)).le⟩
    · exact .inr ⟨(a3.1 (lt_of_le_of_ne h1 a2.symm)).le, lt_of_le_of_ne (not_lt.1 fun h => absurd (b3.2 h) h2.not_gt) nb⟩
  obtain ⟨c, h1, h2, h3⟩ := hsc.root hab hcont.continuousOn
  exact ⟨c, h1, h2, h3⟩

/-- **C69**, with C68: a bisection of a polynomial in `double` arithmetic, with precision 0, ends at a number that is as good as the
evaluation allows: it is next to a root with no other number between, or it or the number next to it has a value within the
evaluation error. -/
theorem C69_bisection {n : ℕ} (f : Arr ℝ n) (hf : ∀ i, f i ∈ φ.F) (maxSize : ℕ) (x lo hi : ℝ) (iterations : ℕ)
    (hl : lo ∈ φ.F) (hh : hi ∈ φ.F) (hlt : lo < hi) (hs : SignChange (computed φ f) lo hi)
    (hn : (φ.F ∩ Set.Ioo lo hi).ncard + 2 ≤ iters maxSize iterations) :
    ∃ x', bisectionR φ.rnd (computed φ f) maxSize 0 x lo hi iterations = (true, x') ∧
      (|value f x'| ≤ hornerBound φ f x' ∨
        ∃ a b, Adjacent φ a b ∧ (x' = a ∨ x' = b) ∧
          ((∃ c, a ≤ c ∧ c ≤ b ∧ value f c = 0) ∨ |value f a| ≤ hornerBound φ f a ∨ |value f b| ≤ hornerBound φ f b)) := by
  obtain ⟨x', h1, h2⟩ := C68_best φ (computed φ f) maxSize x lo hi iterations hl hh hlt hs hn
  refine ⟨x', h1, ?_⟩
  rcases h2 with h | ⟨a, b, hab, hsc, hx⟩
  · left
    obtain ⟨r, e1, e2⟩ := C69_error φ f x' hf
    have : r = 0 := by rw [← h]; simp [computed, e1]
    rw [this, zero_sub, abs_neg] at e2
    exact e2
  · exact .inr ⟨a, b, hab, hx, C69_sign_change φ f hf hab.2.2.1.le hsc⟩

/-! ## Concrete cases -/

/-- `1 + 2x + 3x²` at 4 in `double` arithmetic: exactly 57. -/
example : hornerR binary64.rnd (fun i => (((![1, 2, 3] : Arr ℤ 2) i : ℤ) : ℝ)) ((4 : ℤ) : ℝ) = some ((57 : ℤ) : ℝ) := by
  have := C69_integers 53 (-1074) (by norm_num) (by norm_num) (![1, 2, 3] : Arr ℤ 2) 4
    (by simp [Fin.sum_univ_succ])
  rw [show ((∑ i : Fin (2 + 1), (![1, 2, 3] : Arr ℤ 2) i * 4 ^ (i : ℕ) : ℤ)) = 57 by simp [Fin.sum_univ_succ]] at this
  exact this

/-- The hypotheses of the error bound hold for the coefficients 1 and 2 and every point. -/
example (x : ℝ) : ∃ r, hornerR binary64.rnd (![1, 2] : Arr ℝ 1) x = some r ∧
    |r - (1 + 2 * x)| ≤ hornerBound binary64 ![1, 2] x := by
  obtain ⟨r, h1, h2⟩ := C69_error binary64 (![1, 2] : Arr ℝ 1) x (by
    intro i; fin_cases i
    · exact binary64.one
    · exact binary64.two)
  refine ⟨r, h1, ?_⟩
  simpa [Fin.sum_univ_succ] using h2

end Stator.Fp
