import Verif.Fp.IeeeQuadratic
import Verif.Fp.Horner

/-!
# C96: the value of a polynomial, on the whole of `double`

`Fp/Horner` has exponents without a bound. Here `sub(f, x == value)` and `eval_derivatives` run on the data type of IEEE 754: steps may
overflow, and the coefficients and the argument may be infinite or NaN.
-/

namespace Stator.Fp

open Stator Ieee Num Stator.Pol

variable {φ : Format} {M : ℝ}

/-- models: stator/symbolic/polynomial.hpp:237-249, the loop for an infinite argument, from `i = Order`. -/
noncomputable def hornerInfI {n : ℕ} (f : Arr (Ieee φ M) n) (x : Ieee φ M) : ℕ → Option (Ieee φ M)
  | 0 => rd f 0
  | i + 1 => do
    let c ← rd f (i + 1)
    if c.eq (.zero false) = true then hornerInfI f x i
    else some (if n % 2 = 1 then c.mul x else c.mul (.inf false))

open Classical in
/-- models: stator/symbolic/polynomial.hpp:221-264 numeric `sub` for `double`. (No fused multiply-add.) -/
noncomputable def hornerI {n : ℕ} (f : Arr (Ieee φ M) n) (x : Ieee φ M) : Option (Ieee φ M) :=
  if n = 0 then rd f 0
  else if x.isInf then hornerInfI f x n
  else do
    let s ← forDown (fun i (s : Ieee φ M) => do let c ← rd f i; some ((s.mul x).add c)) n (.zero false)
    let c ← rd f 0
    some ((s.mul x).add c)

/-- models: stator/symbolic/polynomial.hpp:319-338 `eval_derivatives<D>` for `double`. The factor `i` is converted to `double`. -/
noncomputable def evalDerivI {n : ℕ} (hM : 1 ≤ M) (D : ℕ) (f : Arr (Ieee φ M) n) (x : Ieee φ M) : Option (Arr (Ieee φ M) D) := do
  let c ← rd f n
  let r ← wr (fun _ => Ieee.zero false) 0 c
  let r ← forDown (fun i (r : Arr (Ieee φ M) D) => do
    let r ← forDown (fun j (r : Arr (Ieee φ M) D) => do
      let rj ← rd r j
      let rj1 ← rd r (j - 1)
      wr r j ((rj.mul x).add rj1)) (min D (n - (i - 1))) r
    let r0 ← rd r 0
    let c ← rd f (i - 1)
    wr r 0 ((r0.mul x).add c)) n r
  let s ← forUp (fun i (s : Ieee φ M × Arr (Ieee φ M) D) => do
    let cnst := s.1.mul (pack false (i : ℝ))
    let ri ← rd s.2 i
    let r ← wr s.2 i (ri.mul cnst)
    some (cnst, r)) 2 (D - 1) (.one hM, r)
  some s.2

/-! ## Specification -/

/-- The coefficients are the numbers `a`. -/
def Coefs {n : ℕ} (f : Arr (Ieee φ M) n) (a : Arr ℝ n) : Prop := ∀ i, (f i).IsNum (a i)

/-- What the computed partial sums cannot exceed. -/
noncomputable def evalBound (φ : Format) {n : ℕ} (a : Arr ℝ n) (y : ℝ) : ℝ :=
  absValue a (max 1 |y|) + hornerBound φ a (max 1 |y|)

/-! ## The loop -/

theorem rd_fin {K : Type*} {n : ℕ} (a : Arr K n) {i : ℕ} (h : i < n + 1) : rd a i = some (a ⟨i, h⟩) := by
  unfold rd; rw [dif_pos h]

theorem wr_fin {K : Type*} {n : ℕ} (a : Arr K n) {i : ℕ} (v : K) (h : i < n + 1) : wr a i v = some (Function.update a ⟨i, h⟩ v) := by
  unfold wr; rw [dif_pos h]

theorem hornerI_run (I : ℕ → Ieee φ M → Prop) {n : ℕ} (f : Arr (Ieee φ M) n) {x : Ieee φ M} (hx : ¬ x.isInf)
    (h0 : n ≠ 0 → I 0 (((Ieee.zero false).mul x).add (f ⟨n, by omega⟩))) (hz : n = 0 → I 0 (f 0))
    (hs : ∀ k s, (h : k < n) → I k s → I (k + 1) ((s.mul x).add (f ⟨n - (k + 1), by omega⟩))) :
    ∃ r, hornerI f x = some r ∧ I n r := by
  unfold hornerI
  split
  · rename_i hn
    subst hn
    exact ⟨_, rd_fin f (by omega), hz rfl⟩
  · rename_i hn
    obtain ⟨m, rfl⟩ : ∃ m, n = m + 1 := ⟨n - 1, by omega⟩
    have hfirst : forDown (fun i (s : Ieee φ M) => do let c ← rd f i; some ((s.mul x).add c)) (m + 1) (.zero false) =
        forDown (fun i (s : Ieee φ M) => do let c ← rd f i; some ((s.mul x).add c)) m (((Ieee.zero false).mul x).add (f ⟨m + 1, by omega⟩)) := by
      simp [forDown, rd_fin f (show m + 1 < m + 1 + 1 by omega)]
    obtain ⟨s, h1, h2⟩ := forDown_inv (body := fun i (s : Ieee φ M) => do let c ← rd f i; some ((s.mul x).add c))
      (fun i s => I (m - i) s) m (((Ieee.zero false).mul x).add (f ⟨m + 1, by omega⟩)) (by simpa using h0 hn) (by
        intro i s hi hI
        simp only [rd_fin f (show i + 1 < m + 1 + 1 by omega)]
        refine ⟨_, rfl, ?_⟩
        have := hs (m - (i + 1)) s (by omega) hI
        simp only [show m - (i + 1) + 1 = m - i by omega, show m + 1 - (m - i) = i + 1 by omega] at this
        exact this)
    simp only [Nat.sub_zero] at h2
    refine ⟨_, ?_, hs m s (by omega) h2⟩
    simp only [bind, Option.bind] at h1 hfirst ⊢
    rw [hfirst, h1, rd_fin f (show 0 < m + 1 + 1 by omega)]
    simp

/-- The computed partial sums with unbounded exponents. -/
noncomputable def partialR (rnd : ℝ → ℝ) {n : ℕ} (a : Arr ℝ n) (y : ℝ) : ℕ → ℝ
  | 0 => coef a n
  | k + 1 => rnd (rnd (partialR rnd a y k * y) + coef a (n - (k + 1)))

theorem hornerR_partial (φ : Format) {n : ℕ} (a : Arr ℝ n) (y : ℝ) (ha : ∀ i, a i ∈ φ.F) :
    hornerR φ.rnd a y = some (partialR φ.rnd a y n) := by
  obtain ⟨r, h1, h2⟩ := hornerR_run φ.rnd (fun k s => s = partialR φ.rnd a y k) a y
    (by
      have : coef a n ∈ φ.F := by unfold coef; rw [dif_pos (by omega)]; exact ha _
      rw [zero_mul, rnd_zero, zero_add, φ.rnd_of_mem this]; rfl)
    (by rintro rfl; rfl)
    (by rintro k s hk rfl; rfl)
  rw [h1, h2]

/-- A bound for the partial sums. -/
noncomputable def sumBound (φ : Format) {n : ℕ} (a : Arr ℝ n) (B : ℝ) (k : ℕ) : ℝ :=
  (1 + φ.u) ^ (2 * k) * tailSum (absArr a) B k + φ.η * (2 + φ.u) * ∑ j ∈ Finset.range k, ((1 + φ.u) ^ 2 * B) ^ j

theorem rnd_abs_le (φ : Format) (t : ℝ) : |φ.rnd t| ≤ (1 + φ.u) * |t| + φ.η := by
  have h1 := φ.error t
  have h2 := abs_sub_abs_le_abs_sub (φ.rnd t) t
  linarith

theorem tailSum_nonneg {n : ℕ} (a : Arr ℝ n) {B : ℝ} (hB : 0 ≤ B) (k : ℕ) : 0 ≤ tailSum (absArr a) B k := by
  have := tailSum_abs_nonneg a B k
  rwa [abs_of_nonneg hB] at this

theorem sumBound_succ (φ : Format) {n : ℕ} (a : Arr ℝ n) {B : ℝ} (_ : 0 ≤ B) {k : ℕ} (hk : k < n) :
    (1 + φ.u) ^ 2 * B * sumBound φ a B k + (1 + φ.u) * |coef a (n - (k + 1))| + (2 + φ.u) * φ.η ≤ sumBound φ a B (k + 1) := by
  have hu := φ.u_nonneg
  unfold sumBound
  rw [tailSum_succ _ _ _ hk, absArr_coef, Finset.sum_range_succ', show 2 * (k + 1) = 2 * k + 2 by ring, pow_add]
  simp only [pow_succ _ (_ : ℕ), ← Finset.sum_mul]
  simp only [pow_zero, one_mul]
  have hg : 1 ≤ (1 + φ.u) ^ (2 * k) := one_le_pow₀ (by linarith)
  generalize (1 + φ.u) ^ (2 * k) = g at hg ⊢
  generalize ∑ i ∈ Finset.range k, ((1 + φ.u) * (1 + φ.u) * B) ^ i = E
  generalize tailSum (absArr a) B k = A
  have hc := abs_nonneg (coef a (n - (k + 1)))
  generalize |coef a (n - (k + 1))| = c at *
  have key : 0 ≤ (g * (1 + φ.u) - 1) * ((1 + φ.u) * c) := by
    refine mul_nonneg ?_ (mul_nonneg (by linarith) hc)
    nlinarith
  nlinarith

theorem sumBound_nonneg (φ : Format) {n : ℕ} (a : Arr ℝ n) {B : ℝ} (hB : 0 ≤ B) (k : ℕ) : 0 ≤ sumBound φ a B k := by
  have hu := φ.u_nonneg
  have hη := φ.η_nonneg
  have := tailSum_nonneg a hB k
  unfold sumBound
  refine add_nonneg (mul_nonneg (by positivity) this) (mul_nonneg (mul_nonneg hη (by linarith)) (Finset.sum_nonneg fun i _ => ?_))
  positivity

theorem sumBound_le (φ : Format) {n : ℕ} (a : Arr ℝ n) {B : ℝ} (hB : 1 ≤ B) {k : ℕ} (hk : k < n) : sumBound φ a B k ≤ sumBound φ a B (k + 1) := by
  have hu := φ.u_nonneg
  have hη := φ.η_nonneg
  have h1 := sumBound_succ φ a (by linarith : 0 ≤ B) hk
  have h2 := sumBound_nonneg φ a (by linarith : 0 ≤ B) k
  have h3 : 1 ≤ (1 + φ.u) ^ 2 * B := one_le_mul_of_one_le_of_one_le (one_le_pow₀ (by linarith)) hB
  have h4 := mul_le_mul_of_nonneg_right h3 h2
  have h5 : 0 ≤ (1 + φ.u) * |coef a (n - (k + 1))| := mul_nonneg (by linarith) (abs_nonneg _)
  have h6 : 0 ≤ (2 + φ.u) * φ.η := mul_nonneg (by linarith) hη
  linarith

theorem sumBound_top (φ : Format) {n : ℕ} (a : Arr ℝ n) {B : ℝ} (hB : 1 ≤ B) {k : ℕ} (hk : k ≤ n) : sumBound φ a B k ≤ sumBound φ a B n := by
  have : ∀ d, k + d ≤ n → sumBound φ a B k ≤ sumBound φ a B (k + d) := by
    intro d
    induction d with
    | zero => intro _; exact le_rfl
    | succ d ih => intro h; exact (ih (by omega)).trans (sumBound_le φ a hB (by omega))
  have h := this (n - k) (by omega)
  rwa [show k + (n - k) = n by omega] at h

theorem sumBound_eq (φ : Format) {n : ℕ} (a : Arr ℝ n) (y : ℝ) : sumBound φ a (max 1 |y|) n = evalBound φ a y := by
  have hB : (0 : ℝ) ≤ max 1 |y| := le_trans zero_le_one (le_max_left _ _)
  unfold sumBound evalBound hornerBound
  rw [absValue_tail, abs_of_nonneg hB]
  ring

theorem coefs_mem {n : ℕ} {f : Arr (Ieee φ M) n} {a : Arr ℝ n} (h : Coefs f a) (i) : a i ∈ φ.F := (h i).mem

theorem partial_le (φ : Format) {n : ℕ} (a : Arr ℝ n) (y : ℝ) : ∀ k, k ≤ n → |partialR φ.rnd a y k| ≤ sumBound φ a (max 1 |y|) k
  | 0, _ => by simp [partialR, sumBound, tailSum_zero, absArr_coef]
  | k + 1, hk => by
    have hu := φ.u_nonneg
    have hη := φ.η_nonneg
    have ih := partial_le φ a y k (by omega)
    have hB : (0 : ℝ) ≤ max 1 |y| := le_trans zero_le_one (le_max_left _ _)
    refine le_trans ?_ (sumBound_succ φ a hB (by omega))
    rw [partialR]
    have h1 := rnd_abs_le φ (φ.rnd (partialR φ.rnd a y k * y) + coef a (n - (k + 1)))
    have h2 := abs_add_le (φ.rnd (partialR φ.rnd a y k * y)) (coef a (n - (k + 1)))
    have h3 := rnd_abs_le φ (partialR φ.rnd a y k * y)
    have h4 : |partialR φ.rnd a y k * y| ≤ sumBound φ a (max 1 |y|) k * max 1 |y| := by
      rw [abs_mul]
      exact mul_le_mul ih (le_max_right _ _) (abs_nonneg _) (sumBound_nonneg φ a hB k)
    have h5 := mul_le_mul_of_nonneg_left h4 (by linarith : 0 ≤ 1 + φ.u)
    have h6 := mul_le_mul_of_nonneg_left (h2.trans (add_le_add_left (h3.trans (add_le_add_left h5 φ.η)) _)) (by linarith : 0 ≤ 1 + φ.u)
    nlinarith

/-- **C96**: if the bound for the partial sums is within the range of the type, nothing overflows. -/
theorem C96_agrees {n : ℕ} {f : Arr (Ieee φ M) n} {a : Arr ℝ n} {x : Ieee φ M} {y : ℝ} (hf : Coefs f a) (hx : x.IsNum y)
    (hb : evalBound φ a y ≤ M) : ∃ c r, hornerI f x = some c ∧ hornerR φ.rnd a y = some r ∧ c.IsNum r := by
  have hu := φ.u_nonneg
  have hη := φ.η_nonneg
  have hB : (1 : ℝ) ≤ max 1 |y| := le_max_left _ _
  have hxi : ¬ x.isInf := by rintro ⟨b, rfl⟩; exact hx
  have hcf : ∀ i (h : i < n + 1), (f ⟨i, h⟩).IsNum (coef a i) := fun i h => by unfold coef; rw [dif_pos h]; exact hf _
  rw [← sumBound_eq] at hb
  obtain ⟨c, h1, h2⟩ := hornerI_run (fun k s => s.IsNum (partialR φ.rnd a y k)) f hxi
    (by
      intro _
      have hM0 : 0 ≤ M := (sumBound_nonneg φ a (by linarith) n).trans hb
      have e := (zero_num (φ := φ) (M := M) false).mul hx (by rwa [zero_mul, rnd_zero, abs_zero])
      rw [zero_mul, rnd_zero] at e
      have hm : φ.rnd (0 + coef a n) = coef a n := by rw [zero_add, φ.rnd_of_mem (hcf n (by omega)).mem]
      have := e.add (hcf n (by omega)) (by rw [hm]; exact (hcf n (by omega)).le hM0)
      rw [hm] at this
      exact this)
    (by rintro rfl; exact hcf 0 (by omega))
    (by
      intro k s hk hs
      have p1 := partial_le φ a y k hk.le
      have p2 := partial_le φ a y (k + 1) hk
      have g1 := sumBound_top φ a hB (show k + 1 ≤ n from hk)
      have hprod : |φ.rnd (partialR φ.rnd a y k * y)| ≤ M := by
        refine le_trans ?_ (g1.trans hb)
        refine le_trans ?_ (sumBound_succ φ a (by linarith) hk)
        have h3 := rnd_abs_le φ (partialR φ.rnd a y k * y)
        have h4 : |partialR φ.rnd a y k * y| ≤ sumBound φ a (max 1 |y|) k * max 1 |y| := by
          rw [abs_mul]
          exact mul_le_mul p1 (le_max_right _ _) (abs_nonneg _) (sumBound_nonneg φ a (by linarith) k)
        have h5 := mul_le_mul_of_nonneg_left h4 (by linarith : 0 ≤ 1 + φ.u)
        have h6 := mul_nonneg (sumBound_nonneg φ a (by linarith : (0:ℝ) ≤ max 1 |y|) k) (by linarith : (0:ℝ) ≤ max 1 |y|)
        have h7 : 0 ≤ (1 + φ.u) * |coef a (n - (k + 1))| := mul_nonneg (by linarith) (abs_nonneg _)
        nlinarith [mul_nonneg hu hη, mul_nonneg hu h6]
      exact (hs.mul hx hprod).add (hcf _ _) (p2.trans (g1.trans hb)))
  exact ⟨c, _, h1, hornerR_partial φ a y (coefs_mem hf), h2⟩

/-- **C96**: the value is a number, and it differs from the value of the polynomial by at most the error bound of C69. -/
theorem C96_error {n : ℕ} {f : Arr (Ieee φ M) n} {a : Arr ℝ n} {x : Ieee φ M} {y : ℝ} (hf : Coefs f a) (hx : x.IsNum y)
    (hb : evalBound φ a y ≤ M) :
    ∃ c r, hornerI f x = some c ∧ c.IsNum r ∧ |r - ∑ i : Fin (n + 1), a i * y ^ (i : ℕ)| ≤ hornerBound φ a y := by
  obtain ⟨c, r, h1, h2, h3⟩ := C96_agrees hf hx hb
  obtain ⟨r', h4, h5⟩ := C69_error φ a y (coefs_mem hf)
  rw [h2] at h4
  obtain rfl := Option.some.inj h4
  exact ⟨c, r, h1, h3, h5⟩

theorem num_mul_cases (hM0 : 0 ≤ M) {a b : Ieee φ M} {u v : ℝ} (h : a.IsNum u) (h' : b.IsNum v) :
    (a.mul b).IsNum (φ.rnd (u * v)) ∨ M < |φ.rnd (u * v)| ∧ a.mul b = .inf (decide (u * v < 0)) := by
  rcases a with _ | _ | _ | _ <;> simp only [IsNum] at h <;> rcases b with _ | _ | _ | _ <;> simp only [IsNum] at h' <;>
    subst h h' <;> simp only [Ieee.mul, Ieee.val] <;> exact pack_cases hM0 _ _

theorem inf_mul_num {b : Ieee φ M} {v : ℝ} (h : b.IsNum v) (h0 : v ≠ 0) (s : Bool) :
    (Ieee.inf s : Ieee φ M).mul b = .inf (s ^^ decide (v < 0)) := by
  rcases b with _ | _ | _ | _ <;> simp only [IsNum] at h
  · exact absurd h h0
  · subst h; rfl

/-- **C96**: with numbers as coefficients and argument the result may overflow, but it is never NaN. -/
theorem C96_not_nan (hM0 : 0 ≤ M) {n : ℕ} {f : Arr (Ieee φ M) n} {a : Arr ℝ n} {x : Ieee φ M} {y : ℝ} (hf : Coefs f a)
    (hx : x.IsNum y) : ∃ c, hornerI f x = some c ∧ c ≠ .nan := by
  have hxi : ¬ x.isInf := by rintro ⟨b, rfl⟩; exact hx
  have step : ∀ (s : Ieee φ M) i, ((∃ t, s.IsNum t) ∨ s.isInf ∧ y ≠ 0) →
      ((∃ t, ((s.mul x).add (f i)).IsNum t) ∨ ((s.mul x).add (f i)).isInf ∧ y ≠ 0) := by
    rintro s i (⟨t, ht⟩ | ⟨⟨b, rfl⟩, h0⟩)
    · rcases num_mul_cases hM0 ht hx with h | ⟨h, e⟩
      · rcases num_add_cases hM0 h (hf i) with h' | ⟨h', e⟩
        · exact .inl ⟨_, h'⟩
        · refine .inr ⟨⟨_, e⟩, ?_⟩
          rintro rfl
          rw [mul_zero, rnd_zero, zero_add, φ.rnd_of_mem (hf i).mem] at h'
          exact absurd ((hf i).le hM0) (not_le.2 h')
      · refine .inr ⟨⟨decide (t * y < 0), ?_⟩, ?_⟩
        · rw [e]; exact (num_add_inf (hf i) _).2
        · rintro rfl
          rw [mul_zero, rnd_zero, abs_zero] at h
          exact absurd hM0 (not_le.2 h)
    · refine .inr ⟨⟨b ^^ decide (y < 0), ?_⟩, h0⟩
      rw [inf_mul_num hx h0]; exact (num_add_inf (hf i) _).2
  obtain ⟨c, h1, h2⟩ := hornerI_run (fun _ s => (∃ t, s.IsNum t) ∨ s.isInf ∧ y ≠ 0) f hxi
    (fun _ => step _ _ (.inl ⟨0, zero_num _⟩)) (fun _ => .inl ⟨_, hf 0⟩) (fun _ s _ h => step s _ h)
  refine ⟨c, h1, ?_⟩
  rintro rfl
  rcases h2 with ⟨t, ht⟩ | ⟨⟨b, hb⟩, -⟩
  · exact ht
  · cases hb

/-- **C96**: a NaN among the coefficients or as the argument is in the result. -/
theorem C96_nan {n : ℕ} (hn : n ≠ 0) (f : Arr (Ieee φ M) n) (x : Ieee φ M) (hx : ¬ x.isInf) (h : x = .nan ∨ ∃ i, f i = .nan) :
    hornerI f x = some .nan := by
  have mul_nan : ∀ s : Ieee φ M, s.mul .nan = .nan := fun s => by rcases s with _ | _ | _ | _ <;> rfl
  rcases h with rfl | ⟨⟨i, hi⟩, h⟩
  · obtain ⟨c, h1, rfl⟩ := hornerI_run (fun _ s => s = .nan) f hx (fun _ => by rw [mul_nan]; rfl) (fun h => absurd h hn)
      (fun k s _ _ => by rw [mul_nan]; rfl)
    exact h1
  · obtain ⟨c, h1, h2⟩ := hornerI_run (fun k s => n - k ≤ i → s = .nan) f hx
      (fun _ h' => by
        have : (⟨n, by omega⟩ : Fin (n + 1)) = ⟨i, hi⟩ := Fin.ext (by simp only; omega)
        rw [this, h, add_nan']) (fun h => absurd h hn)
      (fun k s hk hs h' => by
        by_cases e : n - k ≤ i
        · rw [hs e]; rfl
        · have : (⟨n - (k + 1), by omega⟩ : Fin (n + 1)) = ⟨i, hi⟩ := Fin.ext (by simp only; omega)
          rw [this, h, add_nan'])
    rw [h1, h2 (by omega)]

/-! ## Bisection -/

theorem sumBound_mono (φ : Format) {n : ℕ} (a : Arr ℝ n) {B C : ℝ} (hB : 0 ≤ B) (h : B ≤ C) (k : ℕ) :
    sumBound φ a B k ≤ sumBound φ a C k := by
  have hu := φ.u_nonneg
  have hη := φ.η_nonneg
  have h1 : tailSum (absArr a) B k ≤ tailSum (absArr a) C k := by
    unfold tailSum
    refine Finset.sum_le_sum fun j _ => mul_le_mul_of_nonneg_left (pow_le_pow_left₀ hB h j) ?_
    rw [absArr_coef]; exact abs_nonneg _
  have h2 : ∑ j ∈ Finset.range k, ((1 + φ.u) ^ 2 * B) ^ j ≤ ∑ j ∈ Finset.range k, ((1 + φ.u) ^ 2 * C) ^ j :=
    Finset.sum_le_sum fun j _ => pow_le_pow_left₀ (by positivity) (mul_le_mul_of_nonneg_left h (by positivity)) j
  exact add_le_add (mul_le_mul_of_nonneg_left h1 (by positivity)) (mul_le_mul_of_nonneg_left h2 (by positivity))

theorem evalBound_mono (φ : Format) {n : ℕ} (a : Arr ℝ n) {y z : ℝ} (h : |y| ≤ |z|) : evalBound φ a y ≤ evalBound φ a z := by
  rw [← sumBound_eq, ← sumBound_eq]
  exact sumBound_mono φ a (le_trans zero_le_one (le_max_left _ _)) (max_le_max le_rfl h) n

theorem num_det {c : Ieee φ M} {x y : ℝ} (h : c.IsNum x) (h' : c.IsNum y) : x = y := by
  rcases c with _ | _ | _ | _ <;> simp only [IsNum] at h h'
  · rw [h, h']
  · rw [← h, ← h']

/-- The function `bisection` works with. -/
noncomputable def evalI {n : ℕ} (f : Arr (Ieee φ M) n) (x : Ieee φ M) : Ieee φ M := (hornerI f x).getD .nan

theorem evalI_sign {n : ℕ} {f : Arr (Ieee φ M) n} {a : Arr ℝ n} {x : Ieee φ M} {y : ℝ} (hf : Coefs f a) (hx : x.IsNum y)
    (hb : evalBound φ a y ≤ M) (ns : Bool) (h : hornerBound φ a y < |value a y|) : bit ns (evalI f x) = decide (value a y < 0) := by
  obtain ⟨c, r, h1, h2, h3⟩ := C96_error hf hx hb
  change |r - value a y| ≤ _ at h3
  have h4 := abs_le.1 h3
  have key : r ≠ 0 ∧ (r < 0 ↔ value a y < 0) := by
    rcases abs_cases (value a y) with ⟨e, _⟩ | ⟨e, _⟩ <;> rw [e] at h
    · exact ⟨by rintro rfl; linarith, fun _ => by linarith, fun _ => by linarith⟩
    · exact ⟨by rintro rfl; linarith, fun _ => by linarith, fun _ => by linarith⟩
  have e : evalI f x = c := by unfold evalI; rw [h1]; rfl
  rw [e]
  rcases c with _ | _ | _ | _ <;> simp only [IsNum] at h2
  · exact absurd h2 key.1
  · subst h2
    simp only [bit, Ieee.sgn]
    exact decide_eq_decide.2 key.2

theorem bisection_core (h2 : 2 ≤ M) (hMF : M ∈ φ.F) (ns : Bool) {n : ℕ} {f : Arr (Ieee φ M) n} {a : Arr ℝ n} (hf : Coefs f a)
    (maxSize : ℕ) (x lo hi : Ieee φ M) (iterations : ℕ) {P : ℕ → ℝ → ℝ → Prop} (hP : Enough φ P) {l h : ℝ} (hl : lo.IsNum l) (hh : hi.IsNum h) (hlt : l < h)
    (bl : -(M / 2) ≤ l) (bh : h ≤ M / 2) (hb : evalBound φ a (max |l| |h|) ≤ M) (hs : value a l * value a h < 0)
    (el : hornerBound φ a l < |value a l|) (eh : hornerBound φ a h < |value a h|)
    (hn : P (iters maxSize iterations - 1) l h) :
    ∃ x' w, bisectionI h2 ns (evalI f) maxSize (.zero false) x lo hi iterations = (true, x') ∧ x'.IsNum w ∧ l ≤ w ∧ w ≤ h ∧
      (|value a w| ≤ hornerBound φ a w ∨
        ∃ u v, Adjacent φ u v ∧ l ≤ u ∧ v ≤ h ∧ (w = u ∨ w = v) ∧
          ((∃ c, u ≤ c ∧ c ≤ v ∧ value a c = 0) ∨ |value a u| ≤ hornerBound φ a u ∨ |value a v| ≤ hornerBound φ a v)) := by
  have hB0 : (0 : ℝ) ≤ max |l| |h| := le_max_of_le_left (abs_nonneg _)
  have fits : ∀ t, l ≤ t → t ≤ h → evalBound φ a t ≤ M := fun t h1 h2 =>
    (evalBound_mono φ a (by
      rw [abs_of_nonneg hB0]
      exact abs_le.2 ⟨by linarith [neg_abs_le l, le_max_left |l| |h|], by linarith [le_abs_self h, le_max_right |l| |h|]⟩)).trans hb
  have hs' : bit ns (evalI f lo) ≠ bit ns (evalI f hi) := by
    rw [evalI_sign hf hl (fits l le_rfl hlt.le) ns el, evalI_sign hf hh (fits h hlt.le le_rfl) ns eh]
    intro e
    have := decide_eq_decide.1 e
    rcases lt_or_ge (value a l) 0 with h1 | h1
    · have := mul_pos_of_neg_of_neg h1 (this.1 h1)
      linarith
    · have h3 : 0 ≤ value a h := not_lt.1 fun h' => absurd (this.2 h') (not_lt.2 h1)
      have := mul_nonneg h1 h3
      linarith
  obtain ⟨x', w, h3, h4, h5, h6, h7⟩ :=
    bisectionI_spec h2 hMF ns (evalI f) maxSize (.zero false) x lo hi iterations hP hl hh hlt bl bh hs' hn
  refine ⟨x', w, h3, h4, h5, h6, ?_⟩
  have hzero : ∀ b, evalI f x' = .zero b → |value a w| ≤ hornerBound φ a w := fun b hz => by
    obtain ⟨c, r, e1, e2, e3⟩ := C96_error hf h4 (fits w h5 h6)
    have : c = .zero b := by rw [← hz]; unfold evalI; rw [e1]; rfl
    subst this
    simp only [IsNum] at e2
    subst e2
    rw [zero_sub, abs_neg] at e3
    exact e3
  rcases h7 with h7 | h7 | ⟨p, q, u, v, p1, q1, u1, v1, had, hsg, hx⟩ | ⟨s, t, t1, t2, t3⟩
  · exact .inl (hzero _ h7)
  · exact .inl (hzero _ h7)
  · refine .inr ⟨u, v, had, u1, v1, hx.imp (num_det h4) (num_det h4), ?_⟩
    have huv := had.2.2.1
    by_cases hu : |value a u| ≤ hornerBound φ a u
    · exact .inr (.inl hu)
    by_cases hv : |value a v| ≤ hornerBound φ a v
    · exact .inr (.inr hv)
    left
    rw [evalI_sign hf p1 (fits u u1 (huv.le.trans v1)) ns (not_le.1 hu), evalI_sign hf q1 (fits v (u1.trans huv.le) v1) ns (not_le.1 hv)] at hsg
    have hcont : ContinuousOn (value a) (Set.Icc u v) := by
      refine Continuous.continuousOn ?_
      unfold value; exact continuous_finsetSum _ fun i _ => continuous_const.mul (continuous_id.pow _)
    have hsc : SignChange (value a) u v := by
      unfold SignChange
      rcases lt_or_ge (value a u) 0 with h1 | h1
      · rcases lt_or_ge (value a v) 0 with h2 | h2
        · exact absurd (by rw [decide_eq_true h1, decide_eq_true h2]) hsg
        · exact .inl ⟨h1, h2⟩
      · rcases lt_or_ge (value a v) 0 with h2 | h2
        · exact .inr ⟨h1, h2⟩
        · exact absurd (by rw [decide_eq_false (not_lt.2 h1), decide_eq_false (not_lt.2 h2)]) hsg
    obtain ⟨c, c1, c2, c3⟩ := hsc.root huv.le hcont
    exact ⟨c, c1, c2, c3⟩
  · exfalso
    have hp : ((Ieee.zero false : Ieee φ M).mul x').abs.IsNum 0 := by
      have := ((zero_num (φ := φ) (M := M) false).mul h4 (by rw [zero_mul, rnd_zero, abs_zero]; linarith)).abs
      rwa [zero_mul, rnd_zero, abs_zero] at this
    rw [hp.toE] at t2
    obtain rfl := Option.some.inj t2
    have : (0 : EReal) ≤ s := by
      revert t1
      generalize x'.sub _ = d
      intro t1
      rcases d with _ | _ | _ | _ <;> simp only [Ieee.abs, Ieee.toE] at t1
      · cases t1
      · obtain rfl := Option.some.inj t1; simp
      · obtain rfl := Option.some.inj t1; simp
      · obtain rfl := Option.some.inj t1; exact_mod_cast abs_nonneg _
    exact absurd t3 (not_lt.2 this)

/-- **C96**, with C68 and C69: a polynomial has values of different signs at the ends of an interval, larger there than the error of
the evaluation, and nothing can overflow in the interval. With precision 0, `bisection` ends at a number of the interval that is as good
as the evaluation allows: its value is within the evaluation error, or it has a neighbour such that there is a root between the two, or
one of the two values is within the evaluation error. -/
theorem C96_bisection (h2 : 2 ≤ M) (hMF : M ∈ φ.F) (ns : Bool) {n : ℕ} {f : Arr (Ieee φ M) n} {a : Arr ℝ n} (hf : Coefs f a)
    (maxSize : ℕ) (x lo hi : Ieee φ M) (iterations : ℕ) {l h : ℝ} (hl : lo.IsNum l) (hh : hi.IsNum h) (hlt : l < h)
    (bl : -(M / 2) ≤ l) (bh : h ≤ M / 2) (hb : evalBound φ a (max |l| |h|) ≤ M) (hs : value a l * value a h < 0)
    (el : hornerBound φ a l < |value a l|) (eh : hornerBound φ a h < |value a h|)
    (hn : (φ.F ∩ Set.Ioo l h).ncard + 2 ≤ iters maxSize iterations) :
    ∃ x' w, bisectionI h2 ns (evalI f) maxSize (.zero false) x lo hi iterations = (true, x') ∧ x'.IsNum w ∧ l ≤ w ∧ w ≤ h ∧
      (|value a w| ≤ hornerBound φ a w ∨
        ∃ u v, Adjacent φ u v ∧ l ≤ u ∧ v ≤ h ∧ (w = u ∨ w = v) ∧
          ((∃ c, u ≤ c ∧ c ≤ v ∧ value a c = 0) ∨ |value a u| ≤ hornerBound φ a u ∨ |value a v| ≤ hornerBound φ a v)) :=
  bisection_core h2 hMF ns hf maxSize x lo hi iterations (enough_count φ) hl hh hlt bl bh hb hs el eh (by omega)

/-- **C96**: the number of iterations is logarithmic. -/
theorem C96_bisection_iterations (p : ℕ) (emin : ℤ) (hp : 2 ≤ p) (he : emin ≤ 0) (h2 : 2 ≤ M) (hMF : M ∈ binF p emin) (ns : Bool) {n : ℕ}
    {f : Arr (Ieee (bin p emin (by omega) he) M) n} {a : Arr ℝ n} (hf : Coefs f a) (maxSize : ℕ)
    (x lo hi : Ieee (bin p emin (by omega) he) M) (iterations k : ℕ) {l h : ℝ} (hl : lo.IsNum l) (hh : hi.IsNum h) (hlt : l < h)
    (bl : -(M / 2) ≤ l) (bh : h ≤ M / 2) (hb : evalBound (bin p emin (by omega) he) a (max |l| |h|) ≤ M) (hs : value a l * value a h < 0)
    (el : hornerBound (bin p emin (by omega) he) a l < |value a l|) (eh : hornerBound (bin p emin (by omega) he) a h < |value a h|)
    (hk : (3 / 4 : ℝ) ^ k * (h - l) < 2 ^ emin) (hn : k + 6 ≤ iters maxSize iterations) :
    ∃ x' w, bisectionI h2 ns (evalI f) maxSize (.zero false) x lo hi iterations = (true, x') ∧ x'.IsNum w ∧ l ≤ w ∧ w ≤ h ∧
      (|value a w| ≤ hornerBound (bin p emin (by omega) he) a w ∨
        ∃ u v, Adjacent (bin p emin (by omega) he) u v ∧ l ≤ u ∧ v ≤ h ∧ (w = u ∨ w = v) ∧
          ((∃ c, u ≤ c ∧ c ≤ v ∧ value a c = 0) ∨ |value a u| ≤ hornerBound (bin p emin (by omega) he) a u ∨ |value a v| ≤ hornerBound (bin p emin (by omega) he) a v)) :=
  bisection_core h2 hMF ns hf maxSize x lo hi iterations (enough_log p emin hp he) hl hh hlt bl bh hb hs el eh
    (.inr ⟨k, hk, by omega⟩)

/-! ## `double` -/

theorem evalBound_double {n : ℕ} {a : Arr ℝ n} {y B C : ℝ} (hn : n ≤ 1099511627776) (hB : 1 ≤ B) (hy : |y| ≤ B) (hC : 1 ≤ C)
    (ha : ∀ i, |a i| ≤ C) (h : (n + 1) * C * B ^ n ≤ 2 ^ (1022 : ℤ)) : evalBound binary64 a y ≤ maxDouble := by
  have hB0 : (0 : ℝ) ≤ B := by linarith
  refine le_trans (evalBound_mono _ a (z := B) (by rwa [abs_of_nonneg hB0])) ?_
  refine le_trans ?_ (pow_le_maxDouble (k := 1023) le_rfl)
  rw [← sumBound_eq, abs_of_nonneg hB0, max_eq_right hB]
  have hu : (binary64 : Format).u = 2 ^ (-53 : ℤ) := rfl
  have hη : (binary64 : Format).η = 2 ^ (-1075 : ℤ) := rfl
  have hg : (1 + binary64.u) ^ (2 * n) ≤ 1 + 1 / 512 := by
    have h2 : (1 + binary64.u) ≤ Real.exp (2 ^ (-53 : ℤ)) := by rw [hu, add_comm]; exact Real.add_one_le_exp _
    have h3 : (1 + binary64.u) ^ (2 * n) ≤ Real.exp (2 ^ (-53 : ℤ)) ^ (2 * n) := pow_le_pow_left₀ (by rw [hu]; norm_num) h2 _
    rw [← Real.exp_nat_mul] at h3
    have h4 : ((2 * n : ℕ) : ℝ) * 2 ^ (-53 : ℤ) ≤ 1 / 4096 := by
      have : (n : ℝ) ≤ 1099511627776 := by exact_mod_cast hn
      push_cast
      norm_num
      linarith
    have h4' := Real.exp_le_exp.2 h4
    have h5 : Real.exp (1 / 4096) ≤ 1 + 1 / 512 := by
      have := Real.exp_bound_div_one_sub_of_interval (x := 1 / 4096) (by norm_num) (by norm_num)
      linarith [show (1 : ℝ) / (1 - 1 / 4096) ≤ 1 + 1 / 512 by norm_num]
    exact h3.trans (h4'.trans h5)
  have hT : tailSum (absArr a) B n ≤ (n + 1) * C * B ^ n := by
    have : tailSum (absArr a) B n ≤ ∑ _j ∈ Finset.range (n + 1), C * B ^ n := by
      unfold tailSum
      refine Finset.sum_le_sum fun j hj => ?_
      rw [absArr_coef]
      have hj' := Finset.mem_range.1 hj
      refine mul_le_mul ?_ (pow_le_pow_right₀ hB (by omega)) (by positivity) (by linarith)
      unfold coef; split
      · exact ha _
      · rw [abs_zero]; linarith
    rw [Finset.sum_const, Finset.card_range, nsmul_eq_mul] at this
    push_cast at this
    linarith
  have hS : ∑ j ∈ Finset.range n, ((1 + binary64.u) ^ 2 * B) ^ j ≤ 2 * ((n + 1) * C * B ^ n) := by
    have h1 : ∑ j ∈ Finset.range n, ((1 + binary64.u) ^ 2 * B) ^ j ≤ ∑ _j ∈ Finset.range n, 2 * B ^ n := by
      refine Finset.sum_le_sum fun j hj => ?_
      have hj' := Finset.mem_range.1 hj
      rw [mul_pow, ← pow_mul]
      refine mul_le_mul ?_ (pow_le_pow_right₀ hB hj'.le) (by positivity) (by norm_num)
      have : (1 + binary64.u) ^ (2 * j) ≤ (1 + binary64.u) ^ (2 * n) := pow_le_pow_right₀ (by rw [hu]; norm_num) (by omega)
      linarith
    rw [Finset.sum_const, Finset.card_range, nsmul_eq_mul] at h1
    have hP : (0 : ℝ) ≤ B ^ n := by positivity
    have hn0 : (0 : ℝ) ≤ n := by positivity
    have h2 : (n : ℝ) * (2 * B ^ n) ≤ 2 * ((n + 1) * 1 * B ^ n) := by nlinarith
    have h3 : ((n : ℝ) + 1) * 1 * B ^ n ≤ (n + 1) * C * B ^ n :=
      mul_le_mul_of_nonneg_right (mul_le_mul_of_nonneg_left hC (by linarith)) hP
    linarith
  have hW : (0 : ℝ) ≤ (n + 1) * C * B ^ n := by positivity
  have h23 : (2 : ℝ) ^ (1023 : ℤ) = 2 * 2 ^ (1022 : ℤ) := by
    rw [show (1023 : ℤ) = 1 + 1022 by norm_num, zpow_add₀ (by norm_num), zpow_one]
  rw [h23]
  have hη' : binary64.η * (2 + binary64.u) ≤ 1 / 8 := by
    have h1 : binary64.η ≤ 1 / 32 := by
      rw [hη]
      calc (2 : ℝ) ^ (-1075 : ℤ) ≤ 2 ^ (-5 : ℤ) := zpow_le_zpow_right₀ (by norm_num) (by norm_num)
        _ = 1 / 32 := by norm_num
    have h2 : 2 + binary64.u ≤ 4 := by rw [hu]; norm_num
    have h3 : (0 : ℝ) ≤ binary64.η := binary64.η_nonneg
    have h4 : (0 : ℝ) ≤ 2 + binary64.u := by linarith [binary64.u_nonneg]
    calc binary64.η * (2 + binary64.u) ≤ 1 / 32 * 4 := mul_le_mul h1 h2 h4 (by norm_num)
      _ = 1 / 8 := by norm_num
  have hT0 := tailSum_nonneg a hB0 n
  have hS0 : 0 ≤ ∑ j ∈ Finset.range n, ((1 + binary64.u) ^ 2 * B) ^ j := Finset.sum_nonneg fun j _ => by positivity
  unfold sumBound
  generalize ∑ j ∈ Finset.range n, ((1 + binary64.u) ^ 2 * B) ^ j = S at *
  generalize tailSum (absArr a) B n = T at *
  generalize ((n : ℝ) + 1) * C * B ^ n = W at *
  generalize (1 + binary64.u) ^ (2 * n) = G at *
  generalize binary64.η * (2 + binary64.u) = H at *
  generalize (2 : ℝ) ^ (1022 : ℤ) = Z at *
  clear hu hη h23
  have k1 : G * T ≤ (1 + 1 / 512) * T := mul_le_mul_of_nonneg_right hg hT0
  have k2 : H * S ≤ 1 / 8 * S := mul_le_mul_of_nonneg_right hη' hS0
  linarith

/-- **C96** for `double`: coefficients up to `C ≥ 1`, arguments up to `B ≥ 1`, order up to `2^40 = 1099511627776`. -/
theorem C96_double {n : ℕ} {f : Arr (Ieee binary64 maxDouble) n} {a : Arr ℝ n} {x : Ieee binary64 maxDouble} {y B C : ℝ} (hf : Coefs f a)
    (hx : x.IsNum y) (hn : n ≤ 1099511627776) (hB : 1 ≤ B) (hy : |y| ≤ B) (hC : 1 ≤ C) (ha : ∀ i, |a i| ≤ C)
    (h : (n + 1) * C * B ^ n ≤ 2 ^ (1022 : ℤ)) :
    ∃ c r, hornerI f x = some c ∧ c.IsNum r ∧ |r - ∑ i : Fin (n + 1), a i * y ^ (i : ℕ)| ≤ hornerBound binary64 a y :=
  C96_error hf hx (evalBound_double hn hB hy hC ha h)

/-! ## Infinite arguments -/

theorem hornerInfI_lead {n : ℕ} (f : Arr (Ieee φ M) n) (x : Ieee φ M) (d : Fin (n + 1)) (h0 : (d : ℕ) ≠ 0)
    (hd : (f d).eq (.zero false) ≠ true) : ∀ m, (d : ℕ) ≤ m → m ≤ n → (∀ j : Fin (n + 1), d < j → (j : ℕ) ≤ m → (f j).eq (.zero false) = true) →
    hornerInfI f x m = some ((f d).mul (if n % 2 = 1 then x else .inf false))
  | 0, h, _, _ => absurd (Nat.le_zero.1 h) h0
  | m + 1, h, hm, hz => by
    rw [hornerInfI, rd_fin f (show m + 1 < n + 1 by omega)]
    simp only [bind, Option.bind]
    rcases eq_or_lt_of_le h with e | e
    · have : d = ⟨m + 1, by omega⟩ := Fin.ext e
      rw [← this, if_neg hd]
      split <;> rfl
    · rw [if_pos (hz ⟨m + 1, by omega⟩ e le_rfl)]
      exact hornerInfI_lead f x d h0 hd m (by omega) (by omega) fun j h1 h2 => hz j h1 (by omega)

theorem hornerInfI_const {n : ℕ} (f : Arr (Ieee φ M) n) (x : Ieee φ M) (hz : ∀ j : Fin (n + 1), (j : ℕ) ≠ 0 → (f j).eq (.zero false) = true) :
    ∀ m, m ≤ n → hornerInfI f x m = some (f 0)
  | 0, _ => rd_fin f (by omega)
  | m + 1, hm => by
    rw [hornerInfI, rd_fin f (show m + 1 < n + 1 by omega)]
    simp only [bind, Option.bind]
    rw [if_pos (hz ⟨m + 1, by omega⟩ (by simp))]
    exact hornerInfI_const f x hz m (by omega)

/-- **C96**: at an infinite argument only the last coefficient that is not zero counts, and the order of the polynomial. (A NaN among
the coefficients before it is not seen.) -/
theorem C96_infinity {n : ℕ} (f : Arr (Ieee φ M) n) (b : Bool) (d : Fin (n + 1)) (h0 : (d : ℕ) ≠ 0) {v : ℝ} (hd : (f d).IsNum v)
    (hv : v ≠ 0) (hz : ∀ j, d < j → f j = .zero true ∨ f j = .zero false) :
    hornerI f (.inf b) = some (.inf (decide (v < 0) ^^ (decide (n % 2 = 1) && b))) := by
  have hn : n ≠ 0 := by omega
  have hd' : (f d).eq (.zero false) ≠ true := fun h => by
    rcases (eq_zero_iff _).1 h with h | h <;> rw [h] at hd <;> exact hv hd
  unfold hornerI
  rw [if_neg hn, if_pos ⟨b, rfl⟩, hornerInfI_lead f _ d h0 hd' n (by omega) le_rfl fun j hj _ => (eq_zero_iff _).2 (hz j hj)]
  generalize f d = c at *
  rcases c with _ | _ | _ | _ <;> simp only [IsNum] at hd
  · exact absurd hd.symm (Ne.symm hv)
  · subst hd
    by_cases h : n % 2 = 1 <;> simp [h, Ieee.mul, Ieee.sgn]

/-- **C96**: if all coefficients but the first are zero, that is the value at an infinite argument. -/
theorem C96_infinity_const {n : ℕ} (f : Arr (Ieee φ M) n) (b : Bool)
    (hz : ∀ j : Fin (n + 1), (j : ℕ) ≠ 0 → f j = .zero true ∨ f j = .zero false) : hornerI f (.inf b) = some (f 0) := by
  unfold hornerI
  split
  · exact rd_fin f (by omega)
  · rw [if_pos ⟨b, rfl⟩]
    exact hornerInfI_const f _ (fun j hj => (eq_zero_iff _).2 (hz j hj)) n le_rfl

/-! ## Overflow -/

/-- **C96**: an overflow of the first product is not undone by a coefficient of the other sign, whatever the value of the polynomial. -/
theorem C96_overflow (hM0 : 0 ≤ M) {f : Arr (Ieee φ M) 1} {a : Arr ℝ 1} {x : Ieee φ M} {y : ℝ} (hf : Coefs f a) (hx : x.IsNum y)
    (h : M < |φ.rnd (a 1 * y)|) : hornerI f x = some (.inf (decide (a 1 * y < 0))) := by
  have hxi : ¬ x.isInf := by rintro ⟨b, rfl⟩; exact hx
  obtain ⟨c, h1, h2⟩ := hornerI_run (fun k s => (k = 0 → s.IsNum (a 1)) ∧ (k = 1 → s = .inf (decide (a 1 * y < 0)))) f hxi
    (fun _ => ⟨fun _ => by
      have e := (zero_num (φ := φ) (M := M) false).mul hx (by rwa [zero_mul, rnd_zero, abs_zero])
      rw [zero_mul, rnd_zero] at e
      have hm : φ.rnd (0 + a 1) = a 1 := by rw [zero_add, φ.rnd_of_mem (hf 1).mem]
      have := e.add (hf 1) (by rw [hm]; exact (hf 1).le hM0)
      rwa [hm] at this, fun h => absurd h zero_ne_one⟩) (fun h => absurd h one_ne_zero)
    (fun k s hk hs => ⟨fun h => absurd h (Nat.succ_ne_zero k), fun _ => by
      rcases num_mul_cases hM0 (hs.1 (by omega)) hx with h' | ⟨-, e⟩
      · exact absurd (h'.le hM0) (not_le.2 h)
      · rw [e]; exact (num_add_inf (hf _) _).2⟩)
  rw [h1, h2.2 rfl]

/-- **C96**: an overflow can lead to the wrong sign. `c x² + c x - c` is negative for `x = 1/2`; the computed value is `+∞`. -/
theorem C96_wrong_sign (hM0 : 0 ≤ M) {f : Arr (Ieee φ M) 2} {x : Ieee φ M} {c : ℝ} (hf : Coefs f ![-c, c, c]) (hx : x.IsNum (1 / 2))
    (hc : 0 < c) (ho : M < φ.rnd (φ.rnd (c * (1 / 2)) + c)) :
    hornerI f x = some (.inf false) ∧ value (![-c, c, c] : Arr ℝ 2) (1 / 2) < 0 := by
  refine ⟨?_, by simp [value, Fin.sum_univ_succ]; linarith⟩
  have hxi : ¬ x.isInf := by rintro ⟨b, rfl⟩; exact hx
  have h1 : (f 1).IsNum c := hf 1
  have h2 : (f 2).IsNum c := hf 2
  have h0 : (f 0).IsNum (-c) := hf 0
  have cM : c ≤ M := (le_abs_self c).trans (h1.le hM0)
  have r0 : 0 ≤ φ.rnd (c * (1 / 2)) := by
    have := φ.mono (show 0 ≤ c * (1 / 2) by linarith)
    rwa [rnd_zero] at this
  have r1 : φ.rnd (c * (1 / 2)) ≤ M := by
    have := φ.mono (show c * (1 / 2) ≤ c by linarith)
    rw [φ.rnd_of_mem h1.mem] at this
    linarith
  obtain ⟨d, e1, e2⟩ := hornerI_run (fun k s => (k = 0 → s.IsNum c) ∧ (k ≠ 0 → s = .inf false)) f hxi
    (fun _ => ⟨fun _ => by
      have e := (zero_num (φ := φ) (M := M) false).mul hx (by rwa [zero_mul, rnd_zero, abs_zero])
      rw [zero_mul, rnd_zero] at e
      have hm : φ.rnd (0 + c) = c := by rw [zero_add, φ.rnd_of_mem h2.mem]
      have := e.add h2 (by rw [hm]; exact h2.le hM0)
      rwa [hm] at this, fun h => absurd rfl h⟩) (fun h => absurd h two_ne_zero)
    (fun k s hk hs => ⟨fun h => absurd h (Nat.succ_ne_zero k), fun _ => by
      rcases Nat.eq_zero_or_pos k with rfl | hp
      · have hm := (hs.1 rfl).mul hx (by rw [abs_of_nonneg r0]; exact r1)
        rcases num_add_cases hM0 hm h1 with h' | ⟨-, e⟩
        · exact absurd ((le_abs_self _).trans (h'.le hM0)) (not_le.2 ho)
        · have : ¬ (φ.rnd (c * (1 / 2)) + c < 0) := by linarith
          rw [decide_eq_false this] at e
          exact e
      · rw [hs.2 hp.ne', inf_mul_num hx (by norm_num), decide_eq_false (show ¬ ((1 / 2 : ℝ) < 0) by norm_num), Bool.xor_false]
        exact (num_add_inf (hf _) _).2⟩)
  rw [e1, e2.2 two_ne_zero]

/-! ## Derivatives -/

/-- **C96**: at an infinite argument every derivative `eval_derivatives` returns, up to the order of the polynomial, is NaN, and so is
the value if the coefficient of the highest power is zero. -/
theorem C96_derivatives_infinity {n : ℕ} (hM : 1 ≤ M) (D : ℕ) (f : Arr (Ieee φ M) n) (b : Bool) :
    ∃ r, evalDerivI hM D f (.inf b) = some r ∧ (∀ j : Fin (D + 1), 1 ≤ (j : ℕ) → (j : ℕ) ≤ n → r j = .nan) ∧
      (n ≠ 0 → (f ⟨n, by omega⟩).isZero → r 0 = .nan) := by
  have nan_mul : ∀ s : Ieee φ M, (Ieee.nan : Ieee φ M).mul s = .nan := fun s => rfl
  have zero_inf : ∀ s : Ieee φ M, s.isZero → s.mul (.inf b) = .nan := fun s h => by
    rcases s with _ | _ | _ | _ <;> first | exact h.elim | rfl
  have keep : ∀ s t : Ieee φ M, s = .nan ∨ s.isZero → (s.mul (.inf b)).add t = .nan := by
    rintro s t (rfl | h)
    · rfl
    · rw [zero_inf s h]; rfl
  obtain ⟨r1, e1, o1, o2, o3⟩ := forDown_inv (body := fun i (r : Arr (Ieee φ M) D) => do
      let r ← forDown (fun j (r : Arr (Ieee φ M) D) => do
        let rj ← rd r j
        let rj1 ← rd r (j - 1)
        wr r j ((rj.mul (.inf b)).add rj1)) (min D (n - (i - 1))) r
      let r0 ← rd r 0
      let c ← rd f (i - 1)
      wr r 0 ((r0.mul (.inf b)).add c))
    (fun i r => (∀ j : Fin (D + 1), 1 ≤ (j : ℕ) → r j = .nan ∨ (r j).isZero) ∧
      (∀ j : Fin (D + 1), 1 ≤ (j : ℕ) → (j : ℕ) ≤ n - i → r j = .nan) ∧
      ((f ⟨n, by omega⟩).isZero → (i < n → r 0 = .nan) ∧ (r 0 = .nan ∨ (r 0).isZero))) n
    (Function.update (fun _ => Ieee.zero false) ⟨0, by omega⟩ (f ⟨n, by omega⟩))
    (by
      refine ⟨fun j hj => ?_, fun j h1 h2 => by omega, fun h => ⟨fun h => absurd h (lt_irrefl _), ?_⟩⟩
      · rw [Function.update_of_ne (by rintro rfl; simp at hj)]; exact .inr trivial
      · exact .inr (by simpa using h))
    (by
      rintro i r hi ⟨h1, h2, h3⟩
      obtain ⟨r', e, g1, g2, g3, g4⟩ := forDown_inv (body := fun j (r : Arr (Ieee φ M) D) => do
          let rj ← rd r j
          let rj1 ← rd r (j - 1)
          wr r j ((rj.mul (.inf b)).add rj1))
        (fun k r' => (∀ j : Fin (D + 1), 1 ≤ (j : ℕ) → r' j = .nan ∨ (r' j).isZero) ∧
          (∀ j : Fin (D + 1), 1 ≤ (j : ℕ) → (j : ℕ) ≤ n - (i + 1) → r' j = .nan) ∧
          (∀ j : Fin (D + 1), k < (j : ℕ) → (j : ℕ) ≤ min D (n - i) → r' j = .nan) ∧ r' 0 = r 0) (min D (n - i)) r
        ⟨h1, h2, fun j h h' => by omega, rfl⟩
        (by
          rintro k s hk ⟨s1, s2, s3, s4⟩
          have hk' : k + 1 < D + 1 := by omega
          simp only [rd_fin s hk', show k + 1 - 1 = k from rfl, rd_fin s (show k < D + 1 by omega), Option.bind_eq_bind, Option.bind_some,
            wr_fin s _ hk', keep _ _ (s1 ⟨k + 1, hk'⟩ (by simp))]
          refine ⟨_, rfl, fun j hj => ?_, fun j hj hj' => ?_, fun j hj hj' => ?_, ?_⟩
          · by_cases e : j = ⟨k + 1, hk'⟩
            · subst e; rw [Function.update_self]; exact .inl rfl
            · rw [Function.update_of_ne e]; exact s1 j hj
          · by_cases e : j = ⟨k + 1, hk'⟩
            · subst e; rw [Function.update_self]
            · rw [Function.update_of_ne e]; exact s2 j hj hj'
          · by_cases e : j = ⟨k + 1, hk'⟩
            · subst e; rw [Function.update_self]
            · rw [Function.update_of_ne e]
              refine s3 j ?_ hj'
              have : (j : ℕ) ≠ k + 1 := fun h => e (Fin.ext h)
              omega
          · rw [Function.update_of_ne (by rw [Ne, Fin.ext_iff]; simp), s4])
      simp only [Option.bind_eq_bind] at e
      simp only [Nat.add_sub_cancel, e, Option.bind_eq_bind, Option.bind_some, rd_fin r' (show 0 < D + 1 by omega),
        rd_fin f (show i < n + 1 by omega), wr_fin r' _ (show 0 < D + 1 by omega)]
      refine ⟨_, rfl, fun j hj => ?_, fun j hj hj' => ?_, fun hz => ?_⟩
      · rw [Function.update_of_ne (by rintro rfl; simp at hj)]; exact g1 j hj
      · rw [Function.update_of_ne (by rintro rfl; simp at hj)]; exact g3 j (by omega) (by omega)
      · have h4 := (h3 hz).2
        rw [← g4] at h4
        have := keep (r' ⟨0, by omega⟩) (f ⟨i, by omega⟩) h4
        simp only [this]
        exact ⟨fun _ => Function.update_self _ _ _, .inl (Function.update_self _ _ _)⟩)
  obtain ⟨⟨c2, r2⟩, e2, q1, q2⟩ := forUp_inv (body := fun i (s : Ieee φ M × Arr (Ieee φ M) D) => do
      let cnst := s.1.mul (pack false (i : ℝ))
      let ri ← rd s.2 i
      let r ← wr s.2 i (ri.mul cnst)
      some (cnst, r)) (lo := 2)
    (fun _ s => (∀ j : Fin (D + 1), r1 j = .nan → s.2 j = .nan) ∧ s.2 0 = r1 0) (D - 1) (Ieee.one hM, r1) ⟨fun _ h => h, rfl⟩
    (by
      rintro c ⟨k, s⟩ hc ⟨s1, s2⟩
      have hk : 2 + c < D + 1 := by omega
      simp only [rd_fin s hk, Option.bind_eq_bind, Option.bind_some, wr_fin s _ hk]
      refine ⟨_, rfl, fun j hj => ?_, ?_⟩
      · by_cases e : j = ⟨2 + c, hk⟩
        · simp only [e, Function.update_self]
          have h := s1 j hj
          dsimp only at h
          rw [← e, h]; rfl
        · simp only [Function.update_of_ne e]; exact s1 j hj
      · simp only [Function.update_of_ne (show (0 : Fin (D + 1)) ≠ ⟨2 + c, hk⟩ from Fin.ne_of_val_ne (show 0 % (D + 1) ≠ 2 + c by rw [Nat.zero_mod]; omega))]; exact s2)
  refine ⟨r2, ?_, fun j h1 h2 => q1 j (o2 j h1 (by omega)), fun hn hz => ?_⟩
  · unfold evalDerivI
    simp only [rd_fin f (show n < n + 1 by omega), Option.bind_eq_bind, Option.bind_some, wr_fin (fun _ : Fin (D + 1) => (Ieee.zero false : Ieee φ M)) _ (show 0 < D + 1 by omega)]
    simp only [Option.bind_eq_bind] at e1 e2
    rw [e1, Option.bind_some, e2]; rfl
  · dsimp only at q2
    rw [q2]; exact (o3 hz).1 (by omega)

/-! ## Concrete cases -/

/-- The number `2^k`, or its opposite. -/
theorem twoPow_num (k : ℤ) (h1 : -1074 ≤ k) (h2 : k ≤ 1023) : (twoPow k h1 h2).IsNum (2 ^ k) := rfl

/-- `x² - 2` with coefficients of type `double`. -/
noncomputable def sq2 : Arr (Ieee binary64 maxDouble) 2 :=
  ![(twoPow 1 (by norm_num) (by norm_num)).neg, .zero false, twoPow 0 (by norm_num) (by norm_num)]

theorem sq2_coefs : Coefs sq2 ![-2, 0, 1] := by
  intro i
  fin_cases i
  · have := (twoPow_num 1 (by norm_num) (by norm_num)).neg
    rw [zpow_one] at this
    exact this
  · exact zero_num _
  · have := twoPow_num 0 (by norm_num) (by norm_num)
    rw [zpow_zero] at this
    exact this

/-- The value of `x² - 2` at every number up to `2^509`. -/
example {x : Ieee binary64 maxDouble} {y : ℝ} (hx : x.IsNum y) (hy : |y| ≤ 2 ^ (509 : ℤ)) :
    ∃ c r, hornerI sq2 x = some c ∧ c.IsNum r ∧ |r - (y ^ 2 - 2)| ≤ hornerBound binary64 ![-2, 0, 1] y := by
  obtain ⟨c, r, h1, h2, h3⟩ := C96_double (B := 2 ^ (509 : ℤ)) (C := 2) sq2_coefs hx (by norm_num) (one_le_zpow₀ (by norm_num) (by norm_num)) hy
    (by norm_num) (by intro i; fin_cases i <;> simp) (by
      rw [pow_sq, show (1022 : ℤ) = 4 + 2 * 509 by norm_num, zpow_add₀ (by norm_num)]
      refine mul_le_mul_of_nonneg_right ?_ (two_zpow_pos _).le
      norm_num)
  refine ⟨c, r, h1, h2, ?_⟩
  rw [show y ^ 2 - 2 = ∑ i : Fin (2 + 1), (![-2, 0, 1] : Arr ℝ 2) i * y ^ (i : ℕ) by simp [Fin.sum_univ_succ]; ring]
  exact h3

/-- The root of `x² - 2` between 1 and 2, with 10000 iterations: the result is within the error of the evaluation, or next to the root
or to a number that is within that error. -/
example (x : Ieee binary64 maxDouble) : ∃ x' w, bisectionI two_le_maxDouble false (evalI sq2) 10000 (.zero false) x
      (twoPow 0 (by norm_num) (by norm_num)) (twoPow 1 (by norm_num) (by norm_num)) 0 = (true, x') ∧ x'.IsNum w ∧ 1 ≤ w ∧ w ≤ 2 ∧
    (|value ![-2, 0, 1] w| ≤ hornerBound binary64 ![-2, 0, 1] w ∨
      ∃ u v, Adjacent binary64 u v ∧ 1 ≤ u ∧ v ≤ 2 ∧ (w = u ∨ w = v) ∧
        ((∃ c, u ≤ c ∧ c ≤ v ∧ value ![-2, 0, 1] c = 0) ∨ |value ![-2, 0, 1] u| ≤ hornerBound binary64 ![-2, 0, 1] u ∨
          |value ![-2, 0, 1] v| ≤ hornerBound binary64 ![-2, 0, 1] v)) := by
  have hη : (binary64 : Format).η ≤ 1 / 32 := by
    rw [show (binary64 : Format).η = 2 ^ (-1075 : ℤ) from rfl]
    calc (2 : ℝ) ^ (-1075 : ℤ) ≤ 2 ^ (-5 : ℤ) := zpow_le_zpow_right₀ (by norm_num) (by norm_num)
      _ = 1 / 32 := by norm_num
  have hu : (binary64 : Format).u = 2 ^ (-53 : ℤ) := rfl
  have v1 : value (![-2, 0, 1] : Arr ℝ 2) 1 = -1 := by simp [value, Fin.sum_univ_succ]; norm_num
  have v2 : value (![-2, 0, 1] : Arr ℝ 2) 2 = 2 := by simp [value, Fin.sum_univ_succ]; norm_num
  have hk : (3 / 4 : ℝ) ^ 2690 * (2 - 1) < 2 ^ (-1074 : ℤ) := by
    rw [show 2690 = 5 * 538 from rfl, pow_mul, show (2 : ℝ) - 1 = 1 by norm_num, mul_one]
    have h1 : ((3 / 4 : ℝ) ^ 5) ^ 538 ≤ ((1 / 4 : ℝ)) ^ 538 := pow_le_pow_left₀ (by norm_num) (by norm_num) _
    refine lt_of_le_of_lt h1 ?_
    rw [show (1 / 4 : ℝ) = 2 ^ (-2 : ℤ) by norm_num, ← zpow_natCast, ← zpow_mul]
    exact zpow_lt_zpow_right₀ (by norm_num) (by norm_num)
  have hb : ∀ t : ℝ, t = 1 ∨ t = 2 → hornerBound binary64 (![-2, 0, 1] : Arr ℝ 2) t < 1 := by
    intro t ht
    have h0 : |t| ≤ 2 := by rcases ht with rfl | rfl <;> norm_num
    have h1 : absValue (![-2, 0, 1] : Arr ℝ 2) t ≤ 6 := by
      rcases ht with rfl | rfl <;> simp [absValue, Fin.sum_univ_succ] <;> norm_num
    have h2 : 0 ≤ absValue (![-2, 0, 1] : Arr ℝ 2) t := Finset.sum_nonneg fun i _ => by positivity
    have h3 : (1 + binary64.u) ^ (2 * 2) - 1 ≤ 1 / 64 := by rw [hu]; norm_num
    have h4 : ∑ k ∈ Finset.range 2, ((1 + binary64.u) ^ 2 * |t|) ^ k ≤ 4 := by
      simp only [Finset.sum_range_succ, Finset.sum_range_zero, pow_zero, pow_one, zero_add]
      have : (1 + binary64.u) ^ 2 ≤ 3 / 2 := by rw [hu]; norm_num
      nlinarith [abs_nonneg t]
    have h5 : 0 ≤ ∑ k ∈ Finset.range 2, ((1 + binary64.u) ^ 2 * |t|) ^ k := Finset.sum_nonneg fun i _ => by positivity
    have h6 : 2 + binary64.u ≤ 3 := by rw [hu]; norm_num
    have h7 : 0 ≤ 2 + binary64.u := by linarith [binary64.u_nonneg]
    unfold hornerBound
    have k1 := mul_le_mul h3 h1 h2 (by norm_num)
    have k2 := mul_le_mul hη h6 h7 (by norm_num)
    have k3 := mul_le_mul k2 h4 h5 (by norm_num)
    exact lt_of_le_of_lt (add_le_add k1 k3) (by norm_num)
  exact C96_bisection_iterations 53 (-1074) (by norm_num) (by norm_num) two_le_maxDouble maxDouble_mem false sq2_coefs 10000 x
    (twoPow 0 (by norm_num) (by norm_num)) (twoPow 1 (by norm_num) (by norm_num)) 0 2690 (l := 1) (h := 2)
    (show (2 : ℝ) ^ (0 : ℤ) = 1 by norm_num) (show (2 : ℝ) ^ (1 : ℤ) = 2 by norm_num) (by norm_num)
    (by linarith [two_le_maxDouble]) (by linarith [big_le_maxDouble])
    (evalBound_double (B := 2) (C := 2) (by norm_num) (by norm_num) (by norm_num) (by norm_num) (by intro i; fin_cases i <;> simp) (by
      refine le_trans ?_ (zpow_le_zpow_right₀ (by norm_num) (show (10 : ℤ) ≤ 1022 by norm_num))
      norm_num))
    (by rw [v1, v2]; norm_num) (by rw [v1]; refine lt_of_lt_of_le (hb 1 (.inl rfl)) (by norm_num))
    (by rw [v2]; refine lt_of_lt_of_le (hb 2 (.inr rfl)) (by norm_num)) hk (by decide)

/-- `x² - 2` at `-∞`. -/
example : hornerI sq2 (.inf true) = some (.inf false) := by
  have h := sq2_coefs 2
  have := C96_infinity sq2 true 2 (by decide) h (by simp) (fun j hj => by fin_cases j <;> simp at hj)
  rw [this]
  simp [show ¬ ((1 : ℝ) < 0) by norm_num]

/-- The derivative of `x² - 2` at `∞`. -/
example : ∃ r, evalDerivI one_le_maxDouble 1 sq2 (.inf false) = some r ∧ r 1 = .nan := by
  obtain ⟨r, h1, h2, -⟩ := C96_derivatives_infinity one_le_maxDouble 1 sq2 false
  exact ⟨r, h1, h2 1 (by decide) (by decide)⟩

theorem top_num : topDouble.IsNum maxDouble := rfl

theorem over_1024 {t : ℝ} (h : (2 : ℝ) ^ (1024 : ℤ) ≤ t) : maxDouble < binary64.rnd t := by
  have h2 := binary64.mono h
  rw [rnd_pow _ (by norm_num)] at h2
  exact lt_of_lt_of_le maxDouble_lt h2

/-- The largest `double` times `2`, minus the largest `double`: the value is the largest `double`, the result is infinite. -/
example : hornerI ![topDouble.neg, topDouble] (twoPow 1 (by norm_num) (by norm_num)) = some (.inf false) ∧
    value (![-maxDouble, maxDouble] : Arr ℝ 1) 2 = maxDouble := by
  have hp : (0 : ℝ) < maxDouble := by linarith [two_le_maxDouble]
  constructor
  · have hf : Coefs ![topDouble.neg, topDouble] ![-maxDouble, maxDouble] := by
      intro i
      fin_cases i
      · exact top_num.neg
      · exact top_num
    have h := C96_overflow maxDouble_nonneg hf (twoPow_num 1 (by norm_num) (by norm_num)) (by
      have : (2 : ℝ) ^ (1024 : ℤ) ≤ maxDouble * 2 ^ (1 : ℤ) := by
        have := pow_le_maxDouble (k := 1023) le_rfl
        rw [show (1024 : ℤ) = 1023 + 1 by norm_num, zpow_add₀ (by norm_num)]
        exact mul_le_mul_of_nonneg_right this (by norm_num)
      exact lt_of_lt_of_le (over_1024 this) (le_abs_self _))
    have h0 : ¬ ((![-maxDouble, maxDouble] : Arr ℝ 1) 1 * 2 ^ (1 : ℤ) < 0) := by
      rw [not_lt, zpow_one]
      exact mul_nonneg hp.le (by norm_num)
    rwa [decide_eq_false h0] at h
  · simp [value, Fin.sum_univ_succ]; ring

/-- `c x² + c x - c` for the largest `double` `c`, at `1/2`. -/
example : hornerI ![topDouble.neg, topDouble, topDouble] (twoPow (-1) (by norm_num) (by norm_num)) = some (.inf false) := by
  refine (C96_wrong_sign maxDouble_nonneg (c := maxDouble) ?_ ?_ (by linarith [two_le_maxDouble]) (over_1024 ?_)).1
  · intro i
    fin_cases i
    · exact top_num.neg
    · exact top_num
    · exact top_num
  · have := twoPow_num (-1) (by norm_num) (by norm_num)
    rwa [show (2 : ℝ) ^ (-1 : ℤ) = 1 / 2 by norm_num] at this
  · have h1 : (2 : ℝ) ^ (1022 : ℤ) ≤ binary64.rnd (maxDouble * (1 / 2)) := by
      have h := binary64.mono (show (2 : ℝ) ^ (1022 : ℤ) ≤ maxDouble * (1 / 2) by
        have := pow_le_maxDouble (k := 1023) le_rfl
        rw [show (1023 : ℤ) = 1022 + 1 by norm_num, zpow_add₀ (by norm_num), zpow_one] at this
        generalize (2 : ℝ) ^ (1022 : ℤ) = t at *
        linarith)
      rwa [rnd_pow _ (by norm_num)] at h
    have h2 : (2 : ℝ) ^ (1024 : ℤ) ≤ 2 ^ (1022 : ℤ) + maxDouble := by
      have e : (2 : ℝ) ^ (1024 : ℤ) = maxDouble + 2 ^ (971 : ℤ) := by
        unfold maxDouble
        rw [show (1024 : ℤ) = 53 + 971 by norm_num, zpow_add₀ (by norm_num), show ((2 : ℝ) ^ (971 : ℤ)) = 2 ^ (971 : ℕ) from zpow_natCast 2 971]
        generalize (2 : ℝ) ^ 971 = t
        norm_num
        ring
      have h3 : (2 : ℝ) ^ (971 : ℤ) ≤ 2 ^ (1022 : ℤ) := zpow_le_zpow_right₀ (by norm_num) (by norm_num)
      rw [e]
      generalize (2 : ℝ) ^ (971 : ℤ) = s at *
      generalize (2 : ℝ) ^ (1022 : ℤ) = t at *
      clear e h1
      linarith
    exact h2.trans (add_le_add_left h1 _)

end Stator.Fp
