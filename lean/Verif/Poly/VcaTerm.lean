import Verif.Poly.VcaProps
import Mathlib.Tactic.IntervalCases
import Mathlib.Topology.MetricSpace.Pseudo.Lemmas
import Mathlib.Topology.Algebra.Order.Group
import Mathlib.Topology.MetricSpace.Basic
import Mathlib.Topology.Instances.Real.Lemmas

/-!
# C32: when VCA root isolation terminates

For intervals `(d, c)` that shrink to a point `x0`, the coefficients of the transformed polynomial
`(1+x)ⁿ f((c + d x)/(1+x))` tend to `f(x0) (n choose i)`. Hence near a point that is not a root there is no
sign change; near a simple root at most one (the coefficients of the cofactor are positive and strictly
log-concave); and a root of any multiplicity does no harm if it is not inside the interval.
-/

namespace Stator.Pol

open Polynomial Filter Topology

/-! ## The transformed polynomial -/

/-- `(1+x)^N P((c + d x)/(1+x))`. -/
noncomputable def mob (N : ℕ) (P : ℝ[X]) (c d : ℝ) : ℝ[X] :=
  ∑ k ∈ Finset.range (N + 1), C (P.coeff k) * (C c + C d * X) ^ k * (1 + X) ^ (N - k)

theorem mob_eval {N : ℕ} {P : ℝ[X]} (hP : P.natDegree ≤ N) (c d x : ℝ) (hx : 1 + x ≠ 0) :
    (mob N P c d).eval x = (1 + x) ^ N * P.eval ((c + d * x) / (1 + x)) := by
  rw [mob, eval_finsetSum, eval_eq_sum_range' (Nat.lt_succ_of_le hP), Finset.mul_sum]
  refine Finset.sum_congr rfl fun k hk => ?_
  have hk : k ≤ N := Nat.lt_succ_iff.1 (Finset.mem_range.1 hk)
  simp only [eval_mul, eval_C, eval_pow, eval_add, eval_X, eval_one]
  rw [div_pow, show (1 + x) ^ N = (1 + x) ^ (N - k) * (1 + x) ^ k by rw [← pow_add]; congr 1; omega]
  field_simp

theorem poly_ext_pos {p q : ℝ[X]} (h : ∀ x : ℝ, 0 < x → p.eval x = q.eval x) : p = q := by
  apply eq_of_infinite_eval_eq
  exact (Set.Ioi_infinite (0 : ℝ)).mono fun x hx => h x hx

theorem mob_linear {N : ℕ} {H : ℝ[X]} (hH : H.natDegree ≤ N) (r c d : ℝ) :
    mob (N + 1) ((X - C r) * H) c d = (C (c - r) + C (d - r) * X) * mob N H c d := by
  have hd : ((X - C r) * H).natDegree ≤ N + 1 := by
    refine natDegree_mul_le.trans ?_
    rw [natDegree_X_sub_C]; omega
  refine poly_ext_pos fun x hx => ?_
  have h1 : 1 + x ≠ 0 := by linarith
  rw [mob_eval hd _ _ _ h1, eval_mul, eval_mul, mob_eval hH _ _ _ h1]
  simp only [eval_add, eval_mul, eval_C, eval_X, eval_sub]
  rw [pow_succ]
  field_simp
  ring

theorem mob_power {N : ℕ} {H : ℝ[X]} (hH : H.natDegree ≤ N) (r c d : ℝ) (μ : ℕ) :
    mob (N + μ) ((X - C r) ^ μ * H) c d = (C (c - r) + C (d - r) * X) ^ μ * mob N H c d := by
  induction μ with
  | zero => simp
  | succ μ ih =>
    have hd : ((X - C r) ^ μ * H).natDegree ≤ N + μ := by
      refine natDegree_mul_le.trans ?_
      rw [natDegree_pow, natDegree_X_sub_C]; omega
    rw [← add_assoc, pow_succ', mul_assoc, mob_linear hd, ih]
    ring

theorem mob_natDegree (N : ℕ) (P : ℝ[X]) (c d : ℝ) : (mob N P c d).natDegree ≤ N := by
  refine natDegree_sum_le_of_forall_le _ _ fun k hk => ?_
  have hk : k ≤ N := Nat.lt_succ_iff.1 (Finset.mem_range.1 hk)
  have h1 : ((C c + C d * X : ℝ[X]) ^ k).natDegree ≤ k := by
    refine natDegree_pow_le.trans ?_
    have : (C c + C d * X : ℝ[X]).natDegree ≤ 1 := by compute_degree
    nlinarith
  have h2 : ((1 + X : ℝ[X]) ^ (N - k)).natDegree ≤ N - k := by
    refine natDegree_pow_le.trans ?_
    have : (1 + X : ℝ[X]).natDegree ≤ 1 := by compute_degree
    nlinarith
  refine natDegree_mul_le.trans ?_
  have := natDegree_C_mul_le (P.coeff k) ((C c + C d * X : ℝ[X]) ^ k)
  omega

theorem mob_diag {N : ℕ} {P : ℝ[X]} (hP : P.natDegree ≤ N) (x0 : ℝ) (i : ℕ) :
    (mob N P x0 x0).coeff i = P.eval x0 * (N.choose i : ℝ) := by
  have : mob N P x0 x0 = C (P.eval x0) * (1 + X) ^ N := by
    refine poly_ext_pos fun x hx => ?_
    have h1 : 1 + x ≠ 0 := by linarith
    rw [mob_eval hP _ _ _ h1, show (x0 + x0 * x) / (1 + x) = x0 by field_simp]
    simp only [eval_mul, eval_C, eval_pow, eval_add, eval_X, eval_one]
    ring
  rw [this, coeff_C_mul, coeff_one_add_X_pow]

/-! ## Continuity of the coefficients -/

/-- Every coefficient depends continuously on the parameters. -/
def CoeffCont (A : ℝ × ℝ → ℝ[X]) : Prop := ∀ i, Continuous fun p => (A p).coeff i

theorem CoeffCont.mul {A B : ℝ × ℝ → ℝ[X]} (hA : CoeffCont A) (hB : CoeffCont B) :
    CoeffCont fun p => A p * B p := by
  intro i
  simp only [coeff_mul]
  exact continuous_finsetSum _ fun q _ => (hA q.1).mul (hB q.2)

theorem CoeffCont.pow {A : ℝ × ℝ → ℝ[X]} (hA : CoeffCont A) (k : ℕ) : CoeffCont fun p => A p ^ k := by
  induction k with
  | zero => intro i; simp only [pow_zero]; exact continuous_const
  | succ k ih => simp only [pow_succ]; exact ih.mul hA

theorem CoeffCont.const (P : ℝ[X]) : CoeffCont fun _ => P := fun _ => continuous_const

theorem mob_cont (N : ℕ) (P : ℝ[X]) : CoeffCont fun p => mob N P p.1 p.2 := by
  intro i
  simp only [mob, finsetSum_coeff]
  refine continuous_finsetSum _ fun k _ => ?_
  have hL : CoeffCont fun p : ℝ × ℝ => (C p.1 + C p.2 * X : ℝ[X]) := by
    intro i
    simp only [coeff_add, coeff_C, coeff_C_mul]
    refine Continuous.add ?_ (continuous_snd.mul continuous_const)
    split
    · exact continuous_fst
    · exact continuous_const
  exact (((CoeffCont.const _).mul (hL.pow k)).mul (CoeffCont.const _)) i

theorem choose_logconcave (N i : ℕ) (hi : i + 2 ≤ N) :
    (N.choose i : ℝ) * N.choose (i + 2) < (N.choose (i + 1) : ℝ) ^ 2 := by
  have h1 : (N.choose (i + 1) : ℝ) * (i + 1) = N.choose i * (N - i) := by
    have := Nat.choose_succ_right_eq N i
    have h := congrArg (Nat.cast (R := ℝ)) this
    push_cast [Nat.cast_sub (show i ≤ N by omega)] at h
    exact h
  have h2 : (N.choose (i + 2) : ℝ) * (i + 2) = N.choose (i + 1) * (N - i - 1) := by
    have := Nat.choose_succ_right_eq N (i + 1)
    have h := congrArg (Nat.cast (R := ℝ)) this
    push_cast [Nat.cast_sub (show i + 1 ≤ N by omega)] at h
    linear_combination h
  have ha : (0 : ℝ) < N.choose i := by exact_mod_cast Nat.choose_pos (by omega)
  have hb : (0 : ℝ) < N.choose (i + 1) := by exact_mod_cast Nat.choose_pos (by omega)
  have hi0 : (0 : ℝ) ≤ i := Nat.cast_nonneg i
  have hN : (i : ℝ) + 2 ≤ N := by exact_mod_cast hi
  have hNi : (0 : ℝ) < N - i := by linarith
  have hi2 : (0 : ℝ) < (i : ℝ) + 2 := by linarith
  have e1 : (N.choose i : ℝ) = N.choose (i + 1) * (i + 1) / (N - i) := by
    rw [h1]; field_simp
  have e2 : (N.choose (i + 2) : ℝ) = N.choose (i + 1) * (N - i - 1) / (i + 2) := by
    rw [← h2]; field_simp
  rw [e1, e2, div_mul_div_comm, div_lt_iff₀ (by positivity)]
  have : ((i : ℝ) + 1) * (N - i - 1) < (N - i) * (i + 2) := by nlinarith
  nlinarith [mul_pos hb hb]

/-- The coefficients up to `N` have the sign of `σ` and are strictly log-concave. -/
def Concave (N : ℕ) (σ : ℝ) (G : ℝ[X]) : Prop :=
  (∀ i ≤ N, 0 < σ * G.coeff i) ∧ ∀ i, i + 2 ≤ N → G.coeff i * G.coeff (i + 2) < G.coeff (i + 1) ^ 2

theorem mob_near_pos {N : ℕ} {P : ℝ[X]} (hP : P.natDegree ≤ N) {x0 : ℝ} (h0 : P.eval x0 ≠ 0) (i : ℕ)
    (hi : i ≤ N) : ∀ᶠ p : ℝ × ℝ in 𝓝 (x0, x0), 0 < P.eval x0 * (mob N P p.1 p.2).coeff i := by
  have hs : 0 < P.eval x0 * P.eval x0 := mul_self_pos.2 h0
  have hc : Continuous fun p : ℝ × ℝ => P.eval x0 * (mob N P p.1 p.2).coeff i :=
    continuous_const.mul (mob_cont N P i)
  have hv : 0 < P.eval x0 * (mob N P x0 x0).coeff i := by
    rw [mob_diag hP, ← mul_assoc]
    exact mul_pos hs (by exact_mod_cast Nat.choose_pos hi)
  exact hc.continuousAt.eventually (lt_mem_nhds hv)

theorem mob_gap_cont (N : ℕ) (P : ℝ[X]) (i : ℕ) : Continuous fun p : ℝ × ℝ => (mob N P p.1 p.2).coeff (i + 1) ^ 2 -
      (mob N P p.1 p.2).coeff i * (mob N P p.1 p.2).coeff (i + 2) := by
  have h1 := mob_cont N P (i+1)
  have h2 := mob_cont N P (i)
  have h3 := mob_cont N P (i+2)
  exact Continuous.sub (Continuous.pow h1 2) (Continuous.mul h2 h3)

theorem mob_gap_pos  {N : ℕ} {P : ℝ[X]} (hP : P.natDegree ≤ N) {x0 : ℝ} (h0 : P.eval x0 ≠ 0) (i : ℕ)
    (hi : i + 2 ≤ N) : 0 < (mob N P x0 x0).coeff (i + 1) ^ 2 - (mob N P x0 x0).coeff i * (mob N P x0 x0).coeff (i + 2) := by
  have hs : 0 < P.eval x0 * P.eval x0 := mul_self_pos.2 h0
  rw [mob_diag hP, mob_diag hP, mob_diag hP]
  have hl := mul_lt_mul_of_pos_left (choose_logconcave N i hi) hs
  have e1 : ∀ e u v w : ℝ, (e * v) ^ 2 - e * u * (e * w) = e * e * v ^ 2 - e * e * (u * w) := by intros; ring
  rw [e1]
  exact sub_pos.2 hl

theorem mob_near_concave {N : ℕ} {P : ℝ[X]} (hP : P.natDegree ≤ N) {x0 : ℝ} (h0 : P.eval x0 ≠ 0) (i : ℕ)
    (hi : i + 2 ≤ N) : ∀ᶠ p : ℝ × ℝ in 𝓝 (x0, x0),
      (mob N P p.1 p.2).coeff i * (mob N P p.1 p.2).coeff (i + 2) < (mob N P p.1 p.2).coeff (i + 1) ^ 2 := by
  have ho : IsOpen {p : ℝ × ℝ | 0 < (mob N P p.1 p.2).coeff (i + 1) ^ 2 -
      (mob N P p.1 p.2).coeff i * (mob N P p.1 p.2).coeff (i + 2)} :=
    isOpen_lt continuous_const (mob_gap_cont N P i)
  have hm : (x0, x0) ∈ {p : ℝ × ℝ | 0 < (mob N P p.1 p.2).coeff (i + 1) ^ 2 -
      (mob N P p.1 p.2).coeff i * (mob N P p.1 p.2).coeff (i + 2)} := mob_gap_pos hP h0 i hi
  exact Filter.mem_of_superset (ho.mem_nhds hm) fun p h => by
    have h' : 0 < (mob N P p.1 p.2).coeff (i + 1) ^ 2 -
      (mob N P p.1 p.2).coeff i * (mob N P p.1 p.2).coeff (i + 2) := h
    exact (sub_pos.1 h' : _ < _)

theorem mob_concave {N : ℕ} {P : ℝ[X]} (hP : P.natDegree ≤ N) {x0 : ℝ} (h0 : P.eval x0 ≠ 0) :
    ∃ ε > 0, ∀ c d, |c - x0| < ε → |d - x0| < ε → Concave N (P.eval x0) (mob N P c d) := by
  have k1 : ∀ᶠ p : ℝ × ℝ in 𝓝 (x0, x0), ∀ i ∈ Finset.range (N + 1),
      0 < P.eval x0 * (mob N P p.1 p.2).coeff i :=
    (Finset.eventually_all _).2 fun i hi => mob_near_pos hP h0 i (Nat.lt_succ_iff.1 (Finset.mem_range.1 hi))
  have k2 : ∀ᶠ p : ℝ × ℝ in 𝓝 (x0, x0), ∀ i ∈ Finset.range (N - 1),
      (mob N P p.1 p.2).coeff i * (mob N P p.1 p.2).coeff (i + 2) < (mob N P p.1 p.2).coeff (i + 1) ^ 2 :=
    (Finset.eventually_all _).2 fun i hi => mob_near_concave hP h0 i (by have := Finset.mem_range.1 hi; omega)
  obtain ⟨ε, hε, h⟩ := Metric.eventually_nhds_iff.1 (k1.and k2)
  refine ⟨ε, hε, fun c d hc hd => ?_⟩
  have hdist : dist (c, d) (x0, x0) < ε := by
    rw [Prod.dist_eq, Real.dist_eq, Real.dist_eq]
    exact max_lt hc hd
  obtain ⟨h1, h2⟩ := h hdist
  exact ⟨fun i hi => h1 i (Finset.mem_range.2 (by omega)), fun i hi => h2 i (Finset.mem_range.2 (by omega))⟩

/-! ## At most one sign change -/

/-- Negative before `j`, positive from `j` on (up to the sign of `s`, zeros allowed). -/
def OneTurn (G : ℝ[X]) : Prop :=
  ∃ s : ℝ, s ≠ 0 ∧ ∃ j, (∀ i < j, s * G.coeff i ≤ 0) ∧ ∀ i, j ≤ i → 0 ≤ s * G.coeff i

theorem oneTurn_mul_nonneg {A G : ℝ[X]} {σ s : ℝ} (hs : s ≠ 0) (hσ : σ ≠ 0) (hA : ∀ i, 0 ≤ s * A.coeff i)
    (hG : ∀ i, 0 ≤ σ * G.coeff i) : OneTurn (A * G) := by
  refine ⟨s * σ, mul_ne_zero hs hσ, 0, by simp, fun i _ => ?_⟩
  rw [coeff_mul, Finset.mul_sum]
  refine Finset.sum_nonneg fun p _ => ?_
  have := mul_nonneg (hA p.1) (hG p.2)
  linarith

theorem coeff_pow_nonneg {A : ℝ[X]} {s : ℝ} (hA : ∀ i, 0 ≤ s * A.coeff i) (μ i : ℕ) :
    0 ≤ s ^ μ * (A ^ μ).coeff i := by
  induction μ generalizing i with
  | zero =>
    rw [pow_zero, pow_zero, one_mul, coeff_one]
    split <;> norm_num
  | succ μ ih =>
    rw [pow_succ, pow_succ, coeff_mul, Finset.mul_sum]
    refine Finset.sum_nonneg fun p _ => ?_
    have := mul_nonneg (ih p.1) (hA p.2)
    linarith

theorem concave_nonneg {N : ℕ} {σ : ℝ} {G : ℝ[X]} (h : Concave N σ G) (hd : G.natDegree ≤ N) (i : ℕ) :
    0 ≤ σ * G.coeff i := by
  by_cases hi : i ≤ N
  · exact (h.1 i hi).le
  · rw [coeff_eq_zero_of_natDegree_lt (by omega), mul_zero]

/-- A linear factor with a positive root makes one sign change. -/
theorem oneTurn_linear {N : ℕ} {σ a b : ℝ} {G : ℝ[X]} (h : Concave N σ G) (hd : G.natDegree ≤ N)
    (hab : a * b < 0) : OneTurn ((C a + C b * X) * G) := by
  have hb : b ≠ 0 := by rintro rfl; simp at hab
  have hσ : σ ≠ 0 := by rintro rfl; have := h.1 0 (by omega); simp at this
  have hc0 : ((C a + C b * X) * G).coeff 0 = a * G.coeff 0 := by
    rw [mul_coeff_zero]; simp
  have hcs : ∀ i, ((C a + C b * X) * G).coeff (i + 1) = a * G.coeff (i + 1) + b * G.coeff i := by
    intro i
    rw [add_mul, coeff_add, coeff_C_mul, mul_assoc, coeff_C_mul, coeff_X_mul]
  -- `t i` is `b·σ` times the coefficient
  set t : ℕ → ℝ := fun i => (b * σ) * ((C a + C b * X) * G).coeff i with ht
  have t0 : t 0 < 0 := by
    have h0 := h.1 0 (by omega)
    have : t 0 = (a * b) * (σ * G.coeff 0) := by simp only [ht, hc0]; ring
    rw [this]; exact mul_neg_of_neg_of_pos hab h0
  have hmono : ∀ i, 0 ≤ t i → 0 ≤ t (i + 1) := by
    intro i hi
    cases i with
    | zero => linarith
    | succ i =>
      have e1 : t (i + 1) = (a * b) * (σ * G.coeff (i + 1)) + b ^ 2 * (σ * G.coeff i) := by
        simp only [ht, hcs]; ring
      have e2 : t (i + 1 + 1) = (a * b) * (σ * G.coeff (i + 2)) + b ^ 2 * (σ * G.coeff (i + 1)) := by
        simp only [ht, hcs]; ring
      by_cases hN : i + 2 ≤ N
      · have g0 := h.1 i (by omega)
        have g1 := h.1 (i + 1) (by omega)
        have g2 := h.1 (i + 2) hN
        have lc := h.2 i hN
        have hσ2 : 0 < σ ^ 2 := by positivity
        have lc' : (σ * G.coeff i) * (σ * G.coeff (i + 2)) < (σ * G.coeff (i + 1)) ^ 2 := by nlinarith
        rw [e1] at hi
        rw [e2]
        generalize σ * G.coeff i = x at *
        generalize σ * G.coeff (i + 1) = y at *
        generalize σ * G.coeff (i + 2) = z at *
        have hb2 : 0 < b ^ 2 := by positivity
        -- `b² x ≥ -ab·y`, `x z < y²`
        by_contra hneg
        rw [not_le] at hneg
        have m1 := mul_pos_of_neg_of_neg hneg (neg_neg_of_pos g0)
        nlinarith [mul_le_mul_of_nonneg_right hi g1.le, mul_lt_mul_of_pos_left lc' (neg_pos.2 hab),
          mul_pos hb2 g1, mul_nonneg hi g2.le]
      · have hz : G.coeff (i + 2) = 0 := coeff_eq_zero_of_natDegree_lt (by omega)
        rw [e2, hz]
        have := concave_nonneg h hd (i + 1)
        have hb2 : 0 ≤ b ^ 2 := by positivity
        have := mul_nonneg hb2 this
        linarith
  have hex : ∃ i, 0 ≤ t i := by
    refine ⟨N + 1, ?_⟩
    have e1 : t (N + 1) = (a * b) * (σ * G.coeff (N + 1)) + b ^ 2 * (σ * G.coeff N) := by
      simp only [ht, hcs]; ring
    have hz : G.coeff (N + 1) = 0 := coeff_eq_zero_of_natDegree_lt (by omega)
    rw [e1, hz]
    have hb2 : 0 ≤ b ^ 2 := by positivity
    have := mul_nonneg hb2 (h.1 N le_rfl).le
    linarith
  classical
  refine ⟨b * σ, mul_ne_zero hb hσ, Nat.find hex, fun i hi => (not_le.1 (Nat.find_min hex hi)).le, ?_⟩
  intro i hi
  induction i, hi using Nat.le_induction with
  | base => exact Nat.find_spec hex
  | succ i _ ih => exact hmono i ih

theorem sgFold_neg (s : ℤ) (l : List ℤ) (hl : ∀ x ∈ l, x = 0 ∨ x = -s) :
    l.foldl sgStep (0, 0) = (0, 0) ∨ l.foldl sgStep (0, 0) = (0, -s) := by
  induction l using List.reverseRecOn with
  | nil => exact .inl rfl
  | append_singleton l x ih =>
    rw [List.foldl_append, List.foldl_cons, List.foldl_nil]
    have ih := ih fun y hy => hl y (by simp [hy])
    rcases hl x (by simp) with rfl | rfl <;> rcases ih with h | h <;> rw [h] <;> simp [sgStep]

theorem sgFold_pos (s : ℤ) (l : List ℤ) (hl : ∀ x ∈ l, x = 0 ∨ x = s) (st : ℕ × ℤ)
    (hst : st.1 = 0 ∨ (st.1 ≤ 1 ∧ st.2 = s)) :
    (l.foldl sgStep st).1 = 0 ∨ ((l.foldl sgStep st).1 ≤ 1 ∧ (l.foldl sgStep st).2 = s) := by
  induction l generalizing st with
  | nil => exact hst
  | cons x l ih =>
    rw [List.foldl_cons]
    refine ih (fun y hy => hl y (by simp [hy])) _ ?_
    rcases hl x (by simp) with rfl | rfl
    · simpa [sgStep] using hst
    · by_cases hx : x = 0
      · subst hx; simpa [sgStep] using hst
      · right
        simp only [sgStep, hx, ne_eq, not_false_eq_true, true_and, if_true, and_true]
        rcases hst with h | ⟨h1, h2⟩
        · rw [h]; split <;> omega
        · rw [h2]; simp [h1]

theorem signOf_of_nonneg {s c : ℝ} (hs : s ≠ 0) (h : 0 ≤ s * c) : signOf c = 0 ∨ signOf c = signOf s := by
  unfold signOf
  rcases lt_trichotomy c 0 with hc | hc | hc
  · have : s < 0 := by
      by_contra h'
      have : 0 < s := lt_of_le_of_ne (not_lt.1 h') (Ne.symm hs)
      nlinarith
    right; simp [hc, hc.ne, this, this.ne]
  · left; simp [hc]
  · have : 0 < s := by
      by_contra h'
      have : s < 0 := lt_of_le_of_ne (not_lt.1 h') hs
      nlinarith
    right; simp [hc.ne', not_lt.2 hc.le, not_lt.2 this.le, this.ne']

theorem signOf_neg' {s : ℝ} : signOf (-s) = -signOf s := by
  unfold signOf
  rcases lt_trichotomy s 0 with hc | hc | hc
  · simp [hc, hc.ne, not_lt.2 hc.le]
  · simp [hc]
  · simp [hc.ne', hc, not_lt.2 hc.le]

theorem descartes_oneTurn {n : ℕ} {g : Arr ℝ n} (h : OneTurn (polyOf g)) :
    ∃ v, descartes g = some v ∧ v ≤ 1 := by
  obtain ⟨s, hs, j, h1, h2⟩ := h
  simp only [polyOf_coeff] at h1 h2
  refine ⟨_, descartes_fold g, ?_⟩
  have hsplit : signs g (n + 1) = ((List.range (n + 1)).take j).map (fun i => signOf (coef g i)) ++
      ((List.range (n + 1)).drop j).map fun i => signOf (coef g i) := by
    rw [← List.map_append, List.take_append_drop]; rfl
  rw [hsplit, List.foldl_append]
  have a1 := sgFold_neg (signOf s) (((List.range (n + 1)).take j).map fun i => signOf (coef g i)) (by
    intro x hx
    obtain ⟨i, hi, rfl⟩ := List.mem_map.1 hx
    rw [List.take_range] at hi
    have := List.mem_range.1 hi
    have := signOf_of_nonneg (s := -s) (c := coef g i) (neg_ne_zero.2 hs)
      (by have := h1 i (by omega); linarith)
    rwa [signOf_neg'] at this)
  have a2 := sgFold_pos (signOf s) (((List.range (n + 1)).drop j).map fun i => signOf (coef g i)) (by
    intro x hx
    obtain ⟨i, hi, rfl⟩ := List.mem_map.1 hx
    have : j ≤ i := by
      obtain ⟨k, hk, rfl⟩ := List.getElem_of_mem hi
      simp
    exact signOf_of_nonneg hs (h2 i this))
    (List.foldl sgStep (0, 0) (((List.range (n + 1)).take j).map fun i => signOf (coef g i)))
    (.inl (by rcases a1 with h | h <;> simp only [h]))
  rcases a2 with h | h <;> omega

/-! ## All small dyadic intervals -/

/-- The transform of `P` to the interval number `k` of level `m` of the bisection. -/
noncomputable def node (n : ℕ) (P : ℝ[X]) (m k : ℕ) : ℝ[X] :=
  mob n P (((k : ℝ) + 1) / 2 ^ m) ((k : ℝ) / 2 ^ m)

theorem linear_coeff_nonneg {s a b : ℝ} (ha : 0 ≤ s * a) (hb : 0 ≤ s * b) (i : ℕ) :
    0 ≤ s * (C a + C b * X : ℝ[X]).coeff i := by
  match i with
  | 0 => simpa using ha
  | 1 => simpa [coeff_C] using hb
  | i + 2 => simp [coeff_C, coeff_X]

/-- Near any point of [0,1] there is a level from which on all intervals have at most one sign change. -/
theorem node_local {n : ℕ} {P : ℝ[X]} (hP : P ≠ 0) (hn : P.natDegree ≤ n) (x0 : ℝ)
    (hmult : 0 < x0 → x0 < 1 → 2 ≤ P.rootMultiplicity x0 → Dyadic' x0) :
    ∃ ε > 0, ∃ M, ∀ m k : ℕ, M ≤ m → k < 2 ^ m → |(k : ℝ) / 2 ^ m - x0| < ε → OneTurn (node n P m k) := by
  obtain ⟨H, hH, hdvd⟩ := exists_eq_pow_rootMultiplicity_mul_and_not_dvd P hP x0
  set μ := P.rootMultiplicity x0 with hμ
  have hH0 : H ≠ 0 := by rintro rfl; exact hdvd (dvd_zero _)
  have hHx : H.eval x0 ≠ 0 := fun h => hdvd (dvd_iff_isRoot.2 h)
  have hdeg : H.natDegree + μ ≤ n := by
    have := congrArg natDegree hH
    rw [natDegree_mul (pow_ne_zero _ (X_sub_C_ne_zero x0)) hH0, natDegree_pow, natDegree_X_sub_C] at this
    omega
  have hHd : H.natDegree ≤ n - μ := by omega
  obtain ⟨ε, hε, hconc⟩ := mob_concave hHd hHx
  obtain ⟨M1, hM1⟩ : ∃ M1 : ℕ, ∀ m, M1 ≤ m → 1 / (2 : ℝ) ^ m < ε / 2 := by
    obtain ⟨M1, h⟩ := exists_pow_lt_of_lt_one (half_pos hε) (show (1 / 2 : ℝ) < 1 by norm_num)
    refine ⟨M1, fun m hm => ?_⟩
    rw [← one_div_pow]
    exact (pow_le_pow_of_le_one (by norm_num) (by norm_num) hm).trans_lt h
  obtain ⟨M2, hM2⟩ : ∃ M2 : ℕ, ∀ m k : ℕ, M2 ≤ m → k < 2 ^ m → (k : ℝ) / 2 ^ m < x0 →
      x0 < ((k : ℝ) + 1) / 2 ^ m → μ ≤ 1 := by
    by_cases hd : Dyadic' x0
    · obtain ⟨k', m', e⟩ := hd
      refine ⟨m', fun m k hm _ h1 h2 => ?_⟩
      exfalso
      have h2m : (0 : ℝ) < 2 ^ m := by positivity
      have e' : x0 = ((k' * 2 ^ (m - m') : ℕ) : ℝ) / 2 ^ m := by
        rw [e, show (2 : ℝ) ^ m = 2 ^ m' * 2 ^ (m - m') by rw [← pow_add]; congr 1; omega]
        push_cast
        field_simp
      rw [e', div_lt_div_iff_of_pos_right h2m] at h1 h2
      have h1 : k < k' * 2 ^ (m - m') := by exact_mod_cast h1
      have h2 : k' * 2 ^ (m - m') < k + 1 := by exact_mod_cast h2
      omega
    · refine ⟨0, fun m k _ hk h1 h2 => ?_⟩
      by_contra hc
      refine hd (hmult ?_ ?_ (by omega))
      · exact lt_of_le_of_lt (by positivity) h1
      · refine lt_of_lt_of_le h2 ((div_le_one (by positivity)).2 ?_)
        exact_mod_cast hk
  refine ⟨ε / 2, half_pos hε, max M1 M2, fun m k hm hk hclose => ?_⟩
  have hw := hM1 m (le_trans (le_max_left _ _) hm)
  have h2m : (0 : ℝ) < 2 ^ m := by positivity
  set d : ℝ := (k : ℝ) / 2 ^ m with hd
  have hc : ((k : ℝ) + 1) / 2 ^ m = d + 1 / 2 ^ m := by rw [hd, add_div]
  have hw0 : (0 : ℝ) < 1 / 2 ^ m := by positivity
  have hdc : |d - x0| < ε := by linarith
  have hcc : |d + 1 / 2 ^ m - x0| < ε := by
    rw [abs_lt] at hclose ⊢
    constructor <;> linarith
  have G := hconc _ _ hcc hdc
  have Gd := mob_natDegree (n - μ) H (d + 1 / 2 ^ m) d
  have e : node n P m k = (C (d + 1 / 2 ^ m - x0) + C (d - x0) * X) ^ μ *
      mob (n - μ) H (d + 1 / 2 ^ m) d := by
    have := mob_power hHd x0 (d + 1 / 2 ^ m) d μ
    rw [← hH, show n - μ + μ = n by omega] at this
    rw [node, hc, ← hd, this]
  rw [e]
  by_cases hin : d < x0 ∧ x0 < d + 1 / 2 ^ m
  · have hμ1 : μ ≤ 1 := hM2 m k (le_trans (le_max_right _ _) hm) hk hin.1 (by rw [hc]; exact hin.2)
    interval_cases μ
    · rw [pow_zero, one_mul]
      have := oneTurn_mul_nonneg (A := 1) (s := 1) (σ := H.eval x0) one_ne_zero hHx (fun i => by
        rw [coeff_one]; split <;> norm_num) (concave_nonneg G Gd)
      rwa [one_mul] at this
    · rw [pow_one]
      refine oneTurn_linear G Gd (mul_neg_of_pos_of_neg ?_ ?_) <;> linarith [hin.1, hin.2]
  · rcases le_or_gt x0 d with h | h
    · refine oneTurn_mul_nonneg (s := 1 ^ μ) (σ := H.eval x0) (by simp) hHx
        (coeff_pow_nonneg (linear_coeff_nonneg ?_ ?_) μ) (concave_nonneg G Gd) <;> linarith
    · have h' : d + 1 / 2 ^ m ≤ x0 := by
        by_contra hc; exact hin ⟨h, not_le.1 hc⟩
      refine oneTurn_mul_nonneg (s := (-1) ^ μ) (σ := H.eval x0) (by simp) hHx
        (coeff_pow_nonneg (linear_coeff_nonneg ?_ ?_) μ) (concave_nonneg G Gd) <;> linarith

theorem node_all {n : ℕ} {P : ℝ[X]} (hP : P ≠ 0) (hn : P.natDegree ≤ n)
    (hmult : ∀ x, 0 < x → x < 1 → 2 ≤ P.rootMultiplicity x → Dyadic' x) :
    ∃ M, ∀ m k : ℕ, M ≤ m → k < 2 ^ m → OneTurn (node n P m k) := by
  choose ε hε M hM using fun x0 => node_local hP hn x0 (hmult x0)
  obtain ⟨t, ht⟩ := (isCompact_Icc (a := (0 : ℝ)) (b := 1)).elim_nhds_subcover
    (fun x => Metric.ball x (ε x)) fun x _ => Metric.ball_mem_nhds x (hε x)
  refine ⟨t.sup M, fun m k hm hk => ?_⟩
  have h2m : (0 : ℝ) < 2 ^ m := by positivity
  have hmem : (k : ℝ) / 2 ^ m ∈ Set.Icc (0 : ℝ) 1 := by
    refine ⟨by positivity, (div_le_one h2m).2 ?_⟩
    exact_mod_cast hk.le
  obtain ⟨x, hx, hb⟩ := Set.mem_iUnion₂.1 (ht.2 hmem)
  rw [Metric.mem_ball, Real.dist_eq] at hb
  exact hM x m k (le_trans (Finset.le_sup hx) hm) hk hb

/-! ## Termination -/

theorem budan_node {n : ℕ} (f g : Arr ℝ n) (a : ℝ) (ha : a ≠ 0) (m k : ℕ)
    (hg : ∀ x, value g x = a * value f ((x + k) / 2 ^ m)) (h : OneTurn (node n (polyOf f) m k)) :
    ∃ v, budan g = some v ∧ v ≤ 1 := by
  obtain ⟨r, e, hr⟩ := C25_invert_taylor_shift g
  have : polyOf r = C a * node n (polyOf f) m k := by
    refine poly_ext_pos fun x hx => ?_
    have h1 : 1 + x ≠ 0 := by linarith
    rw [eval_mul, eval_C, node, mob_eval (polyOf_degree f) _ _ _ h1, ← value_eq, ← value_eq,
      hr x (by linarith), hg]
    have : (1 / (x + 1) + (k : ℝ)) / 2 ^ m = (((k : ℝ) + 1) / 2 ^ m + (k : ℝ) / 2 ^ m * x) / (1 + x) := by
      rw [add_comm x 1]
      field_simp
      ring
    rw [this, add_comm x 1]
    ring
  obtain ⟨s, hs, j, h1, h2⟩ := h
  have ht : OneTurn (polyOf r) := by
    refine ⟨s / a, div_ne_zero hs ha, j, ?_, ?_⟩ <;> intro i hi
    · rw [this, coeff_C_mul, show s / a * (a * (node n (polyOf f) m k).coeff i) =
        s * (node n (polyOf f) m k).coeff i by field_simp]
      exact h1 i hi
    · rw [this, coeff_C_mul, show s / a * (a * (node n (polyOf f) m k).coeff i) =
        s * (node n (polyOf f) m k).coeff i by field_simp]
      exact h2 i hi
  obtain ⟨v, ev, hv⟩ := descartes_oneTurn ht
  exact ⟨v, by rw [budan, e]; exact ev, hv⟩

theorem vcaWorker_ends {n : ℕ} (f : Arr ℝ n) (M : ℕ)
    (hM : ∀ m k : ℕ, M ≤ m → k < 2 ^ m → OneTurn (node n (polyOf f) m k)) :
    ∀ (fuel : ℕ) (g : Arr ℝ n) (a : ℝ) (m k : ℕ), a ≠ 0 → k < 2 ^ m → M ≤ m + fuel →
      (∀ x, value g x = a * value f ((x + k) / 2 ^ m)) → vcaWorker (fuel + 1) g ≠ .more := by
  intro fuel
  induction fuel with
  | zero =>
    intro g a m k ha hk hm hg
    obtain ⟨v, ev, hv⟩ := budan_node f g a ha m k hg (hM m k hm hk)
    rw [vcaWorker, ev]
    interval_cases v <;> simp [Out.lift, Out.bind]
  | succ fuel ih =>
    intro g a m k ha hk hm hg
    rw [vcaWorker]
    cases hb : budan g with
    | none => simp [Out.lift, Out.bind]
    | some v =>
      match v with
      | 0 => simp [Out.lift, Out.bind]
      | 1 => simp [Out.lift, Out.bind]
      | v + 2 =>
        obtain ⟨p1, e1, h1⟩ := vcaScale_spec g
        obtain ⟨p2, e2, h2⟩ := C25_shift_one p1
        have v1 : ∀ x, value p1 x = 2 ^ n * value g (x / 2) := by
          intro x
          rw [value_eq, value_eq, h1, eval_mul, eval_C, eval_comp, eval_mul, eval_C, eval_X,
            show 1 / 2 * x = x / 2 by ring]
        have w1 : ∀ x, value p1 x = (2 ^ n * a) * value f ((x + (2 * k : ℕ)) / 2 ^ (m + 1)) := by
          intro x
          rw [v1, hg, mul_assoc]
          congr 3
          push_cast
          rw [pow_succ]
          field_simp
        have w2 : ∀ x, value p2 x = (2 ^ n * a) * value f ((x + (2 * k + 1 : ℕ)) / 2 ^ (m + 1)) := by
          intro x
          rw [h2, w1]
          congr 3
          push_cast
          ring
        have hk' : k + 1 ≤ 2 ^ m := hk
        have i1 := ih p1 (2 ^ n * a) (m + 1) (2 * k) (by positivity) (by rw [pow_succ]; omega) (by omega) w1
        have i2 := ih p2 (2 ^ n * a) (m + 1) (2 * k + 1) (by positivity) (by rw [pow_succ]; omega) (by omega) w2
        simp only [Out.lift, Out.bind, e1, e2]
        cases r1 : vcaWorker (fuel + 1) p1 with
        | bad => simp
        | more => exact absurd r1 i1
        | ok L1 =>
          simp only
          cases r2 : vcaWorker (fuel + 1) p2 with
          | bad => simp
          | more => exact absurd r2 i2
          | ok L2 =>
            simp only
            cases svPushAll n (List.map (fun b : ℝ × ℝ => (b.1 / 2, b.2 / 2)) L1)
              (List.map (fun b : ℝ × ℝ => (b.1 / 2 + 1 / 2, b.2 / 2 + 1 / 2)) L2) <;> simp

theorem vcaWorker_mono {n : ℕ} : ∀ (fuel fuel' : ℕ) (f : Arr ℝ n) (L : List (ℝ × ℝ)), fuel ≤ fuel' →
    vcaWorker fuel f = .ok L → vcaWorker fuel' f = .ok L := by
  intro fuel
  induction fuel with
  | zero => intro fuel' f L _ h; simp [vcaWorker] at h
  | succ fuel ih =>
    intro fuel' f L hle h
    obtain ⟨fuel', rfl⟩ : ∃ k, fuel' = k + 1 := ⟨fuel' - 1, by omega⟩
    rw [vcaWorker] at h ⊢
    cases hb : budan f with
    | none => simp [hb, Out.lift, Out.bind] at h
    | some v =>
      rw [hb] at h
      simp only [Out.lift, Out.bind] at h ⊢
      match v with
      | 0 => exact h
      | 1 => exact h
      | v + 2 =>
        cases e1 : vcaScale f with
        | none => simp [e1] at h
        | some p1 =>
          cases e2 : shiftOne p1 with
          | none => simp [e1, e2] at h
          | some p2 =>
            simp only [e1, e2] at h ⊢
            cases r1 : vcaWorker fuel p1 with
            | bad => simp [r1] at h
            | more => simp [r1] at h
            | ok L1 =>
              simp only [r1] at h
              cases r2 : vcaWorker fuel p2 with
              | bad => simp [r2] at h
              | more => simp [r2] at h
              | ok L2 =>
                simp only [r2] at h
                simp only [ih fuel' p1 L1 (by omega) r1, ih fuel' p2 L2 (by omega) r2]
                exact h

theorem vca_mono {n : ℕ} (fuel fuel' : ℕ) (f : Arr ℝ n) (L : List (ℝ × ℝ)) (hle : fuel ≤ fuel')
    (h : vca fuel f = .ok L) : vca fuel' f = .ok L := by
  rw [vca] at h ⊢
  cases eu : lmqUpper f with
  | none => simp [eu, Out.lift, Out.bind] at h
  | some u =>
    cases u with
    | none => simp [eu, Out.lift, Out.bind] at h
    | some u =>
      simp only [eu, Out.lift, Out.bind] at h ⊢
      by_cases h0 : u = 0
      · rwa [if_pos h0] at h ⊢
      · rw [if_neg h0] at h ⊢
        cases eg : scale f u with
        | none => simp [eg] at h
        | some g =>
          simp only [eg] at h ⊢
          cases er : vcaWorker fuel g with
          | bad => simp [er] at h
          | more => simp [er] at h
          | ok r => rw [er] at h; rw [vcaWorker_mono fuel fuel' g r hle er]; exact h

theorem vca_ends {n : ℕ} (f : Arr ℝ n) (hf : f ≠ 0)
    (hm : ∀ x, 0 < x → 2 ≤ (polyOf f).rootMultiplicity x →
      ∃ u, lmqUpper f = some (some u) ∧ ∃ k m : ℕ, x = u * (k / 2 ^ m)) :
    ∃ fuel L, vca fuel f = .ok L := by
  obtain ⟨u, eu, hu0, hu⟩ := C30_upper f hf
  by_cases h0 : u = 0
  · subst h0
    exact ⟨0, [], by rw [vca, eu]; simp [Out.lift, Out.bind]⟩
  have hu0 : 0 < u := lt_of_le_of_ne hu0 (Ne.symm h0)
  obtain ⟨g, eg, hg⟩ := scale_spec f u
  have hgv : ∀ x, value g x = value f (u * x) := fun x => by
    rw [value_eq, value_eq, hg, eval_comp]; simp
  have hg0 : g ≠ 0 := ne_zero_of_roots hf (a := u) (b := 0) hu0.ne' fun x => by rw [hgv, add_zero]
  obtain ⟨M, hM⟩ := node_all (polyOf_ne_zero hg0) (polyOf_degree g) (fun x hx0 hx1 h2 => by
    have := rootMultiplicity_linear (polyOf f) u 0 x hu0.ne'
    rw [C_0, add_zero, add_zero] at this
    rw [hg, this] at h2
    obtain ⟨u', eu', k, m, e⟩ := hm (u * x) (mul_pos hu0 hx0) h2
    rw [eu] at eu'
    simp only [Option.some.injEq] at eu'
    subst eu'
    exact ⟨k, m, mul_left_cancel₀ hu0.ne' e⟩)
  refine ⟨M + 1, ?_⟩
  have hw := vcaWorker_ends g M hM M g 1 0 0 one_ne_zero (by norm_num) (by omega) (fun x => by simp)
  have hb := (vcaWorker_spec (M + 1) g hg0).1
  rw [vca, eu]
  simp only [Out.lift, Out.bind, if_neg hu0.ne', eg]
  cases er : vcaWorker (M + 1) g with
  | bad => exact absurd er hb
  | more => exact absurd er hw
  | ok r => exact ⟨_, rfl⟩

/-- **C32**: `VCA_real_root_bounds` terminates if every multiple positive root is at a bisection point, in
particular if the positive roots are simple; the result is the same for every larger fuel. -/
theorem C32_vca_terminates {n : ℕ} (f : Arr ℝ n) (hf : f ≠ 0)
    (hm : ∀ x, 0 < x → 2 ≤ (polyOf f).rootMultiplicity x →
      ∃ u, lmqUpper f = some (some u) ∧ ∃ k m : ℕ, x = u * (k / 2 ^ m)) :
    ∃ fuel₀ L, ∀ fuel, fuel₀ ≤ fuel → vca fuel f = .ok L := by
  obtain ⟨fuel₀, L, h⟩ := vca_ends f hf hm
  exact ⟨fuel₀, L, fun fuel hfuel => vca_mono fuel₀ fuel f L hfuel h⟩

/-- **C32**: exactly when `VCA_real_root_bounds` terminates: every multiple positive root is `k/2^m` of
the upper bound. -/
theorem C32_vca_terminates_iff {n : ℕ} (f : Arr ℝ n) (hf : f ≠ 0) :
    (∃ fuel L, vca fuel f = .ok L) ↔ ∀ x, 0 < x → 2 ≤ (polyOf f).rootMultiplicity x →
      ∃ u, lmqUpper f = some (some u) ∧ ∃ k m : ℕ, x = u * (k / 2 ^ m) := by
  constructor
  · rintro ⟨fuel, L, h⟩ x hx hm
    by_contra hc
    rw [C32_vca_multiple_root f hf x hx hm hc fuel] at h
    simp at h
  · intro h
    exact vca_ends f hf h

theorem rootMultiplicity_le_one {P : ℝ[X]} {x : ℝ} (h : P.eval x = 0 → P.derivative.eval x ≠ 0) :
    P.rootMultiplicity x ≤ 1 := by
  by_contra hc
  have h0 : P ≠ 0 := by rintro rfl; simp at hc
  have h1 : 1 < P.rootMultiplicity x := by omega
  have h2 := (one_lt_rootMultiplicity_iff_isRoot h0).1 h1
  exact h h2.1 h2.2

/-- **C32**: in particular `VCA_real_root_bounds` terminates if all positive roots are simple. -/
theorem C32_vca_terminates_simple {n : ℕ} (f : Arr ℝ n) (hf : f ≠ 0)
    (hs : ∀ x, 0 < x → value f x = 0 → deriv (value f) x ≠ 0) :
    ∃ fuel₀ L, ∀ fuel, fuel₀ ≤ fuel → vca fuel f = .ok L := by
  refine C32_vca_terminates f hf fun x hx h2 => ?_
  have : (polyOf f).rootMultiplicity x ≤ 1 := rootMultiplicity_le_one fun h => by
    have hd := hs x hx (by rw [value_eq]; exact h)
    have : value f = fun x => (polyOf f).eval x := funext (value_eq f)
    rwa [this, Polynomial.deriv] at hd
  omega

-- a case that meets the hypotheses: `x³ - 3x + 1` (three irrational roots)
example : ∃ fuel₀ L, ∀ fuel, fuel₀ ≤ fuel → vca fuel (![1, -3, 0, 1] : Arr ℝ 3) = .ok L := by
  have hv : value (![1, -3, 0, 1] : Arr ℝ 3) = fun x => x ^ 3 - 3 * x + 1 := by
    funext x; simp [value, Fin.sum_univ_succ]; ring
  refine C32_vca_terminates_simple _ (fun h => by have := congrFun h 0; simp at this) fun x hx h => ?_
  rw [hv] at h ⊢
  have hd : HasDerivAt (fun x : ℝ => x ^ 3 - 3 * x + 1) _ x :=
    ((hasDerivAt_pow 3 x).sub ((hasDerivAt_id x).const_mul 3)).add_const 1
  rw [hd.deriv]
  intro h'
  norm_num at h'
  have h1 : x ^ 2 = 1 := by linarith
  have h2 : x = 1 := by nlinarith
  rw [h2] at h
  norm_num at h

end Stator.Pol
