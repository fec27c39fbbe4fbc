import Verif.Fp.Quadratic

/-!
# C88: polynomials in rounded arithmetic

Sums, products, derivatives and deflation of polynomials with `double` coefficients: how far the computed coefficients, and the
values of the computed polynomial, are from the exact ones.
-/

namespace Stator.Fp

open Stator.Pol

/-! ## Model -/

/-- Sum and difference: `addOp` of `Verif/Poly/Ops.lean`, with every result rounded.
models: stator/symbolic/simplify.hpp:369-387. -/
noncomputable def addR (rnd : ℝ → ℝ) {n m : ℕ} (f : Arr ℝ n) (g : Arr ℝ m) : Option (Arr ℝ (max m n)) :=
  addOp (fun a b => rnd (a + b)) f g

/-- models: stator/symbolic/simplify.hpp:369-387. -/
noncomputable def subR (rnd : ℝ → ℝ) {n m : ℕ} (f : Arr ℝ n) (g : Arr ℝ m) : Option (Arr ℝ (max m n)) :=
  addOp (fun a b => rnd (a - b)) f g

/-- models: stator/symbolic/simplify.hpp:389-402 product of two polynomials, with every result rounded. -/
noncomputable def mulR (rnd : ℝ → ℝ) {m n : ℕ} (f : Arr ℝ m) (g : Arr ℝ n) : Option (Arr ℝ (m + n)) :=
  forUp (fun i r =>
    let lo := if i > n then i - n else 0
    forUp (fun j r => do
      let ri ← rd r i
      let a ← rd f j
      let b ← rd g (i - j)
      wr r i (rnd (ri + rnd (a * b)))) lo (min i m + 1 - lo) r) 0 (n + m + 1) (zeros (m + n))

/-- models: stator/symbolic/polynomial.hpp:423-433 `derivative` in the polynomial's own variable. (`i + 1` is an integer, converted
to the type of the coefficients.) -/
noncomputable def derivR (rnd : ℝ → ℝ) {n : ℕ} (f : Arr ℝ (n + 1)) : Option (Arr ℝ n) :=
  forUp (fun i r => do let c ← rd f (i + 1); wr r i (rnd (c * ((i : ℝ) + 1)))) 0 (n + 1) (zeros n)

/-- models: stator/symbolic/polynomial.hpp:714-725 (see `deflateLoop` in `Verif/Poly/Ops.lean`). -/
noncomputable def deflateLoopR (rnd : ℝ → ℝ) (S : ℕ) (sp : ℝ → ℝ → ℕ) {n : ℕ} (a : Arr ℝ (n + 1)) (root : ℝ) :
    ℕ → ℕ → ℕ → Arr ℝ n → Option (Arr ℝ n)
  | 0, it, ib, b => if it ≥ ib then none else some b
  | fuel + 1, it, ib, b =>
    if it ≥ ib then do
      let bt ← rd b ((it + 1) % S)
      let d := rnd (root * bt)
      let bb ← rd b ib
      let ab ← rd a ib
      let at1 ← rd a ((it + 1) % S)
      if sp bb ab > sp at1 (-d) then
        let bp ← rd b (ib - 1)
        let b ← wr b ib (rnd (rnd (bp - ab) / root))
        deflateLoopR rnd S sp a root fuel it (ib + 1) b
      else
        let b ← wr b it (rnd (at1 + d))
        deflateLoopR rnd S sp a root fuel (it - 1) ib b
    else some b

/-- models: stator/symbolic/polynomial.hpp:703-727 `deflate_polynomial(a, root)`. -/
noncomputable def deflateR (rnd : ℝ → ℝ) (S : ℕ) (sp : ℝ → ℝ → ℕ) {n : ℕ} (a : Arr ℝ (n + 1)) (root : ℝ) :
    Option (Arr ℝ n) :=
  if root = 0 then deflateZero a
  else do
    let c ← rd a (n + 1)
    let b ← wr (zeros n) n c
    let a0 ← rd a 0
    let b ← wr b 0 (rnd (-a0 / root))
    deflateLoopR rnd S sp a root (n + 1) ((n + S - 1) % S) 1 b

/-- With exact arithmetic these are the models of `Verif/Poly/Ops.lean`. -/
theorem mulR_id {m n : ℕ} (f : Arr ℝ m) (g : Arr ℝ n) : mulR id f g = mulPoly f g := rfl

theorem derivR_id {n : ℕ} (f : Arr ℝ (n + 1)) : derivR id f = derivArr f := rfl

theorem deflateLoopR_id (S : ℕ) (sp : ℝ → ℝ → ℕ) {n : ℕ} (a : Arr ℝ (n + 1)) (root : ℝ) :
    ∀ fuel it ib b, deflateLoopR id S sp a root fuel it ib b = deflateLoop S sp a root fuel it ib b
  | 0, _, _, _ => rfl
  | fuel + 1, it, ib, b => by
    simp only [deflateLoopR, deflateLoop, deflateLoopR_id S sp a root fuel, id]

theorem deflateR_id (S : ℕ) (sp : ℝ → ℝ → ℕ) {n : ℕ} (a : Arr ℝ (n + 1)) (root : ℝ) :
    deflateR id S sp a root = deflate S sp a root := by
  simp only [deflateR, deflate, deflateLoopR_id, id]

/-! ## Values and coefficients -/

theorem value_range {n : ℕ} (f : Arr ℝ n) (x : ℝ) : value f x = ∑ i ∈ Finset.range (n + 1), coef f i * x ^ i := by
  unfold value
  rw [Finset.sum_range]
  exact Finset.sum_congr rfl fun i _ => by rw [coef_fin]

theorem absValue_range {n : ℕ} (f : Arr ℝ n) (x : ℝ) :
    absValue f x = ∑ i ∈ Finset.range (n + 1), |coef f i| * |x| ^ i := by
  unfold absValue
  rw [Finset.sum_range]
  exact Finset.sum_congr rfl fun i _ => by rw [coef_fin]

/-- Bounds for the coefficients give a bound for the values. -/
theorem value_close {n : ℕ} (r : Arr ℝ n) (c e : ℕ → ℝ) (h : ∀ i ≤ n, |coef r i - c i| ≤ e i) (x : ℝ) :
    |value r x - ∑ i ∈ Finset.range (n + 1), c i * x ^ i| ≤ ∑ i ∈ Finset.range (n + 1), e i * |x| ^ i := by
  rw [value_range, ← Finset.sum_sub_distrib]
  refine (Finset.abs_sum_le_sum_abs _ _).trans (Finset.sum_le_sum fun i hi => ?_)
  rw [← sub_mul, abs_mul, abs_pow]
  exact mul_le_mul_of_nonneg_right (h i (by simpa [Nat.lt_succ_iff] using hi)) (by positivity)

/-! ## Sums, differences and derivatives -/

section Bin

variable {p : ℕ} {emin : ℤ} {hp : 0 < p} {he : emin ≤ 0}

/-- Multiples of the smallest number are rounded with a relative error only. -/
theorem bin_multiple {x : ℝ} (k : ℤ) (hk : x = k * (2 : ℝ) ^ emin) :
    |(bin p emin hp he).rnd x - x| ≤ (bin p emin hp he).u * |x| := by
  set φ := bin p emin hp he with hφ
  have hpos := two_zpow_pos emin
  by_cases h : |k| ≤ 2 ^ p
  · have hm : x ∈ φ.F := by rw [hk]; exact binF_of_le hp le_rfl h
    rw [φ.rnd_of_mem hm, sub_self, abs_zero]
    exact mul_nonneg φ.u_nonneg (abs_nonneg _)
  · push Not at h
    have h' : (2 : ℝ) ^ p ≤ |(k : ℝ)| := by exact_mod_cast h.le
    have key : φ.η ≤ φ.u * |x| := by
      rw [hk, abs_mul, abs_of_pos hpos]
      show (2 : ℝ) ^ (emin - 1) ≤ 2 ^ (-(p : ℤ)) * _
      have e1 : (2 : ℝ) ^ (-(p : ℤ)) * 2 ^ p = 1 := by
        rw [← zpow_natCast (2 : ℝ) p, ← zpow_add₀ (by norm_num)]; simp
      have e2 : (2 : ℝ) ^ (emin - 1) = 2 ^ emin / 2 := by rw [zpow_sub₀ (by norm_num)]; simp
      have h3 := mul_le_mul_of_nonneg_left h' (two_zpow_pos (-(p : ℤ))).le
      rw [e1] at h3
      have h4 := mul_le_mul_of_nonneg_right h3 hpos.le
      rw [e2, ← mul_assoc]
      linarith
    rcases φ.err x with h1 | h1
    · exact h1
    · exact h1.trans key

theorem coef_mem {φ : Format} {n : ℕ} {f : Arr ℝ n} (hf : ∀ i, f i ∈ φ.F) (i : ℕ) : coef f i ∈ φ.F := by
  unfold coef; split
  · exact hf _
  · exact φ.zero

/-- Sums over the coefficients of a polynomial, extended by zeros. -/
theorem sum_ext {N k : ℕ} (q : Arr ℝ k) (G : ℝ → ℝ) (y : ℝ) (hG : G 0 = 0) (hk : k ≤ N) :
    ∑ i ∈ Finset.range (N + 1), G (coef q i) * y ^ i = ∑ i ∈ Finset.range (k + 1), G (coef q i) * y ^ i := by
  refine (Finset.sum_subset (Finset.range_mono (by omega)) fun i _ hi => ?_).symm
  rw [coef_gt q (by simpa using hi), hG, zero_mul]

/-- Sums and differences together: `s` is 1 or -1. -/
theorem poly_sum_close {φ : Format} {n m : ℕ} (f : Arr ℝ n) (g : Arr ℝ m) (s : ℝ) (hs : |s| = 1) (r : Arr ℝ (max m n))
    (hc : ∀ i ≤ max m n, |coef r i - (coef f i + s * coef g i)| ≤ φ.u * |coef f i + s * coef g i|) (x : ℝ) :
    |value r x - (value f x + s * value g x)| ≤ φ.u * (absValue f x + absValue g x) := by
  have hv := value_close r (fun i => coef f i + s * coef g i) (fun i => φ.u * (|coef f i| + |coef g i|))
    (fun i hi => (hc i hi).trans (mul_le_mul_of_nonneg_left ((abs_add_le _ _).trans (by rw [abs_mul, hs, one_mul]))
      φ.u_nonneg)) x
  have e1 : ∑ i ∈ Finset.range (max m n + 1), (coef f i + s * coef g i) * x ^ i = value f x + s * value g x := by
    have a1 := sum_ext (N := max m n) f (fun y => y) x rfl (by omega)
    have a2 := sum_ext (N := max m n) g (fun y => y) x rfl (by omega)
    simp only [add_mul, Finset.sum_add_distrib, mul_assoc, ← Finset.mul_sum]
    rw [a1, a2, value_range, value_range]
  have e2 : ∑ i ∈ Finset.range (max m n + 1), φ.u * (|coef f i| + |coef g i|) * |x| ^ i =
      φ.u * (absValue f x + absValue g x) := by
    simp only [mul_assoc, ← Finset.mul_sum, add_mul, Finset.sum_add_distrib]
    rw [sum_ext f abs |x| abs_zero (by omega), sum_ext g abs |x| abs_zero (by omega), absValue_range, absValue_range]
  rw [e1, e2] at hv
  exact hv

/-- **C88**: every coefficient of a computed sum is the sum of the coefficients, rounded once; the values of the computed sum are
accordingly close to the sum of the values. Coefficients that only one of the polynomials has are exact. -/
theorem C88_add {n m : ℕ} (f : Arr ℝ n) (g : Arr ℝ m) (hf : ∀ i, f i ∈ (bin p emin hp he).F)
    (hg : ∀ i, g i ∈ (bin p emin hp he).F) :
    ∃ r, addR (bin p emin hp he).rnd f g = some r ∧
      (∀ i ≤ max m n, |coef r i - (coef f i + coef g i)| ≤ (bin p emin hp he).u * |coef f i + coef g i|) ∧
      (∀ i ≤ max m n, min m n < i → coef r i = coef f i + coef g i) ∧
      ∀ x, |value r x - (value f x + value g x)| ≤ (bin p emin hp he).u * (absValue f x + absValue g x) := by
  set φ := bin p emin hp he with hφ
  obtain ⟨r, h1, h2⟩ := add_spec (fun a b => φ.rnd (a + b)) f g
  have hc : ∀ i ≤ max m n, |coef r i - (coef f i + coef g i)| ≤ φ.u * |coef f i + coef g i| := by
    intro i hi
    rw [h2 i hi]
    obtain ⟨j, hj⟩ := binF_multiple (p := p) (emin := emin) (coef_mem hf i)
    obtain ⟨k, hk⟩ := binF_multiple (p := p) (emin := emin) (coef_mem hg i)
    exact bin_multiple (j + k) (by rw [hj, hk]; push_cast; ring)
  refine ⟨r, h1, hc, fun i hi hlt => ?_, fun x => ?_⟩
  · rw [h2 i hi]
    rcases le_or_gt i n with h | h
    · rw [coef_gt g (by omega), add_zero, φ.rnd_of_mem (coef_mem hf i)]
    · rw [coef_gt f h, zero_add, φ.rnd_of_mem (coef_mem hg i)]
  · have := poly_sum_close f g 1 (by simp) r (fun i hi => by rw [one_mul]; exact hc i hi) x
    rwa [one_mul] at this

/-- **C88**: the same of differences. -/
theorem C88_sub {n m : ℕ} (f : Arr ℝ n) (g : Arr ℝ m) (hf : ∀ i, f i ∈ (bin p emin hp he).F)
    (hg : ∀ i, g i ∈ (bin p emin hp he).F) :
    ∃ r, subR (bin p emin hp he).rnd f g = some r ∧
      (∀ i ≤ max m n, |coef r i - (coef f i - coef g i)| ≤ (bin p emin hp he).u * |coef f i - coef g i|) ∧
      (∀ i ≤ max m n, min m n < i → coef r i = coef f i - coef g i) ∧
      ∀ x, |value r x - (value f x - value g x)| ≤ (bin p emin hp he).u * (absValue f x + absValue g x) := by
  set φ := bin p emin hp he with hφ
  obtain ⟨r, h1, h2⟩ := add_spec (fun a b => φ.rnd (a - b)) f g
  have hc : ∀ i ≤ max m n, |coef r i - (coef f i - coef g i)| ≤ φ.u * |coef f i - coef g i| := by
    intro i hi
    rw [h2 i hi]
    obtain ⟨j, hj⟩ := binF_multiple (p := p) (emin := emin) (coef_mem hf i)
    obtain ⟨k, hk⟩ := binF_multiple (p := p) (emin := emin) (coef_mem hg i)
    exact bin_multiple (j - k) (by rw [hj, hk]; push_cast; ring)
  refine ⟨r, h1, hc, fun i hi hlt => ?_, fun x => ?_⟩
  · rw [h2 i hi]
    rcases le_or_gt i n with h | h
    · rw [coef_gt g (by omega), sub_zero, φ.rnd_of_mem (coef_mem hf i)]
    · rw [coef_gt f h, zero_sub, φ.rnd_of_mem (φ.neg _ (coef_mem hg i))]
  · have := poly_sum_close f g (-1) (by simp) r (fun i hi => by rw [neg_one_mul, ← sub_eq_add_neg]; exact hc i hi) x
    rwa [neg_one_mul, ← sub_eq_add_neg] at this

theorem derivR_coef (rnd : ℝ → ℝ) {n : ℕ} (f : Arr ℝ (n + 1)) :
    ∃ r, derivR rnd f = some r ∧ ∀ i ≤ n, coef r i = rnd (coef f (i + 1) * ((i : ℝ) + 1)) := by
  unfold derivR
  obtain ⟨r, h1, h2⟩ := forUp_fill (m := n) (lo := 0) (s := 0) (cnt := n + 1)
    (body := fun i r => do let c ← rd f (i + 1); wr r i (rnd (c * ((i : ℝ) + 1))))
    (fun i => rnd (coef f (i + 1) * ((i : ℝ) + 1)))
    (fun i a _ hi => by simp [rd_coef f (show i + 1 ≤ n + 1 by omega)]) (by omega) (zeros n)
  refine ⟨r, h1, fun i hi => ?_⟩
  rw [h2, if_pos (by omega), Nat.sub_zero]

/-- **C88**: every coefficient of a computed derivative is exact but for one rounding; so the values are close to the derivative of
the values. -/
theorem C88_derivative {n : ℕ} (f : Arr ℝ (n + 1)) (hf : ∀ i, f i ∈ (bin p emin hp he).F) :
    ∃ r, derivR (bin p emin hp he).rnd f = some r ∧
      (∀ i ≤ n, |coef r i - (i + 1) * coef f (i + 1)| ≤ (bin p emin hp he).u * |(i + 1) * coef f (i + 1)|) ∧
      ∀ x, |value r x - _root_.deriv (value f) x| ≤
        (bin p emin hp he).u * ∑ i ∈ Finset.range (n + 1), ((i : ℝ) + 1) * |coef f (i + 1)| * |x| ^ i := by
  obtain ⟨r, h1, h2⟩ := derivR_coef (bin p emin hp he).rnd f
  have hc : ∀ i ≤ n, |coef r i - (i + 1) * coef f (i + 1)| ≤ (bin p emin hp he).u * |((i : ℝ) + 1) * coef f (i + 1)| := by
    intro i hi
    rw [h2 i hi, mul_comm (coef f (i + 1))]
    obtain ⟨k, hk⟩ := binF_multiple (p := p) (emin := emin) (coef_mem hf (i + 1))
    exact bin_multiple ((i + 1) * k) (by rw [hk]; push_cast; ring)
  refine ⟨r, h1, hc, fun x => ?_⟩
  obtain ⟨r', e', h'⟩ := derivArr_spec f
  have hd : _root_.deriv (value f) x = ∑ i ∈ Finset.range (n + 1), ((i : ℝ) + 1) * coef f (i + 1) * x ^ i := by
    have hfun : value f = fun y => (polyOf f).eval y := funext fun y => (value_eq f y)
    rw [hfun, Polynomial.deriv, ← h', ← value_eq, value_range]
    refine Finset.sum_congr rfl fun i _ => ?_
    rw [← polyOf_coeff r', h', Polynomial.coeff_derivative, polyOf_coeff]
    ring
  have := value_close r (fun i => ((i : ℝ) + 1) * coef f (i + 1)) _ hc x
  rw [hd]
  refine this.trans (le_of_eq ?_)
  rw [Finset.mul_sum]
  refine Finset.sum_congr rfl fun i _ => ?_
  rw [abs_mul, abs_of_nonneg (by positivity : (0 : ℝ) ≤ (i : ℝ) + 1)]
  ring

/-! ## Products -/

/-- One step of the inner loop of the product. -/
theorem mul_step {φ : Format} {s S A a b : ℝ} {k : ℕ}
    (hsum : |φ.rnd (s + φ.rnd (a * b)) - (s + φ.rnd (a * b))| ≤ φ.u * |s + φ.rnd (a * b)|)
    (h0 : k = 0 → s = 0 ∧ A = 0) (hA : |S| ≤ A)
    (hs : |s - S| ≤ ((1 + φ.u) ^ k - 1) * A + k * φ.η * (1 + φ.u) ^ k) :
    |φ.rnd (s + φ.rnd (a * b)) - (S + a * b)| ≤
      ((1 + φ.u) ^ (k + 1) - 1) * (A + |a * b|) + (k + 1 : ℕ) * φ.η * (1 + φ.u) ^ (k + 1) := by
  have hu := φ.u_nonneg
  have hη := φ.η_nonneg
  have hp := φ.error (a * b)
  have hab := abs_nonneg (a * b)
  cases k with
  | zero =>
    obtain ⟨rfl, rfl⟩ := h0 rfl
    have hS : S = 0 := abs_nonpos_iff.1 hA
    subst hS
    rw [zero_add, φ.rnd_rnd, zero_add]
    refine hp.trans ?_
    have : 0 ≤ φ.η * φ.u := mul_nonneg hη hu
    push_cast
    linarith
  | succ k =>
    generalize hP : φ.rnd (a * b) = P at *
    have hA0 : 0 ≤ A := (abs_nonneg _).trans hA
    have hone : 1 ≤ (1 + φ.u) ^ (k + 1) := one_le_pow₀ (by linarith)
    set q := (1 + φ.u) ^ (k + 1) with hq
    have hq1 : 1 + φ.u ≤ q := by
      rw [hq, pow_succ]
      exact le_mul_of_one_le_left (by linarith) (one_le_pow₀ (by linarith))
    have hqs : (1 + φ.u) ^ (k + 1 + 1) = q * (1 + φ.u) := pow_succ _ _
    rw [hqs]
    set E := (q - 1) * A + (k + 1 : ℕ) * φ.η * q with hE
    have h1 : |s + P - (S + a * b)| ≤ E + (φ.u * |a * b| + φ.η) := by
      rw [show s + P - (S + a * b) = (s - S) + (P - a * b) by ring]
      exact (abs_add_le _ _).trans (add_le_add hs hp)
    have h2 : |s + P| ≤ E + (φ.u * |a * b| + φ.η) + (A + |a * b|) := by
      have h3 : |S + a * b| ≤ A + |a * b| := (abs_add_le _ _).trans (by linarith)
      have : s + P = (s + P - (S + a * b)) + (S + a * b) := by ring
      rw [this]
      exact (abs_add_le _ _).trans (by linarith)
    have h4 : |φ.rnd (s + P) - (S + a * b)| ≤ φ.u * |s + P| + (E + (φ.u * |a * b| + φ.η)) := by
      rw [show φ.rnd (s + P) - (S + a * b) = (φ.rnd (s + P) - (s + P)) + (s + P - (S + a * b)) by ring]
      exact (abs_add_le _ _).trans (by linarith)
    have h5 := mul_le_mul_of_nonneg_left h2 hu
    have h6 := mul_le_mul_of_nonneg_right (mul_le_mul_of_nonneg_right hq1 (by linarith : 0 ≤ 1 + φ.u)) hab
    have h7 := mul_le_mul_of_nonneg_right (mul_le_mul_of_nonneg_right hone hη) (by linarith : 0 ≤ 1 + φ.u)
    rw [hE] at h4 h5
    push_cast at h4 h5 ⊢
    linarith

/-- **C88**: every coefficient of a computed product. `K` is the largest number of terms a coefficient has. -/
theorem C88_mul {m n : ℕ} (f : Arr ℝ m) (g : Arr ℝ n) (K : ℕ) (hK : K = min m n + 1) :
    ∃ r, mulR (bin p emin hp he).rnd f g = some r ∧
      (∀ i ≤ m + n, |coef r i - ∑ j ∈ Finset.range (i + 1), coef f j * coef g (i - j)| ≤
        ((1 + (bin p emin hp he).u) ^ K - 1) * ∑ j ∈ Finset.range (i + 1), |coef f j| * |coef g (i - j)| +
          K * (bin p emin hp he).η * (1 + (bin p emin hp he).u) ^ K) ∧
      ∀ x, |value r x - value f x * value g x| ≤
        ((1 + (bin p emin hp he).u) ^ K - 1) * (absValue f x * absValue g x) +
          K * (bin p emin hp he).η * (1 + (bin p emin hp he).u) ^ K * ∑ i ∈ Finset.range (m + n + 1), |x| ^ i := by
  set φ := bin p emin hp he with hφ
  have hu := φ.u_nonneg
  have hη := φ.η_nonneg
  unfold mulR
  have main : ∀ c (r : Arr ℝ (m + n)), c < n + m + 1 → coef r c = 0 →
      ∃ r', (let lo := if c > n then c - n else 0
        forUp (fun j r => do
          let ri ← rd r c
          let a ← rd f j
          let b ← rd g (c - j)
          wr r c (φ.rnd (ri + φ.rnd (a * b)))) lo (min c m + 1 - lo) r) = some r' ∧
        (∀ j, j ≠ c → coef r' j = coef r j) ∧
        |coef r' c - ∑ j ∈ Finset.range (c + 1), coef f j * coef g (c - j)| ≤
          ((1 + φ.u) ^ K - 1) * ∑ j ∈ Finset.range (c + 1), |coef f j| * |coef g (c - j)| + K * φ.η * (1 + φ.u) ^ K := by
    intro c r hc hr0
    set lo := if c > n then c - n else 0 with hlo
    have hlo' : lo = c - n := by rw [hlo]; split <;> omega
    obtain ⟨r', e', h1, h2, h3⟩ := forUp_inv (lo := lo) (body := fun j r => do
        let ri ← rd r c
        let a ← rd f j
        let b ← rd g (c - j)
        wr r c (φ.rnd (ri + φ.rnd (a * b))))
      (fun k (r' : Arr ℝ (m + n)) => (∀ j, j ≠ c → coef r' j = coef r j) ∧ ((k = 0 → coef r' c = 0) ∧ coef r' c ∈ φ.F) ∧
        |coef r' c - ∑ l ∈ Finset.range k, coef f (lo + l) * coef g (c - (lo + l))| ≤
          ((1 + φ.u) ^ k - 1) * ∑ l ∈ Finset.range k, |coef f (lo + l)| * |coef g (c - (lo + l))| +
            k * φ.η * (1 + φ.u) ^ k)
      (min c m + 1 - lo) r
      ⟨fun _ _ => rfl, ⟨fun _ => hr0, by rw [hr0]; exact φ.zero⟩, by simp [hr0]⟩
      (fun k r' hk hI' => by
        obtain ⟨i1, ⟨i2, i3⟩, i4⟩ := hI'
        obtain ⟨r2, e2, h2⟩ := wr_coef r' (i := c)
          (φ.rnd (coef r' c + φ.rnd (coef f (lo + k) * coef g (c - (lo + k))))) (by omega)
        refine ⟨r2, ?_, fun j hj => ?_, ⟨fun h => absurd h (by omega), ?_⟩, ?_⟩
        · rw [rd_coef r' (show c ≤ m + n by omega), rd_coef f (show lo + k ≤ m by omega),
            rd_coef g (show c - (lo + k) ≤ n by omega)]
          exact e2
        · rw [h2, if_neg hj, i1 j hj]
        · rw [h2, if_pos rfl]; exact φ.mem _
        · rw [h2, if_pos rfl, Finset.sum_range_succ, Finset.sum_range_succ, ← abs_mul (coef f (lo + k))]
          refine mul_step ?_ (fun h0 => ⟨i2 h0, by rw [h0]; rfl⟩) ?_ i4
          · obtain ⟨j1, hj1⟩ := binF_multiple (p := p) (emin := emin) i3
            obtain ⟨j2, hj2⟩ := binF_multiple (p := p) (emin := emin) (φ.mem (coef f (lo + k) * coef g (c - (lo + k))))
            exact bin_multiple (j1 + j2) (by rw [hj1, hj2]; push_cast; ring)
          · refine (Finset.abs_sum_le_sum_abs _ _).trans (le_of_eq (Finset.sum_congr rfl fun l _ => abs_mul _ _)))
    refine ⟨r', e', h1, ?_⟩
    set k := min c m + 1 - lo with hk
    have sums : ∀ G : ℝ → ℝ, G 0 = 0 → ∑ l ∈ Finset.range k, G (coef f (lo + l)) * G (coef g (c - (lo + l))) =
        ∑ j ∈ Finset.range (c + 1), G (coef f j) * G (coef g (c - j)) := by
      intro G hG
      rw [hk, ← Finset.sum_Ico_eq_sum_range (fun a => G (coef f a) * G (coef g (c - a))) lo (min c m + 1)]
      apply Finset.sum_subset
      · intro a ha
        rw [Finset.mem_Ico] at ha
        rw [Finset.mem_range]; omega
      · intro a ha hb
        rw [Finset.mem_range] at ha
        rw [Finset.mem_Ico] at hb
        by_cases h1 : m < a
        · rw [coef_gt f h1, hG, zero_mul]
        · rw [coef_gt g (show n < c - a by omega), hG, mul_zero]
    have s1 := sums (fun y => y) rfl
    have s2 := sums abs abs_zero
    rw [s1, s2] at h3
    have hkK : k ≤ K := by omega
    have hpow : (1 + φ.u) ^ k ≤ (1 + φ.u) ^ K := pow_le_pow_right₀ (by linarith) hkK
    have hA : 0 ≤ ∑ j ∈ Finset.range (c + 1), |coef f j| * |coef g (c - j)| :=
      Finset.sum_nonneg fun _ _ => mul_nonneg (abs_nonneg _) (abs_nonneg _)
    refine h3.trans (add_le_add (mul_le_mul_of_nonneg_right (by linarith) hA) ?_)
    have hkr : (k : ℝ) ≤ K := by exact_mod_cast hkK
    exact mul_le_mul (mul_le_mul_of_nonneg_right hkr hη) hpow (by positivity) (by positivity)
  obtain ⟨r, e, h⟩ := forUp_inv (lo := 0) (body := fun i r =>
      let lo := if i > n then i - n else 0
      forUp (fun j r => do
        let ri ← rd r i
        let a ← rd f j
        let b ← rd g (i - j)
        wr r i (φ.rnd (ri + φ.rnd (a * b)))) lo (min i m + 1 - lo) r)
    (fun c (r : Arr ℝ (m + n)) => ∀ j, if j < c then
        |coef r j - ∑ l ∈ Finset.range (j + 1), coef f l * coef g (j - l)| ≤
          ((1 + φ.u) ^ K - 1) * ∑ l ∈ Finset.range (j + 1), |coef f l| * |coef g (j - l)| + K * φ.η * (1 + φ.u) ^ K
      else coef r j = 0)
    (n + m + 1) (zeros (m + n)) (fun j => by rw [if_neg (by omega), coef_zeros])
    (fun c r hc hI => by
      have h0 := hI c
      rw [if_neg (by omega)] at h0
      obtain ⟨r', e', h1, h2⟩ := main c r hc h0
      refine ⟨r', by rw [Nat.zero_add]; exact e', fun j => ?_⟩
      by_cases hj : j = c
      · subst hj; rw [if_pos (by omega)]; exact h2
      · have := hI j
        rw [h1 j hj]
        by_cases hjc : j < c
        · rw [if_pos (by omega)]; rwa [if_pos hjc] at this
        · rw [if_neg (by omega)]; rwa [if_neg hjc] at this)
  have hcoef : ∀ i ≤ m + n, |coef r i - ∑ j ∈ Finset.range (i + 1), coef f j * coef g (i - j)| ≤
        ((1 + φ.u) ^ K - 1) * ∑ j ∈ Finset.range (i + 1), |coef f j| * |coef g (i - j)| + K * φ.η * (1 + φ.u) ^ K := by
    intro i hi
    have := h i
    rwa [if_pos (by omega)] at this
  refine ⟨r, e, hcoef, fun x => ?_⟩
  have hv := value_close r _ _ hcoef x
  have prod : ∀ (f : Arr ℝ m) (g : Arr ℝ n) (x : ℝ),
      ∑ i ∈ Finset.range (m + n + 1), (∑ j ∈ Finset.range (i + 1), coef f j * coef g (i - j)) * x ^ i =
        value f x * value g x := by
    intro f g x
    obtain ⟨q, -, hq⟩ := mulPoly_spec f g
    rw [value_eq f, value_eq g, ← Polynomial.eval_mul, ← hq, ← value_eq q, value_range]
    refine Finset.sum_congr rfl fun i _ => ?_
    rw [← polyOf_coeff q, hq, Polynomial.coeff_mul, Finset.Nat.sum_antidiagonal_eq_sum_range_succ
      (fun a b => (polyOf f).coeff a * (polyOf g).coeff b)]
    simp only [polyOf_coeff]
  have pa := prod (absArr f) (absArr g) |x|
  simp only [absArr_coef] at pa
  rw [prod f g x] at hv
  refine hv.trans (le_of_eq ?_)
  simp only [add_mul, Finset.sum_add_distrib, mul_assoc, ← Finset.mul_sum]
  rw [pa]
  congr 2

end Bin

/-! ## Integers -/

/-- Whatever holds of every partial sum holds of the coefficients of the product. -/
theorem mulR_run (rnd : ℝ → ℝ) {m n : ℕ} (f : Arr ℝ m) (g : Arr ℝ n) (I : ℕ → ℕ → ℝ → Prop) (h0 : ∀ c, I c 0 0)
    (hstep : ∀ c k s, c ≤ m + n → c - n + k ≤ min c m → I c k s →
      I c (k + 1) (rnd (s + rnd (coef f (c - n + k) * coef g (c - (c - n + k)))))) :
    ∃ r, mulR rnd f g = some r ∧ ∀ c ≤ m + n, I c (min c m + 1 - (c - n)) (coef r c) := by
  unfold mulR
  obtain ⟨r, e, h⟩ := forUp_inv (lo := 0) (body := fun i r =>
      let lo := if i > n then i - n else 0
      forUp (fun j r => do
        let ri ← rd r i
        let a ← rd f j
        let b ← rd g (i - j)
        wr r i (rnd (ri + rnd (a * b)))) lo (min i m + 1 - lo) r)
    (fun c (r : Arr ℝ (m + n)) => ∀ j, if j < c then I j (min j m + 1 - (j - n)) (coef r j) else coef r j = 0)
    (n + m + 1) (zeros (m + n)) (fun j => by rw [if_neg (by omega), coef_zeros])
    (fun c r hc hI => by
      simp only [Nat.zero_add]
      have hr0 := hI c
      rw [if_neg (by omega)] at hr0
      set lo := if c > n then c - n else 0 with hlo
      have hlo' : lo = c - n := by rw [hlo]; split <;> omega
      obtain ⟨r', e', h1, h2⟩ := forUp_inv (lo := lo) (body := fun j r => do
          let ri ← rd r c
          let a ← rd f j
          let b ← rd g (c - j)
          wr r c (rnd (ri + rnd (a * b))))
        (fun k (r' : Arr ℝ (m + n)) => (∀ j, j ≠ c → coef r' j = coef r j) ∧ I c k (coef r' c))
        (min c m + 1 - lo) r ⟨fun _ _ => rfl, by rw [hr0]; exact h0 c⟩
        (fun k r' hk hI' => by
          obtain ⟨r2, e2, h2⟩ := wr_coef r' (i := c)
            (rnd (coef r' c + rnd (coef f (lo + k) * coef g (c - (lo + k))))) (by omega)
          refine ⟨r2, ?_, fun j hj => ?_, ?_⟩
          · rw [rd_coef r' (show c ≤ m + n by omega), rd_coef f (show lo + k ≤ m by omega),
              rd_coef g (show c - (lo + k) ≤ n by omega)]
            exact e2
          · rw [h2, if_neg hj, hI'.1 j hj]
          · rw [h2, if_pos rfl, hlo']
            exact hstep c k _ (by omega) (by omega) hI'.2)
      refine ⟨r', e', fun j => ?_⟩
      by_cases hj : j = c
      · subst hj; rw [if_pos (by omega)]; rw [hlo'] at h2; exact h2
      · have := hI j
        rw [h1 j hj]
        by_cases hjc : j < c
        · rw [if_pos (by omega)]; rwa [if_pos hjc] at this
        · rw [if_neg (by omega)]; rwa [if_neg hjc] at this)
  refine ⟨r, e, fun c hc => ?_⟩
  have := h c
  rwa [if_pos (by omega)] at this

/-- The same polynomial with real coefficients. -/
def toReal {n : ℕ} (a : Arr ℤ n) : Arr ℝ n := fun i => (a i : ℝ)

theorem toReal_coef {n : ℕ} (a : Arr ℤ n) (i : ℕ) : coef (toReal a) i = ((coef a i : ℤ) : ℝ) := by
  unfold coef toReal; split <;> simp

/-- **C88**: polynomials with integer coefficients are multiplied exactly as long as the products, summed without their signs, are
at most `2 ^ p` (for `double`, `p = 53`). -/
theorem C88_mul_integers {p : ℕ} {emin : ℤ} {hp : 0 < p} {he : emin ≤ 0} {m n : ℕ} (a : Arr ℤ m) (b : Arr ℤ n)
    (hsize : ∀ i ≤ m + n, ∑ j ∈ Finset.range (i + 1), |coef a j| * |coef b (i - j)| ≤ 2 ^ p) :
    ∃ r, mulR (bin p emin hp he).rnd (toReal a) (toReal b) = some r ∧
      (∀ i ≤ m + n, coef r i = ((∑ j ∈ Finset.range (i + 1), coef a j * coef b (i - j) : ℤ) : ℝ)) := by
  have hint : ∀ k : ℤ, |k| ≤ 2 ^ p → (bin p emin hp he).rnd (k : ℝ) = k := by
    intro k hk
    have : (k : ℝ) ∈ (bin p emin hp he).F := by
      have := binF_of_le hp (emin := emin) (e := 0) he hk
      rw [zpow_zero, mul_one] at this
      exact this
    exact (bin p emin hp he).rnd_of_mem this
  obtain ⟨r, e, h⟩ := mulR_run (bin p emin hp he).rnd (toReal a) (toReal b)
    (fun c k s => s = ((∑ l ∈ Finset.range k, coef a (c - n + l) * coef b (c - (c - n + l)) : ℤ) : ℝ))
    (fun c => by simp)
    (fun c k s hc hk hs => by
      have hb : ∑ l ∈ Finset.range (k + 1), |coef a (c - n + l)| * |coef b (c - (c - n + l))| ≤ 2 ^ p := by
        refine le_trans ?_ (hsize c hc)
        have := Finset.sum_Ico_eq_sum_range (fun j => |coef a j| * |coef b (c - j)|) (c - n) (c - n + (k + 1))
        rw [Nat.add_sub_cancel_left] at this
        rw [← this]
        refine Finset.sum_le_sum_of_subset_of_nonneg (fun j hj => ?_) fun _ _ _ => mul_nonneg (abs_nonneg _) (abs_nonneg _)
        rw [Finset.mem_Ico] at hj
        rw [Finset.mem_range]
        omega
      have hone : |coef a (c - n + k) * coef b (c - (c - n + k))| ≤ 2 ^ p := by
        rw [abs_mul]
        refine le_trans ?_ hb
        exact Finset.single_le_sum (f := fun l => |coef a (c - n + l)| * |coef b (c - (c - n + l))|)
          (fun _ _ => mul_nonneg (abs_nonneg _) (abs_nonneg _)) (Finset.self_mem_range_succ k)
      have hsum : |∑ l ∈ Finset.range (k + 1), coef a (c - n + l) * coef b (c - (c - n + l))| ≤ 2 ^ p :=
        ((Finset.abs_sum_le_sum_abs _ _).trans (le_of_eq (Finset.sum_congr rfl fun l _ => abs_mul _ _))).trans hb
      rw [toReal_coef, toReal_coef, ← Int.cast_mul, hint _ hone, hs, ← Int.cast_add, ← Finset.sum_range_succ
        (fun l => coef a (c - n + l) * coef b (c - (c - n + l))), hint _ hsum])
  refine ⟨r, e, fun i hi => ?_⟩
  rw [h i hi]
  congr 1
  rw [← Finset.sum_Ico_eq_sum_range (fun j => coef a j * coef b (i - j)) (i - n) (min i m + 1)]
  apply Finset.sum_subset
  · intro j hj
    rw [Finset.mem_Ico] at hj
    rw [Finset.mem_range]; omega
  · intro j hj hb
    rw [Finset.mem_range] at hj
    rw [Finset.mem_Ico] at hb
    by_cases h1 : m < j
    · rw [coef_gt a h1, zero_mul]
    · rw [coef_gt b (show n < i - j by omega), mul_zero]

/-! ## Deflation -/

/-- How far `a` is, in the coefficient of `x ^ i`, from `(x - root) * b`. -/
def residual {n : ℕ} (a : Arr ℝ (n + 1)) (root : ℝ) (b : Arr ℝ n) (i : ℕ) : ℝ :=
  coef a i - ((if i = 0 then 0 else coef b (i - 1)) - root * coef b i)

/-- The bound for a residual: three coefficients, each with about two roundings. -/
def residualBound (φ : Format) {n : ℕ} (a : Arr ℝ (n + 1)) (root : ℝ) (b : Arr ℝ n) (i : ℕ) : ℝ :=
  (2 * φ.u + φ.u ^ 2) * (|coef a i| + |root * coef b i| + |if i = 0 then 0 else coef b (i - 1)|) + (2 + φ.u + |root|) * φ.η

theorem residual_sum {n : ℕ} (a : Arr ℝ (n + 1)) (root : ℝ) (b : Arr ℝ n) (x : ℝ) :
    value a x - (x - root) * value b x = ∑ i ∈ Finset.range (n + 2), residual a root b i * x ^ i := by
  have h1 : ∑ i ∈ Finset.range (n + 2), (if i = 0 then 0 else coef b (i - 1)) * x ^ i = x * value b x := by
    rw [Finset.sum_range_succ', value_range, Finset.mul_sum]
    simp only [if_true, zero_mul, add_zero]
    refine Finset.sum_congr rfl fun i _ => ?_
    rw [if_neg (by omega), Nat.add_sub_cancel]
    ring
  have h2 : ∑ i ∈ Finset.range (n + 2), root * coef b i * x ^ i = root * value b x := by
    rw [Finset.sum_range_succ, coef_gt b (by omega), mul_zero, zero_mul, add_zero, value_range, Finset.mul_sum]
    exact Finset.sum_congr rfl fun i _ => by ring
  have h3 : ∑ i ∈ Finset.range (n + 2), residual a root b i * x ^ i =
      ∑ i ∈ Finset.range (n + 2), coef a i * x ^ i -
        (∑ i ∈ Finset.range (n + 2), (if i = 0 then 0 else coef b (i - 1)) * x ^ i -
          ∑ i ∈ Finset.range (n + 2), root * coef b i * x ^ i) := by
    rw [← Finset.sum_sub_distrib, ← Finset.sum_sub_distrib]
    exact Finset.sum_congr rfl fun i _ => by unfold residual; ring
  rw [h3, h1, h2, value_range a]
  ring

/-- The coefficient of `x ^ i` has been dealt with. -/
def Settled (φ : Format) {n : ℕ} (a : Arr ℝ (n + 1)) (root : ℝ) (b : Arr ℝ n) (i : ℕ) : Prop :=
  |residual a root b i| ≤ residualBound φ a root b i

theorem Settled.congr {φ : Format} {n : ℕ} {a : Arr ℝ (n + 1)} {root : ℝ} {b b' : Arr ℝ n} {i : ℕ} (h : Settled φ a root b i)
    (h1 : coef b' i = coef b i) (h2 : i ≠ 0 → coef b' (i - 1) = coef b (i - 1)) : Settled φ a root b' i := by
  unfold Settled residual residualBound at *
  rw [h1]
  by_cases hi : i = 0
  · simp only [hi, if_true] at *; exact h
  · simp only [if_neg hi] at *; rw [h2 hi]; exact h

theorem settled_bottom (φ : Format) {a bp root : ℝ} (hr : root ≠ 0) :
    |a - (bp - root * φ.rnd (φ.rnd (bp - a) / root))| ≤
      (2 * φ.u + φ.u ^ 2) * (|a| + |root * φ.rnd (φ.rnd (bp - a) / root)| + |bp|) + (2 + φ.u + |root|) * φ.η := by
  have hu := φ.u_nonneg
  have hη := φ.η_nonneg
  have h1 := φ.error (bp - a)
  have h2 := φ.error (φ.rnd (bp - a) / root)
  generalize φ.rnd (φ.rnd (bp - a) / root) = B at *
  generalize φ.rnd (bp - a) = d at *
  have hr' := abs_nonneg root
  have h3 : |root * B - d| ≤ φ.u * |d| + |root| * φ.η := by
    have := mul_le_mul_of_nonneg_left h2 hr'
    rw [← abs_mul, mul_sub, mul_div_cancel₀ _ hr, mul_add, abs_div] at this
    have e : |root| * (φ.u * (|d| / |root|)) = φ.u * |d| := by
      have : |root| ≠ 0 := abs_ne_zero.2 hr
      field_simp
    rw [e] at this
    exact this
  have hD : |bp - a| ≤ |bp| + |a| := abs_sub _ _
  have hd : |d| ≤ (1 + φ.u) * (|bp| + |a|) + φ.η := by
    have : |d| ≤ |d - (bp - a)| + |bp - a| := by
      have := abs_add_le (d - (bp - a)) (bp - a)
      rwa [sub_add_cancel] at this
    have := mul_le_mul_of_nonneg_left hD hu
    linarith
  have h4 : |a - (bp - root * B)| ≤ |root * B - d| + |d - (bp - a)| := by
    rw [show a - (bp - root * B) = (root * B - d) + (d - (bp - a)) by ring]
    exact abs_add_le _ _
  have h5 := mul_le_mul_of_nonneg_left hd hu
  have h6 := mul_le_mul_of_nonneg_left hD hu
  have h7 : 0 ≤ (2 * φ.u + φ.u ^ 2) * |root * B| := by positivity
  nlinarith

theorem settled_top (φ : Format) {a b root : ℝ} :
    |a - (φ.rnd (a + φ.rnd (root * b)) - root * b)| ≤
      (2 * φ.u + φ.u ^ 2) * (|a| + |root * b| + |φ.rnd (a + φ.rnd (root * b))|) + (2 + φ.u + |root|) * φ.η := by
  have hu := φ.u_nonneg
  have hη := φ.η_nonneg
  have h1 := φ.error (root * b)
  have h2 := φ.error (a + φ.rnd (root * b))
  generalize φ.rnd (a + φ.rnd (root * b)) = B at *
  generalize φ.rnd (root * b) = d at *
  generalize root * b = t at *
  have h3 : |d| ≤ |d - t| + |t| := by
    have := abs_add_le (d - t) t
    rwa [sub_add_cancel] at this
  have h4 : |a + d| ≤ |a| + |d| := abs_add_le _ _
  have h5 : |a - (B - t)| ≤ |B - (a + d)| + |d - t| := by
    rw [show a - (B - t) = -((B - (a + d)) + (d - t)) by ring, abs_neg]
    exact abs_add_le _ _
  have h6 := mul_le_mul_of_nonneg_left h4 hu
  have h7 := mul_le_mul_of_nonneg_left h3 hu
  have h8 := mul_le_mul_of_nonneg_left h1 hu
  have h9 : 0 ≤ (2 * φ.u + φ.u ^ 2) * |B| := by positivity
  have h10 : 0 ≤ (φ.u + φ.u ^ 2) * |a| := by positivity
  have h11 : 0 ≤ |root| * φ.η := by positivity
  nlinarith

theorem deflateLoopR_run (φ : Format) {S : ℕ} (sp : ℝ → ℝ → ℕ) {n : ℕ} (hn : n < S) (a : Arr ℝ (n + 1)) (root : ℝ) (hr : root ≠ 0) :
    ∀ (fuel it ib : ℕ) (b : Arr ℝ n), it + 1 ≤ fuel + ib → 0 < ib → ib ≤ it + 1 → it < n →
      (∀ i, i ≤ n + 1 → i < ib ∨ it + 1 < i → Settled φ a root b i) →
      ∃ b' m, deflateLoopR φ.rnd S sp a root fuel it ib b = some b' ∧ 0 < m ∧ m ≤ n ∧
        ∀ i, i ≤ n + 1 → i ≠ m → Settled φ a root b' i
  | 0, it, ib, b, h1, h2, h3, h4, hI => by
    rw [deflateLoopR, if_neg (by omega)]
    exact ⟨b, ib, rfl, h2, by omega, fun i hi hne => hI i hi (by omega)⟩
  | fuel + 1, it, ib, b, h1, h2, h3, h4, hI => by
    rw [deflateLoopR]
    by_cases hlt : it ≥ ib
    · rw [if_pos hlt, Nat.mod_eq_of_lt (show it + 1 < S by omega),
        rd_coef b (show it + 1 ≤ n by omega), rd_coef b (show ib ≤ n by omega),
        rd_coef a (show ib ≤ n + 1 by omega), rd_coef a (show it + 1 ≤ n + 1 by omega)]
      simp only [Option.bind_eq_bind, Option.bind_some]
      split
      · rw [rd_coef b (show ib - 1 ≤ n by omega), Option.bind_some]
        obtain ⟨b2, e2, hb2⟩ := wr_coef b (i := ib) (φ.rnd (φ.rnd (coef b (ib - 1) - coef a ib) / root)) (by omega)
        rw [e2, Option.bind_some]
        refine deflateLoopR_run φ sp hn a root hr fuel it (ib + 1) b2 (by omega) (by omega) (by omega) h4
          (fun i hi hii => ?_)
        by_cases h : i = ib
        · subst h
          unfold Settled residual residualBound
          rw [if_neg (by omega), show coef b2 (i - 1) = coef b (i - 1) by rw [hb2, if_neg (by omega)],
            show coef b2 i = φ.rnd (φ.rnd (coef b (i - 1) - coef a i) / root) by rw [hb2, if_pos rfl]]
          exact settled_bottom φ hr
        · exact (hI i hi (by omega)).congr (by rw [hb2, if_neg h]) (fun h0 => by rw [hb2, if_neg (by omega)])
      · obtain ⟨b2, e2, hb2⟩ := wr_coef b (i := it) (φ.rnd (coef a (it + 1) + φ.rnd (root * coef b (it + 1)))) (by omega)
        rw [e2, Option.bind_some]
        refine deflateLoopR_run φ sp hn a root hr fuel (it - 1) ib b2 (by omega) (by omega) (by omega) (by omega)
          (fun i hi hii => ?_)
        by_cases h : i = it + 1
        · subst h
          unfold Settled residual residualBound
          rw [if_neg (by omega), Nat.add_sub_cancel, show coef b2 (it + 1) = coef b (it + 1) by rw [hb2, if_neg (by omega)],
            show coef b2 it = φ.rnd (coef a (it + 1) + φ.rnd (root * coef b (it + 1))) by rw [hb2, if_pos rfl]]
          exact settled_top φ
        · exact (hI i hi (by omega)).congr (by rw [hb2, if_neg (by omega)]) (fun h0 => by rw [hb2, if_neg (by omega)])
    · rw [if_neg hlt]
      exact ⟨b, ib, rfl, h2, by omega, fun i hi hne => hI i hi (by omega)⟩

/-- **C88**: deflation in rounded arithmetic. Whatever the coefficients and the root given, the result times `x - root` agrees with
the polynomial up to the stated bounds in every coefficient but one, where the two recurrences met; there, the difference is
governed by the value of the polynomial at the root given. -/
theorem C88_deflate (φ : Format) {S : ℕ} (sp : ℝ → ℝ → ℕ) {n : ℕ} (hn : n < S) (h0 : 0 < n) (a : Arr ℝ (n + 1)) (root : ℝ)
    (hr : root ≠ 0) :
    ∃ b m, deflateR φ.rnd S sp a root = some b ∧ 0 < m ∧ m ≤ n ∧
      (∀ i, i ≤ n + 1 → i ≠ m → |residual a root b i| ≤ residualBound φ a root b i) ∧
      |residual a root b m| * |root| ^ m ≤
        |value a root| + ∑ i ∈ (Finset.range (n + 2)).erase m, residualBound φ a root b i * |root| ^ i := by
  have start : ∃ b m, deflateR φ.rnd S sp a root = some b ∧ 0 < m ∧ m ≤ n ∧
      ∀ i, i ≤ n + 1 → i ≠ m → Settled φ a root b i := by
    unfold deflateR
    rw [if_neg hr, rd_coef a (le_refl (n + 1)), rd_coef a (Nat.zero_le (n + 1))]
    simp only [Option.bind_eq_bind, Option.bind_some]
    obtain ⟨b1, e1, h1⟩ := wr_coef (zeros n : Arr ℝ n) (i := n) (coef a (n + 1)) (le_refl _)
    obtain ⟨b2, e2, h2⟩ := wr_coef b1 (i := 0) (φ.rnd (-coef a 0 / root)) (by omega)
    have hmod : (n + S - 1) % S = n - 1 := by
      rw [show n + S - 1 = (n - 1) + S by omega, Nat.add_mod_right, Nat.mod_eq_of_lt (by omega)]
    rw [e1, Option.bind_some, e2, Option.bind_some, hmod]
    have hu := φ.u_nonneg
    have hη := φ.η_nonneg
    refine deflateLoopR_run φ sp hn a root hr (n + 1) (n - 1) 1 b2 (by omega) (by omega) (by omega) (by omega)
      (fun i hi hii => ?_)
    rcases (show i = 0 ∨ i = n + 1 by omega) with rfl | rfl
    · unfold Settled residual residualBound
      rw [if_pos rfl, h2, if_pos rfl]
      have h3 := φ.error (-coef a 0 / root)
      generalize φ.rnd (-coef a 0 / root) = B at *
      have h4 : |coef a 0 + root * B| ≤ φ.u * |coef a 0| + |root| * φ.η := by
        have := mul_le_mul_of_nonneg_left h3 (abs_nonneg root)
        rw [← abs_mul, mul_sub, mul_div_cancel₀ _ hr, mul_add, abs_div, abs_neg] at this
        have e : |root| * (φ.u * (|coef a 0| / |root|)) = φ.u * |coef a 0| := by
          have : |root| ≠ 0 := abs_ne_zero.2 hr
          field_simp
        rw [e] at this
        rw [show coef a 0 + root * B = root * B - -coef a 0 by ring]
        exact this
      rw [abs_zero, show coef a 0 - (0 - root * B) = coef a 0 + root * B by ring]
      have h5 : 0 ≤ (2 * φ.u + φ.u ^ 2) * |root * B| := by positivity
      have h6 : 0 ≤ (φ.u + φ.u ^ 2) * |coef a 0| := by positivity
      have h7 : 0 ≤ (2 + φ.u) * φ.η := by positivity
      nlinarith
    · unfold Settled residual
      rw [if_neg (by omega), Nat.add_sub_cancel, coef_gt b2 (show n < n + 1 by omega),
        show coef b2 n = coef a (n + 1) by rw [h2, if_neg (by omega), h1, if_pos rfl], mul_zero, sub_zero, sub_self, abs_zero]
      unfold residualBound
      positivity
  obtain ⟨b, m, e, hm0, hm, hset⟩ := start
  refine ⟨b, m, e, hm0, hm, hset, ?_⟩
  have hs := residual_sum a root b root
  rw [sub_self, zero_mul, sub_zero, ← Finset.add_sum_erase _ _ (show m ∈ Finset.range (n + 2) by simp; omega)] at hs
  have : residual a root b m * root ^ m = value a root - ∑ i ∈ (Finset.range (n + 2)).erase m, residual a root b i * root ^ i := by
    rw [hs]; ring
  rw [← abs_pow, ← abs_mul, this]
  refine (abs_sub _ _).trans (add_le_add le_rfl ((Finset.abs_sum_le_sum_abs _ _).trans (Finset.sum_le_sum fun i hi => ?_)))
  rw [abs_mul, abs_pow]
  rw [Finset.mem_erase, Finset.mem_range] at hi
  exact mul_le_mul_of_nonneg_right (hset i (by omega) hi.1) (by positivity)

/-- **C88**: what this says of the values: the polynomial differs from `(x - root)` times the result by the rounding errors and by the
value of the polynomial at the root given, scaled by `(x / root) ^ m`. -/
theorem C88_deflate_value (φ : Format) {S : ℕ} (sp : ℝ → ℝ → ℕ) {n : ℕ} (hn : n < S) (h0 : 0 < n) (a : Arr ℝ (n + 1)) (root : ℝ)
    (hr : root ≠ 0) :
    ∃ b m, deflateR φ.rnd S sp a root = some b ∧ 0 < m ∧ m ≤ n ∧
      ∀ x, |value a x - (x - root) * value b x| ≤
        |x / root| ^ m * |value a root| + ∑ i ∈ (Finset.range (n + 2)).erase m,
          residualBound φ a root b i * (|x| ^ i + |x / root| ^ m * |root| ^ i) := by
  obtain ⟨b, m, e, hm0, hm, h1, h2⟩ := C88_deflate φ sp hn h0 a root hr
  refine ⟨b, m, e, hm0, hm, fun x => ?_⟩
  rw [residual_sum, ← Finset.add_sum_erase _ _ (show m ∈ Finset.range (n + 2) by simp; omega)]
  have hroot : 0 < |root| := abs_pos.2 hr
  have h3 : |residual a root b m * x ^ m| ≤ |x / root| ^ m * (|value a root| +
      ∑ i ∈ (Finset.range (n + 2)).erase m, residualBound φ a root b i * |root| ^ i) := by
    have := mul_le_mul_of_nonneg_left h2 (by positivity : 0 ≤ |x / root| ^ m)
    refine le_trans (le_of_eq ?_) this
    rw [abs_mul, abs_pow, abs_div, div_pow]
    field_simp
  refine (abs_add_le _ _).trans ((add_le_add h3 ((Finset.abs_sum_le_sum_abs _ _).trans (Finset.sum_le_sum
    (g := fun i => residualBound φ a root b i * |x| ^ i) fun i hi => ?_))).trans (le_of_eq ?_))
  · rw [abs_mul, abs_pow]
    rw [Finset.mem_erase, Finset.mem_range] at hi
    exact mul_le_mul_of_nonneg_right (h1 i (by omega) hi.1) (by positivity)
  · rw [mul_add, add_assoc]
    congr 1
    rw [Finset.mul_sum, ← Finset.sum_add_distrib]
    exact Finset.sum_congr rfl fun i _ => by ring

/-- **C88**: with a root of zero, no arithmetic is done; only the constant coefficient is dropped. -/
theorem C88_deflate_zero (rnd : ℝ → ℝ) (S : ℕ) (sp : ℝ → ℝ → ℕ) {n : ℕ} (a : Arr ℝ (n + 1)) :
    ∃ b, deflateR rnd S sp a 0 = some b ∧ ∀ x, value a x = x * value b x + coef a 0 := by
  unfold deflateR
  rw [if_pos rfl]
  unfold deflateZero
  obtain ⟨b, e, h⟩ := forUp_fill (m := n) (lo := 0) (s := 0) (cnt := n + 1)
    (body := fun i b => do let c ← rd a (1 + i); wr b i c) (fun i => coef a (1 + i))
    (fun i b _ hi => by simp [rd_coef a (show 1 + i ≤ n + 1 by omega)]) (by omega) (zeros n)
  refine ⟨b, e, fun x => ?_⟩
  rw [value_range, value_range, Finset.sum_range_succ', Finset.mul_sum, pow_zero, mul_one]
  congr 1
  refine Finset.sum_congr rfl fun i hi => ?_
  rw [Finset.mem_range] at hi
  rw [h, if_pos (by omega), Nat.sub_zero, Nat.add_comm 1 i]
  ring

/-! ## Cases that meet the hypotheses -/

/-- `1 + 2x` and `2 + 2x + x²` have representable coefficients. -/
theorem one_two_mem : ∀ i, (![1, 2] : Arr ℝ 1) i ∈ binary64.F := by
  intro i; fin_cases i
  · exact binary64.one
  · exact binary64.two

theorem two_two_one_mem : ∀ i, (![2, 2, 1] : Arr ℝ 2) i ∈ binary64.F := by
  intro i; fin_cases i
  · exact binary64.two
  · exact binary64.two
  · exact binary64.one

example : ∃ r, addR binary64.rnd (![1, 2] : Arr ℝ 1) (![2, 2, 1] : Arr ℝ 2) = some r ∧ coef r 2 = 1 := by
  obtain ⟨r, h, -, h2, -⟩ := C88_add (![1, 2] : Arr ℝ 1) (![2, 2, 1] : Arr ℝ 2) one_two_mem two_two_one_mem
  exact ⟨r, h, by rw [h2 2 (by decide) (by decide)]; simp [coef]⟩

example : ∃ r, subR binary64.rnd (![1, 2] : Arr ℝ 1) (![2, 2, 1] : Arr ℝ 2) = some r ∧ coef r 2 = -1 := by
  obtain ⟨r, h, -, h2, -⟩ := C88_sub (![1, 2] : Arr ℝ 1) (![2, 2, 1] : Arr ℝ 2) one_two_mem two_two_one_mem
  exact ⟨r, h, by rw [h2 2 (by decide) (by decide)]; simp [coef]⟩

example : ∃ r, derivR binary64.rnd (![2, 2, 1] : Arr ℝ 2) = some r ∧ |coef r 1 - 2| ≤ binary64.u * 2 := by
  obtain ⟨r, h, h2, -⟩ := C88_derivative (![2, 2, 1] : Arr ℝ 2) two_two_one_mem
  refine ⟨r, h, ?_⟩
  have := h2 1 (by decide)
  rw [show coef (![2, 2, 1] : Arr ℝ 2) (1 + 1) = 1 by simp [coef]] at this
  norm_num at this
  exact this

/-- A product needs nothing of its coefficients. -/
example (m n : ℕ) (f : Arr ℝ m) (g : Arr ℝ n) : ∃ r, mulR binary64.rnd f g = some r :=
  let ⟨r, h, _⟩ := C88_mul f g _ rfl; ⟨r, h⟩

/-- `(1 + 2x)(3 - x)` in `double`: exactly `3 + 5x - 2x²`. -/
example : ∃ r, mulR binary64.rnd (toReal (![1, 2] : Arr ℤ 1)) (toReal (![3, -1] : Arr ℤ 1)) = some r ∧
    coef r 0 = 3 ∧ coef r 1 = 5 ∧ coef r 2 = -2 := by
  obtain ⟨r, h, h2⟩ := C88_mul_integers (p := 53) (emin := -1074) (hp := by norm_num) (he := by norm_num)
    (![1, 2] : Arr ℤ 1) (![3, -1] : Arr ℤ 1) (by decide)
  refine ⟨r, h, ?_, ?_, ?_⟩
  · rw [h2 0 (by decide)]; norm_cast
  · rw [h2 1 (by decide)]; norm_cast
  · rw [h2 2 (by decide)]; norm_cast

/-- Deflating `2 - 3x + x²` by 1. -/
example (sp : ℝ → ℝ → ℕ) : ∃ b m, deflateR binary64.rnd (2 ^ 64) sp (![2, -3, 1] : Arr ℝ 2) 1 = some b ∧ 0 < m ∧ m ≤ 1 ∧
    ∀ x, |value (![2, -3, 1] : Arr ℝ 2) x - (x - 1) * value b x| ≤
      |x / 1| ^ m * |value (![2, -3, 1] : Arr ℝ 2) 1| + ∑ i ∈ (Finset.range 3).erase m,
        residualBound binary64 ![2, -3, 1] 1 b i * (|x| ^ i + |x / 1| ^ m * |1| ^ i) :=
  C88_deflate_value binary64 sp (by norm_num) (by norm_num) _ 1 one_ne_zero

example : ∃ b, deflateR binary64.rnd (2 ^ 64) (fun _ _ => 0) (![2, -3, 1] : Arr ℝ 2) 0 = some b ∧
    ∀ x, value (![2, -3, 1] : Arr ℝ 2) x = x * value b x + 2 :=
  C88_deflate_zero _ _ _ _

end Stator.Fp
