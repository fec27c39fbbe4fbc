import Verif.Poly.OpsLemmas2
import Mathlib.Analysis.Polynomial.Basic
import Mathlib.Analysis.Calculus.Deriv.Polynomial
import Mathlib.Tactic.NormNum
import Mathlib.Algebra.BigOperators.Field

/-!
# Properties C19–C26 and C33: arithmetic of `sym::Polynomial`

`value f x = ∑ fᵢ xⁱ` and `polyOf f = ∑ fᵢ Xⁱ` (Verif/Poly/Mem.lean) are the specification; every
`∃ r, op … = some r ∧ …` also says that the operation never leaves its arrays.
-/

namespace Stator.Pol

open Polynomial Filter

variable {K : Type*}

/-! ## C19 -/

/-- **C19**: numeric evaluation is `∑ fᵢ xⁱ`. -/
theorem C19_eval [CommRing K] {n : ℕ} (f : Arr K n) (x : K) :
    horner f x = some (∑ i : Fin (n + 1), f i * x ^ (i : ℕ)) := by
  rw [horner_spec, ← value_eq]; rfl

/-- **C19**: the symbolic (template-recursive) evaluation gives the same value. -/
theorem C19_eval_symbolic [CommRing K] {n : ℕ} (f : Arr K n) (x : K) :
    polySubWorker f x n = some (∑ i : Fin (n + 1), f i * x ^ (i : ℕ)) := by
  rw [polySubWorker_spec f x n (le_refl n), Nat.sub_self, hp_zero]
  have := value_eq f x
  rw [value] at this
  rw [this]; rfl

/-- **C19**: substituting the compile-time `Null` returns `f[0]`, which is the value at 0
(stator/symbolic/polynomial.hpp:207-211). -/
theorem C19_null [CommRing K] {n : ℕ} (f : Arr K n) : rd f 0 = horner f 0 := by
  rw [horner_spec, rd_coef f (Nat.zero_le n), ← coeff_zero_eq_eval_zero, polyOf_coeff]

example : horner (![1, 2, 3] : Arr ℚ 2) 2 = some 17 := by
  rw [C19_eval]; simp [Fin.sum_univ_succ]; norm_num

/-! ## C20: evaluation at infinity -/

/-- `e` is the limit of `p` along `l`. -/
def IsLimitAt (p : ℝ → ℝ) (l : Filter ℝ) : Ext ℝ → Prop
  | .fin v => Tendsto p l (nhds v)
  | .inf false => Tendsto p l atTop
  | .inf true => Tendsto p l atBot

theorem hornerInf_spec {n : ℕ} (f : Arr ℝ n) (neg : Bool) :
    ∀ i, i ≤ n → (∀ j, i < j → coef f j = 0) →
      hornerInf f neg i = some (if (polyOf f).natDegree = 0 then .fin (coef f 0)
        else .inf (xor (decide ((polyOf f).leadingCoeff < 0)) (decide (n % 2 = 1) && neg)))
  | 0, _, hz => by
    have : (polyOf f).natDegree = 0 := by
      apply Nat.eq_zero_of_le_zero
      rw [natDegree_le_iff_coeff_eq_zero]
      intro j hj; rw [polyOf_coeff, hz j hj]
    rw [if_pos this, hornerInf, rd_coef f (Nat.zero_le n)]; rfl
  | i + 1, hi, hz => by
    rw [hornerInf, rd_coef f hi]
    simp only [Option.bind_eq_bind, Option.bind_some]
    by_cases hc : coef f (i + 1) = 0
    · rw [if_neg (by simpa using hc)]
      exact hornerInf_spec f neg i (by omega) (fun j hj => by
        by_cases h : j = i + 1
        · rw [h, hc]
        · exact hz j (by omega))
    · have hd : (polyOf f).natDegree = i + 1 := by
        apply le_antisymm
        · rw [natDegree_le_iff_coeff_eq_zero]
          intro j hj; rw [polyOf_coeff, hz j hj]
        · exact le_natDegree_of_ne_zero (by rwa [polyOf_coeff])
      rw [if_pos hc, leadingCoeff, hd, if_neg (Nat.succ_ne_zero i), polyOf_coeff]
      by_cases h2 : n % 2 = 1 <;> simp [h2]

theorem evalInf_spec {n : ℕ} (f : Arr ℝ n) (neg : Bool) :
    evalInf f neg = some (if (polyOf f).natDegree = 0 then .fin (coef f 0)
        else .inf (xor (decide ((polyOf f).leadingCoeff < 0)) (decide (n % 2 = 1) && neg))) :=
  hornerInf_spec f neg n (le_refl n) fun _ hj => coef_gt f hj

theorem value_const {n : ℕ} {f : Arr ℝ n} (h : (polyOf f).natDegree = 0) :
    value f = fun _ => coef f 0 := by
  funext x
  rw [value_eq, eq_C_of_natDegree_eq_zero h, eval_C, polyOf_coeff]

/-- **C20** at `+∞`: the result is the limit of the polynomial. -/
theorem C20_pos_infinity {n : ℕ} (f : Arr ℝ n) :
    ∃ e, evalInf f false = some e ∧ IsLimitAt (value f) atTop e := by
  refine ⟨_, evalInf_spec f false, ?_⟩
  split
  · next h =>
    rw [value_const h]
    exact tendsto_const_nhds
  · next h =>
    have hv : value f = fun x => (polyOf f).eval x := funext (value_eq f)
    have hdeg : 0 < (polyOf f).degree := natDegree_pos_iff_degree_pos.1 (by omega)
    simp only [Bool.and_false, Bool.xor_false]
    by_cases hl : (polyOf f).leadingCoeff < 0
    · rw [decide_eq_true hl, IsLimitAt, hv]
      exact tendsto_atBot_of_leadingCoeff_nonpos _ hdeg hl.le
    · rw [decide_eq_false hl, IsLimitAt, hv]
      exact tendsto_atTop_of_leadingCoeff_nonneg _ hdeg (not_lt.1 hl)

theorem limit_atBot {p : ℝ[X]} (hd : 0 < p.natDegree) :
    IsLimitAt (fun x => p.eval x) atBot
      (.inf (xor (decide (p.leadingCoeff < 0)) (decide (p.natDegree % 2 = 1)))) := by
  have hq : ∀ x, p.eval x = (p.comp (-X)).eval (-x) := by intro x; simp
  have hdq : 0 < (p.comp (-X)).degree := by
    rw [degree_comp_neg_X]; exact natDegree_pos_iff_degree_pos.1 hd
  have hlq := comp_neg_X_leadingCoeff_eq p
  have hl0 : p.leadingCoeff ≠ 0 := leadingCoeff_ne_zero.2 (fun h => by simp [h] at hd)
  have top : (p.comp (-X)).leadingCoeff ≥ 0 → Tendsto (fun x => p.eval x) atBot atTop := by
    intro h
    have := (tendsto_atTop_of_leadingCoeff_nonneg _ hdq h).comp tendsto_neg_atBot_atTop
    exact this.congr fun x => (hq x).symm
  have bot : (p.comp (-X)).leadingCoeff ≤ 0 → Tendsto (fun x => p.eval x) atBot atBot := by
    intro h
    have := (tendsto_atBot_of_leadingCoeff_nonpos _ hdq h).comp tendsto_neg_atBot_atTop
    exact this.congr fun x => (hq x).symm
  rw [hlq] at top bot
  by_cases ho : p.natDegree % 2 = 1
  · rw [(Nat.odd_iff.2 ho).neg_one_pow] at top bot
    by_cases hl : p.leadingCoeff < 0
    · simp only [hl, ho, decide_true, Bool.xor_true, Bool.not_true, IsLimitAt]
      exact top (by linarith)
    · simp only [hl, ho, decide_true, decide_false, Bool.xor_true, Bool.not_false, IsLimitAt]
      exact bot (by linarith)
  · rw [(Nat.even_iff.2 (by omega)).neg_one_pow] at top bot
    by_cases hl : p.leadingCoeff < 0
    · simp only [hl, ho, decide_true, decide_false, Bool.xor_false, IsLimitAt]
      exact bot (by linarith)
    · simp only [hl, ho, decide_false, Bool.xor_false, IsLimitAt]
      exact top (by linarith)

theorem limit_unique {p : ℝ → ℝ} {l : Filter ℝ} [l.NeBot] {b c : Bool} (hb : IsLimitAt p l (.inf b))
    (hc : IsLimitAt p l (.inf c)) : b = c := by
  have no : ¬ (Tendsto p l atTop ∧ Tendsto p l atBot) := by
    rintro ⟨h1, h2⟩
    have e1 := h1.eventually (eventually_gt_atTop 0)
    have e2 := h2.eventually (eventually_lt_atBot 0)
    obtain ⟨x, hx⟩ := (e1.and e2).exists
    linarith [hx.1, hx.2]
  cases b <;> cases c <;> simp only [IsLimitAt] at hb hc
  · rfl
  · exact absurd ⟨hb, hc⟩ no
  · exact absurd ⟨hc, hb⟩ no
  · rfl

/-- **C20** at `-∞`: the result is the limit exactly when the polynomial is constant or its true
degree has the parity of the template parameter `Order` (the code tests `Order % 2`, not `i % 2`). -/
theorem C20_neg_infinity {n : ℕ} (f : Arr ℝ n) :
    ∃ e, evalInf f true = some e ∧ (IsLimitAt (value f) atBot e ↔
      (polyOf f).natDegree = 0 ∨ (polyOf f).natDegree % 2 = n % 2) := by
  refine ⟨_, evalInf_spec f true, ?_⟩
  by_cases h : (polyOf f).natDegree = 0
  · rw [if_pos h, value_const h]
    exact ⟨fun _ => .inl h, fun _ => tendsto_const_nhds⟩
  · rw [if_neg h]
    have hv : value f = fun x => (polyOf f).eval x := funext (value_eq f)
    have hl := limit_atBot (p := polyOf f) (by omega)
    rw [hv]
    constructor
    · intro hl'
      right
      have := limit_unique hl hl'
      simp only [Bool.and_true, Bool.bne_right_inj, decide_eq_decide] at this
      omega
    · rintro (h' | h')
      · exact absurd h' h
      · rw [h'] at hl
        simpa using hl

/-- **C20** fails: a polynomial of order 2 with zero leading coefficient, `x`, gives `+∞` at `-∞`. -/
theorem C20_neg_infinity_fails :
    evalInf (![0, 1, 0] : Arr ℝ 2) true = some (.inf false) ∧
      Tendsto (value (![0, 1, 0] : Arr ℝ 2)) atBot atBot := by
  constructor
  · simp [evalInf, hornerInf, rd]
  · have : value (![0, 1, 0] : Arr ℝ 2) = id := by
      funext x; simp [value, Fin.sum_univ_succ]
    rw [this]; exact tendsto_id

/-! ## C21 -/

/-- **C21**: entry `j` of `eval_derivatives<D>(f, x)` is the `j`-th derivative at `x`. -/
theorem C21_eval_derivatives [CommRing K] {n : ℕ} (D : ℕ) (f : Arr K n) (x : K) :
    ∃ r, evalDerivatives D f x = some r ∧
      ∀ j : Fin (D + 1), r j = (derivative^[(j : ℕ)] (polyOf f)).eval x := by
  obtain ⟨r, e, h⟩ := evalDerivatives_spec D f x
  exact ⟨r, e, fun j => by rw [← coef_fin r, h j (by omega)]⟩

/-- **C21**, for the reals, in terms of calculus. -/
theorem C21_calculus {n : ℕ} (D : ℕ) (f : Arr ℝ n) (x : ℝ) :
    ∃ r, evalDerivatives D f x = some r ∧
      ∀ j : Fin (D + 1), r j = (deriv^[(j : ℕ)] (value f)) x := by
  obtain ⟨r, e, h⟩ := C21_eval_derivatives D f x
  refine ⟨r, e, fun j => ?_⟩
  rw [h j]
  have : ∀ k : ℕ, deriv^[k] (value f) = fun x => (derivative^[k] (polyOf f)).eval x := by
    intro k
    induction k with
    | zero => funext x; exact value_eq f x
    | succ k ih =>
      rw [Function.iterate_succ_apply', ih, Function.iterate_succ_apply']
      funext y; simp
  rw [this]

/-! ## C22: ring operations -/

/-- **C22**: sum. -/
theorem C22_add [CommRing K] {n m : ℕ} (f : Arr K n) (g : Arr K m) :
    ∃ r, addOp (· + ·) f g = some r ∧ ∀ x, value r x = value f x + value g x := by
  obtain ⟨r, e, h⟩ := add_spec (· + ·) f g
  refine ⟨r, e, fun x => ?_⟩
  have : polyOf r = polyOf f + polyOf g := polyOf_eq fun i => by
    rw [coeff_add, polyOf_coeff, polyOf_coeff]
    by_cases hi : i ≤ max m n
    · exact h i hi
    · rw [coef_gt r (by omega), coef_gt f (by omega), coef_gt g (by omega), add_zero]
  rw [value_eq, value_eq, value_eq, this, eval_add]

/-- **C22**: difference. -/
theorem C22_sub [CommRing K] {n m : ℕ} (f : Arr K n) (g : Arr K m) :
    ∃ r, addOp (· - ·) f g = some r ∧ ∀ x, value r x = value f x - value g x := by
  obtain ⟨r, e, h⟩ := add_spec (· - ·) f g
  refine ⟨r, e, fun x => ?_⟩
  have : polyOf r = polyOf f - polyOf g := polyOf_eq fun i => by
    rw [coeff_sub, polyOf_coeff, polyOf_coeff]
    by_cases hi : i ≤ max m n
    · exact h i hi
    · rw [coef_gt r (by omega), coef_gt f (by omega), coef_gt g (by omega), sub_zero]
  rw [value_eq, value_eq, value_eq, this, eval_sub]

/-- **C22**: negation. -/
theorem C22_neg [CommRing K] {n : ℕ} (f : Arr K n) :
    ∃ r, neg f = some r ∧ ∀ x, value r x = -value f x := by
  obtain ⟨r, e, h⟩ := neg_spec f
  exact ⟨r, e, fun x => by rw [value_eq, value_eq, h, eval_neg]⟩

/-- **C22**: product. -/
theorem C22_mul [CommRing K] {m n : ℕ} (f : Arr K m) (g : Arr K n) :
    ∃ r, mulPoly f g = some r ∧ ∀ x, value r x = value f x * value g x := by
  obtain ⟨r, e, h⟩ := mulPoly_spec f g
  exact ⟨r, e, fun x => by rw [value_eq, value_eq, value_eq, h, eval_mul]⟩

/-- **C22**: quotient by a constant polynomial. -/
theorem C22_div_const [Field K] {m : ℕ} (f : Arr K m) (g : Arr K 0) :
    ∃ r, divConst f g = some r ∧ ∀ x, value r x = value f x / g 0 := by
  obtain ⟨r, e, h⟩ := divConst_spec f g
  refine ⟨r, e, fun x => ?_⟩
  rw [value, value, Finset.sum_div]
  apply Finset.sum_congr rfl
  intro i _
  rw [← coef_fin r, h, coef_fin, ← coef_fin g 0]
  simp only [Fin.val_zero]
  ring

/-- **C22**: product with the variable. -/
theorem C22_mul_var [CommRing K] {n : ℕ} (f : Arr K n) :
    ∃ r, mulVar f = some r ∧ ∀ x, value r x = x * value f x := by
  obtain ⟨r, e, h⟩ := mulVar_spec f
  exact ⟨r, e, fun x => by rw [value_eq, value_eq, h, eval_mul, eval_X]⟩

/-- **C22**: a power of the variable. -/
theorem C22_var_pow [CommRing K] (p : ℕ) :
    ∃ r, (varPow p : Option (Arr K p)) = some r ∧ ∀ x, value r x = x ^ p := by
  obtain ⟨r, e, h⟩ := varPow_spec (K := K) p
  exact ⟨r, e, fun x => by rw [value_eq, h, eval_pow, eval_X]⟩

example : ∃ r, mulPoly (![1, 1] : Arr ℚ 1) (![-1, 1] : Arr ℚ 1) = some r ∧ value r 3 = 8 := by
  obtain ⟨r, e, h⟩ := C22_mul (![1, 1] : Arr ℚ 1) (![-1, 1] : Arr ℚ 1)
  exact ⟨r, e, by rw [h]; norm_num [value, Fin.sum_univ_succ]⟩

/-! ## C23 -/

/-- **C23**: the derivative. -/
theorem C23_derivative [CommRing K] {n : ℕ} (f : Arr K (n + 1)) :
    ∃ r, derivArr f = some r ∧ (∀ i : Fin (n + 1), r i = ((i : ℕ) + 1 : K) * f i.succ) ∧
      polyOf r = derivative (polyOf f) := by
  obtain ⟨r, e, h⟩ := derivArr_spec f
  refine ⟨r, e, fun i => ?_, h⟩
  rw [← coef_fin r, ← polyOf_coeff, h, coeff_derivative, polyOf_coeff, ← coef_fin f]
  simp [mul_comm]

/-- **C23**, for the reals: it is the derivative of the value. -/
theorem C23_calculus {n : ℕ} (f : Arr ℝ (n + 1)) :
    ∃ r, derivArr f = some r ∧ ∀ x, HasDerivAt (value f) (value r x) x := by
  obtain ⟨r, e, h⟩ := derivArr_spec f
  refine ⟨r, e, fun x => ?_⟩
  rw [value_eq, h, show value f = fun x => (polyOf f).eval x from funext (value_eq f)]
  exact (polyOf f).hasDerivAt x

/-! ## C24 -/

/-- **C24**: Euclidean division, whatever leading coefficients of the divisor are zero. -/
theorem C24_division [Field K] [DecidableEq K] (inf : K) {n1 n2 : ℕ} (f : Arr K n1) (g : Arr K n2)
    (hn : n2 < n1) (hg : g ≠ 0) :
    ∃ q r, divide inf f n2 g = some (q, r) ∧ polyOf f = polyOf q * polyOf g + polyOf r ∧
      (polyOf r).degree < (polyOf g).degree :=
  divide_spec inf f n2 g hn.le fun h => hg (polyOf_inj (h.trans (polyOf_zeros n2).symm))

/-- **C24**: so quotient and remainder are *the* quotient and remainder. -/
theorem C24_unique [Field K] [DecidableEq K] (inf : K) {n1 n2 : ℕ} (f : Arr K n1) (g : Arr K n2)
    (hn : n2 < n1) (hg : g ≠ 0) :
    ∃ q r, divide inf f n2 g = some (q, r) ∧ polyOf q = polyOf f / polyOf g ∧
      polyOf r = polyOf f % polyOf g := by
  obtain ⟨q, r, e, h1, h2⟩ := C24_division inf f g hn hg
  have hg' : polyOf g ≠ 0 := fun h => hg (polyOf_inj (h.trans (polyOf_zeros n2).symm))
  have hm := (EuclideanDomain.div_add_mod (polyOf f) (polyOf g))
  have hlt : (polyOf f % polyOf g).degree < (polyOf g).degree := EuclideanDomain.mod_lt _ hg'
  have hq : polyOf q = polyOf f / polyOf g := by
    by_contra hne
    have h3 : (polyOf q - polyOf f / polyOf g) * polyOf g = polyOf f % polyOf g - polyOf r := by
      linear_combination -hm - h1
    have h4 : (polyOf f % polyOf g - polyOf r).degree < (polyOf g).degree :=
      (degree_sub_le _ _).trans_lt (max_lt hlt h2)
    rw [← h3, degree_mul] at h4
    have h5 : (0 : WithBot ℕ) ≤ (polyOf q - polyOf f / polyOf g).degree :=
      zero_le_degree_iff.2 (sub_ne_zero.2 hne)
    have : (polyOf g).degree ≤ (polyOf q - polyOf f / polyOf g).degree + (polyOf g).degree := by
      calc (polyOf g).degree = 0 + (polyOf g).degree := (zero_add _).symm
        _ ≤ _ := add_le_add_left h5 _
    exact absurd h4 (not_lt.2 this)
  refine ⟨q, r, e, hq, ?_⟩
  rw [hq] at h1
  linear_combination -hm - h1

/-- **C24**: division by the zero polynomial gives the constant `inf` and remainder 0. -/
theorem C24_by_zero [Field K] [DecidableEq K] (inf : K) {n1 : ℕ} (f : Arr K n1) :
    ∀ (n2 : ℕ) (g : Arr K n2), g = 0 → ∃ q r, divide inf f n2 g = some (q, r) ∧
      polyOf q = C inf ∧ r = 0
  | 0, g, hg => by
    subst hg
    obtain ⟨q, e, h⟩ := wr_coef (zeros n1 : Arr K n1) (i := 0) inf (by omega)
    refine ⟨q, zeros 0, by simp [divide, divideConst, rd, e], polyOf_eq fun i => ?_, rfl⟩
    rw [h, coeff_C, coef_zeros]
  | n2 + 1, g, hg => by
    subst hg
    obtain ⟨g', eg, hg'⟩ := changeOrder_poly (K := K) n2 (0 : Arr K (n2 + 1)) (fun i _ => by
      unfold coef; split <;> rfl)
    have hz : g' = 0 := polyOf_inj (by
      rw [hg', show (0 : Arr K (n2 + 1)) = zeros _ from rfl, show (0 : Arr K n2) = zeros _ from rfl,
        polyOf_zeros, polyOf_zeros])
    obtain ⟨q, r, e, h1, h2⟩ := C24_by_zero inf f n2 g' hz
    obtain ⟨r', er, hr'⟩ := promote_spec (m := n2) r (by omega)
    refine ⟨q, r', ?_, h1, polyOf_inj ?_⟩
    · rw [divide]
      simp [rd, eg, e, er]
    · rw [hr', h2, show (0 : Arr K (n2 - 1)) = zeros _ from rfl,
        show (0 : Arr K (n2 + 1 - 1)) = zeros n2 from rfl, polyOf_zeros, polyOf_zeros]

-- the hypotheses are met by a divisor with a zero leading coefficient
example : ∃ q r, divide 0 (![-1, 0, 0, 1] : Arr ℚ 3) 2 (![-1, 1, 0] : Arr ℚ 2) = some (q, r) ∧
    polyOf q = polyOf (![-1, 0, 0, 1] : Arr ℚ 3) / polyOf (![-1, 1, 0] : Arr ℚ 2) ∧
    polyOf r = polyOf (![-1, 0, 0, 1] : Arr ℚ 3) % polyOf (![-1, 1, 0] : Arr ℚ 2) :=
  C24_unique 0 _ _ (by norm_num) (fun h => by simpa using congrFun h 1)

/-! ## C25 -/

/-- **C25**: `shift_function(f, t)(x) = f(x + t)`. -/
theorem C25_shift [CommRing K] [DecidableEq K] {n : ℕ} (f : Arr K n) (t : K) :
    ∃ g, shift f t = some g ∧ ∀ x, value g x = value f (x + t) := by
  obtain ⟨g, e, h⟩ := shift_spec f t
  exact ⟨g, e, fun x => by rw [value_eq, value_eq, h]; simp⟩

/-- **C25**: the unit shift. -/
theorem C25_shift_one [CommRing K] {n : ℕ} (f : Arr K n) :
    ∃ g, shiftOne f = some g ∧ ∀ x, value g x = value f (x + 1) := by
  obtain ⟨g, e, h⟩ := shiftOne_spec f
  exact ⟨g, e, fun x => by rw [value_eq, value_eq, h]; simp⟩

/-- **C25**: `invert_taylor_shift(f)(x) = (x+1)ⁿ f(1/(x+1))`. -/
theorem C25_invert_taylor_shift [Field K] {n : ℕ} (f : Arr K n) :
    ∃ g, invertTaylorShift f = some g ∧
      ∀ x, x + 1 ≠ 0 → value g x = (x + 1) ^ n * value f (1 / (x + 1)) := by
  obtain ⟨g, e, h⟩ := invertTaylorShift_spec f
  refine ⟨g, e, fun x hx => ?_⟩
  rw [value_eq, value_eq, h, one_div, ← eval_revArr f _ hx]; simp

/-- **C25**: and at `x = -1` it is the leading coefficient. -/
theorem C25_invert_taylor_shift_at_neg_one [Field K] {n : ℕ} (f : Arr K n) :
    ∃ g, invertTaylorShift f = some g ∧ value g (-1) = f (Fin.last n) := by
  obtain ⟨g, e, h⟩ := invertTaylorShift_spec f
  refine ⟨g, e, ?_⟩
  rw [value_eq, h, eval_comp]
  simp only [eval_add, eval_X, eval_C, neg_add_cancel]
  rw [← coeff_zero_eq_eval_zero, polyOf_coeff, coef_revArr f (Nat.zero_le n), Nat.sub_zero,
    ← coef_fin f]
  rfl

/-- **C25**: `reflect_poly(f)(x) = f(-x)`. -/
theorem C25_reflect [CommRing K] {n : ℕ} (f : Arr K n) :
    ∃ g, reflect f = some g ∧ ∀ x, value g x = value f (-x) := by
  obtain ⟨g, e, h⟩ := reflect_spec f
  exact ⟨g, e, fun x => by rw [value_eq, value_eq, h]; simp⟩

/-- **C25**: `scale_poly(f, a)(x) = f(a x)`. -/
theorem C25_scale [CommRing K] {n : ℕ} (f : Arr K n) (a : K) :
    ∃ g, scale f a = some g ∧ ∀ x, value g x = value f (a * x) := by
  obtain ⟨g, e, h⟩ := scale_spec f a
  exact ⟨g, e, fun x => by rw [value_eq, value_eq, h]; simp⟩

example : ∃ g, shift (![1, 0, 1] : Arr ℚ 2) 3 = some g ∧ value g 1 = 17 := by
  obtain ⟨g, e, h⟩ := C25_shift (![1, 0, 1] : Arr ℚ 2) 3
  exact ⟨g, e, by rw [h]; norm_num [value, Fin.sum_univ_succ]⟩

/-! ## C26 -/

/-- **C26**: deflation by a root, for every order ≥ 2 (`n ≥ 1`, the argument has order `n + 1`), or a
root 0: the result `b` satisfies `f(x) = (x - root) b(x)`, whatever `subtraction_precision` (`sp`)
says. `S` is the range of `size_t`. -/
theorem C26_deflate [Field K] [DecidableEq K] (S : ℕ) (sp : K → K → ℕ) {n : ℕ} (hn : n < S)
    (f : Arr K (n + 1)) (root : K) (hroot : value f root = 0) (hok : root = 0 ∨ 0 < n) :
    ∃ b, deflate S sp f root = some b ∧ ∀ x, value f x = (x - root) * value b x := by
  rw [value_eq] at hroot
  obtain ⟨b, e, h⟩ := deflate_spec sp hn f root hroot hok
  exact ⟨b, e, fun x => by rw [value_eq, value_eq, h]; simp⟩

/-- **C26** fails for a linear polynomial with a root other than 0: the code indexes outside of its
arrays, for every such polynomial. -/
theorem C26_order_one_fails [Field K] [DecidableEq K] (S : ℕ) (hS : 1 < S) (sp : K → K → ℕ)
    (f : Arr K 1) (root : K) (h : root ≠ 0) : deflate S sp f root = none :=
  deflate_order1 hS sp f root h

-- (x - 2)(x² + 1)
example : ∃ b, deflate (2 ^ 64) (fun _ _ => 0) (![-2, 1, -2, 1] : Arr ℚ 3) 2 = some b ∧
    ∀ x, value (![-2, 1, -2, 1] : Arr ℚ 3) x = (x - 2) * value b x :=
  C26_deflate (2 ^ 64) _ (by norm_num) _ _ (by norm_num [value, Fin.sum_univ_succ]) (.inr (by norm_num))

/-! ## C33 -/

/-- **C33**: `change_order` keeps exactly the coefficients up to the new order. -/
theorem C33_coefficients [CommRing K] {n : ℕ} (m : ℕ) (f : Arr K n) :
    ∃ g, changeOrder m f = some g ∧ ∀ i : Fin (m + 1), g i = coef f i := by
  obtain ⟨g, e, h⟩ := changeOrder_coef m f
  exact ⟨g, e, fun i => by rw [← coef_fin g, h, if_pos (by omega)]⟩

/-- **C33**: the value is preserved when no non-zero coefficient is dropped. -/
theorem C33_value [CommRing K] {n : ℕ} (m : ℕ) (f : Arr K n)
    (h : ∀ i : Fin (n + 1), m < i → f i = 0) :
    ∃ g, changeOrder m f = some g ∧ ∀ x, value g x = value f x := by
  obtain ⟨g, e, hg⟩ := changeOrder_poly m f (fun i hi => by
    unfold coef
    split
    · exact h _ hi
    · rfl)
  exact ⟨g, e, fun x => by rw [value_eq, value_eq, hg]⟩

/-- **C33**: in general the result is the polynomial modulo `x^(m+1)`. -/
theorem C33_truncate [CommRing K] {n : ℕ} (m : ℕ) (f : Arr K n) :
    ∃ g, changeOrder m f = some g ∧ X ^ (m + 1) ∣ polyOf f - polyOf g := by
  obtain ⟨g, e, h⟩ := changeOrder_coef m f
  refine ⟨g, e, X_pow_dvd_iff.2 fun d hd => ?_⟩
  rw [coeff_sub, polyOf_coeff, polyOf_coeff, h, if_pos (by omega), sub_self]

/-- **C33**: conversion to a higher order preserves the value. -/
theorem C33_promote [CommRing K] {n m : ℕ} (f : Arr K n) (h : n ≤ m) :
    ∃ g, promote m f = some g ∧ ∀ x, value g x = value f x := by
  obtain ⟨g, e, hg⟩ := promote_spec f h
  exact ⟨g, e, fun x => by rw [value_eq, value_eq, hg]⟩

/-- **C33**: construction from an iterator range fails exactly when there are too many coefficients,
and otherwise yields them followed by zeros. -/
theorem C33_range [CommRing K] (n : ℕ) (l : List K) :
    (n + 1 < l.length ∧ ofRange n l 0 (zeros n) = none ∧ ofList n l = none) ∨
    (l.length ≤ n + 1 ∧ ∃ g, ofRange n l 0 (zeros n) = some g ∧ ofList n l = some g ∧
      ∀ i : Fin (n + 1), g i = l.getD i 0) := by
  have key : ∀ (l : List K) (k : ℕ) (a : Arr K n), k ≤ n + 1 →
      (n + 1 < k + l.length ∧ ofRange n l k a = none) ∨
      (k + l.length ≤ n + 1 ∧ ∃ g, ofRange n l k a = some g ∧
        ∀ i, coef g i = if i < k then coef a i else if i < k + l.length then l.getD (i - k) 0
          else coef a i) := by
    intro l
    induction l with
    | nil =>
      intro k a hk
      refine .inr ⟨by simpa using hk, a, rfl, fun i => ?_⟩
      split
      · rfl
      · rw [if_neg (by simp; omega)]
    | cons c l ih =>
      intro k a hk
      rw [ofRange]
      by_cases h : k ≤ n
      · rw [if_pos h]
        obtain ⟨b, e, hb⟩ := wr_coef a (i := k) c h
        rw [e, Option.bind_some]
        rcases ih (k + 1) b (by omega) with ⟨h1, h2⟩ | ⟨h1, g, h2, h3⟩
        · exact .inl ⟨by simp; omega, h2⟩
        · refine .inr ⟨by simp; omega, g, h2, fun i => ?_⟩
          rw [h3]
          by_cases hi : i < k
          · rw [if_pos (by omega), if_pos hi, hb, if_neg (by omega)]
          · rw [if_neg hi]
            by_cases hk' : i = k
            · subst hk'
              rw [if_pos (by omega), if_pos (by simp), hb, if_pos rfl]; simp
            · rw [if_neg (by omega)]
              by_cases h4 : i < k + 1 + l.length
              · rw [if_pos h4, if_pos (by simp; omega), show i - k = (i - (k + 1)) + 1 by omega,
                  List.getD_cons_succ]
              · rw [if_neg h4, if_neg (by simp; omega), hb, if_neg hk']
      · rw [if_neg h]
        exact .inl ⟨by simp; omega, rfl⟩
  rcases key l 0 (zeros n) (by omega) with ⟨h1, h2⟩ | ⟨h1, g, h2, h3⟩
  · exact .inl ⟨by omega, h2, by unfold ofList; rw [if_pos (by omega)]⟩
  · right
    have hg : ∀ i : Fin (n + 1), g i = l.getD i 0 := fun i => by
      rw [← coef_fin g, h3, if_neg (by omega)]
      split
      · simp
      · rw [coef_zeros, List.getD_eq_getElem?_getD, List.getElem?_eq_none (by omega)]; rfl
    refine ⟨by omega, g, h2, ?_, hg⟩
    unfold ofList
    rw [if_neg (by omega)]
    congr 1
    funext i
    exact (hg i).symm

end Stator.Pol
