import Mathlib.Algebra.Polynomial.Eval.Defs
import Mathlib.Algebra.Polynomial.Eval.Coeff
import Mathlib.Algebra.Polynomial.BigOperators

/-!
# Fixed-size coefficient arrays and C++ loops

`Polynomial<Order, Coeff_t, PolyVar>` derives from `std::array<Coeff_t, Order+1>`.  The model keeps
the array as it is; an access outside it, which is undefined behaviour in C++, is the result `none`,
so every theorem of the form `∃ r, run = some r ∧ …` also says that all accesses are in bounds.
-/

namespace Stator.Pol

open Polynomial

/-- models: stator/symbolic/polynomial.hpp:75-76 `std::array<Coeff_t, Order+1>`. -/
abbrev Arr (K : Type*) (n : ℕ) := Fin (n + 1) → K

/-- `a[i]`; `none` = out of bounds. -/
def rd {K : Type*} {n : ℕ} (a : Arr K n) (i : ℕ) : Option K :=
  if h : i < n + 1 then some (a ⟨i, h⟩) else none

/-- `a[i] = v`; `none` = out of bounds. -/
def wr {K : Type*} {n : ℕ} (a : Arr K n) (i : ℕ) (v : K) : Option (Arr K n) :=
  if h : i < n + 1 then some (Function.update a ⟨i, h⟩ v) else none

/-- `for (size_t i(n); i > 0; --i) body` -/
def forDown {σ : Type*} (body : ℕ → σ → Option σ) : ℕ → σ → Option σ
  | 0, s => some s
  | i + 1, s => (body (i + 1) s).bind (forDown body i)

/-- `for (size_t i(lo); i < lo + cnt; ++i) body` -/
def forUp {σ : Type*} (body : ℕ → σ → Option σ) (lo : ℕ) : ℕ → σ → Option σ
  | 0, s => some s
  | c + 1, s => (forUp body lo c s).bind (body (lo + c))

/-! ## Specification: the polynomial an array stands for -/

/-- The mathematical polynomial `∑ aᵢ Xⁱ` an array of coefficients stands for. -/
noncomputable def polyOf {K : Type*} [Semiring K] {n : ℕ} (a : Arr K n) : K[X] :=
  ∑ i : Fin (n + 1), C (a i) * X ^ (i : ℕ)

/-- Its value `∑ aᵢ xⁱ`. -/
def value {K : Type*} [Semiring K] {n : ℕ} (a : Arr K n) (x : K) : K :=
  ∑ i : Fin (n + 1), a i * x ^ (i : ℕ)

/-! ## Lemmas -/

/-- The `i`-th coefficient, 0 outside the array. -/
def coef {K : Type*} [Zero K] {n : ℕ} (a : Arr K n) (i : ℕ) : K :=
  if h : i < n + 1 then a ⟨i, h⟩ else 0

variable {K : Type*}

theorem rd_coef [Zero K] {n : ℕ} (a : Arr K n) {i : ℕ} (h : i ≤ n) : rd a i = some (coef a i) := by
  unfold rd coef
  rw [dif_pos (by omega), dif_pos (by omega)]

theorem wr_coef [Zero K] {n : ℕ} (a : Arr K n) {i : ℕ} (v : K) (h : i ≤ n) :
    ∃ b, wr a i v = some b ∧ ∀ j, coef b j = if j = i then v else coef a j := by
  unfold wr
  rw [dif_pos (by omega)]
  refine ⟨_, rfl, fun j => ?_⟩
  unfold coef
  by_cases hj : j < n + 1
  · simp only [hj, dite_true, Function.update_apply, Fin.mk.injEq]
  · have : j ≠ i := by omega
    simp [hj, this]

theorem coef_gt [Zero K] {n : ℕ} (a : Arr K n) {i : ℕ} (h : n < i) : coef a i = 0 := by
  unfold coef
  rw [dif_neg (by omega)]

theorem coef_fin [Zero K] {n : ℕ} (a : Arr K n) (i : Fin (n + 1)) : coef a i = a i := by
  unfold coef
  rw [dif_pos i.2]

theorem arr_ext [Zero K] {n : ℕ} {a b : Arr K n} (h : ∀ i, i ≤ n → coef a i = coef b i) :
    a = b := by
  funext i
  rw [← coef_fin a, ← coef_fin b]
  exact h i (by omega)

theorem polyOf_coeff [Semiring K] {n : ℕ} (a : Arr K n) (i : ℕ) : (polyOf a).coeff i = coef a i := by
  unfold polyOf coef
  simp only [finset_sum_coeff, coeff_C_mul, coeff_X_pow, mul_ite, mul_one, mul_zero]
  by_cases h : i < n + 1
  · rw [dif_pos h, Finset.sum_eq_single ⟨i, h⟩]
    · simp
    · intro b _ hb
      have : i ≠ b := fun e => hb (Fin.ext e.symm)
      simp [this]
    · simp
  · rw [dif_neg h]
    apply Finset.sum_eq_zero
    intro b _
    have : i ≠ b := by have := b.2; omega
    simp [this]

theorem polyOf_inj [Semiring K] {n : ℕ} {a b : Arr K n} (h : polyOf a = polyOf b) : a = b :=
  arr_ext fun i _ => by rw [← polyOf_coeff, ← polyOf_coeff, h]

theorem polyOf_eq [Semiring K] {n : ℕ} {a : Arr K n} {p : K[X]} (h : ∀ i, coef a i = p.coeff i) :
    polyOf a = p := by
  ext i; rw [polyOf_coeff, h]

theorem value_eq [CommSemiring K] {n : ℕ} (a : Arr K n) (x : K) : value a x = (polyOf a).eval x := by
  simp [value, polyOf, eval_finset_sum]

theorem polyOf_degree [Semiring K] {n : ℕ} (a : Arr K n) : (polyOf a).natDegree ≤ n := by
  rw [natDegree_le_iff_coeff_eq_zero]
  intro i hi
  rw [polyOf_coeff, coef_gt a hi]

theorem forDown_inv {σ : Type*} {body : ℕ → σ → Option σ} (I : ℕ → σ → Prop) :
    ∀ (n : ℕ) (s : σ), I n s →
      (∀ i s, i < n → I (i + 1) s → ∃ s', body (i + 1) s = some s' ∧ I i s') →
      ∃ s', forDown body n s = some s' ∧ I 0 s'
  | 0, s, h0, _ => ⟨s, rfl, h0⟩
  | n + 1, s, h0, hs => by
    obtain ⟨s1, e1, h1⟩ := hs n s (by omega) h0
    obtain ⟨s2, e2, h2⟩ := forDown_inv I n s1 h1 (fun i s hi h => hs i s (by omega) h)
    exact ⟨s2, by rw [forDown, e1, Option.bind_some, e2], h2⟩

theorem forUp_inv {σ : Type*} {body : ℕ → σ → Option σ} {lo : ℕ} (I : ℕ → σ → Prop) :
    ∀ (n : ℕ) (s : σ), I 0 s →
      (∀ c s, c < n → I c s → ∃ s', body (lo + c) s = some s' ∧ I (c + 1) s') →
      ∃ s', forUp body lo n s = some s' ∧ I n s'
  | 0, s, h0, _ => ⟨s, rfl, h0⟩
  | n + 1, s, h0, hs => by
    obtain ⟨s1, e1, h1⟩ := forUp_inv I n s h0 (fun c s hc h => hs c s (by omega) h)
    obtain ⟨s2, e2, h2⟩ := hs n s1 (by omega) h1
    exact ⟨s2, by rw [forUp, e1, Option.bind_some, e2], h2⟩

end Stator.Pol
