import Verif.Fp.IeeeHorner
import Mathlib.Data.Nat.Factorial.Basic
import Mathlib.Data.Nat.Choose.Sum

/-!
# C97: the derivatives of a polynomial at a point, in rounded arithmetic and on `double`

`eval_derivatives` computes the value and the derivatives with nested Horner schemes. How far can they be from the derivatives of
the polynomial?
-/

namespace Stator.Fp

open Stator Pol Ieee Num

/-- models: stator/symbolic/polynomial.hpp:319-338 `eval_derivatives<D>`; `rnd` is applied to the result of every `double` operation, and to
the factor `i`, which is converted to `double`. -/
noncomputable def evalDerivR (rnd : ℝ → ℝ) {n : ℕ} (D : ℕ) (f : Arr ℝ n) (x : ℝ) : Option (Arr ℝ D) := do
  let c ← rd f n
  let r ← wr (fun _ => (0 : ℝ)) 0 c
  let r ← forDown (fun i (r : Arr ℝ D) => do
    let r ← forDown (fun j (r : Arr ℝ D) => do
      let rj ← rd r j
      let rj1 ← rd r (j - 1)
      wr r j (rnd (rnd (rj * x) + rj1))) (min D (n - (i - 1))) r
    let r0 ← rd r 0
    let c ← rd f (i - 1)
    wr r 0 (rnd (rnd (r0 * x) + c))) n r
  let s ← forUp (fun i (s : ℝ × Arr ℝ D) => do
    let cnst := rnd (s.1 * rnd (i : ℝ))
    let ri ← rd s.2 i
    let r ← wr s.2 i (rnd (ri * cnst))
    some (cnst, r)) 2 (D - 1) (1, r)
  some s.2

/-- With exact arithmetic this is the model of `Verif/Poly/Ops.lean`. -/
theorem evalDerivR_id {n : ℕ} (D : ℕ) (f : Arr ℝ n) (x : ℝ) : evalDerivR id D f x = evalDerivatives D f x := rfl

/-! ## Specification -/

/-- The `j`-th derivative of the polynomial `a` at `x`. -/
def derivSum {n : ℕ} (a : Arr ℝ n) (x : ℝ) (j : ℕ) : ℝ :=
  ∑ i : Fin (n + 1), (((i : ℕ).descFactorial j : ℕ) : ℝ) * (a i * x ^ ((i : ℕ) - j))

/-- The error due to underflow, before the multiplication with `j!`. -/
noncomputable def underflowSum (φ : Format) (y : ℝ) (n j : ℕ) : ℝ :=
  φ.η * (2 + φ.u) * ∑ l ∈ Finset.range (j + 1), (1 + φ.u) ^ l * ∑ i ∈ Finset.range n, (i.choose l : ℝ) * ((1 + φ.u) ^ 2 * |y|) ^ (i - l)

/-! ## The loops -/

section
variable {K : Type*}

/-- The entries of the array after `k` turns of the outer loop. -/
def seqS (op : K → K → K) (z : K) {n : ℕ} (f : Arr K n) : ℕ → ℕ → K
  | 0, 0 => f ⟨n, by omega⟩
  | 0, _ + 1 => z
  | k + 1, 0 => op (seqS op z f k 0) (f ⟨n - (k + 1), by omega⟩)
  | k + 1, j + 1 => if j ≤ k then op (seqS op z f k (j + 1)) (seqS op z f k j) else z

theorem seqS_zero (op : K → K → K) (z : K) {n : ℕ} (f : Arr K n) {k j : ℕ} (h : k < j) : seqS op z f k j = z := by
  obtain ⟨j, rfl⟩ : ∃ i, j = i + 1 := ⟨j - 1, by omega⟩
  cases k with
  | zero => rfl
  | succ k => rw [seqS, if_neg (by omega)]

theorem outer_run (op : K → K → K) (z : K) {n : ℕ} (D : ℕ) (f : Arr K n) :
    ∃ r, (do
      let c ← rd f n
      let r ← wr (fun _ => z) 0 c
      forDown (fun i (r : Arr K D) => do
        let r ← forDown (fun j (r : Arr K D) => do
          let rj ← rd r j
          let rj1 ← rd r (j - 1)
          wr r j (op rj rj1)) (min D (n - (i - 1))) r
        let r0 ← rd r 0
        let c ← rd f (i - 1)
        wr r 0 (op r0 c)) n r) = some r ∧ ∀ j : Fin (D + 1), r j = seqS op z f n j := by
  simp only [rd_fin f (show n < n + 1 by omega), Option.bind_eq_bind, Option.bind_some,
    wr_fin (fun _ : Fin (D + 1) => z) _ (show 0 < D + 1 by omega)]
  obtain ⟨r, e, h⟩ := forDown_inv (body := fun i (r : Arr K D) => (forDown (fun j (r : Arr K D) => (rd r j).bind fun rj =>
      (rd r (j - 1)).bind fun rj1 => wr r j (op rj rj1)) (min D (n - (i - 1))) r).bind fun r => (rd r 0).bind fun r0 =>
      (rd f (i - 1)).bind fun c => wr r 0 (op r0 c))
    (fun i r => ∀ j : Fin (D + 1), r j = seqS op z f (n - i) j) n
    (Function.update (fun _ => z) ⟨0, by omega⟩ (f ⟨n, by omega⟩)) (by
      rintro ⟨j, hj⟩
      rw [Nat.sub_self]
      cases j with
      | zero => rw [Function.update_self]; rfl
      | succ j => rw [Function.update_of_ne (Fin.ne_of_val_ne (by simp))]; rfl) (by
      intro i r hi hI
      have ek : n - i = n - (i + 1) + 1 := by omega
      obtain ⟨r', e', h'⟩ := forDown_inv (body := fun j (r : Arr K D) => (rd r j).bind fun rj =>
          (rd r (j - 1)).bind fun rj1 => wr r j (op rj rj1))
        (fun m (r : Arr K D) => ∀ j : Fin (D + 1), r j = if m < (j : ℕ) then seqS op z f (n - i) j else seqS op z f (n - (i + 1)) j)
        (min D (n - (i + 1 - 1))) r (by
          rintro ⟨j, hj⟩
          rw [hI]
          dsimp only
          split
          · rw [seqS_zero op z f (by omega), seqS_zero op z f (by omega)]
          · rfl) (by
          intro m s hm hs
          simp only [rd_fin s (show m + 1 < D + 1 by omega), rd_fin s (show m + 1 - 1 < D + 1 by omega), Option.bind_some,
            wr_fin s _ (show m + 1 < D + 1 by omega)]
          refine ⟨_, rfl, ?_⟩
          rintro ⟨j, hj⟩
          by_cases hjm : j = m + 1
          · subst hjm
            rw [Function.update_self, hs, hs]
            dsimp only
            rw [if_neg (lt_irrefl _), if_neg (by omega), if_pos (by omega), ek, seqS, if_pos (by omega)]
            rfl
          · rw [Function.update_of_ne (Fin.ne_of_val_ne hjm), hs]
            dsimp only
            by_cases h1 : m < j
            · rw [if_pos (by omega), if_pos h1]
            · rw [if_neg (by omega), if_neg h1])
      rw [e']
      simp only [Option.bind_some, rd_fin r' (show 0 < D + 1 by omega), rd_fin f (show i + 1 - 1 < n + 1 by omega),
        wr_fin r' _ (show 0 < D + 1 by omega)]
      refine ⟨_, rfl, ?_⟩
      rintro ⟨j, hj⟩
      cases j with
      | zero =>
        rw [Function.update_self, h']
        dsimp only
        rw [if_neg (lt_irrefl _), ek, seqS]
        congr 3
        omega
      | succ j =>
        rw [Function.update_of_ne (Fin.ne_of_val_ne (by simp)), h']
        dsimp only
        rw [if_pos (by omega)])
  exact ⟨r, e, fun j => by rw [h, Nat.sub_zero]⟩

/-- The factors of the second loop. -/
def seqC (mulC : K → ℕ → K) (one : K) : ℕ → K
  | 0 => one
  | 1 => one
  | j + 2 => mulC (seqC mulC one (j + 1)) (j + 2)

theorem factor_run (mulC : K → ℕ → K) (mul : K → K → K) (one : K) {D : ℕ} (r : Arr K D) :
    ∃ s, forUp (fun i (s : K × Arr K D) => do
        let ri ← rd s.2 i
        let r ← wr s.2 i (mul ri (mulC s.1 i))
        some (mulC s.1 i, r)) 2 (D - 1) (one, r) = some s ∧
      ∀ j : Fin (D + 1), s.2 j = if (j : ℕ) < 2 then r j else mul (r j) (seqC mulC one j) := by
  obtain ⟨s, e, h1, h2⟩ := forUp_inv (lo := 2) (body := fun i (s : K × Arr K D) => (rd s.2 i).bind fun ri =>
      (wr s.2 i (mul ri (mulC s.1 i))).bind fun r => some (mulC s.1 i, r))
    (fun c s => s.1 = seqC mulC one (c + 1) ∧ ∀ j : Fin (D + 1), s.2 j =
      if 2 ≤ (j : ℕ) ∧ (j : ℕ) < c + 2 then mul (r j) (seqC mulC one j) else r j) (D - 1) (one, r)
    ⟨rfl, fun j => by rw [if_neg (by omega)]⟩ (by
      rintro c s hc ⟨h1, h2⟩
      simp only [rd_fin s.2 (show 2 + c < D + 1 by omega), Option.bind_some, wr_fin s.2 _ (show 2 + c < D + 1 by omega)]
      refine ⟨_, rfl, ?_, ?_⟩
      · dsimp only
        rw [h1, seqC, Nat.add_comm 2 c]
      · rintro ⟨j, hj⟩
        dsimp only
        by_cases hjc : j = 2 + c
        · subst hjc
          rw [Function.update_self, h2, h1]
          dsimp only
          rw [if_neg (by omega), if_pos (by omega)]
          congr 1
          rw [Nat.add_comm 2 c, seqC]
        · rw [Function.update_of_ne (Fin.ne_of_val_ne hjc), h2]
          dsimp only
          by_cases h3 : 2 ≤ j ∧ j < c + 2
          · rw [if_pos h3, if_pos (by omega)]
          · rw [if_neg h3, if_neg (by omega)])
  refine ⟨s, e, fun j => ?_⟩
  rw [h2]
  by_cases h : (j : ℕ) < 2
  · rw [if_pos h, if_neg (by omega)]
  · rw [if_neg h, if_pos (by omega)]

end

theorem evalDerivR_run (rnd : ℝ → ℝ) {n : ℕ} (D : ℕ) (f : Arr ℝ n) (x : ℝ) :
    ∃ r, evalDerivR rnd D f x = some r ∧ ∀ j : Fin (D + 1), r j =
      if (j : ℕ) < 2 then seqS (fun s c => rnd (rnd (s * x) + c)) 0 f n j
      else rnd (seqS (fun s c => rnd (rnd (s * x) + c)) 0 f n j * seqC (fun s i => rnd (s * rnd (i : ℝ))) 1 j) := by
  obtain ⟨r, e, h⟩ := outer_run (fun s c => rnd (rnd (s * x) + c)) 0 D f
  obtain ⟨s, e', h'⟩ := factor_run (fun s i => rnd (s * rnd (i : ℝ))) (fun s c => rnd (s * c)) 1 r
  refine ⟨s.2, ?_, fun j => by rw [h', h]⟩
  unfold evalDerivR
  simp only [Option.bind_eq_bind] at e e' ⊢
  rw [Option.bind_eq_some_iff] at e
  obtain ⟨c, e1, e⟩ := e
  rw [Option.bind_eq_some_iff] at e
  obtain ⟨r0, e2, e⟩ := e
  rw [e1, Option.bind_some, e2, Option.bind_some, e, Option.bind_some, e', Option.bind_some]

variable {φ : Format} {M : ℝ}

theorem evalDerivI_run (hM : 1 ≤ M) {n : ℕ} (D : ℕ) (f : Arr (Ieee φ M) n) (x : Ieee φ M) :
    ∃ r, evalDerivI hM D f x = some r ∧ ∀ j : Fin (D + 1), r j =
      if (j : ℕ) < 2 then seqS (fun s c => (s.mul x).add c) (.zero false) f n j
      else (seqS (fun s c => (s.mul x).add c) (.zero false) f n j).mul (seqC (fun s i => s.mul (pack false (i : ℝ))) (.one hM) j) := by
  obtain ⟨r, e, h⟩ := outer_run (fun (s c : Ieee φ M) => (s.mul x).add c) (.zero false) D f
  obtain ⟨s, e', h'⟩ := factor_run (fun (s : Ieee φ M) i => s.mul (pack false (i : ℝ))) Ieee.mul (.one hM) r
  refine ⟨s.2, ?_, fun j => by rw [h', h]⟩
  unfold evalDerivI
  simp only [Option.bind_eq_bind] at e e' ⊢
  rw [Option.bind_eq_some_iff] at e
  obtain ⟨c, e1, e⟩ := e
  rw [Option.bind_eq_some_iff] at e
  obtain ⟨r0, e2, e⟩ := e
  rw [e1, Option.bind_some, e2, Option.bind_some, e, Option.bind_some, e', Option.bind_some]

/-! ## Rounding errors -/

/-- Without rounding. -/
def exactS {n : ℕ} (a : Arr ℝ n) (x : ℝ) : ℕ → ℕ → ℝ := seqS (fun s c => s * x + c) 0 a

theorem seqC_factorial : ∀ j, seqC (fun (s : ℝ) i => s * (i : ℝ)) 1 j = (j.factorial : ℝ)
  | 0 => by simp [seqC]
  | 1 => by simp [seqC]
  | j + 2 => by
    rw [seqC, seqC_factorial (j + 1), Nat.factorial_succ (j + 1)]
    push_cast
    ring

theorem derivSum_eval {n : ℕ} (a : Arr ℝ n) (x : ℝ) (j : ℕ) : derivSum a x j = (Polynomial.derivative^[j] (polyOf a)).eval x := by
  unfold polyOf
  rw [Polynomial.iterate_derivative_sum, Polynomial.eval_finsetSum]
  unfold derivSum
  refine Finset.sum_congr rfl fun i _ => ?_
  rw [Polynomial.iterate_derivative_C_mul, Polynomial.iterate_derivative_X_pow_eq_natCast_mul]
  simp
  ring

/-- The exact scheme gives the derivatives, divided by `j!`. -/
theorem exactS_deriv {n : ℕ} (a : Arr ℝ n) (x : ℝ) (j : ℕ) : (j.factorial : ℝ) * exactS a x n j = derivSum a x j := by
  obtain ⟨r, e, h⟩ := evalDerivR_run id j a x
  obtain ⟨r', e', h'⟩ := evalDerivatives_spec j a x
  rw [evalDerivR_id, e'] at e
  obtain rfl := Option.some.inj e
  have hj := h' j le_rfl
  rw [derivSum_eval, ← hj, show coef r' j = r' ⟨j, by omega⟩ by unfold coef; rw [dif_pos (by omega)], h]
  dsimp only [id]
  rw [seqC_factorial]
  unfold exactS
  split
  · have : j = 0 ∨ j = 1 := by omega
    rcases this with rfl | rfl <;> simp
  · ring

theorem exactS_abs {n : ℕ} (a : Arr ℝ n) (x : ℝ) : ∀ k j, |exactS a x k j| ≤ exactS (absArr a) |x| k j
  | 0, 0 => le_rfl
  | 0, j + 1 => by simp [exactS, seqS]
  | k + 1, 0 => by
    have h := exactS_abs a x k 0
    simp only [exactS, seqS] at h ⊢
    refine (abs_add_le _ _).trans (add_le_add ?_ le_rfl)
    rw [abs_mul]
    exact mul_le_mul_of_nonneg_right h (abs_nonneg _)
  | k + 1, j + 1 => by
    have h := exactS_abs a x k (j + 1)
    have h' := exactS_abs a x k j
    simp only [exactS, seqS] at h h' ⊢
    split
    · refine (abs_add_le _ _).trans (add_le_add ?_ h')
      rw [abs_mul]
      exact mul_le_mul_of_nonneg_right h (abs_nonneg _)
    · simp

theorem exactS_nonneg {n : ℕ} (a : Arr ℝ n) {B : ℝ} (hB : 0 ≤ B) (k j : ℕ) : 0 ≤ exactS (absArr a) B k j := by
  have := (abs_nonneg _).trans (exactS_abs a B k j)
  rwa [abs_of_nonneg hB] at this

/-- `∑ C(i,l) y^(i-l)` for `i < k`. -/
def binSum (y : ℝ) (k l : ℕ) : ℝ := ∑ i ∈ Finset.range k, (i.choose l : ℝ) * y ^ (i - l)

theorem binSum_zero (y : ℝ) (k : ℕ) : binSum y (k + 1) 0 = 1 + y * binSum y k 0 := by
  unfold binSum
  rw [Finset.sum_range_succ', Finset.mul_sum, add_comm]
  simp [pow_succ, mul_comm]

theorem binSum_succ (y : ℝ) (k l : ℕ) : binSum y (k + 1) (l + 1) = binSum y k l + y * binSum y k (l + 1) := by
  unfold binSum
  rw [Finset.sum_range_succ', Finset.mul_sum, ← Finset.sum_add_distrib]
  simp only [Nat.choose_zero_succ, Nat.cast_zero, zero_mul, add_zero]
  refine Finset.sum_congr rfl fun i _ => ?_
  rw [Nat.choose_succ_succ]
  push_cast
  rw [Nat.succ_eq_add_one]
  rcases Nat.lt_or_ge i (l + 1) with h | h
  · rw [Nat.choose_eq_zero_of_lt h]; simp
  · rw [show i - l = i - (l + 1) + 1 by omega, pow_succ]; ring

/-- The coefficients of the underflow error. -/
def gSum (v y : ℝ) (k j : ℕ) : ℝ := ∑ l ∈ Finset.range (j + 1), v ^ l * binSum y k l

theorem gSum_zero (v y : ℝ) (k : ℕ) : gSum v y (k + 1) 0 = 1 + y * gSum v y k 0 := by
  simp [gSum, binSum_zero]

theorem gSum_succ (v y : ℝ) (k j : ℕ) : gSum v y (k + 1) (j + 1) = 1 + y * gSum v y k (j + 1) + v * gSum v y k j := by
  unfold gSum
  rw [Finset.sum_range_succ', Finset.sum_range_succ' (fun l => v ^ l * binSum y k l) (j + 1), mul_add, Finset.mul_sum, Finset.mul_sum]
  simp only [binSum_succ, binSum_zero, pow_zero, one_mul]
  rw [show (∑ l ∈ Finset.range (j + 1), v ^ (l + 1) * (binSum y k l + y * binSum y k (l + 1))) =
      ∑ l ∈ Finset.range (j + 1), v * (v ^ l * binSum y k l) + ∑ l ∈ Finset.range (j + 1), y * (v ^ (l + 1) * binSum y k (l + 1)) by
    rw [← Finset.sum_add_distrib]; refine Finset.sum_congr rfl fun i _ => ?_; rw [pow_succ]; ring]
  ring

theorem gSum_nonneg {v y : ℝ} (hv : 0 ≤ v) (hy : 0 ≤ y) (k j : ℕ) : 0 ≤ gSum v y k j :=
  Finset.sum_nonneg fun _ _ => mul_nonneg (pow_nonneg hv _) (Finset.sum_nonneg fun _ _ => mul_nonneg (Nat.cast_nonneg _) (pow_nonneg hy _))

theorem nest_step (φ : Format) {s x c T C A A0 e e0 : ℝ} (h1 : |s - T| ≤ e) (h2 : |T| ≤ A) (h3 : |c - C| ≤ e0) (h4 : |C| ≤ A0) :
    |φ.rnd (φ.rnd (s * x) + c) - (T * x + C)| ≤
      φ.u * (A * |x| + A0) + (1 + φ.u) * φ.u * |x| * A + (1 + φ.u) ^ 2 * |x| * e + (1 + φ.u) * e0 + (2 + φ.u) * φ.η := by
  have hA' : |T * x + c| ≤ A * |x| + A0 + e0 := by
    have e1 : |T * x| ≤ A * |x| := by rw [abs_mul]; exact mul_le_mul_of_nonneg_right h2 (abs_nonneg _)
    have e2 : |c| ≤ A0 + e0 := by have := abs_sub_abs_le_abs_sub c C; linarith
    exact (abs_add_le _ _).trans (by linarith)
  have h := horner_step φ h1 h2 hA'
  have : φ.rnd (φ.rnd (s * x) + c) - (T * x + C) = (φ.rnd (φ.rnd (s * x) + c) - (T * x + c)) + (c - C) := by ring
  rw [this]
  refine (abs_add_le _ _).trans ?_
  linarith

/-- The rounded scheme. -/
noncomputable def roundS (φ : Format) {n : ℕ} (a : Arr ℝ n) (x : ℝ) : ℕ → ℕ → ℝ := seqS (fun s c => φ.rnd (φ.rnd (s * x) + c)) 0 a

theorem roundS_error (φ : Format) {n : ℕ} (a : Arr ℝ n) (x : ℝ) : ∀ k j, |roundS φ a x k j - exactS a x k j| ≤
    ((1 + φ.u) ^ (2 * k) - 1) * exactS (absArr a) |x| k j + φ.η * (2 + φ.u) * gSum (1 + φ.u) ((1 + φ.u) ^ 2 * |x|) k j := by
  have hu := φ.u_nonneg
  have hη := φ.η_nonneg
  have hx := abs_nonneg x
  have hy : 0 ≤ (1 + φ.u) ^ 2 * |x| := by positivity
  have hv : 0 ≤ 1 + φ.u := by linarith
  intro k
  induction k with
  | zero =>
    intro j
    have : roundS φ a x 0 j = exactS a x 0 j := by cases j <;> rfl
    rw [this, sub_self, abs_zero]
    have := mul_nonneg (mul_nonneg hη (by linarith : 0 ≤ 2 + φ.u)) (gSum_nonneg hv hy 0 j)
    simpa using this
  | succ k ih =>
    have hg : 1 ≤ (1 + φ.u) ^ (2 * k) := one_le_pow₀ (by linarith)
    have eg : (1 + φ.u) ^ (2 * (k + 1)) = (1 + φ.u) ^ (2 * k) * (1 + φ.u) ^ 2 := by rw [← pow_add]; congr 1
    intro j
    cases j with
    | zero =>
      have h := nest_step φ (x := x) (ih 0) (exactS_abs a x k 0) (c := a ⟨n - (k + 1), by omega⟩) (C := a ⟨n - (k + 1), by omega⟩) (e0 := 0)
        (by simp) le_rfl
      have e1 : roundS φ a x (k + 1) 0 = φ.rnd (φ.rnd (roundS φ a x k 0 * x) + a ⟨n - (k + 1), by omega⟩) := rfl
      have e2 : exactS a x (k + 1) 0 = exactS a x k 0 * x + a ⟨n - (k + 1), by omega⟩ := rfl
      have e3 : exactS (absArr a) |x| (k + 1) 0 = exactS (absArr a) |x| k 0 * |x| + |a ⟨n - (k + 1), by omega⟩| := rfl
      rw [e1, e2, e3, gSum_zero, eg]
      refine h.trans ?_
      have hA := exactS_nonneg a hx k 0
      have hA0 := abs_nonneg (a ⟨n - (k + 1), by omega⟩)
      have hG := gSum_nonneg hv hy k 0
      generalize (1 + φ.u) ^ (2 * k) = g at hg ⊢
      generalize exactS (absArr a) |x| k 0 = A at *
      generalize |a ⟨n - (k + 1), by omega⟩| = A0 at *
      generalize gSum (1 + φ.u) ((1 + φ.u) ^ 2 * |x|) k 0 = G at *
      have hkey : 0 ≤ (g * (1 + φ.u) ^ 2 - 1 - φ.u) * A0 := by
        refine mul_nonneg ?_ hA0
        nlinarith [mul_nonneg hu hu]
      nlinarith
    | succ j =>
      have e1 : roundS φ a x (k + 1) (j + 1) = if j ≤ k then φ.rnd (φ.rnd (roundS φ a x k (j + 1) * x) + roundS φ a x k j) else 0 := rfl
      have e2 : exactS a x (k + 1) (j + 1) = if j ≤ k then exactS a x k (j + 1) * x + exactS a x k j else 0 := rfl
      have e3 : exactS (absArr a) |x| (k + 1) (j + 1) =
        if j ≤ k then exactS (absArr a) |x| k (j + 1) * |x| + exactS (absArr a) |x| k j else 0 := rfl
      by_cases hjk : j ≤ k
      · rw [if_pos hjk] at e1 e2 e3
        have h := nest_step φ (x := x) (ih (j + 1)) (exactS_abs a x k (j + 1)) (ih j) (exactS_abs a x k j)
        rw [e1, e2, e3, gSum_succ, eg]
        refine h.trans ?_
        have hA := exactS_nonneg a hx k (j + 1)
        have hA0 := exactS_nonneg a hx k j
        clear h ih
        generalize (1 + φ.u) ^ (2 * k) = g at hg ⊢
        generalize exactS (absArr a) |x| k (j + 1) = A at *
        generalize exactS (absArr a) |x| k j = A0 at *
        generalize gSum (1 + φ.u) ((1 + φ.u) ^ 2 * |x|) k (j + 1) = G at *
        generalize gSum (1 + φ.u) ((1 + φ.u) ^ 2 * |x|) k j = G' at *
        have hkey : 0 ≤ (1 + φ.u) * φ.u * (g * A0) := by positivity
        have : (((g * (1 + φ.u) ^ 2) - 1) * (A * |x| + A0) + φ.η * (2 + φ.u) * (1 + (1 + φ.u) ^ 2 * |x| * G + (1 + φ.u) * G')) -
          (φ.u * (A * |x| + A0) + (1 + φ.u) * φ.u * |x| * A + (1 + φ.u) ^ 2 * |x| * ((g - 1) * A + φ.η * (2 + φ.u) * G) +
            (1 + φ.u) * ((g - 1) * A0 + φ.η * (2 + φ.u) * G') + (2 + φ.u) * φ.η) = (1 + φ.u) * φ.u * (g * A0) := by ring
        linarith
      · rw [if_neg hjk] at e1 e2 e3
        rw [e1, e2, e3, sub_self, abs_zero, mul_zero, zero_add]
        exact mul_nonneg (mul_nonneg hη (by linarith)) (gSum_nonneg hv hy _ _)

theorem underflowSum_eq (φ : Format) (y : ℝ) (n j : ℕ) :
    underflowSum φ y n j = φ.η * (2 + φ.u) * gSum (1 + φ.u) ((1 + φ.u) ^ 2 * |y|) n j := rfl

/-- **C97**: value and first derivative, each with two roundings per coefficient. -/
theorem C97_error (φ : Format) {n : ℕ} (D : ℕ) (a : Arr ℝ n) (x : ℝ) :
    ∃ r, evalDerivR φ.rnd D a x = some r ∧ ∀ j : Fin (D + 1), (j : ℕ) < 2 →
      |r j - derivSum a x j| ≤ ((1 + φ.u) ^ (2 * n) - 1) * derivSum (absArr a) |x| j + underflowSum φ x n j := by
  obtain ⟨r, e, h⟩ := evalDerivR_run φ.rnd D a x
  refine ⟨r, e, fun j hj => ?_⟩
  rw [h, if_pos hj, ← exactS_deriv, ← exactS_deriv, underflowSum_eq]
  have : ((j : ℕ).factorial : ℝ) = 1 := by
    have : (j : ℕ) = 0 ∨ (j : ℕ) = 1 := by omega
    rcases this with h | h <;> rw [h] <;> simp
  rw [this, one_mul, one_mul]
  exact roundS_error φ a x n j

/-- **C97**: the higher derivatives. If the factorials are representable, one more rounding. -/
theorem C97_error_higher (φ : Format) {n : ℕ} (D : ℕ) (a : Arr ℝ n) (x : ℝ)
    (hD : ∀ i, i ≤ D → (i : ℝ) ∈ φ.F ∧ (i.factorial : ℝ) ∈ φ.F) :
    ∃ r, evalDerivR φ.rnd D a x = some r ∧ ∀ j : Fin (D + 1),
      |r j - derivSum a x j| ≤ ((1 + φ.u) ^ (2 * n + 1) - 1) * derivSum (absArr a) |x| j +
        ((1 + φ.u) * ((j : ℕ).factorial * underflowSum φ x n j) + φ.η) := by
  have hu := φ.u_nonneg
  have hη := φ.η_nonneg
  have hx := abs_nonneg x
  have hy : 0 ≤ (1 + φ.u) ^ 2 * |x| := by positivity
  have hv : 0 ≤ 1 + φ.u := by linarith
  obtain ⟨r, e, h⟩ := evalDerivR_run φ.rnd D a x
  refine ⟨r, e, fun j => ?_⟩
  rw [h, ← exactS_deriv, ← exactS_deriv, underflowSum_eq]
  have hU := mul_nonneg (mul_nonneg hη (by linarith : 0 ≤ 2 + φ.u)) (gSum_nonneg hv hy n j)
  have hg : 1 ≤ (1 + φ.u) ^ (2 * n) := one_le_pow₀ (by linarith)
  have hA := exactS_nonneg a hx n j
  have hS := roundS_error φ a x n j
  have hT := exactS_abs a x n j
  have hfac : (1 : ℝ) ≤ ((j : ℕ).factorial : ℝ) := by exact_mod_cast Nat.one_le_iff_ne_zero.2 (Nat.factorial_ne_zero _)
  rw [pow_succ]
  change |(if (j : ℕ) < 2 then roundS φ a x n j else φ.rnd (roundS φ a x n j * _)) - _| ≤ _
  have hC : ∀ i, i ≤ D → seqC (fun (s : ℝ) i => φ.rnd (s * φ.rnd (i : ℝ))) 1 i = (i.factorial : ℝ) := by
    intro i
    induction i with
    | zero => intro _; simp [seqC]
    | succ i ih =>
      intro hi
      cases i with
      | zero => simp [seqC]
      | succ i =>
        rw [seqC, ih (by omega), φ.rnd_of_mem (hD _ hi).1]
        have : ((i + 1).factorial : ℝ) * ((i + 2 : ℕ) : ℝ) = ((i + 2).factorial : ℝ) := by
          rw [Nat.factorial_succ (i + 1)]; push_cast; ring
        rw [this, φ.rnd_of_mem (hD _ hi).2]
  rw [hC j (by omega)]
  generalize φ.η * (2 + φ.u) * gSum (1 + φ.u) ((1 + φ.u) ^ 2 * |x|) n j = U at *
  generalize (1 + φ.u) ^ (2 * n) = g at *
  generalize exactS (absArr a) |x| n j = A at *
  generalize exactS a x n j = T at *
  generalize roundS φ a x n j = s at *
  by_cases hj : (j : ℕ) < 2
  · have e1 : ((j : ℕ).factorial : ℝ) = 1 := by
      have : (j : ℕ) = 0 ∨ (j : ℕ) = 1 := by omega
      rcases this with h | h <;> rw [h] <;> simp
    rw [if_pos hj, e1, one_mul, one_mul, one_mul]
    have := mul_nonneg (mul_nonneg (by linarith : 0 ≤ g) hu) hA
    have := mul_nonneg hu hU
    nlinarith
  · rw [if_neg hj]
    generalize ((j : ℕ).factorial : ℝ) = F at *
    have h1 := φ.error (s * F)
    have hF : 0 ≤ F := by linarith
    have h2 : |s| ≤ A + ((g - 1) * A + U) := by have := abs_sub_abs_le_abs_sub s T; linarith
    have e2 : φ.rnd (s * F) - F * T = (φ.rnd (s * F) - s * F) + (s - T) * F := by ring
    rw [e2]
    refine (abs_add_le _ _).trans ?_
    rw [abs_mul, abs_of_nonneg hF] at h1 ⊢
    have h3 := mul_le_mul_of_nonneg_right hS hF
    have h4 := mul_le_mul_of_nonneg_left (mul_le_mul_of_nonneg_right h2 hF) hu
    have : ((g * (1 + φ.u) - 1) * (F * A) + ((1 + φ.u) * (F * U) + φ.η)) -
      ((φ.u * ((A + ((g - 1) * A + U)) * F) + φ.η) + ((g - 1) * A + U) * F) = 0 := by ring
    linarith

end Stator.Fp
