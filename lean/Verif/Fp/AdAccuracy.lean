import Verif.Ad.AnyArith
import Verif.Fp.Accuracy
import Verif.Fp.Ieee

/-!
# C104: accuracy of automatic differentiation

The derivatives `ad` computes for a polynomial expression in floating-point arithmetic, compared with the true ones.
-/

namespace Stator.Fp

open Stator Stator.Ad Stator.Pol Finset

/-! ## Specification -/

/-- Sums, differences and products of numbers and `x`. -/
def PolyExpr {K : Type} (x : List Char) : Expr K → Prop
  | .const _ => True
  | .var n => n = x
  | .bin o l r => (o = .add ∨ o = .sub ∨ o = .mul) ∧ PolyExpr x l ∧ PolyExpr x r
  | _ => False

/-- The function of `x` the expression stands for, over the real numbers. -/
def polyFn {φ : Format} : Expr (Fl φ) → ℝ → ℝ
  | .const c, _ => c.1
  | .var _, t => t
  | .bin .add l r, t => polyFn l t + polyFn r t
  | .bin .sub l r, t => polyFn l t - polyFn r t
  | .bin .mul l r, t => polyFn l t * polyFn r t
  | _, _ => 0

/-- The Taylor coefficients at `|a|` of the expression with all minus signs removed: no cancellation takes place in them. -/
def sizes {φ : Format} (a : ℝ) : Expr (Fl φ) → ℕ → ℝ
  | .const c, k => if k = 0 then |c.1| else 0
  | .var _, k => if k = 0 then |a| else if k = 1 then 1 else 0
  | .bin .mul l r, k => ∑ i ∈ range (k + 1), sizes a l i * sizes a r (k - i)
  | .bin _ l r, k => sizes a l k + sizes a r k
  | _, _ => 0

/-- The number of roundings in a row, for the derivatives up to `N`: a product has one for each of the at most `N+1` terms of an entry
and one less for adding them up. -/
def adRoundings {K : Type} (N : ℕ) : Expr K → ℕ
  | .bin .mul l r => adRoundings N l + adRoundings N r + (N + 1)
  | .bin _ l r => max (adRoundings N l) (adRoundings N r) + 1
  | _ => 0

/-- No product of two of the computed entries underflows. -/
def ProductsFine {φ : Format} (lib : Libm φ) (nat : ℕ → Fl φ) (N : ℕ) (x : List Char) (a : Fl φ) : Expr (Fl φ) → Prop
  | .bin o l r => ProductsFine lib nat N x a l ∧ ProductsFine lib nat N x a r ∧ (o = .mul →
      ∀ c d, adG (total (flOps φ lib) nat) N x a l.height l = .ok (some c) →
        adG (total (flOps φ lib) nat) N x a r.height r = .ok (some d) →
        ∀ i j, |φ.rnd (c i * d j) - c i * d j| ≤ φ.u * |(c i * d j : ℝ)|)
  | _ => True

/-! ## Proofs -/

variable {φ : Format}

theorem polyFn_analytic {x : List Char} {e : Expr (Fl φ)} (he : PolyExpr x e) (a : ℝ) : AnalyticAt ℝ (polyFn e) a := by
  induction e using Expr.ind with
  | const c => exact analyticAt_const
  | var n => exact analyticAt_id
  | bin o l r ihl ihr =>
    obtain ⟨ho, hl, hr⟩ := he
    rcases ho with rfl | rfl | rfl
    · exact (ihl hl).add (ihr hr)
    · exact (ihl hl).sub (ihr hr)
    · exact (ihl hl).mul (ihr hr)
  | un => exact he.elim
  | arr => exact he.elim
  | dict => exact he.elim

theorem sizes_nonneg (a : ℝ) (e : Expr (Fl φ)) (k : ℕ) : 0 ≤ sizes a e k := by
  induction e using Expr.ind generalizing k with
  | const c => unfold sizes; split <;> positivity
  | var n => unfold sizes; split_ifs <;> positivity
  | bin o l r ihl ihr =>
    cases o <;> unfold sizes <;> first
      | exact add_nonneg (ihl k) (ihr k)
      | exact sum_nonneg fun i _ => mul_nonneg (ihl _) (ihr _)
  | un => simp [sizes]
  | arr => simp [sizes]
  | dict => simp [sizes]

theorem T_le_sizes {x : List Char} {e : Expr (Fl φ)} (he : PolyExpr x e) (a : ℝ) (k : ℕ) : |T (polyFn e) a k| ≤ sizes a e k := by
  induction e using Expr.ind generalizing k with
  | const c =>
    have := T_const c.1 a k
    show |T (fun _ => c.1) a k| ≤ _
    rw [this]
    unfold sizes
    split <;> simp
  | var n =>
    show |T (fun t => t) a k| ≤ _
    rw [T_id]
    unfold sizes
    split_ifs <;> simp
  | bin o l r ihl ihr =>
    obtain ⟨ho, hl, hr⟩ := he
    rcases ho with rfl | rfl | rfl
    · show |T (polyFn l + polyFn r) a k| ≤ sizes a l k + sizes a r k
      rw [T_add (polyFn_analytic hl a) (polyFn_analytic hr a)]
      exact (abs_add_le _ _).trans (add_le_add (ihl hl k) (ihr hr k))
    · show |T (polyFn l - polyFn r) a k| ≤ sizes a l k + sizes a r k
      rw [T_sub (polyFn_analytic hl a) (polyFn_analytic hr a)]
      exact (abs_sub _ _).trans (add_le_add (ihl hl k) (ihr hr k))
    · show |T (polyFn l * polyFn r) a k| ≤ ∑ i ∈ range (k + 1), sizes a l i * sizes a r (k - i)
      rw [T_mul (polyFn_analytic hl a) (polyFn_analytic hr a)]
      refine (abs_sum_le_sum_abs _ _).trans (sum_le_sum fun i _ => ?_)
      rw [abs_mul]
      exact mul_le_mul (ihl hl _) (ihr hr _) (abs_nonneg _) (sizes_nonneg _ _ _)
  | un => exact he.elim
  | arr => exact he.elim
  | dict => exact he.elim

/-- The sum of rounded products. -/
theorem dot_close (sums : ∀ a ∈ φ.F, ∀ b ∈ φ.F, |φ.rnd (a + b) - (a + b)| ≤ φ.u * |a + b|) (lib : Libm φ)
    (l r : ℕ → Fl φ) (L R A B : ℕ → ℝ) (q : ℝ) (hq : 1 ≤ q) (hA : ∀ i, |L i| ≤ A i) (hB : ∀ i, |R i| ≤ B i) (c : ℕ)
    (h : ∀ i, i ≤ c → |φ.rnd (l i * r i) - L i * R i| ≤ (q - 1) * (A i * B i)) :
    |(fold (fun i v => (flOps φ lib).add v ((flOps φ lib).mul (l i) (r i))) 0 (c + 1) (flOps φ lib).zero).1
        - ∑ i ∈ range (c + 1), L i * R i|
      ≤ (q * (1 + φ.u) ^ c - 1) * ∑ i ∈ range (c + 1), A i * B i := by
  have hu := φ.u_nonneg
  have hAB : ∀ i, |L i * R i| ≤ A i * B i := fun i => by
    rw [abs_mul]; exact mul_le_mul (hA i) (hB i) (abs_nonneg _) ((abs_nonneg _).trans (hA i))
  induction c with
  | zero =>
    have e : (fold (fun i v => (flOps φ lib).add v ((flOps φ lib).mul (l i) (r i))) 0 (0 + 1) (flOps φ lib).zero).1 =
        φ.rnd (l 0 * r 0) := by
      show φ.rnd (0 + φ.rnd (l 0 * r 0)) = _
      rw [zero_add, φ.rnd_rnd]
    rw [e]
    simpa using h 0 le_rfl
  | succ c ih =>
    have h1 := ih fun i hi => h i (by omega)
    have h2 := h (c + 1) le_rfl
    set s := fold (fun i v => (flOps φ lib).add v ((flOps φ lib).mul (l i) (r i))) 0 (c + 1) (flOps φ lib).zero with hs
    have e : (fold (fun i v => (flOps φ lib).add v ((flOps φ lib).mul (l i) (r i))) 0 (c + 1 + 1) (flOps φ lib).zero).1 =
        φ.rnd (s.1 + φ.rnd (l (c + 1) * r (c + 1))) := by
      rw [Ad.fold, ← hs, zero_add]; rfl
    rw [e, sum_range_succ, sum_range_succ _ (c + 1)]
    have hp : 1 ≤ (1 + φ.u) ^ c := one_le_pow₀ (by linarith)
    have h2' : |φ.rnd (l (c + 1) * r (c + 1)) - L (c + 1) * R (c + 1)| ≤ (q * (1 + φ.u) ^ c - 1) * (A (c + 1) * B (c + 1)) := by
      refine h2.trans (mul_le_mul_of_nonneg_right ?_ ((abs_nonneg _).trans (hAB _)))
      nlinarith
    have h3 : |s.1 + φ.rnd (l (c + 1) * r (c + 1)) - (∑ i ∈ range (c + 1), L i * R i + L (c + 1) * R (c + 1))| ≤
        (q * (1 + φ.u) ^ c - 1) * (∑ i ∈ range (c + 1), A i * B i + A (c + 1) * B (c + 1)) := by
      rw [mul_add, add_sub_add_comm]
      exact (abs_add_le _ _).trans (add_le_add h1 h2')
    have h4 : |∑ i ∈ range (c + 1), L i * R i + L (c + 1) * R (c + 1)| ≤ ∑ i ∈ range (c + 1), A i * B i + A (c + 1) * B (c + 1) :=
      (abs_add_le _ _).trans (add_le_add ((abs_sum_le_sum_abs _ _).trans (sum_le_sum fun i _ => hAB i)) (hAB _))
    have := grow hu h3 h4 (sums s.1 s.2 _ (φ.mem (l (c + 1) * r (c + 1))))
    rw [pow_succ, ← mul_assoc]
    exact this

theorem ad_key (sums : ∀ a ∈ φ.F, ∀ b ∈ φ.F, |φ.rnd (a + b) - (a + b)| ≤ φ.u * |a + b|) (lib : Libm φ) (nat : ℕ → Fl φ)
    (x : List Char) (a : Fl φ) (N : ℕ) (e : Expr (Fl φ)) (he : PolyExpr x e) (hn : ProductsFine lib nat N x a e) :
    ∃ S : ℕ → Fl φ, (∀ n, e.height ≤ n → adG (total (flOps φ lib) nat) N x a n e = .ok (some (cut N S))) ∧
      ∀ k, k ≤ N → |(S k).1 - T (polyFn e) a.1 k| ≤ ((1 + φ.u) ^ adRoundings N e - 1) * sizes a.1 e k := by
  have hu := φ.u_nonneg
  induction e using Expr.ind with
  | const c =>
    obtain ⟨S, -, hS, h⟩ := const_series (flOps φ lib) nat c
    refine ⟨S, fun n hn => ?_, fun k _ => ?_⟩
    · obtain ⟨n, rfl⟩ : ∃ m, n = m + 1 := ⟨n - 1, by rw [Expr.height] at hn; omega⟩
      rw [adG, hS]
    · show |(S k).1 - T (fun _ => c.1) a.1 k| ≤ _
      rw [T_const, h]
      split <;> simp [adRoundings, flOps]
  | var m =>
    obtain rfl : m = x := he
    obtain ⟨S, -, hS, h⟩ := var_series (flOps φ lib) nat m a
    refine ⟨S, fun n hn => ?_, fun k _ => ?_⟩
    · obtain ⟨n, rfl⟩ : ∃ m, n = m + 1 := ⟨n - 1, by rw [Expr.height] at hn; omega⟩
      rw [adG, hS]
    · show |(S k).1 - T (fun t => t) a.1 k| ≤ _
      rw [T_id, h]
      split_ifs <;> simp [adRoundings, flOps]
  | bin o l r ihl ihr =>
    obtain ⟨ho, hl, hr⟩ := he
    obtain ⟨nl, nr, nm⟩ := hn
    obtain ⟨L, l1, l2⟩ := ihl hl nl
    obtain ⟨R, r1, r2⟩ := ihr hr nr
    have hn' : ∀ n, (Expr.bin o l r).height ≤ n → ∃ m, n = m + 1 ∧ l.height ≤ m ∧ r.height ≤ m := fun n hn => by
      rw [Expr.height] at hn; exact ⟨n - 1, by omega, by omega, by omega⟩
    have al := polyFn_analytic hl a.1
    have ar := polyFn_analytic hr a.1
    have tl := T_le_sizes hl a.1
    have tr := T_le_sizes hr a.1
    rcases ho with rfl | rfl | rfl
    · obtain ⟨S, -, hS, h⟩ := add_series (flOps φ lib) nat L R
      refine ⟨S, fun n hn => ?_, fun k hk => ?_⟩
      · obtain ⟨n, rfl, hn1, hn2⟩ := hn' n hn
        rw [adG, l1 n hn1, r1 n hn2]
        exact congrArg Res.ok (hS N)
      · show |(S k).1 - T (polyFn l + polyFn r) a.1 k| ≤ ((1 + φ.u) ^ (max (adRoundings N l) (adRoundings N r) + 1) - 1) *
          (sizes a.1 l k + sizes a.1 r k)
        rw [T_add al ar, h, pow_succ]
        have h1 := sum_close hu (sizes_nonneg a.1 l k) (sizes_nonneg a.1 r k) (l2 k hk) (r2 k hk)
        refine grow (z := (L k).1 + (R k).1) hu (le_trans ?_ h1) ((abs_add_le _ _).trans (add_le_add (tl k) (tr k)))
          (sums _ (L k).2 _ (R k).2)
        rw [add_sub_add_comm]
        exact abs_add_le _ _
    · obtain ⟨S, -, hS, h⟩ := sub_series (flOps φ lib) nat L R
      refine ⟨S, fun n hn => ?_, fun k hk => ?_⟩
      · obtain ⟨n, rfl, hn1, hn2⟩ := hn' n hn
        rw [adG, l1 n hn1, r1 n hn2]
        exact congrArg Res.ok (hS N)
      · show |(S k).1 - T (polyFn l - polyFn r) a.1 k| ≤ ((1 + φ.u) ^ (max (adRoundings N l) (adRoundings N r) + 1) - 1) *
          (sizes a.1 l k + sizes a.1 r k)
        rw [T_sub al ar, h, pow_succ]
        have h1 := sum_close hu (sizes_nonneg a.1 l k) (sizes_nonneg a.1 r k) (l2 k hk) (r2 k hk)
        refine grow (z := (L k).1 - (R k).1) hu (le_trans ?_ h1) ((abs_sub _ _).trans (add_le_add (tl k) (tr k))) ?_
        · rw [sub_sub_sub_comm]
          exact abs_sub _ _
        · have := sums _ (L k).2 _ (φ.neg _ (R k).2)
          rw [← sub_eq_add_neg] at this
          exact this
    · obtain ⟨S, h0, hS, h⟩ := mul_series (flOps φ lib) nat L R
      refine ⟨S, fun n hn => ?_, fun k hk => ?_⟩
      · obtain ⟨n, rfl, hn1, hn2⟩ := hn' n hn
        rw [adG, l1 n hn1, r1 n hn2]
        exact congrArg Res.ok (hS N)
      · show |(S k).1 - T (polyFn l * polyFn r) a.1 k| ≤ ((1 + φ.u) ^ (adRoundings N l + adRoundings N r + (N + 1)) - 1) *
          ∑ i ∈ range (k + 1), sizes a.1 l i * sizes a.1 r (k - i)
        rw [T_mul al ar]
        have hS : (S k).1 = (fold (fun i v => (flOps φ lib).add v ((flOps φ lib).mul (L i) (R (k - i)))) 0 (k + 1)
            (flOps φ lib).zero).1 := by
          cases k with
          | zero =>
            rw [h0]
            show φ.rnd ((L 0).1 * (R 0).1) = φ.rnd (0 + φ.rnd ((L 0).1 * (R 0).1))
            rw [zero_add, φ.rnd_rnd]
          | succ k => rw [h]
        have fine := nm rfl _ _ (l1 _ le_rfl) (r1 _ le_rfl)
        have key := dot_close sums lib L (fun i => R (k - i)) (T (polyFn l) a.1) (fun i => T (polyFn r) a.1 (k - i))
          (sizes a.1 l) (fun i => sizes a.1 r (k - i)) ((1 + φ.u) ^ adRoundings N l * (1 + φ.u) ^ adRoundings N r * (1 + φ.u))
          (by
            have h1 : 1 ≤ (1 + φ.u) ^ adRoundings N l := one_le_pow₀ (by linarith)
            have h2 : 1 ≤ (1 + φ.u) ^ adRoundings N r := one_le_pow₀ (by linarith)
            exact one_le_mul_of_one_le_of_one_le (one_le_mul_of_one_le_of_one_le h1 h2) (by linarith))
          tl (fun i => tr _) k (fun i hi => by
            have h1 := product_close (tl i) (tr (k - i)) (l2 i (by omega)) (r2 (k - i) (by omega))
            refine grow hu h1 ?_ (fine ⟨i, by omega⟩ ⟨k - i, by omega⟩)
            rw [abs_mul]
            exact mul_le_mul (tl _) (tr _) (abs_nonneg _) (sizes_nonneg _ _ _))
        rw [hS]
        refine key.trans (mul_le_mul_of_nonneg_right ?_ (sum_nonneg fun i _ => mul_nonneg (sizes_nonneg _ _ _) (sizes_nonneg _ _ _)))
        refine sub_le_sub_right ?_ 1
        have e : (1 + φ.u) ^ adRoundings N l * (1 + φ.u) ^ adRoundings N r * (1 + φ.u) * (1 + φ.u) ^ k =
            (1 + φ.u) ^ (adRoundings N l + adRoundings N r + (k + 1)) := by
          rw [pow_add, pow_add, pow_succ]; ring
        rw [e]
        exact pow_le_pow_right₀ (le_add_of_nonneg_right hu) (by omega)
  | un => exact he.elim
  | arr => exact he.elim
  | dict => exact he.elim

section

variable {p : ℕ} {emin : ℤ} {hp : 0 < p} {hem : emin ≤ 0}

/-- **C104**: for a polynomial expression, without underflow in the products, every entry `ad` computes in floating-point arithmetic
differs from `f⁽ᵏ⁾(a)/k!` by at most `(1+u)^m - 1` times what that coefficient would be without any cancellation, with `m` the number
of roundings in a row. -/
theorem C104_accuracy (lib : Libm (bin p emin hp hem)) (nat : ℕ → Fl (bin p emin hp hem)) (x : List Char)
    (a : Fl (bin p emin hp hem)) (N : ℕ) (e : Expr (Fl (bin p emin hp hem))) (he : PolyExpr x e)
    (hn : ProductsFine lib nat N x a e) :
    ∃ c : Arr (Fl (bin p emin hp hem)) N,
      (∀ n, e.height ≤ n → adG (total (flOps (bin p emin hp hem) lib) nat) N x a n e = .ok (some c)) ∧
      ∀ k : Fin (N + 1), |(c k).1 - iteratedDeriv k (polyFn e) a / (k : ℕ).factorial| ≤
        ((1 + (bin p emin hp hem).u) ^ adRoundings N e - 1) * sizes a e k := by
  obtain ⟨S, h1, h2⟩ := ad_key (by
    intro a ha b hb
    obtain ⟨δ, d1, d2⟩ := bin_sum (hp := hp) (he := hem) ha hb
    rw [d2, show (a + b) * (1 + δ) - (a + b) = δ * (a + b) by ring, abs_mul]
    exact mul_le_mul_of_nonneg_right d1 (abs_nonneg _)) lib nat x a N e he hn
  exact ⟨cut N S, h1, fun k => h2 k (by omega)⟩

end

/-! ## Integers -/

/-- Integer constants at an integer point, and no coefficient of any subexpression is above `2^53`, even with all minus signs
removed. -/
def IntegerData (a : Fl binary64) (N : ℕ) : Expr (Fl binary64) → Prop
  | .const c => ∃ z : ℤ, c.1 = z
  | .var _ => ∃ z : ℤ, a.1 = z
  | .bin o l r => IntegerData a N l ∧ IntegerData a N r ∧ ∀ k ≤ N, sizes a (.bin o l r) k ≤ 2 ^ 53
  | _ => False

theorem int_rnd {x : ℝ} (h : ∃ z : ℤ, x = z) (hx : |x| ≤ 2 ^ 53) : binary64.rnd x = x := by
  obtain ⟨z, rfl⟩ := h
  exact binary64.rnd_of_mem (binary64_int z hx)

theorem dot_exact (lib : Libm binary64) (l r : ℕ → Fl binary64) (A B : ℕ → ℝ) (k : ℕ) (hl : ∀ i ≤ k, ∃ z : ℤ, (l i).1 = z)
    (hr : ∀ i ≤ k, ∃ z : ℤ, (r i).1 = z) (hA : ∀ i ≤ k, |(l i).1| ≤ A i) (hB : ∀ i ≤ k, |(r i).1| ≤ B i)
    (hM : ∑ i ∈ range (k + 1), A i * B i ≤ 2 ^ 53) (c : ℕ) (hc : c ≤ k + 1) :
    (fold (fun i v => (flOps binary64 lib).add v ((flOps binary64 lib).mul (l i) (r i))) 0 c (flOps binary64 lib).zero).1
        = ∑ i ∈ range c, (l i).1 * (r i).1 ∧
      (∃ z : ℤ, ∑ i ∈ range c, (l i).1 * (r i).1 = z) := by
  have hAB : ∀ i ≤ k, |(l i).1 * (r i).1| ≤ A i * B i := fun i hi => by
    rw [abs_mul]; exact mul_le_mul (hA i hi) (hB i hi) (abs_nonneg _) ((abs_nonneg _).trans (hA i hi))
  have part : ∀ d ≤ k + 1, ∑ i ∈ range d, A i * B i ≤ 2 ^ 53 := fun d hd =>
    (sum_le_sum_of_subset_of_nonneg (range_mono hd) fun i hi _ =>
      (abs_nonneg _).trans (hAB i (by rw [mem_range] at hi; omega))).trans hM
  have bound : ∀ d ≤ k + 1, |∑ i ∈ range d, (l i).1 * (r i).1| ≤ 2 ^ 53 := fun d hd =>
    (abs_sum_le_sum_abs _ _).trans ((sum_le_sum fun i hi => hAB i (by rw [mem_range] at hi; omega)).trans (part d hd))
  induction c with
  | zero => exact ⟨by simp [Ad.fold, flOps], 0, by simp⟩
  | succ c ih =>
    obtain ⟨h1, z, h2⟩ := ih (by omega)
    obtain ⟨u, hu⟩ := hl c (by omega)
    obtain ⟨v, hv⟩ := hr c (by omega)
    have hz : ∃ w : ℤ, ∑ i ∈ range (c + 1), (l i).1 * (r i).1 = w := ⟨z + u * v, by rw [sum_range_succ, h2, hu, hv]; push_cast; ring⟩
    refine ⟨?_, hz⟩
    have hp : binary64.rnd ((l c).1 * (r c).1) = (l c).1 * (r c).1 := by
      refine int_rnd ⟨u * v, by rw [hu, hv]; push_cast; ring⟩ ((hAB c (by omega)).trans (le_trans ?_ hM))
      exact single_le_sum (f := fun i => A i * B i)
        (fun i hi => (abs_nonneg _).trans (hAB i (by rw [mem_range] at hi; omega))) (mem_range.2 (by omega))
    rw [Ad.fold, zero_add]
    show binary64.rnd ((fold (fun i v => (flOps binary64 lib).add v ((flOps binary64 lib).mul (l i) (r i))) 0 c
      (flOps binary64 lib).zero).1 + binary64.rnd ((l c).1 * (r c).1)) = _
    rw [h1, hp, ← sum_range_succ]
    exact int_rnd hz (bound (c + 1) hc)

/-- **C104**: with integers up to `2^53` the derivatives `ad` computes in double arithmetic are exact. -/
theorem C104_integers (lib : Libm binary64) (nat : ℕ → Fl binary64) (x : List Char) (a : Fl binary64) (N : ℕ)
    (e : Expr (Fl binary64)) (he : PolyExpr x e) (hi : IntegerData a N e) :
    ∃ c : Arr (Fl binary64) N, (∀ n, e.height ≤ n → adG (total (flOps binary64 lib) nat) N x a n e = .ok (some c)) ∧
      ∀ k : Fin (N + 1), (c k).1 = iteratedDeriv k (polyFn e) a / (k : ℕ).factorial := by
  suffices h : ∃ S : ℕ → Fl binary64, (∀ n, e.height ≤ n → adG (total (flOps binary64 lib) nat) N x a n e = .ok (some (cut N S))) ∧
      ∀ k ≤ N, (S k).1 = T (polyFn e) a.1 k ∧ ∃ z : ℤ, (S k).1 = z by
    obtain ⟨S, h1, h2⟩ := h
    exact ⟨cut N S, h1, fun k => (h2 k (by omega)).1⟩
  induction e using Expr.ind with
  | const c =>
    obtain ⟨S, -, hS, h⟩ := const_series (flOps binary64 lib) nat c
    refine ⟨S, fun n hn => ?_, fun k _ => ?_⟩
    · obtain ⟨n, rfl⟩ : ∃ m, n = m + 1 := ⟨n - 1, by rw [Expr.height] at hn; omega⟩
      rw [adG, hS]
    · show (S k).1 = T (fun _ => c.1) a.1 k ∧ _
      rw [T_const, h]
      obtain ⟨z, hz⟩ := hi
      split
      · exact ⟨rfl, z, hz⟩
      · exact ⟨rfl, 0, by simp [flOps]⟩
  | var m =>
    obtain rfl : m = x := he
    obtain ⟨S, -, hS, h⟩ := var_series (flOps binary64 lib) nat m a
    refine ⟨S, fun n hn => ?_, fun k _ => ?_⟩
    · obtain ⟨n, rfl⟩ : ∃ m, n = m + 1 := ⟨n - 1, by rw [Expr.height] at hn; omega⟩
      rw [adG, hS]
    · show (S k).1 = T (fun t => t) a.1 k ∧ _
      rw [T_id, h]
      obtain ⟨z, hz⟩ := hi
      split_ifs
      · exact ⟨rfl, z, hz⟩
      · exact ⟨rfl, 1, by simp [flOps]⟩
      · exact ⟨rfl, 0, by simp [flOps]⟩
  | bin o l r ihl ihr =>
    obtain ⟨ho, hl, hr⟩ := he
    obtain ⟨nl, nr, nm⟩ := hi
    obtain ⟨L, l1, l2⟩ := ihl hl nl
    obtain ⟨R, r1, r2⟩ := ihr hr nr
    have hn' : ∀ n, (Expr.bin o l r).height ≤ n → ∃ m, n = m + 1 ∧ l.height ≤ m ∧ r.height ≤ m := fun n hn => by
      rw [Expr.height] at hn; exact ⟨n - 1, by omega, by omega, by omega⟩
    have al := polyFn_analytic hl a.1
    have ar := polyFn_analytic hr a.1
    have tl : ∀ k ≤ N, |(L k).1| ≤ sizes a.1 l k := fun k hk => by rw [(l2 k hk).1]; exact T_le_sizes hl a.1 k
    have tr : ∀ k ≤ N, |(R k).1| ≤ sizes a.1 r k := fun k hk => by rw [(r2 k hk).1]; exact T_le_sizes hr a.1 k
    rcases ho with rfl | rfl | rfl
    · obtain ⟨S, -, hS, h⟩ := add_series (flOps binary64 lib) nat L R
      refine ⟨S, fun n hn => ?_, fun k hk => ?_⟩
      · obtain ⟨n, rfl, hn1, hn2⟩ := hn' n hn
        rw [adG, l1 n hn1, r1 n hn2]
        exact congrArg Res.ok (hS N)
      · obtain ⟨u, hu⟩ := (l2 k hk).2
        obtain ⟨v, hv⟩ := (r2 k hk).2
        have hz : ∃ z : ℤ, (L k).1 + (R k).1 = z := ⟨u + v, by rw [hu, hv]; push_cast; ring⟩
        have e : (S k).1 = (L k).1 + (R k).1 := by
          rw [h]
          exact int_rnd hz ((abs_add_le _ _).trans ((add_le_add (tl k hk) (tr k hk)).trans (nm k hk)))
        show (S k).1 = T (polyFn l + polyFn r) a.1 k ∧ _
        rw [T_add al ar, ← (l2 k hk).1, ← (r2 k hk).1, e]
        exact ⟨rfl, hz⟩
    · obtain ⟨S, -, hS, h⟩ := sub_series (flOps binary64 lib) nat L R
      refine ⟨S, fun n hn => ?_, fun k hk => ?_⟩
      · obtain ⟨n, rfl, hn1, hn2⟩ := hn' n hn
        rw [adG, l1 n hn1, r1 n hn2]
        exact congrArg Res.ok (hS N)
      · obtain ⟨u, hu⟩ := (l2 k hk).2
        obtain ⟨v, hv⟩ := (r2 k hk).2
        have hz : ∃ z : ℤ, (L k).1 - (R k).1 = z := ⟨u - v, by rw [hu, hv]; push_cast; ring⟩
        have e : (S k).1 = (L k).1 - (R k).1 := by
          rw [h]
          exact int_rnd hz ((abs_sub _ _).trans ((add_le_add (tl k hk) (tr k hk)).trans (nm k hk)))
        show (S k).1 = T (polyFn l - polyFn r) a.1 k ∧ _
        rw [T_sub al ar, ← (l2 k hk).1, ← (r2 k hk).1, e]
        exact ⟨rfl, hz⟩
    · obtain ⟨S, h0, hS, h⟩ := mul_series (flOps binary64 lib) nat L R
      refine ⟨S, fun n hn => ?_, fun k hk => ?_⟩
      · obtain ⟨n, rfl, hn1, hn2⟩ := hn' n hn
        rw [adG, l1 n hn1, r1 n hn2]
        exact congrArg Res.ok (hS N)
      · have hS : (S k).1 = (fold (fun i v => (flOps binary64 lib).add v ((flOps binary64 lib).mul (L i) (R (k - i)))) 0 (k + 1)
            (flOps binary64 lib).zero).1 := by
          cases k with
          | zero =>
            rw [h0]
            show binary64.rnd ((L 0).1 * (R 0).1) = binary64.rnd (0 + binary64.rnd ((L 0).1 * (R 0).1))
            rw [zero_add, binary64.rnd_rnd]
          | succ k => rw [h]
        obtain ⟨d1, d2⟩ := dot_exact lib L (fun i => R (k - i)) (sizes a.1 l) (fun i => sizes a.1 r (k - i)) k
          (fun i hi => (l2 i (by omega)).2) (fun i hi => (r2 (k - i) (by omega)).2) (fun i hi => tl i (by omega))
          (fun i hi => tr (k - i) (by omega)) (nm k hk) (k + 1) le_rfl
        show (S k).1 = T (polyFn l * polyFn r) a.1 k ∧ _
        rw [hS, d1, T_mul al ar]
        refine ⟨sum_congr rfl fun i hi => ?_, d2⟩
        rw [mem_range] at hi
        rw [← (l2 i (by omega)).1, ← (r2 (k - i) (by omega)).1]
  | un => exact he.elim
  | arr => exact he.elim
  | dict => exact he.elim

/-! ## Concrete cases -/

theorem sample_mem : ∀ x : ℝ, x = 3 ∨ x = 9 / 4 ∨ x = 3 / 2 ∨ x = 1 ∨ x = 0 → x ∈ binary64.F := by
  have key : ∀ m : ℤ, |m| < 2 ^ 53 → (m : ℝ) * 2 ^ (-2 : ℤ) ∈ binary64.F := fun m hm => ⟨m, -2, by norm_num, hm, rfl⟩
  rintro x (rfl | rfl | rfl | rfl | rfl)
  · convert key 12 (by norm_num) using 1; norm_num
  · convert key 9 (by norm_num) using 1; norm_num
  · convert key 6 (by norm_num) using 1; norm_num
  · convert key 4 (by norm_num) using 1; norm_num
  · convert key 0 (by norm_num) using 1; norm_num

/-- The constant 3 and the point 3/2. -/
noncomputable def adThree : Fl binary64 := ⟨3, sample_mem 3 (by simp)⟩
noncomputable def adPoint : Fl binary64 := ⟨3 / 2, sample_mem (3 / 2) (by simp)⟩

/-- `x*x - 3` in double arithmetic at `x = 3/2`, to any order. -/
example (N : ℕ) (lib : Libm binary64) (nat : ℕ → Fl binary64) :
    PolyExpr ['x'] (.bin .sub (.bin .mul (.var ['x']) (.var ['x'])) (.const adThree)) ∧
    ProductsFine lib nat N ['x'] adPoint (.bin .sub (.bin .mul (.var ['x']) (.var ['x'])) (.const adThree)) := by
  refine ⟨⟨by simp, ⟨by simp, rfl, rfl⟩, trivial⟩, ⟨trivial, trivial, fun _ c d hc hd i j => ?_⟩, trivial, by simp⟩
  obtain ⟨S, -, hS, h⟩ := var_series (flOps binary64 lib) nat ['x'] adPoint
  have e : ∀ c : Arr (Fl binary64) N, adG (total (flOps binary64 lib) nat) N ['x'] adPoint (Expr.var ['x'] : Expr (Fl binary64)).height
      (.var ['x']) = .ok (some c) → c = cut N S := fun c hc => by
    rw [Expr.height, adG, hS] at hc
    injection hc with hc
    injection hc with hc
    exact hc.symm
  rw [e c hc, e d hd]
  have v : ∀ k, (S k).1 = 3 / 2 ∨ (S k).1 = 1 ∨ (S k).1 = 0 := fun k => by
    rw [h]; split_ifs <;> simp [flOps, adPoint]
  have : ((S i).1 * (S j).1) ∈ binary64.F := by
    apply sample_mem
    rcases v i with e | e | e <;> rcases v j with e' | e' | e' <;> rw [e, e'] <;> norm_num
  show |binary64.rnd ((S i).1 * (S j).1) - (S i).1 * (S j).1| ≤ _
  rw [binary64.rnd_of_mem this, sub_self, abs_zero]
  exact mul_nonneg binary64.u_nonneg (abs_nonneg _)

/-- `(x*x - 3) * x` at `x = 3`, with two derivatives: the data are integers and small. -/
example : IntegerData adThree 2 (.bin .mul (.bin .sub (.bin .mul (.var ['x']) (.var ['x'])) (.const adThree)) (.var ['x'])) := by
  have h3 : adThree.1 = 3 := rfl
  refine ⟨⟨⟨⟨3, by simp [h3]⟩, ⟨3, by simp [h3]⟩, ?_⟩, ⟨3, by simp [h3]⟩, ?_⟩, ⟨3, by simp [h3]⟩, ?_⟩ <;>
    (intro k hk; interval_cases k <;> norm_num [sizes, sum_range_succ, h3])

/-- `sin(x)^x / (1 + log(x))` has overloads of `ad`, in the arithmetic of IEEE doubles (with infinities and NaN): whatever the number
inserted for `x`, more derivatives do not change the first ones. -/
example {φ : Format} {M : ℝ} {hM : 1 ≤ M} (L : LibI φ M hM) (nat : ℕ → Ieee φ M) (a : Ieee φ M) :
    ∃ S : ℕ → Ieee φ M, ∀ N n, 4 ≤ n → adG (total (ieeeOps L) nat) N ['x'] a n
      (.bin .div (.bin .pow (.un .sin (.var ['x'])) (.var ['x'])) (.bin .add (.const (.one hM)) (.un .log (.var ['x'])))) =
        .ok (some fun j => S j) := by
  obtain ⟨S, -, h⟩ := C104_one_series (ieeeOps L) nat ['x'] a
    (.bin .div (.bin .pow (.un .sin (.var ['x'])) (.var ['x'])) (.bin .add (.const (.one hM)) (.un .log (.var ['x']))))
    ⟨by simp, ⟨by simp, ⟨by simp, rfl⟩, rfl⟩, by simp, trivial, by simp, rfl⟩
  exact ⟨S, fun N n hn => h N n (by simpa [Expr.height] using hn)⟩

end Stator.Fp
