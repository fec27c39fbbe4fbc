import Verif.Poly.SolveProps
import Verif.Poly.VasTerm

/-!
# C54: the general root solver with the VAS and VCA bounders

With `VasTerm` the solver is total on polynomials with simple real roots: it can only end in a list that
approximates every root, or in the exception "Bisection failed!", and the latter never because of a bracket
without a sign change.
-/

namespace Stator.Pol

open Polynomial

/-- An isolating interval of a simple root whose ends are no roots has a sign change. -/
theorem sign_change_of_simple {P : ℝ[X]} {a b c : ℝ} (hac : a < c) (hcb : c < b) (hc : P.eval c = 0)
    (hd : P.derivative.eval c ≠ 0) (hu : ∀ x, a ≤ x → x ≤ b → P.eval x = 0 → x = c) :
    P.eval a * P.eval b < 0 := by
  obtain ⟨H, rfl⟩ := dvd_iff_isRoot.2 (show P.IsRoot c from hc)
  have hH : ∀ x, a ≤ x → x ≤ b → H.eval x ≠ 0 := by
    intro x hx1 hx2 h
    have : x = c := hu x hx1 hx2 (by rw [eval_mul, h, mul_zero])
    subst this
    apply hd
    rw [derivative_mul, eval_add, eval_mul, eval_mul, h]
    simp
  have hpos : 0 < H.eval a * H.eval b := by
    by_contra hn
    have hne : H.eval a * H.eval b ≠ 0 := mul_ne_zero (hH a le_rfl (by linarith)) (hH b (by linarith) le_rfl)
    have hlt : H.eval a * H.eval b < 0 := lt_of_le_of_ne (not_lt.1 hn) hne
    obtain ⟨x, hx, hx0⟩ : ∃ x ∈ Set.Icc a b, H.eval x = 0 := by
      have hcont : ContinuousOn (fun x => H.eval x) (Set.Icc a b) := H.continuousOn
      rcases mul_neg_iff.1 hlt with ⟨h1, h2⟩ | ⟨h1, h2⟩
      · exact intermediate_value_Icc' (by linarith) hcont ⟨h2.le, h1.le⟩
      · exact intermediate_value_Icc (by linarith) hcont ⟨h1.le, h2.le⟩
    exact hH x hx.1 hx.2 hx0
  have e : ((X - C c) * H).eval a * ((X - C c) * H).eval b = ((a - c) * (b - c)) * (H.eval a * H.eval b) := by
    simp only [eval_mul, eval_sub, eval_X, eval_C]; ring
  rw [e]
  exact mul_neg_of_neg_of_pos (mul_neg_of_neg_of_pos (by linarith) (by linarith)) hpos

/-- The ends of disjoint open intervals that cover all positive roots are no positive roots. -/
theorem ends_not_roots {n : ℕ} {f : Arr ℝ n} (bs : List (Option ℝ × Option ℝ))
    (H1 : ∀ x, 0 < x → value f x = 0 → ∃ a b, (some a, some b) ∈ bs ∧ a < x ∧ x < b)
    (H3 : bs.Pairwise fun p q => ∀ a b c d, p = (some a, some b) → q = (some c, some d) →
      ∀ x, ¬ ((a < x ∧ x < b) ∧ (c < x ∧ x < d)))
    {a b : ℝ} (hp : (some a, some b) ∈ bs) (hab : a < b) {x : ℝ} (hx : value f x = 0) (hax : a ≤ x) (hxb : x ≤ b)
    (hx0 : 0 < x) : a < x ∧ x < b := by
  obtain ⟨c, d, hm, h3, h4⟩ := H1 x hx0 hx
  by_cases hpq : (some a, some b) = (some c, some d)
  · cases hpq; exact ⟨h3, h4⟩
  have hdisj : ∀ y, ¬ ((a < y ∧ y < b) ∧ (c < y ∧ y < d)) := by
    have : Std.Symm fun p q : Option ℝ × Option ℝ => ∀ a b c d, p = (some a, some b) →
        q = (some c, some d) → ∀ x, ¬ ((a < x ∧ x < b) ∧ (c < x ∧ x < d)) :=
      ⟨fun p q h a b c d e1 e2 x hx => h c d a b e2 e1 x ⟨hx.2, hx.1⟩⟩
    exact H3.forall hp hm hpq a b c d rfl rfl
  rcases eq_or_lt_of_le hax with h | h
  · exfalso
    subst h
    have hm1 : a < min b d := lt_min hab h4
    exact hdisj ((a + min b d) / 2) ⟨⟨by linarith, by linarith [min_le_left b d]⟩,
      by linarith, by linarith [min_le_right b d]⟩
  · refine ⟨h, ?_⟩
    rcases eq_or_lt_of_le hxb with h' | h'
    · exfalso
      subst h'
      have hm1 : max a c < x := max_lt hab h3
      exact hdisj ((x + max a c) / 2) ⟨⟨by linarith [le_max_left a c], by linarith⟩,
        by linarith [le_max_right a c], by linarith⟩
    · exact h'

/-- **C32**: for simple positive roots and a polynomial not zero at 0, every interval that
`VAS_real_root_bounds` returns is a valid bracket: the polynomial has opposite signs at its ends. -/
theorem C32_vas_bracket (eps : ℝ) (he : 0 ≤ eps) {n : ℕ} (f : Arr ℝ n) (h0 : value f 0 ≠ 0)
    (hs : ∀ x, 0 < x → value f x = 0 → deriv (value f) x ≠ 0) (fuel : ℕ) (L) (h : vas eps fuel f = .ok L) :
    ∀ p ∈ L, ∃ a b, p = (some a, some b) ∧ 0 ≤ a ∧ a < b ∧ value f a * value f b < 0 := by
  obtain ⟨H1, H2, H3, -⟩ := (C32_vas eps he f (ne_zero_of_value h0) fuel).2 L h
  intro p hp
  obtain ⟨a, b, rfl, ha, ⟨c, ⟨hc1, hc2⟩, hu⟩ | ⟨-, -, hz⟩⟩ := H2 p hp
  · have hab : a < b := hc1.1.trans hc1.2
    refine ⟨a, b, rfl, ha, hab, ?_⟩
    have hv : value f = fun x => (polyOf f).eval x := funext (value_eq f)
    have hd := hs c (ha.trans_lt hc1.1) hc2
    rw [hv, Polynomial.deriv] at hd
    rw [value_eq, value_eq]
    refine sign_change_of_simple hc1.1 hc1.2 (by rw [← value_eq]; exact hc2) hd fun x hxa hxb hx => ?_
    rw [← value_eq] at hx
    have hx0 : 0 < x := by
      rcases (ha.trans hxa).eq_or_lt with h | h
      · rw [← h] at hx; exact absurd hx h0
      · exact h
    exact hu x ⟨ends_not_roots L H1 H3 hp hab hx hxa hxb hx0, hx⟩
  · exact absurd hz h0

theorem Approximates.mono {δ δ' : ℝ} {L : List ℝ} {P : ℝ → Prop} (hδ : δ ≤ δ') (h : Approximates δ L P) :
    Approximates δ' L P := by
  obtain ⟨cs, h1, h2, h3⟩ := h
  exact ⟨cs, h1, h2, h3.imp fun r c h => h.trans (mul_le_mul_of_nonneg_right hδ (abs_nonneg _))⟩

/-- **C54**: with the VAS bounder, for a polynomial not zero at 0 whose positive roots are simple: the root
isolation ends, nothing is out of bounds, and unless a bisection fails (an exception) the result lists one
approximation for each positive root. -/
theorem C54_vas_complete (E : Env) (eps inf peps : ℝ) (hp : 0 ≤ peps) {n : ℕ} (hn : 200 * (2 * n + 1) * peps ≤ 1)
    (f : Arr ℝ n) (h0 : value f 0 ≠ 0) (hs : ∀ x, 0 < x → value f x = 0 → deriv (value f) x ≠ 0) :
    ∃ fuel₀ r, (∀ fuel, fuel₀ ≤ fuel → solvePositive E eps inf peps .vas fuel f = .ok r) ∧
      ∀ L, r = some L → L.Pairwise (· ≤ ·) ∧
        Approximates |E.prec| L fun x => 0 < x ∧ value f x = 0 := by
  obtain ⟨fuel₀, bs, hbs⟩ := C32_vas_terminates_simple peps hp hn f (ne_zero_of_value h0) hs
  obtain ⟨-, -, -, H4⟩ := (C32_vas peps hp f (ne_zero_of_value h0) fuel₀).2 bs (hbs fuel₀ le_rfl)
  obtain ⟨r, e, -⟩ := bisectAll_spec E f bs [] (by simpa using H4)
  have hall : ∀ fuel, fuel₀ ≤ fuel → solvePositive E eps inf peps .vas fuel f =
      .ok (r.map fun l => l.insertionSort (· ≤ ·)) := fun fuel hfuel => by
    unfold solvePositive
    simp only [hbs fuel hfuel, Out.bind, e]
  refine ⟨fuel₀, r.map fun l => l.insertionSort (· ≤ ·), hall, fun L hL => ?_⟩
  exact (C54_vas E eps inf peps hp f h0 fuel₀).2 L (by rw [hall fuel₀ le_rfl, hL])

/-- **C54**: with the VAS bounder, if the solver throws, some bisection in a valid bracket (with a sign
change, around exactly one root) did not converge. -/
theorem C54_vas_throws (E : Env) (eps inf peps : ℝ) (hp : 0 ≤ peps) {n : ℕ} (f : Arr ℝ n) (h0 : value f 0 ≠ 0)
    (hs : ∀ x, 0 < x → value f x = 0 → deriv (value f) x ≠ 0) (fuel : ℕ)
    (h : solvePositive E eps inf peps .vas fuel f = .ok none) :
    ∃ a b, 0 ≤ a ∧ a < b ∧ value f a * value f b < 0 ∧ (callBisection E f a b).1 = false := by
  have key : ∀ (bs : List (Option ℝ × Option ℝ)) (ret : List ℝ),
      (∀ p ∈ bs, ∃ a b, p = (some a, some b) ∧ 0 ≤ a ∧ a < b ∧ value f a * value f b < 0) →
      bisectAll E f bs ret = .ok none →
      ∃ a b, 0 ≤ a ∧ a < b ∧ value f a * value f b < 0 ∧ (callBisection E f a b).1 = false := by
    intro bs
    induction bs with
    | nil => intro ret _ h; simp [bisectAll] at h
    | cons p bs ih =>
      intro ret hb h
      obtain ⟨a, b, rfl, h1, h2, h3⟩ := hb p (by simp)
      rcases hc : callBisection E f a b with ⟨ok, root⟩
      cases ok with
      | false => exact ⟨a, b, h1, h2, h3, by rw [hc]⟩
      | true =>
        rw [bisectAll, hc] at h
        simp only [svPush] at h
        split at h
        · exact ih _ (fun q hq => hb q (by simp [hq])) h
        · simp [Out.lift, Out.bind] at h
  unfold solvePositive at h
  simp only at h
  cases hv : vas peps fuel f with
  | bad => simp [hv, Out.bind] at h
  | more => simp [hv, Out.bind] at h
  | ok bs =>
    simp only [hv, Out.bind] at h
    cases hb : bisectAll E f bs [] with
    | bad => simp [hb] at h
    | more => simp [hb] at h
    | ok r =>
      simp only [hb, Out.ok.injEq, Option.map_eq_none_iff] at h
      subst h
      exact key bs [] (C32_vas_bracket peps hp f h0 hs fuel bs hv) hb

theorem solveBoth_vas (E : Env) (eps inf peps : ℝ) (hp : 0 ≤ peps) {n : ℕ} (hn : 200 * (2 * n + 1) * peps ≤ 1)
    (f : Arr ℝ n) (h0 : value f 0 ≠ 0) (hs : ∀ x, value f x = 0 → deriv (value f) x ≠ 0) :
    ∃ fuel₀ r, (∀ fuel, fuel₀ ≤ fuel → solveBoth E eps inf peps .vas fuel f = .ok r) ∧
      ∀ L, r = some L → L.Pairwise (· ≤ ·) ∧ Approximates |E.prec| L fun x => value f x = 0 := by
  have hf := ne_zero_of_value h0
  obtain ⟨g, eg, hg⟩ := C25_reflect f
  obtain ⟨fu, r, e, H⟩ := C54_vas_complete E eps inf peps hp hn f h0 fun x _ => hs x
  obtain ⟨fu', r', e', H'⟩ := C54_vas_complete E eps inf peps hp hn g (by rw [hg, neg_zero]; exact h0)
    fun x _ hx => by
      rw [deriv_value_neg hg, neg_ne_zero]
      exact hs _ (by rw [← hg]; exact hx)
  cases r with
  | none =>
    refine ⟨fu, none, fun fuel hfuel => ?_, by simp⟩
    simp only [solveBoth, e fuel hfuel, Out.bind]
  | some L =>
    cases r' with
    | none =>
      refine ⟨max fu fu', none, fun fuel hfuel => ?_, by simp⟩
      simp only [solveBoth, e fuel (le_trans (le_max_left _ _) hfuel),
        e' fuel (le_trans (le_max_right _ _) hfuel), eg, Out.bind, Out.lift]
    | some L' =>
      have hb := Approximates.both hg h0 (H L rfl).2 (H' L' rfl).2
      have hlen := hb.length_le hf
      rw [List.length_append] at hlen
      refine ⟨max fu fu', some ((L ++ L'.map fun x => -x).insertionSort (· ≤ ·)), fun fuel hfuel => ?_,
        fun M hM => ?_⟩
      · simp only [solveBoth, e fuel (le_trans (le_max_left _ _) hfuel),
          e' fuel (le_trans (le_max_right _ _) hfuel), eg, Out.bind, Out.lift]
        rw [svPushAll_eq _ _ _ hlen]
      · cases hM
        exact ⟨List.pairwise_insertionSort _ _, hb.sort⟩

/-- **C54**: `solve_real_roots` of a polynomial of degree at least 4 (leading coefficients may be zero), not
zero at 0 and with simple real roots, with the VAS bounder: it ends, no vector overflows, and unless a
bisection fails (an exception) the result lists, in order, one approximation for each real root and nothing
else. -/
theorem C54_vas_solve_real_roots (E : Env) (eps inf peps : ℝ) (heps : 0 < eps) (hp : 0 ≤ peps) {n : ℕ}
    (hn : 200 * (2 * n + 1) * peps ≤ 1) (f : Arr ℝ n) (h4 : 4 ≤ (polyOf f).natDegree) (h0 : value f 0 ≠ 0)
    (hs : ∀ x, value f x = 0 → deriv (value f) x ≠ 0) :
    ∃ fuel₀, ∀ fuel, fuel₀ ≤ fuel → ∃ r, solveRealRoots E eps inf peps .vas fuel f = .ok r ∧
      ∀ L, r = some L → L.Pairwise (· ≤ ·) ∧ Approximates (max eps |E.prec|) L fun x => value f x = 0 := by
  obtain ⟨m, rfl⟩ : ∃ m, n = m + 4 := ⟨n - 4, by have := polyOf_degree f; omega⟩
  have hf0 : f 0 ≠ 0 := by
    have h : value f 0 = f 0 := by simp [value, Fin.sum_univ_succ]
    rwa [h] at h0
  by_cases htop : f (Fin.last (m + 4)) = 0
  · obtain ⟨fuel₀, H⟩ := C54_solve_real_roots E eps inf peps heps f h4 h0 hs
    refine ⟨fuel₀, fun fuel hfuel => ?_⟩
    obtain ⟨L, e, h1, h2⟩ := H fuel hfuel
    refine ⟨some L, ?_, fun M hM => by cases hM; exact ⟨h1, h2⟩⟩
    rw [solveRealRoots, if_neg hf0, if_pos htop] at e ⊢
    exact e
  · obtain ⟨fuel₀, r, e, H⟩ := solveBoth_vas E eps inf peps hp hn f h0 hs
    refine ⟨fuel₀, fun fuel hfuel => ⟨r, ?_, fun L hL => ⟨(H L hL).1, (H L hL).2.mono (le_max_right _ _)⟩⟩⟩
    rw [solveRealRoots, if_neg hf0, if_neg htop]
    exact e fuel hfuel

-- a case that meets the hypotheses: `x⁴ - 5x² + 4`, with the constants for `double`
example (E : Env) : ∃ fuel₀, ∀ fuel, fuel₀ ≤ fuel → ∃ r,
    solveRealRoots E (1 / 2 ^ 51) 0 (106 / 100 / 2 ^ 53) .vas fuel (![4, 0, -5, 0, 1] : Arr ℝ 4) = .ok r ∧
      ∀ L, r = some L → L.Pairwise (· ≤ ·) ∧ Approximates (max (1 / 2 ^ 51) |E.prec|) L
        fun x => value (![4, 0, -5, 0, 1] : Arr ℝ 4) x = 0 := by
  have hv : value (![4, 0, -5, 0, 1] : Arr ℝ 4) = fun x => x ^ 4 - 5 * x ^ 2 + 4 := by
    funext x; simp [value, Fin.sum_univ_succ]; ring
  refine C54_vas_solve_real_roots E _ _ _ (by positivity) (by norm_num) (by norm_num) _ ?_
    (by rw [hv]; norm_num) ?_
  · apply le_natDegree_of_ne_zero
    rw [polyOf_coeff]
    norm_num [coef]
  · intro x hx
    rw [hv] at hx ⊢
    have hd : HasDerivAt (fun x : ℝ => x ^ 4 - 5 * x ^ 2 + 4) _ x :=
      ((hasDerivAt_pow 4 x).sub ((hasDerivAt_pow 2 x).const_mul 5)).add_const 4
    rw [hd.deriv]
    intro h
    norm_num at h
    have h1 : x * (4 * x ^ 2 - 10) = 0 := by linear_combination h
    rcases mul_eq_zero.1 h1 with h2 | h2
    · rw [h2] at hx; norm_num at hx
    · have : x ^ 2 = 5 / 2 := by linarith
      have h4 : x ^ 4 = (5 / 2) ^ 2 := by rw [← this]; ring
      simp only at hx
      rw [h4, this] at hx; norm_num at hx

end Stator.Pol
