import Verif.Poly.SolveLemmas
import Verif.Poly.VasProps
import Verif.Poly.VcaTerm
import Verif.Poly.CubicProps
import Mathlib.Analysis.Calculus.Deriv.Shift
import Mathlib.NumberTheory.Real.Irrational

/-! # C54: the general root solver -/

namespace Stator.Pol

open Polynomial

/-- `L` lists approximations of exactly the numbers satisfying `P`, one each, with relative error `δ`. -/
def Approximates (δ : ℝ) (L : List ℝ) (P : ℝ → Prop) : Prop :=
  ∃ cs : List ℝ, cs.Nodup ∧ (∀ x, x ∈ cs ↔ P x) ∧ List.Forall₂ (fun r c => |r - c| ≤ δ * |r|) L cs

/-- **C54**: `solve_real_positive_roots_poly_sturm`, for a polynomial whose positive roots are simple:
it terminates, no vector overflows, and it returns one approximation for each positive root. -/
theorem C54_sturm (E : Env) (eps inf : ℝ) (heps : 0 < eps) {n : ℕ} (f : Arr ℝ (n + 1)) (hf : f ≠ 0)
    (hs : ∀ x, 0 < x → value f x = 0 → deriv (value f) x ≠ 0) :
    ∃ fuel₀, ∀ fuel, fuel₀ ≤ fuel → ∃ L, solveSturm E eps inf fuel f = .ok L ∧
      Approximates (max eps |E.prec|) L fun x => 0 < x ∧ value f x = 0 := by
  obtain ⟨fuel₀, h⟩ := solveSturm_spec E eps inf heps f hf (SimplePos.tame hs fun _ _ => BisectionPoint.mid)
  refine ⟨fuel₀, fun fuel hfuel => ?_⟩
  obtain ⟨L, cs, h1, h2, h3, h4⟩ := h fuel hfuel
  exact ⟨L, h1, cs, h3, h4, h2⟩

theorem Approximates.sort {δ : ℝ} {L : List ℝ} {P : ℝ → Prop} (h : Approximates δ L P) :
    Approximates δ (L.insertionSort (· ≤ ·)) P := by
  obtain ⟨cs, h1, h2, h3⟩ := h
  obtain ⟨cs', h4, h5⟩ := List.perm_comp_forall₂ (List.perm_insertionSort (· ≤ ·) L) h3
  exact ⟨cs', h5.nodup_iff.2 h1, fun x => by rw [h5.mem_iff, h2], h4⟩

theorem Approximates.length_le {δ : ℝ} {L : List ℝ} {n : ℕ} {f : Arr ℝ n} (hf : f ≠ 0)
    (h : Approximates δ L fun x => value f x = 0) : L.length ≤ n := by
  obtain ⟨cs, h1, h2, h3⟩ := h
  rw [h3.length_eq, ← List.toFinset_card_of_nodup h1]
  have : cs.toFinset ⊆ (polyOf f).roots.toFinset := by
    intro x hx
    rw [List.mem_toFinset, h2, value_eq] at hx
    rw [Multiset.mem_toFinset, mem_roots (polyOf_ne_zero hf)]
    exact hx
  calc _ ≤ (polyOf f).roots.toFinset.card := Finset.card_le_card this
    _ ≤ Multiset.card (polyOf f).roots := Multiset.toFinset_card_le _
    _ ≤ (polyOf f).natDegree := card_roots' _
    _ ≤ n := polyOf_degree f

/-- Positive roots of `f` and of the reflected polynomial together. -/
theorem Approximates.both {δ : ℝ} {L L' : List ℝ} {n : ℕ} {f g : Arr ℝ n}
    (hg : ∀ x, value g x = value f (-x)) (h0 : value f 0 ≠ 0)
    (h : Approximates δ L fun x => 0 < x ∧ value f x = 0)
    (h' : Approximates δ L' fun x => 0 < x ∧ value g x = 0) :
    Approximates δ (L ++ L'.map fun x => -x) fun x => value f x = 0 := by
  obtain ⟨cs, h1, h2, h3⟩ := h
  obtain ⟨cs', h1', h2', h3'⟩ := h'
  refine ⟨cs ++ cs'.map fun x => -x, ?_, ?_, List.rel_append h3 ?_⟩
  · rw [List.nodup_append]
    refine ⟨h1, h1'.map neg_injective, ?_⟩
    intro a ha b hb hab
    rw [h2] at ha
    obtain ⟨y, hy, rfl⟩ := List.mem_map.1 hb
    rw [h2'] at hy
    linarith [ha.1, hy.1]
  · intro x
    rw [List.mem_append, h2, List.mem_map]
    constructor
    · rintro (h | ⟨y, hy, rfl⟩)
      · exact h.2
      · rw [h2', hg] at hy; exact hy.2
    · intro hx
      rcases lt_trichotomy x 0 with h | h | h
      · exact .inr ⟨-x, (h2' _).2 ⟨by linarith, by rw [hg, neg_neg]; exact hx⟩, neg_neg x⟩
      · rw [h] at hx; exact absurd hx h0
      · exact .inl ⟨h, hx⟩
  · rw [List.forall₂_map_left_iff, List.forall₂_map_right_iff]
    refine h3'.imp fun r c h => ?_
    rw [abs_neg, show -r - -c = -(r - c) by ring, abs_neg]
    exact h

theorem deriv_value_neg {n : ℕ} {f g : Arr ℝ n} (hg : ∀ x, value g x = value f (-x)) (x : ℝ) :
    deriv (value g) x = -deriv (value f) (-x) := by
  rw [show value g = fun x => value f (-x) from funext hg]
  exact deriv_comp_neg (value f) x

theorem ne_zero_of_value {n : ℕ} {f : Arr ℝ n} {x : ℝ} (h : value f x ≠ 0) : f ≠ 0 := by
  rintro rfl
  exact h (by simp [value])

theorem solveBoth_sturm (E : Env) (eps inf peps : ℝ) (heps : 0 < eps) {n : ℕ} (f : Arr ℝ (n + 1))
    (h0 : value f 0 ≠ 0) (hs : ∀ x, value f x = 0 → deriv (value f) x ≠ 0) :
    ∃ fuel₀, ∀ fuel, fuel₀ ≤ fuel → ∃ L, solveBoth E eps inf peps .sturm fuel f = .ok (some L) ∧
      L.Pairwise (· ≤ ·) ∧ Approximates (max eps |E.prec|) L fun x => value f x = 0 := by
  have hf := ne_zero_of_value h0
  obtain ⟨g, eg, hg⟩ := C25_reflect f
  have hg0 : g ≠ 0 := ne_zero_of_value (x := 0) (by rw [hg, neg_zero]; exact h0)
  obtain ⟨fu, H⟩ := C54_sturm E eps inf heps f hf fun x _ => hs x
  obtain ⟨fu', H'⟩ := C54_sturm E eps inf heps g hg0 fun x _ hx => by
    rw [deriv_value_neg hg, neg_ne_zero]
    exact hs _ (by rw [← hg]; exact hx)
  refine ⟨max fu fu', fun fuel hfuel => ?_⟩
  obtain ⟨L, e, hL⟩ := H fuel (le_trans (le_max_left _ _) hfuel)
  obtain ⟨L', e', hL'⟩ := H' fuel (le_trans (le_max_right _ _) hfuel)
  have hb := Approximates.both hg h0 hL hL'
  refine ⟨(L ++ L'.map fun x => -x).insertionSort (· ≤ ·), ?_, List.pairwise_insertionSort _ _, hb.sort⟩
  have hlen := hb.length_le hf
  rw [List.length_append] at hlen
  simp only [solveBoth, solvePositive, e, e', eg, Out.bind, Out.lift]
  rw [svPushAll_eq _ _ _ hlen]

/-- **C54**: `solve_real_roots` of a polynomial of degree at least 4 (leading coefficients may be zero),
not zero at 0 and with simple real roots, with the default bounder: it terminates, no vector overflows,
and the result lists, in order, one approximation for each real root and nothing else. -/
theorem C54_solve_real_roots (E : Env) (eps inf peps : ℝ) (heps : 0 < eps) : ∀ {n : ℕ} (f : Arr ℝ n),
    4 ≤ (polyOf f).natDegree → value f 0 ≠ 0 → (∀ x, value f x = 0 → deriv (value f) x ≠ 0) →
    ∃ fuel₀, ∀ fuel, fuel₀ ≤ fuel → ∃ L, solveRealRoots E eps inf peps .sturm fuel f = .ok (some L) ∧
      L.Pairwise (· ≤ ·) ∧ Approximates (max eps |E.prec|) L fun x => value f x = 0
  | 0, f, hd, _, _ => by have := polyOf_degree f; omega
  | 1, f, hd, _, _ => by have := polyOf_degree f; omega
  | 2, f, hd, _, _ => by have := polyOf_degree f; omega
  | 3, f, hd, _, _ => by have := polyOf_degree f; omega
  | n + 4, f, hd, h0, hs => by
    have hf0 : f 0 ≠ 0 := by
      have h : value f 0 = f 0 := by simp [value, Fin.sum_univ_succ]
      rwa [h] at h0
    by_cases htop : f (Fin.last (n + 4)) = 0
    · obtain ⟨g, eg, hg⟩ := C33_value (n + 3) f (fun i hi => by
        have : i = Fin.last (n + 4) := by apply Fin.ext; have := i.2; simp at hi ⊢; omega
        rw [this, htop])
      have hpoly : polyOf g = polyOf f := Polynomial.funext fun x => by rw [← value_eq, ← value_eq, hg]
      have hval : value g = value f := funext hg
      obtain ⟨fuel₀, H⟩ := C54_solve_real_roots E eps inf peps heps g (by rw [hpoly]; exact hd)
        (by rw [hval]; exact h0) (by rw [hval]; exact hs)
      refine ⟨fuel₀, fun fuel hfuel => ?_⟩
      obtain ⟨L, e, h⟩ := H fuel hfuel
      rw [hval] at h
      refine ⟨L, ?_, h⟩
      rw [solveRealRoots, if_neg hf0, if_pos htop, eg]
      exact e
    · obtain ⟨fuel₀, H⟩ := solveBoth_sturm E eps inf peps heps f h0 hs
      refine ⟨fuel₀, fun fuel hfuel => ?_⟩
      rw [solveRealRoots, if_neg hf0, if_neg htop]
      exact H fuel hfuel


-- a case that meets the hypotheses: `x⁴ - 5x² + 4 = (x²-1)(x²-4)`, as an array of order 5
example (E : Env) : ∃ fuel₀, ∀ fuel, fuel₀ ≤ fuel → ∃ L,
    solveRealRoots E (1 / 2 ^ 51) 0 0 .sturm fuel (![4, 0, -5, 0, 1, 0] : Arr ℝ 5) = .ok (some L) ∧
      L.Pairwise (· ≤ ·) ∧ Approximates (max (1 / 2 ^ 51) |E.prec|) L
        fun x => value (![4, 0, -5, 0, 1, 0] : Arr ℝ 5) x = 0 := by
  have hv : value (![4, 0, -5, 0, 1, 0] : Arr ℝ 5) = fun x => x ^ 4 - 5 * x ^ 2 + 4 := by
    funext x; simp [value, Fin.sum_univ_succ]; ring
  refine C54_solve_real_roots E _ _ _ (by positivity) _ ?_ (by rw [hv]; norm_num) ?_
  · apply le_natDegree_of_ne_zero
    rw [polyOf_coeff]
    norm_num [coef]
  · intro x hx
    rw [hv] at hx ⊢
    have hd : HasDerivAt (fun x : ℝ => x ^ 4 - 5 * x ^ 2 + 4) _ x :=
      ((hasDerivAt_pow 4 x).sub ((hasDerivAt_pow 2 x).const_mul 5)).add_const 4
    rw [hd.deriv]
    intro h
    norm_num at h
    have h1 : x * (4 * x ^ 2 - 10) = 0 := by linear_combination h
    rcases mul_eq_zero.1 h1 with h2 | h2
    · rw [h2] at hx; norm_num at hx
    · have : x ^ 2 = 5 / 2 := by linarith
      have h4 : x ^ 4 = (5 / 2) ^ 2 := by rw [← this]; ring
      simp only at hx
      rw [h4, this] at hx; norm_num at hx

/-! ## VAS -/

theorem bisectAll_spec (E : Env) {n : ℕ} (f : Arr ℝ n) : ∀ (bs : List (Option ℝ × Option ℝ)) (ret : List ℝ),
    ret.length + bs.length ≤ n → ∃ r, bisectAll E f bs ret = .ok r ∧ ∀ L, r = some L →
      ∃ rs, L = ret ++ rs ∧ List.Forall₂ (fun (b : Option ℝ × Option ℝ) r => ∃ lo hi, b = (some lo, some hi) ∧
        callBisection E f lo hi = (true, r)) bs rs
  | [], ret, _ => ⟨some ret, rfl, fun L hL => ⟨[], by simpa using hL.symm, .nil⟩⟩
  | (none, b) :: bs, ret, _ => ⟨none, by simp [bisectAll], by simp⟩
  | (some a, none) :: bs, ret, _ => ⟨none, by simp [bisectAll], by simp⟩
  | (some a, some b) :: bs, ret, hlen => by
    rw [List.length_cons] at hlen
    rcases hb : callBisection E f a b with ⟨ok, root⟩
    cases ok with
    | false => exact ⟨none, by simp [bisectAll, hb], by simp⟩
    | true =>
      obtain ⟨r, e, h⟩ := bisectAll_spec E f bs (ret ++ [root]) (by simp; omega)
      refine ⟨r, ?_, fun L hL => ?_⟩
      · rw [bisectAll, hb]
        simp [svPush, show ret.length + 1 ≤ n by omega, Out.lift, Out.bind, e]
      · obtain ⟨rs, h1, h2⟩ := h L hL
        exact ⟨root :: rs, by simp [h1], .cons ⟨a, b, rfl, hb⟩ h2⟩

theorem callBisection_success (E : Env) {n : ℕ} (f : Arr ℝ n) {a b r : ℝ}
    (h : callBisection E f a b = (true, r)) :
    a < r ∧ r < b ∧ ∃ c, a ≤ c ∧ c ≤ b ∧ value f c = 0 ∧ |r - c| ≤ |E.prec| * |r| := by
  have hv : (fun x => (horner f x).getD 0) = value f := by
    funext x; rw [horner_spec, value_eq]; rfl
  have hv' : value f = fun x => (polyOf f).eval x := funext fun x => value_eq f x
  rw [callBisection, hv] at h
  have := Num.C34_success (value f) _ _ _ _ _ _ _ (by rw [hv']; exact (polyOf f).continuousOn) h
  rwa [abs_mul] at this

/-- Bisection in isolating intervals gives one approximation per positive root. -/
theorem bisect_approximates (E : Env) {n : ℕ} (f : Arr ℝ n) (h0 : value f 0 ≠ 0)
    (bs : List (Option ℝ × Option ℝ)) (rs : List ℝ)
    (H1 : ∀ x, 0 < x → value f x = 0 → ∃ a b, (some a, some b) ∈ bs ∧ a < x ∧ x < b)
    (H2 : ∀ p ∈ bs, ∃ a b, p = (some a, some b) ∧ 0 ≤ a ∧
      ((∃! x, (a < x ∧ x < b) ∧ value f x = 0) ∨ (a = 0 ∧ b = 0 ∧ value f 0 = 0)))
    (H3 : bs.Pairwise fun p q => ∀ a b c d, p = (some a, some b) → q = (some c, some d) →
      ∀ x, ¬ ((a < x ∧ x < b) ∧ (c < x ∧ x < d)))
    (h2 : List.Forall₂ (fun (b : Option ℝ × Option ℝ) r => ∃ lo hi, b = (some lo, some hi) ∧
      callBisection E f lo hi = (true, r)) bs rs) :
    Approximates |E.prec| rs fun x => 0 < x ∧ value f x = 0 := by
  -- the ends of an interval are not positive roots
  have hend : ∀ p ∈ bs, ∀ a b, p = (some a, some b) → ∀ x, value f x = 0 → a ≤ x → x ≤ b → 0 < x →
      a < x ∧ x < b := by
    rintro p hp a b rfl x hx hax hxb hx0
    obtain ⟨c, d, hm, h3, h4⟩ := H1 x hx0 hx
    by_cases hpq : (some a, some b) = (some c, some d)
    · cases hpq; exact ⟨h3, h4⟩
    have hab : a < b := by
      obtain ⟨a', b', e, -, h | h⟩ := H2 _ hp
      · cases e
        obtain ⟨y, hy, -⟩ := h
        linarith [hy.1.1, hy.1.2]
      · cases e; rw [h.1] at hax; rw [h.2.1] at hxb; linarith
    have hdisj : ∀ y, ¬ ((a < y ∧ y < b) ∧ (c < y ∧ y < d)) := by
      have : Std.Symm fun p q : Option ℝ × Option ℝ => ∀ a b c d, p = (some a, some b) →
          q = (some c, some d) → ∀ x, ¬ ((a < x ∧ x < b) ∧ (c < x ∧ x < d)) :=
        ⟨fun p q h a b c d e1 e2 x hx => h c d a b e2 e1 x ⟨hx.2, hx.1⟩⟩
      exact H3.forall hp hm hpq a b c d rfl rfl
    rcases eq_or_lt_of_le hax with h | h
    · exfalso
      subst h
      have hm1 : a < min b d := lt_min hab h4
      exact hdisj ((a + min b d) / 2) ⟨⟨by linarith, by linarith [min_le_left b d]⟩,
        by linarith, by linarith [min_le_right b d]⟩
    · refine ⟨h, ?_⟩
      rcases eq_or_lt_of_le hxb with h' | h'
      · exfalso
        subst h'
        have hm1 : max a c < x := max_lt hab h3
        exact hdisj ((x + max a c) / 2) ⟨⟨by linarith [le_max_left a c], by linarith⟩,
          by linarith [le_max_right a c], by linarith⟩
      · exact h'
  have hroot : ∀ p : Option ℝ × Option ℝ, ∃ c : ℝ, p ∈ bs → ∃ a b, p = (some a, some b) ∧ 0 ≤ a ∧
      (a < c ∧ c < b) ∧ value f c = 0 ∧ ∀ y, (a < y ∧ y < b) → value f y = 0 → y = c := by
    intro p
    by_cases hp : p ∈ bs
    · obtain ⟨a, b, e, ha, ⟨c, h1, h2⟩ | ⟨-, -, h⟩⟩ := H2 p hp
      · exact ⟨c, fun _ => ⟨a, b, e, ha, h1.1, h1.2, fun y h3 h4 => h2 y ⟨h3, h4⟩⟩⟩
      · exact absurd h h0
    · exact ⟨0, fun h => absurd h hp⟩
  choose c hc using hroot
  refine ⟨bs.map c, ?_, ?_, ?_⟩
  · rw [List.Nodup, List.pairwise_map]
    refine H3.imp_of_mem fun {p q} hp hq hpq heq => ?_
    obtain ⟨a, b, e1, -, h3, -⟩ := hc p hp
    obtain ⟨a', b', e2, -, h4, -⟩ := hc q hq
    exact hpq a b a' b' e1 e2 (c p) ⟨h3, by rw [heq]; exact h4⟩
  · intro x
    rw [List.mem_map]
    constructor
    · rintro ⟨p, hp, rfl⟩
      obtain ⟨a, b, e1, ha, h3, h4, -⟩ := hc p hp
      exact ⟨by linarith [h3.1], h4⟩
    · rintro ⟨hx0, hx⟩
      obtain ⟨a, b, hm, h3⟩ := H1 x hx0 hx
      obtain ⟨a', b', e1, -, -, -, h5⟩ := hc _ hm
      cases e1
      exact ⟨_, hm, (h5 x h3 hx).symm⟩
  · rw [List.forall₂_map_right_iff]
    have : ∀ (bs' : List (Option ℝ × Option ℝ)) (rs' : List ℝ), (∀ p ∈ bs', p ∈ bs) →
        List.Forall₂ (fun (b : Option ℝ × Option ℝ) r => ∃ lo hi, b = (some lo, some hi) ∧
          callBisection E f lo hi = (true, r)) bs' rs' →
        List.Forall₂ (fun r p => |r - c p| ≤ |E.prec| * |r|) rs' bs' := by
      intro bs' rs' hsub hall
      induction hall with
      | nil => exact .nil
      | @cons p r bs' rs' hpr _ ih =>
        refine .cons ?_ (ih fun q hq => hsub q (by simp [hq]))
        obtain ⟨lo, hi, rfl, hcall⟩ := hpr
        obtain ⟨a, b, e1, ha, h3, h4, h5⟩ := hc (some lo, some hi) (hsub _ (by simp))
        simp only [Prod.mk.injEq, Option.some.injEq] at e1
        obtain ⟨rfl, rfl⟩ := e1
        obtain ⟨-, -, y, y1, y2, y3, y4⟩ := callBisection_success E f hcall
        have hy0 : 0 < y := by
          rcases eq_or_lt_of_le (ha.trans y1) with h | h
          · rw [← h] at y3; exact absurd y3 h0
          · exact h
        rw [← h5 y (hend _ (hsub _ (by simp)) lo hi rfl y y3 y1 y2 hy0) y3]
        exact y4
    exact this bs _ (fun p hp => hp) h2

/-- **C54**: with the VAS bounder. If the solver returns (no exception, no endless recursion), the result
lists one approximation for each positive root. -/
theorem C54_vas (E : Env) (eps inf peps : ℝ) (hp : 0 ≤ peps) {n : ℕ} (f : Arr ℝ n) (h0 : value f 0 ≠ 0)
    (fuel : ℕ) : solvePositive E eps inf peps .vas fuel f ≠ .bad ∧
      ∀ L, solvePositive E eps inf peps .vas fuel f = .ok (some L) → L.Pairwise (· ≤ ·) ∧
        Approximates |E.prec| L fun x => 0 < x ∧ value f x = 0 := by
  have hf := ne_zero_of_value h0
  obtain ⟨hb, hok⟩ := C32_vas peps hp f hf fuel
  unfold solvePositive
  simp only
  cases hv : vas peps fuel f with
  | bad => exact absurd hv hb
  | more => simp [Out.bind]
  | ok bs =>
    obtain ⟨H1, H2, H3, H4⟩ := hok bs hv
    obtain ⟨r, e, hr⟩ := bisectAll_spec E f bs [] (by simpa using H4)
    simp only [Out.bind, e]
    refine ⟨by simp, fun L hL => ?_⟩
    simp only [Out.ok.injEq, Option.map_eq_some_iff] at hL
    obtain ⟨L', rfl, rfl⟩ := hL
    obtain ⟨rs, h1, h2⟩ := hr L' rfl
    rw [List.nil_append] at h1
    subst h1
    refine ⟨List.pairwise_insertionSort _ _, Approximates.sort (bisect_approximates E f h0 bs _ H1 H2 H3 h2)⟩

/-- **C54**: with the VCA bounder. Every value that the solver returns approximates a non-negative root
(but roots can be missing, see `C32_vca_loses_root`). -/
theorem C54_vca (E : Env) (eps inf peps : ℝ) {n : ℕ} (f : Arr ℝ n) (hf : f ≠ 0)
    (fuel : ℕ) : solvePositive E eps inf peps .vca fuel f ≠ .bad ∧
      ∀ L, solvePositive E eps inf peps .vca fuel f = .ok (some L) → L.Pairwise (· ≤ ·) ∧
        ∀ r ∈ L, ∃ c, 0 ≤ c ∧ value f c = 0 ∧ |r - c| ≤ |E.prec| * |r| := by
  obtain ⟨hb, hok⟩ := C32_vca f hf fuel
  unfold solvePositive
  simp only
  cases hv : vca fuel f with
  | bad => exact absurd hv hb
  | more => simp [Out.bind]
  | ok bs =>
    obtain ⟨-, H2, -, H4⟩ := hok bs hv
    obtain ⟨r, e, hr⟩ := bisectAll_spec E f (bs.map fun b => (some b.1, some b.2)) [] (by simpa using H4)
    simp only [Out.bind, e]
    refine ⟨by simp, fun L hL => ?_⟩
    simp only [Out.ok.injEq, Option.map_eq_some_iff] at hL
    obtain ⟨L', rfl, rfl⟩ := hL
    obtain ⟨rs, h1, h2⟩ := hr L' rfl
    rw [List.nil_append] at h1
    subst h1
    refine ⟨List.pairwise_insertionSort _ _, fun r hr' => ?_⟩
    rw [List.mem_insertionSort] at hr'
    rw [List.forall₂_map_left_iff] at h2
    obtain ⟨p, hp, lo, hi, e1, hcall⟩ := (List.forall₂_iff_get.1 h2 |> fun ⟨hlen, hget⟩ => by
      obtain ⟨i, hi, rfl⟩ := List.getElem_of_mem hr'
      exact ⟨bs[i]'(by omega), List.getElem_mem _, hget i (by omega) hi⟩ :
      ∃ p ∈ bs, ∃ lo hi, (some p.1, some p.2) = (some lo, some hi) ∧ callBisection E f lo hi = (true, r))
    cases e1
    obtain ⟨-, -, y, y1, y2, y3, y4⟩ := callBisection_success E f hcall
    exact ⟨y, (H2 p hp).1.trans y1, y3, y4⟩

/-- **C54**: with the VCA bounder, for a polynomial not zero at 0 whose positive roots are simple and not at
a bisection point (`k/2^m` of the upper bound): the root isolation ends, nothing is out of bounds, and unless
a bisection fails (an exception) the result lists one approximation for each positive root. -/
theorem C54_vca_complete (E : Env) (eps inf peps : ℝ) {n : ℕ} (f : Arr ℝ n) (h0 : value f 0 ≠ 0)
    (hs : ∀ x, 0 < x → value f x = 0 → deriv (value f) x ≠ 0)
    (hd : ∀ x, 0 < x → value f x = 0 → ¬ ∃ u, lmqUpper f = some (some u) ∧ ∃ k m : ℕ, x = u * (k / 2 ^ m)) :
    ∃ fuel₀ r, (∀ fuel, fuel₀ ≤ fuel → solvePositive E eps inf peps .vca fuel f = .ok r) ∧
      ∀ L, r = some L → L.Pairwise (· ≤ ·) ∧
        Approximates |E.prec| L fun x => 0 < x ∧ value f x = 0 := by
  have hf := ne_zero_of_value h0
  obtain ⟨fuel₀, bs, hbs⟩ := C32_vca_terminates_simple f hf hs
  obtain ⟨H1, H2, H3, H4⟩ := (C32_vca f hf fuel₀).2 bs (hbs fuel₀ le_rfl)
  obtain ⟨r, e, hr⟩ := bisectAll_spec E f (bs.map fun b => (some b.1, some b.2)) [] (by simpa using H4)
  refine ⟨fuel₀, r.map fun l => l.insertionSort (· ≤ ·), fun fuel hfuel => ?_, fun L hL => ?_⟩
  · unfold solvePositive
    simp only [hbs fuel hfuel, Out.bind, e]
  · simp only [Option.map_eq_some_iff] at hL
    obtain ⟨L', rfl, rfl⟩ := hL
    obtain ⟨rs, h1, h2⟩ := hr L' rfl
    rw [List.nil_append] at h1
    subst h1
    refine ⟨List.pairwise_insertionSort _ _, Approximates.sort
      (bisect_approximates E f h0 _ _ (fun x hx hv => ?_) (fun p hp => ?_) ?_ h2)⟩
    · rcases H1 x hx hv with ⟨p, hp, h3⟩ | h
      · exact ⟨p.1, p.2, List.mem_map.2 ⟨p, hp, rfl⟩, h3⟩
      · exact absurd h (hd x hx hv)
    · obtain ⟨q, hq, rfl⟩ := List.mem_map.1 hp
      exact ⟨q.1, q.2, rfl, (H2 q hq).1, .inl (H2 q hq).2⟩
    · rw [List.pairwise_map]
      refine H3.imp fun {p q} h a b c d e1 e2 x hx => ?_
      cases e1
      cases e2
      linarith [hx.1.2, hx.2.1]

-- a case that meets the hypotheses: `x² - 3x + 1`, upper bound 6, roots `(3 ± √5)/2`
example (E : Env) (eps inf peps : ℝ) : ∃ fuel₀ r,
    (∀ fuel, fuel₀ ≤ fuel → solvePositive E eps inf peps .vca fuel (![1, -3, 1] : Arr ℝ 2) = .ok r) ∧
      ∀ L, r = some L → L.Pairwise (· ≤ ·) ∧
        Approximates |E.prec| L fun x => 0 < x ∧ value (![1, -3, 1] : Arr ℝ 2) x = 0 := by
  have hu : lmqUpper (![1, -3, 1] : Arr ℝ 2) = some (some 6) := by
    norm_num [lmqUpper, realOrder, lmqOuter, lmqInner, forDown, rd, wr, Fin.ext_iff, Function.update]
  have hv : value (![1, -3, 1] : Arr ℝ 2) = fun x => x ^ 2 - 3 * x + 1 := by
    funext x; simp [value, Fin.sum_univ_succ]; ring
  refine C54_vca_complete E eps inf peps _ (by rw [hv]; norm_num) (fun x _ h => ?_) (fun x _ h hex => ?_)
  · rw [hv] at h ⊢
    have hd : HasDerivAt (fun x : ℝ => x ^ 2 - 3 * x + 1) _ x :=
      ((hasDerivAt_pow 2 x).sub ((hasDerivAt_id x).const_mul 3)).add_const 1
    rw [hd.deriv]
    intro h'
    norm_num at h'
    have h1 : x = 3 / 2 := by linarith
    rw [h1] at h
    norm_num at h
  · obtain ⟨u, eu, k, m, e⟩ := hex
    rw [hu] at eu
    simp only [Option.some.injEq] at eu
    rw [hv] at h
    simp only at h
    have hq : ∃ q : ℚ, x = q := ⟨6 * (k / 2 ^ m), by rw [e, ← eu]; push_cast; ring⟩
    obtain ⟨q, rfl⟩ := hq
    have h5 : (2 * q - 3) ^ 2 = 5 := by
      have : (2 * (q : ℝ) - 3) ^ 2 = 5 := by linear_combination 4 * h
      exact_mod_cast this
    have hirr : Irrational (Real.sqrt 5) := by
      have := Nat.Prime.irrational_sqrt (p := 5) (by decide)
      exact_mod_cast this
    refine hirr ⟨|2 * q - 3|, ?_⟩
    have h5' : ((2 * q - 3 : ℚ) : ℝ) ^ 2 = 5 := by exact_mod_cast h5
    rw [Rat.cast_abs, ← h5', Real.sqrt_sq_eq_abs]

/-! ## A root that is lost -/

/-- **C54 is false for polynomials with root 0**: with `f[0] = 0` the solver returns the roots of
`f(x)/x`. For order 4 and a simple root 0 (`f[1] ≠ 0`), the root 0 is missing from the result. -/
theorem C54_zero_root_lost (E : Env) (hS : 2 < E.S) (eps inf peps : ℝ) (mode : Bounder) (fuel : ℕ)
    (f : Arr ℝ 4) (h0 : f 0 = 0) (h1 : f 1 ≠ 0) (h4 : f 4 ≠ 0) (B : ℝ)
    (hb1 : |f 1 / f 4| ≤ B) (hb2 : |f 2 / f 4| ≤ B) (hb3 : |f 3 / f 4| ≤ B)
    (hB : (1 + B) ^ 4 ≤ E.maxSqrt) :
    value f 0 = 0 ∧ ∃ L, solveRealRoots E eps inf peps mode fuel f = .ok (some L) ∧
      ∀ x, x ∈ L ↔ value f x = 0 ∧ x ≠ 0 := by
  have hv0 : value f 0 = 0 := by simp [value, Fin.sum_univ_succ, h0]
  refine ⟨hv0, ?_⟩
  obtain ⟨g, eg, hg⟩ := deflateZero_spec f (by simpa [coef] using h0)
  have hco : ∀ i, coef g i = coef f (i + 1) := fun i => by
    rw [← polyOf_coeff, ← polyOf_coeff, hg, coeff_X_mul]
  have g0 : g 0 = f 1 := hco 0
  have g1 : g 1 = f 2 := hco 1
  have g2 : g 2 = f 3 := hco 2
  have g3 : g 3 = f 4 := hco 3
  obtain ⟨L, e, -, hL⟩ := C53_cubic E hS g (by rw [g3]; exact h4) B (by rw [g0, g3]; exact hb1)
    (by rw [g1, g3]; exact hb2) (by rw [g2, g3]; exact hb3) hB
  refine ⟨L, ?_, fun x => ?_⟩
  · rw [solveRealRoots, if_pos h0, eg]
    simp only [Out.lift, Out.bind, solveRealRoots, e]
  · have hfx : value f x = x * value g x := by rw [value_eq, value_eq, hg, eval_mul, eval_X]
    rw [hL, hfx]
    constructor
    · intro h
      refine ⟨by rw [h, mul_zero], ?_⟩
      rintro rfl
      apply h1
      rw [← g0, ← h]
      simp [value, Fin.sum_univ_succ]
    · rintro ⟨h, hx⟩
      exact (mul_eq_zero.1 h).resolve_left hx

end Stator.Pol
