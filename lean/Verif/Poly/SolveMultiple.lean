import Verif.Poly.SolveProps

/-!
# C54 with multiple roots

The Sturm solver also works for polynomials with multiple roots, as long as its division points avoid them; if it hits one, a
root can be lost.
-/

namespace Stator.Pol

open Polynomial

/-- The division points of the Sturm solver (`BisectionPoint`) avoid the multiple positive roots; and if one of them is a
(simple) root, then the graph nowhere touches the positive axis from below. -/
structure SturmSafe {n : ℕ} (f : Arr ℝ n) : Prop where
  simple : ∀ x, 0 < x → value f x = 0 → BisectionPoint f x → deriv (value f) x ≠ 0
  touch : (∃ x, 0 < x ∧ value f x = 0 ∧ BisectionPoint f x) → ∀ y, 0 < y → value f y = 0 → ¬ IsLocalMax (value f) y

/-- It is enough that no positive root is a division point. -/
theorem SturmSafe.of_avoids {n : ℕ} {f : Arr ℝ n} (h : ∀ x, 0 < x → value f x = 0 → ¬ BisectionPoint f x) : SturmSafe f :=
  ⟨fun x h1 h2 h3 => absurd h3 (h x h1 h2), fun ⟨x, h1, h2, h3⟩ => absurd h3 (h x h1 h2)⟩

/-- It is enough that all positive roots are simple. -/
theorem SturmSafe.of_simple {n : ℕ} {f : Arr ℝ n} (h : ∀ x, 0 < x → value f x = 0 → deriv (value f) x ≠ 0) : SturmSafe f :=
  ⟨fun x h1 h2 _ => h x h1 h2, fun _ y h1 h2 h3 => h y h1 h2 h3.deriv_eq_zero⟩

/-- **C54**: `solve_real_positive_roots_poly_sturm` with multiple roots: if the division points avoid the multiple roots, it
terminates, no vector overflows, and it returns one approximation for each positive root, whatever its multiplicity. -/
theorem C54_sturm_multiple (E : Env) (eps inf : ℝ) (heps : 0 < eps) {n : ℕ} (f : Arr ℝ (n + 1)) (hf : f ≠ 0)
    (hs : SturmSafe f) :
    ∃ fuel₀, ∀ fuel, fuel₀ ≤ fuel → ∃ L, solveSturm E eps inf fuel f = .ok L ∧
      Approximates (max eps |E.prec|) L fun x => 0 < x ∧ value f x = 0 := by
  obtain ⟨fuel₀, h⟩ := solveSturm_spec E eps inf heps f hf
    ⟨hs.simple, fun x y h1 h2 h3 h4 h5 => hs.touch ⟨x, h1, h3, h5⟩ y h2 h4, fun _ _ => BisectionPoint.mid⟩
  refine ⟨fuel₀, fun fuel hfuel => ?_⟩
  obtain ⟨L, cs, h1, h2, h3, h4⟩ := h fuel hfuel
  exact ⟨L, h1, cs, h3, h4, h2⟩

/-- The polynomial `f(-x)`. -/
def mirror {n : ℕ} (f : Arr ℝ n) : Arr ℝ n := fun i => (-1) ^ (i : ℕ) * f i

theorem value_mirror {n : ℕ} (f : Arr ℝ n) (x : ℝ) : value (mirror f) x = value f (-x) := by
  unfold value mirror
  refine Finset.sum_congr rfl fun i _ => ?_
  rw [neg_pow x]
  ring

/-- **C54**: `solve_real_roots` of a polynomial of order at least 4 whose first and last coefficients are not zero, with multiple
roots: if the division points for `f(x)` and for `f(-x)` avoid the multiple roots, the result lists, in order, one approximation
for each real root and nothing else. -/
theorem C54_multiple_roots (E : Env) (eps inf peps : ℝ) (heps : 0 < eps) {n : ℕ} (f : Arr ℝ (n + 4)) (h0 : f 0 ≠ 0)
    (ht : f (Fin.last (n + 4)) ≠ 0) (h1 : SturmSafe f) (h2 : SturmSafe (mirror f)) :
    ∃ fuel₀, ∀ fuel, fuel₀ ≤ fuel → ∃ L, solveRealRoots E eps inf peps .sturm fuel f = .ok (some L) ∧
      L.Pairwise (· ≤ ·) ∧ Approximates (max eps |E.prec|) L fun x => value f x = 0 := by
  have h0' : value f 0 ≠ 0 := by
    have h : value f 0 = f 0 := by simp [value, Fin.sum_univ_succ]
    rwa [h]
  have hf := ne_zero_of_value h0'
  obtain ⟨g, eg, hg⟩ := C25_reflect f
  have hgm : g = mirror f := polyOf_inj (Polynomial.funext fun x => by rw [← value_eq, ← value_eq, hg, value_mirror])
  subst hgm
  have hg0 : mirror f ≠ 0 := ne_zero_of_value (x := 0) (by rw [hg, neg_zero]; exact h0')
  obtain ⟨fu, H⟩ := C54_sturm_multiple E eps inf heps f hf h1
  obtain ⟨fu', H'⟩ := C54_sturm_multiple E eps inf heps (mirror f) hg0 h2
  refine ⟨max fu fu', fun fuel hfuel => ?_⟩
  obtain ⟨L, e, hL⟩ := H fuel (le_trans (le_max_left _ _) hfuel)
  obtain ⟨L', e', hL'⟩ := H' fuel (le_trans (le_max_right _ _) hfuel)
  have hb := Approximates.both hg h0' hL hL'
  refine ⟨(L ++ L'.map fun x => -x).insertionSort (· ≤ ·), ?_, List.pairwise_insertionSort _ _, hb.sort⟩
  have hlen := hb.length_le hf
  rw [List.length_append] at hlen
  rw [solveRealRoots, if_neg h0, if_neg ht]
  simp only [solveBoth, solvePositive, e, e', eg, Out.bind, Out.lift]
  rw [svPushAll_eq _ _ _ hlen]

/-! ## A case: `(x² - 1)²` -/

theorem lmq_square : lmqUpper (![1, 0, -2, 0, 1] : Arr ℝ 4) = some (some 2) := by
  have h4 : ((4 : ℝ)) ^ ((1 : ℝ) / 2) = 2 := by
    rw [← Real.sqrt_eq_rpow, show (4 : ℝ) = 2 ^ 2 by norm_num, Real.sqrt_sq (by norm_num)]
  have hup : lmqUpper (![1, 0, -2, 0, 1] : Arr ℝ 4) = some (some (max ((4 : ℝ) ^ ((1 : ℝ) / 2)) 0)) := by
    norm_num [lmqUpper, realOrder, rd, lmqOuter, lmqInner, forDown, wr]
  rw [hup, h4]
  norm_num

example : SturmSafe (![1, 0, -2, 0, 1] : Arr ℝ 4) ∧ value (![1, 0, -2, 0, 1] : Arr ℝ 4) 1 = 0 ∧
    deriv (value (![1, 0, -2, 0, 1] : Arr ℝ 4)) 1 = 0 := by
  have hv : value (![1, 0, -2, 0, 1] : Arr ℝ 4) = fun x => (x ^ 2 - 1) ^ 2 := by
    funext x; simp [value, Fin.sum_univ_succ]; ring
  refine ⟨SturmSafe.of_avoids ?_, by rw [hv]; norm_num, ?_⟩
  · rintro x hx h0 ⟨l, u, hl, hu, k, m, -, h⟩
    have hrev : (fun i => (![1, 0, -2, 0, 1] : Arr ℝ 4) i.rev) = ![1, 0, -2, 0, 1] := by
      funext i; fin_cases i <;> rfl
    rw [lmqLower, hrev, lmq_square] at hl
    rw [lmq_square] at hu
    simp at hl hu
    subst hl hu
    have hx1 : x = 1 := by
      rw [hv] at h0
      have : x ^ 2 - 1 = 0 := pow_eq_zero_iff (two_ne_zero) |>.1 h0
      nlinarith
    subst hx1
    have h2 : (0 : ℝ) < 2 ^ m := by positivity
    have h3 : ((3 * k : ℕ) : ℝ) = ((2 ^ m : ℕ) : ℝ) := by
      push_cast
      field_simp at h
      linarith
    have h4 : 3 * k = 2 ^ m := by exact_mod_cast h3
    have h5 : 3 ∣ 2 ^ m := ⟨k, h4.symm⟩
    have := Nat.Prime.dvd_of_dvd_pow Nat.prime_three h5
    omega
  · rw [hv]
    have : HasDerivAt (fun x : ℝ => (x ^ 2 - 1) ^ 2) _ 1 := ((hasDerivAt_pow 2 (1 : ℝ)).sub_const 1).pow 2
    rw [this.deriv]
    norm_num

/-! ## A root that is lost -/

/-- At a multiple root every polynomial of the chain is zero. -/
theorem SturmChain.tail_vanish (inf x : ℝ) : (n : ℕ) → (p' : Arr ℝ (n + 1)) → (p : Arr ℝ n) → (polyOf p').eval x = 0 →
    (polyOf p).eval x = 0 → ∀ c, SturmChain.tail inf n p' p = some c → ∀ q ∈ c.polys, q.eval x = 0
  | 0, p', p, h1, h2, c, hc => by
    rw [SturmChain.tail, Option.some_inj] at hc
    subst hc
    simpa [SturmChain.polys] using h2
  | n + 1, p', p, h1, h2, c, hc => by
    rw [SturmChain.tail] at hc
    obtain ⟨r, hr, hc⟩ := Option.bind_eq_some_iff.1 hc
    obtain ⟨t, ht, hc⟩ := Option.bind_eq_some_iff.1 hc
    cases hc
    have hr0 : (polyOf r).eval x = 0 := by
      by_cases hp : polyOf p = 0
      · obtain ⟨r', e, h⟩ := mrem_zero inf p' p hp
        rw [hr] at e; cases e
        rw [h, Polynomial.eval_zero]
      · obtain ⟨r', q, e, h⟩ := mrem_ne inf p' p hp
        rw [hr] at e; cases e
        have := congrArg (eval x) h
        rw [eval_sub, eval_mul, h1, h2] at this
        linarith
    have := SturmChain.tail_vanish inf x n p r h2 hr0 t ht
    intro q hq
    rcases List.mem_cons.1 hq with rfl | hq
    · exact h2
    · exact this q hq

theorem sc_le : ∀ (last : ℤ) (l : List ℝ), sc last l ≤ l.length
  | _, [] => by simp [sc]
  | last, v :: l => by
    rw [sc]
    have := sc_le (if signOf v ≠ 0 then signOf v else last) l
    simp only [List.length_cons]
    split <;> omega

theorem sc_first : ∀ (l : List ℝ), sc 0 l ≤ l.length - 1
  | [] => by simp [sc]
  | v :: l => by
    rw [sc]
    have := sc_le (if signOf v ≠ 0 then signOf v else 0) l
    simp only [List.length_cons]
    simpa using this

theorem sc_all_zero (l : List ℝ) (h : ∀ v ∈ l, v = 0) : sc 0 l = 0 := by
  have := sc_append_zeros 0 [] l h
  simpa [sc] using this

theorem SturmChain.polys_last : {n : ℕ} → (c : SturmChain ℝ n) → ∃ l p, c.polys = l ++ [C p] ∧ l.length = n
  | _, .last p => ⟨[], coef p 0, by simp [SturmChain.polys, polyOf_zero_order], rfl⟩
  | _, .cons p t => by
    obtain ⟨l, q, h1, h2⟩ := t.polys_last
    exact ⟨polyOf p :: l, q, by simp [SturmChain.polys, h1], by simp [h2]⟩

/-- The sign changes of a chain with a multiple root: none at the root, and everywhere fewer than the order. -/
theorem signChanges_multiple (inf x : ℝ) {n : ℕ} (f : Arr ℝ (n + 1)) (c : SturmChain ℝ (n + 1)) (hc : sturmChain inf f = some c)
    (h1 : (polyOf f).eval x = 0) (h2 : (derivative (polyOf f)).eval x = 0) :
    c.signChanges (fun p => signAt x p) = some 0 ∧ ∀ y k, c.signChanges (fun p => signAt y p) = some k → k ≤ n := by
  obtain ⟨g, eg, hg⟩ := derivArr_spec f
  rw [sturmChain, eg, Option.bind_eq_bind, Option.bind_some] at hc
  obtain ⟨t, ht, hc⟩ := Option.bind_eq_some_iff.1 hc
  cases hc
  have hall : ∀ q ∈ (SturmChain.cons f t).polys, q.eval x = 0 := by
    intro q hq
    rcases List.mem_cons.1 hq with rfl | hq
    · exact h1
    · exact SturmChain.tail_vanish inf x n f g h1 (by rw [hg]; exact h2) t ht q hq
  constructor
  · rw [SturmChain.signChanges, helper_eq, sc_all_zero]
    intro v hv
    obtain ⟨q, hq, rfl⟩ := List.mem_map.1 hv
    exact hall q hq
  · intro y k hk
    obtain ⟨l, p, h3, h4⟩ := (SturmChain.cons f t).polys_last
    have hp : p = 0 := by simpa using hall (C p) (by rw [h3]; simp)
    rw [SturmChain.signChanges, helper_eq, h3, List.map_append, sc_append_zeros _ _ _ (by simp [hp])] at hk
    cases hk
    have := sc_first (l.map (eval y))
    rw [List.length_map, h4] at this
    omega

/-- The solver returns nothing to the right of its regions. -/
theorem sturmHalf_within (E : Env) {n : ℕ} (f : Arr ℝ n) {lo hi B : ℝ} {k : ℕ} {s s' : List Region × List ℝ} (hlh : lo ≤ hi)
    (hB : hi ≤ B) (h1 : ∀ r ∈ s.1, r.1 ≤ r.2.1 ∧ r.2.1 ≤ B) (h2 : ∀ x ∈ s.2, x ≤ B) (h : sturmHalf E f lo hi k s = some s') :
    (∀ r ∈ s'.1, r.1 ≤ r.2.1 ∧ r.2.1 ≤ B) ∧ ∀ x ∈ s'.2, x ≤ B := by
  have push : ∀ s', (do let r ← pushRegion n (lo, hi, k) s.1; some (r, s.2)) = some s' →
      (∀ r ∈ s'.1, r.1 ≤ r.2.1 ∧ r.2.1 ≤ B) ∧ ∀ x ∈ s'.2, x ≤ B := by
    intro s' h
    obtain ⟨r, hr, h⟩ := Option.bind_eq_some_iff.1 h
    cases h
    unfold pushRegion at hr
    split at hr
    · cases hr
      refine ⟨fun r hr => ?_, h2⟩
      rcases List.mem_cons.1 hr with rfl | hr
      · exact ⟨hlh, hB⟩
      · exact h1 r hr
    · simp at hr
  unfold sturmHalf at h
  split at h
  · exact push s' h
  split at h
  · split at h
    · rename_i root hb
      obtain ⟨r, hr, h⟩ := Option.bind_eq_some_iff.1 h
      cases h
      unfold svPush at hr
      split at hr
      · cases hr
        refine ⟨h1, fun x hx => ?_⟩
        rcases List.mem_append.1 hx with hx | hx
        · exact h2 x hx
        · rw [List.mem_singleton] at hx
          subst hx
          exact ((callBisection_success E f hb).2.1.trans_le hB).le
      · simp at hr
    · exact push s' h
  · cases h; exact ⟨h1, h2⟩

theorem svPushAll_mem {cap : ℕ} : ∀ {l s s' : List ℝ}, svPushAll cap s l = some s' → ∀ x ∈ s', x ∈ s ∨ x ∈ l := by
  intro l
  induction l with
  | nil => intro s s' h x hx; simp [svPushAll] at h; subst h; exact .inl hx
  | cons a l ih =>
    intro s s' h x hx
    rw [svPushAll] at h
    obtain ⟨r, hr, h⟩ := Option.bind_eq_some_iff.1 h
    unfold svPush at hr
    split at hr
    · cases hr
      rcases ih h x hx with h | h
      · rcases List.mem_append.1 h with h | h
        · exact .inl h
        · exact .inr (by rw [List.mem_singleton] at h; simp [h])
      · exact .inr (by simp [h])
    · simp at hr

theorem sturmStep_within (E : Env) {eps : ℝ} {n : ℕ} (f : Arr ℝ n) (c : SturmChain ℝ n) {lo hi B : ℝ} {k : ℕ}
    {s s' : List Region × List ℝ} (hlh : lo ≤ hi)
    (hB : hi ≤ B) (h1 : ∀ r ∈ s.1, r.1 ≤ r.2.1 ∧ r.2.1 ≤ B) (h2 : ∀ x ∈ s.2, x ≤ B)
    (h : sturmStep E eps f c lo hi k s = some s') :
    (∀ r ∈ s'.1, r.1 ≤ r.2.1 ∧ r.2.1 ≤ B) ∧ ∀ x ∈ s'.2, x ≤ B := by
  have two : ∀ (mid : ℝ) (a b : ℕ), lo ≤ mid → mid ≤ hi →
      (do let s ← sturmHalf E f lo mid a s; sturmHalf E f mid hi b s) = some s' →
      (∀ r ∈ s'.1, r.1 ≤ r.2.1 ∧ r.2.1 ≤ B) ∧ ∀ x ∈ s'.2, x ≤ B := by
    intro mid a b e1 e2 h
    obtain ⟨t, ht, h⟩ := Option.bind_eq_some_iff.1 h
    obtain ⟨h3, h4⟩ := sturmHalf_within E f e1 (e2.trans hB) h1 h2 ht
    exact sturmHalf_within E f e2 hB h3 h4 h
  unfold sturmStep at h
  split at h
  · obtain ⟨r, hr, h⟩ := Option.bind_eq_some_iff.1 h
    cases h
    refine ⟨h1, fun x hx => ?_⟩
    rcases svPushAll_mem hr x hx with h | h
    · exact h2 x h
    · rw [List.eq_of_mem_replicate h]; linarith
  · obtain ⟨a, -, h⟩ := Option.bind_eq_some_iff.1 h
    obtain ⟨b, -, h⟩ := Option.bind_eq_some_iff.1 h
    split at h
    · obtain ⟨a, -, h⟩ := Option.bind_eq_some_iff.1 h
      obtain ⟨b, -, h⟩ := Option.bind_eq_some_iff.1 h
      split at h
      · obtain ⟨r, hr, h⟩ := Option.bind_eq_some_iff.1 h
        cases h
        refine ⟨h1, fun x hx => ?_⟩
        unfold svPush at hr
        split at hr
        · cases hr
          rcases List.mem_append.1 hx with hx | hx
          · exact h2 x hx
          · rw [List.mem_singleton] at hx; subst hx; linarith
        · simp at hr
      · exact two _ _ _ (by linarith) (by linarith) h
    · exact two _ _ _ (by linarith) (by linarith) h

theorem sturmLoop_within (E : Env) {eps : ℝ} {n : ℕ} (f : Arr ℝ n) (c : SturmChain ℝ n) {B : ℝ} : ∀ (fuel : ℕ)
    (s : List Region × List ℝ), (∀ r ∈ s.1, r.1 ≤ r.2.1 ∧ r.2.1 ≤ B) → (∀ x ∈ s.2, x ≤ B) →
    ∀ L, sturmLoop E eps f c fuel s = .ok L → ∀ x ∈ L, x ≤ B := by
  intro fuel
  induction fuel with
  | zero =>
    rintro ⟨regs, ret⟩ h1 h2 L h
    cases regs with
    | nil => simp [sturmLoop] at h; subst h; exact h2
    | cons r l => simp [sturmLoop] at h
  | succ fuel ih =>
    rintro ⟨regs, ret⟩ h1 h2 L h
    cases regs with
    | nil => simp [sturmLoop] at h; subst h; exact h2
    | cons r l =>
      obtain ⟨lo, hi, k⟩ := r
      rw [sturmLoop] at h
      cases hs : sturmStep E eps f c lo hi k (l, ret) with
      | none => rw [hs] at h; simp [Out.lift, Out.bind] at h
      | some s' =>
        rw [hs] at h
        simp only [Out.lift, Out.bind] at h
        obtain ⟨h3, h4⟩ := sturmStep_within (s := (l, ret)) E f c (h1 (lo, hi, k) (by simp)).1 (h1 (lo, hi, k) (by simp)).2
          (fun r hr => h1 r (by simp at hr; simp [hr])) h2 hs
        exact ih s' h3 h4 L h

/-- `(x-1)²(x+2)(2x²-3)` -/
noncomputable def lossy : Arr ℝ 5 := ![-6, 9, 4, -9, 0, 2]

theorem value_lossy (x : ℝ) : value lossy x = (x - 1) ^ 2 * (x + 2) * (2 * x ^ 2 - 3) := by
  simp [value, lossy, Fin.sum_univ_succ]; ring

theorem rpow_half_sq {a : ℝ} (h : 0 ≤ a) : (a ^ 2) ^ ((1 : ℝ) / 2) = a := by
  rw [← Real.sqrt_eq_rpow, Real.sqrt_sq h]

theorem lmqUpper_lossy : lmqUpper lossy = some (some 3) := by
  have hup : ∃ a b : ℝ, lmqUpper lossy = some (some (max (min (4 / 3) (min a b)) (max ((9 : ℝ) ^ ((1 : ℝ) / 2)) 0))) := by
    refine ⟨(3 : ℝ) ^ ((1 : ℝ) / 2), (12 : ℝ) ^ ((1 : ℝ) / 5), ?_⟩
    norm_num [lmqUpper, lossy, realOrder, rd, lmqOuter, lmqInner, forDown, wr]
  obtain ⟨a, b, h⟩ := hup
  rw [h, show (9 : ℝ) = 3 ^ 2 by norm_num, rpow_half_sq (by norm_num), max_eq_left (by norm_num : (0 : ℝ) ≤ 3),
    max_eq_right ((min_le_left _ _).trans (by norm_num))]

theorem lmqLower_lossy : lmqLower lossy = some (some (1 / 3)) := by
  have hup : lmqUpper (fun i => lossy i.rev) = some (some (max (min ((4 / 9 : ℝ) ^ ((1 : ℝ) / 2)) ((8 / 3 : ℝ) ^ ((1 : ℝ) / 5)))
      (max ((8 / 3 : ℝ) ^ ((1 : ℝ) / 2)) (max 3 0)))) := by
    have hrev : (fun i => lossy i.rev : Arr ℝ 5) = ![2, 0, -9, 4, 9, -6] := by
      funext i; fin_cases i <;> rfl
    rw [hrev]
    norm_num [lmqUpper, realOrder, rd, lmqOuter, lmqInner, forDown, wr]
  have h1 : ((4 / 9 : ℝ)) ^ ((1 : ℝ) / 2) = 2 / 3 := by
    rw [show (4 / 9 : ℝ) = (2 / 3) ^ 2 by norm_num, rpow_half_sq (by norm_num)]
  have h2 : ((8 / 3 : ℝ)) ^ ((1 : ℝ) / 2) ≤ 3 := by
    rw [← Real.sqrt_eq_rpow]
    exact Real.sqrt_le_iff.2 ⟨by norm_num, by norm_num⟩
  rw [max_eq_left (by norm_num : (0 : ℝ) ≤ 3), max_eq_right h2, h1,
    max_eq_right ((min_le_left _ _).trans (by norm_num))] at hup
  rw [lmqLower, hup]
  norm_num

theorem roots_lossy : (polyOf lossy).roots.toFinset = {-2, -√(3 / 2), 1, √(3 / 2)} := by
  have hf : lossy ≠ 0 := fun h => by simpa [lossy] using congrFun h 5
  have hs : √(3 / 2 : ℝ) ^ 2 = 3 / 2 := Real.sq_sqrt (by norm_num)
  ext x
  rw [Multiset.mem_toFinset, mem_roots (polyOf_ne_zero hf), IsRoot.def, ← value_eq, value_lossy]
  simp only [Finset.mem_insert, Finset.mem_singleton]
  have e : (x - 1) ^ 2 * (x + 2) * (2 * x ^ 2 - 3) = 2 * ((x - 1) ^ 2 * (x + 2) * ((x - √(3 / 2)) * (x + √(3 / 2)))) := by
    have : (x - √(3 / 2)) * (x + √(3 / 2)) = x ^ 2 - 3 / 2 := by linear_combination -hs
    rw [this]; ring
  rw [e]
  simp only [mul_eq_zero, OfNat.ofNat_ne_zero, false_or, pow_eq_zero_iff, ne_eq, not_false_eq_true, sub_eq_zero,
    add_eq_zero_iff_eq_neg]
  tauto

theorem deriv_lossy (x : ℝ) : (derivative (polyOf lossy)).eval x = 10 * x ^ 4 - 27 * x ^ 2 + 8 * x + 9 := by
  have hv : (fun x => (polyOf lossy).eval x) = fun x => 2 * x ^ 5 - 9 * x ^ 3 + 4 * x ^ 2 + 9 * x - 6 := by
    funext x; rw [← value_eq]; simp [value, lossy, Fin.sum_univ_succ]; ring
  rw [← (polyOf lossy).deriv, hv]
  have : HasDerivAt (fun x : ℝ => 2 * x ^ 5 - 9 * x ^ 3 + 4 * x ^ 2 + 9 * x - 6) _ x :=
    (((((hasDerivAt_pow 5 x).const_mul 2).sub ((hasDerivAt_pow 3 x).const_mul 9)).add ((hasDerivAt_pow 2 x).const_mul 4)).add
      ((hasDerivAt_id' x).const_mul 9)).sub_const 6
  rw [this.deriv]
  push_cast
  ring

theorem chain_lossy (inf : ℝ) : ∃ c, sturmChain inf lossy = some c ∧ c.roots (1 / 3) 3 = some 2 ∧ c.roots (1 / 3) (5 / 3) = some 2 ∧
    c.roots (5 / 3) 3 = some 0 ∧ c.roots (1 / 3) 1 = some 2 ∧ c.roots 1 (5 / 3) = some 0 := by
  have hf : lossy ≠ 0 := fun h => by simpa [lossy] using congrFun h 5
  obtain ⟨c, V, hc, hV, key⟩ := chain_counts inf lossy (polyOf_ne_zero hf)
  have e1 : (polyOf lossy).eval 1 = 0 := by rw [← value_eq, value_lossy]; norm_num
  have d1 : (derivative (polyOf lossy)).eval 1 = 0 := by rw [deriv_lossy]; norm_num
  obtain ⟨h1, hle⟩ := signChanges_multiple inf 1 lossy c hc e1 d1
  have good : ∀ x : ℝ, (x - 1) ^ 2 * (x + 2) * (2 * x ^ 2 - 3) ≠ 0 → c.signChanges (fun p => signAt x p) = some (V x) :=
    fun x hx => hV x fun h => hx (by rw [← value_lossy, value_eq]; exact h.1)
  have g1 := good (1 / 3) (by norm_num)
  have g2 := good (5 / 3) (by norm_num)
  have g3 := good 3 (by norm_num)
  have g4 := good (-3) (by norm_num)
  have s1 : 1 < √(3 / 2 : ℝ) := Real.lt_sqrt_of_sq_lt (by norm_num)
  have s2 : √(3 / 2 : ℝ) < 5 / 3 := (Real.sqrt_lt' (by norm_num)).2 (by norm_num)
  have c1 : (rootsUpTo (polyOf lossy) (-3)).card = 0 := by
    rw [rootsUpTo, roots_lossy, Finset.card_eq_zero, Finset.filter_eq_empty_iff]
    intro x hx
    simp only [Finset.mem_insert, Finset.mem_singleton] at hx
    rcases hx with rfl | rfl | rfl | rfl <;> linarith
  have four : ({-2, -√(3 / 2), 1, √(3 / 2)} : Finset ℝ).card = 4 := by
    rw [Finset.card_insert_of_notMem, Finset.card_insert_of_notMem, Finset.card_pair (by linarith)]
    · simp only [Finset.mem_insert, Finset.mem_singleton, not_or]
      constructor <;> intro h <;> linarith
    · simp only [Finset.mem_insert, Finset.mem_singleton, not_or]
      refine ⟨?_, ?_, ?_⟩ <;> intro h <;> linarith
  have all : ∀ y : ℝ, 5 / 3 ≤ y → (rootsUpTo (polyOf lossy) y).card = 4 := by
    intro y hy
    rw [rootsUpTo, roots_lossy, Finset.filter_true_of_mem, four]
    intro x hx
    simp only [Finset.mem_insert, Finset.mem_singleton] at hx
    rcases hx with rfl | rfl | rfl | rfl <;> linarith
  have c2 : (rootsUpTo (polyOf lossy) (1 / 3)).card = 2 := by
    have : rootsUpTo (polyOf lossy) (1 / 3) = {-2, -√(3 / 2)} := by
      rw [rootsUpTo, roots_lossy]
      ext x
      simp only [Finset.mem_filter, Finset.mem_insert, Finset.mem_singleton]
      constructor
      · rintro ⟨rfl | rfl | rfl | rfl, h⟩
        · exact .inl rfl
        · exact .inr rfl
        · exfalso; linarith
        · exfalso; linarith
      · rintro (rfl | rfl)
        · exact ⟨.inl rfl, by norm_num⟩
        · exact ⟨.inr (.inl rfl), by linarith⟩
    rw [this, Finset.card_pair (by intro h; linarith)]
  have k1 := key (-3) (5 / 3)
  have k2 := key (1 / 3) (5 / 3)
  have k3 := key (5 / 3) 3
  rw [c1, all _ le_rfl] at k1
  rw [c2, all _ le_rfl] at k2
  rw [all _ le_rfl, all _ (by norm_num)] at k3
  have k4 := hle _ _ g4
  refine ⟨c, hc, ?_, ?_, ?_, ?_, ?_⟩
  all_goals simp only [SturmChain.roots, g1, g2, g3, h1, Option.bind_eq_bind, Option.bind_some, Option.some.injEq]; omega

/-- **C54 fails when a multiple root is a division point**: `(x-1)²(x+2)(2x²-3)` has the positive roots 1 and `√(3/2)`. The
solver divides `[1/3, 3]` at `5/3` and `[1/3, 5/3]` at the double root 1, where all polynomials of the chain are zero, counts both
roots to the left of 1, and never returns `√(3/2)` or anything near it. -/
theorem C54_multiple_root_lost (E : Env) (eps inf : ℝ) (h1 : eps ≤ 1) (fuel : ℕ) (L : List ℝ)
    (h : solveSturm E eps inf fuel lossy = .ok L) :
    value lossy √(3 / 2) = 0 ∧ 1 < √(3 / 2 : ℝ) ∧ ∀ x ∈ L, x ≤ 1 := by
  have s1 : 1 < √(3 / 2 : ℝ) := Real.lt_sqrt_of_sq_lt (by norm_num)
  refine ⟨by rw [value_lossy, Real.sq_sqrt (by norm_num)]; norm_num, s1, ?_⟩
  obtain ⟨c, hc, r1, r2, r3, r4, r5⟩ := chain_lossy inf
  simp only [solveSturm, lmqUpper_lossy, lmqLower_lossy, Out.lift, Out.bind, hc, r1] at h
  rw [if_neg (by norm_num)] at h
  simp only [List.take] at h
  have m1 : ((1 / 3 : ℝ) + 3) / 2 = 5 / 3 := by norm_num
  have m2 : ((1 / 3 : ℝ) + 5 / 3) / 2 = 1 := by norm_num
  have t1 : sturmStep E eps lossy c (1 / 3) 3 2 ([], []) = some ([(1 / 3, 5 / 3, 2)], []) := by
    rw [sturmStep, if_neg]
    · simp only [m1, r2, r3, sturmHalf, pushRegion]
      rfl
    · norm_num [abs_of_neg, abs_of_pos]
      linarith
  have t2 : sturmStep E eps lossy c (1 / 3) (5 / 3) 2 ([], []) = some ([(1 / 3, 1, 2)], []) := by
    rw [sturmStep, if_neg]
    · simp only [m2, r4, r5, sturmHalf, pushRegion]
      rfl
    · norm_num [abs_of_neg, abs_of_pos]
      linarith
  cases fuel with
  | zero => simp [sturmLoop] at h
  | succ fuel =>
    rw [sturmLoop, t1] at h
    simp only [Out.lift, Out.bind] at h
    cases fuel with
    | zero => simp [sturmLoop] at h
    | succ fuel =>
      rw [sturmLoop, t2] at h
      simp only [Out.lift, Out.bind] at h
      exact sturmLoop_within E lossy c fuel _ (by
        intro r hr
        rw [List.mem_singleton] at hr
        subst hr
        norm_num) (by simp) L h

end Stator.Pol
