import Verif.Poly.SturmLemmas

/-! # C28: counting real roots with Sturm chains -/

namespace Stator.Pol

open Polynomial

/-- The sign changes of the chain of `f`, at all points that are not multiple roots: they go down by one at each root. -/
theorem chain_counts (inf : ℝ) {n : ℕ} (f : Arr ℝ (n + 1)) (hp : polyOf f ≠ 0) : ∃ (c : SturmChain ℝ (n + 1)) (V : ℝ → ℕ),
    sturmChain inf f = some c ∧
    (∀ x, ¬ ((polyOf f).eval x = 0 ∧ (derivative (polyOf f)).eval x = 0) → c.signChanges (fun p => signAt x p) = some (V x)) ∧
    ∀ a b, V a + (rootsUpTo (polyOf f) a).card = V b + (rootsUpTo (polyOf f) b).card := by
  obtain ⟨g, eg, hg⟩ := derivArr_spec f
  obtain ⟨t, et, d, R, Z, hd, hZ, hR, hlist⟩ := SturmChain.structure inf n f g hp
  have hsc : ∀ x, ¬ ((polyOf f).eval x = 0 ∧ (derivative (polyOf f)).eval x = 0) →
      (SturmChain.cons f t).signChanges (fun p => signAt x p) = some (sc 0 (R.map (eval x))) := by
    intro x hx
    rw [SturmChain.signChanges, helper_eq, SturmChain.polys, hlist, List.map_append,
      sc_append_zeros]
    · have hdx : d.eval x ≠ 0 := by
        intro h
        have hall : ∀ q ∈ polyOf f :: t.polys, q.eval x = 0 := by
          intro q hq
          rw [hlist, List.mem_append, List.mem_map] at hq
          rcases hq with ⟨r, -, rfl⟩ | hq
          · rw [eval_mul, h, zero_mul]
          · rw [hZ q hq, Polynomial.eval_zero]
        obtain ⟨l, hl⟩ := SturmChain.polys_head et
        exact hx ⟨hall _ (by simp), by rw [← hg]; exact hall _ (by rw [hl]; simp)⟩
      rw [← sc_mul hdx (R.map (eval x)), List.map_map, List.map_map]
      congr 2
      exact List.map_congr_left fun r _ => by simp
    · intro v hv
      obtain ⟨z, hz, rfl⟩ := List.mem_map.1 hv
      rw [hZ z hz, Polynomial.eval_zero]
  have key : ∀ a b, sc 0 (R.map (eval a)) + (rootsUpTo (polyOf f) a).card =
      sc 0 (R.map (eval b)) + (rootsUpTo (polyOf f) b).card := by
    intro a b
    obtain ⟨l, hl⟩ := SturmChain.polys_head et
    match R, hR with
    | [r], hR =>
      have hg0 : polyOf g = 0 := by
        rw [hl] at hlist
        simp only [List.map_cons, List.map_nil, List.cons_append, List.nil_append,
          List.cons.injEq] at hlist
        exact hZ _ (by rw [← hlist.2]; simp)
      have hdeg : (polyOf f).natDegree = 0 :=
        derivative_eq_zero.1 (by rw [← hg, hg0])
      have : (polyOf f).roots = 0 := by
        rw [eq_C_of_natDegree_eq_zero hdeg]; simp
      simp [rootsUpTo, this, sc]
    | r :: s :: R', hR =>
      have h0 : polyOf f = d * r := by simp at hlist; exact hlist.1
      have h1 : polyOf g = d * s := by rw [hl] at hlist; simp at hlist; exact hlist.2.1
      refine sturm_count hp hR ?_ ?_ ?_ a b
      · rw [← hg, h0, h1]; ring
      · rintro rfl; exact hp (by rw [h0, mul_zero])
      · intro c hc; rw [h0, eval_mul, hc, mul_zero]
  exact ⟨.cons f t, fun x => sc 0 (R.map (eval x)), by simp [sturmChain, eg, et], hsc, key⟩

/-- **C28**: for every polynomial that is not zero and every interval whose ends are not multiple roots,
the Sturm chain exists and `roots(a, b)` is the number of distinct real roots in `(a, b]`. Zero leading
coefficients, multiple roots inside the interval and simple roots at its ends are all allowed. -/
theorem C28_sturm (inf : ℝ) {n : ℕ} (f : Arr ℝ n) (hf : f ≠ 0) (a b : ℝ) (hab : a ≤ b)
    (ha : ¬ (value f a = 0 ∧ deriv (value f) a = 0)) (hb : ¬ (value f b = 0 ∧ deriv (value f) b = 0)) :
    ∃ c, sturmChain inf f = some c ∧ c.roots a b = some {x : ℝ | value f x = 0 ∧ a < x ∧ x ≤ b}.ncard := by
  have hp := polyOf_ne_zero hf
  have hval : value f = fun x => (polyOf f).eval x := funext fun x => value_eq f x
  have hset : {x : ℝ | value f x = 0 ∧ a < x ∧ x ≤ b} =
      ((polyOf f).roots.toFinset.filter fun x => a < x ∧ x ≤ b : Finset ℝ) := by
    ext x
    simp [hp, value_eq]
  rw [hset, Set.ncard_coe_finset]
  have hdval : ∀ x, deriv (value f) x = (derivative (polyOf f)).eval x := fun x => by
    rw [hval]; exact (polyOf f).deriv
  rw [hdval, value_eq] at ha hb
  match n, f, hf, hp, ha, hb with
  | 0, f, hf, hp, _, _ =>
    refine ⟨.last f, rfl, ?_⟩
    have : (polyOf f).roots = 0 := by rw [polyOf_zero_order]; simp
    simp [SturmChain.roots, SturmChain.signChanges, this]
  | n + 1, f, hf, hp, ha, hb =>
    obtain ⟨c, V, hc, hV, key⟩ := chain_counts inf f hp
    refine ⟨c, hc, ?_⟩
    have hcount := rootsUpTo_sub (polyOf f) hab
    have key := key a b
    simp only [SturmChain.roots, hV a ha, hV b hb, Option.bind_eq_bind, Option.bind_some,
      Option.some.injEq]
    omega

-- a case that meets the hypotheses: `(x-1)²(x+2)` between two points that are not roots, and with a
-- simple root at the left end
example (inf : ℝ) : ∃ c, sturmChain inf (![2, -3, 0, 1] : Arr ℝ 3) = some c ∧
    c.roots (-2) 3 = some {x : ℝ | value (![2, -3, 0, 1] : Arr ℝ 3) x = 0 ∧ -2 < x ∧ x ≤ 3}.ncard := by
  refine C28_sturm inf _ (fun h => by simpa using congrFun h 3) _ _ (by norm_num) ?_ ?_
  · rintro ⟨-, h⟩
    have hv : value (![2, -3, 0, 1] : Arr ℝ 3) = fun x => x ^ 3 - 3 * x + 2 := by
      funext x; simp [value, Fin.sum_univ_succ]; ring
    rw [hv] at h
    have hd : HasDerivAt (fun x : ℝ => x ^ 3 - 3 * x + 2) _ (-2) :=
      ((hasDerivAt_pow 3 (-2 : ℝ)).sub ((hasDerivAt_id' (-2 : ℝ)).const_mul 3)).add_const 2
    rw [hd.deriv] at h
    norm_num at h
  · rintro ⟨h, -⟩
    norm_num [value, Fin.sum_univ_succ] at h

/-- **C28**, corollary: the chain counts all real roots when `a` and `b` enclose them. -/
theorem C28_all_roots (inf : ℝ) {n : ℕ} (f : Arr ℝ n) (hf : f ≠ 0) (a b : ℝ) (hab : a ≤ b)
    (h : ∀ x, value f x = 0 → a < x ∧ x < b) :
    ∃ c, sturmChain inf f = some c ∧ c.roots a b = some {x : ℝ | value f x = 0}.ncard := by
  obtain ⟨c, e, hc⟩ := C28_sturm inf f hf a b hab (fun ha => lt_irrefl _ (h a ha.1).1)
    (fun hb => lt_irrefl _ (h b hb.1).2)
  refine ⟨c, e, ?_⟩
  rw [hc]
  congr 2
  ext x
  exact ⟨fun h => h.1, fun hx => ⟨hx, (h x hx).1, (h x hx).2.le⟩⟩

/-- Every polynomial of the chain is constant or has a degree of the parity of its order (for instance, no
leading coefficient is zero). -/
def SturmChain.Parity : {n : ℕ} → SturmChain ℝ n → Prop
  | _, .last _ => True
  | _, @SturmChain.cons _ m p t =>
    ((polyOf p).natDegree = 0 ∨ (polyOf p).natDegree % 2 = (m + 1) % 2) ∧ t.Parity

theorem natDegree_of_top {n : ℕ} {p : Arr ℝ n} (h : coef p n ≠ 0) : (polyOf p).natDegree = n := by
  apply le_antisymm
  · rw [natDegree_le_iff_coeff_eq_zero]
    intro j hj; rw [polyOf_coeff, coef_gt p hj]
  · exact le_natDegree_of_ne_zero (by rwa [polyOf_coeff])

open Filter in
theorem signAt_eventually {n : ℕ} (p : Arr ℝ n) {l : Filter ℝ} {isNeg : Bool} {e : Ext ℝ}
    (he : evalInf p isNeg = some e) (hl : IsLimitAt (value p) l e) (hconst : (polyOf p).natDegree = 0 ∨
      ∃ b, e = .inf b) : ∀ᶠ x in l, signAt x p = signAtInf isNeg p := by
  have hs : ∀ x, signAt x p = some (signOf (value p x)) := fun x => by
    rw [signAt, horner_spec, Option.map_some, value_eq]
  rcases hconst with h | ⟨b, rfl⟩
  · refine Eventually.of_forall fun x => ?_
    rw [hs, signAtInf, evalInf_spec, if_pos h, value_const h]
    rfl
  · cases b with
    | true =>
      refine ((show Tendsto (value p) l atBot from hl).eventually (eventually_lt_atBot 0)).mono fun x hx => ?_
      rw [hs, signAtInf, he, signOf_negative hx]
      rfl
    | false =>
      refine ((show Tendsto (value p) l atTop from hl).eventually (eventually_gt_atTop 0)).mono fun x hx => ?_
      rw [hs, signAtInf, he, signOf_pos hx]
      rfl

open Filter in
theorem signAt_top {n : ℕ} (p : Arr ℝ n) : ∀ᶠ x in atTop, signAt x p = signAtInf false p := by
  obtain ⟨e, he, hl⟩ := C20_pos_infinity p
  refine signAt_eventually p he hl ?_
  have := evalInf_spec p false
  by_cases h : (polyOf p).natDegree = 0
  · exact .inl h
  · rw [he, if_neg h] at this
    exact .inr ⟨_, Option.some.inj this⟩

open Filter in
theorem signAt_bot {n : ℕ} (p : Arr ℝ n) (hp : (polyOf p).natDegree = 0 ∨ (polyOf p).natDegree % 2 = n % 2) :
    ∀ᶠ x in atBot, signAt x p = signAtInf true p := by
  obtain ⟨e, he, hl⟩ := C20_neg_infinity p
  refine signAt_eventually p he (hl.2 hp) ?_
  have := evalInf_spec p true
  by_cases h : (polyOf p).natDegree = 0
  · exact .inl h
  · rw [he, if_neg h] at this
    exact .inr ⟨_, Option.some.inj this⟩

open Filter in
theorem helper_top : {n : ℕ} → (c : SturmChain ℝ n) → ∀ᶠ x in atTop, ∀ last,
    c.signChangeHelper (fun p => signAtInf false p) last = c.signChangeHelper (fun p => signAt x p) last
  | _, .last p => (signAt_top p).mono fun x h last => by
    simp only [SturmChain.signChangeHelper, h]
  | _, .cons p t => ((signAt_top p).and (helper_top t)).mono fun x h last => by
    simp only [SturmChain.signChangeHelper, h.1, h.2]

open Filter in
theorem helper_bot : {n : ℕ} → (c : SturmChain ℝ n) → c.Parity → ∀ᶠ x in atBot, ∀ last,
    c.signChangeHelper (fun p => signAtInf true p) last = c.signChangeHelper (fun p => signAt x p) last
  | _, .last p, _ => (signAt_bot p (.inl (by rw [polyOf_zero_order]; exact natDegree_C _))).mono fun x h last => by
    simp only [SturmChain.signChangeHelper, h]
  | _, .cons p t, hc => ((signAt_bot p hc.1).and (helper_bot t hc.2)).mono fun x h last => by
    simp only [SturmChain.signChangeHelper, h.1, h.2]

open Filter in
/-- **C28**, from `-∞` to `+∞`: the count is right if the degree of every polynomial of the chain has the
parity of its order. -/
theorem C28_infinite (inf : ℝ) {n : ℕ} (f : Arr ℝ n) (hf : f ≠ 0) (c : SturmChain ℝ n)
    (hc : sturmChain inf f = some c) (hpar : c.Parity) :
    c.rootsInf = some {x : ℝ | value f x = 0}.ncard := by
  have hp := polyOf_ne_zero hf
  have hfin : {x : ℝ | value f x = 0}.Finite :=
    (polyOf f).roots.toFinset.finite_toSet.subset fun x hx => by
      simp only [Set.mem_ofPred_eq, value_eq] at hx
      simp [hp, hx]
  obtain ⟨b, hb⟩ := ((helper_top c).and ((eventually_gt_atTop 0).and
    ((hfin.eventually_all).2 fun x _ => eventually_gt_atTop x))).exists
  obtain ⟨a, ha⟩ := ((helper_bot c hpar).and ((eventually_lt_atBot 0).and
    ((hfin.eventually_all).2 fun x _ => eventually_lt_atBot x))).exists
  obtain ⟨c', e, h⟩ := C28_all_roots inf f hf a b (ha.2.1.trans hb.2.1).le
    (fun x hx => ⟨ha.2.2 x hx, hb.2.2 x hx⟩)
  rw [hc] at e
  cases e
  rw [← h]
  cases n with
  | zero => rfl
  | succ n => simp only [SturmChain.rootsInf, SturmChain.roots, SturmChain.signChanges, ha.1, hb.1]

-- a case that meets the hypotheses: `x² - 2`, with the chain `x² - 2`, `2x`, `2`
example (inf : ℝ) : ∃ c, sturmChain inf (![-2, 0, 1] : Arr ℝ 2) = some c ∧ c.Parity ∧
    c.rootsInf = some {x : ℝ | value (![-2, 0, 1] : Arr ℝ 2) x = 0}.ncard := by
  have hf : (![-2, 0, 1] : Arr ℝ 2) ≠ 0 := fun h => by simpa using congrFun h 2
  obtain ⟨c, hc, -⟩ := C28_all_roots inf _ hf (-2) 2 (by norm_num) (fun x hx => by
    norm_num [value, Fin.sum_univ_succ] at hx
    constructor <;> nlinarith)
  have hpar : c.Parity := by
    obtain ⟨g, eg, hg⟩ := derivArr_spec (![-2, 0, 1] : Arr ℝ 2)
    rw [sturmChain, eg, Option.bind_eq_bind, Option.bind_some] at hc
    obtain ⟨t, ht, hc⟩ := Option.bind_eq_some_iff.1 hc
    cases hc
    rw [SturmChain.tail] at ht
    obtain ⟨r, -, ht⟩ := Option.bind_eq_some_iff.1 ht
    simp only [SturmChain.tail, Option.bind_eq_bind, Option.bind_some, Option.some.injEq] at ht
    subst ht
    refine ⟨.inr ?_, .inr ?_, trivial⟩
    · rw [natDegree_of_top]
      simp [coef]
    · rw [natDegree_of_top]
      rw [← polyOf_coeff, hg, coeff_derivative, polyOf_coeff]
      simp [coef]
  exact ⟨c, hc, hpar, C28_infinite inf _ hf c hc hpar⟩

/-- **C28**, a wrong answer of the code: the same count from `-∞` to `+∞`. The polynomial `x⁴ + 4x - 3` has
a real root, but `roots(-∞, +∞)` returns 0, because evaluation at `-∞` has the wrong sign (C20). -/
theorem C28_infinite_fails :
    (sturmChain 0 (![-3, 4, 0, 0, 1] : Arr ℚ 4)).bind SturmChain.rootsInf = some 0 ∧
      ∃ x : ℝ, value (![-3, 4, 0, 0, 1] : Arr ℝ 4) x = 0 := by
  refine ⟨by decide +kernel, ?_⟩
  have hv : value (![-3, 4, 0, 0, 1] : Arr ℝ 4) = fun x => x ^ 4 + 4 * x - 3 := by
    funext x; simp [value, Fin.sum_univ_succ]; ring
  rw [hv]
  have hc : ContinuousOn (fun x : ℝ => x ^ 4 + 4 * x - 3) (Set.Icc 0 1) := by fun_prop
  obtain ⟨x, -, hx⟩ := intermediate_value_Icc (by norm_num) hc (show (0 : ℝ) ∈ _ by norm_num)
  exact ⟨x, hx⟩

/-- **C28**, the hypothesis on the ends is needed: for `x²(x-1) = x³ - x²`, `roots(0, 2)` is 0 although 1 is
a root in `(0, 2]`. -/
theorem C28_multiple_root_end_fails :
    (sturmChain 0 (![0, 0, -1, 1] : Arr ℚ 3)).bind (fun c => c.roots 0 2) = some 0 ∧
      value (![0, 0, -1, 1] : Arr ℚ 3) 1 = 0 := by
  refine ⟨by decide +kernel, by norm_num [value, Fin.sum_univ_succ]⟩

end Stator.Pol
