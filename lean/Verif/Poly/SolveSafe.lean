import Verif.Poly.SolveMultiple

/-!
# C54: the Sturm solver always returns

For every polynomial that is not zero, also if the solver divides at a multiple root: the loop ends, no vector overflows, and there
are at most as many results as roots.
-/

namespace Stator.Pol

open Polynomial

/-- The number of roots attributed to the regions. -/
def regSum (regs : List Region) : ℕ := (regs.map fun r => r.2.2).sum

/-- A region that the loop can hold: within the bounds, with at least one root attributed. -/
def GoodReg (m0 : ℝ) (r : Region) : Prop := m0 ≤ r.1 ∧ r.1 ≤ r.2.1 ∧ 1 ≤ r.2.2

theorem length_le_regSum {m0 : ℝ} : ∀ (regs : List Region), (∀ r ∈ regs, GoodReg m0 r) → regs.length ≤ regSum regs
  | [], _ => by simp [regSum]
  | r :: l, h => by
    have h1 := length_le_regSum l fun r hr => h r (by simp [hr])
    have h2 := (h r (by simp)).2.2
    simp only [regSum, List.map_cons, List.sum_cons, List.length_cons] at *
    omega

theorem sturmHalf_safe (E : Env) {n : ℕ} (f : Arr ℝ n) {m0 lo hi : ℝ} {k : ℕ} {regs : List Region} {ret : List ℝ}
    (hlo : m0 ≤ lo) (hlh : lo ≤ hi) (hregs : ∀ r ∈ regs, GoodReg m0 r) (hret : ∀ x ∈ ret, m0 ≤ x)
    (hcap : ret.length + k + regSum regs ≤ n) :
    ∃ extra ret', sturmHalf E f lo hi k (regs, ret) = some (extra ++ regs, ret') ∧
      ret'.length + regSum (extra ++ regs) = ret.length + k + regSum regs ∧
      (∀ r ∈ extra ++ regs, GoodReg m0 r) ∧ (∀ x ∈ ret', m0 ≤ x) ∧ (extra = [] ∨ extra = [(lo, hi, k)]) := by
  have hlen := length_le_regSum regs hregs
  have push : 1 ≤ k → pushRegion n (lo, hi, k) regs = some ((lo, hi, k) :: regs) := fun h => by
    rw [pushRegion, if_pos (by omega)]
  have good : 1 ≤ k → ∀ r ∈ [(lo, hi, k)] ++ regs, GoodReg m0 r := by
    intro hk r hr
    rcases List.mem_append.1 hr with hr | hr
    · rw [List.mem_singleton] at hr; subst hr; exact ⟨hlo, hlh, hk⟩
    · exact hregs r hr
  unfold sturmHalf
  split
  · rename_i hk
    refine ⟨[(lo, hi, k)], ret, by rw [push (by omega)]; rfl, ?_, good (by omega), hret, .inr rfl⟩
    simp only [regSum, List.map_cons, List.sum_cons, List.cons_append, List.nil_append]; omega
  split
  · rename_i hk
    subst hk
    split
    · rename_i root hb
      refine ⟨[], ret ++ [root], ?_, ?_, by simpa using hregs, ?_, .inl rfl⟩
      · rw [svPush, if_pos (by simp only; omega)]; rfl
      · simp only [List.length_append, List.length_singleton, List.nil_append]
      · intro x hx
        rcases List.mem_append.1 hx with hx | hx
        · exact hret x hx
        · rw [List.mem_singleton] at hx; subst hx
          exact hlo.trans (callBisection_success E f hb).1.le
    · refine ⟨[(lo, hi, 1)], ret, by rw [push (by omega)]; rfl, ?_, good (by omega), hret, .inr rfl⟩
      simp only [regSum, List.map_cons, List.sum_cons, List.cons_append, List.nil_append]; omega
  · refine ⟨[], ret, by simp, ?_, by simpa using hregs, hret, .inl rfl⟩
    simp only [List.nil_append]; omega

theorem roots_some {n : ℕ} (c : SturmChain ℝ n) (a b : ℝ) : ∃ k, c.roots a b = some k := by
  have h : ∀ x, ∃ k, c.signChanges (fun p => signAt x p) = some k := by
    intro x
    cases n with
    | zero => exact ⟨0, rfl⟩
    | succ n => rw [SturmChain.signChanges, helper_eq]; exact ⟨_, rfl⟩
  obtain ⟨k1, h1⟩ := h a
  obtain ⟨k2, h2⟩ := h b
  rw [SturmChain.roots, h1, h2]
  exact ⟨_, rfl⟩

theorem sturmStep_safe (E : Env) {eps : ℝ} (heps : 0 ≤ eps) {n : ℕ} (f : Arr ℝ n) (c : SturmChain ℝ n) {m0 lo hi : ℝ}
    (hm0 : 0 < m0) {k : ℕ} {regs : List Region} {ret : List ℝ} (hlo : m0 ≤ lo) (hlh : lo ≤ hi) (hk : 1 ≤ k)
    (hregs : ∀ r ∈ regs, GoodReg m0 r) (hret : ∀ x ∈ ret, m0 ≤ x) (hcap : ret.length + k + regSum regs ≤ n) :
    ∃ extra ret', sturmStep E eps f c lo hi k (regs, ret) = some (extra ++ regs, ret') ∧
      ret'.length + regSum (extra ++ regs) ≤ ret.length + k + regSum regs ∧
      (∀ r ∈ extra ++ regs, GoodReg m0 r) ∧ (∀ x ∈ ret', m0 ≤ x) ∧ extra.length ≤ 2 ∧
      (extra ≠ [] → eps * m0 < hi - lo) ∧ ∀ r ∈ extra, r.2.1 - r.1 ≤ 3 / 4 * (hi - lo) := by
  have two : ∀ (mid : ℝ) (a b : ℕ), lo ≤ mid → mid ≤ hi → a + b = k → mid - lo ≤ 3 / 4 * (hi - lo) → hi - mid ≤ 3 / 4 * (hi - lo) →
      eps * m0 < hi - lo →
      ∃ extra ret', (do let s ← sturmHalf E f lo mid a (regs, ret); sturmHalf E f mid hi b s) = some (extra ++ regs, ret') ∧
      ret'.length + regSum (extra ++ regs) ≤ ret.length + k + regSum regs ∧
      (∀ r ∈ extra ++ regs, GoodReg m0 r) ∧ (∀ x ∈ ret', m0 ≤ x) ∧ extra.length ≤ 2 ∧
      (extra ≠ [] → eps * m0 < hi - lo) ∧ ∀ r ∈ extra, r.2.1 - r.1 ≤ 3 / 4 * (hi - lo) := by
    intro mid a b h1 h2 hab w1 w2 hw
    obtain ⟨x1, r1, e1, s1, g1, t1, o1⟩ := sturmHalf_safe E f hlo h1 hregs hret (k := a) (by omega)
    obtain ⟨x2, r2, e2, s2, g2, t2, o2⟩ := sturmHalf_safe E f (hlo.trans h1) h2 g1 t1 (k := b) (by omega)
    refine ⟨x2 ++ x1, r2, ?_, ?_, ?_, t2, ?_, fun _ => hw, ?_⟩
    · rw [e1, List.append_assoc]; exact e2
    · rw [List.append_assoc]; omega
    · rw [List.append_assoc]; exact g2
    · rw [List.length_append]
      rcases o1 with rfl | rfl <;> rcases o2 with rfl | rfl <;> simp
    · intro r hr
      rcases List.mem_append.1 hr with hr | hr
      · rcases o2 with rfl | rfl
        · simp at hr
        · rw [List.mem_singleton] at hr; subst hr; exact w2
      · rcases o1 with rfl | rfl
        · simp at hr
        · rw [List.mem_singleton] at hr; subst hr; exact w1
  have hrl := length_le_regSum regs hregs
  unfold sturmStep
  split
  · refine ⟨[], ret ++ List.replicate k ((lo + hi) / 2), ?_, ?_, by simpa using hregs, ?_, by simp, by simp, by simp⟩
    · rw [svPushAll_eq _ _ _ (by simp; omega)]; rfl
    · simp
    · intro x hx
      rcases List.mem_append.1 hx with hx | hx
      · exact hret x hx
      · rw [List.eq_of_mem_replicate hx]; linarith
  · rename_i hbig
    have hw : eps * m0 < hi - lo := by
      have h0 : 0 < lo := hm0.trans_le hlo
      rw [abs_of_nonpos (by linarith), abs_of_pos h0, abs_of_pos (h0.trans_le hlh), min_eq_left hlh, not_le] at hbig
      have := mul_le_mul_of_nonneg_left hlo heps
      linarith
    obtain ⟨a, ea⟩ := roots_some c lo ((lo + hi) / 2)
    obtain ⟨b, eb⟩ := roots_some c ((lo + hi) / 2) hi
    simp only [ea, eb, Option.bind_eq_bind, Option.bind_some]
    split
    · obtain ⟨a', ea'⟩ := roots_some c lo (((lo + hi) / 2 + hi) / 2)
      obtain ⟨b', eb'⟩ := roots_some c (((lo + hi) / 2 + hi) / 2) hi
      simp only [ea', eb', Option.bind_some]
      split
      · refine ⟨[], ret ++ [(lo + hi) / 2], ?_, ?_, by simpa using hregs, ?_, by simp, by simp, by simp⟩
        · rw [svPush, if_pos (by omega)]; rfl
        · simp only [List.length_append, List.length_singleton, List.nil_append]; omega
        · intro x hx
          rcases List.mem_append.1 hx with hx | hx
          · exact hret x hx
          · rw [List.mem_singleton] at hx; subst hx; linarith
      · rename_i h
        exact two _ a' b' (by linarith) (by linarith) (not_not.1 h) (by linarith) (by linarith) hw
    · rename_i h
      exact two _ a b (by linarith) (by linarith) (not_not.1 h) (by linarith) (by linarith) hw

theorem sturmLoop_safe (E : Env) {eps : ℝ} (heps : 0 ≤ eps) {n : ℕ} (f : Arr ℝ n) (c : SturmChain ℝ n) {m0 : ℝ}
    (hm0 : 0 < m0) : ∀ (fuel : ℕ) (regs : List Region) (ret : List ℝ) (ds : List ℕ),
      List.Forall₂ (fun (r : Region) d => r.2.1 - r.1 ≤ eps * m0 * (4 / 3) ^ d) regs ds →
      (ds.map fuelFor).sum ≤ fuel → (∀ r ∈ regs, GoodReg m0 r) → (∀ x ∈ ret, m0 ≤ x) → ret.length + regSum regs ≤ n →
      ∃ L, sturmLoop E eps f c fuel (regs, ret) = .ok L ∧ L.length ≤ ret.length + regSum regs ∧ ∀ x ∈ L, m0 ≤ x := by
  intro fuel
  induction fuel with
  | zero =>
    intro regs ret ds hds hsum _ hret _
    cases hds with
    | nil => exact ⟨ret, by simp [sturmLoop], by omega, hret⟩
    | @cons r d rest ds hd hds =>
      exfalso
      simp only [List.map_cons, List.sum_cons, fuelFor] at hsum
      have : 2 ≤ 2 ^ (d + 1) := by rw [pow_succ]; have := Nat.one_le_two_pow (n := d); omega
      omega
  | succ fuel ih =>
    intro regs ret ds hds hsum hregs hret hcap
    cases hds with
    | nil => exact ⟨ret, by simp [sturmLoop], by omega, hret⟩
    | @cons r d rest ds hd hds =>
      obtain ⟨lo, hi, k⟩ := r
      obtain ⟨g1, g2, g3⟩ := hregs (lo, hi, k) (by simp)
      simp only at g1 g2 g3 hd
      have hcap' : ret.length + k + regSum rest ≤ n := by
        simp only [regSum, List.map_cons, List.sum_cons] at hcap ⊢; omega
      obtain ⟨extra, ret', e, h1, h2, h3, h4, h5, h6⟩ := sturmStep_safe E heps f c hm0 g1 g2 g3
        (fun r hr => hregs r (by simp [hr])) hret hcap'
      rw [sturmLoop, e]
      simp only [Out.lift, Out.bind]
      simp only [List.map_cons, List.sum_cons] at hsum
      have hpos : 1 ≤ fuelFor d := by
        unfold fuelFor
        rw [pow_succ]; have := Nat.one_le_two_pow (n := d); omega
      have hd1 : extra ≠ [] → ∃ d', d = d' + 1 := by
        intro hx
        have := h5 hx
        cases d with
        | zero => rw [pow_zero, mul_one] at hd; linarith
        | succ d => exact ⟨d, rfl⟩
      obtain ⟨L, e1, e2, e3⟩ := ih (extra ++ rest) ret' (extra.map (fun _ => d - 1) ++ ds) (by
        refine List.rel_append ?_ hds
        rw [List.forall₂_map_right_iff, List.forall₂_same]
        intro r hr
        obtain ⟨d', rfl⟩ := hd1 (List.ne_nil_of_mem hr)
        have := h6 r hr
        rw [pow_succ] at hd
        simp only [Nat.add_sub_cancel]
        linarith) (by
        by_cases hex : extra = []
        · subst hex; simp only [List.map_nil, List.nil_append]; omega
        · obtain ⟨d', rfl⟩ := hd1 hex
          have hf' : 2 * fuelFor d' + 1 = fuelFor (d' + 1) := by
            unfold fuelFor
            rw [pow_succ 2 (d' + 1)]
            have : 1 ≤ 2 ^ (d' + 1) := Nat.one_le_two_pow
            omega
          have hx : ((extra.map fun _ => d' + 1 - 1).map fuelFor).sum ≤ 2 * fuelFor d' := by
            rw [List.map_map]
            simp only [Nat.add_sub_cancel, Function.comp_def, List.map_const', List.sum_replicate, smul_eq_mul]
            exact Nat.mul_le_mul_right _ h4
          rw [List.map_append, List.sum_append]
          omega) h2 h3 (by omega)
      refine ⟨L, e1, ?_, e3⟩
      have : regSum ((lo, hi, k) :: rest) = k + regSum rest := by simp [regSum]
      omega

/-- **C54**: `solve_real_positive_roots_poly_sturm` returns for every polynomial that is not zero, whatever the multiplicity of its
roots: the loop ends, no vector overflows, all results are positive, and there are at most as many as there are positive roots. -/
theorem C54_sturm_returns (E : Env) (eps inf : ℝ) (heps : 0 < eps) {n : ℕ} (f : Arr ℝ (n + 1)) (hf : f ≠ 0) :
    ∃ fuel₀, ∀ fuel, fuel₀ ≤ fuel → ∃ L, solveSturm E eps inf fuel f = .ok L ∧ (∀ x ∈ L, 0 < x) ∧
      L.length ≤ {x : ℝ | 0 < x ∧ value f x = 0}.ncard := by
  obtain ⟨u, eu, hu0, hu⟩ := C30_upper f hf
  obtain ⟨l, el, -, hl⟩ := C30_lower f hf
  cases l with
  | none => exact ⟨0, fun fuel _ => ⟨[], by simp [solveSturm, eu, el, Out.lift, Out.bind], by simp, by simp⟩⟩
  | some l =>
    have hlpos := lmqLower_pos hf el
    by_cases hlu : l > u
    · exact ⟨0, fun fuel _ => ⟨[], by simp [solveSturm, eu, el, Out.lift, Out.bind, hlu], by simp, by simp⟩⟩
    · have hlu' : l ≤ u := not_lt.1 hlu
      have hfin : {x : ℝ | 0 < x ∧ value f x = 0} =
          ((polyOf f).roots.toFinset.filter fun x => l < x ∧ x ≤ u : Finset ℝ) := by
        ext x
        simp only [Set.mem_ofPred_eq, Finset.coe_filter, Multiset.mem_toFinset, mem_roots (polyOf_ne_zero hf), IsRoot.def, ← value_eq]
        constructor
        · rintro ⟨h1, h2⟩
          obtain ⟨l', h, h3⟩ := hl x h1 h2
          cases h
          exact ⟨h2, h3, (hu x h1 h2).le⟩
        · rintro ⟨h1, h2, -⟩
          exact ⟨hlpos.trans h2, h1⟩
      have hcard : {x : ℝ | 0 < x ∧ value f x = 0}.ncard = (rin f l u).card := by
        rw [hfin, Set.ncard_coe_finset]; rfl
      rw [hcard]
      by_cases hz : (rin f l u).card = 0
      · -- no positive root: nothing can go wrong at a division point
        have hno : ∀ x, 0 < x → value f x ≠ 0 := by
          intro x h1 h2
          obtain ⟨l', h, h3⟩ := hl x h1 h2
          cases h
          have := (mem_rin hf).2 ⟨h2, h3, (hu x h1 h2).le⟩
          rw [Multiset.card_eq_zero.1 hz] at this
          simp at this
        obtain ⟨fuel₀, h⟩ := C54_sturm_multiple E eps inf heps f hf (SturmSafe.of_avoids fun x h1 h2 => absurd h2 (hno x h1))
        refine ⟨fuel₀, fun fuel hfuel => ?_⟩
        obtain ⟨L, e, cs, -, h2, h3⟩ := h fuel hfuel
        have : cs = [] := List.eq_nil_iff_forall_not_mem.2 fun x hx => hno x ((h2 x).1 hx).1 ((h2 x).1 hx).2
        subst this
        cases h3
        exact ⟨[], e, by simp, by simp⟩
      · have nl : ∀ x, (x = l ∨ x = u) → ¬ ((polyOf f).eval x = 0 ∧ (derivative (polyOf f)).eval x = 0) := by
          rintro x hx ⟨h, -⟩
          rw [← value_eq] at h
          have hx0 : 0 < x := by rcases hx with rfl | rfl <;> linarith
          obtain ⟨l', h', h3⟩ := hl x hx0 h
          cases h'
          have := hu x hx0 h
          rcases hx with rfl | rfl <;> linarith
        obtain ⟨c, V, hc, hV, key⟩ := chain_counts inf f (polyOf_ne_zero hf)
        have hk : c.roots l u = some (rin f l u).card := by
          have k := key l u
          rw [SturmChain.roots, hV l (nl l (.inl rfl)), hV u (nl u (.inr rfl))]
          simp only [Option.bind_eq_bind, Option.bind_some, Option.some.injEq]
          have h1 : (rootsUpTo (polyOf f) u).card = (rootsUpTo (polyOf f) l).card + (rin f l u).card := by
            unfold rootsUpTo rin
            rw [Finset.card_val, ← Finset.card_union_of_disjoint]
            · congr 1
              ext x
              simp only [Finset.mem_union, Finset.mem_filter]
              constructor
              · rintro ⟨h1, h2⟩
                rcases le_or_gt x l with h3 | h3
                · exact .inl ⟨h1, h3⟩
                · exact .inr ⟨h1, h3, h2⟩
              · rintro (⟨h1, h2⟩ | ⟨h1, h2, h3⟩)
                · exact ⟨h1, h2.trans hlu'⟩
                · exact ⟨h1, h3⟩
            · rw [Finset.disjoint_left]
              intro x h1 h2
              rw [Finset.mem_filter] at h1 h2
              linarith [h1.2, h2.2.1]
          omega
        have hem : 0 < eps * l := mul_pos heps hlpos
        obtain ⟨d, hd⟩ : ∃ d : ℕ, u - l ≤ eps * l * (4 / 3) ^ d := by
          obtain ⟨d, hd⟩ := pow_unbounded_of_one_lt ((u - l) / (eps * l)) (by norm_num : (1 : ℝ) < 4 / 3)
          refine ⟨d, ?_⟩
          rw [div_lt_iff₀ hem] at hd
          linarith
        refine ⟨fuelFor d, fun fuel hfuel => ?_⟩
        obtain ⟨L, h1, h2, h3⟩ := sturmLoop_safe E heps.le f c hlpos fuel [(l, u, (rin f l u).card)] [] [d] (.cons hd .nil)
          (by simpa using hfuel) (by
            intro r hr
            rw [List.mem_singleton] at hr
            subst hr
            exact ⟨le_rfl, hlu', by simp only; omega⟩) (by simp) (by
            simpa [regSum] using card_rin_le f l u)
        refine ⟨L, ?_, fun x hx => hlpos.trans_le (h3 x hx), by simpa [regSum] using h2⟩
        simp only [solveSturm, eu, el, Out.lift, Out.bind, hlu, if_false, hc, hk]
        simpa using h1

/-- **C54**: `solve_real_roots` returns for every polynomial of order at least 4 whose first and last coefficients are not zero: the
results are sorted, not zero, and there are at most as many as there are real roots. -/
theorem C54_returns (E : Env) (eps inf peps : ℝ) (heps : 0 < eps) {n : ℕ} (f : Arr ℝ (n + 4)) (h0 : f 0 ≠ 0)
    (ht : f (Fin.last (n + 4)) ≠ 0) :
    ∃ fuel₀, ∀ fuel, fuel₀ ≤ fuel → ∃ L, solveRealRoots E eps inf peps .sturm fuel f = .ok (some L) ∧
      L.Pairwise (· ≤ ·) ∧ (∀ x ∈ L, x ≠ 0) ∧ L.length ≤ {x : ℝ | value f x = 0}.ncard := by
  have h0' : value f 0 ≠ 0 := by
    have h : value f 0 = f 0 := by simp [value, Fin.sum_univ_succ]
    rwa [h]
  have hf := ne_zero_of_value h0'
  obtain ⟨g, eg, hg⟩ := C25_reflect f
  have hg0 : g ≠ 0 := ne_zero_of_value (x := 0) (by rw [hg, neg_zero]; exact h0')
  obtain ⟨fu, H⟩ := C54_sturm_returns E eps inf heps f hf
  obtain ⟨fu', H'⟩ := C54_sturm_returns E eps inf heps g hg0
  refine ⟨max fu fu', fun fuel hfuel => ?_⟩
  obtain ⟨L, e, p, hL⟩ := H fuel (le_trans (le_max_left _ _) hfuel)
  obtain ⟨L', e', p', hL'⟩ := H' fuel (le_trans (le_max_right _ _) hfuel)
  have fin : ∀ q : Arr ℝ (n + 4), q ≠ 0 → {x : ℝ | value q x = 0}.Finite := by
    intro q hq
    refine ((polyOf q).roots.toFinset.finite_toSet).subset fun x hx => ?_
    rw [Finset.mem_coe, Multiset.mem_toFinset, mem_roots (polyOf_ne_zero hq), IsRoot.def, ← value_eq]
    exact hx
  have hneg : {x : ℝ | 0 < x ∧ value g x = 0}.ncard = {x : ℝ | x < 0 ∧ value f x = 0}.ncard := by
    rw [← Set.ncard_image_of_injective {x : ℝ | 0 < x ∧ value g x = 0} neg_injective]
    congr 1
    ext x
    simp only [Set.mem_image, Set.mem_ofPred_eq]
    constructor
    · rintro ⟨y, ⟨h1, h2⟩, rfl⟩
      exact ⟨by linarith, by rw [← hg]; exact h2⟩
    · rintro ⟨h1, h2⟩
      exact ⟨-x, ⟨by linarith, by rw [hg, neg_neg]; exact h2⟩, neg_neg x⟩
  have hsum : {x : ℝ | 0 < x ∧ value f x = 0}.ncard + {x : ℝ | x < 0 ∧ value f x = 0}.ncard ≤ {x : ℝ | value f x = 0}.ncard := by
    have f1 : {x : ℝ | 0 < x ∧ value f x = 0}.Finite := (fin f hf).subset fun x h => h.2
    have f2 : {x : ℝ | x < 0 ∧ value f x = 0}.Finite := (fin f hf).subset fun x h => h.2
    rw [← Set.ncard_union_eq ?_ f1 f2]
    · exact Set.ncard_le_ncard (by
        rintro x (h | h)
        · exact h.2
        · exact h.2) (fin f hf)
    · rw [Set.disjoint_left]
      rintro x ⟨h1, -⟩ ⟨h2, -⟩
      linarith
  have hn : {x : ℝ | value f x = 0}.ncard ≤ n + 4 := by
    have : {x : ℝ | value f x = 0} = ((polyOf f).roots.toFinset : Set ℝ) := by
      ext x
      rw [Finset.mem_coe, Multiset.mem_toFinset, mem_roots (polyOf_ne_zero hf), IsRoot.def, ← value_eq]
      rfl
    rw [this, Set.ncard_coe_finset]
    calc _ ≤ Multiset.card (polyOf f).roots := Multiset.toFinset_card_le _
      _ ≤ (polyOf f).natDegree := card_roots' _
      _ ≤ n + 4 := polyOf_degree f
  refine ⟨(L ++ L'.map fun x => -x).insertionSort (· ≤ ·), ?_, List.pairwise_insertionSort _ _, ?_, ?_⟩
  · rw [solveRealRoots, if_neg h0, if_neg ht]
    simp only [solveBoth, solvePositive, e, e', eg, Out.bind, Out.lift]
    rw [svPushAll_eq _ _ _ (by simp only [List.length_map]; omega)]
  · intro x hx
    rw [List.mem_insertionSort, List.mem_append, List.mem_map] at hx
    rcases hx with hx | ⟨y, hy, rfl⟩
    · exact (p x hx).ne'
    · have := p' y hy; intro h; linarith
  · rw [List.length_insertionSort, List.length_append, List.length_map]
    omega

-- a case: the polynomial with the lost root; `C54_multiple_root_lost` speaks about a result that exists
example (E : Env) (eps inf : ℝ) (h0 : 0 < eps) (h1 : eps ≤ 1) : ∃ fuel L, solveSturm E eps inf fuel lossy = .ok L ∧ L.length ≤ 2 ∧
    ∀ x ∈ L, 0 < x ∧ x ≤ 1 := by
  have hf : lossy ≠ 0 := fun h => by simpa [lossy] using congrFun h 5
  obtain ⟨fuel₀, h⟩ := C54_sturm_returns E eps inf h0 lossy hf
  obtain ⟨L, e, h2, h3⟩ := h fuel₀ le_rfl
  refine ⟨fuel₀, L, e, h3.trans ?_, fun x hx => ⟨h2 x hx, (C54_multiple_root_lost E eps inf h1 fuel₀ L e).2.2 x hx⟩⟩
  have : {x : ℝ | 0 < x ∧ value lossy x = 0} ⊆ (({1, √(3 / 2)} : Finset ℝ) : Set ℝ) := by
    rintro x ⟨hx, h⟩
    have hm : x ∈ (polyOf lossy).roots.toFinset := by
      rw [Multiset.mem_toFinset, mem_roots (polyOf_ne_zero hf), IsRoot.def, ← value_eq]; exact h
    rw [roots_lossy] at hm
    simp only [Finset.mem_insert, Finset.mem_singleton] at hm
    have : 0 ≤ √(3 / 2 : ℝ) := Real.sqrt_nonneg _
    rcases hm with rfl | rfl | rfl | rfl
    · linarith
    · linarith
    · simp
    · simp
  exact (Set.ncard_le_ncard this (Finset.finite_toSet _)).trans (by rw [Set.ncard_coe_finset]; exact Finset.card_le_two)

/-! ## All polynomials -/

theorem deflateZero_some {n : ℕ} (a : Arr ℝ (n + 1)) : ∃ b, deflateZero a = some b := by
  obtain ⟨b, e, -⟩ := forUp_fill (m := n) (lo := 0) (s := 0) (cnt := n + 1)
    (body := fun i b => do let c ← rd a (1 + i); wr b i c) (fun i => coef a (1 + i))
    (fun i b _ hi => by simp [rd_coef a (show 1 + i ≤ n + 1 by omega)]) (by omega) (zeros n)
  exact ⟨b, e⟩

theorem deflateLoop_some {S : ℕ} (sp : ℝ → ℝ → ℕ) {n : ℕ} (hn : n < S) (a : Arr ℝ (n + 1)) (root : ℝ) :
    ∀ (fuel it ib : ℕ) (b : Arr ℝ n), it + 1 ≤ fuel + ib → 0 < ib → ib ≤ it + 1 → it < n →
      ∃ b', deflateLoop S sp a root fuel it ib b = some b'
  | 0, it, ib, b, h1, h2, h3, h4 => by
    rw [deflateLoop, if_neg (by omega)]
    exact ⟨b, rfl⟩
  | fuel + 1, it, ib, b, h1, h2, h3, h4 => by
    rw [deflateLoop]
    by_cases hlt : it ≥ ib
    · rw [if_pos hlt, Nat.mod_eq_of_lt (show it + 1 < S by omega),
        rd_coef b (show it + 1 ≤ n by omega), rd_coef b (show ib ≤ n by omega),
        rd_coef a (show ib ≤ n + 1 by omega), rd_coef a (show it + 1 ≤ n + 1 by omega)]
      simp only [Option.bind_eq_bind, Option.bind_some]
      split
      · rw [rd_coef b (show ib - 1 ≤ n by omega), Option.bind_some]
        obtain ⟨b2, e2, -⟩ := wr_coef b (i := ib) ((coef b (ib - 1) - coef a ib) / root) (by omega)
        rw [e2, Option.bind_some]
        exact deflateLoop_some sp hn a root fuel it (ib + 1) b2 (by omega) (by omega) (by omega) h4
      · obtain ⟨b2, e2, -⟩ := wr_coef b (i := it) (coef a (it + 1) + root * coef b (it + 1)) (by omega)
        rw [e2, Option.bind_some]
        exact deflateLoop_some sp hn a root fuel (it - 1) ib b2 (by omega) (by omega) (by omega) (by omega)
    · rw [if_neg hlt]
      exact ⟨b, rfl⟩

/-- **C26**: deflation of a polynomial of order at least 2 reads and writes inside of its arrays and ends, whatever the given number
(a root or not), and whatever order the precision estimates choose. -/
theorem C26_deflate_safe (S : ℕ) (sp : ℝ → ℝ → ℕ) {n : ℕ} (hn : n + 1 < S) (a : Arr ℝ (n + 2)) (root : ℝ) :
    ∃ b, deflate S sp a root = some b := by
  unfold deflate
  split
  · exact deflateZero_some a
  · rw [rd_coef a (le_refl (n + 2)), rd_coef a (Nat.zero_le (n + 2))]
    simp only [Option.bind_eq_bind, Option.bind_some]
    obtain ⟨b1, e1, -⟩ := wr_coef (zeros (n + 1) : Arr ℝ (n + 1)) (i := n + 1) (coef a (n + 2)) (le_refl _)
    obtain ⟨b2, e2, -⟩ := wr_coef b1 (i := 0) (-coef a 0 / root) (by omega)
    have hmod : (n + 1 + S - 1) % S = n := by
      rw [show n + 1 + S - 1 = n + S by omega, Nat.add_mod_right, Nat.mod_eq_of_lt (by omega)]
    rw [e1, Option.bind_some, e2, Option.bind_some, hmod]
    exact deflateLoop_some sp hn a root (n + 2) n 1 b2 (by omega) (by omega) (by omega) (by omega)

theorem solve2_some (M : ℝ) (f : Arr ℝ 2) : ∃ l, solve2 M f = some l ∧ l.length ≤ 2 ∧ l.Pairwise (· ≤ ·) := by
  have pair : ∀ a b : ℝ, (if a > b then [b, a] else [a, b]).length ≤ 2 ∧ (if a > b then [b, a] else [a, b]).Pairwise (· ≤ ·) := by
    intro a b
    split
    · rename_i h; simp [h.le]
    · rename_i h; simp [not_lt.1 h]
  unfold solve2
  split
  · obtain ⟨g, e, -⟩ := changeOrder_coef 1 f
    refine ⟨solve1 g, by rw [e]; rfl, ?_, ?_⟩ <;> unfold solve1 <;> split <;> simp
  · obtain ⟨g, e, -⟩ := divConst_spec f (fun _ => f 2 : Arr ℝ 0)
    simp only [e, rd_coef g (show 0 ≤ 2 by omega), rd_coef g (show 1 ≤ 2 by omega), Option.bind_eq_bind, Option.bind_some]
    split
    · exact ⟨_, rfl, by simp, by simp⟩
    split
    · exact ⟨_, rfl, pair _ _⟩
    split
    · exact ⟨_, rfl, by simp, by simp⟩
    split
    · exact ⟨_, rfl, by simp, by simp⟩
    · exact ⟨_, rfl, pair _ _⟩

theorem deflateAndSolve_some (E : Env) (hS : 2 < E.S) (f : Arr ℝ 3) (root : ℝ) :
    ∃ l, deflateAndSolve E f root = some l ∧ l.length ≤ 3 ∧ l.Pairwise (· ≤ ·) := by
  obtain ⟨b, eb⟩ := C26_deflate_safe E.S E.sp (n := 1) hS f root
  obtain ⟨l, el, hl, -⟩ := solve2_some E.maxSqrt b
  refine ⟨(l.map (polish E f) ++ [root]).insertionSort (· ≤ ·), by simp [deflateAndSolve, eb, el], ?_,
    List.pairwise_insertionSort _ _⟩
  rw [List.length_insertionSort, List.length_append, List.length_map, List.length_singleton]
  omega

theorem solve3_some (E : Env) (hS : 2 < E.S) (f : Arr ℝ 3) : ∃ l, solve3 E f = some l ∧ l.length ≤ 3 ∧ l.Pairwise (· ≤ ·) := by
  have one : ∀ x : ℝ, ∃ l, some [x] = some l ∧ l.length ≤ 3 ∧ l.Pairwise (· ≤ ·) := fun x => ⟨_, rfl, by simp, by simp⟩
  have pick : ∀ (c : Prop) [Decidable c] (x y : Option (List ℝ)), (∃ l, x = some l ∧ l.length ≤ 3 ∧ l.Pairwise (· ≤ ·)) →
      (∃ l, y = some l ∧ l.length ≤ 3 ∧ l.Pairwise (· ≤ ·)) →
      ∃ l, (if c then x else y) = some l ∧ l.length ≤ 3 ∧ l.Pairwise (· ≤ ·) := by
    intro c _ x y h1 h2
    by_cases h : c
    · rw [if_pos h]; exact h1
    · rw [if_neg h]; exact h2
  unfold solve3
  refine pick _ _ _ ?_ (pick _ _ _ (deflateAndSolve_some E hS f 0) ?_)
  · obtain ⟨g, e, -⟩ := changeOrder_coef 2 f
    obtain ⟨l, el, h1, h2⟩ := solve2_some E.maxSqrt g
    exact ⟨l, by rw [e]; exact el, by omega, h2⟩
  obtain ⟨g, e, -⟩ := divConst_spec f (fun _ => f 3 : Arr ℝ 0)
  have D := deflateAndSolve_some E hS g
  rw [e, Option.bind_eq_bind, Option.bind_some, rd_coef g (show 0 ≤ 3 by omega), Option.bind_eq_bind, Option.bind_some,
    rd_coef g (show 1 ≤ 3 by omega), Option.bind_some, rd_coef g (show 2 ≤ 3 by omega),
    Option.bind_some]
  refine pick _ _ _ (one _) (pick _ _ _ (D _) (pick _ _ _ (D _) (pick _ _ _ (D _) (pick _ _ _ (D _) (pick _ _ _ (D _)
    (pick _ _ _ (D _) (pick _ _ _ (D _) (pick _ _ _ (D _) (pick _ _ _ (one _) ⟨_, rfl, ?_⟩)))))))))
  unfold trigRoots
  dsimp only
  repeat' split
  all_goals first
    | (refine ⟨?_, List.pairwise_insertionSort _ _⟩
       rw [List.length_insertionSort]; simp)
    | (constructor <;> simp)

/-- **C54**: `solve_real_roots` with the default bounder returns for every polynomial, of every order, whatever its coefficients: no
access outside of an array, no vector overflow, no endless loop; the result is sorted and not longer than the order. -/
theorem C54_total (E : Env) (hS : 2 < E.S) (eps inf peps : ℝ) (heps : 0 < eps) : ∀ {n : ℕ} (f : Arr ℝ n),
    ∃ fuel₀, ∀ fuel, fuel₀ ≤ fuel → ∃ L, solveRealRoots E eps inf peps .sturm fuel f = .ok (some L) ∧
      L.Pairwise (· ≤ ·) ∧ L.length ≤ n
  | 0, f => ⟨0, fun fuel _ => ⟨[], rfl, by simp, by simp⟩⟩
  | 1, f => ⟨0, fun fuel _ => ⟨solve1 f, rfl, by unfold solve1; split <;> simp, by unfold solve1; split <;> simp⟩⟩
  | 2, f => by
    obtain ⟨l, e, h1, h2⟩ := solve2_some E.maxSqrt f
    exact ⟨0, fun fuel _ => ⟨l, by simp [solveRealRoots, e, Out.lift, Out.bind], h2, h1⟩⟩
  | 3, f => by
    obtain ⟨l, e, h1, h2⟩ := solve3_some E hS f
    exact ⟨0, fun fuel _ => ⟨l, by simp [solveRealRoots, e, Out.lift, Out.bind], h2, h1⟩⟩
  | n + 4, f => by
    by_cases h0 : f 0 = 0
    · obtain ⟨g, eg⟩ := deflateZero_some f
      obtain ⟨fuel₀, H⟩ := C54_total E hS eps inf peps heps g
      refine ⟨fuel₀, fun fuel hfuel => ?_⟩
      obtain ⟨L, e, h1, h2⟩ := H fuel hfuel
      refine ⟨L, ?_, h1, by omega⟩
      rw [solveRealRoots, if_pos h0, eg]
      exact e
    by_cases ht : f (Fin.last (n + 4)) = 0
    · obtain ⟨g, eg, -⟩ := changeOrder_coef (n + 3) f
      obtain ⟨fuel₀, H⟩ := C54_total E hS eps inf peps heps g
      refine ⟨fuel₀, fun fuel hfuel => ?_⟩
      obtain ⟨L, e, h1, h2⟩ := H fuel hfuel
      refine ⟨L, ?_, h1, by omega⟩
      rw [solveRealRoots, if_neg h0, if_pos ht, eg]
      exact e
    · obtain ⟨fuel₀, H⟩ := C54_returns E eps inf peps heps f h0 ht
      refine ⟨fuel₀, fun fuel hfuel => ?_⟩
      obtain ⟨L, e, h1, -, h2⟩ := H fuel hfuel
      refine ⟨L, e, h1, h2.trans ?_⟩
      have hf : f ≠ 0 := fun h => h0 (by rw [h]; rfl)
      have : {x : ℝ | value f x = 0} = ((polyOf f).roots.toFinset : Set ℝ) := by
        ext x
        rw [Finset.mem_coe, Multiset.mem_toFinset, mem_roots (polyOf_ne_zero hf), IsRoot.def, ← value_eq]
        rfl
      rw [this, Set.ncard_coe_finset]
      calc _ ≤ Multiset.card (polyOf f).roots := Multiset.toFinset_card_le _
        _ ≤ (polyOf f).natDegree := card_roots' _
        _ ≤ n + 4 := polyOf_degree f

end Stator.Pol
