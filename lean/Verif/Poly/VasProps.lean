import Verif.Poly.IsolateLemmas
import Mathlib.Data.Set.Finite.Lattice

/-! # Property C32: VAS root isolation -/

namespace Stator.Pol

open Polynomial

/-- What a run of the worker guarantees, for the finite set `R` of roots of the original polynomial. -/
structure VasOk (M : Mobius) (R : Finset ℝ) (L : List (Option ℝ × Option ℝ)) : Prop where
  cover : ∀ x, 0 < x → mv M x ∈ R → ∃ p ∈ L, Btw p (mv M x)
  sound : ∀ p ∈ L, ((∃! z, Btw p z ∧ z ∈ R) ∧ ∀ z, Btw p z → ∃ x, 0 < x ∧ mv M x = z) ∨
    (p = (some (mv M 0), some (mv M 0)) ∧ mv M 0 ∈ R)
  disj : L.Pairwise fun p q => ∀ z, ¬ (Btw p z ∧ Btw q z)
  len : ∃ T : Finset ℝ, T ⊆ R ∧ T.card = L.length ∧ ∀ z ∈ T, ∃ x, 0 ≤ x ∧ mv M x = z

theorem ne_zero_of_rel {n : ℕ} {f : Arr ℝ n} {M : Mobius} (hM : Good M) {R : Finset ℝ}
    (h : ∀ x, 0 ≤ x → (value f x = 0 ↔ mv M x ∈ R)) : f ≠ 0 := by
  rintro rfl
  have h1 : ∀ x, 0 ≤ x → mv M x ∈ R := fun x hx => (h x hx).1 (by simp [value])
  have hinf : (Set.Ici (0 : ℝ)).Infinite := Set.Ici_infinite 0
  refine hinf (Set.Finite.of_finite_image (f := mv M) ?_ fun x hx y hy e => mv_inj hM hx hy e)
  refine Set.Finite.subset R.finite_toSet ?_
  rintro _ ⟨x, hx, rfl⟩
  exact h1 x hx

theorem VasOk.shift {M : Mobius} {R : Finset ℝ} {L : List (Option ℝ × Option ℝ)} {t : ℝ} (ht : 0 < t)
    (hno : ∀ x, 0 < x → x ≤ t → mv M x ∉ R) (h : VasOk (M.shift t) R L) : VasOk M R L := by
  refine ⟨fun x hx hz => ?_, fun p hp => ?_, h.disj, ?_⟩
  · have hxt : t < x := by by_contra hc; exact hno x hx (not_lt.1 hc) hz
    have := h.cover (x - t) (by linarith)
    rw [mv_shift, sub_add_cancel] at this
    exact this hz
  · rcases h.sound p hp with ⟨h1, h2⟩ | ⟨-, h2⟩
    · refine .inl ⟨h1, fun z hz => ?_⟩
      obtain ⟨x, hx, e⟩ := h2 z hz
      rw [mv_shift] at e
      exact ⟨x + t, by linarith, e⟩
    · rw [mv_shift, zero_add] at h2
      exact absurd h2 (hno t ht (le_refl _))
  · obtain ⟨T, h1, h2, h3⟩ := h.len
    refine ⟨T, h1, h2, fun z hz => ?_⟩
    obtain ⟨x, hx, e⟩ := h3 z hz
    rw [mv_shift] at e
    exact ⟨x + t, by linarith, e⟩

theorem VasOk.scale {M : Mobius} {R : Finset ℝ} {L : List (Option ℝ × Option ℝ)} {t : ℝ} (ht : 0 < t)
    (h : VasOk (M.scale t) R L) : VasOk M R L := by
  refine ⟨fun x hx hz => ?_, fun p hp => ?_, h.disj, ?_⟩
  · have := h.cover (x / t) (div_pos hx ht)
    rw [mv_scale, mul_div_cancel₀ _ ht.ne'] at this
    exact this hz
  · rcases h.sound p hp with ⟨h1, h2⟩ | ⟨h1, h2⟩
    · refine .inl ⟨h1, fun z hz => ?_⟩
      obtain ⟨x, hx, e⟩ := h2 z hz
      rw [mv_scale] at e
      exact ⟨t * x, mul_pos ht hx, e⟩
    · rw [mv_scale, mul_zero] at h1 h2
      exact .inr ⟨h1, h2⟩
  · obtain ⟨T, h1, h2, h3⟩ := h.len
    refine ⟨T, h1, h2, fun z hz => ?_⟩
    obtain ⟨x, hx, e⟩ := h3 z hz
    rw [mv_scale] at e
    exact ⟨t * x, mul_nonneg ht.le hx, e⟩

theorem not_btw_self (a z : ℝ) : ¬ Btw (some a, some a) z := by
  rintro (⟨h1, h2⟩ | ⟨h1, h2⟩) <;> linarith

theorem VasOk.fit {M : Mobius} {R : Finset ℝ} {l L1 : List (Option ℝ × Option ℝ)}
    (hA : VasOk M.invertTaylorShift R L1) (hM : Good M) (h1 : mv M 1 ∉ R)
    (hl : (mv M 0 ∉ R ∧ l = []) ∨ (mv M 0 ∈ R ∧ l = [(some (mv M 0), some (mv M 0))])) :
    l.length + L1.length ≤ R.card := by
  obtain ⟨T1, t1, t2, t3⟩ := hA.len
  rw [← t2]
  rcases hl with ⟨-, rfl⟩ | ⟨h2, rfl⟩
  · simpa using Finset.card_le_card t1
  · have h0 : mv M 0 ∉ T1 := by
      intro hz
      obtain ⟨x, hx, e⟩ := t3 _ hz
      rw [mv_inv _ _ hx] at e
      have hp : 0 < (x + 1)⁻¹ := inv_pos.2 (by linarith)
      have := mv_inj hM hp.le (le_refl _) e
      linarith
    have := Finset.card_le_card (Finset.insert_subset_iff.2 ⟨h2, t1⟩)
    rw [Finset.card_insert_of_notMem h0] at this
    simpa [Nat.add_comm] using this

theorem VasOk.split {M : Mobius} {R : Finset ℝ} {l L1 L2 : List (Option ℝ × Option ℝ)} (hM : Good M)
    (h1 : mv M 1 ∉ R)
    (hl : (mv M 0 ∉ R ∧ l = []) ∨ (mv M 0 ∈ R ∧ l = [(some (mv M 0), some (mv M 0))]))
    (hA : VasOk M.invertTaylorShift R L1) (hB : VasOk (M.shift 1) R L2) :
    VasOk M R (l ++ L1 ++ L2) := by
  have a0 : mv M.invertTaylorShift 0 ∉ R := by
    rw [mv_inv _ _ (le_refl _)]; simpa using h1
  have b0 : mv (M.shift 1) 0 ∉ R := by
    rw [mv_shift]; simpa using h1
  have sA : ∀ p ∈ L1, (∃! z, Btw p z ∧ z ∈ R) ∧ ∀ z, Btw p z → ∃ x, 0 < x ∧ x < 1 ∧ mv M x = z := by
    intro p hp
    rcases hA.sound p hp with ⟨h2, h3⟩ | ⟨-, h3⟩
    · refine ⟨h2, fun z hz => ?_⟩
      obtain ⟨x, hx, e⟩ := h3 z hz
      rw [mv_inv _ _ hx.le] at e
      exact ⟨(x + 1)⁻¹, inv_pos.2 (by linarith), inv_lt_one_of_one_lt₀ (by linarith), e⟩
    · exact absurd h3 a0
  have sB : ∀ p ∈ L2, (∃! z, Btw p z ∧ z ∈ R) ∧ ∀ z, Btw p z → ∃ x, 1 < x ∧ mv M x = z := by
    intro p hp
    rcases hB.sound p hp with ⟨h2, h3⟩ | ⟨-, h3⟩
    · refine ⟨h2, fun z hz => ?_⟩
      obtain ⟨x, hx, e⟩ := h3 z hz
      rw [mv_shift] at e
      exact ⟨x + 1, by linarith, e⟩
    · exact absurd h3 b0
  refine ⟨fun x hx hz => ?_, fun p hp => ?_, ?_, ?_⟩
  · rcases lt_trichotomy x 1 with hx1 | rfl | hx1
    · have := hA.cover (x⁻¹ - 1) (by have := (one_lt_inv₀ hx).2 hx1; linarith)
      rw [mv_inv _ _ (by have := (one_lt_inv₀ hx).2 hx1; linarith), sub_add_cancel, inv_inv] at this
      obtain ⟨p, hp, h⟩ := this hz
      exact ⟨p, by simp [hp], h⟩
    · exact absurd hz h1
    · have := hB.cover (x - 1) (by linarith)
      rw [mv_shift, sub_add_cancel] at this
      obtain ⟨p, hp, h⟩ := this hz
      exact ⟨p, by simp [hp], h⟩
  · rw [List.append_assoc, List.mem_append, List.mem_append] at hp
    rcases hp with hp | hp | hp
    · rcases hl with ⟨-, rfl⟩ | ⟨h2, rfl⟩
      · simp at hp
      · rw [List.mem_singleton] at hp
        exact .inr ⟨hp, h2⟩
    · obtain ⟨h2, h3⟩ := sA p hp
      exact .inl ⟨h2, fun z hz => let ⟨x, hx, _, e⟩ := h3 z hz; ⟨x, hx, e⟩⟩
    · obtain ⟨h2, h3⟩ := sB p hp
      exact .inl ⟨h2, fun z hz => let ⟨x, hx, e⟩ := h3 z hz; ⟨x, by linarith, e⟩⟩
  · rw [List.append_assoc, List.pairwise_append, List.pairwise_append]
    refine ⟨?_, ⟨hA.disj, hB.disj, ?_⟩, ?_⟩
    · rcases hl with ⟨-, rfl⟩ | ⟨-, rfl⟩ <;> simp
    · rintro p hp q hq z ⟨hzp, hzq⟩
      obtain ⟨x, hx0, hx1, ex⟩ := (sA p hp).2 z hzp
      obtain ⟨y, hy1, ey⟩ := (sB q hq).2 z hzq
      have := mv_inj hM hx0.le (by linarith) (ex.trans ey.symm)
      linarith
    · rintro p hp q - z ⟨hzp, -⟩
      rcases hl with ⟨-, rfl⟩ | ⟨-, rfl⟩
      · simp at hp
      · rw [List.mem_singleton] at hp
        rw [hp] at hzp
        exact not_btw_self _ _ hzp
  · obtain ⟨T1, t1, t2, t3⟩ := hA.len
    obtain ⟨T2, u1, u2, u3⟩ := hB.len
    have t3' : ∀ z ∈ T1, ∃ x, 0 < x ∧ x < 1 ∧ mv M x = z := by
      intro z hz
      obtain ⟨x, hx, e⟩ := t3 z hz
      rcases hx.lt_or_eq with hx | rfl
      · rw [mv_inv _ _ hx.le] at e
        exact ⟨(x + 1)⁻¹, inv_pos.2 (by linarith), inv_lt_one_of_one_lt₀ (by linarith), e⟩
      · exact absurd (by rw [e]; exact t1 hz) a0
    have u3' : ∀ z ∈ T2, ∃ x, 1 < x ∧ mv M x = z := by
      intro z hz
      obtain ⟨x, hx, e⟩ := u3 z hz
      rcases hx.lt_or_eq with hx | rfl
      · rw [mv_shift] at e
        exact ⟨x + 1, by linarith, e⟩
      · exact absurd (by rw [e]; exact u1 hz) b0
    have hd : Disjoint T1 T2 := by
      rw [Finset.disjoint_left]
      intro z h2 h3
      obtain ⟨x, hx0, hx1, ex⟩ := t3' z h2
      obtain ⟨y, hy1, ey⟩ := u3' z h3
      have := mv_inj hM hx0.le (by linarith) (ex.trans ey.symm)
      linarith
    rcases hl with ⟨-, rfl⟩ | ⟨h2, rfl⟩
    · refine ⟨T1 ∪ T2, Finset.union_subset t1 u1, ?_, fun z hz => ?_⟩
      · rw [Finset.card_union_of_disjoint hd, t2, u2]; simp
      · rcases Finset.mem_union.1 hz with hz | hz
        · obtain ⟨x, hx0, hx1, ex⟩ := t3' z hz
          exact ⟨x, hx0.le, ex⟩
        · obtain ⟨x, hx1, ex⟩ := u3' z hz
          exact ⟨x, by linarith, ex⟩
    · have h0 : mv M 0 ∉ T1 ∪ T2 := by
        intro hz
        rcases Finset.mem_union.1 hz with hz | hz
        · obtain ⟨x, hx0, hx1, ex⟩ := t3' _ hz
          have := mv_inj hM hx0.le (le_refl _) ex
          linarith
        · obtain ⟨x, hx1, ex⟩ := u3' _ hz
          have := mv_inj hM (by linarith) (le_refl _) ex
          linarith
      refine ⟨insert (mv M 0) (T1 ∪ T2), ?_, ?_, fun z hz => ?_⟩
      · rw [Finset.insert_subset_iff]
        exact ⟨h2, Finset.union_subset t1 u1⟩
      · rw [Finset.card_insert_of_notMem h0, Finset.card_union_of_disjoint hd, t2, u2]
        simp +arith
      · rcases Finset.mem_insert.1 hz with rfl | hz
        · exact ⟨0, le_refl _, rfl⟩
        rcases Finset.mem_union.1 hz with hz | hz
        · obtain ⟨x, hx0, hx1, ex⟩ := t3' z hz
          exact ⟨x, hx0.le, ex⟩
        · obtain ⟨x, hx1, ex⟩ := u3' z hz
          exact ⟨x, by linarith, ex⟩

theorem vasWorker_spec (eps : ℝ) (he : 0 ≤ eps) {n : ℕ} (R : Finset ℝ) (hR : R.card ≤ n) :
    ∀ (fuel : ℕ) (f : Arr ℝ n) (M : Mobius), Good M →
      (∀ x, 0 ≤ x → (value f x = 0 ↔ mv M x ∈ R)) →
      vasWorker eps fuel f M ≠ .bad ∧ ∀ L, vasWorker eps fuel f M = .ok L → VasOk M R L := by
  intro fuel
  induction fuel with
  | zero => intro f M _ _; exact ⟨by simp [vasWorker], by simp [vasWorker]⟩
  | succ fuel ih =>
    intro f M hM hrel
    have hf := ne_zero_of_rel hM hrel
    obtain ⟨v, ev, -⟩ := C29_bound f hf
    rw [vasWorker, ev]
    simp only [Out.lift, Out.bind]
    by_cases hv0 : v = 0
    · subst hv0
      rw [if_pos rfl]
      refine ⟨by simp, fun L hL => ?_⟩
      cases hL
      refine ⟨fun x hx hz => ?_, by simp, by simp, ∅, by simp, by simp, by simp⟩
      exact absurd ((hrel x hx.le).2 hz) (C29_zero f hf ev x hx)
    rw [if_neg hv0]
    by_cases hv1 : v = 1
    · subst hv1
      rw [if_pos rfl]
      refine ⟨by simp, fun L hL => ?_⟩
      obtain ⟨x0, ⟨hx0, hr0⟩, huniq⟩ := C29_one f hf ev
      have hm0 := (hrel x0 hx0.le).1 hr0
      have hn : 1 ≤ n := le_trans (Finset.card_pos.2 ⟨_, hm0⟩) hR
      rw [List.take_of_length_le (by simpa using hn)] at hL
      cases hL
      refine ⟨fun x hx hz => ⟨_, List.mem_singleton_self _, (btw_image hM _).2 ⟨x, hx, rfl⟩⟩,
        fun p hp => .inl ?_, by simp, {mv M x0}, by simpa using hm0, by simp, fun z hz => ?_⟩
      · rw [List.mem_singleton] at hp
        subst hp
        refine ⟨⟨mv M x0, ⟨(btw_image hM _).2 ⟨x0, hx0, rfl⟩, hm0⟩, ?_⟩,
          fun z hz => (btw_image hM z).1 hz⟩
        rintro z ⟨hz1, hz2⟩
        obtain ⟨x, hx, rfl⟩ := (btw_image hM z).1 hz1
        rw [huniq x ⟨hx, (hrel x hx.le).2 hz2⟩]
      · rw [Finset.mem_singleton] at hz
        exact ⟨x0, hx0.le, hz.symm⟩
    rw [if_neg hv1]
    have hopp := descartes_opp f ev hv0
    have hn : n ≠ 0 := by
      rintro rfl
      obtain ⟨i, j, hij⟩ := hopp
      have hi : i = 0 := by
        by_contra h; rw [coef_gt f (show 0 < i by omega)] at hij; simp at hij
      have hj : j = 0 := by
        by_contra h; rw [coef_gt f (show 0 < j by omega)] at hij; simp at hij
      rw [hi, hj] at hij
      nlinarith
    obtain ⟨lb, elb, hlb0, hlb⟩ := C30_lower f hf
    obtain ⟨lb, rfl⟩ : ∃ l, lb = some l := by
      cases lb with
      | none => exact absurd elb (C30_zero f hopp).2
      | some l => exact ⟨l, rfl⟩
    have hlb0 := hlb0 lb rfl
    have hlb' : ∀ x, 0 < x → value f x = 0 → lb < x := by
      intro x hx h
      obtain ⟨l, e, h⟩ := hlb x hx h
      cases e; exact h
    rw [elb]
    simp only [Out.lift, Out.bind]
    have stage : ∀ s : Arr ℝ n × Mobius × ℝ, Good s.2.1 →
        (∀ x, 0 ≤ x → (value s.1 x = 0 ↔ mv s.2.1 x ∈ R)) →
        (∀ x, 0 < x → value s.1 x = 0 → s.2.2 < x) →
        ∀ o, o = (if 1 ≤ s.2.2 then
          (Out.lift (shift s.1 s.2.2)).bind fun g => vasWorker eps fuel g (s.2.1.shift s.2.2)
        else (Out.lift (horner s.1 1)).bind fun v =>
          (Out.lift (precision eps s.1 1)).bind fun p =>
          if |v| ≤ 100 * p then
            (Out.lift (scale s.1 2)).bind fun g => vasWorker eps fuel g (s.2.1.scale 2)
          else (Out.lift (vasRootZero s.1 s.2.1)).bind fun s' =>
            (Out.lift (invertTaylorShift s'.1)).bind fun p01 =>
            (vasWorker eps fuel p01 s.2.1.invertTaylorShift).bind fun r1 =>
            (Out.lift (svPushAll n s'.2 r1)).bind fun retval =>
            (Out.lift (shiftOne s'.1)).bind fun p1inf =>
            (vasWorker eps fuel p1inf (s.2.1.shift 1)).bind fun r2 =>
            Out.lift (svPushAll n retval r2)) →
        o ≠ .bad ∧ ∀ L, o = .ok L → VasOk s.2.1 R L := by
      rintro ⟨f, M, lb⟩ hM hrel hlb o ho
      subst ho
      simp only at hM hrel hlb ⊢
      by_cases h1 : 1 ≤ lb
      · rw [if_pos h1]
        obtain ⟨g, eg, hg⟩ := C25_shift f lb
        rw [eg]
        simp only [Out.lift, Out.bind]
        have hlb0 : 0 < lb := by linarith
        obtain ⟨i1, i2⟩ := ih g (M.shift lb) (hM.shift hlb0.le) (fun x hx => by
          rw [hg, mv_shift]; exact hrel _ (by linarith))
        refine ⟨i1, fun L hL => (i2 L hL).shift hlb0 fun x hx hxl hz => ?_⟩
        have := hlb x hx ((hrel x hx.le).2 hz)
        linarith
      rw [if_neg h1, horner_val]
      obtain ⟨p, ep, hp⟩ := precision_nonneg eps he f
      rw [ep]
      simp only [Out.lift, Out.bind]
      by_cases h2 : |value f 1| ≤ 100 * p
      · rw [if_pos h2]
        obtain ⟨g, eg, hg⟩ := C25_scale f 2
        rw [eg]
        simp only
        obtain ⟨i1, i2⟩ := ih g (M.scale 2) (hM.scale (by norm_num)) (fun x hx => by
          rw [hg, mv_scale]; exact hrel _ (by linarith))
        exact ⟨i1, fun L hL => (i2 L hL).scale (by norm_num)⟩
      rw [if_neg h2]
      have hv1 : value f 1 ≠ 0 := by
        intro h0
        apply h2
        rw [h0, abs_zero]
        linarith [hp h0]
      have hm1 : mv M 1 ∉ R := fun h => hv1 ((hrel 1 (by norm_num)).2 h)
      obtain ⟨f', l, el, hf', hl⟩ := vasRootZero_val f hn M
      rw [el]
      simp only
      obtain ⟨p01, e01, h01⟩ := invertTaylorShift_val f'
      obtain ⟨p1, e1, h1'⟩ := C25_shift_one f'
      rw [e01, e1]
      simp only
      obtain ⟨i1, i2⟩ := ih p01 M.invertTaylorShift hM.inv (fun x hx => by
        have hpos : 0 < (x + 1)⁻¹ := inv_pos.2 (by linarith)
        rw [h01 x hx, mv_inv _ _ hx, hf' _ hpos, hrel _ hpos.le])
      obtain ⟨j1, j2⟩ := ih p1 (M.shift 1) (hM.shift (by norm_num)) (fun x hx => by
        have hpos : 0 < x + 1 := by linarith
        rw [h1', mv_shift, hf' _ hpos, hrel _ hpos.le])
      have hl' : (mv M 0 ∉ R ∧ l = []) ∨ (mv M 0 ∈ R ∧ l = [(some (mv M 0), some (mv M 0))]) := by
        rw [eval_zero hM] at hl
        rw [ne_eq, hrel 0 (le_refl _)] at hl
        exact hl
      cases er1 : vasWorker eps fuel p01 M.invertTaylorShift with
      | bad => exact absurd er1 i1
      | more => exact ⟨by simp, by simp⟩
      | ok r1 =>
        cases er2 : vasWorker eps fuel p1 (M.shift 1) with
        | bad => exact absurd er2 j1
        | more =>
          simp only
          have := (i2 r1 er1).fit hM hm1 hl'
          rw [svPushAll_eq n l r1 (by omega)]
          exact ⟨by simp, by simp⟩
        | ok r2 =>
          have key := VasOk.split hM hm1 hl' (i2 r1 er1) (j2 r2 er2)
          have hlen : (l ++ r1 ++ r2).length ≤ n := by
            obtain ⟨T, t1, t2, -⟩ := key.len
            rw [← t2]
            exact (Finset.card_le_card t1).trans hR
          simp only [List.length_append] at hlen
          simp only
          rw [svPushAll_eq n l r1 (by omega)]
          simp only
          rw [svPushAll_eq n (l ++ r1) r2 (by simp; omega)]
          refine ⟨by simp, fun L hL => ?_⟩
          cases hL
          exact key
    by_cases h16 : 16 ≤ lb
    · rw [if_pos h16]
      obtain ⟨g, eg, hg⟩ := C25_scale f lb
      rw [eg]
      have hpos : 0 < lb := by linarith
      obtain ⟨i1, i2⟩ := stage (g, M.scale lb, 1) (hM.scale hpos) (fun x hx => by
          rw [hg, mv_scale]; exact hrel _ (mul_nonneg hpos.le hx)) (fun x hx h => by
          simp only at h ⊢
          rw [hg] at h
          have := hlb' _ (mul_pos hpos hx) h
          by_contra hc
          nlinarith) _ rfl
      exact ⟨i1, fun L hL => (i2 L hL).scale hpos⟩
    · rw [if_neg h16]
      exact stage (f, M, lb) hM hrel hlb' _ rfl

/-- **C32**: if `VAS_real_root_bounds` returns, its intervals are disjoint, each contains exactly one
root in its interior (or is the single point 0, when that is a root), every positive root lies in the
interior of one of them, and there are at most `Order` of them; and no access on the way is out of
bounds. -/
theorem C32_vas (eps : ℝ) (he : 0 ≤ eps) {n : ℕ} (f : Arr ℝ n) (hf : f ≠ 0) (fuel : ℕ) :
    vas eps fuel f ≠ .bad ∧ ∀ L, vas eps fuel f = .ok L →
      (∀ x, 0 < x → value f x = 0 → ∃ a b, (some a, some b) ∈ L ∧ a < x ∧ x < b) ∧
      (∀ p ∈ L, ∃ a b, p = (some a, some b) ∧ 0 ≤ a ∧
        ((∃! x, (a < x ∧ x < b) ∧ value f x = 0) ∨ (a = 0 ∧ b = 0 ∧ value f 0 = 0))) ∧
      (L.Pairwise fun p q => ∀ a b c d, p = (some a, some b) → q = (some c, some d) →
        ∀ x, ¬ ((a < x ∧ x < b) ∧ (c < x ∧ x < d))) ∧
      L.length ≤ n := by
  obtain ⟨u, eu, hu0, hu⟩ := C30_upper f hf
  rw [vas, eu]
  simp only [Out.lift, Out.bind]
  by_cases h0 : u = 0
  · subst h0
    rw [if_pos rfl]
    refine ⟨by simp, fun L hL => ?_⟩
    cases hL
    refine ⟨fun x hx h => ?_, by simp, by simp, by simp⟩
    have := hu x hx h
    linarith
  rw [if_neg h0]
  have hM : Good ⟨1, 0, 0, 1⟩ := ⟨by norm_num, by norm_num, by norm_num, by norm_num, by norm_num⟩
  have hid : ∀ x, mv ⟨1, 0, 0, 1⟩ x = x := fun x => by simp [mv]
  have hmem : ∀ x, x ∈ (polyOf f).roots.toFinset ↔ value f x = 0 := fun x => by
    rw [Multiset.mem_toFinset, mem_roots', value_eq]
    exact ⟨fun h => h.2, fun h => ⟨polyOf_ne_zero hf, h⟩⟩
  have hcard : (polyOf f).roots.toFinset.card ≤ n :=
    (Multiset.toFinset_card_le _).trans ((card_roots' _).trans (polyOf_degree f))
  obtain ⟨i1, i2⟩ := vasWorker_spec eps he (polyOf f).roots.toFinset hcard fuel f ⟨1, 0, 0, 1⟩ hM
    (fun x _ => by rw [hid, hmem])
  cases er : vasWorker eps fuel f ⟨1, 0, 0, 1⟩ with
  | bad => exact absurd er i1
  | more => exact ⟨by simp, by simp⟩
  | ok r =>
    simp only
    refine ⟨by simp, fun L hL => ?_⟩
    simp only [Out.ok.injEq] at hL
    subst hL
    have ok := i2 r er
    have hfin : ∀ p ∈ r, ∃ a b, vasFinish u p = (some a, some b) ∧
        ∀ z, (a < z ∧ z < b) ↔ (Btw p z ∧ (z < u ∨ (p.1 ≠ none ∧ p.2 ≠ none))) := by
      rintro ⟨p, q⟩ hp
      have hnn : (p, q) ≠ (none, none) := by
        intro e
        rw [e] at hp
        rcases ok.sound _ hp with ⟨⟨z, ⟨hz, -⟩, -⟩, -⟩ | ⟨h, -⟩
        · exact hz
        · simp at h
      cases p with
      | none =>
        cases q with
        | none => exact absurd rfl hnn
        | some q => exact ⟨q, u, rfl, fun z => by simp [Btw]⟩
      | some p =>
        cases q with
        | none => exact ⟨p, u, rfl, fun z => by simp [Btw]⟩
        | some q =>
          by_cases h : p > q
          · refine ⟨q, p, by simp [vasFinish, h], fun z => ?_⟩
            simp only [Btw, ne_eq, reduceCtorEq, not_false_eq_true, and_self, or_true, and_true]
            constructor
            · exact fun h => .inr h
            · rintro (⟨h1, h2⟩ | h1)
              · linarith
              · exact h1
          · refine ⟨p, q, by simp [vasFinish, h], fun z => ?_⟩
            simp only [Btw, ne_eq, reduceCtorEq, not_false_eq_true, and_self, or_true, and_true]
            constructor
            · exact fun h => .inl h
            · rintro (h1 | ⟨h1, h2⟩)
              · exact h1
              · linarith
    refine ⟨fun x hx hroot => ?_, fun p hp' => ?_, ?_, ?_⟩
    · have := ok.cover x hx
      rw [hid] at this
      obtain ⟨p, hp, hb⟩ := this ((hmem x).2 hroot)
      obtain ⟨a, b, e, h⟩ := hfin p hp
      obtain ⟨h1, h2⟩ := (h x).2 ⟨hb, .inl (hu x hx hroot)⟩
      exact ⟨a, b, List.mem_map.2 ⟨p, hp, e⟩, h1, h2⟩
    · obtain ⟨p, hp, rfl⟩ := List.mem_map.1 hp'
      obtain ⟨a, b, e, h⟩ := hfin p hp
      refine ⟨a, b, e, ?_⟩
      rcases ok.sound p hp with ⟨⟨z, ⟨hz1, hz2⟩, hz3⟩, him⟩ | ⟨h1, h2⟩
      · obtain ⟨x, hx, ex⟩ := him z hz1
        rw [hid] at ex
        subst ex
        have hxab := (h x).2 ⟨hz1, .inl (hu x hx ((hmem x).1 hz2))⟩
        refine ⟨?_, ?_⟩
        · by_contra ha
          rw [not_le] at ha
          obtain ⟨y, hy, ey⟩ := him (a / 2) ((h (a / 2)).1 ⟨by linarith, by linarith [hxab.2]⟩).1
          rw [hid] at ey
          linarith
        left
        refine ⟨x, ⟨(h x).2 ⟨hz1, .inl (hu x hx ((hmem x).1 hz2))⟩, (hmem x).1 hz2⟩, ?_⟩
        rintro y ⟨hy1, hy2⟩
        exact hz3 y ⟨((h y).1 hy1).1, (hmem y).2 hy2⟩
      · rw [hid] at h1 h2
        rw [h1] at e
        simp only [vasFinish, gt_iff_lt, lt_self_iff_false, if_false, Prod.mk.injEq,
          Option.some.injEq] at e
        exact ⟨e.1.le, .inr ⟨e.1.symm, e.2.symm, (hmem 0).1 h2⟩⟩
    · rw [List.pairwise_map]
      refine ok.disj.imp_of_mem ?_
      rintro p q hp hq hpq a b c d e1 e2 x ⟨h1, h2⟩
      obtain ⟨a', b', e1', h1'⟩ := hfin p hp
      obtain ⟨c', d', e2', h2'⟩ := hfin q hq
      rw [e1] at e1'
      rw [e2] at e2'
      cases e1'; cases e2'
      exact hpq x ⟨((h1' x).1 h1).1, ((h2' x).1 h2).1⟩
    · rw [List.length_map]
      obtain ⟨T, t1, t2, -⟩ := ok.len
      rw [← t2]
      exact (Finset.card_le_card t1).trans hcard

/-! ## Multiple roots -/

theorem mult_le_countP (P : ℝ[X]) (A : ℝ → Prop) [DecidablePred A] {x : ℝ} (hx : A x) :
    P.rootMultiplicity x ≤ P.roots.countP A := by
  rw [← count_roots, Multiset.countP_eq_card_filter, ← Multiset.count_filter_of_pos hx]
  exact Multiset.count_le_card _ _

theorem vasRootZero_mult {n : ℕ} {f : Arr ℝ n} (hf : f ≠ 0) {M : Mobius} {s}
    (e : vasRootZero f M = some s) {x : ℝ} (hx : 0 < x) :
    (polyOf s.1).rootMultiplicity x = (polyOf f).rootMultiplicity x := by
  cases n with
  | zero => simp only [vasRootZero, Option.some.injEq] at e; rw [← e]
  | succ m =>
    simp only [vasRootZero, rd_coef f (Nat.zero_le _), Option.bind_eq_bind, Option.bind_some] at e
    by_cases h : coef f 0 = 0
    · rw [if_pos h] at e
      obtain ⟨b, eb, hb⟩ := deflateZero_spec f h
      obtain ⟨r, er, hr⟩ := promote_spec (m := m + 1) b (by omega)
      simp only [svPush, List.length_nil, eb, er, Option.bind_some] at e
      rw [if_pos (by omega)] at e
      simp only [Option.bind_some, Option.some.injEq] at e
      rw [← e]
      simp only
      rw [hr, hb, rootMultiplicity_mul (by rw [← hb]; exact polyOf_ne_zero hf),
        rootMultiplicity_eq_zero (p := X) (by simpa using hx.ne'), zero_add]
    · rw [if_neg h] at e
      cases e; rfl

theorem not_ok_of_double (eps : ℝ) (he : 0 ≤ eps) {n : ℕ} : ∀ (fuel : ℕ) (f : Arr ℝ n) (M : Mobius),
    (∃ x, 0 < x ∧ 2 ≤ (polyOf f).rootMultiplicity x) → ∀ L, vasWorker eps fuel f M ≠ .ok L := by
  intro fuel
  induction fuel with
  | zero => intro f M _ L; simp [vasWorker]
  | succ fuel ih =>
    rintro f M ⟨x, hx, hm⟩ L
    have nz : ∀ {g : Arr ℝ n} {y : ℝ}, 2 ≤ (polyOf g).rootMultiplicity y → g ≠ 0 := by
      rintro g y hm rfl
      rw [show polyOf (0 : Arr ℝ n) = 0 from polyOf_zeros n] at hm
      simp at hm
    have hroot : ∀ {g : Arr ℝ n} {y : ℝ}, 2 ≤ (polyOf g).rootMultiplicity y → value g y = 0 := by
      intro g y h
      rw [value_eq]
      by_contra hc
      rw [rootMultiplicity_eq_zero hc] at h
      omega
    obtain ⟨v, ev, hv, -⟩ := C29_bound f (nz hm)
    have hv2 : 2 ≤ v := le_trans (le_trans hm (mult_le_countP _ _ hx)) hv
    rw [vasWorker, ev]
    simp only [Out.lift, Out.bind]
    rw [if_neg (by omega), if_neg (by omega)]
    obtain ⟨lb, elb, -, hlb⟩ := C30_lower f (nz hm)
    obtain ⟨lb, rfl, hlbx⟩ := hlb x hx (hroot hm)
    rw [elb]
    simp only [Out.lift, Out.bind]
    have stage : ∀ s : Arr ℝ n × Mobius × ℝ, ∀ x, 0 < x → 2 ≤ (polyOf s.1).rootMultiplicity x →
        s.2.2 < x → ∀ L,
        (if 1 ≤ s.2.2 then
          (Out.lift (shift s.1 s.2.2)).bind fun g => vasWorker eps fuel g (s.2.1.shift s.2.2)
        else (Out.lift (horner s.1 1)).bind fun v =>
          (Out.lift (precision eps s.1 1)).bind fun p =>
          if |v| ≤ 100 * p then
            (Out.lift (scale s.1 2)).bind fun g => vasWorker eps fuel g (s.2.1.scale 2)
          else (Out.lift (vasRootZero s.1 s.2.1)).bind fun s' =>
            (Out.lift (invertTaylorShift s'.1)).bind fun p01 =>
            (vasWorker eps fuel p01 s.2.1.invertTaylorShift).bind fun r1 =>
            (Out.lift (svPushAll n s'.2 r1)).bind fun retval =>
            (Out.lift (shiftOne s'.1)).bind fun p1inf =>
            (vasWorker eps fuel p1inf (s.2.1.shift 1)).bind fun r2 =>
            Out.lift (svPushAll n retval r2)) ≠ .ok L := by
      rintro ⟨f, M, lb⟩ x hx hm hlb L
      simp only at hm hlb ⊢
      by_cases h1 : 1 ≤ lb
      · rw [if_pos h1]
        obtain ⟨g, eg, hg⟩ := shift_spec f lb
        rw [eg]
        simp only [Out.lift, Out.bind]
        refine ih g _ ⟨x - lb, by linarith, ?_⟩ L
        have := rootMultiplicity_linear (polyOf f) 1 lb (x - lb) one_ne_zero
        rw [C_1, one_mul, one_mul, sub_add_cancel] at this
        rw [hg, this]; exact hm
      rw [if_neg h1, horner_val]
      obtain ⟨p, ep, hp⟩ := precision_nonneg eps he f
      rw [ep]
      simp only [Out.lift, Out.bind]
      by_cases h2 : |value f 1| ≤ 100 * p
      · rw [if_pos h2]
        obtain ⟨g, eg, hg⟩ := scale_spec f 2
        rw [eg]
        simp only
        refine ih g _ ⟨x / 2, by linarith, ?_⟩ L
        have := rootMultiplicity_linear (polyOf f) 2 0 (x / 2) two_ne_zero
        rw [C_0, add_zero, add_zero, mul_div_cancel₀ _ two_ne_zero] at this
        rw [hg, this]; exact hm
      rw [if_neg h2]
      have hx1 : x ≠ 1 := by
        rintro rfl
        apply h2
        rw [hroot hm, abs_zero]
        linarith [hp (hroot hm)]
      cases ez : vasRootZero f M with
      | none => simp
      | some s =>
        have hs := vasRootZero_mult (nz hm) ez hx
        rw [← hs] at hm
        simp only
        obtain ⟨p01, e01, h01⟩ := invertTaylorShift_spec s.1
        obtain ⟨p1, e1, h1'⟩ := shiftOne_spec s.1
        rw [e01, e1]
        simp only
        rcases lt_or_gt_of_ne hx1 with hlt | hgt
        · have := ih p01 M.invertTaylorShift ⟨x⁻¹ - 1, by
            have := (one_lt_inv₀ hx).2 hlt
            linarith, by
            have := rootMultiplicity_linear (polyOf (revArr s.1)) 1 1 (x⁻¹ - 1) one_ne_zero
            rw [C_1, one_mul, one_mul, sub_add_cancel] at this
            rw [h01, C_1, this, polyOf_revArr, rootMultiplicity_reflect (polyOf_degree _) hx.ne']
            exact hm⟩
          cases er : vasWorker eps fuel p01 M.invertTaylorShift with
          | ok r => exact absurd er (this r)
          | bad => simp
          | more => simp
        · have := ih p1 (M.shift 1) ⟨x - 1, by linarith, by
            have := rootMultiplicity_linear (polyOf s.1) 1 1 (x - 1) one_ne_zero
            rw [C_1, one_mul, one_mul, sub_add_cancel] at this
            rw [h1', C_1, this]; exact hm⟩
          cases vasWorker eps fuel p01 M.invertTaylorShift with
          | bad => simp
          | more => simp
          | ok r =>
            simp only
            cases svPushAll n s.2 r with
            | none => simp
            | some r' =>
              simp only
              cases er : vasWorker eps fuel p1 (M.shift 1) with
              | ok r => exact absurd er (this r)
              | bad => simp
              | more => simp
    by_cases h16 : 16 ≤ lb
    · rw [if_pos h16]
      obtain ⟨g, eg, hg⟩ := scale_spec f lb
      rw [eg]
      have hpos : 0 < lb := by linarith
      refine stage (g, M.scale lb, 1) (x / lb) (div_pos hx hpos) ?_ ?_ L
      · have := rootMultiplicity_linear (polyOf f) lb 0 (x / lb) hpos.ne'
        rw [C_0, add_zero, add_zero, mul_div_cancel₀ _ hpos.ne'] at this
        simp only
        rw [hg, this]; exact hm
      · exact (one_lt_div hpos).2 hlbx
    · rw [if_neg h16]
      exact stage (f, M, lb) x hx hm hlbx L

/-- **C32**: with a multiple positive root, `VAS_real_root_bounds` does not terminate (in exact
arithmetic): no amount of fuel is enough. -/
theorem C32_vas_multiple_root (eps : ℝ) (he : 0 ≤ eps) {n : ℕ} (f : Arr ℝ n) (hf : f ≠ 0) (x : ℝ)
    (hx : 0 < x) (hm : 2 ≤ (polyOf f).rootMultiplicity x) (fuel : ℕ) :
    vas eps fuel f = .more := by
  have hb := (C32_vas eps he f hf fuel).1
  have hno : ∀ L, vas eps fuel f ≠ .ok L := by
    intro L
    obtain ⟨u, eu, hu0, hu⟩ := C30_upper f hf
    have hroot : value f x = 0 := by
      rw [value_eq]
      by_contra hc
      rw [rootMultiplicity_eq_zero hc] at hm
      omega
    have := hu x hx hroot
    rw [vas, eu]
    simp only [Out.lift, Out.bind]
    rw [if_neg (by linarith)]
    cases er : vasWorker eps fuel f ⟨1, 0, 0, 1⟩ with
    | ok r => exact absurd er (not_ok_of_double eps he fuel f _ ⟨x, hx, hm⟩ r)
    | bad => simp
    | more => simp
  cases h : vas eps fuel f with
  | ok L => exact absurd h (hno L)
  | bad => exact absurd h hb
  | more => rfl

-- (x - 1)²
example (fuel : ℕ) : vas 0 fuel (![1, -2, 1] : Arr ℝ 2) = .more := by
  refine C32_vas_multiple_root 0 (le_refl _) _ (fun h => by simpa using congrFun h 2) 1 one_pos ?_ fuel
  have e : polyOf (![1, -2, 1] : Arr ℝ 2) = (X - C 1) ^ 2 := by
    simp [polyOf, Fin.sum_univ_succ]
    rw [show (C 2 : ℝ[X]) = 2 from rfl]; ring
  rw [e, rootMultiplicity_X_sub_C_pow]

theorem lmq_ex : lmqUpper (![2, -5, 2] : Arr ℝ 2) = some (some 5) := by
  norm_num [lmqUpper, realOrder, lmqOuter, lmqInner, forDown, rd, wr, Fin.ext_iff]
theorem lmql_ex : lmqLower (![2, -5, 2] : Arr ℝ 2) = some (some (1/5)) := by
  have : (fun i => (![2, -5, 2] : Arr ℝ 2) i.rev : Arr ℝ 2) = ![2,-5,2] := by
    funext i; fin_cases i <;> rfl
  rw [lmqLower, this, lmq_ex]; norm_num
-- 2x² - 5x + 2 = (2x-1)(x-2)
example : vas 0 2 (![2, -5, 2] : Arr ℝ 2) = .ok [(some 0, some 1), (some 1, some 5)] := by
  have h1 : descartes (![2, -5, 2] : Arr ℝ 2) = some 2 := by
    norm_num [descartes, forUp, rd, signOf]
  have h2 : invertTaylorShift (![2, -5, 2] : Arr ℝ 2) = some ![-1,-1,2] := by
    norm_num [invertTaylorShift, forDown, wr, zeros, rd]
    funext i; fin_cases i <;> simp [Function.update]
  have h3 : shiftOne (![2, -5, 2] : Arr ℝ 2) = some ![-1,-1,2] := by
    norm_num [shiftOne, forDown, wr, zeros, rd]
    funext i; fin_cases i <;> simp [Function.update]
  have h4 : descartes (![-1, -1, 2] : Arr ℝ 2) = some 1 := by
    norm_num [descartes, forUp, rd, signOf]
  have h5 : horner (![2, -5, 2] : Arr ℝ 2) 1 = some (-1) := by
    rw [horner_val]; norm_num [value, Fin.sum_univ_succ]
  have h6 : precision 0 (![2, -5, 2] : Arr ℝ 2) 1 = some 0 := by
    norm_num [precision, forUp, rd]
  norm_num [vas, lmq_ex, vasWorker, h1, lmql_ex, h2, h3, h4, h5, h6, Out.lift, Out.bind, vasRootZero, rd, 
    Mobius.eval, Mobius.invertTaylorShift, Mobius.shift, svPushAll, svPush, vasFinish]

end Stator.Pol
