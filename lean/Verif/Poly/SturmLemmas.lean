import Verif.Poly.Sturm
import Verif.Poly.CountProps
import Verif.Poly.OpsProps
import Mathlib.Topology.Algebra.Polynomial
import Mathlib.Topology.LocallyConstant.Basic
import Mathlib.Topology.Instances.Real.Lemmas

/-! # Sturm's theorem, for the chains that `sturm_chain` computes -/

namespace Stator.Pol

open Polynomial Filter Topology

/-! ## Signs and sign changes -/

theorem signOf_eq_zero {v : ℝ} : signOf v = 0 ↔ v = 0 := by
  unfold signOf
  by_cases h : v = 0
  · simp [h]
  · simp only [ne_eq, h, not_false_eq_true, if_true, iff_false]
    split <;> decide

theorem signOf_neg' (v : ℝ) : signOf (-v) = -signOf v := by
  unfold signOf
  rcases lt_trichotomy v 0 with h | h | h
  · simp [h.ne, h, h.le]
  · simp [h]
  · simp [h.ne', h, h.le]

theorem signOf_cases {v : ℝ} (h : v ≠ 0) : signOf v = 1 ∨ signOf v = -1 := by
  unfold signOf
  rw [if_pos h]
  split
  · exact .inr rfl
  · exact .inl rfl

theorem signOf_pos {v : ℝ} (h : 0 < v) : signOf v = 1 := by
  unfold signOf; rw [if_pos h.ne', if_neg (by linarith)]

theorem signOf_negative {v : ℝ} (h : v < 0) : signOf v = -1 := by
  unfold signOf; rw [if_pos h.ne, if_pos h]

theorem signOf_mul_pos {d v : ℝ} (h : 0 < d) : signOf (d * v) = signOf v := by
  rcases lt_trichotomy v 0 with h1 | h1 | h1
  · rw [signOf_negative h1, signOf_negative (mul_neg_of_pos_of_neg h h1)]
  · rw [h1, mul_zero]
  · rw [signOf_pos h1, signOf_pos (mul_pos h h1)]

/-- Sign changes in a list of numbers, ignoring zeros, after the sign `last`. -/
noncomputable def sc : ℤ → List ℝ → ℕ
  | _, [] => 0
  | last, v :: l => (if signOf v ≠ 0 ∧ last ≠ 0 ∧ signOf v ≠ last then 1 else 0) +
      sc (if signOf v ≠ 0 then signOf v else last) l

theorem sc_zero (last : ℤ) (l : List ℝ) : sc last (0 :: l) = sc last l := by
  simp [sc, signOf]

theorem sc_neg : ∀ (last : ℤ) (l : List ℝ), sc (-last) (l.map fun v => -v) = sc last l
  | _, [] => rfl
  | last, v :: l => by
    rw [List.map_cons, sc, sc, signOf_neg']
    have e : (if -signOf v ≠ 0 then -signOf v else -last) = -(if signOf v ≠ 0 then signOf v else last) := by
      by_cases h : signOf v = 0 <;> simp [h]
    rw [e, sc_neg]
    congr 1
    simp [neg_inj]

theorem sc_mul_pos {d : ℝ} (h : 0 < d) : ∀ (last : ℤ) (l : List ℝ), sc last (l.map fun v => d * v) = sc last l
  | _, [] => rfl
  | last, v :: l => by
    rw [List.map_cons, sc, sc, signOf_mul_pos h, sc_mul_pos h]

theorem sc_mul {d : ℝ} (h : d ≠ 0) (l : List ℝ) : sc 0 (l.map fun v => d * v) = sc 0 l := by
  rcases lt_or_gt_of_ne h with h | h
  · have e : (l.map fun v => d * v) = (l.map fun v => -d * v).map fun v => -v := by
      rw [List.map_map]; congr 1; funext v; simp
    rw [e, show (0 : ℤ) = -0 from rfl, sc_neg, sc_mul_pos (by linarith)]
    rfl
  · exact sc_mul_pos h 0 l

theorem sc_append_zeros (last : ℤ) (l z : List ℝ) (hz : ∀ v ∈ z, v = 0) : sc last (l ++ z) = sc last l := by
  induction l generalizing last with
  | nil =>
    induction z with
    | nil => rfl
    | cons v z ih =>
      rw [List.nil_append, hz v (by simp), sc_zero]
      exact ih fun w hw => hz w (by simp [hw])
  | cons v l ih => rw [List.cons_append, sc, sc, ih]

/-! ## Sturm sequences -/

/-- The last element has no zeros, and three consecutive elements satisfy `r + t = q s`. -/
def SturmLike : List ℝ[X] → Prop
  | [] => False
  | [r] => ∀ x, r.eval x ≠ 0
  | [_, s] => ∀ x, s.eval x ≠ 0
  | r :: s :: t :: l => (∃ q, r + t = q * s) ∧ SturmLike (s :: t :: l)

theorem SturmLike.tail {r s : ℝ[X]} {l : List ℝ[X]} (h : SturmLike (r :: s :: l)) :
    SturmLike (s :: l) := by
  cases l with
  | nil => exact h
  | cons t l => exact h.2

theorem SturmLike.no_common : ∀ (l : List ℝ[X]) {r s : ℝ[X]}, SturmLike (r :: s :: l) → ∀ {c : ℝ},
    r.eval c = 0 → s.eval c ≠ 0
  | [], _, _, h, _, _ => h _
  | t :: l, r, s, h, c, hr => by
    intro hs
    obtain ⟨⟨q, hq⟩, h'⟩ := h
    have ht : t.eval c ≠ 0 := SturmLike.no_common l h' hs
    have := congrArg (eval c) hq
    rw [eval_add, eval_mul, hr, hs, mul_zero, zero_add] at this
    exact ht this

theorem sc_cons_ne {last : ℤ} {v : ℝ} {l : List ℝ} (hv : v ≠ 0) :
    sc last (v :: l) = (if last ≠ 0 ∧ signOf v ≠ last then 1 else 0) + sc (signOf v) l := by
  have : signOf v ≠ 0 := fun h => hv (signOf_eq_zero.1 h)
  rw [sc]
  simp [this]

/-- Close to a point where the first element does not vanish, the number of sign changes is the
same. -/
theorem sc_near : ∀ (k : ℕ) (R : List ℝ[X]), R.length = k → SturmLike R → ∀ (c y : ℝ),
    (∀ r ∈ R, r.eval c ≠ 0 → signOf (r.eval y) = signOf (r.eval c)) →
    (∀ r ∈ R.head?, r.eval c ≠ 0) →
    ∀ last, sc last (R.map (eval y)) = sc last (R.map (eval c)) := by
  intro k
  induction k using Nat.strong_induction_on with
  | _ k ih =>
    intro R hk hR c y hnear hhead last
    have ne_y : ∀ r ∈ R, r.eval c ≠ 0 → r.eval y ≠ 0 := fun r hr h h' => by
      have := hnear r hr h
      rw [h', signOf_eq_zero.2 rfl] at this
      exact h (signOf_eq_zero.1 this.symm)
    match R, hR with
    | [r], _ =>
      have h := hhead r (by simp)
      have h1 := hnear r (by simp) h
      simp [sc, h1]
    | r :: s :: l, hR =>
      have hr := hhead r (by simp)
      have hr' := ne_y r (by simp) hr
      have er := hnear r (by simp) hr
      rw [List.map_cons, List.map_cons (l := s :: l) (f := eval c), sc_cons_ne hr, sc_cons_ne hr', er]
      congr 1
      by_cases hs : s.eval c = 0
      · match l, hR, hk, hnear, ne_y with
        | [], hR, _, _, _ => exact absurd hs (hR c)
        | t :: l, hR, hk, hnear, ne_y =>
          obtain ⟨⟨q, hq⟩, hR'⟩ := hR
          have ht : t.eval c ≠ 0 := SturmLike.no_common l hR' hs
          have ht' := ne_y t (by simp) ht
          have et := hnear t (by simp) ht
          have hrt : r.eval c = -t.eval c := by
            have := congrArg (eval c) hq
            rw [eval_add, eval_mul, hs, mul_zero] at this
            linarith
          have hsr : signOf (r.eval c) = -signOf (t.eval c) := by rw [hrt, signOf_neg']
          have hst : signOf (t.eval c) = 1 ∨ signOf (t.eval c) = -1 := signOf_cases ht
          have IH := ih (t :: l).length (by simp at hk ⊢; omega) (t :: l) rfl hR'.tail c y
            (fun r hr => hnear r (by simp at hr ⊢; tauto)) (fun r hr => by
              simp at hr; rw [← hr]; exact ht)
          rw [List.map_cons, List.map_cons (f := eval c) (a := s), hs, sc_zero]
          by_cases hsy : s.eval y = 0
          · rw [hsy, sc_zero]
            exact IH _
          · rw [sc_cons_ne hsy]
            have IH0 := IH (signOf (t.eval c))
            rw [List.map_cons, List.map_cons (f := eval c), sc_cons_ne ht, sc_cons_ne ht', et] at IH0
            rw [List.map_cons, List.map_cons (f := eval c), sc_cons_ne ht, sc_cons_ne ht', et, hsr]
            have hsy' := signOf_cases hsy
            rcases hst with e1 | e1 <;> rcases hsy' with e2 | e2 <;> rw [e1] at IH0 ⊢ <;> rw [e2] <;>
              norm_num at IH0 ⊢ <;> omega
      · exact ih (s :: l).length (by simp at hk ⊢; omega) (s :: l) rfl hR.tail c y
          (fun r hr => hnear r (by simp at hr ⊢; tauto)) (fun r hr => by
            simp at hr; rw [← hr]; exact hs) _

/-- Continuity: signs that are not 0 stay. -/
theorem near_signs (R : List ℝ[X]) (c : ℝ) :
    ∀ᶠ y in 𝓝 c, ∀ r ∈ R, r.eval c ≠ 0 → signOf (r.eval y) = signOf (r.eval c) := by
  induction R with
  | nil => simp
  | cons r R ih =>
    have h1 : ∀ᶠ y in 𝓝 c, r.eval c ≠ 0 → signOf (r.eval y) = signOf (r.eval c) := by
      have hc : ContinuousAt (fun y => r.eval y) c := r.continuous.continuousAt
      rcases lt_trichotomy (r.eval c) 0 with h | h | h
      · filter_upwards [hc.eventually (Iio_mem_nhds h)] with y hy _
        rw [signOf_negative h, signOf_negative hy]
      · exact Eventually.of_forall fun y hy => absurd h hy
      · filter_upwards [hc.eventually (Ioi_mem_nhds h)] with y hy _
        rw [signOf_pos h, signOf_pos hy]
    filter_upwards [h1, ih] with y a b s hs
    rcases List.mem_cons.1 hs with rfl | hs
    · exact a
    · exact b s hs

/-- The relation between the first two elements, divided by the common power of `X - c`. -/
theorem root_rel {p r s : ℝ[X]} (hp : p ≠ 0) (hrs : r * derivative p = s * p) {c : ℝ}
    (hpc : p.eval c = 0) : ∃ (k : ℕ) (g : ℝ[X]), g.eval c ≠ 0 ∧
      r * (C ((k : ℝ) + 1) * g + (X - C c) * derivative g) = s * ((X - C c) * g) := by
  obtain ⟨g, hg, hgc⟩ := exists_eq_pow_rootMultiplicity_mul_and_not_dvd p hp c
  set m := p.rootMultiplicity c with hm
  have hmpos : 0 < m := (rootMultiplicity_pos hp).2 hpc
  obtain ⟨k, hk⟩ : ∃ k, m = k + 1 := ⟨m - 1, by omega⟩
  have hgc' : g.eval c ≠ 0 := fun h => hgc (dvd_iff_isRoot.2 h)
  have hd : derivative p = (X - C c) ^ k * (C ((k : ℝ) + 1) * g + (X - C c) * derivative g) := by
    rw [hg, hk, derivative_mul, derivative_X_sub_C_pow]
    simp only [Nat.add_sub_cancel, Nat.cast_add, Nat.cast_one]
    rw [show (C ((k : ℝ) + 1) : ℝ[X]) = (k : ℝ[X]) + 1 by simp]
    ring
  refine ⟨k, g, hgc', ?_⟩
  have h1 : (X - C c) ^ k * (r * (C ((k : ℝ) + 1) * g + (X - C c) * derivative g)) =
      (X - C c) ^ k * (s * ((X - C c) * g)) := by
    have h2 := hrs
    rw [hd] at h2
    have h3 : p = (X - C c) ^ k * ((X - C c) * g) := by rw [hg, hk, pow_succ]; ring
    calc _ = r * ((X - C c) ^ k * (C ((k : ℝ) + 1) * g + (X - C c) * derivative g)) := by ring
      _ = s * p := h2
      _ = _ := by rw [h3]; ring
  exact mul_left_cancel₀ (pow_ne_zero _ (X_sub_C_ne_zero c)) h1

theorem root_head {p r s : ℝ[X]} (hp : p ≠ 0) (hrs : r * derivative p = s * p) {c : ℝ}
    (hpc : p.eval c = 0) : r.eval c = 0 := by
  obtain ⟨k, g, hg, h⟩ := root_rel hp hrs hpc
  have h1 := congrArg (eval c) h
  simp only [eval_mul, eval_add, eval_C, eval_sub, eval_X, sub_self, zero_mul, mul_zero, add_zero] at h1
  have hk' : (k : ℝ) + 1 ≠ 0 := by positivity
  rcases mul_eq_zero.1 h1 with h | h
  · exact h
  · exact absurd h (mul_ne_zero hk' hg)

/-- Near a root of `p`, the first two elements have opposite signs on the left and equal signs on the
right. -/
theorem near_root {p r s : ℝ[X]} (hp : p ≠ 0) (hrs : r * derivative p = s * p) {c : ℝ}
    (hr0 : r ≠ 0) (hpc : p.eval c = 0) :
    ∀ᶠ y in 𝓝 c, y ≠ c → r.eval y ≠ 0 ∧ 0 < r.eval y * s.eval y * (y - c) := by
  obtain ⟨k, g, hgc', hrel⟩ := root_rel hp hrs hpc
  -- near `c` the factor `((k+1) g + (y-c) g') g` is positive
  set w := (C ((k : ℝ) + 1) * g + (X - C c) * derivative g) * g with hw
  have hwc : 0 < w.eval c := by
    rw [hw]
    simp only [eval_mul, eval_add, eval_C, eval_sub, eval_X, sub_self, zero_mul, add_zero]
    have : 0 < g.eval c * g.eval c := mul_self_pos.2 hgc'
    have hk' : (0 : ℝ) < (k : ℝ) + 1 := by positivity
    nlinarith
  have e1 : ∀ᶠ y in 𝓝 c, 0 < w.eval y := w.continuous.continuousAt.eventually (Ioi_mem_nhds hwc)
  have e2 : ∀ᶠ y in 𝓝 c, y ≠ c → r.eval y ≠ 0 := by
    have hfin : (r.rootSet ℝ).Finite := rootSet_finite r ℝ
    have : ∀ᶠ y in 𝓝 c, y ∉ (r.rootSet ℝ) \ {c} :=
      (hfin.subset Set.sdiff_subset).isClosed.isOpen_compl.mem_nhds (by simp)
    filter_upwards [this] with y hy hyc h0
    exact hy ⟨by rw [mem_rootSet]; exact ⟨hr0, by simpa using h0⟩, hyc⟩
  filter_upwards [e1, e2] with y hy1 hy2 hyc
  have hry := hy2 hyc
  refine ⟨hry, ?_⟩
  have h1 := congrArg (eval y) hrel
  simp only [eval_mul, eval_add, eval_C, eval_sub, eval_X] at h1
  rw [hw] at hy1
  simp only [eval_mul, eval_add, eval_C, eval_sub, eval_X] at hy1
  have hpos : 0 < r.eval y ^ 2 := by positivity
  have h2 : r.eval y * s.eval y * (y - c) * (g.eval y) ^ 2 =
      r.eval y ^ 2 * (((k + 1) * g.eval y + (y - c) * (derivative g).eval y) * g.eval y) := by
    linear_combination -(r.eval y * g.eval y) * h1
  have h3 : 0 < r.eval y * s.eval y * (y - c) * (g.eval y) ^ 2 := by rw [h2]; exact mul_pos hpos hy1
  by_contra hc
  have h4 : 0 ≤ (g.eval y) ^ 2 := by positivity
  nlinarith

/-! ## The count -/

/-- The distinct roots of `p` up to `x`. -/
noncomputable def rootsUpTo (p : ℝ[X]) (x : ℝ) : Finset ℝ := p.roots.toFinset.filter (· ≤ x)

theorem near_rootsUpTo (p : ℝ[X]) (c : ℝ) :
    ∀ᶠ y in 𝓝 c, ∀ z ∈ p.roots.toFinset, z ≠ c → (z ≤ y ↔ z ≤ c) := by
  rw [Filter.eventually_all_finset]
  intro z _
  rcases lt_trichotomy z c with h | h | h
  · filter_upwards [Ioi_mem_nhds h] with y hy _
    exact ⟨fun _ => h.le, fun _ => le_of_lt hy⟩
  · exact Eventually.of_forall fun y hy => absurd h hy
  · filter_upwards [Iio_mem_nhds h] with y hy _
    exact ⟨fun h' => absurd hy (not_lt.2 h'), fun h' => absurd h (not_lt.2 h')⟩

/-- Sturm's theorem, local form. -/
theorem sturm_locally {p r s : ℝ[X]} {l : List ℝ[X]} (hp : p ≠ 0) (hR : SturmLike (r :: s :: l))
    (hrs : r * derivative p = s * p) (hr0 : r ≠ 0) (hpr : ∀ c, r.eval c = 0 → p.eval c = 0) (c : ℝ) :
    ∀ᶠ y in 𝓝 c, sc 0 ((r :: s :: l).map (eval y)) + (rootsUpTo p y).card =
      sc 0 ((r :: s :: l).map (eval c)) + (rootsUpTo p c).card := by
  by_cases hc : p.eval c = 0
  · have hrc := root_head hp hrs hc
    have hsc : s.eval c ≠ 0 := SturmLike.no_common l hR hrc
    have hmem : c ∈ p.roots.toFinset := by simp [hp, hc]
    filter_upwards [near_root hp hrs hr0 hc, near_signs (r :: s :: l) c, near_rootsUpTo p c] with y h1 h2 h3
    by_cases hyc : y = c
    · rw [hyc]
    obtain ⟨hry, hpos⟩ := h1 hyc
    have e1 : sc 0 ((r :: s :: l).map (eval c)) = sc 0 ((s :: l).map (eval c)) := by
      rw [List.map_cons, hrc, sc_zero]
    have e2 := sc_near _ (s :: l) rfl hR.tail c y (fun q hq => h2 q (by simp at hq ⊢; tauto))
      (fun q hq => by simp at hq; rw [← hq]; exact hsc) 0
    have hsy : s.eval y ≠ 0 := by
      intro h; rw [h] at hpos; simp at hpos
    rw [e1, ← e2, List.map_cons, List.map_cons, sc_cons_ne hry, sc_cons_ne hsy, sc_cons_ne hsy]
    simp only [ne_eq, not_true_eq_false, false_and, if_false]
    rcases lt_or_gt_of_ne hyc with hlt | hgt
    · have hne : signOf (r.eval y) ≠ 0 ∧ signOf (s.eval y) ≠ signOf (r.eval y) := by
        have hneg : r.eval y * s.eval y < 0 := by
          by_contra h
          have := mul_nonpos_of_nonneg_of_nonpos (not_lt.1 h) (sub_neg.2 hlt).le
          linarith
        rcases lt_or_gt_of_ne hry with h | h
        · have hs : 0 < s.eval y := by by_contra h'; nlinarith [not_lt.1 h']
          rw [signOf_negative h, signOf_pos hs]; decide
        · have hs : s.eval y < 0 := by by_contra h'; nlinarith [not_lt.1 h']
          rw [signOf_pos h, signOf_negative hs]; decide
      have e3 : rootsUpTo p y = (rootsUpTo p c).erase c := by
        ext z
        simp only [rootsUpTo, Finset.mem_filter, Finset.mem_erase]
        constructor
        · rintro ⟨a, b⟩
          have hz : z ≠ c := fun h => absurd (h ▸ b) (not_le.2 hlt)
          exact ⟨hz, a, (h3 z a hz).1 b⟩
        · rintro ⟨hz, a, b⟩
          exact ⟨a, (h3 z a hz).2 b⟩
      have e4 : c ∈ rootsUpTo p c := by simp only [rootsUpTo, Finset.mem_filter]; exact ⟨hmem, le_rfl⟩
      rw [e3, ← Finset.card_erase_add_one e4, if_pos hne]
      ring
    · have heq : signOf (s.eval y) = signOf (r.eval y) := by
        have hp' : 0 < r.eval y * s.eval y := by
          by_contra h
          have := mul_nonpos_of_nonpos_of_nonneg (not_lt.1 h) (sub_pos.2 hgt).le
          linarith
        rcases lt_or_gt_of_ne hry with h | h
        · have hs : s.eval y < 0 := by by_contra h'; nlinarith [not_lt.1 h']
          rw [signOf_negative h, signOf_negative hs]
        · have hs : 0 < s.eval y := by by_contra h'; nlinarith [not_lt.1 h']
          rw [signOf_pos h, signOf_pos hs]
      have e3 : rootsUpTo p y = rootsUpTo p c := by
        ext z
        simp only [rootsUpTo, Finset.mem_filter]
        by_cases hz : z = c
        · rw [hz]; exact ⟨fun h => ⟨h.1, le_rfl⟩, fun h => ⟨h.1, hgt.le⟩⟩
        · exact ⟨fun h => ⟨h.1, (h3 z h.1 hz).1 h.2⟩, fun h => ⟨h.1, (h3 z h.1 hz).2 h.2⟩⟩
      rw [e3, heq]
      simp
  · have hrc : r.eval c ≠ 0 := fun h => hc (hpr c h)
    filter_upwards [near_signs (r :: s :: l) c, near_rootsUpTo p c] with y h2 h3
    have e2 := sc_near _ (r :: s :: l) rfl hR c y h2
      (fun q hq => by simp at hq; rw [← hq]; exact hrc) 0
    have e3 : rootsUpTo p y = rootsUpTo p c := by
      ext z
      simp only [rootsUpTo, Finset.mem_filter]
      have hz : z ∈ p.roots.toFinset → z ≠ c := by
        rintro h rfl
        rw [Multiset.mem_toFinset, mem_roots hp] at h
        exact hc h
      exact ⟨fun h => ⟨h.1, (h3 z h.1 (hz h.1)).1 h.2⟩, fun h => ⟨h.1, (h3 z h.1 (hz h.1)).2 h.2⟩⟩
    rw [e2, e3]

/-- Sturm's theorem. -/
theorem sturm_count {p r s : ℝ[X]} {l : List ℝ[X]} (hp : p ≠ 0) (hR : SturmLike (r :: s :: l))
    (hrs : r * derivative p = s * p) (hr0 : r ≠ 0) (hpr : ∀ c, r.eval c = 0 → p.eval c = 0) (a b : ℝ) :
    sc 0 ((r :: s :: l).map (eval a)) + (rootsUpTo p a).card =
      sc 0 ((r :: s :: l).map (eval b)) + (rootsUpTo p b).card :=
  ((IsLocallyConstant.iff_eventually_eq _).2 (sturm_locally hp hR hrs hr0 hpr)).apply_eq_of_preconnectedSpace a b

theorem rootsUpTo_sub (p : ℝ[X]) {a b : ℝ} (hab : a ≤ b) :
    (rootsUpTo p b).card = (rootsUpTo p a).card +
      (p.roots.toFinset.filter fun x => a < x ∧ x ≤ b).card := by
  rw [← Finset.card_union_of_disjoint]
  · congr 1
    ext z
    simp only [rootsUpTo, Finset.mem_union, Finset.mem_filter]
    constructor
    · rintro ⟨h1, h2⟩
      rcases le_or_gt z a with h | h
      · exact .inl ⟨h1, h⟩
      · exact .inr ⟨h1, h, h2⟩
    · rintro (⟨h1, h2⟩ | ⟨h1, h2, h3⟩)
      · exact ⟨h1, h2.trans hab⟩
      · exact ⟨h1, h3⟩
  · rw [Finset.disjoint_left]
    intro z h1 h2
    simp only [rootsUpTo, Finset.mem_filter] at h1 h2
    linarith [h1.2, h2.2.1]

/-! ## The chain of the code -/

/-- The polynomials of a chain. -/
noncomputable def SturmChain.polys : {n : ℕ} → SturmChain ℝ n → List ℝ[X]
  | _, .last p => [polyOf p]
  | _, .cons p t => polyOf p :: t.polys

theorem SturmChain.polys_head {inf : ℝ} : {n : ℕ} → {p' : Arr ℝ (n + 1)} → {p : Arr ℝ n} →
    {c : SturmChain ℝ n} → SturmChain.tail inf n p' p = some c → ∃ l, c.polys = polyOf p :: l
  | 0, _, p, c, h => by
    rw [SturmChain.tail, Option.some_inj] at h
    subst h; exact ⟨[], rfl⟩
  | n + 1, p', p, c, h => by
    rw [SturmChain.tail] at h
    obtain ⟨r, -, h⟩ := Option.bind_eq_some_iff.1 h
    obtain ⟨t, -, h⟩ := Option.bind_eq_some_iff.1 h
    cases h
    exact ⟨t.polys, rfl⟩

theorem mrem_zero (inf : ℝ) {m : ℕ} (f : Arr ℝ (m + 2)) (g : Arr ℝ (m + 1)) (hg : polyOf g = 0) :
    ∃ r, mrem inf f g = some r ∧ polyOf r = 0 := by
  have hg0 : g = 0 := polyOf_inj (hg.trans (polyOf_zeros _).symm)
  obtain ⟨q, r, e, -, hr⟩ := C24_by_zero inf f (m + 1) g hg0
  obtain ⟨r', e', h'⟩ := neg_spec r
  refine ⟨r', by simp [mrem, e, e'], ?_⟩
  rw [h', hr, show (0 : Arr ℝ (m + 1 - 1)) = zeros _ from rfl, polyOf_zeros, neg_zero]

theorem mrem_ne (inf : ℝ) {m : ℕ} (f : Arr ℝ (m + 2)) (g : Arr ℝ (m + 1)) (hg : polyOf g ≠ 0) :
    ∃ r q, mrem inf f g = some r ∧ polyOf f = q * polyOf g - polyOf r := by
  have hg0 : g ≠ 0 := fun h => hg (by rw [h]; exact polyOf_zeros _)
  obtain ⟨q, r, e, h, -⟩ := C24_division inf f g (by omega) hg0
  obtain ⟨r', e', h'⟩ := neg_spec r
  refine ⟨r', polyOf q, by simp [mrem, e, e'], ?_⟩
  rw [h', h, sub_neg_eq_add]

theorem SturmChain.tail_zero (inf : ℝ) : (n : ℕ) → (p' : Arr ℝ (n + 1)) → (p : Arr ℝ n) →
    polyOf p = 0 → ∃ c, SturmChain.tail inf n p' p = some c ∧ ∀ q ∈ c.polys, q = 0
  | 0, _, p, hp => ⟨_, rfl, by simp [SturmChain.polys, hp]⟩
  | n + 1, p', p, hp => by
    obtain ⟨r, e, hr⟩ := mrem_zero inf p' p hp
    obtain ⟨t, et, ht⟩ := SturmChain.tail_zero inf n p r hr
    refine ⟨.cons p t, by simp [SturmChain.tail, e, et], ?_⟩
    simpa [SturmChain.polys, hp] using ht

/-- The chain below `prev` and `cur` is a Sturm sequence times the greatest common divisor, followed by
zeros. -/
theorem SturmChain.structure (inf : ℝ) : (n : ℕ) → (prev : Arr ℝ (n + 1)) → (cur : Arr ℝ n) →
    polyOf prev ≠ 0 → ∃ c, SturmChain.tail inf n prev cur = some c ∧
      ∃ (d : ℝ[X]) (R Z : List ℝ[X]), d ≠ 0 ∧ (∀ z ∈ Z, z = 0) ∧ SturmLike R ∧
        polyOf prev :: c.polys = R.map (fun r => d * r) ++ Z
  | n, prev, cur, hprev => by
    by_cases hcur : polyOf cur = 0
    · obtain ⟨c, e, h⟩ := SturmChain.tail_zero inf n prev cur hcur
      exact ⟨c, e, polyOf prev, [1], c.polys, hprev, h, by simp [SturmLike], by simp⟩
    match n, prev, cur, hprev, hcur with
    | 0, prev, cur, hprev, hcur =>
      refine ⟨_, rfl, 1, [polyOf prev, polyOf cur], [], one_ne_zero, by simp, ?_, by simp [SturmChain.polys]⟩
      intro x
      rw [polyOf_zero_order] at hcur ⊢
      rw [eval_C]
      exact fun h => hcur (by rw [h, C_0])
    | n + 1, prev, cur, hprev, hcur =>
      obtain ⟨r, q, er, hq⟩ := mrem_ne inf prev cur hcur
      obtain ⟨t, et, d, R, Z, hd, hZ, hR, hlist⟩ := SturmChain.structure inf n cur r hcur
      obtain ⟨l, hl⟩ := SturmChain.polys_head et
      refine ⟨.cons cur t, by simp [SturmChain.tail, er, et], ?_⟩
      rw [SturmChain.polys, hlist]
      match R, hR with
      | [R0], hR =>
        have h0 : polyOf cur = d * R0 := by simp at hlist; exact hlist.1
        have hr0 : polyOf r = 0 := by
          rw [hl] at hlist
          simp only [List.map_cons, List.map_nil, List.cons_append, List.nil_append, List.cons.injEq] at hlist
          exact hZ _ (by rw [← hlist.2]; simp)
        refine ⟨d, [q * R0, R0], Z, hd, hZ, hR, ?_⟩
        rw [hq, hr0, sub_zero, h0]
        simp only [List.map_cons, List.map_nil, List.cons_append, List.nil_append, List.cons.injEq, and_true]
        ring
      | R0 :: R1 :: R', hR =>
        have h0 : polyOf cur = d * R0 := by simp at hlist; exact hlist.1
        have h1 : polyOf r = d * R1 := by rw [hl] at hlist; simp at hlist; exact hlist.2.1
        refine ⟨d, (q * R0 - R1) :: R0 :: R1 :: R', Z, hd, hZ, ⟨⟨q, by ring⟩, hR⟩, ?_⟩
        rw [hq, h0, h1]
        simp only [List.map_cons, List.cons_append, List.cons.injEq, and_true]
        ring

theorem helper_eq (x : ℝ) : {n : ℕ} → (c : SturmChain ℝ n) → (last : ℤ) →
    c.signChangeHelper (fun p => signAt x p) last = some (sc last (c.polys.map (eval x)))
  | _, .last p, last => by
    have h : signAt x p = some (signOf ((polyOf p).eval x)) := by
      rw [signAt, horner_spec, Option.map_some]
    simp [SturmChain.signChangeHelper, SturmChain.polys, h, sc]
  | _, .cons p t, last => by
    have h : signAt x p = some (signOf ((polyOf p).eval x)) := by
      rw [signAt, horner_spec, Option.map_some]
    simp only [SturmChain.signChangeHelper, h, Option.bind_eq_bind, Option.bind_some, helper_eq x t]
    simp [SturmChain.polys, sc, add_comm]

end Stator.Pol
