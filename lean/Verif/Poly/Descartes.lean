import Verif.Poly.Roots
import Verif.Poly.OpsLemmas2
import Mathlib.Algebra.Polynomial.RuleOfSigns
import Mathlib.Analysis.Polynomial.Basic
import Mathlib.Topology.Algebra.Polynomial
import Mathlib.Topology.Order.IntermediateValue

/-! # Descartes' rule of signs: the loop of the code computes Mathlib's `signVariations` -/

namespace Stator.Pol

open Polynomial

variable {K : Type}

/-- One turn of the loop. -/
def sgStep (s : ℕ × ℤ) (cur : ℤ) : ℕ × ℤ :=
  (s.1 + (if cur ≠ 0 ∧ s.2 ≠ 0 ∧ cur ≠ s.2 then 1 else 0), if cur ≠ 0 then cur else s.2)

theorem sgFold_filter (l : List ℤ) : ∀ s : ℕ × ℤ,
    l.foldl sgStep s = (l.filter (· ≠ 0)).foldl sgStep s := by
  induction l with
  | nil => intro s; rfl
  | cons a l ih =>
    intro s
    by_cases h : a = 0
    · subst h
      rw [List.foldl_cons, ih]
      simp [sgStep]
    · rw [List.foldl_cons, ih, List.filter_cons_of_pos (by simpa using h), List.foldl_cons]

theorem sgFold_destutter (l : List ℤ) (hl : ∀ x ∈ l, x ≠ 0) : ∀ (c : ℕ) (a : ℤ), a ≠ 0 →
    (l.foldl sgStep (c, a)).1 + 1 = c + (l.destutter' (· ≠ ·) a).length := by
  induction l with
  | nil => intro c a _; simp
  | cons b l ih =>
    intro c a ha
    have hb : b ≠ 0 := hl b (by simp)
    rw [List.foldl_cons, List.destutter'_cons]
    have : sgStep (c, a) b = (c + (if a ≠ b then 1 else 0), b) := by
      by_cases hab : a = b
      · simp [sgStep, hb, hab]
      · simp [sgStep, hb, ha, hab, Ne.symm hab]
    rw [this, ih (fun x hx => hl x (by simp [hx])) _ _ hb]
    by_cases hab : a = b
    · subst hab; simp
    · simp [hab]; omega

theorem sgFold_count (l : List ℤ) :
    (l.foldl sgStep (0, 0)).1 = ((l.filter (· ≠ 0)).destutter (· ≠ ·)).length - 1 := by
  rw [sgFold_filter]
  have hl : ∀ x ∈ l.filter (· ≠ 0), x ≠ 0 := by
    intro x hx; simpa using (List.mem_filter.1 hx).2
  cases h : l.filter (· ≠ 0) with
  | nil => rfl
  | cons a t =>
    rw [h] at hl
    have ha : a ≠ 0 := hl a (by simp)
    rw [List.foldl_cons, List.destutter_cons']
    have : sgStep (0, 0) a = (0, a) := by simp [sgStep, ha]
    rw [this]
    have := sgFold_destutter t (fun x hx => hl x (by simp [hx])) 0 a ha
    omega

theorem destutter_reverse_length {α : Type} [DecidableEq α] (l : List α) :
    (l.reverse.destutter (· ≠ ·)).length = (l.destutter (· ≠ ·)).length := by
  have key : ∀ l : List α, (l.destutter (· ≠ ·)).length ≤ (l.reverse.destutter (· ≠ ·)).length := by
    intro l
    have h1 : (l.destutter (· ≠ ·)).reverse.Sublist l.reverse := (List.destutter_sublist _ l).reverse
    have h2 : (l.destutter (· ≠ ·)).reverse.IsChain (· ≠ ·) := by
      rw [List.isChain_reverse]
      refine (List.isChain_destutter (· ≠ ·) l).imp ?_
      intro a b h
      exact fun e => h e.symm
    simpa using List.IsChain.length_le_length_destutter_ne h1 h2
  apply le_antisymm
  · simpa using key l.reverse
  · exact key l

/-- The signs of the coefficients, lowest first. -/
def signs [Zero K] [LinearOrder K] {n : ℕ} (f : Arr K n) (c : ℕ) : List ℤ :=
  (List.range c).map fun i => signOf (coef f i)

theorem descartes_fold [Zero K] [LinearOrder K] {n : ℕ} (f : Arr K n) :
    descartes f = some ((signs f (n + 1)).foldl sgStep (0, 0)).1 := by
  unfold descartes
  obtain ⟨s, e, h⟩ := forUp_inv (lo := 0) (body := fun i (s : ℕ × ℤ) => do
      let c ← rd f i
      let current := signOf c
      some (s.1 + (if current ≠ 0 ∧ s.2 ≠ 0 ∧ current ≠ s.2 then 1 else 0),
        if current ≠ 0 then current else s.2))
    (fun c s => s = (signs f c).foldl sgStep (0, 0)) (n + 1) (0, 0) rfl
    (fun c s hc hI => by
      refine ⟨sgStep s (signOf (coef f c)), ?_, ?_⟩
      · rw [Nat.zero_add, rd_coef f (show c ≤ n by omega)]; rfl
      · rw [hI, signs, signs, List.range_succ, List.map_append, List.foldl_append]; rfl)
  rw [e, ← h]; rfl

theorem signOf_eq [Ring K] [LinearOrder K] [IsStrictOrderedRing K] (c : K) :
    signOf c = ((SignType.sign c : SignType) : ℤ) := by
  unfold signOf
  rcases lt_trichotomy c 0 with h | h | h
  · simp [h, h.ne]
  · simp [h]
  · simp [h, h.ne', not_lt.2 h.le]

theorem signs_eq [CommRing K] [LinearOrder K] [IsStrictOrderedRing K] {n : ℕ} (f : Arr K n) :
    (signs f (n + 1)).filter (· ≠ 0) =
      ((((polyOf f).coeffList.map SignType.sign).filter (· ≠ 0)).reverse).map
        (fun s : SignType => (s : ℤ)) := by
  have h1 : ∀ l : List ℕ, (l.map fun i => signOf (coef f i)).filter (· ≠ 0) =
      ((l.map fun i => SignType.sign ((polyOf f).coeff i)).filter (· ≠ 0)).map
        (fun s : SignType => (s : ℤ)) := by
    intro l
    induction l with
    | nil => rfl
    | cons i l ih =>
      simp only [List.map_cons, polyOf_coeff] at ih ⊢
      by_cases h : SignType.sign (coef f i) = 0
      · rw [List.filter_cons_of_neg (by simp [signOf_eq, h]),
          List.filter_cons_of_neg (by simp [h]), ih]
      · have hz : ∀ s : SignType, s ≠ 0 → (s : ℤ) ≠ 0 := by decide
        rw [List.filter_cons_of_pos (by rw [signOf_eq]; exact decide_eq_true (hz _ h)),
          List.filter_cons_of_pos (by simpa using h), List.map_cons, ih, signOf_eq]
  rw [signs, h1]
  congr 1
  rw [coeffList, ← List.filter_reverse, ← List.map_reverse, ← List.map_reverse, List.reverse_reverse,
    List.map_map]
  by_cases hz : polyOf f = 0
  · rw [hz]; simp
  · have hd : (polyOf f).degree.succ = (polyOf f).natDegree + 1 := by
      rw [degree_eq_natDegree hz]; rfl
    have hle := polyOf_degree f
    rw [hd, show n + 1 = ((polyOf f).natDegree + 1) + (n - (polyOf f).natDegree) by omega,
      List.range_add, List.map_append, List.filter_append]
    have : ((List.map (fun i => SignType.sign ((polyOf f).coeff i)) (List.map
        (fun x => (polyOf f).natDegree + 1 + x) (List.range (n - (polyOf f).natDegree)))).filter
        (· ≠ 0)) = [] := by
      rw [List.filter_eq_nil_iff]
      intro a ha
      simp only [List.mem_map] at ha
      obtain ⟨_, ⟨x, _, rfl⟩, rfl⟩ := ha
      rw [coeff_eq_zero_of_natDegree_lt (by omega)]; simp
    rw [this, List.append_nil]
    rfl

theorem descartes_eq [CommRing K] [LinearOrder K] [IsStrictOrderedRing K] {n : ℕ} (f : Arr K n) :
    descartes f = some (polyOf f).signVariations := by
  rw [descartes_fold, sgFold_count, signs_eq, signVariations]
  congr 2
  rw [← List.map_destutter_ne (f := fun s : SignType => (s : ℤ)), List.length_map,
    destutter_reverse_length]
  intro a b h
  revert a b; decide

/-! ## Parity -/

theorem lead_trail_sign [Field K] [LinearOrder K] [IsStrictOrderedRing K] :
    ∀ (m : ℕ) (P : K[X]), P.support.card = m → P ≠ 0 →
      0 < P.leadingCoeff * P.trailingCoeff * (-1) ^ P.signVariations := by
  intro m
  induction m using Nat.strong_induction_on with
  | _ m ih =>
    intro P hm hP
    have hl : P.leadingCoeff ≠ 0 := leadingCoeff_ne_zero.2 hP
    by_cases he : P.eraseLead = 0
    · have hmono : P = monomial P.natDegree P.leadingCoeff := by
        have := eraseLead_add_monomial_natDegree_leadingCoeff P
        rw [he, zero_add] at this
        exact this.symm
      have ht : P.trailingCoeff = P.leadingCoeff := by
        rw [trailingCoeff, hmono, natTrailingDegree_monomial hl]; simp
      have hs : P.signVariations = 0 := by rw [hmono]; simp
      rw [ht, hs, pow_zero, mul_one]
      exact mul_self_pos.2 hl
    · have hc := eraseLead_support_card_lt hP
      have := ih _ (hm ▸ hc) P.eraseLead rfl he
      have hl' : P.eraseLead.leadingCoeff ≠ 0 := leadingCoeff_ne_zero.2 he
      have ht : P.trailingCoeff = P.eraseLead.trailingCoeff := by
        have h1 : P.natTrailingDegree < P.natDegree := by
          have a1 := natTrailingDegree_le_natDegree P
          rcases a1.lt_or_eq with h | h
          · exact h
          · exfalso
            apply he
            have := eraseLead_add_monomial_natDegree_leadingCoeff P
            ext i
            rw [eraseLead_coeff, coeff_zero]
            split
            · rfl
            · next hi =>
              rcases lt_or_gt_of_ne hi with h2 | h2
              · exact coeff_eq_zero_of_lt_natTrailingDegree (by omega)
              · exact coeff_eq_zero_of_natDegree_lt h2
        have h2 : P.eraseLead.natTrailingDegree = P.natTrailingDegree := by
          apply le_antisymm
          · apply natTrailingDegree_le_of_ne_zero
            rw [eraseLead_coeff_of_ne _ (by omega)]
            exact coeff_natTrailingDegree_ne_zero.2 hP
          · apply le_natTrailingDegree he
            intro k hk
            rw [eraseLead_coeff_of_ne _ (by omega)]
            exact coeff_eq_zero_of_lt_natTrailingDegree hk
        rw [trailingCoeff, trailingCoeff, h2, eraseLead_coeff_of_ne _ (by omega)]
      rw [signVariations_eq_eraseLead_add_ite hP, ht]
      set t := P.eraseLead.trailingCoeff * (-1) ^ P.eraseLead.signVariations with htdef
      have ht' : 0 < P.eraseLead.leadingCoeff * t := by rw [htdef, ← mul_assoc]; exact this
      have goal : ∀ e : ℕ, P.leadingCoeff * P.eraseLead.trailingCoeff *
          (-1) ^ (P.eraseLead.signVariations + e) = P.leadingCoeff * t * (-1) ^ e := by
        intro e; rw [htdef, pow_add]; ring
      rw [goal]
      rcases lt_or_gt_of_ne hl with a | a <;> rcases lt_or_gt_of_ne hl' with b | b
      · have : t < 0 := by by_contra h; nlinarith [not_lt.1 h]
        simp only [sign_neg a, sign_neg b]
        simp only [neg_neg, show ¬((-1 : SignType) = 1) by decide, if_false, pow_zero, mul_one]
        nlinarith
      · have : 0 < t := by by_contra h; nlinarith [not_lt.1 h]
        simp only [sign_neg a, sign_pos b, if_true, pow_one]
        nlinarith
      · have : t < 0 := by by_contra h; nlinarith [not_lt.1 h]
        simp only [sign_pos a, sign_neg b, neg_neg, if_true, pow_one]
        nlinarith
      · have : 0 < t := by by_contra h; nlinarith [not_lt.1 h]
        simp only [sign_pos a, sign_pos b, show ¬((1 : SignType) = -1) by decide, if_false, pow_zero,
          mul_one]
        positivity

/-- A real polynomial without positive roots has leading and trailing coefficient of one sign. -/
theorem lead_trail_of_no_root (P : ℝ[X]) (hP : P ≠ 0) (h : ∀ x, 0 < x → P.eval x ≠ 0) :
    0 < P.leadingCoeff * P.trailingCoeff := by
  obtain ⟨Q, hQ⟩ : X ^ P.natTrailingDegree ∣ P :=
    X_pow_dvd_iff.2 fun d hd => coeff_eq_zero_of_lt_natTrailingDegree hd
  have hQ0 : Q ≠ 0 := by rintro rfl; rw [mul_zero] at hQ; exact hP hQ
  have hl : P.leadingCoeff = Q.leadingCoeff := by
    conv_lhs => rw [hQ]
    simp
  have ht : P.trailingCoeff = Q.eval 0 := by
    rw [trailingCoeff]
    conv_lhs => rw [hQ]
    rw [coeff_X_pow_mul', ← hQ, if_pos (le_refl _), Nat.sub_self, coeff_zero_eq_eval_zero]
  have hQr : ∀ x, 0 < x → Q.eval x ≠ 0 := by
    intro x hx h0
    apply h x hx
    rw [hQ, eval_mul, h0, mul_zero]
  have ht0 : Q.eval 0 ≠ 0 := by
    rw [← ht]; exact trailingCoeff_nonzero_iff_nonzero.2 hP
  rw [hl, ht]
  by_cases hd : Q.natDegree = 0
  · rw [eq_C_of_natDegree_eq_zero hd] at ht0 ⊢
    simp only [eval_C] at ht0 ⊢
    rw [leadingCoeff_C]; exact mul_self_pos.2 ht0
  · have hdeg : 0 < Q.degree := natDegree_pos_iff_degree_pos.1 (by omega)
    have hl0 : Q.leadingCoeff ≠ 0 := leadingCoeff_ne_zero.2 hQ0
    by_contra hneg
    have hne : Q.leadingCoeff * Q.eval 0 < 0 :=
      lt_of_le_of_ne (not_lt.1 hneg) (mul_ne_zero hl0 ht0)
    have hcont : Continuous fun x => Q.eval x := Q.continuous
    rcases lt_or_gt_of_ne hl0 with a | a
    · have h0 : 0 < Q.eval 0 := by by_contra h; nlinarith [not_lt.1 h]
      have ev := (tendsto_atBot_of_leadingCoeff_nonpos Q hdeg a.le).eventually
        (Filter.eventually_lt_atBot 0)
      obtain ⟨b, hb, hb0⟩ := (ev.and (Filter.eventually_gt_atTop 0)).exists
      obtain ⟨c, hc, hc0⟩ := intermediate_value_Ioo' hb0.le hcont.continuousOn ⟨hb, h0⟩
      exact hQr c hc.1 hc0
    · have h0 : Q.eval 0 < 0 := by by_contra h; nlinarith [not_lt.1 h]
      have ev := (tendsto_atTop_of_leadingCoeff_nonneg Q hdeg a.le).eventually
        (Filter.eventually_gt_atTop 0)
      obtain ⟨b, hb, hb0⟩ := (ev.and (Filter.eventually_gt_atTop 0)).exists
      obtain ⟨c, hc, hc0⟩ := intermediate_value_Ioo hb0.le hcont.continuousOn ⟨h0, hb⟩
      exact hQr c hc.1 hc0

theorem lead_trail_roots : ∀ (m : ℕ) (P : ℝ[X]), P.roots.countP (0 < ·) = m → P ≠ 0 →
    0 < P.leadingCoeff * P.trailingCoeff * (-1) ^ m := by
  intro m
  induction m with
  | zero =>
    intro P hm hP
    rw [pow_zero, mul_one]
    refine lead_trail_of_no_root P hP fun x hx h0 => ?_
    rw [Multiset.countP_eq_zero] at hm
    exact hm x (mem_roots'.2 ⟨hP, h0⟩) hx
  | succ m ih =>
    intro P hm hP
    obtain ⟨r, hr, hr0⟩ : ∃ r ∈ P.roots, 0 < r :=
      Multiset.countP_pos.1 (hm ▸ Nat.succ_pos m)
    obtain ⟨Q, hQ⟩ := dvd_iff_isRoot.2 (isRoot_of_mem_roots hr)
    have hQ0 : Q ≠ 0 := by rintro rfl; rw [mul_zero] at hQ; exact hP hQ
    have hroots : P.roots = r ::ₘ Q.roots := by
      rw [hQ, roots_mul (hQ ▸ hP), roots_X_sub_C]; rfl
    have hm' : Q.roots.countP (0 < ·) = m := by
      rw [hroots, Multiset.countP_cons_of_pos _ hr0] at hm
      exact Nat.succ_injective hm
    have := ih Q hm' hQ0
    have ht : P.trailingCoeff = -r * Q.trailingCoeff := by
      rw [hQ, trailingCoeff_mul]
      congr 1
      have : (X - C r : ℝ[X]).natTrailingDegree = 0 :=
        natTrailingDegree_eq_zero.2 (.inr (by simp [hr0.ne']))
      rw [trailingCoeff, this]; simp
    have hlead : P.leadingCoeff = Q.leadingCoeff := by
      rw [hQ, leadingCoeff_mul, leadingCoeff_X_sub_C, one_mul]
    rw [ht, hlead, pow_succ]
    have e : Q.leadingCoeff * (-r * Q.trailingCoeff) * ((-1) ^ m * -1) =
        r * (Q.leadingCoeff * Q.trailingCoeff * (-1) ^ m) := by ring
    rw [e]
    exact mul_pos hr0 this

theorem roots_parity (P : ℝ[X]) (hP : P ≠ 0) :
    P.roots.countP (0 < ·) % 2 = P.signVariations % 2 := by
  have h1 := lead_trail_roots _ P rfl hP
  have h2 := lead_trail_sign _ P rfl hP
  set t := P.leadingCoeff * P.trailingCoeff
  rcases Nat.even_or_odd (P.roots.countP (0 < ·)) with a | a <;>
    rcases Nat.even_or_odd P.signVariations with b | b
  · rw [Nat.even_iff.1 a, Nat.even_iff.1 b]
  · rw [a.neg_one_pow] at h1; rw [b.neg_one_pow] at h2; linarith
  · rw [a.neg_one_pow] at h1; rw [b.neg_one_pow] at h2; linarith
  · rw [Nat.odd_iff.1 a, Nat.odd_iff.1 b]

end Stator.Pol
