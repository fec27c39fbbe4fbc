import Verif.Poly.CountProps
import Mathlib.Algebra.Order.BigOperators.Group.Finset

/-! # Property C30: the local-max quadratic bounds -/

namespace Stator.Pol

open Polynomial Finset

/-- The sign of the leading coefficient times the coefficients. -/
noncomputable def sig {n : ℕ} (f : Arr ℝ n) (o : ℕ) (i : ℕ) : ℝ :=
  if coef f o < 0 then -coef f i else coef f i

theorem sig_pos {n : ℕ} {f : Arr ℝ n} {o : ℕ} (h : coef f o ≠ 0) : 0 < sig f o o := by
  unfold sig
  split
  · linarith
  · next h' => exact lt_of_le_of_ne (not_lt.1 h') (Ne.symm h)

/-- The test of the code for an opposite sign. -/
theorem opp_iff {n : ℕ} {f : Arr ℝ n} {o i : ℕ} (ho : coef f o ≠ 0) :
    (coef f i ≠ 0 ∧ decide (coef f i < 0) ≠ decide (coef f o < 0)) ↔ sig f o i < 0 := by
  unfold sig
  by_cases h : coef f o < 0 <;> by_cases hi : coef f i < 0
  · simp [h, hi, hi.le]
  · simp only [h, hi, decide_true, decide_false, if_true]
    constructor
    · rintro ⟨h1, -⟩
      have : 0 < coef f i := lt_of_le_of_ne (not_lt.1 hi) (Ne.symm h1)
      linarith
    · intro h1; exact ⟨by intro h2; rw [h2] at h1; norm_num at h1, by simp⟩
  · simp [h, hi, hi.ne]
  · simp [h, hi]

theorem same_iff {n : ℕ} {f : Arr ℝ n} {o m k : ℕ} (hm : sig f o m < 0) :
    (coef f k ≠ 0 ∧ decide (coef f k < 0) ≠ decide (coef f m < 0)) ↔ 0 < sig f o k := by
  unfold sig at *
  by_cases h : coef f o < 0
  · simp only [h, if_true] at hm ⊢
    have : ¬ coef f m < 0 := by linarith
    simp only [this, decide_false]
    constructor
    · rintro ⟨-, h2⟩
      have : coef f k < 0 := by simpa using h2
      linarith
    · intro h2
      exact ⟨by intro h3; rw [h3] at h2; norm_num at h2, by simp; linarith⟩
  · simp only [h, if_false] at hm ⊢
    simp only [hm, decide_true]
    constructor
    · rintro ⟨h1, h2⟩
      have : ¬ coef f k < 0 := by simpa using h2
      exact lt_of_le_of_ne (not_lt.1 this) (Ne.symm h1)
    · intro h2
      exact ⟨h2.ne', by simp; linarith⟩

/-- `times_used` as a function. -/
def tm {n : ℕ} (t : Arr ℕ n) (k : ℕ) : ℕ := coef t k

/-- The part of the positive terms that has been used up. -/
noncomputable def used {n : ℕ} (f : Arr ℝ n) (o : ℕ) (t : ℕ → ℕ) (x : ℝ) : ℝ :=
  ∑ k ∈ range (n + 1), if 0 < sig f o k then sig f o k * x ^ k * (1 - 2 / 2 ^ t k) else 0

/-- The negative terms from index `m` on. -/
noncomputable def negs {n : ℕ} (f : Arr ℝ n) (o m : ℕ) (x : ℝ) : ℝ :=
  ∑ i ∈ range (n + 1), if m ≤ i ∧ sig f o i < 0 then -sig f o i * x ^ i else 0

/-- The bound computed for one pair. -/
noncomputable def pairBound {n : ℕ} (f : Arr ℝ n) (m k t : ℕ) : ℝ :=
  (-(2 : ℝ) ^ t * coef f m / coef f k) ^ ((1 : ℝ) / ((k - m : ℕ) : ℝ))

theorem ratio_eq {n : ℕ} {f : Arr ℝ n} {o m k : ℕ} :
    coef f m / coef f k = sig f o m / sig f o k := by
  unfold sig; split
  · rw [neg_div_neg_eq]
  · rfl

theorem pairBound_spec {n : ℕ} {f : Arr ℝ n} {o m k t : ℕ} (hm : sig f o m < 0) (hk : 0 < sig f o k)
    (hmk : m < k) {x : ℝ} (hx : 0 < x) (h : pairBound f m k t ≤ x) :
    -sig f o m * x ^ m ≤ sig f o k * x ^ k / 2 ^ t := by
  unfold pairBound at h
  have e : -(2 : ℝ) ^ t * coef f m / coef f k = 2 ^ t * (-sig f o m) / sig f o k := by
    rw [mul_div_assoc, ratio_eq (o := o)]; ring
  rw [e] at h
  have hnn : 0 ≤ 2 ^ t * (-sig f o m) / sig f o k :=
    div_nonneg (mul_nonneg (by positivity) (by linarith)) hk.le
  have hd : ((k - m : ℕ) : ℝ) ≠ 0 := by
    have : k - m ≠ 0 := by omega
    exact_mod_cast this
  have h2 : 2 ^ t * (-sig f o m) / sig f o k ≤ x ^ (k - m) := by
    have := pow_le_pow_left₀ (Real.rpow_nonneg hnn _) h (k - m)
    rwa [← Real.rpow_natCast, ← Real.rpow_mul hnn, one_div, inv_mul_cancel₀ hd, Real.rpow_one] at this
  rw [div_le_iff₀ hk] at h2
  have hx' : x ^ k = x ^ (k - m) * x ^ m := by rw [← pow_add]; congr 1; omega
  rw [le_div_iff₀ (by positivity), hx']
  have := mul_le_mul_of_nonneg_right h2 (pow_pos hx m).le
  nlinarith

theorem pairBound_pos {n : ℕ} {f : Arr ℝ n} {o m k t : ℕ} (hm : sig f o m < 0)
    (hk : 0 < sig f o k) : 0 < pairBound f m k t := by
  unfold pairBound
  apply Real.rpow_pos_of_pos
  rw [mul_div_assoc, ratio_eq (o := o)]
  have : sig f o m / sig f o k < 0 := div_neg_of_neg_of_pos hm hk
  nlinarith [pow_pos (show (0 : ℝ) < 2 by norm_num) t]

theorem tm_le {n : ℕ} (f : Arr ℝ n) (o : ℕ) {x : ℝ} (hx : 0 < x) {k : ℕ} (hk : 0 < sig f o k)
    (t : ℕ) : sig f o k * x ^ k * (1 - 2 / 2 ^ (t + 1)) =
      sig f o k * x ^ k * (1 - 2 / 2 ^ t) + sig f o k * x ^ k / 2 ^ t := by
  rw [pow_succ]; field_simp; ring

/-- The loop over `k`. -/
theorem lmqInner_spec {n : ℕ} (f : Arr ℝ n) {o m : ℕ} (hon : o ≤ n) (ho : coef f o ≠ 0) (hmo : m < o)
    (hm : sig f o m < 0) (t : Arr ℕ n) :
    ∃ t' u, lmqInner f m o t = some (t', some u) ∧ 0 < u ∧ (∀ k, k ≤ n → 1 ≤ tm t k → 1 ≤ tm t' k) ∧
      ∀ x, 0 < x → u ≤ x → used f o (tm t) x + -sig f o m * x ^ m ≤ used f o (tm t') x := by
  have key := forDown_inv (body := fun c (s : Arr ℕ n × Option ℝ) => do
    let k := m + c
    let fk ← rd f k
    let fm ← rd f m
    if fk ≠ 0 ∧ (decide (fk < 0)) ≠ decide (fm < 0) then
      let t ← rd s.1 k
      let temp := (-(2 : ℝ) ^ t * fm / fk) ^ ((1 : ℝ) / ((k - m : ℕ) : ℝ))
      let times ← wr s.1 k (t + 1)
      some (times, some (match s.2 with | none => temp | some u => min temp u))
    else some s)
    (fun c s => (∀ k, tm s.1 k = if m + c < k ∧ k ≤ o ∧ 0 < sig f o k then tm t k + 1 else tm t k) ∧
      ((s.2 = none ∧ ∀ k, m + c < k → k ≤ o → ¬ 0 < sig f o k) ∨
        ∃ k, m + c < k ∧ k ≤ o ∧ 0 < sig f o k ∧ s.2 = some (pairBound f m k (tm t k))))
    (o - m) (t, none)
    ⟨fun k => by rw [if_neg (by omega)], .inl ⟨rfl, fun k h1 h2 => by omega⟩⟩
    (by
      rintro c ⟨s1, s2⟩ hc ⟨h1, h2⟩
      have hk : m + (c + 1) ≤ n := by omega
      simp only [rd_coef f hk, rd_coef f (show m ≤ n by omega), Option.bind_eq_bind, Option.bind_some]
      by_cases hq : 0 < sig f o (m + (c + 1))
      · rw [if_pos ((same_iff hm).2 hq), rd_coef s1 hk, Option.bind_some]
        obtain ⟨t', e, ht'⟩ := wr_coef s1 (i := m + (c + 1)) (coef s1 (m + (c + 1)) + 1) hk
        rw [e, Option.bind_some]
        have hold : coef s1 (m + (c + 1)) = tm t (m + (c + 1)) := by
          have := h1 (m + (c + 1)); rw [if_neg (by omega)] at this; exact this
        refine ⟨_, rfl, fun k => ?_, .inr ?_⟩
        · show coef t' k = _
          rw [ht']
          by_cases hkk : k = m + (c + 1)
          · subst hkk
            rw [if_pos rfl, if_pos ⟨by omega, by omega, hq⟩, hold]
          · rw [if_neg hkk]
            have := h1 k
            rw [tm] at this
            rw [this]
            by_cases h3 : m + (c + 1) < k ∧ k ≤ o ∧ 0 < sig f o k
            · rw [if_pos h3, if_pos ⟨by omega, h3.2⟩]
            · rw [if_neg h3, if_neg (by rintro ⟨h4, h5, h6⟩; exact h3 ⟨by omega, h5, h6⟩)]
        · have hp : (-(2 : ℝ) ^ coef s1 (m + (c + 1)) * coef f m / coef f (m + (c + 1))) ^
              ((1 : ℝ) / ((m + (c + 1) - m : ℕ) : ℝ)) = pairBound f m (m + (c + 1)) (tm t (m + (c + 1))) := by
            rw [hold]; rfl
          rcases h2 with ⟨h2, -⟩ | ⟨k, h3, h4, h5, h6⟩
          · simp only at h2
            subst h2
            exact ⟨m + (c + 1), by omega, by omega, hq, by simp only [hp]⟩
          · simp only at h6
            subst h6
            simp only [hp]
            rcases min_choice (pairBound f m (m + (c + 1)) (tm t (m + (c + 1))))
              (pairBound f m k (tm t k)) with h | h
            · exact ⟨m + (c + 1), by omega, by omega, hq, by rw [h]⟩
            · exact ⟨k, by omega, h4, h5, by rw [h]⟩
      · rw [if_neg (fun h => hq ((same_iff hm).1 h))]
        refine ⟨_, rfl, fun k => ?_, ?_⟩
        · rw [h1]
          by_cases hkk : k = m + (c + 1)
          · subst hkk
            rw [if_neg (by omega), if_neg (by rintro ⟨-, -, h⟩; exact hq h)]
          · by_cases h3 : m + (c + 1) < k ∧ k ≤ o ∧ 0 < sig f o k
            · rw [if_pos h3, if_pos ⟨by omega, h3.2⟩]
            · rw [if_neg h3, if_neg (by rintro ⟨h4, h5, h6⟩; exact h3 ⟨by omega, h5, h6⟩)]
        · rcases h2 with ⟨h2, h3⟩ | ⟨k, h3, h4, h5, h6⟩
          · left
            refine ⟨h2, fun k h4 h5 => ?_⟩
            by_cases hkk : k = m + (c + 1)
            · subst hkk; exact hq
            · exact h3 k (by omega) h5
          · exact .inr ⟨k, by omega, h4, h5, h6⟩)
  obtain ⟨⟨t', ou⟩, e, h1, h2⟩ := key
  have hoo := sig_pos ho
  rcases h2 with ⟨-, h2⟩ | ⟨k, h3, h4, h5, h6⟩
  · exact absurd hoo (h2 o (by omega) (le_refl o))
  simp only at h6 h1
  subst h6
  refine ⟨t', _, e, pairBound_pos hm h5, fun k hk h => ?_, fun x hx hux => ?_⟩
  · rw [h1]; split <;> omega
  · have hb := pairBound_spec hm h5 (show m < k by omega) hx hux
    have hkn : k ∈ range (n + 1) := mem_range.2 (by omega)
    unfold used
    rw [← add_sum_erase _ _ hkn, ← add_sum_erase _ (fun k => if 0 < sig f o k then
      sig f o k * x ^ k * (1 - 2 / 2 ^ tm t' k) else 0) hkn]
    have hterm : (if 0 < sig f o k then sig f o k * x ^ k * (1 - 2 / 2 ^ tm t k) else 0) +
        -sig f o m * x ^ m ≤ if 0 < sig f o k then sig f o k * x ^ k * (1 - 2 / 2 ^ tm t' k) else 0 := by
      rw [if_pos h5, if_pos h5, h1, if_pos ⟨by omega, h4, h5⟩, tm_le f o hx h5]
      linarith
    have hrest : ∑ i ∈ (range (n + 1)).erase k,
        (if 0 < sig f o i then sig f o i * x ^ i * (1 - 2 / 2 ^ tm t i) else 0) ≤
        ∑ i ∈ (range (n + 1)).erase k,
        (if 0 < sig f o i then sig f o i * x ^ i * (1 - 2 / 2 ^ tm t' i) else 0) := by
      apply sum_le_sum
      intro i _
      split
      · next hi =>
        rw [h1]
        split
        · rw [tm_le f o hx hi]
          have : 0 ≤ sig f o i * x ^ i / 2 ^ tm t i := by positivity
          linarith
        · exact le_refl _
      · exact le_refl _
    linarith

theorem realOrder_spec {n : ℕ} (f : Arr ℝ n) : ∀ i, i ≤ n → ∃ o, realOrder f i = some o ∧ o ≤ i ∧
    (∀ j, o < j → j ≤ i → coef f j = 0) ∧ (o = 0 ∨ coef f o ≠ 0) := by
  intro i
  induction i with
  | zero => intro _; exact ⟨0, rfl, le_refl _, by omega, .inl rfl⟩
  | succ i ih =>
    intro hi
    rw [realOrder, rd_coef f hi]
    simp only [Option.bind_eq_bind, Option.bind_some]
    by_cases h : coef f (i + 1) = 0
    · rw [if_pos h]
      obtain ⟨o, e, h1, h2, h3⟩ := ih (by omega)
      refine ⟨o, e, by omega, fun j hj hj' => ?_, h3⟩
      by_cases hji : j = i + 1
      · rw [hji, h]
      · exact h2 j hj (by omega)
    · rw [if_neg h]
      exact ⟨i + 1, rfl, le_refl _, by omega, .inr h⟩

theorem lmqOuter_spec {n : ℕ} (f : Arr ℝ n) {o : ℕ} (hon : o ≤ n) (ho : coef f o ≠ 0)
    (hz : ∀ j, o < j → coef f j = 0) :
    ∃ t u, lmqOuter f o = some (t, some u) ∧ 0 ≤ u ∧ (∀ k, k ≤ n → 1 ≤ tm t k) ∧
      ((∃ i, sig f o i < 0) → 0 < u) ∧ ∀ x, 0 < x → u ≤ x → negs f o 0 x ≤ used f o (tm t) x := by
  have key := forDown_inv (body := fun c (s : Arr ℕ n × Option ℝ) => do
    let m := c - 1
    let fm ← rd f m
    let fo ← rd f o
    if fm ≠ 0 ∧ (decide (fm < 0)) ≠ decide (fo < 0) then
      let r ← lmqInner f m o s.1
      some (r.1, match r.2, s.2 with
        | some t, some u => some (max t u)
        | _, _ => none)
    else some s)
    (fun c s => ∃ u, s.2 = some u ∧ 0 ≤ u ∧ (∀ k, k ≤ n → 1 ≤ tm s.1 k) ∧
      ((∃ i, c ≤ i ∧ sig f o i < 0) → 0 < u) ∧ ∀ x, 0 < x → u ≤ x → negs f o c x ≤ used f o (tm s.1) x)
    o ((fun _ => 1), some 0)
    ⟨0, rfl, le_refl _, fun k hk => by simp [tm, coef, show k < n + 1 by omega], (by
      rintro ⟨i, h1, h2⟩
      exfalso
      by_cases hi : i = o
      · subst hi; linarith [sig_pos ho]
      · unfold sig at h2
        rw [hz i (by omega)] at h2
        simp at h2), fun x hx _ => by
      have hn : negs f o o x = 0 := by
        apply sum_eq_zero
        intro i _
        rw [if_neg]
        rintro ⟨h1, h2⟩
        by_cases hi : i = o
        · subst hi; linarith [sig_pos ho]
        · unfold sig at h2
          rw [hz i (by omega)] at h2
          simp at h2
      have hu : used f o (tm (fun _ => 1 : Arr ℕ n)) x = 0 := by
        apply sum_eq_zero
        intro i hi
        have := mem_range.1 hi
        have ht : tm (fun _ => 1 : Arr ℕ n) i = 1 := by simp [tm, coef, this]
        rw [ht]; norm_num
      simp only
      rw [hn, hu]⟩
    (by
      rintro c ⟨t, ou⟩ hc ⟨u, h1, h2, h3, hp, h4⟩
      simp only at h1
      subst h1
      simp only [Nat.add_sub_cancel, rd_coef f (show c ≤ n by omega), rd_coef f hon,
        Option.bind_eq_bind, Option.bind_some]
      have hneg : ∀ x, negs f o c x = negs f o (c + 1) x + if sig f o c < 0 then -sig f o c * x ^ c else 0 := by
        intro x
        have hcm : c ∈ range (n + 1) := mem_range.2 (by omega)
        unfold negs
        rw [← add_sum_erase _ _ hcm, ← add_sum_erase _ (fun i => if c + 1 ≤ i ∧ sig f o i < 0 then
          -sig f o i * x ^ i else 0) hcm]
        have e1 : ∑ i ∈ (range (n + 1)).erase c, (if c ≤ i ∧ sig f o i < 0 then -sig f o i * x ^ i else 0) =
            ∑ i ∈ (range (n + 1)).erase c, (if c + 1 ≤ i ∧ sig f o i < 0 then -sig f o i * x ^ i else 0) := by
          apply sum_congr rfl
          intro i hi
          have : i ≠ c := (mem_erase.1 hi).1
          have : c ≤ i ↔ c + 1 ≤ i := by omega
          simp only [this]
        rw [e1, if_neg (show ¬ (c + 1 ≤ c ∧ sig f o c < 0) by omega)]
        by_cases hs : sig f o c < 0
        · rw [if_pos ⟨le_refl c, hs⟩, if_pos hs]; ring
        · rw [if_neg (fun h => hs h.2), if_neg hs]; ring
      by_cases hs : sig f o c < 0
      · rw [if_pos ((opp_iff ho).2 hs)]
        obtain ⟨t', u', e, h5, h6, h7⟩ := lmqInner_spec f hon ho (show c < o by omega) hs t
        rw [e, Option.bind_some]
        refine ⟨_, rfl, max u' u, rfl, le_max_of_le_right h2, fun k hk => h6 k hk (h3 k hk),
          fun _ => lt_max_of_lt_left h5, ?_⟩
        intro x hx hux
        rw [hneg, if_pos hs]
        have a := h4 x hx ((le_max_right _ _).trans hux)
        have b := h7 x hx ((le_max_left _ _).trans hux)
        simp only at a b ⊢
        linarith
      · rw [if_neg (fun h => hs ((opp_iff ho).1 h))]
        refine ⟨_, rfl, u, rfl, h2, h3, ?_, fun x hx hux => ?_⟩
        · rintro ⟨i, h5, h6⟩
          refine hp ⟨i, ?_, h6⟩
          by_contra h7
          obtain rfl : i = c := by omega
          exact hs h6
        rw [hneg, if_neg hs, add_zero]
        exact h4 x hx hux)
  obtain ⟨⟨t, ou⟩, e, u, h1, h2, h3, hp, h4⟩ := key
  simp only at h1
  subst h1
  exact ⟨t, u, e, h2, h3, fun ⟨i, hi⟩ => hp ⟨i, Nat.zero_le _, hi⟩, h4⟩

theorem lmqUpper_spec {n : ℕ} (f : Arr ℝ n) (hf : f ≠ 0) :
    ∃ u : ℝ, lmqUpper f = some (some u) ∧ 0 ≤ u ∧ ((∃ i j, coef f i * coef f j < 0) → 0 < u) ∧
      ∀ x, 0 < x → value f x = 0 → x < u := by
  obtain ⟨o, eo, ho1, ho2, ho3⟩ := realOrder_spec f n (le_refl n)
  have hz : ∀ j, o < j → coef f j = 0 := fun j hj => by
    by_cases h : j ≤ n
    · exact ho2 j hj h
    · exact coef_gt f (by omega)
  have ho : coef f o ≠ 0 := by
    rcases ho3 with h | h
    · intro h0
      apply hf
      apply arr_ext
      intro i hi
      rw [show coef (0 : Arr ℝ n) i = 0 by unfold coef; split <;> rfl]
      by_cases hi0 : i = 0
      · rw [hi0, ← h, h0]
      · exact hz i (by omega)
    · exact h
  obtain ⟨t, u, e, h1, h2, hp, h3⟩ := lmqOuter_spec f ho1 ho hz
  refine ⟨u, by simp [lmqUpper, eo, e], h1, ?_, fun x hx hroot => ?_⟩
  · rintro ⟨i, j, hij⟩
    apply hp
    by_contra hno
    push Not at hno
    have hi := hno i
    have hj := hno j
    unfold sig at hi hj
    split at hi
    · next h => rw [if_pos h] at hj; nlinarith
    · next h => rw [if_neg h] at hj; nlinarith
  by_contra hux
  have hle := h3 x hx (not_lt.1 hux)
  -- the signed value is positive
  have hsum : ∑ i ∈ range (n + 1), sig f o i * x ^ i = 0 := by
    rw [value_eq, polyOf_eq_sum] at hroot
    simp only [eval_finsetSum, eval_mul, eval_C, eval_pow, eval_X] at hroot
    unfold sig
    split
    · simp only [neg_mul, sum_neg_distrib, hroot, neg_zero]
    · exact hroot
  have hsplit : ∑ i ∈ range (n + 1), sig f o i * x ^ i =
      (∑ i ∈ range (n + 1), if 0 < sig f o i then sig f o i * x ^ i else 0) - negs f o 0 x := by
    unfold negs
    rw [← sum_sub_distrib]
    apply sum_congr rfl
    intro i _
    rcases lt_trichotomy (sig f o i) 0 with h | h | h
    · rw [if_neg (by linarith), if_pos ⟨Nat.zero_le _, h⟩]; ring
    · rw [h]; simp
    · rw [if_pos h, if_neg (by rintro ⟨-, h'⟩; linarith)]; ring
  have hlt : used f o (tm t) x < ∑ i ∈ range (n + 1), if 0 < sig f o i then sig f o i * x ^ i else 0 := by
    unfold used
    have hstep : ∀ i ∈ range (n + 1), 0 < sig f o i →
        sig f o i * x ^ i * (1 - 2 / 2 ^ tm t i) < sig f o i * x ^ i := by
      intro i hi hp
      have : 0 < sig f o i * x ^ i := by positivity
      have h2 : (0 : ℝ) < 2 / 2 ^ tm t i := by positivity
      nlinarith
    apply sum_lt_sum
    · intro i hi
      split
      · next h => exact (hstep i hi h).le
      · exact le_refl _
    · refine ⟨o, mem_range.2 (by omega), ?_⟩
      rw [if_pos (sig_pos ho), if_pos (sig_pos ho)]
      exact hstep o (mem_range.2 (by omega)) (sig_pos ho)
  linarith

/-- **C30**: `LMQ_upper_bound` is finite and every positive root is below it. -/
theorem C30_upper {n : ℕ} (f : Arr ℝ n) (hf : f ≠ 0) :
    ∃ u : ℝ, lmqUpper f = some (some u) ∧ 0 ≤ u ∧ ∀ x, 0 < x → value f x = 0 → x < u := by
  obtain ⟨u, e, h0, -, h⟩ := lmqUpper_spec f hf
  exact ⟨u, e, h0, h⟩

/-- **C30**: `LMQ_upper_bound` is 0 ("no positive root") only if no two coefficients have opposite
signs, and then `LMQ_lower_bound` is finite. -/
theorem C30_zero {n : ℕ} (f : Arr ℝ n) (h : ∃ i j, coef f i * coef f j < 0) :
    lmqUpper f ≠ some (some 0) ∧ lmqLower f ≠ some none := by
  have hf : f ≠ 0 := by
    rintro rfl
    obtain ⟨i, j, h⟩ := h
    rw [show coef (0 : Arr ℝ n) i = 0 by unfold coef; split <;> rfl] at h
    simp at h
  constructor
  · obtain ⟨u, e, -, h1, -⟩ := lmqUpper_spec f hf
    rw [e]
    intro h2
    simp only [Option.some.injEq] at h2
    exact (h1 h).ne' h2
  · have hr : revArr f ≠ 0 := by
      intro h
      apply hf
      funext i
      have := congrFun h i.rev
      simpa [revArr] using this
    obtain ⟨u, e, -, h1, -⟩ := lmqUpper_spec (revArr f) hr
    have e' : lmqUpper (fun i => f i.rev : Arr ℝ n) = some (some u) := e
    have hu : 0 < u := by
      apply h1
      obtain ⟨i, j, h⟩ := h
      have hle : ∀ i, coef f i ≠ 0 → i ≤ n := fun i hi => by
        by_contra hc; exact hi (coef_gt f (by omega))
      have hi := hle i (fun hc => by rw [hc] at h; simp at h)
      have hj := hle j (fun hc => by rw [hc] at h; simp at h)
      refine ⟨n - i, n - j, ?_⟩
      rw [coef_revArr f (by omega), coef_revArr f (by omega), show n - (n - i) = i by omega,
        show n - (n - j) = j by omega]
      exact h
    rw [lmqLower, e']
    simp [hu.ne']

/-- **C30**: every positive root is above `LMQ_lower_bound`; if that is infinite (`none`) there is no
positive root. -/
theorem C30_lower {n : ℕ} (f : Arr ℝ n) (hf : f ≠ 0) :
    ∃ L : Option ℝ, lmqLower f = some L ∧ (∀ l, L = some l → 0 ≤ l) ∧
      ∀ x, 0 < x → value f x = 0 → ∃ l, L = some l ∧ l < x := by
  have hr : revArr f ≠ 0 := by
    intro h
    apply hf
    funext i
    have := congrFun h i.rev
    simpa [revArr] using this
  obtain ⟨u, e, h0, h⟩ := C30_upper (revArr f) hr
  have e' : lmqUpper (fun i => f i.rev : Arr ℝ n) = some (some u) := e
  refine ⟨_, by rw [lmqLower, e']; rfl, ?_, ?_⟩
  · intro l hl
    simp only at hl
    split at hl
    · simp at hl
    · simp only [Option.some.injEq] at hl
      rw [← hl]; positivity
  · intro x hx hroot
    have hx' : (0 : ℝ) < x⁻¹ := inv_pos.2 hx
    have hu := h x⁻¹ hx' (by
      rw [value_eq, eval_revArr f _ hx'.ne', inv_inv, ← value_eq, hroot, mul_zero])
    have hu0 : 0 < u := hx'.trans hu
    refine ⟨1 / u, by simp [hu0.ne'], ?_⟩
    rw [div_lt_iff₀ hu0]
    have := mul_lt_mul_of_pos_left hu hx
    rwa [mul_inv_cancel₀ hx.ne'] at this

-- x² - 3x + 2
example : ∃ u : ℝ, lmqUpper (![2, -3, 1] : Arr ℝ 2) = some (some u) ∧ 2 < u := by
  obtain ⟨u, e, -, h⟩ := C30_upper (![2, -3, 1] : Arr ℝ 2) (fun h => by simpa using congrFun h 2)
  exact ⟨u, e, h 2 (by norm_num) (by norm_num [value, Fin.sum_univ_succ])⟩

end Stator.Pol
