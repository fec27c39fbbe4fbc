import Verif.Poly.VasProps

/-! # Property C32: VCA root isolation -/

namespace Stator.Pol

open Polynomial

/-- A multiple of a power of 1/2: the points where the routine bisects. -/
def Dyadic' (x : ℝ) : Prop := ∃ k m : ℕ, x = k / 2 ^ m

/-- What a run of the worker guarantees; `P` says where the roots are. -/
structure VcaOk (P : ℝ → Prop) (L : List (ℝ × ℝ)) : Prop where
  cover : ∀ x, 0 < x → x < 1 → P x → (∃ p ∈ L, p.1 < x ∧ x < p.2) ∨ Dyadic' x
  sound : ∀ p ∈ L, 0 ≤ p.1 ∧ p.2 ≤ 1 ∧ ∃! x, (p.1 < x ∧ x < p.2) ∧ P x
  sorted : L.Pairwise fun p q => p.2 ≤ q.1
  len : ∃ T : Finset ℝ, T.card = L.length ∧ ∀ x ∈ T, 0 < x ∧ x < 1 ∧ P x

theorem vcaScale_spec {n : ℕ} (f : Arr ℝ n) :
    ∃ g, vcaScale f = some g ∧ polyOf g = C (2 ^ n) * (polyOf f).comp (C (1 / 2) * X) := by
  obtain ⟨g, e, h⟩ := forUp_inv (lo := 0) (body := fun i p => do
      let v ← rd p i
      wr p i (v * 2 ^ (n - i)))
    (fun c (p : Arr ℝ n) => ∀ j, coef p j = if j < c then coef f j * 2 ^ (n - j) else coef f j)
    (n + 1) f (fun j => by rw [if_neg (by omega)])
    (by
      intro c p hc h
      rw [Nat.zero_add]
      obtain ⟨q, eq, hq⟩ := wr_coef p (i := c) (coef p c * 2 ^ (n - c)) (by omega)
      refine ⟨q, by rw [rd_coef p (show c ≤ n by omega)]; simpa using eq, fun j => ?_⟩
      rw [hq]
      by_cases hj : j = c
      · subst hj
        rw [if_pos rfl, if_pos (by omega), h, if_neg (by omega)]
      · rw [if_neg hj, h]
        by_cases h1 : j < c
        · rw [if_pos h1, if_pos (by omega)]
        · rw [if_neg h1, if_neg (by omega)])
  refine ⟨g, e, polyOf_eq fun i => ?_⟩
  rw [h, coeff_C_mul, comp_C_mul_X_coeff, polyOf_coeff]
  by_cases hi : i < n + 1
  · rw [if_pos hi]
    have : (2 : ℝ) ^ n = 2 ^ (n - i) * 2 ^ i := by rw [← pow_add]; congr 1; omega
    rw [this, one_div, inv_pow]
    field_simp
  · rw [if_neg hi, coef_gt f (by omega)]; simp

theorem vcaScale_val {n : ℕ} (f : Arr ℝ n) :
    ∃ g, vcaScale f = some g ∧ ∀ x, (value g x = 0 ↔ value f (x / 2) = 0) := by
  obtain ⟨g, e, h⟩ := vcaScale_spec f
  refine ⟨g, e, fun x => ?_⟩
  rw [value_eq, value_eq, h, eval_mul, eval_C, eval_comp, eval_mul, eval_C, eval_X,
    show 1 / 2 * x = x / 2 by ring]
  simp

theorem Dyadic'.left {x : ℝ} (h : Dyadic' (2 * x)) : Dyadic' x := by
  obtain ⟨k, m, e⟩ := h
  exact ⟨k, m + 1, by rw [pow_succ]; field_simp at e ⊢; linarith⟩

theorem Dyadic'.right {x : ℝ} (h : Dyadic' (2 * x - 1)) : Dyadic' x := by
  obtain ⟨k, m, e⟩ := h
  exact ⟨k + 2 ^ m, m + 1, by rw [pow_succ]; push_cast; field_simp at e ⊢; linarith⟩

theorem VcaOk.split {P : ℝ → Prop} {L1 L2 : List (ℝ × ℝ)}
    (hA : VcaOk (fun x => P (x / 2)) L1) (hB : VcaOk (fun x => P ((x + 1) / 2)) L2) :
    VcaOk P (L1.map (fun b => (b.1 / 2, b.2 / 2)) ++
      L2.map (fun b => (b.1 / 2 + 1 / 2, b.2 / 2 + 1 / 2))) := by
  have sA : ∀ p ∈ L1.map (fun b => (b.1 / 2, b.2 / 2)), 0 ≤ p.1 ∧ p.2 ≤ 1 / 2 ∧
      ∃! x, (p.1 < x ∧ x < p.2) ∧ P x := by
    intro p hp
    obtain ⟨q, hq, rfl⟩ := List.mem_map.1 hp
    obtain ⟨h1, h2, x, ⟨⟨h3, h4⟩, h5⟩, h6⟩ := hA.sound q hq
    refine ⟨by simp only; linarith, by simp only; linarith, x / 2, ⟨⟨by simp only; linarith, by simp only; linarith⟩, h5⟩, ?_⟩
    rintro y ⟨⟨h7, h8⟩, h9⟩
    simp only at h7 h8
    have := h6 (2 * y) ⟨⟨by linarith, by linarith⟩, by simpa using h9⟩
    linarith
  have sB : ∀ p ∈ L2.map (fun b => (b.1 / 2 + 1 / 2, b.2 / 2 + 1 / 2)), 1 / 2 ≤ p.1 ∧ p.2 ≤ 1 ∧
      ∃! x, (p.1 < x ∧ x < p.2) ∧ P x := by
    intro p hp
    obtain ⟨q, hq, rfl⟩ := List.mem_map.1 hp
    obtain ⟨h1, h2, x, ⟨⟨h3, h4⟩, h5⟩, h6⟩ := hB.sound q hq
    refine ⟨by simp only; linarith, by simp only; linarith, (x + 1) / 2, ⟨⟨by simp only; linarith, by simp only; linarith⟩, h5⟩, ?_⟩
    rintro y ⟨⟨h7, h8⟩, h9⟩
    simp only at h7 h8
    have := h6 (2 * y - 1) ⟨⟨by linarith, by linarith⟩, by simpa using h9⟩
    linarith
  refine ⟨fun x hx0 hx1 hx => ?_, fun p hp => ?_, ?_, ?_⟩
  · rcases lt_trichotomy x (1 / 2) with h | h | h
    · rcases hA.cover (2 * x) (by linarith) (by linarith) (by simpa using hx) with ⟨p, hp, h1, h2⟩ | h1
      · exact .inl ⟨_, List.mem_append_left _ (List.mem_map.2 ⟨p, hp, rfl⟩), by simp only; linarith,
          by simp only; linarith⟩
      · exact .inr h1.left
    · exact .inr ⟨1, 1, by rw [h]; norm_num⟩
    · rcases hB.cover (2 * x - 1) (by linarith) (by linarith) (by simpa using hx) with ⟨p, hp, h1, h2⟩ | h1
      · exact .inl ⟨_, List.mem_append_right _ (List.mem_map.2 ⟨p, hp, rfl⟩), by simp only; linarith,
          by simp only; linarith⟩
      · exact .inr h1.right
  · rcases List.mem_append.1 hp with hp | hp
    · obtain ⟨h1, h2, h3⟩ := sA p hp
      exact ⟨h1, by linarith, h3⟩
    · obtain ⟨h1, h2, h3⟩ := sB p hp
      exact ⟨by linarith, h2, h3⟩
  · rw [List.pairwise_append]
    refine ⟨?_, ?_, fun p hp q hq => (sA p hp).2.1.trans (sB q hq).1⟩
    · rw [List.pairwise_map]
      exact hA.sorted.imp fun h => by simp only; linarith
    · rw [List.pairwise_map]
      exact hB.sorted.imp fun h => by simp only; linarith
  · obtain ⟨T1, t1, t2⟩ := hA.len
    obtain ⟨T2, u1, u2⟩ := hB.len
    have hd : Disjoint (T1.image (· / 2)) (T2.image fun x => (x + 1) / 2) := by
      rw [Finset.disjoint_left]
      intro z h1 h2
      obtain ⟨x, hx, rfl⟩ := Finset.mem_image.1 h1
      obtain ⟨y, hy, e⟩ := Finset.mem_image.1 h2
      linarith [(t2 x hx).2.1, (u2 y hy).1]
    refine ⟨T1.image (· / 2) ∪ T2.image fun x => (x + 1) / 2, ?_, fun x hx => ?_⟩
    · rw [Finset.card_union_of_disjoint hd, Finset.card_image_of_injective,
        Finset.card_image_of_injective, t1, u1]
      · simp
      · intro a b h; simp only at h; linarith
      · intro a b h; simp only at h; linarith
    · rcases Finset.mem_union.1 hx with hx | hx
      · obtain ⟨x, hx', rfl⟩ := Finset.mem_image.1 hx
        obtain ⟨h1, h2, h3⟩ := t2 x hx'
        exact ⟨by linarith, by linarith, h3⟩
      · obtain ⟨x, hx', rfl⟩ := Finset.mem_image.1 hx
        obtain ⟨h1, h2, h3⟩ := u2 x hx'
        exact ⟨by linarith, by linarith, h3⟩

theorem roots_card {n : ℕ} {f : Arr ℝ n} (hf : f ≠ 0) {T : Finset ℝ} (h : ∀ x ∈ T, value f x = 0) :
    T.card ≤ n := by
  have h1 : T ⊆ (polyOf f).roots.toFinset := by
    intro x hx
    rw [Multiset.mem_toFinset, mem_roots', IsRoot, ← value_eq]
    exact ⟨polyOf_ne_zero hf, h x hx⟩
  exact (Finset.card_le_card h1).trans ((Multiset.toFinset_card_le _).trans
    ((card_roots' _).trans (polyOf_degree f)))

theorem ne_zero_of_roots {n : ℕ} {f g : Arr ℝ n} (hf : f ≠ 0) {a b : ℝ} (ha : a ≠ 0)
    (h : ∀ x, value g x = 0 ↔ value f (a * x + b) = 0) : g ≠ 0 := by
  rintro rfl
  apply polyOf_ne_zero hf
  refine Polynomial.funext fun x => ?_
  have := (h ((x - b) / a)).1 (by simp [value])
  rw [mul_div_cancel₀ _ ha, sub_add_cancel, value_eq] at this
  rw [this, Polynomial.eval_zero]

theorem vcaWorker_spec {n : ℕ} : ∀ (fuel : ℕ) (f : Arr ℝ n), f ≠ 0 →
    vcaWorker fuel f ≠ .bad ∧ ∀ L, vcaWorker fuel f = .ok L → VcaOk (fun x => value f x = 0) L := by
  intro fuel
  induction fuel with
  | zero => intro f _; exact ⟨by simp [vcaWorker], by simp [vcaWorker]⟩
  | succ fuel ih =>
    intro f hf
    obtain ⟨v, ev, -⟩ := C31_budan f hf
    rw [vcaWorker, ev]
    simp only [Out.lift, Out.bind]
    match v, ev with
    | 0, ev =>
      refine ⟨by simp, fun L hL => ?_⟩
      cases hL
      exact ⟨fun x h0 h1 h => absurd h (C31_budan_zero f hf ev x h0 h1), by simp, by simp, ∅, by simp,
        by simp⟩
    | 1, ev =>
      refine ⟨by simp, fun L hL => ?_⟩
      obtain ⟨x0, ⟨⟨h0, h1⟩, hr⟩, hu⟩ := C31_budan_one f hf ev
      have hn : 1 ≤ n := by
        have := roots_card hf (T := {x0}) (by simpa using hr)
        simpa using this
      rw [List.take_of_length_le (by simpa using hn)] at hL
      cases hL
      refine ⟨fun x h2 h3 h => .inl ⟨_, List.mem_singleton_self _, h2, h3⟩, fun p hp => ?_, by simp,
        {x0}, by simp, fun x hx => ?_⟩
      · rw [List.mem_singleton] at hp
        subst hp
        exact ⟨le_refl _, le_refl _, x0, ⟨⟨h0, h1⟩, hr⟩, hu⟩
      · rw [Finset.mem_singleton] at hx
        subst hx
        exact ⟨h0, h1, hr⟩
    | v + 2, ev =>
      obtain ⟨p1, e1, h1⟩ := vcaScale_val f
      obtain ⟨p2, e2, h2⟩ := C25_shift_one p1
      have h2' : ∀ x, value p2 x = 0 ↔ value f ((x + 1) / 2) = 0 := fun x => by rw [h2, h1]
      rw [e1]
      simp only [e2]
      obtain ⟨i1, i2⟩ := ih p1 (ne_zero_of_roots hf (a := 1 / 2) (b := 0) (by norm_num) fun x => by
        rw [h1]; ring_nf)
      obtain ⟨j1, j2⟩ := ih p2 (ne_zero_of_roots hf (a := 1 / 2) (b := 1 / 2) (by norm_num) fun x => by
        rw [h2']; ring_nf)
      cases er1 : vcaWorker fuel p1 with
      | bad => exact absurd er1 i1
      | more => exact ⟨by simp, by simp⟩
      | ok r1 =>
        simp only
        cases er2 : vcaWorker fuel p2 with
        | bad => exact absurd er2 j1
        | more => exact ⟨by simp, by simp⟩
        | ok r2 =>
          simp only
          have a1 := i2 r1 er1
          have a2 := j2 r2 er2
          simp only [h1] at a1
          simp only [h2'] at a2
          have key := VcaOk.split (P := fun x => value f x = 0) a1 a2
          obtain ⟨T, t1, t2⟩ := key.len
          have hlen := roots_card hf (T := T) fun x hx => (t2 x hx).2.2
          rw [t1, List.length_append] at hlen
          rw [svPushAll_eq n _ _ hlen]
          refine ⟨by simp, fun L hL => ?_⟩
          cases hL
          exact key

/-- **C32**: if `VCA_real_root_bounds` returns, its intervals are disjoint and in order, each contains
exactly one root, and there are at most `Order` of them (no access is out of bounds); a positive root is
in one of them unless it is `k/2^m` of the upper bound, that is unless it may coincide with a
bisection point. -/
theorem C32_vca {n : ℕ} (f : Arr ℝ n) (hf : f ≠ 0) (fuel : ℕ) :
    vca fuel f ≠ .bad ∧ ∀ L, vca fuel f = .ok L →
      (∀ x, 0 < x → value f x = 0 → (∃ p ∈ L, p.1 < x ∧ x < p.2) ∨
        ∃ u, lmqUpper f = some (some u) ∧ ∃ k m : ℕ, x = u * (k / 2 ^ m)) ∧
      (∀ p ∈ L, 0 ≤ p.1 ∧ ∃! x, (p.1 < x ∧ x < p.2) ∧ value f x = 0) ∧
      (L.Pairwise fun p q => p.2 ≤ q.1) ∧ L.length ≤ n := by
  obtain ⟨u, eu, hu0, hu⟩ := C30_upper f hf
  rw [vca, eu]
  simp only [Out.lift, Out.bind]
  by_cases h0 : u = 0
  · subst h0
    rw [if_pos rfl]
    refine ⟨by simp, fun L hL => ?_⟩
    cases hL
    refine ⟨fun x hx h => ?_, by simp, by simp, by simp⟩
    have := hu x hx h
    linarith
  rw [if_neg h0]
  have hu0 : 0 < u := lt_of_le_of_ne hu0 (Ne.symm h0)
  obtain ⟨g, eg, hg⟩ := C25_scale f u
  rw [eg]
  simp only
  obtain ⟨i1, i2⟩ := vcaWorker_spec fuel g (ne_zero_of_roots hf (a := u) (b := 0) hu0.ne' fun x => by
    rw [hg, add_zero])
  cases er : vcaWorker fuel g with
  | bad => exact absurd er i1
  | more => exact ⟨by simp, by simp⟩
  | ok r =>
    simp only
    refine ⟨by simp, fun L hL => ?_⟩
    simp only [Out.ok.injEq] at hL
    subst hL
    have ok := i2 r er
    simp only [hg] at ok
    refine ⟨fun x hx h => ?_, fun p hp => ?_, ?_, ?_⟩
    · have hxu := hu x hx h
      have e : u * (x / u) = x := mul_div_cancel₀ _ hu0.ne'
      rcases ok.cover (x / u) (div_pos hx hu0) ((div_lt_one hu0).2 hxu) (by rw [e]; exact h) with
        ⟨p, hp, h1, h2⟩ | ⟨k, m, h1⟩
      · refine .inl ⟨_, List.mem_map.2 ⟨p, hp, rfl⟩, ?_, ?_⟩
        · rwa [lt_div_iff₀ hu0] at h1
        · rwa [div_lt_iff₀ hu0] at h2
      · exact .inr ⟨u, rfl, k, m, by rw [← h1, e]⟩
    · obtain ⟨q, hq, rfl⟩ := List.mem_map.1 hp
      obtain ⟨h1, h2, x, ⟨⟨h3, h4⟩, h5⟩, h6⟩ := ok.sound q hq
      refine ⟨mul_nonneg h1 hu0.le, u * x, ⟨⟨?_, ?_⟩, h5⟩, ?_⟩
      · simp only; rw [mul_comm]; exact mul_lt_mul_of_pos_left h3 hu0
      · simp only; rw [mul_comm q.2]; exact mul_lt_mul_of_pos_left h4 hu0
      · rintro y ⟨⟨h7, h8⟩, h9⟩
        have e : u * (y / u) = y := mul_div_cancel₀ _ hu0.ne'
        have := h6 (y / u) ⟨⟨(lt_div_iff₀ hu0).2 h7, (div_lt_iff₀ hu0).2 h8⟩, by rw [e]; exact h9⟩
        rw [← this, e]
    · rw [List.pairwise_map]
      exact ok.sorted.imp fun h => mul_le_mul_of_nonneg_right h hu0.le
    · rw [List.length_map]
      obtain ⟨T, t1, t2⟩ := ok.len
      rw [← t1, ← Finset.card_image_of_injective T (f := fun x => u * x) (fun a b h =>
        mul_left_cancel₀ hu0.ne' h)]
      apply roots_card hf
      intro x hx
      obtain ⟨y, hy, rfl⟩ := Finset.mem_image.1 hx
      exact (t2 y hy).2.2

/-! ## Multiple roots -/

theorem vca_not_ok_of_double {n : ℕ} : ∀ (fuel : ℕ) (f : Arr ℝ n) (x : ℝ), 0 < x → x < 1 →
    ¬ Dyadic' x → 2 ≤ (polyOf f).rootMultiplicity x → ∀ L, vcaWorker fuel f ≠ .ok L := by
  intro fuel
  induction fuel with
  | zero => intro f x _ _ _ _ L; simp [vcaWorker]
  | succ fuel ih =>
    intro f x hx0 hx1 hd hm L
    have hf : f ≠ 0 := by
      rintro rfl
      rw [show polyOf (0 : Arr ℝ n) = 0 from polyOf_zeros n] at hm
      simp at hm
    obtain ⟨v, ev, hv, -⟩ := C31_budan f hf
    have hv2 : 2 ≤ v := le_trans (le_trans hm
      (mult_le_countP _ (fun x => 0 < x ∧ x < 1) ⟨hx0, hx1⟩)) hv
    rw [vcaWorker, ev]
    simp only [Out.lift, Out.bind]
    match v, hv2 with
    | v + 2, _ =>
      obtain ⟨p1, e1, h1⟩ := vcaScale_spec f
      obtain ⟨p2, e2, h2⟩ := shiftOne_spec p1
      have m1 : ∀ y, (polyOf p1).rootMultiplicity y = (polyOf f).rootMultiplicity (y / 2) := by
        intro y
        have hne : (polyOf f).comp (C (1 / 2) * X) ≠ 0 := by
          intro h0
          have h3 := (rootMultiplicity_linear (polyOf f) (1 / 2) 0 (2 * x) (by norm_num))
          rw [C_0, add_zero, add_zero, h0] at h3
          rw [show 1 / 2 * (2 * x) = x by ring] at h3
          simp only [rootMultiplicity_zero] at h3
          omega
        rw [h1, rootMultiplicity_mul (mul_ne_zero (by simp) hne), rootMultiplicity_C, zero_add]
        have := rootMultiplicity_linear (polyOf f) (1 / 2) 0 y (by norm_num)
        rw [C_0, add_zero, add_zero] at this
        rw [this]; congr 1; ring
      have m2 : ∀ y, (polyOf p2).rootMultiplicity y = (polyOf f).rootMultiplicity ((y + 1) / 2) := by
        intro y
        have := rootMultiplicity_linear (polyOf p1) 1 1 y one_ne_zero
        rw [C_1, one_mul, one_mul] at this
        rw [h2, C_1, this, m1]
      rw [e1]
      simp only [e2]
      rcases lt_trichotomy x (1 / 2) with h | h | h
      · have := ih p1 (2 * x) (by linarith) (by linarith) (fun h => hd h.left) (by
          rw [m1]; simpa using hm)
        cases er : vcaWorker fuel p1 with
        | ok r => exact absurd er (this r)
        | bad => simp
        | more => simp
      · exact absurd ⟨1, 1, by rw [h]; norm_num⟩ hd
      · have := ih p2 (2 * x - 1) (by linarith) (by linarith) (fun h => hd h.right) (by
          rw [m2]; simpa using hm)
        cases vcaWorker fuel p1 with
        | bad => simp
        | more => simp
        | ok r =>
          simp only
          cases er : vcaWorker fuel p2 with
          | ok r => exact absurd er (this r)
          | bad => simp
          | more => simp

/-- **C32**: with a multiple positive root, `VCA_real_root_bounds` does not terminate (in exact
arithmetic), unless the root is `k/2^m` of the upper bound: no amount of fuel is enough. -/
theorem C32_vca_multiple_root {n : ℕ} (f : Arr ℝ n) (hf : f ≠ 0) (x : ℝ) (hx : 0 < x)
    (hm : 2 ≤ (polyOf f).rootMultiplicity x)
    (hd : ¬ ∃ u, lmqUpper f = some (some u) ∧ ∃ k m : ℕ, x = u * (k / 2 ^ m)) (fuel : ℕ) :
    vca fuel f = .more := by
  have hb := (C32_vca f hf fuel).1
  have hno : ∀ L, vca fuel f ≠ .ok L := by
    intro L
    obtain ⟨u, eu, hu0, hu⟩ := C30_upper f hf
    have hroot : value f x = 0 := by
      rw [value_eq]
      by_contra hc
      rw [rootMultiplicity_eq_zero hc] at hm
      omega
    have hxu := hu x hx hroot
    have hu0 : 0 < u := by linarith
    rw [vca, eu]
    simp only [Out.lift, Out.bind]
    rw [if_neg hu0.ne']
    obtain ⟨g, eg, hg⟩ := scale_spec f u
    rw [eg]
    simp only
    have := vca_not_ok_of_double fuel g (x / u) (div_pos hx hu0) ((div_lt_one hu0).2 hxu)
      (fun ⟨k, m, h⟩ => hd ⟨u, eu, k, m, by rw [← h, mul_div_cancel₀ _ hu0.ne']⟩) (by
        have := rootMultiplicity_linear (polyOf f) u 0 (x / u) hu0.ne'
        rw [C_0, add_zero, add_zero, mul_div_cancel₀ _ hu0.ne'] at this
        rw [hg, this]; exact hm)
    cases er : vcaWorker fuel g with
    | ok r => exact absurd er (this r)
    | bad => simp
    | more => simp
  cases h : vca fuel f with
  | ok L => exact absurd h (hno L)
  | bad => exact absurd h hb
  | more => rfl

/-! ## A root at a bisection point is lost -/

theorem vca_step {n : ℕ} {fuel : ℕ} {f p1 p2 : Arr ℝ n} {v : ℕ} {r1 r2 : List (ℝ × ℝ)}
    (hb : budan f = some (v + 2)) (h1 : vcaScale f = some p1) (h2 : shiftOne p1 = some p2)
    (e1 : vcaWorker fuel p1 = .ok r1) (e2 : vcaWorker fuel p2 = .ok r2) :
    vcaWorker (fuel + 1) f = Out.lift (svPushAll n (r1.map fun b => (b.1 / 2, b.2 / 2))
        (r2.map fun b => (b.1 / 2 + 1 / 2, b.2 / 2 + 1 / 2))) := by
  rw [vcaWorker, hb]
  simp only [Out.lift, Out.bind, h1, h2, e1, e2]

theorem vca_zero {n : ℕ} {fuel : ℕ} {f : Arr ℝ n} (hb : budan f = some 0) :
    vcaWorker (fuel + 1) f = .ok [] := by
  rw [vcaWorker, hb]; rfl

theorem vca_one {n : ℕ} {fuel : ℕ} {f : Arr ℝ (n + 1)} (hb : budan f = some 1) :
    vcaWorker (fuel + 1) f = .ok [(0, 1)] := by
  rw [vcaWorker, hb]; simp [Out.lift, Out.bind]

/-- **C32 is false for VCA**: `x³ - 8x² + 19x - 12 = (x-1)(x-3)(x-4)` has three simple positive roots;
`VCA_real_root_bounds` returns two intervals, and 4 is in the interior of none. -/
theorem C32_vca_loses_root :
    vca 4 (![-12, 19, -8, 1] : Arr ℝ 3) = .ok [(0, 2), (2, 4)] ∧
      (∀ x, value (![-12, 19, -8, 1] : Arr ℝ 3) x = (x - 1) * (x - 3) * (x - 4)) := by
  have sc : ∀ a b c d : ℝ, vcaScale (![a, b, c, d] : Arr ℝ 3) = some ![8 * a, 4 * b, 2 * c, d] := by
    intro a b c d
    norm_num [vcaScale, forUp, rd, wr]
    funext i; fin_cases i <;> simp [Function.update] <;> ring
  have sh : ∀ a b c d : ℝ, shiftOne (![a, b, c, d] : Arr ℝ 3) =
      some ![a + b + c + d, b + 2 * c + 3 * d, c + 3 * d, d] := by
    intro a b c d
    norm_num [shiftOne, forDown, wr, zeros, rd]
    funext i; fin_cases i <;> simp [Function.update] <;> ring
  have iv : ∀ a b c d : ℝ, invertTaylorShift (![a, b, c, d] : Arr ℝ 3) =
      some ![d + c + b + a, c + 2 * b + 3 * a, b + 3 * a, a] := by
    intro a b c d
    norm_num [invertTaylorShift, forDown, wr, zeros, rd]
    funext i; fin_cases i <;> simp [Function.update] <;> ring
  have hu : lmqUpper (![-12, 19, -8, 1] : Arr ℝ 3) = some (some 16) := by
    norm_num [lmqUpper, realOrder, lmqOuter, lmqInner, forDown, rd, wr, Fin.ext_iff, Function.update]
  have hs : scale (![-12, 19, -8, 1] : Arr ℝ 3) 16 = some ![-12, 304, -2048, 4096] := by
    norm_num [scale, forUp, rd, wr]
    funext i; fin_cases i <;> simp [Function.update]
  have w3a : vcaWorker 1 (![-6144, 19456, -16384, 4096] : Arr ℝ 3) = .ok [(0, 1)] :=
    vca_one (by norm_num [budan, iv, descartes, forUp, rd, signOf])
  have w3b : vcaWorker 1 (![1024, -1024, -4096, 4096] : Arr ℝ 3) = .ok [(0, 1)] :=
    vca_one (by norm_num [budan, iv, descartes, forUp, rd, signOf])
  have w2a : vcaWorker 2 (![-768, 4864, -8192, 4096] : Arr ℝ 3) = .ok [(0, 1 / 2), (1 / 2, 1)] := by
    rw [vca_step (v := 0) (by norm_num [budan, iv, descartes, forUp, rd, signOf]) (by rw [sc])
      (by rw [sh]) (by norm_num; exact w3a) (by norm_num; exact w3b)]
    norm_num [svPushAll, svPush, Out.lift]
  have w2b : vcaWorker 2 (![0, 768, 4096, 4096] : Arr ℝ 3) = .ok [] :=
    vca_zero (by norm_num [budan, iv, descartes, forUp, rd, signOf])
  have w1a : vcaWorker 3 (![-96, 1216, -4096, 4096] : Arr ℝ 3) = .ok [(0, 1 / 4), (1 / 4, 1 / 2)] := by
    rw [vca_step (v := 1) (by norm_num [budan, iv, descartes, forUp, rd, signOf]) (by rw [sc])
      (by rw [sh]) (by norm_num; exact w2a) (by norm_num; exact w2b)]
    norm_num [svPushAll, svPush, Out.lift]
  have w1b : vcaWorker 3 (![1120, 5312, 8192, 4096] : Arr ℝ 3) = .ok [] :=
    vca_zero (by norm_num [budan, iv, descartes, forUp, rd, signOf])
  have w0 : vcaWorker 4 (![-12, 304, -2048, 4096] : Arr ℝ 3) = .ok [(0, 1 / 8), (1 / 8, 1 / 4)] := by
    rw [vca_step (v := 1) (by norm_num [budan, iv, descartes, forUp, rd, signOf]) (by rw [sc])
      (by rw [sh]) (by norm_num; exact w1a) (by norm_num; exact w1b)]
    norm_num [svPushAll, svPush, Out.lift]
  constructor
  · rw [vca, hu]
    norm_num [Out.lift, Out.bind, hs, w0]
  · intro x
    norm_num [value, Fin.sum_univ_succ]
    ring

end Stator.Pol
