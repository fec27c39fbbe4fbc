import Verif.Poly.Solve
import Verif.Poly.SturmProps
import Verif.Poly.LmqProps
import Verif.Poly.IsolateLemmas
import Verif.Num.BisectUnique

/-! # The Sturm root solver: lemmas -/

namespace Stator.Pol

open Polynomial

/-- `r` approximates `c` with relative error `δ`. -/
def Close (δ r c : ℝ) : Prop := |r - c| ≤ δ * |r|

/-- The distinct roots in `(a, b]`. -/
noncomputable def rin {n : ℕ} (f : Arr ℝ n) (a b : ℝ) : Multiset ℝ :=
  ((polyOf f).roots.toFinset.filter fun x => a < x ∧ x ≤ b).val

theorem mem_rin {n : ℕ} {f : Arr ℝ n} (hf : f ≠ 0) {a b x : ℝ} :
    x ∈ rin f a b ↔ value f x = 0 ∧ a < x ∧ x ≤ b := by
  unfold rin
  rw [Finset.mem_val, Finset.mem_filter, Multiset.mem_toFinset, mem_roots (polyOf_ne_zero hf), value_eq]
  rfl

theorem rin_nodup {n : ℕ} (f : Arr ℝ n) (a b : ℝ) : (rin f a b).Nodup := Finset.nodup _

theorem rin_split {n : ℕ} {f : Arr ℝ n} (hf : f ≠ 0) {a m b : ℝ} (h1 : a ≤ m) (h2 : m ≤ b) :
    rin f a b = rin f a m + rin f m b := by
  rw [Multiset.Nodup.ext (rin_nodup f a b)]
  · intro x
    rw [Multiset.mem_add, mem_rin hf, mem_rin hf, mem_rin hf]
    constructor
    · rintro ⟨h, h3, h4⟩
      rcases le_or_gt x m with h5 | h5
      · exact .inl ⟨h, h3, h5⟩
      · exact .inr ⟨h, h5, h4⟩
    · rintro (⟨h, h3, h4⟩ | ⟨h, h3, h4⟩)
      · exact ⟨h, h3, h4.trans h2⟩
      · exact ⟨h, lt_of_le_of_lt h1 h3, h4⟩
  · rw [Multiset.nodup_add]
    refine ⟨rin_nodup f a m, rin_nodup f m b, ?_⟩
    rw [Multiset.disjoint_left]
    intro x h3 h4
    rw [mem_rin hf] at h3 h4
    linarith [h3.2.2, h4.2.1]

theorem card_rin_le {n : ℕ} (f : Arr ℝ n) (a b : ℝ) : (rin f a b).card ≤ n := by
  unfold rin
  calc _ ≤ (polyOf f).roots.toFinset.card := Finset.card_filter_le _ _
    _ ≤ Multiset.card (polyOf f).roots := Multiset.toFinset_card_le _
    _ ≤ (polyOf f).natDegree := card_roots' _
    _ ≤ n := polyOf_degree f

/-- All positive roots are simple. -/
def SimplePos {n : ℕ} (f : Arr ℝ n) : Prop := ∀ x, 0 < x → value f x = 0 → deriv (value f) x ≠ 0

/-- The points at which the Sturm solver divides are `D`: no multiple positive root is in `D`, and if some positive root is in
`D`, then the graph nowhere touches the positive axis from below. -/
structure Tame {n : ℕ} (f : Arr ℝ n) (D : ℝ → Prop) : Prop where
  simple : ∀ x, 0 < x → value f x = 0 → D x → deriv (value f) x ≠ 0
  touch : ∀ x y, 0 < x → 0 < y → value f x = 0 → value f y = 0 → D x → ¬ IsLocalMax (value f) y
  mid : ∀ a b, D a → D b → D ((a + b) / 2)

theorem SimplePos.tame {n : ℕ} {f : Arr ℝ n} (h : SimplePos f) {D : ℝ → Prop} (hm : ∀ a b, D a → D b → D ((a + b) / 2)) :
    Tame f D :=
  ⟨fun x h1 h2 _ => h x h1 h2, fun _ y _ h2 _ h4 _ h6 => h y h2 h4 h6.deriv_eq_zero, hm⟩

theorem chain_roots {n : ℕ} {f : Arr ℝ n} (hf : f ≠ 0) {D : ℝ → Prop} (hs : Tame f D) {inf : ℝ} {c : SturmChain ℝ n}
    (hc : sturmChain inf f = some c) {a b : ℝ} (ha : 0 < a) (hab : a ≤ b) (hDa : D a) (hDb : D b) :
    c.roots a b = some (rin f a b).card := by
  obtain ⟨c', e, h⟩ := C28_sturm inf f hf a b hab (fun h => hs.simple a ha h.1 hDa h.2)
    (fun h => hs.simple b (by linarith) h.1 hDb h.2)
  rw [hc, Option.some_inj] at e
  subst e
  rw [h]
  congr 1
  have : {x : ℝ | value f x = 0 ∧ a < x ∧ x ≤ b} =
      ((polyOf f).roots.toFinset.filter fun x => a < x ∧ x ≤ b : Finset ℝ) := by
    ext x
    simp [polyOf_ne_zero hf, value_eq]
  rw [this, Set.ncard_coe_finset]
  rfl

theorem callBisection_close {n : ℕ} {f : Arr ℝ n} (hf : f ≠ 0) {D : ℝ → Prop} (hs : Tame f D) (E : Env) {lo hi c r : ℝ}
    (hlo : 0 < lo) (hD : D lo) (hc : rin f lo hi = {c}) (h : callBisection E f lo hi = (true, r)) :
    Close |E.prec| r c := by
  have hv : (fun x => (horner f x).getD 0) = value f := by
    funext x; rw [horner_spec, value_eq]; rfl
  have hv' : value f = fun x => (polyOf f).eval x := funext fun x => value_eq f x
  rw [callBisection, hv] at h
  have hmem : c ∈ rin f lo hi := by rw [hc]; simp
  rw [mem_rin hf] at hmem
  have := Num.bisection_unique (value f) (E.S - 1) E.prec 0 lo hi 0 r
    (by rw [hv']; exact (polyOf f).continuous) hmem.2.1 hmem.2.2 hmem.1 (fun x h1 h2 h3 => by
      have : x ∈ rin f lo hi := (mem_rin hf).2 ⟨h3, h1, h2⟩
      rw [hc] at this; simpa using this) (fun h0 => hs.touch lo c hlo (by linarith [hmem.2.1]) h0 hmem.1 hD) h
  rwa [abs_mul] at this

/-- The state between two steps: `A` is the multiset of roots to find, `Q` what is left of the region
being processed. -/
def SInv {n : ℕ} (f : Arr ℝ n) (D : ℝ → Prop) (δ m0 : ℝ) (A Q : Multiset ℝ) (regs : List Region) (ret : List ℝ) : Prop :=
  (∃ cs : List ℝ, List.Forall₂ (Close δ) ret cs ∧
    (cs : Multiset ℝ) + (regs.map fun r => rin f r.1 r.2.1).sum + Q = A) ∧
  ∀ r ∈ regs, m0 ≤ r.1 ∧ r.1 ≤ r.2.1 ∧ r.2.2 = (rin f r.1 r.2.1).card ∧ 1 ≤ r.2.2 ∧ D r.1 ∧ D r.2.1

theorem SInv.cap {n : ℕ} {f : Arr ℝ n} {D : ℝ → Prop} {δ m0 : ℝ} {A Q : Multiset ℝ} {regs : List Region} {ret : List ℝ}
    (h : SInv f D δ m0 A Q regs ret) : ret.length + regs.length + Q.card ≤ A.card := by
  obtain ⟨⟨cs, h1, h2⟩, h3⟩ := h
  have h4 : regs.length ≤ ((regs.map fun r => rin f r.1 r.2.1).sum).card := by
    clear h2
    induction regs with
    | nil => simp
    | cons r l ih =>
      have := h3 r (by simp)
      have ih := ih fun r hr => h3 r (by simp [hr])
      simp only [List.length_cons, List.map_cons, List.sum_cons, Multiset.card_add]
      omega
  rw [← h2, h1.length_eq, Multiset.card_add, Multiset.card_add, Multiset.coe_card]
  omega

theorem sturmHalf_spec {n : ℕ} {f : Arr ℝ n} (hf : f ≠ 0) {D : ℝ → Prop} (hs : Tame f D) (E : Env) {δ m0 : ℝ}
    (hδ : |E.prec| ≤ δ) (hm0 : 0 < m0) {A Q : Multiset ℝ} (hA : A.card ≤ n) {lo hi : ℝ} (hlo : m0 ≤ lo)
    (hlh : lo ≤ hi) (hDl : D lo) (hDh : D hi) {regs : List Region} {ret : List ℝ}
    (h : SInv f D δ m0 A (rin f lo hi + Q) regs ret) :
    ∃ extra ret', sturmHalf E f lo hi (rin f lo hi).card (regs, ret) = some (extra ++ regs, ret') ∧
      SInv f D δ m0 A Q (extra ++ regs) ret' ∧
      (extra = [] ∨ extra = [(lo, hi, (rin f lo hi).card)]) := by
  have hcap := h.cap
  rw [Multiset.card_add] at hcap
  obtain ⟨⟨cs, h1, h2⟩, h3⟩ := h
  have push : 1 ≤ (rin f lo hi).card →
      pushRegion n (lo, hi, (rin f lo hi).card) regs = some ((lo, hi, (rin f lo hi).card) :: regs) ∧
      SInv f D δ m0 A Q ((lo, hi, (rin f lo hi).card) :: regs) ret := by
    intro hk
    refine ⟨by rw [pushRegion, if_pos (by omega)], ⟨cs, h1, ?_⟩, ?_⟩
    · rw [List.map_cons, List.sum_cons, ← h2]; simp only; ac_rfl
    · intro r hr
      rcases List.mem_cons.1 hr with rfl | hr
      · exact ⟨hlo, hlh, rfl, hk, hDl, hDh⟩
      · exact h3 r hr
  unfold sturmHalf
  by_cases hk1 : (rin f lo hi).card > 1
  · obtain ⟨p1, p2⟩ := push (by omega)
    rw [if_pos hk1]
    exact ⟨[(lo, hi, (rin f lo hi).card)], ret, by simp [p1], p2, .inr rfl⟩
  rw [if_neg hk1]
  by_cases hk : (rin f lo hi).card = 1
  · rw [if_pos hk]
    obtain ⟨p1, p2⟩ := push (by omega)
    rcases hb : callBisection E f lo hi with ⟨b, root⟩
    cases b with
    | false => exact ⟨[(lo, hi, (rin f lo hi).card)], ret, by simp [p1], p2, .inr rfl⟩
    | true =>
      obtain ⟨c, hc⟩ := Multiset.card_eq_one.1 hk
      have hcl := callBisection_close hf hs E (lt_of_lt_of_le hm0 hlo) hDl hc hb
      refine ⟨[], ret ++ [root], by simp [svPush, show ret.length + 1 ≤ n by omega], ⟨⟨cs ++ [c], ?_, ?_⟩, h3⟩,
        .inl rfl⟩
      · refine List.rel_append h1 (.cons ?_ .nil)
        exact le_trans hcl (mul_le_mul_of_nonneg_right hδ (abs_nonneg _))
      · rw [← h2, hc, ← Multiset.coe_add]
        simp only [List.nil_append, Multiset.coe_singleton]
        ac_rfl
  · rw [if_neg hk]
    have h0 : rin f lo hi = 0 := Multiset.card_eq_zero.1 (by omega)
    refine ⟨[], ret, rfl, ⟨⟨cs, h1, ?_⟩, h3⟩, .inl rfl⟩
    rw [← h2, h0, zero_add]; rfl

theorem forall₂_replicate {R : ℝ → ℝ → Prop} {x : ℝ} : ∀ (l : List ℝ), (∀ c ∈ l, R x c) →
    List.Forall₂ R (List.replicate l.length x) l
  | [], _ => .nil
  | c :: l, h => .cons (h c (by simp)) (forall₂_replicate l fun d hd => h d (by simp [hd]))

theorem sturmStep_spec {n : ℕ} {f : Arr ℝ n} (hf : f ≠ 0) {D : ℝ → Prop} (hs : Tame f D) (E : Env) {eps δ m0 : ℝ}
    (hδ : |E.prec| ≤ δ) (heps : 0 ≤ eps) (hδ' : eps ≤ δ) (hm0 : 0 < m0) {A : Multiset ℝ} (hA : A.card ≤ n)
    {inf : ℝ} {c : SturmChain ℝ n} (hc : sturmChain inf f = some c) {xmin xmax : ℝ} (hlo : m0 ≤ xmin)
    (hlh : xmin ≤ xmax) (hDl : D xmin) (hDh : D xmax) {regs : List Region} {ret : List ℝ}
    (h : SInv f D δ m0 A (rin f xmin xmax) regs ret) :
    ∃ extra ret', sturmStep E eps f c xmin xmax (rin f xmin xmax).card (regs, ret) =
        some (extra ++ regs, ret') ∧ SInv f D δ m0 A 0 (extra ++ regs) ret' ∧
      (extra ≠ [] → eps * m0 < xmax - xmin) ∧ extra.length ≤ 2 ∧
      ∀ r ∈ extra, r.2.1 - r.1 ≤ (xmax - xmin) / 2 := by
  have hx0 : 0 < xmin := lt_of_lt_of_le hm0 hlo
  unfold sturmStep
  have hmin : min |xmin| |xmax| = xmin := by
    rw [abs_of_pos hx0, abs_of_pos (by linarith), min_eq_left hlh]
  have habs : |xmin - xmax| = xmax - xmin := by rw [abs_sub_comm, abs_of_nonneg (by linarith)]
  rw [hmin, habs]
  by_cases htol : xmax - xmin ≤ eps * xmin
  · rw [if_pos htol]
    have hcap := h.cap
    obtain ⟨⟨cs, h1, h2⟩, h3⟩ := h
    refine ⟨[], ret ++ List.replicate (rin f xmin xmax).card ((xmin + xmax) / 2), ?_, ⟨⟨cs ++ (rin f xmin xmax).toList, ?_, ?_⟩, h3⟩,
      by simp, by simp, by simp⟩
    · rw [svPushAll_eq _ _ _ (by simp; omega)]; rfl
    · refine List.rel_append h1 ?_
      rw [← Multiset.length_toList]
      apply forall₂_replicate
      intro d hd
      rw [Multiset.mem_toList, mem_rin hf] at hd
      unfold Close
      rw [abs_of_pos (show 0 < (xmin + xmax) / 2 by linarith), abs_le]
      have : eps * xmin ≤ δ * ((xmin + xmax) / 2) := by
        apply mul_le_mul hδ' (by linarith) hx0.le (by linarith)
      constructor <;> linarith [hd.2.1, hd.2.2]
    · rw [← h2, ← Multiset.coe_add, Multiset.coe_toList]
      simp only [List.nil_append, add_zero]
      ac_rfl
  rw [if_neg htol]
  have hml : xmin ≤ (xmin + xmax) / 2 := by linarith
  have hmr : (xmin + xmax) / 2 ≤ xmax := by linarith
  have hDm := hs.mid _ _ hDl hDh
  have hsplit := rin_split hf hml hmr
  have hcard : (rin f xmin ((xmin + xmax) / 2)).card + (rin f ((xmin + xmax) / 2) xmax).card =
      (rin f xmin xmax).card := by rw [hsplit, Multiset.card_add]
  rw [hsplit] at h
  simp only [chain_roots hf hs hc hx0 hml hDl hDm, chain_roots hf hs hc (lt_of_lt_of_le hx0 hml) hmr hDm hDh,
    Option.bind_eq_bind, Option.bind_some, hcard, ne_eq, not_true_eq_false, if_false]
  obtain ⟨e1, ret1, a1, a2, a3⟩ := sturmHalf_spec hf hs E hδ hm0 hA hlo hml hDl hDm h
  rw [a1, Option.bind_some]
  rw [show SInv f D δ m0 A (rin f ((xmin + xmax) / 2) xmax) (e1 ++ regs) ret1 ↔
    SInv f D δ m0 A (rin f ((xmin + xmax) / 2) xmax + 0) (e1 ++ regs) ret1 by rw [add_zero]] at a2
  obtain ⟨e2, ret2, b1, b2, b3⟩ := sturmHalf_spec hf hs E hδ hm0 hA (hlo.trans hml) hmr hDm hDh a2
  refine ⟨e2 ++ e1, ret2, ?_, ?_, ?_, ?_, ?_⟩
  · rw [b1, List.append_assoc]
  · rw [List.append_assoc]; exact b2
  · intro _
    have := mul_le_mul_of_nonneg_left hlo heps
    linarith
  · rcases a3 with rfl | rfl <;> rcases b3 with rfl | rfl <;> simp
  · intro r hr
    rcases List.mem_append.1 hr with hr | hr
    · rcases b3 with rfl | rfl
      · simp at hr
      · rw [List.mem_singleton] at hr; subst hr; simp only; linarith
    · rcases a3 with rfl | rfl
      · simp at hr
      · rw [List.mem_singleton] at hr; subst hr; simp only; linarith

/-- Fuel for a region that is halved at most `d` times. -/
def fuelFor (d : ℕ) : ℕ := 2 ^ (d + 1) - 1

theorem sturmLoop_spec {n : ℕ} {f : Arr ℝ n} (hf : f ≠ 0) {D : ℝ → Prop} (hs : Tame f D) (E : Env) {eps δ m0 : ℝ}
    (hδ : |E.prec| ≤ δ) (heps : 0 ≤ eps) (hδ' : eps ≤ δ) (hm0 : 0 < m0) {A : Multiset ℝ} (hA : A.card ≤ n)
    {inf : ℝ} {c : SturmChain ℝ n} (hc : sturmChain inf f = some c) :
    ∀ (fuel : ℕ) (regs : List Region) (ret : List ℝ) (ds : List ℕ),
      List.Forall₂ (fun (r : Region) d => r.2.1 - r.1 ≤ eps * m0 * 2 ^ d) regs ds →
      (ds.map fuelFor).sum ≤ fuel →
      (regs = [] → SInv f D δ m0 A 0 regs ret) →
      (∀ xmin xmax k rest, regs = (xmin, xmax, k) :: rest → m0 ≤ xmin ∧ xmin ≤ xmax ∧
        k = (rin f xmin xmax).card ∧ D xmin ∧ D xmax ∧ SInv f D δ m0 A (rin f xmin xmax) rest ret) →
      ∃ L cs, sturmLoop E eps f c fuel (regs, ret) = .ok L ∧ List.Forall₂ (Close δ) L cs ∧
        (cs : Multiset ℝ) = A := by
  intro fuel
  induction fuel with
  | zero =>
    intro regs ret ds hds hsum hnil _
    cases hds with
    | nil =>
      obtain ⟨⟨cs, h1, h2⟩, -⟩ := hnil rfl
      exact ⟨ret, cs, by simp [sturmLoop], h1, by simpa using h2⟩
    | @cons r d rest ds hd hds =>
      exfalso
      simp only [List.map_cons, List.sum_cons, fuelFor] at hsum
      have : 2 ≤ 2 ^ (d + 1) := by rw [pow_succ]; have := Nat.one_le_two_pow (n := d); omega
      omega
  | succ fuel ih =>
    intro regs ret ds hds hsum hnil hcons
    cases hds with
    | nil =>
      obtain ⟨⟨cs, h1, h2⟩, -⟩ := hnil rfl
      exact ⟨ret, cs, by simp [sturmLoop], h1, by simpa using h2⟩
    | @cons r d rest ds hd hds =>
      obtain ⟨xmin, xmax, k⟩ := r
      obtain ⟨i1, i2, i3, i5, i6, i4⟩ := hcons xmin xmax k rest rfl
      obtain ⟨extra, ret', e, hinv, hw, hlen, hwid⟩ :=
        sturmStep_spec hf hs E hδ heps hδ' hm0 hA hc i1 i2 i5 i6 i4
      rw [sturmLoop, i3, e]
      simp only [Out.lift, Out.bind]
      simp only [List.map_cons, List.sum_cons] at hsum
      refine ih (extra ++ rest) ret' (extra.map (fun _ => d - 1) ++ ds) ?_ ?_ ?_ ?_
      · refine List.rel_append ?_ hds
        rw [List.forall₂_map_right_iff, List.forall₂_same]
        intro r hr
        have h1 := hwid r hr
        have h2 := hw (List.ne_nil_of_mem hr)
        simp only at hd
        have hd1 : 1 ≤ d := by
          by_contra h0
          have : d = 0 := by omega
          rw [this, pow_zero, mul_one] at hd
          linarith
        obtain ⟨d', rfl⟩ : ∃ d', d = d' + 1 := ⟨d - 1, by omega⟩
        rw [pow_succ] at hd
        simp only [Nat.add_sub_cancel]
        linarith
      · have hpos : 1 ≤ fuelFor d := by
          unfold fuelFor
          rw [pow_succ]; have := Nat.one_le_two_pow (n := d); omega
        by_cases hex : extra = []
        · subst hex; simp only [List.map_nil, List.nil_append]; omega
        · have h2 := hw hex
          simp only at hd
          have hd1 : 1 ≤ d := by
            by_contra h0
            have : d = 0 := by omega
            rw [this, pow_zero, mul_one] at hd
            linarith
          obtain ⟨d', rfl⟩ : ∃ d', d = d' + 1 := ⟨d - 1, by omega⟩
          have hf' : 2 * fuelFor d' + 1 = fuelFor (d' + 1) := by
            unfold fuelFor
            rw [pow_succ 2 (d' + 1)]
            have : 1 ≤ 2 ^ (d' + 1) := Nat.one_le_two_pow
            omega
          have hx : ((extra.map fun _ => d' + 1 - 1).map fuelFor).sum ≤ 2 * fuelFor d' := by
            rw [List.map_map]
            simp only [Nat.add_sub_cancel, Function.comp_def, List.map_const', List.sum_replicate, smul_eq_mul]
            exact Nat.mul_le_mul_right _ hlen
          rw [List.map_append, List.sum_append]
          omega
      · intro hn; rw [hn] at hinv ⊢; exact hinv
      · intro a b k' rest' heq
        rw [heq] at hinv
        obtain ⟨⟨cs, c1, c2⟩, c3⟩ := hinv
        obtain ⟨j1, j2, j3, -, j4, j5⟩ := c3 (a, b, k') (by simp)
        refine ⟨j1, j2, j3, j4, j5, ⟨cs, c1, ?_⟩, fun r hr => c3 r (by simp [hr])⟩
        rw [← c2, List.map_cons, List.sum_cons]
        simp only [add_zero]
        ac_rfl

theorem lmqLower_pos {n : ℕ} {f : Arr ℝ n} (hf : f ≠ 0) {l : ℝ} (h : lmqLower f = some (some l)) : 0 < l := by
  have hr : revArr f ≠ 0 := by
    intro h
    apply hf
    funext i
    have := congrFun h i.rev
    simpa [revArr] using this
  obtain ⟨u, eu, hu, -⟩ := C30_upper (revArr f) hr
  unfold lmqLower at h
  rw [show (fun i => f i.rev : Arr ℝ n) = revArr f from rfl, eu] at h
  simp only [Option.bind_eq_bind, Option.bind_some, Option.some.injEq] at h
  by_cases h0 : u = 0
  · simp [h0] at h
  · rw [if_neg h0] at h
    cases h
    exact one_div_pos.2 (lt_of_le_of_ne hu (Ne.symm h0))

/-- The points at which the Sturm solver can divide: those that repeated bisection of the interval between the LMQ bounds
reaches. -/
def BisectionPoint {n : ℕ} (f : Arr ℝ n) (x : ℝ) : Prop :=
  ∃ l u, lmqLower f = some (some l) ∧ lmqUpper f = some (some u) ∧ ∃ k m : ℕ, k ≤ 2 ^ m ∧ x = l + (u - l) * (k / 2 ^ m)

theorem BisectionPoint.mid {n : ℕ} {f : Arr ℝ n} {a b : ℝ} (ha : BisectionPoint f a) (hb : BisectionPoint f b) :
    BisectionPoint f ((a + b) / 2) := by
  obtain ⟨l, u, hl, hu, k, m, hk, rfl⟩ := ha
  obtain ⟨l', u', hl', hu', k', m', hk', rfl⟩ := hb
  rw [hl] at hl'; cases hl'
  rw [hu] at hu'; cases hu'
  refine ⟨l, u, hl, hu, k * 2 ^ m' + k' * 2 ^ m, m + m' + 1, ?_, ?_⟩
  · have h1 := Nat.mul_le_mul_right (2 ^ m') hk
    have h2 := Nat.mul_le_mul_right (2 ^ m) hk'
    rw [pow_succ, pow_add]
    nlinarith
  · have h1 : (2 : ℝ) ^ m ≠ 0 := by positivity
    have h2 : (2 : ℝ) ^ m' ≠ 0 := by positivity
    push_cast
    rw [pow_succ, pow_add]
    field_simp
    ring

/-- The Sturm solver is totally correct. -/
theorem solveSturm_spec (E : Env) (eps inf : ℝ) (heps : 0 < eps) {n : ℕ} (f : Arr ℝ (n + 1)) (hf : f ≠ 0)
    (hs : Tame f (BisectionPoint f)) :
    ∃ fuel₀, ∀ fuel, fuel₀ ≤ fuel → ∃ L cs, solveSturm E eps inf fuel f = .ok L ∧
      List.Forall₂ (Close (max eps |E.prec|)) L cs ∧ cs.Nodup ∧
      ∀ x, x ∈ cs ↔ 0 < x ∧ value f x = 0 := by
  obtain ⟨u, eu, hu0, hu⟩ := C30_upper f hf
  obtain ⟨l, el, -, hl⟩ := C30_lower f hf
  cases l with
  | none =>
    refine ⟨0, fun fuel _ => ⟨[], [], by simp [solveSturm, eu, el, Out.lift, Out.bind], .nil, by simp, ?_⟩⟩
    intro x
    simp only [List.not_mem_nil, false_iff, not_and]
    intro h1 h2
    obtain ⟨l, h, -⟩ := hl x h1 h2
    simp at h
  | some l =>
    have hlpos := lmqLower_pos hf el
    by_cases hlu : l > u
    · refine ⟨0, fun fuel _ => ⟨[], [], by simp [solveSturm, eu, el, Out.lift, Out.bind, hlu], .nil, by simp, ?_⟩⟩
      intro x
      simp only [List.not_mem_nil, false_iff, not_and]
      intro h1 h2
      obtain ⟨l', h, h3⟩ := hl x h1 h2
      cases h
      have := hu x h1 h2
      linarith
    · have hlu' : l ≤ u := not_lt.1 hlu
      have hDl : BisectionPoint f l := ⟨l, u, el, eu, 0, 0, by simp, by simp⟩
      have hDu : BisectionPoint f u := ⟨l, u, el, eu, 1, 0, by simp, by simp⟩
      obtain ⟨c, hc, -⟩ := C28_sturm inf f hf l u hlu' (fun h => hs.simple l hlpos h.1 hDl h.2)
        (fun h => hs.simple u (by linarith) h.1 hDu h.2)
      have hroots := chain_roots hf hs hc hlpos hlu' hDl hDu
      have hem : 0 < eps * l := mul_pos heps hlpos
      obtain ⟨d, hd⟩ : ∃ d : ℕ, u - l ≤ eps * l * 2 ^ d := by
        obtain ⟨d, hd⟩ := pow_unbounded_of_one_lt ((u - l) / (eps * l)) (by norm_num : (1 : ℝ) < 2)
        refine ⟨d, ?_⟩
        rw [div_lt_iff₀ hem] at hd
        linarith
      refine ⟨fuelFor d, fun fuel hfuel => ?_⟩
      obtain ⟨L, cs, h1, h2, h3⟩ := sturmLoop_spec hf hs E (eps := eps) (δ := max eps |E.prec|) (m0 := l)
        (A := rin f l u) (le_max_right _ _) heps.le (le_max_left _ _) hlpos (card_rin_le f l u) hc fuel
        [(l, u, (rin f l u).card)] [] [d] (.cons hd .nil) (by simpa using hfuel) (by simp) (by
          intro a b k rest h
          simp only [List.cons.injEq, Prod.mk.injEq] at h
          obtain ⟨⟨rfl, rfl, rfl⟩, rfl⟩ := h
          exact ⟨le_rfl, hlu', rfl, hDl, hDu, ⟨[], .nil, by simp⟩, by simp⟩)
      refine ⟨L, cs, ?_, h2, ?_, ?_⟩
      · simp only [solveSturm, eu, el, Out.lift, Out.bind, hlu, if_false, hc, hroots]
        simpa using h1
      · rw [← Multiset.coe_nodup, h3]; exact rin_nodup _ _ _
      · intro x
        rw [← Multiset.mem_coe, h3, mem_rin hf]
        constructor
        · rintro ⟨a, b, -⟩; exact ⟨by linarith, a⟩
        · rintro ⟨a, b⟩
          obtain ⟨l', h, h3⟩ := hl x a b
          cases h
          exact ⟨b, h3, (hu x a b).le⟩

end Stator.Pol
