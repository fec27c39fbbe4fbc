import Verif.Ct.Interval

/-!
# Intervals for a variable that occurs once; smaller intervals (C92)
-/

namespace Stator.Ct

variable {I : Type} {A : Ivl I}

/-- An interval library without rounding: the result of an operation has the values of the operation for the numbers in the operands, and
no others. -/
structure Ivl.Exact (A : Ivl I) : Prop where
  op : ∀ o, o = .add ∨ o = .sub ∨ o = .mul → ∀ a b j, (A.arg a).Nonempty → (A.arg b).Nonempty → A.op o a b = some j →
    A.mem j = {v | ∃ s ∈ A.arg a, ∃ t ∈ A.arg b, binVal o.rt s t = some v}
  neg : ∀ i, (A.mem i).Nonempty → A.mem (A.neg i) = {v | ∃ t ∈ A.mem i, v = -t}
  abs : ∀ i, (A.mem i).Nonempty → A.mem (A.abs i) = {v | ∃ t ∈ A.mem i, v = |t|}

/-- An interval library in which smaller operands have smaller results. -/
structure Ivl.Isotone (A : Ivl I) : Prop where
  op : ∀ o, o = .add ∨ o = .sub ∨ o = .mul → ∀ a b a' b' j j', A.arg a ⊆ A.arg a' → A.arg b ⊆ A.arg b' → (A.arg a).Nonempty →
    (A.arg b).Nonempty → A.op o a b = some j → A.op o a' b' = some j' → A.mem j ⊆ A.mem j'
  neg : ∀ i i', (A.mem i).Nonempty → A.mem i ⊆ A.mem i' → A.mem (A.neg i) ⊆ A.mem (A.neg i')
  abs : ∀ i i', (A.mem i).Nonempty → A.mem i ⊆ A.mem i' → A.mem (A.abs i) ⊆ A.mem (A.abs i')

/-- How often the variable occurs. -/
def E.occurs (x : List Char) : E → ℕ
  | .c _ => 0
  | .num _ => 0
  | .var n => if n = x then 1 else 0
  | .un _ a => a.occurs x
  | .bin _ l r => l.occurs x + r.occurs x

theorem has_iff {x : List Char} {f : E} : f.has x ↔ f.occurs x ≠ 0 := by
  induction f with
  | c b => simp [E.has, E.occurs]
  | num v => simp [E.has, E.occurs]
  | var n => simp [E.has, E.occurs]
  | un o a ih => exact ih
  | bin o l r ih1 ih2 =>
    simp only [E.has, E.occurs, ih1, ih2]
    omega

/-- An expression that is an interval or a finite number. -/
inductive ArgOf : IE I → I ⊕ Option ℝ → Prop
  | ivl (i : I) : ArgOf (.ivl i) (.inl i)
  | num (v : ℝ) : ArgOf (.val (.num (some v))) (.inr (some v))

/-- A sum, difference or product of intervals and numbers. -/
theorem iapply_arg {o : Op} (ho : o = .add ∨ o = .sub ∨ o = .mul) {l r g : IE I} {a b : I ⊕ Option ℝ} (ha : ArgOf l a) (hb : ArgOf r b)
    (h : iapply A o l r = some g) : ((∃ j, g = .ivl j ∧ A.op o a b = some j) ∧ ((∃ i, l = .ivl i) ∨ ∃ i, r = .ivl i)) ∨
      ∃ u w v, a = .inr (some u) ∧ b = .inr (some w) ∧ g = .val (.num (some v)) ∧ binVal o.rt u w = some v := by
  cases ha <;> cases hb
  case num.num u w =>
    refine .inr ⟨u, w, ?_⟩
    rcases ho with rfl | rfl | rfl
    · exact ⟨u + w, rfl, rfl, by simpa [iapply, applyOp, opAdd, E.isC, node, E.number, numOp, Op.rt, binVal, eq_comm] using h, rfl⟩
    · exact ⟨u - w, rfl, rfl, by simpa [iapply, applyOp, opSub, E.isC, node, E.number, numOp, Op.rt, binVal, eq_comm] using h, rfl⟩
    · exact ⟨u * w, rfl, rfl, by simpa [iapply, applyOp, opMul, E.isC, node, E.number, numOp, Op.rt, binVal, eq_comm] using h, rfl⟩
  all_goals
    left
    rcases ho with rfl | rfl | rfl <;> simp only [iapply, IE.isC, E.isC, inode, IE.kind, Bool.false_eq_true, if_false,
      Option.map_eq_some_iff] at h <;> obtain ⟨j, hj, rfl⟩ := h <;> exact ⟨⟨j, rfl, hj⟩, by simp⟩

theorem at_const {x : List Char} {f : E} (h : f.occurs x = 0) (ρ : List Char → ℝ) (s t : ℝ) : f.at ρ x s = f.at ρ x t := by
  induction f with
  | c b => rfl
  | num v => rfl
  | var n =>
    have : n ≠ x := by simpa [E.occurs] using h
    simp [E.at, E.fn, at_, this]
  | un o a ih =>
    have := ih h
    simp only [E.at] at this
    cases o <;> simp [E.at, E.fn, this]
  | bin o l r ih1 ih2 =>
    simp only [E.occurs, Nat.add_eq_zero_iff] at h
    have h1 := ih1 h.1
    have h2 := ih2 h.2
    simp only [E.at] at h1 h2
    cases o <;> simp [E.at, E.fn, h1, h2]

theorem isub_exact (hA : A.Exact) {x : List Char} {i : I} (hi : (A.mem i).Nonempty) (ρ : List Char → ℝ) : ∀ {f : E} {g : IE I},
    f.Arithmetic x → f.occurs x ≤ 1 → isub A x i f = some g → ∃ a, ArgOf g a ∧ A.arg a = f.at ρ x '' A.mem i := by
  intro f
  induction f with
  | c b => exact fun hf => hf.elim
  | num v =>
    intro g hf _ h
    obtain ⟨v, rfl⟩ := Option.ne_none_iff_exists'.1 hf
    cases h
    refine ⟨_, .num v, ?_⟩
    have : (E.num (some v)).at ρ x = fun _ => v := rfl
    rw [this, hi.image_const]
    ext t; simp [Ivl.arg, eq_comm]
  | var n =>
    intro g hf _ h
    have hf : n = x := hf
    simp only [isub, if_pos hf, Option.some.injEq] at h
    subst h
    refine ⟨_, .ivl i, ?_⟩
    have : (E.var n).at ρ x = id := by funext t; simp [E.at, E.fn, at_, hf]
    rw [this, Set.image_id]; rfl
  | un o a ih =>
    intro g hf hc h
    simp only [isub, Option.bind_eq_bind, Option.bind_eq_some_iff] at h
    obtain ⟨e, he, h⟩ := h
    obtain ⟨k, hk, hv⟩ := ih hf.2 hc he
    cases hk with
    | ivl j =>
      have hj : A.mem j = a.at ρ x '' A.mem i := hv
      have hn : (A.mem j).Nonempty := hj ▸ hi.image _
      rcases hf.1 with rfl | rfl
      · cases h
        refine ⟨_, .ivl _, (hA.neg j hn).trans ?_⟩
        ext v
        simp only [hj, Set.mem_ofPred_eq, Set.mem_image, exists_exists_and_eq_and]
        exact exists_congr fun t => and_congr_right fun _ => eq_comm
      · cases h
        refine ⟨_, .ivl _, (hA.abs j hn).trans ?_⟩
        ext v
        simp only [hj, Set.mem_ofPred_eq, Set.mem_image, exists_exists_and_eq_and]
        exact exists_congr fun t => and_congr_right fun _ => eq_comm
    | num v =>
      have hj : {t | some v = some t} = a.at ρ x '' A.mem i := hv
      have hc : ∀ t ∈ A.mem i, a.at ρ x t = v := fun t ht => by
        have : a.at ρ x t ∈ {t | some v = some t} := hj ▸ ⟨t, ht, rfl⟩
        simpa [eq_comm] using this
      have hs : ∀ F : ℝ → ℝ, (fun t => F (a.at ρ x t)) '' A.mem i = {F v} := fun F =>
        (Set.image_congr fun t ht => by rw [hc t ht]).trans (hi.image_const (F v))
      rcases hf.1 with rfl | rfl
      · simp only [iapplyUn, applyUn, opNeg, unVal, Option.map_some, Option.some.injEq] at h
        subst h
        refine ⟨_, .num _, Eq.trans ?_ (hs fun y => -y).symm⟩
        ext t; simp [Ivl.arg, eq_comm]
      · simp only [iapplyUn, applyUn, unVal, Option.map_some, Option.some.injEq] at h
        subst h
        refine ⟨_, .num _, Eq.trans ?_ (hs fun y => |y|).symm⟩
        ext t; simp [Ivl.arg, eq_comm]
  | bin o l r ih1 ih2 =>
    intro g hf hc h
    simp only [isub, Option.bind_eq_bind, Option.bind_eq_some_iff] at h
    obtain ⟨l', hl, r', hr, h⟩ := h
    simp only [E.occurs] at hc
    obtain ⟨a, ha, va⟩ := ih1 hf.2.1 (by omega) hl
    obtain ⟨b, hb, vb⟩ := ih2 hf.2.2 (by omega) hr
    have na : (A.arg a).Nonempty := va ▸ hi.image _
    have nb : (A.arg b).Nonempty := vb ▸ hi.image _
    have hv : ∀ t, binVal o.rt (l.at ρ x t) (r.at ρ x t) = some ((E.bin o l r).at ρ x t) := by
      intro t; rcases hf.1 with rfl | rfl | rfl <;> rfl
    have key : {v | ∃ s ∈ A.arg a, ∃ t ∈ A.arg b, binVal o.rt s t = some v} = (E.bin o l r).at ρ x '' A.mem i := by
      rw [va, vb]
      ext v
      constructor
      · rintro ⟨_, ⟨s, hs, rfl⟩, _, ⟨t, ht, rfl⟩, h⟩
        have h0 : l.occurs x = 0 ∨ r.occurs x = 0 := by omega
        rcases h0 with h0 | h0
        · rw [at_const h0 ρ s t, hv] at h
          exact ⟨t, ht, Option.some.inj h⟩
        · rw [at_const h0 ρ t s, hv] at h
          exact ⟨s, hs, Option.some.inj h⟩
      · rintro ⟨t, ht, rfl⟩
        exact ⟨_, ⟨t, ht, rfl⟩, _, ⟨t, ht, rfl⟩, hv t⟩
    rcases iapply_arg hf.1 ha hb h with ⟨⟨j, rfl, hj⟩, -⟩ | ⟨u, w, v, rfl, rfl, rfl, h'⟩
    · exact ⟨_, .ivl j, (hA.op o hf.1 a b j na nb hj).trans key⟩
    · refine ⟨_, .num v, Eq.trans ?_ key⟩
      ext t
      simp only [Ivl.arg, Set.mem_ofPred_eq, Option.some.injEq, exists_eq_left', h']

/-- **C92** without rounding: if the variable occurs once, in a sum, difference, product, ... of numbers and the variable, the interval is
the range of the expression: it contains no other numbers. -/
theorem C92_exact (hA : A.Exact) {x : List Char} {i : I} (hi : (A.mem i).Nonempty) {f : E} (hf : f.Arithmetic x) (h1 : f.occurs x = 1)
    (hop : ∀ o, o = .add ∨ o = .sub ∨ o = .mul → ∀ a b, a ≠ .inr none → b ≠ .inr none → ∃ j, A.op o a b = some j) :
    ∃ j, isub A x i f = some (.ivl j) ∧ ∀ ρ, A.mem j = f.at ρ x '' A.mem i := by
  rcases isub_arith hf hop with ⟨j, hj⟩ | ⟨h, -⟩
  · refine ⟨j, hj, fun ρ => ?_⟩
    obtain ⟨a, ha, va⟩ := isub_exact hA hi ρ hf h1.le hj
    cases ha
    exact va
  · exact absurd (has_iff.2 (by omega)) h

theorem isub_isotone (hA : A.Isotone) (hS : A.Sound) {x : List Char} {i i' : I} (hi : (A.mem i).Nonempty) (hii : A.mem i ⊆ A.mem i') :
    ∀ {f : E} {g g' : IE I}, f.Arithmetic x → isub A x i f = some g → isub A x i' f = some g' →
    (∃ j j', g = .ivl j ∧ g' = .ivl j' ∧ A.mem j ⊆ A.mem j' ∧ (A.mem j).Nonempty) ∨
      ∃ v : ℝ, g = .val (.num (some v)) ∧ g' = .val (.num (some v)) := by
  intro f
  induction f with
  | c b => exact fun hf => hf.elim
  | num v =>
    intro g g' hf h h'
    obtain ⟨v, rfl⟩ := Option.ne_none_iff_exists'.1 hf
    cases h; cases h'
    exact .inr ⟨v, rfl, rfl⟩
  | var n =>
    intro g g' hf h h'
    have hf : n = x := hf
    simp only [isub, if_pos hf, Option.some.injEq] at h h'
    subst h h'
    exact .inl ⟨i, i', rfl, rfl, hii, hi⟩
  | un o a ih =>
    intro g g' hf h h'
    simp only [isub, Option.bind_eq_bind, Option.bind_eq_some_iff] at h h'
    obtain ⟨e, he, h⟩ := h
    obtain ⟨e', he', h'⟩ := h'
    rcases ih hf.2 he he' with ⟨j, j', rfl, rfl, hs, t, ht⟩ | ⟨v, rfl, rfl⟩
    · rcases hf.1 with rfl | rfl
      · cases h; cases h'
        exact .inl ⟨_, _, rfl, rfl, hA.neg j j' ⟨t, ht⟩ hs, -t, hS.neg j t ht⟩
      · cases h; cases h'
        exact .inl ⟨_, _, rfl, rfl, hA.abs j j' ⟨t, ht⟩ hs, |t|, hS.abs j t ht⟩
    · have hg : g = g' := Option.some.inj (h.symm.trans h')
      rcases hf.1 with rfl | rfl <;> simp only [iapplyUn, applyUn, opNeg, unVal, Option.map_some, Option.some.injEq] at h <;>
        exact .inr ⟨_, h.symm, hg ▸ h.symm⟩
  | bin o l r ih1 ih2 =>
    intro g g' hf h h'
    simp only [isub, Option.bind_eq_bind, Option.bind_eq_some_iff] at h h'
    obtain ⟨l1, hl1, r1, hr1, h⟩ := h
    obtain ⟨l2, hl2, r2, hr2, h'⟩ := h'
    have arg : ∀ {g g' : IE I}, ((∃ j j', g = .ivl j ∧ g' = .ivl j' ∧ A.mem j ⊆ A.mem j' ∧ (A.mem j).Nonempty) ∨
        ∃ v : ℝ, g = .val (.num (some v)) ∧ g' = .val (.num (some v))) →
        ∃ a a', ArgOf g a ∧ ArgOf g' a' ∧ A.arg a ⊆ A.arg a' ∧ (A.arg a).Nonempty := by
      rintro g g' (⟨j, j', rfl, rfl, h, hn⟩ | ⟨v, rfl, rfl⟩)
      · exact ⟨_, _, .ivl j, .ivl j', h, hn⟩
      · exact ⟨_, _, .num v, .num v, subset_rfl, v, rfl⟩
    have hl := ih1 hf.2.1 hl1 hl2
    have hr := ih2 hf.2.2 hr1 hr2
    obtain ⟨a, a', ha, ha', sa, na⟩ := arg hl
    obtain ⟨b, b', hb, hb', sb, nb⟩ := arg hr
    rcases iapply_arg hf.1 ha hb h with ⟨⟨j, rfl, hj⟩, hi⟩ | ⟨u, w, v, rfl, rfl, rfl, hv⟩
    · rcases iapply_arg hf.1 ha' hb' h' with ⟨⟨j', rfl, hj'⟩, -⟩ | ⟨u, w, v, rfl, rfl, rfl, -⟩
      · refine .inl ⟨j, j', rfl, rfl, hA.op o hf.1 _ _ _ _ _ _ sa sb na nb hj hj', ?_⟩
        obtain ⟨s, hs⟩ := na
        obtain ⟨t, ht⟩ := nb
        obtain ⟨v, hv⟩ : ∃ v, binVal o.rt s t = some v := by rcases hf.1 with rfl | rfl | rfl <;> exact ⟨_, rfl⟩
        exact ⟨v, hS.op o (by rcases hf.1 with rfl | rfl | rfl <;> simp) _ _ _ hj s hs t ht v hv⟩
      · cases ha'; cases hb'
        rcases hi with ⟨k, rfl⟩ | ⟨k, rfl⟩
        · rcases hl with ⟨_, _, -, h0, -⟩ | ⟨_, h0, -⟩ <;> cases h0
        · rcases hr with ⟨_, _, -, h0, -⟩ | ⟨_, h0, -⟩ <;> cases h0
    · cases ha; cases hb
      have e1 : l2 = .val (.num (some u)) := by
        rcases hl with ⟨_, _, h0, -⟩ | ⟨_, h0, h1⟩
        · cases h0
        · cases h0; exact h1
      have e2 : r2 = .val (.num (some w)) := by
        rcases hr with ⟨_, _, h0, -⟩ | ⟨_, h0, h1⟩
        · cases h0
        · cases h0; exact h1
      subst e1 e2
      exact .inr ⟨v, rfl, Option.some.inj (h'.symm.trans h)⟩

/-- **C92**: a smaller interval gives a smaller result, if the library's operations have this property. -/
theorem C92_narrower (hA : A.Isotone) (hS : A.Sound) {x : List Char} {i i' : I} (hi : (A.mem i).Nonempty) (hii : A.mem i ⊆ A.mem i')
    {f : E} (hf : f.Arithmetic x) {j j' : I} (h : isub A x i f = some (.ivl j)) (h' : isub A x i' f = some (.ivl j')) :
    A.mem j ⊆ A.mem j' := by
  rcases isub_isotone hA hS hi hii hf h h' with ⟨_, _, h1, h2, h3, -⟩ | ⟨_, h1, -⟩
  · cases h1; cases h2; exact h3
  · cases h1

/-! ## An interval type with these properties -/

theorem ends_nonempty {d : Dir} {a : (ℝ × ℝ) ⊕ Option ℝ} {b : ℝ × ℝ} (h : ends a = some b) (hn : ((box d).arg a).Nonempty) :
    (box d).arg a = Set.Icc b.1 b.2 ∧ b.1 ≤ b.2 := by
  cases a with
  | inl i => cases h; obtain ⟨t, ht⟩ := hn; exact ⟨rfl, ht.1.trans ht.2⟩
  | inr v =>
    cases v with
    | none => cases h
    | some v =>
      cases h
      refine ⟨?_, le_rfl⟩
      ext t
      simp [Ivl.arg, eq_comm, le_antisymm_iff]

/-- A product of two intervals has no values outside those of the ends: it is what `boxMul` gives. -/
theorem boxMul_exact {a b : ℝ × ℝ} (ha : a.1 ≤ a.2) (hb : b.1 ≤ b.2) {v : ℝ}
    (hv : v ∈ Set.Icc (boxMul exactDir a b).1 (boxMul exactDir a b).2) : ∃ s ∈ Set.Icc a.1 a.2, ∃ t ∈ Set.Icc b.1 b.2, s * t = v := by
  have hc : IsPreconnected ((fun p : ℝ × ℝ => p.1 * p.2) '' (Set.Icc a.1 a.2 ×ˢ Set.Icc b.1 b.2)) :=
    (isPreconnected_Icc.prod isPreconnected_Icc).image _ (by fun_prop)
  have hm : ∀ s ∈ Set.Icc a.1 a.2, ∀ t ∈ Set.Icc b.1 b.2,
      s * t ∈ (fun p : ℝ × ℝ => p.1 * p.2) '' (Set.Icc a.1 a.2 ×ˢ Set.Icc b.1 b.2) := fun s hs t ht => ⟨(s, t), ⟨hs, ht⟩, rfl⟩
  have l1 := Set.left_mem_Icc.2 ha
  have r1 := Set.right_mem_Icc.2 ha
  have l2 := Set.left_mem_Icc.2 hb
  have r2 := Set.right_mem_Icc.2 hb
  have hlo : (boxMul exactDir a b).1 ∈ (fun p : ℝ × ℝ => p.1 * p.2) '' (Set.Icc a.1 a.2 ×ˢ Set.Icc b.1 b.2) := by
    simp only [boxMul, exactDir, id]
    rcases min_choice (min (a.1 * b.1) (a.1 * b.2)) (min (a.2 * b.1) (a.2 * b.2)) with h | h <;> rw [h]
    · rcases min_choice (a.1 * b.1) (a.1 * b.2) with h | h <;> rw [h] <;> exact hm _ l1 _ (by assumption)
    · rcases min_choice (a.2 * b.1) (a.2 * b.2) with h | h <;> rw [h] <;> exact hm _ r1 _ (by assumption)
  have hhi : (boxMul exactDir a b).2 ∈ (fun p : ℝ × ℝ => p.1 * p.2) '' (Set.Icc a.1 a.2 ×ˢ Set.Icc b.1 b.2) := by
    simp only [boxMul, exactDir, id]
    rcases max_choice (max (a.1 * b.1) (a.1 * b.2)) (max (a.2 * b.1) (a.2 * b.2)) with h | h <;> rw [h]
    · rcases max_choice (a.1 * b.1) (a.1 * b.2) with h | h <;> rw [h] <;> exact hm _ l1 _ (by assumption)
    · rcases max_choice (a.2 * b.1) (a.2 * b.2) with h | h <;> rw [h] <;> exact hm _ r1 _ (by assumption)
  obtain ⟨p, ⟨h1, h2⟩, h3⟩ := hc.Icc_subset hlo hhi hv
  exact ⟨p.1, h1, p.2, h2, h3⟩

theorem box_exact : (box exactDir).Exact where
  op o ho a b j na nb h := by
    refine Set.Subset.antisymm (fun v hv => ?_) ?_
    · simp only [box, Option.bind_eq_bind, Option.bind_eq_some_iff] at h
      obtain ⟨a', ha, b', hb, h⟩ := h
      obtain ⟨ea, la⟩ := ends_nonempty ha na
      obtain ⟨eb, lb⟩ := ends_nonempty hb nb
      change ∃ s ∈ (box exactDir).arg a, ∃ t ∈ (box exactDir).arg b, binVal o.rt s t = some v
      rw [ea, eb]
      rcases ho with rfl | rfl | rfl
      · cases h
        obtain ⟨h1, h2⟩ : a'.1 + b'.1 ≤ v ∧ v ≤ a'.2 + b'.2 := hv
        refine ⟨max a'.1 (v - b'.2), ⟨le_max_left _ _, max_le la (by linarith)⟩, v - max a'.1 (v - b'.2), ⟨?_, ?_⟩, ?_⟩
        · have : max a'.1 (v - b'.2) ≤ v - b'.1 := max_le (by linarith) (by linarith)
          linarith
        · have := le_max_right a'.1 (v - b'.2)
          linarith
        · simp [Op.rt, binVal]
      · cases h
        obtain ⟨h1, h2⟩ : a'.1 - b'.2 ≤ v ∧ v ≤ a'.2 - b'.1 := hv
        refine ⟨max a'.1 (v + b'.1), ⟨le_max_left _ _, max_le la (by linarith)⟩, max a'.1 (v + b'.1) - v, ⟨?_, ?_⟩, ?_⟩
        · have := le_max_right a'.1 (v + b'.1)
          linarith
        · have : max a'.1 (v + b'.1) ≤ v + b'.2 := max_le (by linarith) (by linarith)
          linarith
        · simp [Op.rt, binVal]
      · cases h
        obtain ⟨s, hs, t, ht, rfl⟩ := boxMul_exact la lb hv
        exact ⟨s, hs, t, ht, rfl⟩
    · rintro v ⟨s, hs, t, ht, hv⟩
      exact (box_sound exactDir).op o (by rcases ho with rfl | rfl | rfl <;> simp) a b j h s hs t ht v hv
  neg i hn := by
    ext v
    constructor
    · rintro ⟨h1, h2⟩
      have h1 : -i.2 ≤ v := h1
      have h2 : v ≤ -i.1 := h2
      exact ⟨-v, ⟨by linarith, by linarith⟩, by simp⟩
    · rintro ⟨t, ht, rfl⟩
      exact (box_sound exactDir).neg i t ht
  abs i hn := by
    obtain ⟨t, h1, h2⟩ := hn
    ext v
    constructor
    · rintro ⟨h3, h4⟩
      have h0 : 0 ≤ v := (le_max_left _ _).trans h3
      have h5 := (le_max_left i.1 (-i.2)).trans ((le_max_right 0 _).trans h3)
      have h6 := (le_max_right i.1 (-i.2)).trans ((le_max_right 0 _).trans h3)
      rcases le_max_iff.1 h4 with h | h
      · by_cases h7 : v ≤ i.2
        · exact ⟨v, ⟨h5, h7⟩, (abs_of_nonneg h0).symm⟩
        · exact ⟨-v, ⟨by linarith, by linarith⟩, by rw [abs_neg, abs_of_nonneg h0]⟩
      · exact ⟨v, ⟨h5, h⟩, (abs_of_nonneg h0).symm⟩
    · rintro ⟨t, ht, rfl⟩
      exact (box_sound exactDir).abs i t ht

/-- Without rounding, smaller operands have smaller results. -/
theorem Ivl.Exact.isotone (hA : A.Exact) : A.Isotone where
  op o ho a b a' b' j j' sa sb na nb h h' := by
    rw [hA.op o ho a b j na nb h, hA.op o ho a' b' j' (na.mono sa) (nb.mono sb) h']
    rintro v ⟨s, hs, t, ht, hv⟩
    exact ⟨s, sa hs, t, sb ht, hv⟩
  neg i i' hn hs := by
    rw [hA.neg i hn, hA.neg i' (hn.mono hs)]
    rintro v ⟨t, ht, rfl⟩
    exact ⟨t, hs ht, rfl⟩
  abs i i' hn hs := by
    rw [hA.abs i hn, hA.abs i' (hn.mono hs)]
    rintro v ⟨t, ht, rfl⟩
    exact ⟨t, hs ht, rfl⟩

theorem box_round {d : Dir} (h1 : Monotone d.dn) (h2 : Monotone d.up) {o : Op} (ho : o = .add ∨ o = .sub ∨ o = .mul)
    {a b : (ℝ × ℝ) ⊕ Option ℝ} {j : ℝ × ℝ} (h : (box d).op o a b = some j) :
    ∃ k, (box exactDir).op o a b = some k ∧ j = (d.dn k.1, d.up k.2) := by
  simp only [box, Option.bind_eq_bind, Option.bind_eq_some_iff] at h
  obtain ⟨a', ha, b', hb, h⟩ := h
  simp only [box, ha, hb, Option.bind_eq_bind, Option.bind_some]
  rcases ho with rfl | rfl | rfl <;> cases h
  · exact ⟨_, rfl, rfl⟩
  · exact ⟨_, rfl, rfl⟩
  · exact ⟨_, rfl, by simp [boxMul, exactDir, h1.map_min, h2.map_max]⟩

/-- Rounding outwards keeps this, if it is monotone. -/
theorem box_isotone {d : Dir} (h1 : Monotone d.dn) (h2 : Monotone d.up) : (box d).Isotone where
  op o ho a b a' b' j j' sa sb na nb h h' := by
    obtain ⟨k, hk, rfl⟩ := box_round h1 h2 ho h
    obtain ⟨k', hk', rfl⟩ := box_round h1 h2 ho h'
    have hs : Set.Icc k.1 k.2 ⊆ Set.Icc k'.1 k'.2 := box_exact.isotone.op o ho a b a' b' k k' sa sb na nb hk hk'
    have hn : k.1 ≤ k.2 := by
      obtain ⟨s, hs⟩ := na
      obtain ⟨t, ht⟩ := nb
      obtain ⟨v, hv⟩ : ∃ v, binVal o.rt s t = some v := by rcases ho with rfl | rfl | rfl <;> exact ⟨_, rfl⟩
      have := (box_sound exactDir).op o (by rcases ho with rfl | rfl | rfl <;> simp) a b k hk s hs t ht v hv
      exact this.1.trans this.2
    obtain ⟨h3, h4⟩ := (Set.Icc_subset_Icc_iff hn).1 hs
    exact Set.Icc_subset_Icc (h1 h3) (h2 h4)
  neg := box_exact.isotone.neg
  abs := box_exact.isotone.abs

/-- `3 - 2 * x` on [0,2] is [-1,3], and nothing else. -/
example : isub (box exactDir) ['x'] (0, 2) (.bin .sub (.num (some 3)) (.bin .mul (.num (some 2)) (.var ['x']))) = some (.ivl (-1, 3)) ∧
    ((E.bin .sub (.num (some 3)) (.bin .mul (.num (some 2)) (.var ['x']))).Arithmetic ['x'] ∧
      (E.bin .sub (.num (some 3)) (.bin .mul (.num (some 2)) (.var ['x']))).occurs ['x'] = 1) ∧
    ((box exactDir).mem (0, 2)).Nonempty := by
  refine ⟨?_, ⟨⟨by simp, by simp [E.Arithmetic], by simp, by simp [E.Arithmetic], rfl⟩, by simp [E.occurs]⟩, 0, by simp [box]⟩
  have h2 : (box exactDir).op .mul (.inr (some 2)) (.inl (0, 2)) = some (0, 4) := by
    simp [box, ends, boxMul, exactDir]; norm_num
  have h3 : (box exactDir).op .sub (.inr (some 3)) (.inl (0, 4)) = some (-1, 3) := by
    simp [box, ends, exactDir]; norm_num
  simp only [isub, Option.bind_eq_bind, Option.bind_some, if_true, iapply, IE.isC, E.isC, Bool.false_eq_true, if_false, inode,
    IE.kind, h2, h3, Option.map_some]

end Stator.Ct
