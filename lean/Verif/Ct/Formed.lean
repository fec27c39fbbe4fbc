import Verif.Ct.DerivProps

/-!
# Trees built by the operators; substitution (C59)
-/

namespace Stator.Ct

theorem opNeg_formed {a e : E} (h : opNeg a = some e) (ha : a.formed) : e.formed := by
  unfold opNeg at h
  split at h <;> simp only [Option.some.injEq] at h <;> subst h
  · trivial
  · trivial
  · refine ⟨ha, ?_⟩
    rename_i h1 h2
    cases a <;> simp_all [applyUn, opNeg]

theorem applyUn_formed {o : UnOp} {a e : E} (h : applyUn o a = some e) (ha : a.formed) : e.formed := by
  by_cases hn : o = .neg
  · subst hn; exact opNeg_formed h ha
  by_cases hs : o = .arbsign
  · subst hs
    have h' := h
    simp only [applyUn, Option.some.injEq] at h
    subst h; exact ⟨ha, h'⟩
  have h' := h
  cases a with
  | c q =>
    cases o <;> simp only [applyUn, Option.map_eq_some_iff, Option.some.injEq] at h
    · obtain ⟨r, _, rfl⟩ := h; trivial
    · obtain ⟨r, _, rfl⟩ := h; trivial
    · subst h; trivial
    · subst h; trivial
    · subst h; trivial
    · exact absurd rfl hs
    · exact absurd rfl hn
  | num v =>
    have : e = .num (v.bind (unVal o)) := by cases o <;> simp_all [applyUn]
    subst this; trivial
  | var n =>
    have : e = .un o (.var n) := by cases o <;> simp_all [applyUn]
    subst this; exact ⟨ha, h'⟩
  | un p b =>
    have : e = .un o (.un p b) := by cases o <;> simp_all [applyUn]
    subst this; exact ⟨ha, h'⟩
  | bin p b c =>
    have : e = .un o (.bin p b c) := by cases o <;> simp_all [applyUn]
    subst this; exact ⟨ha, h'⟩

theorem node_cases (o : Op) (l r : E) : (∃ v, node o l r = .num v) ∨ node o l r = .bin o l r := by
  unfold node; split
  · exact .inl ⟨_, rfl⟩
  · exact .inr rfl

/-- What an operator can return: an operand, a negated operand, a constant, a number or a node. -/
theorem applyOp_cases {o : Op} {l r e : E} (h : applyOp o l r = some e) :
    e = l ∨ e = r ∨ opNeg r = some e ∨ (∃ a, e = .c a) ∨ (∃ v, e = .num v) ∨ e = .bin o l r := by
  have hn := fun o => node_cases o l r
  cases o <;> simp only [applyOp] at h
  · unfold opAdd at h
    repeat' split at h
    all_goals simp only [Option.some.injEq] at h
    all_goals try subst h
    all_goals first
      | exact .inl rfl
      | exact .inr (.inl rfl)
      | exact .inr (.inr (.inr (.inl ⟨_, rfl⟩)))
      | exact .inr (.inr (.inr (.inr (hn _))))
  · unfold opSub at h
    repeat' split at h
    all_goals first
      | exact .inr (.inr (.inl h))
      | simp only [Option.some.injEq] at h
    all_goals try subst h
    all_goals first
      | exact .inl rfl
      | exact .inr (.inr (.inr (.inl ⟨_, rfl⟩)))
      | exact .inr (.inr (.inr (.inr (hn _))))
  · unfold opMul at h
    repeat' split at h
    all_goals simp only [Option.some.injEq] at h
    all_goals try subst h
    all_goals first
      | exact .inl rfl
      | exact .inr (.inl rfl)
      | exact .inr (.inr (.inr (.inl ⟨_, rfl⟩)))
      | exact .inr (.inr (.inr (.inr (hn _))))
  · unfold opDiv at h
    repeat' split at h
    · rw [Option.map_eq_some_iff] at h
      obtain ⟨c, _, rfl⟩ := h; exact .inr (.inr (.inr (.inl ⟨_, rfl⟩)))
    · simp only [Option.some.injEq] at h; subst h
      exact .inr (.inr (.inr (.inr (hn _))))
  · unfold opPow at h
    repeat' split at h
    all_goals first | (simp at h; done) | simp only [Option.some.injEq] at h
    all_goals try subst h
    all_goals first
      | exact .inl rfl
      | exact .inr (.inr (.inr (.inr (.inl ⟨_, rfl⟩))))
      | exact .inr (.inr (.inr (.inr (.inr rfl))))
      | exact .inr (.inr (.inr (.inr (hn _))))

theorem applyOp_formed {o : Op} {l r e : E} (h : applyOp o l r = some e) (hl : l.formed)
    (hr : r.formed) : e.formed := by
  rcases applyOp_cases h with rfl | rfl | h1 | ⟨a, rfl⟩ | ⟨v, rfl⟩ | rfl
  · exact hl
  · exact hr
  · exact opNeg_formed h1 hr
  · trivial
  · trivial
  · exact ⟨hl, hr, h⟩

theorem deriv_formed {e e' : E} {x : List Char} (hf : e.formed) (h : deriv x e = some e') :
    e'.formed := by
  have ap {o : Op} {l r e : E} : applyOp o l r = some e → l.formed → r.formed → e.formed :=
    applyOp_formed
  induction e generalizing e' with
  | c a => simp only [deriv, Option.some.injEq] at h; subst h; trivial
  | num v => simp only [deriv, Option.some.injEq] at h; subst h; trivial
  | var n => simp only [deriv, Option.some.injEq] at h; subst h; trivial
  | un o a ih =>
    simp only [deriv, Option.bind_eq_bind, Option.bind_eq_some_iff] at h
    obtain ⟨a', ha, h⟩ := h
    have fa := ih hf.1 ha
    cases o <;> simp only [Option.bind_eq_some_iff] at h
    · obtain ⟨b, hb, h⟩ := h
      exact ap (o := .mul) h fa (applyUn_formed hb hf.1)
    · obtain ⟨b, hb, c, hc, h⟩ := h
      exact ap (o := .mul) h (opNeg_formed hb fa) (applyUn_formed hc hf.1)
    · exact ap (o := .mul) h fa hf
    · exact ap (o := .div) h fa hf.1
    · obtain ⟨c, hc, b, hb, h⟩ := h
      exact ap (o := .div) h (ap (o := .mul) hb fa (applyUn_formed hc hf.1)) hf.1
    · exact ap (o := .mul) h fa ⟨trivial, rfl⟩
    · exact opNeg_formed h fa
  | bin o l r ih1 ih2 =>
    have hf' := hf
    obtain ⟨fl, fr, hf⟩ := hf
    cases o
    · simp only [deriv, Option.bind_eq_bind, Option.bind_eq_some_iff] at h
      obtain ⟨l', hl, r', hr', h⟩ := h
      exact ap (o := .add) h (ih1 fl hl) (ih2 fr hr')
    · simp only [deriv, Option.bind_eq_bind, Option.bind_eq_some_iff] at h
      obtain ⟨l', hl, r', hr', h⟩ := h
      exact ap (o := .sub) h (ih1 fl hl) (ih2 fr hr')
    · simp only [deriv, Option.bind_eq_bind, Option.bind_eq_some_iff] at h
      obtain ⟨l', hl, u, hu, r', hr', v, hv, h⟩ := h
      exact ap (o := .add) h (ap (o := .mul) hu (ih1 fl hl) fr) (ap (o := .mul) hv fl (ih2 fr hr'))
    · simp only [deriv, Option.bind_eq_bind, Option.bind_eq_some_iff] at h
      obtain ⟨l', hl, u, hu, r', hr', v, hv, s, hs, q, hq, h⟩ := h
      exact ap (o := .div) h (ap (o := .sub) hs (ap (o := .mul) hu (ih1 fl hl) fr)
        (ap (o := .mul) hv fl (ih2 fr hr'))) (ap (o := .pow) hq fr trivial)
    · by_cases hrc : ∃ q, r = .c q
      · obtain ⟨q, rfl⟩ := hrc
        simp only [deriv, Option.bind_eq_bind, Option.bind_eq_some_iff] at h
        obtain ⟨l', hl, u, hu, p, hp, h⟩ := h
        exact ap (o := .mul) h (ap (o := .mul) hu trivial (ih1 fl hl)) (ap (o := .pow) hp fl trivial)
      · have hd : deriv x (.bin .pow l r) = (do
            opAdd (← opMul (← opMul r (← deriv x l)) (← opPow l (← opSub r (.c .unity))))
              (← opMul (← opMul (← deriv x r) (← applyUn .log l)) (.bin .pow l r))) := by
          cases r <;> first | exact absurd ⟨_, rfl⟩ hrc | rfl
        rw [hd] at h
        simp only [Option.bind_eq_bind, Option.bind_eq_some_iff] at h
        obtain ⟨l', hl, B, hB, s, hs, P, hP, A, hA, r', hr', L, hL, G, hG, D, hD, h⟩ := h
        exact ap (o := .add) h
          (ap (o := .mul) hA (ap (o := .mul) hB fr (ih1 fl hl))
            (ap (o := .pow) hP fl (ap (o := .sub) hs fr trivial)))
          (ap (o := .mul) hD (ap (o := .mul) hG (ih2 fr hr') (applyUn_formed hL fl)) hf')

/-! ## Substitution -/

/-- Substituting `a` for `x` does not make the argument of a `sin` or a `cos` a compile-time constant
other than zero. (Such constants are taken to be multiples of the real number `π`, see C40.) -/
def TrigSafe (x : List Char) (a : E) : E → Prop
  | .c _ => True
  | .num _ => True
  | .var _ => True
  | .un o e => TrigSafe x a e ∧ ∀ e', subst x a e = some e' → TrigOk o e'
  | .bin _ l r => TrigSafe x a l ∧ TrigSafe x a r

/-- An expression that is not a constant is not turned into one by inserting something that is not a
constant. -/
theorem subst_const {x : List Char} {a e : E} (ha : ∀ q, a ≠ .c q) (hf : e.formed) {q : C}
    (h : subst x a e = some (.c q)) : e = .c q := by
  induction e generalizing q with
  | c b => simpa [subst] using h
  | num v => simp [subst] at h
  | var n =>
    simp only [subst, Option.some.injEq] at h
    split at h
    · exact absurd h (ha q)
    · cases h
  | un o e ih =>
    exfalso
    simp only [subst, Option.bind_eq_bind, Option.bind_eq_some_iff] at h
    obtain ⟨e', he, h⟩ := h
    cases e' with
    | c b =>
      have := ih hf.1 he; subst this
      have := formed_un_c hf; subst this
      simp [applyUn] at h
    | num v => cases o <;> simp [applyUn, opNeg] at h
    | var n => cases o <;> simp [applyUn, opNeg] at h
    | un p b => cases o <;> simp [applyUn, opNeg] at h
    | bin p b c => cases o <;> simp [applyUn, opNeg] at h
  | bin o l r ih1 ih2 =>
    exfalso
    simp only [subst, Option.bind_eq_bind, Option.bind_eq_some_iff] at h
    obtain ⟨l', hl, r', hr, h⟩ := h
    obtain ⟨fl, fr, hf⟩ := hf
    have nn : ∀ o, node o l' r' ≠ .c q := by
      intro o; rcases node_cases o l' r' with ⟨v, h⟩ | h <;> rw [h] <;> simp
    have lc : ∀ {b}, l' = .c b → l = .c b := fun hb => ih1 fl (hb ▸ hl)
    have rc : ∀ {b}, r' = .c b → r = .c b := fun hb => ih2 fr (hb ▸ hr)
    cases o <;> simp only [applyOp] at h hf
    · unfold opAdd at h
      split at h
      · rename_i b d
        rw [lc rfl, rc rfl] at hf; simp [opAdd] at hf
      · split at h
        · rename_i h0
          rw [isC_iff] at h0
          simp only [Option.some.injEq] at h
          rw [lc h, rc h0] at hf; simp [opAdd] at hf
        · split at h
          · rename_i h0
            rw [isC_iff] at h0
            simp only [Option.some.injEq] at h
            rw [rc h, lc h0] at hf; simp [opAdd] at hf
          · simp only [Option.some.injEq] at h; exact nn _ h
    · unfold opSub at h
      split at h
      · rename_i b d
        rw [lc rfl, rc rfl] at hf; simp [opSub] at hf
      · split at h
        · rename_i h0
          rw [isC_iff] at h0
          simp only [Option.some.injEq] at h
          rw [lc h, rc h0] at hf; simp [opSub] at hf
        · split at h
          · rename_i h0
            rw [isC_iff] at h0
            cases r' with
            | c b => rw [rc rfl, lc h0] at hf; simp [opSub] at hf
            | num v => simp [opNeg] at h
            | var n => simp [opNeg] at h
            | un p b => simp [opNeg] at h
            | bin p b c => simp [opNeg] at h
          · simp only [Option.some.injEq] at h; exact nn _ h
    · have z1 : l' ≠ .c .null := by
        intro h0
        rw [lc h0] at hf
        have := opMul_null_left hf
        cases this
      have z2 : r' ≠ .c .null := by
        intro h0
        rw [rc h0] at hf
        have := opMul_null_right hf
        cases this
      unfold opMul at h
      split at h
      · rename_i b d
        rw [lc rfl, rc rfl] at hf; simp [opMul] at hf
      · simp only [isC_iff, z1, z2, if_false] at h
        split at h
        · rename_i h0
          simp only [Option.some.injEq] at h
          rw [lc h, rc (isC_iff.1 h0)] at hf; simp [opMul] at hf
        · split at h
          · rename_i h0
            simp only [Option.some.injEq] at h
            rw [rc h, lc (isC_iff.1 h0)] at hf; simp [opMul] at hf
          · simp only [Option.some.injEq] at h; exact nn _ h
    · unfold opDiv at h
      split at h
      · rename_i b d
        rw [lc rfl, rc rfl] at hf; simp [opDiv] at hf
      · simp only [Option.some.injEq] at h; exact nn _ h
    · unfold opPow at h
      split at h
      · simp at h
      · simp at h
      · repeat' split at h
        all_goals simp at h
      · rename_i h1 _
        split at h
        · simp only [Option.some.injEq] at h; simp_all
        · simp at h
      · simp only [Option.some.injEq] at h; exact nn _ h

/-- Inserting a number, or any expression that is not a compile-time constant, is always safe. -/
theorem trigSafe_of_not_const {x : List Char} {a e : E} (ha : ∀ q, a ≠ .c q) (hf : e.formed) :
    TrigSafe x a e := by
  induction e with
  | c a => trivial
  | num v => trivial
  | var n => trivial
  | un o e ih =>
    refine ⟨ih hf.1, ?_⟩
    rintro e' he (rfl | rfl) q rfl
    all_goals
      have := subst_const ha hf.1 he
      subst this
      exact absurd (formed_un_c hf) (by simp)
  | bin o l r ih1 ih2 => exact ⟨ih1 hf.1, ih2 hf.2.1⟩

/-- `sub(f, x = a)` has, for every value `w` of `a`, the values of `f` at the point where `x` is `w`. -/
theorem subst_vals {x : List Char} {a e e' : E} {ρ : List Char → ℝ} {w : ℝ} (hs : TrigSafe x a e)
    (h : subst x a e = some e') (hw : w ∈ a.vals ρ) : e.vals (at_ ρ x w) ⊆ e'.vals ρ := by
  induction e generalizing e' with
  | c b => simp only [subst, Option.some.injEq] at h; subst h; exact subset_rfl
  | num v => simp only [subst, Option.some.injEq] at h; subst h; exact subset_rfl
  | var n =>
    simp only [subst, Option.some.injEq] at h
    intro v hv
    simp only [vals_var, Set.mem_singleton_iff] at hv
    split at h
    · rename_i hn
      subst h; rw [hv, hn, at_same]; exact hw
    · rename_i hn
      subst h; rw [hv]; simp [at_, hn]
  | un o e ih =>
    simp only [subst, Option.bind_eq_bind, Option.bind_eq_some_iff] at h
    obtain ⟨b, hb, h⟩ := h
    refine subset_trans ?_ (applyUn_vals h (hs.2 b hb) ρ)
    intro v hv
    by_cases ho : o = .arbsign
    · subst ho
      rw [mem_vals_arbsign] at hv ⊢
      exact hv.imp (fun h => ih hs.1 hb h) (fun h => ih hs.1 hb h)
    · rw [mem_vals_un ho] at hv ⊢
      obtain ⟨y, hy, hv⟩ := hv
      exact ⟨y, ih hs.1 hb hy, hv⟩
  | bin o l r ih1 ih2 =>
    simp only [subst, Option.bind_eq_bind, Option.bind_eq_some_iff] at h
    obtain ⟨l', hl, r', hr, h⟩ := h
    refine subset_trans ?_ (applyOp_vals h ρ)
    rintro v ⟨y, hy, z, hz, hv⟩
    exact ⟨y, ih1 hs.1 hl hy, z, ih2 hs.2 hr hz, hv⟩

theorem subst_reg {x : List Char} {a e e' : E} {ρ : List Char → ℝ} (hs : TrigSafe x a e)
    (h : subst x a e = some e') (ha : a.Reg ρ) (he : e.Reg (at_ ρ x (a.fn ρ))) :
    e'.Reg ρ ∧ e'.fn ρ = e.fn (at_ ρ x (a.fn ρ)) := by
  induction e generalizing e' with
  | c b => simp only [subst, Option.some.injEq] at h; subst h; exact ⟨trivial, rfl⟩
  | num v => simp only [subst, Option.some.injEq] at h; subst h; exact ⟨he, rfl⟩
  | var n =>
    simp only [subst, Option.some.injEq] at h
    split at h
    · rename_i hn
      subst h; exact ⟨ha, by simp [E.fn, hn, at_same]⟩
    · rename_i hn
      subst h; exact ⟨trivial, by simp [E.fn, at_, hn]⟩
  | un o e ih =>
    simp only [subst, Option.bind_eq_bind, Option.bind_eq_some_iff] at h
    obtain ⟨b, hb, h⟩ := h
    have ih := ih hs.1 hb
    have hu : (E.un o b).Reg ρ ∧ (E.un o b).fn ρ = (E.un o e).fn (at_ ρ x (a.fn ρ)) := by
      cases o <;> simp only [E.Reg, E.fn] at he ⊢
      · exact ⟨(ih he).1, by rw [(ih he).2]⟩
      · exact ⟨(ih he).1, by rw [(ih he).2]⟩
      · exact ⟨(ih he).1, by rw [(ih he).2]⟩
      · exact ⟨⟨(ih he.1).1, by rw [(ih he.1).2]; exact he.2⟩, by rw [(ih he.1).2]⟩
      · exact ⟨⟨(ih he.1).1, by rw [(ih he.1).2]; exact he.2⟩, by rw [(ih he.1).2]⟩
      · exact ⟨(ih he).1, by rw [(ih he).2]⟩
    obtain ⟨r, v⟩ := applyUn_reg h (hs.2 b hb) hu.1
    exact ⟨r, v.trans hu.2⟩
  | bin o l r ih1 ih2 =>
    simp only [subst, Option.bind_eq_bind, Option.bind_eq_some_iff] at h
    obtain ⟨l', hl, r', hr, h⟩ := h
    have ih1 := ih1 hs.1 hl
    have ih2 := ih2 hs.2 hr
    have hu : (E.bin o l' r').Reg ρ ∧ (E.bin o l' r').fn ρ = (E.bin o l r).fn (at_ ρ x (a.fn ρ)) := by
      cases o <;> simp only [E.Reg, E.fn] at he ⊢
      · rw [(ih1 he.1).2, (ih2 he.2).2]; exact ⟨⟨(ih1 he.1).1, (ih2 he.2).1⟩, rfl⟩
      · rw [(ih1 he.1).2, (ih2 he.2).2]; exact ⟨⟨(ih1 he.1).1, (ih2 he.2).1⟩, rfl⟩
      · rw [(ih1 he.1).2, (ih2 he.2).2]; exact ⟨⟨(ih1 he.1).1, (ih2 he.2).1⟩, rfl⟩
      · rw [(ih1 he.1).2, (ih2 he.2.1).2]
        exact ⟨⟨(ih1 he.1).1, (ih2 he.2.1).1, he.2.2⟩, rfl⟩
      · rw [(ih1 he.1).2, (ih2 he.2.1).2]
        refine ⟨⟨(ih1 he.1).1, (ih2 he.2.1).1, ?_⟩, rfl⟩
        rcases he.2.2 with h0 | ⟨n, hn⟩ | ⟨hi, h0⟩
        · exact .inl h0
        · subst hn
          simp only [subst, Option.some.injEq] at hr
          exact .inr (.inl ⟨n, hr.symm⟩)
        · refine .inr (.inr ⟨?_, h0⟩)
          cases r <;> simp only [E.isInt] at hi <;> simp only [subst, Option.some.injEq] at hr <;>
            subst hr <;> exact hi
    obtain ⟨r, v⟩ := applyOp_reg h hu.1
    exact ⟨r, v.trans hu.2⟩

theorem opNeg_safe {x : List Char} {b a e : E} (h : opNeg a = some e) (ha : TrigSafe x b a) :
    TrigSafe x b e := by
  unfold opNeg at h
  split at h <;> simp only [Option.some.injEq] at h <;> subst h
  · trivial
  · trivial
  · exact ⟨ha, fun _ _ => by rintro (h | h) <;> cases h⟩

theorem applyOp_safe {x : List Char} {b : E} {o : Op} {l r e : E} (h : applyOp o l r = some e)
    (hl : TrigSafe x b l) (hr : TrigSafe x b r) : TrigSafe x b e := by
  rcases applyOp_cases h with rfl | rfl | h1 | ⟨a, rfl⟩ | ⟨v, rfl⟩ | rfl
  · exact hl
  · exact hr
  · exact opNeg_safe h1 hr
  · trivial
  · trivial
  · exact ⟨hl, hr⟩

theorem applyUn_safe {x : List Char} {b : E} {o : UnOp} {a e : E} (h : applyUn o a = some e)
    (ha : TrigSafe x b a) (ht : ∀ e', subst x b a = some e' → TrigOk o e') : TrigSafe x b e := by
  by_cases hn : o = .neg
  · subst hn; exact opNeg_safe h ha
  by_cases hs : o = .arbsign
  · subst hs
    simp only [applyUn, Option.some.injEq] at h
    subst h; exact ⟨ha, ht⟩
  cases a with
  | c q =>
    cases o <;> simp only [applyUn, Option.map_eq_some_iff, Option.some.injEq] at h
    · obtain ⟨r, _, rfl⟩ := h; trivial
    · obtain ⟨r, _, rfl⟩ := h; trivial
    · subst h; trivial
    · subst h; trivial
    · subst h; trivial
    · exact absurd rfl hs
    · exact absurd rfl hn
  | num v =>
    have : e = .num (v.bind (unVal o)) := by cases o <;> simp_all [applyUn]
    subst this; trivial
  | var n =>
    have : e = .un o (.var n) := by cases o <;> simp_all [applyUn]
    subst this; exact ⟨ha, ht⟩
  | un p b =>
    have : e = .un o (.un p b) := by cases o <;> simp_all [applyUn]
    subst this; exact ⟨ha, ht⟩
  | bin p b c =>
    have : e = .un o (.bin p b c) := by cases o <;> simp_all [applyUn]
    subst this; exact ⟨ha, ht⟩

theorem deriv_safe {e e' : E} {x y : List Char} {b : E} (hs : TrigSafe y b e) (h : deriv x e = some e') :
    TrigSafe y b e' := by
  have ap {o : Op} {l r e : E} : applyOp o l r = some e → TrigSafe y b l → TrigSafe y b r →
    TrigSafe y b e := applyOp_safe
  induction e generalizing e' with
  | c a => simp only [deriv, Option.some.injEq] at h; subst h; trivial
  | num v => simp only [deriv, Option.some.injEq] at h; subst h; trivial
  | var n => simp only [deriv, Option.some.injEq] at h; subst h; trivial
  | un o a ih =>
    simp only [deriv, Option.bind_eq_bind, Option.bind_eq_some_iff] at h
    obtain ⟨a', ha, h⟩ := h
    have fa := ih hs.1 ha
    have ht := hs.2
    cases o <;> simp only [Option.bind_eq_some_iff] at h
    · obtain ⟨u, hb, h⟩ := h
      exact ap (o := .mul) h fa (applyUn_safe hb hs.1 fun e' he _ => ht e' he (.inl rfl))
    · obtain ⟨u, hb, c, hc, h⟩ := h
      exact ap (o := .mul) h (opNeg_safe hb fa)
        (applyUn_safe hc hs.1 fun e' he _ => ht e' he (.inr rfl))
    · exact ap (o := .mul) h fa hs
    · exact ap (o := .div) h fa hs.1
    · obtain ⟨c, hc, u, hb, h⟩ := h
      exact ap (o := .div) h (ap (o := .mul) hb fa (applyUn_safe hc hs.1
        fun e' he => by rintro (h | h) <;> cases h)) hs.1
    · exact ap (o := .mul) h fa ⟨trivial, fun e' he => by rintro (h | h) <;> cases h⟩
    · exact opNeg_safe h fa
  | bin o l r ih1 ih2 =>
    have hs' := hs
    obtain ⟨fl, fr⟩ := hs
    cases o
    · simp only [deriv, Option.bind_eq_bind, Option.bind_eq_some_iff] at h
      obtain ⟨l', hl, r', hr', h⟩ := h
      exact ap (o := .add) h (ih1 fl hl) (ih2 fr hr')
    · simp only [deriv, Option.bind_eq_bind, Option.bind_eq_some_iff] at h
      obtain ⟨l', hl, r', hr', h⟩ := h
      exact ap (o := .sub) h (ih1 fl hl) (ih2 fr hr')
    · simp only [deriv, Option.bind_eq_bind, Option.bind_eq_some_iff] at h
      obtain ⟨l', hl, u, hu, r', hr', v, hv, h⟩ := h
      exact ap (o := .add) h (ap (o := .mul) hu (ih1 fl hl) fr) (ap (o := .mul) hv fl (ih2 fr hr'))
    · simp only [deriv, Option.bind_eq_bind, Option.bind_eq_some_iff] at h
      obtain ⟨l', hl, u, hu, r', hr', v, hv, s, hs, q, hq, h⟩ := h
      exact ap (o := .div) h (ap (o := .sub) hs (ap (o := .mul) hu (ih1 fl hl) fr)
        (ap (o := .mul) hv fl (ih2 fr hr'))) (ap (o := .pow) hq fr trivial)
    · by_cases hrc : ∃ q, r = .c q
      · obtain ⟨q, rfl⟩ := hrc
        simp only [deriv, Option.bind_eq_bind, Option.bind_eq_some_iff] at h
        obtain ⟨l', hl, u, hu, p, hp, h⟩ := h
        exact ap (o := .mul) h (ap (o := .mul) hu trivial (ih1 fl hl)) (ap (o := .pow) hp fl trivial)
      · have hd : deriv x (.bin .pow l r) = (do
            opAdd (← opMul (← opMul r (← deriv x l)) (← opPow l (← opSub r (.c .unity))))
              (← opMul (← opMul (← deriv x r) (← applyUn .log l)) (.bin .pow l r))) := by
          cases r <;> first | exact absurd ⟨_, rfl⟩ hrc | rfl
        rw [hd] at h
        simp only [Option.bind_eq_bind, Option.bind_eq_some_iff] at h
        obtain ⟨l', hl, B, hB, s, hs, P, hP, A, hA, r', hr', L, hL, G, hG, D, hD, h⟩ := h
        exact ap (o := .add) h
          (ap (o := .mul) hA (ap (o := .mul) hB fr (ih1 fl hl))
            (ap (o := .pow) hP fl (ap (o := .sub) hs fr trivial)))
          (ap (o := .mul) hD (ap (o := .mul) hG (ih2 fr hr') (applyUn_safe hL fl
            fun e' he => by rintro (h | h) <;> cases h)) hs')

end Stator.Ct
