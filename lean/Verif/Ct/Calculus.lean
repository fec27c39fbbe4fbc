import Verif.Ct.SimplifyProps
import Mathlib.Analysis.SpecialFunctions.Pow.Deriv
import Mathlib.Analysis.SpecialFunctions.Trigonometric.Deriv
import Mathlib.Analysis.Calculus.IteratedDeriv.Defs
import Mathlib.Analysis.Calculus.IteratedDeriv.Lemmas

/-!
# Smooth points of compile-time expressions
-/

namespace Stator.Ct

open Filter Topology

/-- Specification: the expression read as a formula over the real numbers. Only its value at smooth
points matters (see `E.Reg.mem_vals`). -/
noncomputable def E.fn (ρ : List Char → ℝ) : E → ℝ
  | .c a => (a.num : ℝ) / (a.den : ℝ)
  | .num v => v.getD 0
  | .var n => ρ n
  | .un .sin a => Real.sin (a.fn ρ)
  | .un .cos a => Real.cos (a.fn ρ)
  | .un .exp a => Real.exp (a.fn ρ)
  | .un .log a => Real.log (a.fn ρ)
  | .un .abs a => |a.fn ρ|
  | .un .neg a => -a.fn ρ
  | .un .arbsign _ => 0
  | .bin .add l r => l.fn ρ + r.fn ρ
  | .bin .sub l r => l.fn ρ - r.fn ρ
  | .bin .mul l r => l.fn ρ * r.fn ρ
  | .bin .div l r => l.fn ρ / r.fn ρ
  | .bin .pow l r => l.fn ρ ^ r.fn ρ

/-- The expression is an integer: a constant or a number with an integer value. -/
def E.isInt : E → Prop
  | .c a => ∃ n : ℤ, a.val = n
  | .num v => ∃ n : ℤ, v = some (n : ℝ)
  | _ => False

/-- Specification: the expression is defined and smooth at the point `ρ`: logarithms of positive
numbers, absolute values and denominators that are not zero; powers with a natural constant exponent,
with an integer exponent and a base that is not zero, or with a positive base; no `±`. -/
noncomputable def E.Reg (ρ : List Char → ℝ) : E → Prop
  | .c _ => True
  | .num v => v ≠ none
  | .var _ => True
  | .un .sin a => a.Reg ρ
  | .un .cos a => a.Reg ρ
  | .un .exp a => a.Reg ρ
  | .un .log a => a.Reg ρ ∧ 0 < a.fn ρ
  | .un .abs a => a.Reg ρ ∧ a.fn ρ ≠ 0
  | .un .neg a => a.Reg ρ
  | .un .arbsign _ => False
  | .bin .add l r => l.Reg ρ ∧ r.Reg ρ
  | .bin .sub l r => l.Reg ρ ∧ r.Reg ρ
  | .bin .mul l r => l.Reg ρ ∧ r.Reg ρ
  | .bin .div l r => l.Reg ρ ∧ r.Reg ρ ∧ r.fn ρ ≠ 0
  | .bin .pow l r => l.Reg ρ ∧ r.Reg ρ ∧
      (0 < l.fn ρ ∨ (∃ n : ℕ, r = .c (.ofInt n)) ∨ (r.isInt ∧ l.fn ρ ≠ 0))

/-- The tree is one the operators of the library build: no node that they would have replaced. -/
def E.formed : E → Prop
  | .c _ => True
  | .num _ => True
  | .var _ => True
  | .un o a => a.formed ∧ applyUn o a = some (.un o a)
  | .bin o l r => l.formed ∧ r.formed ∧ applyOp o l r = some (.bin o l r)

/-- A smooth expression as a function of one variable. -/
noncomputable def E.at (ρ : List Char → ℝ) (x : List Char) (e : E) (t : ℝ) : ℝ := e.fn (at_ ρ x t)

theorem at_self (ρ : List Char → ℝ) (x : List Char) : at_ ρ x (ρ x) = ρ := by
  funext n; by_cases h : n = x <;> simp [at_, h]

theorem at_at (ρ : List Char → ℝ) (x : List Char) (s t : ℝ) : at_ (at_ ρ x s) x t = at_ ρ x t := by
  funext n; by_cases h : n = x <;> simp [at_, h]

theorem at_same (ρ : List Char → ℝ) (x : List Char) (t : ℝ) : at_ ρ x t x = t := by simp [at_]

@[simp] theorem fn_c (ρ : List Char → ℝ) (a : C) : (E.c a).fn ρ = a.val := rfl

theorem isInt_fn {r : E} (h : r.isInt) : ∃ n : ℤ, ∀ ρ, r.fn ρ = n := by
  cases r <;> simp only [E.isInt] at h
  · obtain ⟨n, h⟩ := h; exact ⟨n, fun ρ => h⟩
  · obtain ⟨n, rfl⟩ := h; exact ⟨n, fun ρ => rfl⟩

theorem powCond_dom {l r : E} {ρ : List Char → ℝ}
    (h : 0 < l.fn ρ ∨ (∃ n : ℕ, r = .c (.ofInt n)) ∨ (r.isInt ∧ l.fn ρ ≠ 0)) :
    powDom (l.fn ρ) (r.fn ρ) := by
  rcases h with h | ⟨n, rfl⟩ | ⟨h, h0⟩
  · exact .inl h
  · simp only [fn_c, C.val_ofInt, Int.cast_natCast]
    rcases lt_trichotomy (l.fn ρ) 0 with h' | h' | h'
    · exact .inr (.inr ⟨h', n, by simp⟩)
    · exact .inr (.inl ⟨h', by positivity⟩)
    · exact .inl h'
  · obtain ⟨n, hn⟩ := isInt_fn h
    rw [hn]
    rcases lt_or_gt_of_ne h0 with h' | h'
    · exact .inr (.inr ⟨h', n, rfl⟩)
    · exact .inl h'

/-- At a smooth point the formula gives the value. -/
theorem E.Reg.mem_vals {e : E} {ρ : List Char → ℝ} (h : e.Reg ρ) : e.fn ρ ∈ e.vals ρ := by
  induction e with
  | c a => rfl
  | num v =>
    cases v with
    | none => exact absurd rfl h
    | some v => rfl
  | var n => rfl
  | un o a ih =>
    cases o <;> simp only [E.Reg] at h
    · exact ⟨_, ih h, rfl⟩
    · exact ⟨_, ih h, rfl⟩
    · exact ⟨_, ih h, rfl⟩
    · exact ⟨_, ih h.1, by simp [unVal, h.2, E.fn]⟩
    · exact ⟨_, ih h.1, rfl⟩
    · exact ⟨_, ih h, rfl⟩
  | bin o l r ih1 ih2 =>
    cases o <;> simp only [E.Reg] at h
    · exact ⟨_, ih1 h.1, _, ih2 h.2, rfl⟩
    · exact ⟨_, ih1 h.1, _, ih2 h.2, rfl⟩
    · exact ⟨_, ih1 h.1, _, ih2 h.2, rfl⟩
    · exact ⟨_, ih1 h.1, _, ih2 h.2.1, by simp [Op.rt, binVal, h.2.2, E.fn]⟩
    · exact ⟨_, ih1 h.1, _, ih2 h.2.1, binVal_pow.2 ⟨powCond_dom h.2.2, rfl⟩⟩

theorem E.Reg.plain {e : E} {ρ : List Char → ℝ} (h : e.Reg ρ) : e.plain := by
  induction e with
  | c a => trivial
  | num v => trivial
  | var n => trivial
  | un o a ih => cases o <;> simp only [E.Reg] at h <;> simp_all [E.plain]
  | bin o l r ih1 ih2 => cases o <;> simp only [E.Reg] at h <;> exact ⟨ih1 h.1, ih2 (by tauto)⟩

/-- At a smooth point the formula gives the only value. -/
theorem E.Reg.vals_eq {e : E} {ρ : List Char → ℝ} (h : e.Reg ρ) : e.vals ρ = {e.fn ρ} := by
  ext v
  exact ⟨fun hv => plain_unique h.plain hv h.mem_vals, fun hv => by
    rw [Set.mem_singleton_iff] at hv; rw [hv]; exact h.mem_vals⟩

theorem fn_of_vals {e e' : E} {ρ : List Char → ℝ} (h : e.Reg ρ) (h' : e'.Reg ρ)
    (hv : e.vals ρ ⊆ e'.vals ρ) : e'.fn ρ = e.fn ρ :=
  plain_unique h'.plain h'.mem_vals (hv h.mem_vals)

theorem num_reg {e : E} (h : e.number ≠ none) (ρ : List Char → ℝ) :
    e.Reg ρ ↔ ∃ v, e.number = some (some v) ∧ e.fn ρ = v := by
  cases e <;> simp [E.number] at h <;> simp only [E.number, E.Reg, E.fn]
  · exact ⟨fun _ => ⟨_, rfl, rfl⟩, fun _ => trivial⟩
  · rename_i v; cases v <;> simp

theorem node_reg {o : Op} {l r : E} {ρ : List Char → ℝ} (h : (E.bin o l r).Reg ρ) :
    (node o l r).Reg ρ := by
  have hv := h.mem_vals
  rw [← node_vals] at hv
  unfold node at hv ⊢
  split
  · rename_i x y hx hy
    simp only [hx, hy] at hv
    rw [mem_vals_num] at hv
    simp only [E.Reg]; rw [hv]; simp
  · exact h

theorem opNeg_reg {a e : E} {ρ : List Char → ℝ} (h : opNeg a = some e) (ha : a.Reg ρ) : e.Reg ρ := by
  unfold opNeg at h
  split at h <;> simp only [Option.some.injEq] at h <;> subst h
  · trivial
  · rename_i v
    cases v with
    | none => exact absurd rfl ha
    | some v => simp [E.Reg, unVal]
  · exact ha

/-- The operators keep smoothness, and the value. -/
theorem applyOp_reg {o : Op} {l r e : E} {ρ : List Char → ℝ} (h : applyOp o l r = some e)
    (hr : (E.bin o l r).Reg ρ) : e.Reg ρ ∧ e.fn ρ = (E.bin o l r).fn ρ := by
  suffices he : e.Reg ρ from ⟨he, fn_of_vals hr he (applyOp_vals h ρ)⟩
  have hn := node_reg hr
  cases o <;> simp only [applyOp] at h <;> simp only [E.Reg] at hr
  · unfold opAdd at h
    repeat' split at h
    all_goals simp only [Option.some.injEq] at h; subst h
    all_goals first | exact hr.1 | exact hr.2 | exact hn
  · unfold opSub at h
    repeat' split at h
    all_goals first | exact opNeg_reg h hr.2 | (simp only [Option.some.injEq] at h; subst h)
    all_goals first | exact hr.1 | exact hr.2 | exact hn
  · unfold opMul at h
    repeat' split at h
    all_goals simp only [Option.some.injEq] at h; subst h
    all_goals first | exact hr.1 | exact hr.2 | exact hn | trivial
  · unfold opDiv at h
    repeat' split at h
    · rw [Option.map_eq_some_iff] at h
      obtain ⟨c, _, rfl⟩ := h; trivial
    · simp only [Option.some.injEq] at h; subst h; exact hn
  · unfold opPow at h
    split at h
    · simp at h
    · simp at h
    · rename_i v b
      have hv : ∃ w, v = some w := by
        cases v with
        | none => exact absurd rfl hr.1
        | some w => exact ⟨w, rfl⟩
      obtain ⟨w, rfl⟩ := hv
      split at h
      · simp only [Option.some.injEq] at h; subst h; exact hr.1
      · split at h
        · simp only [Option.some.injEq] at h; subst h; simp [E.Reg]
        · simp only [Option.some.injEq] at h; subst h
          have := powCond_dom hr.2.2
          simp only [E.fn, Option.getD_some] at this
          have h2 : binVal (Op.rt .pow) w b.val = some (w ^ b.val) := binVal_pow.2 ⟨this, rfl⟩
          simp [E.Reg, numOp, h2]
    · split at h
      · simp only [Option.some.injEq] at h; subst h; exact hr.1
      · simp only [Option.some.injEq] at h; subst h; exact hr
    · simp only [Option.some.injEq] at h; subst h; exact hn

theorem applyUn_reg {o : UnOp} {a e : E} {ρ : List Char → ℝ} (h : applyUn o a = some e)
    (ht : TrigOk o a) (hr : (E.un o a).Reg ρ) : e.Reg ρ ∧ e.fn ρ = (E.un o a).fn ρ := by
  suffices he : e.Reg ρ from ⟨he, fn_of_vals hr he (applyUn_vals h ht ρ)⟩
  by_cases hn : o = .neg
  · subst hn; exact opNeg_reg h hr
  by_cases hs : o = .arbsign
  · subst hs; exact absurd hr (by simp [E.Reg])
  have hv := applyUn_vals h ht ρ hr.mem_vals
  cases a with
  | c q =>
    cases o <;> simp only [applyUn, Option.map_eq_some_iff, Option.some.injEq] at h
    · obtain ⟨r, _, rfl⟩ := h; trivial
    · obtain ⟨r, _, rfl⟩ := h; trivial
    · subst h; simp [E.Reg, unVal]
    · subst h; rw [mem_vals_num] at hv; simp [E.Reg, hv]
    · subst h; trivial
    · exact absurd rfl hs
    · exact absurd rfl hn
  | num v =>
    have : e = .num (v.bind (unVal o)) := by cases o <;> simp_all [applyUn]
    subst this; rw [mem_vals_num] at hv; simp [E.Reg, hv]
  | var n =>
    have : e = .un o (.var n) := by cases o <;> simp_all [applyUn]
    exact this ▸ hr
  | un p b =>
    have : e = .un o (.un p b) := by cases o <;> simp_all [applyUn]
    exact this ▸ hr
  | bin p b c =>
    have : e = .un o (.bin p b c) := by cases o <;> simp_all [applyUn]
    exact this ▸ hr

/-! ## Smooth points form open sets -/

theorem reg_near {e : E} {ρ : List Char → ℝ} {x : List Char} {w : ℝ} (h : e.Reg (at_ ρ x w)) :
    ContinuousAt (e.at ρ x) w ∧ ∀ᶠ t in 𝓝 w, e.Reg (at_ ρ x t) := by
  have near : ∀ {f : ℝ → ℝ}, ContinuousAt f w → 0 < f w → ∀ᶠ t in 𝓝 w, 0 < f t :=
    fun hc h0 => hc.eventually (lt_mem_nhds h0)
  have near0 : ∀ {f : ℝ → ℝ}, ContinuousAt f w → f w ≠ 0 → ∀ᶠ t in 𝓝 w, f t ≠ 0 :=
    fun hc h0 => hc.eventually (isOpen_ne.mem_nhds h0)
  induction e with
  | c a => exact ⟨continuousAt_const, .of_forall fun _ => trivial⟩
  | num v => exact ⟨continuousAt_const, .of_forall fun _ => h⟩
  | var n =>
    refine ⟨?_, .of_forall fun _ => trivial⟩
    by_cases hn : n = x
    · have : (E.var n).at ρ x = id := by funext t; simp [E.at, E.fn, at_, hn]
      rw [this]; exact continuousAt_id
    · have : (E.var n).at ρ x = fun _ => ρ n := by funext t; simp [E.at, E.fn, at_, hn]
      rw [this]; exact continuousAt_const
  | un o a ih =>
    cases o <;> simp only [E.Reg] at h
    · obtain ⟨hc, hr⟩ := ih h
      exact ⟨Real.continuous_sin.continuousAt.comp hc, hr⟩
    · obtain ⟨hc, hr⟩ := ih h
      exact ⟨Real.continuous_cos.continuousAt.comp hc, hr⟩
    · obtain ⟨hc, hr⟩ := ih h
      exact ⟨Real.continuous_exp.continuousAt.comp hc, hr⟩
    · obtain ⟨hc, hr⟩ := ih h.1
      exact ⟨ContinuousAt.comp (f := a.at ρ x) (Real.continuousAt_log h.2.ne') hc,
        hr.and (near hc h.2)⟩
    · obtain ⟨hc, hr⟩ := ih h.1
      exact ⟨continuous_abs.continuousAt.comp hc, hr.and (near0 hc h.2)⟩
    · obtain ⟨hc, hr⟩ := ih h
      exact ⟨hc.neg, hr⟩
  | bin o l r ih1 ih2 =>
    cases o <;> simp only [E.Reg] at h
    · obtain ⟨hc, hr⟩ := ih1 h.1
      obtain ⟨hc', hr'⟩ := ih2 h.2
      exact ⟨hc.add hc', hr.and hr'⟩
    · obtain ⟨hc, hr⟩ := ih1 h.1
      obtain ⟨hc', hr'⟩ := ih2 h.2
      exact ⟨hc.sub hc', hr.and hr'⟩
    · obtain ⟨hc, hr⟩ := ih1 h.1
      obtain ⟨hc', hr'⟩ := ih2 h.2
      exact ⟨hc.mul hc', hr.and hr'⟩
    · obtain ⟨hc, hr⟩ := ih1 h.1
      obtain ⟨hc', hr'⟩ := ih2 h.2.1
      exact ⟨hc.div hc' h.2.2, hr.and (hr'.and (near0 hc' h.2.2))⟩
    · obtain ⟨hc, hr⟩ := ih1 h.1
      obtain ⟨hc', hr'⟩ := ih2 h.2.1
      have hor := h.2.2
      rcases hor with h0 | ⟨n, rfl⟩ | ⟨hi, h0⟩
      · refine ⟨hc.rpow hc' (.inl h0.ne'), ?_⟩
        filter_upwards [hr, hr', near hc h0] with t h1 h2 h3 using ⟨h1, h2, .inl h3⟩
      · refine ⟨?_, ?_⟩
        · have : (E.bin .pow l (.c (.ofInt n))).at ρ x = fun t => l.at ρ x t ^ n := by
            funext t; simp [E.at, E.fn, ← C.val.eq_def, Real.rpow_natCast]
          rw [this]; exact hc.pow n
        · filter_upwards [hr, hr'] with t h1 h2 using ⟨h1, h2, .inr (.inl ⟨n, rfl⟩)⟩
      · refine ⟨hc.rpow hc' (.inl h0), ?_⟩
        filter_upwards [hr, hr', near0 hc h0] with t h1 h2 h3 using ⟨h1, h2, .inr (.inr ⟨hi, h3⟩)⟩

end Stator.Ct
