import Verif.Ct.Calculus
import Mathlib.Analysis.Calculus.Deriv.Abs

/-!
# Derivatives of compile-time expressions (C58)
-/

namespace Stator.Ct

open Filter Topology

theorem at_eq (ρ : List Char → ℝ) (x : List Char) (e : E) : e.at ρ x (ρ x) = e.fn ρ := by
  simp [E.at, at_self]

theorem opMul_null_left {r e : E} (h : opMul (.c .null) r = some e) : e = .c .null := by
  unfold opMul at h
  split at h
  · rename_i a b ha
    cases ha
    simp only [Option.some.injEq] at h; subst h
    have := (C.C39_arithmetic .null b).2.2.1
    rw [this]; simp [C.toRat, C.null, C.ofInt, C.ofRat]
  · simp only [isC_iff, if_true] at h
    split at h <;> simp_all

theorem opMul_null_right {l e : E} (h : opMul l (.c .null) = some e) : e = .c .null := by
  unfold opMul at h
  split at h
  · rename_i a b ha
    cases ha
    simp only [Option.some.injEq] at h; subst h
    have := (C.C39_arithmetic a .null).2.2.1
    rw [this]; simp [C.toRat, C.null, C.ofInt, C.ofRat]
  · simp only [isC_iff, if_true] at h
    simp_all

theorem opAdd_null_right {l e : E} (h : opAdd l (.c .null) = some e) :
    e = l ∨ ∃ a, l = .c a ∧ e = .c (a.add .null) := by
  unfold opAdd at h
  split at h
  · rename_i a b ha
    cases ha
    simp only [Option.some.injEq] at h; exact .inr ⟨a, rfl, h.symm⟩
  · simp only [isC_iff, if_true] at h
    exact .inl (by simpa using h.symm)

theorem opAdd_null_reg {l e : E} {ρ : List Char → ℝ} (h : opAdd l (.c .null) = some e) (hl : l.Reg ρ) :
    e.Reg ρ ∧ e.fn ρ = l.fn ρ := by
  have := applyOp_reg (o := .add) (ρ := ρ) h ⟨hl, trivial⟩
  refine ⟨this.1, ?_⟩
  rw [this.2]; simp [E.fn, C.null, C.ofInt]

theorem formed_un_c {o : UnOp} {q : C} (h : (E.un o (.c q)).formed) : o = .arbsign := by
  have h := h.2
  cases o <;> simp [applyUn, opNeg] at h ⊢

theorem formed_trig {o : UnOp} {a : E} (h : (E.un o a).formed) (ho : o ≠ .arbsign) (p : UnOp) :
    TrigOk p a := by
  rintro _ q rfl
  exact absurd (formed_un_c h) ho

/-- The result of `derivative` is smooth where the expression is, and is its derivative. -/
theorem deriv_reg {e e' : E} {ρ : List Char → ℝ} {x : List Char} (hf : e.formed)
    (h : deriv x e = some e') (hr : e.Reg ρ) :
    e'.Reg ρ ∧ HasDerivAt (e.at ρ x) (e'.fn ρ) (ρ x) := by
  induction e generalizing e' with
  | c a =>
    simp only [deriv, Option.some.injEq] at h; subst h
    refine ⟨trivial, ?_⟩
    rw [fn_c, C.val_null]; exact hasDerivAt_const (ρ x) ((E.c a).fn ρ)
  | num v =>
    simp only [deriv, Option.some.injEq] at h; subst h
    refine ⟨trivial, ?_⟩
    rw [fn_c, C.val_null]; exact hasDerivAt_const (ρ x) ((E.num v).fn ρ)
  | var n =>
    simp only [deriv, Option.some.injEq] at h; subst h
    refine ⟨trivial, ?_⟩
    by_cases hn : n = x
    · have : (E.var n).at ρ x = id := by funext t; simp [E.at, E.fn, at_, hn]
      rw [this, if_pos hn]; simpa using hasDerivAt_id (ρ x)
    · have : (E.var n).at ρ x = fun _ => ρ n := by funext t; simp [E.at, E.fn, at_, hn]
      rw [this, if_neg hn]; simpa using hasDerivAt_const (ρ x) (ρ n)
  | un o a ih =>
    simp only [deriv, Option.bind_eq_bind, Option.bind_eq_some_iff] at h
    obtain ⟨a', ha, h⟩ := h
    have hne : o ≠ .arbsign := by rintro rfl; simp [E.Reg] at hr
    have ht := formed_trig hf hne
    cases o <;> simp only [Option.bind_eq_some_iff] at h <;> simp only [E.Reg] at hr
    · obtain ⟨b, hb, h⟩ := h
      obtain ⟨r1, d1⟩ := ih hf.1 ha hr
      obtain ⟨r2, v2⟩ := applyUn_reg hb (ht _) (ρ := ρ) hr
      obtain ⟨r3, v3⟩ := applyOp_reg (o := .mul) h (ρ := ρ) ⟨r1, r2⟩
      refine ⟨r3, ?_⟩
      have := d1.sin
      rw [at_eq] at this
      rw [v3]; simp only [E.fn, v2]
      rw [mul_comm]; exact this
    · obtain ⟨b, hb, c, hc, h⟩ := h
      obtain ⟨r1, d1⟩ := ih hf.1 ha hr
      have hb' := opNeg_reg hb r1
      have vb : b.fn ρ = -a'.fn ρ := fn_of_vals (e := .un .neg a') r1 hb' (opNeg_vals hb ρ)
      obtain ⟨r2, v2⟩ := applyUn_reg hc (ht _) (ρ := ρ) hr
      obtain ⟨r3, v3⟩ := applyOp_reg (o := .mul) h (ρ := ρ) ⟨hb', r2⟩
      refine ⟨r3, ?_⟩
      have := d1.cos
      rw [at_eq] at this
      rw [v3]; simp only [E.fn, v2, vb]
      rw [show -a'.fn ρ * Real.sin (a.fn ρ) = -Real.sin (a.fn ρ) * a'.fn ρ by ring]; exact this
    · obtain ⟨r1, d1⟩ := ih hf.1 ha hr
      obtain ⟨r3, v3⟩ := applyOp_reg (o := .mul) h (ρ := ρ) ⟨r1, hr⟩
      refine ⟨r3, ?_⟩
      have := d1.exp
      rw [at_eq] at this
      rw [v3]; simp only [E.fn]
      rw [mul_comm]; exact this
    · obtain ⟨r1, d1⟩ := ih hf.1 ha hr.1
      obtain ⟨r3, v3⟩ := applyOp_reg (o := .div) h (ρ := ρ) ⟨r1, hr.1, hr.2.ne'⟩
      refine ⟨r3, ?_⟩
      have := d1.log (by rw [at_eq]; exact hr.2.ne')
      rw [at_eq] at this
      rw [v3]; exact this
    · obtain ⟨c, hc, b, hb, h⟩ := h
      obtain ⟨r1, d1⟩ := ih hf.1 ha hr.1
      obtain ⟨r2, v2⟩ := applyUn_reg hc (ht _) (ρ := ρ) hr
      obtain ⟨r3, v3⟩ := applyOp_reg (o := .mul) hb (ρ := ρ) ⟨r1, r2⟩
      obtain ⟨r4, v4⟩ := applyOp_reg (o := .div) h (ρ := ρ) ⟨r3, hr.1, hr.2⟩
      refine ⟨r4, ?_⟩
      rw [v4]; simp only [E.fn, v3, v2]
      rcases lt_or_gt_of_ne hr.2 with h0 | h0
      · have := (hasDerivAt_abs_neg (x := a.at ρ x (ρ x)) (by rw [at_eq]; exact h0)).comp (ρ x) d1
        rw [abs_of_neg h0]
        refine HasDerivAt.congr_deriv this ?_
        rw [eq_div_iff hr.2]; ring
      · have := (hasDerivAt_abs_pos (x := a.at ρ x (ρ x)) (by rw [at_eq]; exact h0)).comp (ρ x) d1
        rw [abs_of_pos h0]
        refine HasDerivAt.congr_deriv this ?_
        field_simp
    · obtain ⟨r1, d1⟩ := ih hf.1 ha hr
      have hb' := opNeg_reg h r1
      have vb : e'.fn ρ = -a'.fn ρ := fn_of_vals (e := .un .neg a') r1 hb' (opNeg_vals h ρ)
      exact ⟨hb', by rw [vb]; exact d1.neg⟩
  | bin o l r ih1 ih2 =>
    obtain ⟨fl, fr, hf⟩ := hf
    cases o <;> simp only [E.Reg] at hr
    · simp only [deriv, Option.bind_eq_bind, Option.bind_eq_some_iff] at h
      obtain ⟨l', hl, r', hr', h⟩ := h
      obtain ⟨r1, d1⟩ := ih1 fl hl hr.1
      obtain ⟨r2, d2⟩ := ih2 fr hr' hr.2
      obtain ⟨r3, v3⟩ := applyOp_reg (o := .add) h (ρ := ρ) ⟨r1, r2⟩
      exact ⟨r3, by rw [v3]; exact d1.add d2⟩
    · simp only [deriv, Option.bind_eq_bind, Option.bind_eq_some_iff] at h
      obtain ⟨l', hl, r', hr', h⟩ := h
      obtain ⟨r1, d1⟩ := ih1 fl hl hr.1
      obtain ⟨r2, d2⟩ := ih2 fr hr' hr.2
      obtain ⟨r3, v3⟩ := applyOp_reg (o := .sub) h (ρ := ρ) ⟨r1, r2⟩
      exact ⟨r3, by rw [v3]; exact d1.sub d2⟩
    · simp only [deriv, Option.bind_eq_bind, Option.bind_eq_some_iff] at h
      obtain ⟨l', hl, u, hu, r', hr', v, hv, h⟩ := h
      obtain ⟨r1, d1⟩ := ih1 fl hl hr.1
      obtain ⟨r2, d2⟩ := ih2 fr hr' hr.2
      obtain ⟨r3, v3⟩ := applyOp_reg (o := .mul) hu (ρ := ρ) ⟨r1, hr.2⟩
      obtain ⟨r4, v4⟩ := applyOp_reg (o := .mul) hv (ρ := ρ) ⟨hr.1, r2⟩
      obtain ⟨r5, v5⟩ := applyOp_reg (o := .add) h (ρ := ρ) ⟨r3, r4⟩
      refine ⟨r5, ?_⟩
      have := d1.mul d2
      rw [at_eq, at_eq] at this
      rw [v5]; simp only [E.fn, v3, v4]; exact this
    · simp only [deriv, Option.bind_eq_bind, Option.bind_eq_some_iff] at h
      obtain ⟨l', hl, u, hu, r', hr', v, hv, s, hs, q, hq, h⟩ := h
      obtain ⟨r1, d1⟩ := ih1 fl hl hr.1
      obtain ⟨r2, d2⟩ := ih2 fr hr' hr.2.1
      obtain ⟨r3, v3⟩ := applyOp_reg (o := .mul) hu (ρ := ρ) ⟨r1, hr.2.1⟩
      obtain ⟨r4, v4⟩ := applyOp_reg (o := .mul) hv (ρ := ρ) ⟨hr.1, r2⟩
      obtain ⟨r5, v5⟩ := applyOp_reg (o := .sub) hs (ρ := ρ) ⟨r3, r4⟩
      obtain ⟨r6, v6⟩ := applyOp_reg (o := .pow) hq (ρ := ρ) ⟨hr.2.1, trivial, .inr (.inl ⟨2, rfl⟩)⟩
      have v6' : q.fn ρ = r.fn ρ ^ 2 := by
        rw [v6]; simp [E.fn, C.ofInt]
      obtain ⟨r7, v7⟩ := applyOp_reg (o := .div) h (ρ := ρ)
        ⟨r5, r6, by rw [v6']; exact pow_ne_zero 2 hr.2.2⟩
      refine ⟨r7, ?_⟩
      have := d1.div d2 (by rw [at_eq]; exact hr.2.2)
      rw [at_eq, at_eq] at this
      rw [v7]; simp only [E.fn, v5, v3, v4, v6']; exact this
    · obtain ⟨hl0, hr0, hcond⟩ := hr
      by_cases hrc : ∃ q, r = .c q
      · obtain ⟨q, rfl⟩ := hrc
        simp only [deriv, Option.bind_eq_bind, Option.bind_eq_some_iff] at h
        obtain ⟨l', hl, u, hu, p, hp, h⟩ := h
        obtain ⟨r1, d1⟩ := ih1 fl hl hl0
        obtain ⟨r2, v2⟩ := applyOp_reg (o := .mul) hu (ρ := ρ) ⟨trivial, r1⟩
        have main : ∀ (hdp : (E.bin .pow l (.c (q.sub .unity))).Reg ρ)
            (hd : HasDerivAt ((E.bin .pow l (.c q)).at ρ x)
              (l'.fn ρ * q.val * l.fn ρ ^ (q.val - 1)) (ρ x)),
            e'.Reg ρ ∧ HasDerivAt ((E.bin .pow l (.c q)).at ρ x) (e'.fn ρ) (ρ x) := by
          intro hdp hd
          obtain ⟨r3, v3⟩ := applyOp_reg (o := .pow) hp (ρ := ρ) hdp
          obtain ⟨r4, v4⟩ := applyOp_reg (o := .mul) h (ρ := ρ) ⟨r2, r3⟩
          refine ⟨r4, ?_⟩
          have v3' : p.fn ρ = l.fn ρ ^ (q.val - 1) := by
            rw [v3]; simp only [E.fn, ← C.val.eq_def, C.val_sub, C.val_unity]
          rw [v4]; simp only [E.fn, v2, v3']
          convert hd using 1
          simp only [← C.val.eq_def]; ring
        have rp : ∀ (h0 : l.fn ρ ≠ 0 ∨ 1 ≤ q.val),
            HasDerivAt ((E.bin .pow l (.c q)).at ρ x)
              (l'.fn ρ * q.val * l.fn ρ ^ (q.val - 1)) (ρ x) := by
          intro h0
          have := d1.rpow_const (p := q.val) (by rw [at_eq]; exact h0)
          rw [at_eq] at this; exact this
        rcases hcond with h0 | ⟨n, hn⟩ | ⟨⟨m, hm⟩, h0⟩
        · exact main ⟨hl0, trivial, .inl h0⟩ (rp (.inl h0.ne'))
        · obtain rfl : q = .ofInt n := by simpa using hn
          cases n with
          | zero =>
            have hu' : u = .c .null := opMul_null_left hu
            subst hu'
            have := opMul_null_left h
            subst this
            refine ⟨trivial, ?_⟩
            have e1 : (E.bin .pow l (.c (.ofInt ((0 : ℕ) : ℤ)))).at ρ x = fun _ => 1 := by
              funext t; simp [E.at, E.fn, C.ofInt]
            rw [e1]; simpa using hasDerivAt_const (ρ x) (1 : ℝ)
          | succ n =>
            refine main ⟨hl0, trivial, .inr (.inl ⟨n, ?_⟩)⟩ (rp (.inr (by simp)))
            rw [(C.C39_arithmetic _ _).2.1]
            simp [C.toRat, C.ofInt, C.unity, C.ofRat]
        · refine main ⟨hl0, trivial, .inr (.inr ⟨⟨m - 1, ?_⟩, h0⟩)⟩ (rp (.inl h0))
          rw [C.val_sub, hm]; simp
      · have hd : deriv x (.bin .pow l r) = (do
            opAdd (← opMul (← opMul r (← deriv x l)) (← opPow l (← opSub r (.c .unity))))
              (← opMul (← opMul (← deriv x r) (← applyUn .log l)) (.bin .pow l r))) := by
          cases r <;> first | exact absurd ⟨_, rfl⟩ hrc | rfl
        rw [hd] at h
        simp only [Option.bind_eq_bind, Option.bind_eq_some_iff] at h
        obtain ⟨l', hl, B, hB, s, hs, P, hP, A, hA, r', hr', L, hL, G, hG, D, hD, h⟩ := h
        obtain ⟨r1, d1⟩ := ih1 fl hl hl0
        obtain ⟨r2, d2⟩ := ih2 fr hr' hr0
        obtain ⟨rs, vs⟩ := applyOp_reg (o := .sub) hs (ρ := ρ) ⟨hr0, trivial⟩
        have vs' : s.fn ρ = r.fn ρ - 1 := by rw [vs]; simp [E.fn, C.unity, C.ofInt]
        obtain ⟨rB, vB⟩ := applyOp_reg (o := .mul) hB (ρ := ρ) ⟨hr0, r1⟩
        rcases hcond with h0 | ⟨n, hn⟩ | ⟨hi, h0⟩
        · obtain ⟨rP, vP⟩ := applyOp_reg (o := .pow) hP (ρ := ρ) ⟨hl0, rs, .inl h0⟩
          obtain ⟨rA, vA⟩ := applyOp_reg (o := .mul) hA (ρ := ρ) ⟨rB, rP⟩
          obtain ⟨rL, vL⟩ := applyUn_reg hL (by rintro (h | h) <;> cases h) (ρ := ρ) ⟨hl0, h0⟩
          obtain ⟨rG, vG⟩ := applyOp_reg (o := .mul) hG (ρ := ρ) ⟨r2, rL⟩
          obtain ⟨rD, vD⟩ := applyOp_reg (o := .mul) hD (ρ := ρ) ⟨rG, hl0, hr0, .inl h0⟩
          obtain ⟨rE, vE⟩ := applyOp_reg (o := .add) h (ρ := ρ) ⟨rA, rD⟩
          refine ⟨rE, ?_⟩
          have := d1.rpow d2 (by rw [at_eq]; exact h0)
          rw [at_eq, at_eq] at this
          rw [vE]; simp only [E.fn, vA, vB, vP, vs', vD, vG, vL]
          refine HasDerivAt.congr_deriv this ?_
          ring
        · exact absurd ⟨_, hn⟩ hrc
        · cases r <;> simp only [E.isInt] at hi
          · exact absurd ⟨_, rfl⟩ hrc
          · obtain ⟨m, rfl⟩ := hi
            simp only [deriv, Option.some.injEq] at hr'
            subst hr'
            obtain rfl := opMul_null_left hG
            obtain rfl := opMul_null_left hD
            have hs' : s = .num (some ((m : ℝ) - 1)) := by
              simp [opSub, node, E.number, numOp, Op.rt, binVal, E.isC, C.unity, C.null, C.ofInt] at hs
              rw [← hs]; simp [C.val]
            obtain ⟨rP, vP⟩ := applyOp_reg (o := .pow) hP (ρ := ρ)
              ⟨hl0, rs, .inr (.inr ⟨by rw [hs']; exact ⟨m - 1, by push_cast; rfl⟩, h0⟩)⟩
            obtain ⟨rA, vA⟩ := applyOp_reg (o := .mul) hA (ρ := ρ) ⟨rB, rP⟩
            obtain ⟨rE, vE⟩ := opAdd_null_reg h rA
            refine ⟨rE, ?_⟩
            have := d1.rpow_const (p := (m : ℝ)) (by rw [at_eq]; exact .inl h0)
            rw [at_eq] at this
            rw [vE]; simp only [vA, E.fn, vB, vP, vs', Option.getD_some]
            refine HasDerivAt.congr_deriv this ?_
            ring

end Stator.Ct
