import Verif.Rt.Deriv
import Verif.Rt.SimplifyProps

/-!
# Properties C16, C17: derivatives
-/

namespace Stator

open Function

/-! ## Helper lemmas -/

theorem eval_update_absent (ρ : List Char → ℝ) (x : List Char) (t : ℝ) (e : Expr ℝ)
    (h : x ∉ e.vars) : e.eval (update ρ x t) = e.eval ρ := by
  induction e using Expr.ind with
  | const k => simp [Expr.eval]
  | var n =>
    simp [Expr.vars] at h
    simp [Expr.eval, update_of_ne (Ne.symm h)]
  | un o a ih => simp [Expr.eval, ih h]
  | bin o l r ih1 ih2 =>
    simp [Expr.vars] at h
    simp [Expr.eval, ih1 h.1, ih2 h.2]
  | arr => simp [Expr.eval]
  | dict => simp [Expr.eval]

theorem eval_un {ρ : List Char → ℝ} {o : UnOp} {a : Expr ℝ} {v : ℝ} :
    (Expr.un o a).eval ρ = some v ↔ ∃ y, a.eval ρ = some y ∧ unVal o y = some v := by
  simp [Expr.eval, Option.bind_eq_some_iff]

theorem evalS_mul {ρ : List Char → ℝ} {l r : Expr ℝ} {x y : ℝ} (hl : l.evalS ρ = some x)
    (hr : r.evalS ρ = some y) : (Expr.bin .mul l r).evalS ρ = some (x * y) := by
  by_cases h : x = 0 ∨ y = 0
  · rcases h with rfl | rfl <;> simp [Expr.evalS, hl, hr]
  · push Not at h
    simp [Expr.evalS, hl, hr, h, binVal]

theorem evalS_mul_left {ρ : List Char → ℝ} {l r : Expr ℝ} (hl : l.evalS ρ = some 0) :
    (Expr.bin .mul l r).evalS ρ = some 0 := by
  simp [Expr.evalS, hl]

theorem evalS_mul_right {ρ : List Char → ℝ} {l r : Expr ℝ} (hr : r.evalS ρ = some 0) :
    (Expr.bin .mul l r).evalS ρ = some 0 := by
  simp [Expr.evalS, hr]

theorem evalS_div {ρ : List Char → ℝ} {l r : Expr ℝ} {x y : ℝ} (hl : l.evalS ρ = some x)
    (hr : r.evalS ρ = some y) (hy : y ≠ 0) : (Expr.bin .div l r).evalS ρ = some (x / y) := by
  by_cases h : x = 0
  · simp [Expr.evalS, hl, h]
  · simp [Expr.evalS, hl, hr, h, binVal, hy]

theorem evalS_div_left {ρ : List Char → ℝ} {l r : Expr ℝ} (hl : l.evalS ρ = some 0) :
    (Expr.bin .div l r).evalS ρ = some 0 := by
  simp [Expr.evalS, hl]

theorem evalS_pow {ρ : List Char → ℝ} {l r : Expr ℝ} {x y : ℝ} (hl : l.evalS ρ = some x)
    (hr : r.evalS ρ = some y) (h : powDom x y) : (Expr.bin .pow l r).evalS ρ = some (x ^ y) := by
  by_cases h1 : x = 1
  · simp [Expr.evalS, hl, h1]
  · simp [Expr.evalS, hl, hr, h1, binVal, h]

theorem evalS_add {ρ : List Char → ℝ} {l r : Expr ℝ} {x y : ℝ} (hl : l.evalS ρ = some x)
    (hr : r.evalS ρ = some y) : (Expr.bin .add l r).evalS ρ = some (x + y) := by
  simp [Expr.evalS, hl, hr, binVal]

theorem evalS_sub {ρ : List Char → ℝ} {l r : Expr ℝ} {x y : ℝ} (hl : l.evalS ρ = some x)
    (hr : r.evalS ρ = some y) : (Expr.bin .sub l r).evalS ρ = some (x - y) := by
  simp [Expr.evalS, hl, hr, binVal]

theorem evalS_un {ρ : List Char → ℝ} {o : UnOp} {a : Expr ℝ} {x v : ℝ} (ha : a.evalS ρ = some x)
    (h : unVal o x = some v) : (Expr.un o a).evalS ρ = some v := by
  simp [Expr.evalS, ha, h]

theorem evalS_of_eval (ρ : List Char → ℝ) (e : Expr ℝ) {v : ℝ} (h : e.eval ρ = some v) :
    e.evalS ρ = some v := by
  induction e using Expr.ind generalizing v with
  | const k => simpa [Expr.eval, Expr.evalS] using h
  | var n => simpa [Expr.eval, Expr.evalS] using h
  | un o a ih =>
    obtain ⟨y, h1, h2⟩ := eval_un.1 h
    exact evalS_un (ih h1) h2
  | bin o l r ih1 ih2 =>
    obtain ⟨x, y, hl, hr, hb⟩ := (eval_bin _ _ _ _ _).1 h
    cases o with
    | mul => simp [binVal] at hb; subst hb; exact evalS_mul (ih1 hl) (ih2 hr)
    | div => simp [binVal] at hb; obtain ⟨h1, rfl⟩ := hb; exact evalS_div (ih1 hl) (ih2 hr) h1
    | pow => simp [binVal] at hb; obtain ⟨h1, rfl⟩ := hb; exact evalS_pow (ih1 hl) (ih2 hr) h1
    | _ => simpa [Expr.evalS, ih1 hl, ih2 hr] using hb
  | arr => simp [Expr.eval] at h
  | dict => simp [Expr.eval] at h

theorem deriv_un_eq_ok {K : Type} {N : NumOps K} {x : List Char} {a a' : Expr K}
    (ha : deriv N x a = .ok a') :
    deriv N x (.un .sin a) = .ok (.bin .mul a' (.un .cos a)) ∧
    deriv N x (.un .cos a) = .ok (.bin .mul (.un .neg a') (.un .sin a)) ∧
    deriv N x (.un .exp a) = .ok (.bin .mul a' (.un .exp a)) ∧
    deriv N x (.un .log a) = .ok (.bin .div a' a) ∧
    deriv N x (.un .abs a) = .ok (.bin .div (.bin .mul a' (.un .abs a)) a) ∧
    deriv N x (.un .neg a) = .ok (.un .neg a') := by
  refine ⟨?_, ?_, ?_, ?_, ?_, ?_⟩ <;> simp [deriv, ha]

theorem deriv_bin_eq_ok {K : Type} {N : NumOps K} {x : List Char} {l r l' r' : Expr K}
    (hl : deriv N x l = .ok l') (hr : deriv N x r = .ok r') :
    deriv N x (.bin .add l r) = .ok (.bin .add l' r') ∧
    deriv N x (.bin .sub l r) = .ok (.bin .sub l' r') ∧
    deriv N x (.bin .mul l r) = .ok (.bin .add (.bin .mul l' r) (.bin .mul l r')) ∧
    deriv N x (.bin .div l r) = .ok (.bin .div (.bin .sub (.bin .mul l' r) (.bin .mul l r'))
      (.bin .pow r (.const (N.add N.one N.one)))) ∧
    deriv N x (.bin .pow l r) = .ok (.bin .add
      (.bin .mul (.bin .mul r l') (.bin .pow l (.bin .sub r (.const N.one))))
      (.bin .mul (.bin .mul r' (.un .log l)) (.bin .pow l r))) := by
  refine ⟨?_, ?_, ?_, ?_, ?_⟩ <;> simp [deriv, hl, hr]

/-- **C17**. If `x` does not occur in `f` and `f` has a value, the derivative of `f` with respect to
`x` exists and its numeric value is 0. -/
theorem C17_absent (ρ : List Char → ℝ) (x : List Char) (f : Expr ℝ) (v : ℝ) (hv : f.eval ρ = some v)
    (hx : x ∉ f.vars) : ∃ d, deriv realOps x f = .ok d ∧ d.evalS ρ = some 0 := by
  induction f using Expr.ind generalizing v with
  | const k => exact ⟨_, by simp [deriv]; rfl, by simp [Expr.evalS, realOps]⟩
  | var n =>
    simp [Expr.vars] at hx
    exact ⟨_, by simp [deriv, Ne.symm hx]; rfl, by simp [Expr.evalS, realOps]⟩
  | un o a ih =>
    obtain ⟨y, h1, h2⟩ := eval_un.1 hv
    obtain ⟨d, hd, h0⟩ := ih y h1 hx
    have hneg : (Expr.un .neg d).evalS ρ = some 0 := by simp [Expr.evalS, h0, unVal]
    obtain ⟨e1, e2, e3, e4, e5, e6⟩ := deriv_un_eq_ok hd
    cases o with
    | sin => exact ⟨_, e1, evalS_mul_left h0⟩
    | cos => exact ⟨_, e2, evalS_mul_left hneg⟩
    | exp => exact ⟨_, e3, evalS_mul_left h0⟩
    | log => exact ⟨_, e4, evalS_div_left h0⟩
    | abs => exact ⟨_, e5, evalS_div_left (evalS_mul_left h0)⟩
    | arbsign => simp [unVal] at h2
    | neg => exact ⟨_, e6, hneg⟩
  | bin o l r ih1 ih2 =>
    obtain ⟨y, z, hl, hr, hb⟩ := (eval_bin _ _ _ _ _).1 hv
    simp [Expr.vars] at hx
    obtain ⟨l', hl', hl0⟩ := ih1 y hl hx.1
    obtain ⟨r', hr', hr0⟩ := ih2 z hr hx.2
    obtain ⟨h1, h2, h3, h4, h5⟩ := deriv_bin_eq_ok hl' hr'
    cases o with
    | add => exact ⟨_, h1, by simpa using evalS_add hl0 hr0⟩
    | sub => exact ⟨_, h2, by simpa using evalS_sub hl0 hr0⟩
    | mul => exact ⟨_, h3, by
        simpa using evalS_add (evalS_mul_left (r := r) hl0) (evalS_mul_right (l := l) hr0)⟩
    | div => exact ⟨_, h4, evalS_div_left (by
        simpa using evalS_sub (evalS_mul_left (r := r) hl0) (evalS_mul_right (l := l) hr0))⟩
    | pow => exact ⟨_, h5, by
        simpa using evalS_add
          (evalS_mul_left (r := .bin .pow l (.bin .sub r (.const realOps.one)))
            (evalS_mul_right (l := r) hl0))
          (evalS_mul_left (r := .bin .pow l r) (evalS_mul_left (r := .un .log l) hr0))⟩
    | _ => simp [binVal] at hb
  | arr => simp [Expr.eval] at hv
  | dict => simp [Expr.eval] at hv

/-- `d/dx` of `|y| ^ 2` at `y = 0`. -/
example : (Expr.bin .pow (.un .abs (.var ['y'])) (.const 2) : Expr ℝ).eval (fun _ => 0) = some 0 ∧
    ['x'] ∉ (Expr.bin .pow (.un .abs (.var ['y'])) (.const 2) : Expr ℝ).vars := by
  simp [Expr.eval, unVal, binVal, powDom, Expr.vars]

theorem HasPartial.const {f : Expr ℝ} {ρ : List Char → ℝ} {x : List Char} {v : ℝ}
    (hv : f.eval ρ = some v) (hx : x ∉ f.vars) : HasPartial f ρ x 0 :=
  ⟨fun _ => v, Filter.Eventually.of_forall fun t => by rw [eval_update_absent ρ x t f hx, hv],
    hasDerivAt_const _ _⟩

theorem at_point {f : Expr ℝ} {ρ : List Char → ℝ} {x : List Char} {v : ℝ} {F : ℝ → ℝ}
    (h : ∀ᶠ t in nhds (ρ x), f.eval (update ρ x t) = some (F t)) (hv : f.eval ρ = some v) :
    F (ρ x) = v := by
  have := h.self_of_nhds
  rw [update_eq_self, hv] at this
  simpa using this.symm

theorem powDom_of_pos {x y : ℝ} (h : 0 < x) : powDom x y := .inl h

theorem powDom_nat (x : ℝ) (n : ℕ) : powDom x n := by
  rcases lt_trichotomy x 0 with h | h | h
  · exact .inr (.inr ⟨h, n, by simp⟩)
  · exact .inr (.inl ⟨h, by positivity⟩)
  · exact .inl h

theorem powDom_sub_one {x y : ℝ} (h : powDom x y) (hx : x ≠ 0) : powDom x (y - 1) := by
  rcases h with h | h | ⟨h, n, rfl⟩
  · exact .inl h
  · exact absurd h.1 hx
  · exact .inr (.inr ⟨h, n - 1, by push_cast; ring⟩)

/-- **C16**. Where `f` has a value and is not at a point where a subexpression stops being
differentiable, `derivative(f, x)` exists, has a numeric value `d`, and `d` is the derivative of the
value of `f` as a function of the value of `x`. -/
theorem C16_derivative (ρ : List Char → ℝ) (x : List Char) (f : Expr ℝ) (v : ℝ)
    (hv : f.eval ρ = some v) (hs : Smooth ρ x f) :
    ∃ e d, deriv realOps x f = .ok e ∧ e.evalS ρ = some d ∧ HasPartial f ρ x d := by
  induction f using Expr.ind generalizing v with
  | const k =>
    exact ⟨_, 0, by simp [deriv]; rfl, by simp [Expr.evalS, realOps],
      HasPartial.const hv (by simp [Expr.vars])⟩
  | var n =>
    by_cases hn : n = x
    · subst hn
      refine ⟨_, 1, by simp [deriv]; rfl, by simp [Expr.evalS, realOps], fun t => t, ?_, hasDerivAt_id _⟩
      exact Filter.Eventually.of_forall fun t => by simp [Expr.eval]
    · exact ⟨_, 0, by simp [deriv, hn]; rfl, by simp [Expr.evalS, realOps],
        HasPartial.const hv (by simpa [Expr.vars] using Ne.symm hn)⟩
  | un o a ih =>
    by_cases hxa : x ∈ a.vars
    swap
    · obtain ⟨e, h1, h2⟩ := C17_absent ρ x _ v hv hxa
      exact ⟨e, 0, h1, h2, HasPartial.const hv hxa⟩
    obtain ⟨y, h1, h2⟩ := eval_un.1 hv
    obtain ⟨a', d, ha', had, F, hF, hD⟩ := ih y h1 hs.1
    have hFy := at_point hF h1
    have hS := evalS_of_eval ρ a h1
    have hcont := hD.continuousAt
    have hneg : (Expr.un .neg a').evalS ρ = some (-d) := evalS_un had rfl
    obtain ⟨e1, e2, e3, e4, e5, e6⟩ := deriv_un_eq_ok ha'
    cases o with
    | sin =>
      refine ⟨_, _, e1, evalS_mul had (evalS_un hS rfl), _, ?_,
        hD.sin.congr_deriv (by rw [hFy]; ring)⟩
      filter_upwards [hF] with t ht
      simp [Expr.eval, ht, unVal]
    | cos =>
      refine ⟨_, _, e2, evalS_mul hneg (evalS_un hS rfl), _, ?_,
        hD.cos.congr_deriv (by rw [hFy]; ring)⟩
      filter_upwards [hF] with t ht
      simp [Expr.eval, ht, unVal]
    | exp =>
      refine ⟨_, _, e3, evalS_mul had (evalS_un hS rfl), _, ?_,
        hD.exp.congr_deriv (by rw [hFy]; ring)⟩
      filter_upwards [hF] with t ht
      simp [Expr.eval, ht, unVal]
    | log =>
      simp [unVal] at h2
      have hy := h2.1
      refine ⟨_, _, e4, evalS_div had hS hy.ne', _, ?_,
        (hD.log (by rw [hFy]; exact hy.ne')).congr_deriv (by rw [hFy])⟩
      have hpos : ∀ᶠ t in nhds (ρ x), 0 < F t := hcont.eventually (lt_mem_nhds (by rw [hFy]; exact hy))
      filter_upwards [hF, hpos] with t ht hp
      simp [Expr.eval, ht, unVal, hp]
    | abs =>
      have hy : y ≠ 0 := by
        rcases hs.2 rfl with h | h
        · rw [h1] at h; simpa using h
        · exact absurd hxa h
      have hab : HasDerivAt (fun t => |F t|) (d * |y| / y) (ρ x) := by
        have h3 := (hasDerivAt_abs (x := F (ρ x)) (by rw [hFy]; exact hy)).comp (ρ x) hD
        refine h3.congr_deriv ?_
        rw [hFy]
        rcases lt_or_gt_of_ne hy with h | h
        · simp [h, abs_of_neg h]; field_simp
        · simp [h, abs_of_pos h]; field_simp
      refine ⟨_, _, e5,
        evalS_div (evalS_mul had (evalS_un hS rfl)) hS hy, _, ?_, hab⟩
      filter_upwards [hF] with t ht
      simp [Expr.eval, ht, unVal]
    | arbsign => simp [unVal] at h2
    | neg =>
      refine ⟨_, _, e6, hneg, _, ?_, hD.neg⟩
      filter_upwards [hF] with t ht
      simp [Expr.eval, ht, unVal]
  | bin o l r ih1 ih2 =>
    obtain ⟨y, z, hl, hr, hb⟩ := (eval_bin _ _ _ _ _).1 hv
    obtain ⟨l', d, hl', hld, F, hF, hD⟩ := ih1 y hl hs.1
    obtain ⟨r', e, hr', hre, G, hG, hE⟩ := ih2 z hr hs.2.1
    have hFy := at_point hF hl
    have hGz := at_point hG hr
    have hSl := evalS_of_eval ρ l hl
    have hSr := evalS_of_eval ρ r hr
    obtain ⟨h1, h2, h3, h4, h5⟩ := deriv_bin_eq_ok hl' hr'
    cases o with
    | add =>
      refine ⟨_, _, h1, evalS_add hld hre, _, ?_, hD.add hE⟩
      filter_upwards [hF, hG] with t ht hg
      simp [Expr.eval, ht, hg, binVal]
    | sub =>
      refine ⟨_, _, h2, evalS_sub hld hre, _, ?_, hD.sub hE⟩
      filter_upwards [hF, hG] with t ht hg
      simp [Expr.eval, ht, hg, binVal]
    | mul =>
      refine ⟨_, _, h3, evalS_add (evalS_mul hld hSr) (evalS_mul hSl hre), _, ?_,
        (hD.mul hE).congr_deriv (by rw [hFy, hGz])⟩
      filter_upwards [hF, hG] with t ht hg
      simp [Expr.eval, ht, hg, binVal]
    | div =>
      simp [binVal] at hb
      have hz := hb.1
      have hp : (Expr.bin .pow r (.const (realOps.add realOps.one realOps.one))).evalS ρ
          = some (z ^ 2) := by
        have := evalS_pow hSr (y := ((2 : ℕ) : ℝ)) (r := .const (realOps.add realOps.one realOps.one))
          (by simp [Expr.evalS, realOps]; norm_num) (powDom_nat z 2)
        rw [this, Real.rpow_natCast]
      refine ⟨_, _, h4, evalS_div (evalS_sub (evalS_mul hld hSr) (evalS_mul hSl hre)) hp
        (pow_ne_zero 2 hz), _, ?_, (hD.div hE (by rw [hGz]; exact hz)).congr_deriv (by rw [hFy, hGz])⟩
      have hne : ∀ᶠ t in nhds (ρ x), G t ≠ 0 :=
        hE.continuousAt.eventually_ne (by rw [hGz]; exact hz)
      filter_upwards [hF, hG, hne] with t ht hg hn
      simp [Expr.eval, ht, hg, binVal, hn]
    | pow =>
      simp [binVal] at hb
      have hdom := hb.1
      have hr1 : (Expr.bin .sub r (.const realOps.one)).evalS ρ = some (z - 1) :=
        evalS_sub hSr (by simp [Expr.evalS, realOps])
      have hsm := hs.2.2 rfl
      have absent : x ∉ r.vars → ∃ e, deriv realOps x r = .ok e ∧ e.evalS ρ = some 0 :=
        C17_absent ρ x r z hr
      -- positive base
      by_cases hpos : 0 < y
      · have hlog : (Expr.un .log l).evalS ρ = some (Real.log y) :=
          evalS_un hSl (by simp [unVal, hpos])
        refine ⟨_, _, h5, evalS_add
          (evalS_mul (evalS_mul hSr hld) (evalS_pow hSl hr1 (.inl hpos)))
          (evalS_mul (evalS_mul hre hlog) (evalS_pow hSl hSr (.inl hpos))), _, ?_,
          (hD.rpow hE (by rw [hFy]; exact hpos)).congr_deriv (by rw [hFy, hGz]; ring)⟩
        have hp : ∀ᶠ t in nhds (ρ x), 0 < F t :=
          hD.continuousAt.eventually (lt_mem_nhds (by rw [hFy]; exact hpos))
        filter_upwards [hF, hG, hp] with t ht hg hp
        simp [Expr.eval, ht, hg, binVal, powDom, hp]
      · -- no `x` in the expression
        by_cases hno : x ∉ l.vars ∧ x ∉ r.vars
        · obtain ⟨e, he1, he2⟩ := C17_absent ρ x (.bin .pow l r) v hv (by simpa [Expr.vars] using hno)
          exact ⟨e, 0, he1, he2, HasPartial.const hv (by simpa [Expr.vars] using hno)⟩
        have hxr : x ∉ r.vars := by
          rcases hsm with ⟨b, hb1, hb2⟩ | h | h | h
          · rw [hl] at hb1; simp at hb1; subst hb1; exact absurd hb2 hpos
          · exact h.1
          · exact h.1
          · exact h.2
        obtain ⟨r'', hr'', hr0⟩ := absent hxr
        have hrr : r'' = r' := by rw [hr'] at hr''; simpa using hr''.symm
        subst hrr
        have hsecond : (Expr.bin .mul (.bin .mul r'' (.un .log l)) (.bin .pow l r)).evalS ρ = some 0 :=
          evalS_mul_left (evalS_mul_left hr0)
        have hrt : ∀ t, r.eval (update ρ x t) = some z := fun t => by
          rw [eval_update_absent ρ x t r hxr, hr]
        by_cases hy0 : y = 0
        · -- base 0: natural exponent
          obtain ⟨n, hn⟩ : ∃ n : ℕ, z = n := by
            rcases hsm with ⟨b, hb1, hb2⟩ | ⟨_, b, hb1, hb2⟩ | ⟨_, n, hn⟩ | h
            · rw [hl] at hb1; simp at hb1; subst hb1; exact absurd hb2 hpos
            · rw [hl] at hb1; simp at hb1; subst hb1; exact absurd hy0 hb2
            · rw [hr] at hn; exact ⟨n, by simpa using hn⟩
            · exact absurd h hno
          subst hn
          have hev : ∀ᶠ t in nhds (ρ x), (Expr.bin .pow l r).eval (update ρ x t) = some (F t ^ (n : ℝ)) := by
            filter_upwards [hF] with t ht
            simp [Expr.eval, ht, hrt t, binVal, powDom_nat]
          cases n with
          | zero =>
            refine ⟨_, 0, h5, ?_, _, hev, ?_⟩
            · have h0 : r.evalS ρ = some 0 := by simpa using hSr
              have := evalS_add (evalS_mul_left (r := .bin .pow l (.bin .sub r (.const realOps.one)))
                (evalS_mul_left (r := l') h0)) hsecond
              simpa using this
            · simpa using hasDerivAt_const (ρ x) (1 : ℝ)
          | succ m =>
            have hd1 : powDom y (((m + 1 : ℕ) : ℝ) - 1) := by
              have : ((m + 1 : ℕ) : ℝ) - 1 = (m : ℕ) := by push_cast; ring
              rw [this]; exact powDom_nat y m
            refine ⟨_, _, h5, evalS_add (evalS_mul (evalS_mul hSr hld) (evalS_pow hSl hr1 hd1)) hsecond,
              _, hev, (hD.rpow_const (.inr (by push_cast; linarith [(Nat.cast_nonneg m : (0:ℝ) ≤ m)]))).congr_deriv
                (by rw [hFy]; ring)⟩
        · -- negative base
          have hneg : y < 0 := lt_of_le_of_ne (not_lt.1 hpos) hy0
          refine ⟨_, _, h5, evalS_add (evalS_mul (evalS_mul hSr hld)
            (evalS_pow hSl hr1 (powDom_sub_one hdom hy0))) hsecond, fun t => F t ^ z, ?_,
            (hD.rpow_const (.inl (by rw [hFy]; exact hy0))).congr_deriv (by rw [hFy]; ring)⟩
          have hp : ∀ᶠ t in nhds (ρ x), F t < 0 :=
            hD.continuousAt.eventually (gt_mem_nhds (by rw [hFy]; exact hneg))
          have hz : ∃ n : ℤ, z = n := by
            rcases hdom with h | h | h
            · exact absurd h hpos
            · exact absurd h.1 hy0
            · exact h.2
          filter_upwards [hF, hp] with t ht hp
          have hdt : powDom (F t) z := .inr (.inr ⟨hp, hz⟩)
          simp [Expr.eval, ht, hrt t, binVal, hdt]
    | _ => simp [binVal] at hb
  | arr => simp [Expr.eval] at hv
  | dict => simp [Expr.eval] at hv

/-- The theorem applies to `|x| ^ 3 * log(y) + x ^ y` at `x = -2`, `y = 1` ... -/
example : Smooth (fun n => if n = ['x'] then -2 else 1) ['x']
    (.bin .add (.bin .mul (.bin .pow (.un .abs (.var ['x'])) (.const 3)) (.un .log (.var ['y'])))
      (.bin .pow (.var ['x']) (.var ['y']))) := by
  simp [Smooth, Expr.eval, unVal, Expr.vars]

/-- **C16**, without side conditions on `f`: wherever `f` and the text of its derivative, read without
any simplification, both have a value, the latter is the derivative of `f`. -/
theorem C16_derivative_strict (ρ : List Char → ℝ) (x : List Char) (f e : Expr ℝ) (v d : ℝ)
    (hv : f.eval ρ = some v) (he : deriv realOps x f = .ok e) (hd : e.eval ρ = some d) :
    HasPartial f ρ x d := by
  have smooth : Smooth ρ x f := by
    induction f using Expr.ind generalizing v e d with
    | const => trivial
    | var => trivial
    | un o a ih =>
      obtain ⟨y, h1, h2⟩ := eval_un.1 hv
      rw [deriv, Res.bind_eq_ok] at he
      obtain ⟨a', ha', he⟩ := he
      cases o <;> simp at he <;> subst he
      case sin | exp =>
        obtain ⟨p, q, hp, hq, _⟩ := (eval_bin _ _ _ _ _).1 hd
        exact ⟨ih a' y p h1 ha' hp, by simp⟩
      case cos =>
        obtain ⟨p, q, hp, hq, _⟩ := (eval_bin _ _ _ _ _).1 hd
        obtain ⟨p', hp', _⟩ := eval_un.1 hp
        exact ⟨ih a' y p' h1 ha' hp', by simp⟩
      case log =>
        obtain ⟨p, q, hp, hq, _⟩ := (eval_bin _ _ _ _ _).1 hd
        exact ⟨ih a' y p h1 ha' hp, by simp⟩
      case abs =>
        obtain ⟨p, q, hp, hq, hb⟩ := (eval_bin _ _ _ _ _).1 hd
        obtain ⟨p', _, hp', _⟩ := (eval_bin _ _ _ _ _).1 hp
        refine ⟨ih a' y p' h1 ha' hp', fun _ => .inl ?_⟩
        simp [binVal] at hb
        rw [hq]; simpa using hb.1
      case arbsign => simp [unVal] at h2
      case neg =>
        obtain ⟨p', hp', _⟩ := eval_un.1 hd
        exact ⟨ih a' y p' h1 ha' hp', by simp⟩
    | bin o l r ih1 ih2 =>
      obtain ⟨y, z, hl, hr, hb⟩ := (eval_bin _ _ _ _ _).1 hv
      have sub : ∀ l' r' : Expr ℝ, deriv realOps x l = .ok l' → deriv realOps x r = .ok r' →
          (∃ p, l'.eval ρ = some p) → (∃ q, r'.eval ρ = some q) → Smooth ρ x l ∧ Smooth ρ x r := by
        rintro l' r' hl' hr' ⟨p, hp⟩ ⟨q, hq⟩
        exact ⟨ih1 l' y p hl hl' hp, ih2 r' z q hr hr' hq⟩
      cases o with
      | add =>
        simp only [deriv, Res.bind_eq_ok] at he
        obtain ⟨l', hl', r', hr', he⟩ := he
        simp at he; subst he
        obtain ⟨p, q, hp, hq, _⟩ := (eval_bin _ _ _ _ _).1 hd
        have := sub l' r' hl' hr' ⟨p, hp⟩ ⟨q, hq⟩
        exact ⟨this.1, this.2, by simp⟩
      | sub =>
        simp only [deriv, Res.bind_eq_ok] at he
        obtain ⟨l', hl', r', hr', he⟩ := he
        simp at he; subst he
        obtain ⟨p, q, hp, hq, _⟩ := (eval_bin _ _ _ _ _).1 hd
        have := sub l' r' hl' hr' ⟨p, hp⟩ ⟨q, hq⟩
        exact ⟨this.1, this.2, by simp⟩
      | mul =>
        simp only [deriv, Res.bind_eq_ok] at he
        obtain ⟨l', hl', r', hr', he⟩ := he
        simp at he; subst he
        obtain ⟨p, q, hp, hq, _⟩ := (eval_bin _ _ _ _ _).1 hd
        obtain ⟨p', _, hp', _⟩ := (eval_bin _ _ _ _ _).1 hp
        obtain ⟨_, q', _, hq', _⟩ := (eval_bin _ _ _ _ _).1 hq
        have := sub l' r' hl' hr' ⟨_, hp'⟩ ⟨_, hq'⟩
        exact ⟨this.1, this.2, by simp⟩
      | div =>
        simp only [deriv, Res.bind_eq_ok] at he
        obtain ⟨l', hl', r', hr', he⟩ := he
        simp at he; subst he
        obtain ⟨p, q, hp, hq, _⟩ := (eval_bin _ _ _ _ _).1 hd
        obtain ⟨p1, p2, hp1, hp2, _⟩ := (eval_bin _ _ _ _ _).1 hp
        obtain ⟨p', _, hp', _⟩ := (eval_bin _ _ _ _ _).1 hp1
        obtain ⟨_, q', _, hq', _⟩ := (eval_bin _ _ _ _ _).1 hp2
        have := sub l' r' hl' hr' ⟨_, hp'⟩ ⟨_, hq'⟩
        exact ⟨this.1, this.2, by simp⟩
      | pow =>
        simp only [deriv, Res.bind_eq_ok] at he
        obtain ⟨l', hl', r', hr', he⟩ := he
        simp at he; subst he
        obtain ⟨p, q, hp, hq, _⟩ := (eval_bin _ _ _ _ _).1 hd
        obtain ⟨p1, p2, hp1, hp2, _⟩ := (eval_bin _ _ _ _ _).1 hp
        obtain ⟨_, p', _, hp', _⟩ := (eval_bin _ _ _ _ _).1 hp1
        obtain ⟨q1, q2, hq1, hq2, _⟩ := (eval_bin _ _ _ _ _).1 hq
        obtain ⟨q', lg, hq', hlg, _⟩ := (eval_bin _ _ _ _ _).1 hq1
        have := sub l' r' hl' hr' ⟨_, hp'⟩ ⟨_, hq'⟩
        obtain ⟨b, hb1, hb2⟩ := eval_un.1 hlg
        simp [unVal] at hb2
        exact ⟨this.1, this.2, fun _ => .inl ⟨b, hb1, hb2.1⟩⟩
      | _ => simp [binVal] at hb
    | arr => trivial
    | dict => trivial
  obtain ⟨e', d', h1, h2, h3⟩ := C16_derivative ρ x f v hv smooth
  rw [he] at h1; simp at h1; subst h1
  rw [evalS_of_eval ρ e hd] at h2; simp at h2; subst h2
  exact h3

end Stator
