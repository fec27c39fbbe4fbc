import Verif.Ct.TaylorPoly
import Mathlib.MeasureTheory.Integral.IntervalIntegral.FundThmCalculus

/-!
# Definite integrals (C38) and the error of the Taylor series (C102)
-/

namespace Stator.Ct

open Filter Topology

/-- At a smooth point the expression has derivatives of all orders in each variable. -/
theorem reg_smooth {e : E} {ρ : List Char → ℝ} {x : List Char} {w : ℝ} (n : ℕ) (h : e.Reg (at_ ρ x w)) :
    ContDiffAt ℝ n (e.at ρ x) w := by
  induction e with
  | c a => exact contDiffAt_const
  | num v => exact contDiffAt_const
  | var m =>
    by_cases hn : m = x
    · have : (E.var m).at ρ x = fun t => t := by funext t; simp [E.at, E.fn, at_, hn]
      rw [this]; exact contDiffAt_id
    · have : (E.var m).at ρ x = fun _ => ρ m := by funext t; simp [E.at, E.fn, at_, hn]
      rw [this]; exact contDiffAt_const
  | un o a ih =>
    cases o <;> simp only [E.Reg] at h
    · exact (ih h).sin
    · exact (ih h).cos
    · exact (ih h).exp
    · exact (ih h.1).log h.2.ne'
    · exact (contDiffAt_abs h.2).comp w (ih h.1)
    · exact (ih h).neg
  | bin o l r ih1 ih2 =>
    cases o <;> simp only [E.Reg] at h
    · exact (ih1 h.1).add (ih2 h.2)
    · exact (ih1 h.1).sub (ih2 h.2)
    · exact (ih1 h.1).mul (ih2 h.2)
    · exact (ih1 h.1).div (ih2 h.2.1) h.2.2
    · obtain ⟨h1, h2, hor⟩ := h
      rcases hor with h0 | ⟨m, rfl⟩ | ⟨hi, h0⟩
      · exact (ih1 h1).rpow (ih2 h2) h0.ne'
      · have : (E.bin .pow l (.c (.ofInt m))).at ρ x = fun t => l.at ρ x t ^ m := by
          funext t; simp [E.at, E.fn, ← C.val.eq_def, Real.rpow_natCast]
        rw [this]; exact (ih1 h1).pow m
      · exact (ih1 h1).rpow (ih2 h2) h0

/-- **C38.** A definite integral: with `G` what `integrate(f, x)` returns, `sub(G, x = b) - sub(G, x = a)` is the integral of `f` from `a`
to `b`, if `f` is smooth in between (`a` and `b` are numbers). -/
theorem C38_definite {x : List Char} {f G A B e : E} (hf : f.formed) (h : integrate x f = some G) {ρ : List Char → ℝ} {a b : ℝ}
    (hr : ∀ t ∈ Set.uIcc a b, f.Reg (at_ ρ x t)) (hA : subst x (.num (some a)) G = some A) (hB : subst x (.num (some b)) G = some B)
    (he : opSub B A = some e) : e.vals ρ = {∫ t in a..b, f.fn (at_ ρ x t)} := by
  have hG : ∀ t ∈ Set.uIcc a b, G.Reg (at_ ρ x t) ∧ G.formed ∧ HasDerivAt (fun u => G.fn (at_ ρ x u)) (f.fn (at_ ρ x t)) t := by
    intro t ht
    obtain ⟨k1, k2, k3⟩ := C38_integrate hf h (hr t ht)
    simp only [at_at, at_same] at k3
    exact ⟨k1, k2, k3⟩
  have hI : ∫ t in a..b, f.fn (at_ ρ x t) = G.fn (at_ ρ x b) - G.fn (at_ ρ x a) := by
    refine intervalIntegral.integral_eq_sub_of_hasDerivAt (fun t ht => (hG t ht).2.2) ?_
    exact ContinuousOn.intervalIntegrable fun t ht => (reg_near (hr t ht)).1.continuousWithinAt
  have sub : ∀ {w : ℝ} {S : E}, w ∈ Set.uIcc a b → subst x (.num (some w)) G = some S → S.Reg ρ ∧ S.fn ρ = G.fn (at_ ρ x w) := by
    intro w S hw hS
    obtain ⟨k1, k2, -⟩ := hG w hw
    exact subst_reg (trigSafe_of_not_const (x := x) (a := .num (some w)) (by simp) k2) hS (by simp [E.Reg]) k1
  obtain ⟨rA, vA⟩ := sub Set.left_mem_uIcc hA
  obtain ⟨rB, vB⟩ := sub Set.right_mem_uIcc hB
  obtain ⟨re, ve⟩ := applyOp_reg (o := .sub) he ⟨rB, rA⟩
  rw [re.vals_eq, ve, hI, ← vA, ← vB]
  rfl

/-- The integral of `x ^ 2 + y` from `-1` to `2`. -/
example : let f : E := .bin .add (.bin .pow (.var ['x']) (.c (.ofInt 2))) (.var ['y'])
    f.formed ∧ (∀ t, f.Reg (at_ (fun _ => 3) ['x'] t)) ∧ ∃ G A B e, integrate ['x'] f = some G ∧ subst ['x'] (.num (some (-1))) G = some A ∧
      subst ['x'] (.num (some 2)) G = some B ∧ opSub B A = some e := by
  refine ⟨?_, fun t => ⟨⟨trivial, trivial, .inr (.inl ⟨2, rfl⟩)⟩, trivial⟩, ?_⟩
  · simp [E.formed, applyOp, opAdd, opPow, E.isC, C.unity, C.ofInt, node, E.number]
  · have h : ∀ v : ℝ, ∃ S, subst ['x'] (.num (some v)) (.bin .add (.bin .mul (.c ⟨1, 3, by decide⟩)
        (.bin .pow (.var ['x']) (.c (.ofInt 3)))) (.bin .mul (.var ['y']) (.var ['x']))) = some S := by
      intro v
      have hp : ∃ p, opPow (.num (some v)) (.c (.ofInt 3)) = some p := by simp only [opPow]; split <;> exact ⟨_, rfl⟩
      obtain ⟨p, hp⟩ := hp
      obtain ⟨q, hq⟩ := opMul_total (.c ⟨1, 3, by decide⟩) p
      obtain ⟨r, hr⟩ := opMul_total (.var ['y']) (.num (some v))
      obtain ⟨s, hs⟩ := opAdd_total q r
      exact ⟨s, by simp [subst, applyOp, hp, hq, hr, hs]⟩
    obtain ⟨A, hA⟩ := h (-1)
    obtain ⟨B, hB⟩ := h 2
    obtain ⟨e, he⟩ := opSub_total B A
    refine ⟨_, A, B, e, ?_, hA, hB, he⟩
    simp [integrate, integrate.constant, C.ofInt, opPow, opMul, opAdd, C.unity, E.isC, deriv, C.null, node, E.number]

/-- **C102.** The error of the Taylor series: if `f` is smooth for all values of `x` between the centre `w` and its actual value, the series
has one value, and the error is the next term with the derivative taken at a point between them. -/
theorem C102_error {x : List Char} {a f e : E} {n : ℕ} (h : TaylorSeries x a n f e) (hf : f.formed)
    {ρ : List Char → ℝ} {w : ℝ} (ha : a.Reg ρ) (hw : w ∈ a.vals ρ) (hs : TrigSafe x a f)
    (hr : ∀ t ∈ Set.uIcc w (ρ x), f.Reg (at_ ρ x t)) :
    ∃ v, e.vals ρ = {v} ∧ ∃ ξ ∈ Set.uIcc w (ρ x), f.fn ρ - v =
      iteratedDeriv (n + 1) (fun t => f.fn (at_ ρ x t)) ξ / ((n + 1).factorial : ℝ) * (ρ x - w) ^ (n + 1) := by
  have hF : ∀ᶠ t in 𝓝 w, f.fn (at_ ρ x t) ∈ f.vals (at_ ρ x t) := by
    filter_upwards [(reg_near (hr w Set.left_mem_uIcc)).2] with t ht using ht.mem_vals
  obtain ⟨ξ, h1, h2⟩ := Expand.remainder (F := fun t => f.fn (at_ ρ x t)) (a := w) (y := ρ x) n fun t ht => reg_smooth _ (hr t ht)
  refine ⟨_, C37_taylor h hf ha hw hs (hr w Set.left_mem_uIcc) hF, ξ, h1, ?_⟩
  simpa only [at_self] using h2

/-- **C102.** The usual bound of the error. -/
theorem C102_bound {x : List Char} {a f e : E} {n : ℕ} (h : TaylorSeries x a n f e) (hf : f.formed)
    {ρ : List Char → ℝ} {w : ℝ} (ha : a.Reg ρ) (hw : w ∈ a.vals ρ) (hs : TrigSafe x a f)
    (hr : ∀ t ∈ Set.uIcc w (ρ x), f.Reg (at_ ρ x t)) {M : ℝ}
    (hM : ∀ t ∈ Set.uIcc w (ρ x), |iteratedDeriv (n + 1) (fun t => f.fn (at_ ρ x t)) t| ≤ M) :
    ∃ v, e.vals ρ = {v} ∧ |f.fn ρ - v| ≤ M * |ρ x - w| ^ (n + 1) / ((n + 1).factorial : ℝ) := by
  obtain ⟨v, hv, ξ, h1, h2⟩ := C102_error h hf ha hw hs hr
  refine ⟨v, hv, ?_⟩
  rw [h2, abs_mul, abs_div, abs_pow, Nat.abs_cast, div_mul_eq_mul_div]
  gcongr
  exact hM ξ h1

/-- `exp(x)` around `1`: at `x = 2` the error of the series is at most `exp(2) / (n + 1)!`. -/
example {n : ℕ} {e : E} (h : TaylorSeries ['x'] (.num (some 1)) n (.un .exp (.var ['x'])) e) :
    ∃ v, e.vals (fun _ => 2) = {v} ∧ |Real.exp 2 - v| ≤ Real.exp 2 / ((n + 1).factorial : ℝ) := by
  have hv : ∀ k, iteratedDeriv k (fun t => (E.un .exp (.var ['x'])).fn (at_ (fun _ => 2) ['x'] t)) = Real.exp := by
    intro k
    have : (fun t => (E.un .exp (.var ['x'])).fn (at_ (fun _ => 2) ['x'] t)) = Real.exp := by
      funext t; simp [E.fn, at_]
    rw [this, iteratedDeriv_eq_iterate, Real.iter_deriv_exp]
  have hf : (E.un .exp (.var ['x'])).formed := ⟨trivial, rfl⟩
  obtain ⟨v, k1, k2⟩ := C102_bound h hf (ρ := fun _ => 2) (w := 1) (by simp [E.Reg]) (by simp [E.vals])
    (trigSafe_of_not_const (by simp) hf) (fun t _ => trivial) (M := Real.exp 2) fun t ht => by
      rw [hv, Real.abs_exp]
      exact Real.exp_le_exp.2 (by simpa using ht.2)
  refine ⟨v, k1, ?_⟩
  norm_num at k2
  simpa [E.fn] using k2

end Stator.Ct
