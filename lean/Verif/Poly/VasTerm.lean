import Verif.Poly.VasProps
import Verif.Poly.VcaTerm
import Mathlib.Analysis.Polynomial.Basic
import Mathlib.Algebra.Polynomial.Taylor
import Mathlib.Algebra.Polynomial.HasseDeriv
import Mathlib.Data.Fintype.Pigeonhole

/-!
# C32: when VAS root isolation terminates

The worker is followed along an infinite descending chain of calls. Scalings by 2 come only in runs of
bounded length (the tolerance test cannot hold at `D` consecutive powers of 2), shifts alone push the
argument to infinity, where all coefficients have one sign, and every inversion shrinks the interval
by a fixed factor; on short intervals there is at most one sign change, as for VCA.
-/

namespace Stator.Pol

open Polynomial Filter Topology

/-! ## One recursive call -/

/-- `g` is the polynomial of a recursive call made for `f`. -/
inductive Step (eps : ℝ) {n : ℕ} (f g : Arr ℝ n) : Prop
  | lb (α β : ℝ) (hα : 1 ≤ α) (hβ : α ≤ β) (h : polyOf g = (polyOf f).comp (C α * X + C β))
  | dbl (p : ℝ) (ep : precision eps f 1 = some p) (hp : |value f 1| ≤ 100 * p)
      (h : polyOf g = (polyOf f).comp (C 2 * X))
  | inv (f' : Arr ℝ n) (h0 : f' = f ∨ polyOf f = X * polyOf f')
      (h : polyOf g = (polyOf (revArr f')).comp (X + C 1))
  | one (f' : Arr ℝ n) (h0 : f' = f ∨ polyOf f = X * polyOf f')
      (h : polyOf g = (polyOf f').comp (X + C 1))

/-- A call that goes on, and one of its recursive calls. -/
def Call (eps : ℝ) {n : ℕ} (g f : Arr ℝ n) : Prop :=
  (∃ v, descartes f = some v ∧ 2 ≤ v) ∧ Step eps f g

theorem vasRootZero_step {n : ℕ} (f : Arr ℝ n) :
    ∃ f', (f' = f ∨ polyOf f = X * polyOf f') ∧ ∀ M, ∃ l, vasRootZero f M = some (f', l) := by
  cases n with
  | zero => exact ⟨f, .inl rfl, fun M => ⟨[], rfl⟩⟩
  | succ m =>
    simp only [vasRootZero, rd_coef f (Nat.zero_le _), Option.bind_eq_bind, Option.bind_some]
    by_cases h : coef f 0 = 0
    · obtain ⟨b, eb, hb⟩ := deflateZero_spec f h
      obtain ⟨r, er, hr⟩ := promote_spec (m := m + 1) b (by omega)
      exact ⟨r, .inr (by rw [hr, hb]), fun M =>
        ⟨[(M.eval (some 0), M.eval (some 0))], by simp [h, svPush, eb, er]⟩⟩
    · exact ⟨f, .inl rfl, fun M => ⟨[], by rw [if_neg h]⟩⟩

theorem worker_ends (eps : ℝ) {n : ℕ} (f : Arr ℝ n) (h : Acc (Call eps) f) :
    ∃ N, ∀ fuel, N ≤ fuel → ∀ M, vasWorker eps fuel f M ≠ .more := by
  induction h with
  | intro f _ ih =>
    cases ev : descartes f with
    | none =>
      refine ⟨1, fun fuel hf M => ?_⟩
      obtain ⟨fuel, rfl⟩ : ∃ k, fuel = k + 1 := ⟨fuel - 1, by omega⟩
      rw [vasWorker, ev]; simp [Out.lift, Out.bind]
    | some v =>
      by_cases hv : v < 2
      · refine ⟨1, fun fuel hf M => ?_⟩
        obtain ⟨fuel, rfl⟩ : ∃ k, fuel = k + 1 := ⟨fuel - 1, by omega⟩
        rw [vasWorker, ev]
        interval_cases v <;> simp [Out.lift, Out.bind]
      have hv : 2 ≤ v := not_lt.1 hv
      have ih : ∀ g, Step eps f g → ∃ N, ∀ fuel, N ≤ fuel → ∀ M, vasWorker eps fuel g M ≠ .more :=
        fun g hg => ih g ⟨⟨v, ev, hv⟩, hg⟩
      have key : ∃ N, ∀ fuel, N ≤ fuel → ∀ M : Mobius,
          ((Out.lift (lmqLower f)).bind fun lb =>
      (Out.lift lb).bind fun lb =>
      (Out.lift (if 16 ≤ lb then (scale f lb).map fun g => (g, M.scale lb, (1 : ℝ))
        else some (f, M, lb))).bind fun s =>
      let f := s.1
      let M := s.2.1
      let lb := s.2.2
      if 1 ≤ lb then
        (Out.lift (shift f lb)).bind fun g => vasWorker eps fuel g (M.shift lb)
      else (Out.lift (horner f 1)).bind fun v =>
        (Out.lift (precision eps f 1)).bind fun p =>
        if |v| ≤ 100 * p then
          (Out.lift (scale f 2)).bind fun g => vasWorker eps fuel g (M.scale 2)
        else (Out.lift (vasRootZero f M)).bind fun s =>
          (Out.lift (invertTaylorShift s.1)).bind fun p01 =>
          (vasWorker eps fuel p01 M.invertTaylorShift).bind fun r1 =>
          (Out.lift (svPushAll n s.2 r1)).bind fun retval =>
          (Out.lift (shiftOne s.1)).bind fun p1inf =>
          (vasWorker eps fuel p1inf (M.shift 1)).bind fun r2 =>
          Out.lift (svPushAll n retval r2)) ≠ .more := by
        cases el : lmqLower f with
        | none => exact ⟨0, fun fuel _ M => by simp [Out.lift, Out.bind]⟩
        | some lb =>
          cases lb with
          | none => exact ⟨0, fun fuel _ M => by simp [Out.lift, Out.bind]⟩
          | some lb =>
            simp only [Out.lift, Out.bind]
            by_cases h16 : 16 ≤ lb
            · obtain ⟨g, eg, hg⟩ := scale_spec f lb
              obtain ⟨g', eg', hg'⟩ := shift_spec g 1
              obtain ⟨N, hN⟩ := ih g' (.lb lb lb (by linarith) le_rfl (by
                rw [hg', hg, comp_assoc]
                congr 1
                simp [mul_add]))
              refine ⟨N, fun fuel hf M => ?_⟩
              simp only [if_pos h16, eg, Option.map_some, le_refl, if_true, eg']
              exact hN fuel hf _
            · simp only [if_neg h16]
              by_cases h1 : 1 ≤ lb
              · obtain ⟨g', eg', hg'⟩ := shift_spec f lb
                obtain ⟨N, hN⟩ := ih g' (.lb 1 lb le_rfl h1 (by rw [hg']; simp))
                refine ⟨N, fun fuel hf M => ?_⟩
                simp only [if_pos h1, eg']
                exact hN fuel hf _
              simp only [if_neg h1, horner_val]
              cases ep : precision eps f 1 with
              | none => exact ⟨0, fun fuel _ M => by simp⟩
              | some p =>
                simp only
                by_cases h2 : |value f 1| ≤ 100 * p
                · obtain ⟨g, eg, hg⟩ := scale_spec f 2
                  obtain ⟨N, hN⟩ := ih g (.dbl p ep h2 hg)
                  refine ⟨N, fun fuel hf M => ?_⟩
                  simp only [if_pos h2, eg]
                  exact hN fuel hf _
                obtain ⟨f', h0, hz⟩ := vasRootZero_step f
                obtain ⟨p01, e01, h01⟩ := invertTaylorShift_spec f'
                obtain ⟨p1, e1, h1'⟩ := shiftOne_spec f'
                obtain ⟨N1, hN1⟩ := ih p01 (.inv f' h0 h01)
                obtain ⟨N2, hN2⟩ := ih p1 (.one f' h0 h1')
                refine ⟨max N1 N2, fun fuel hf M => ?_⟩
                obtain ⟨l, ez⟩ := hz M
                simp only [if_neg h2, ez, e01, e1]
                have i1 := hN1 fuel (le_trans (le_max_left _ _) hf) M.invertTaylorShift
                have i2 := hN2 fuel (le_trans (le_max_right _ _) hf) (M.shift 1)
                cases r1 : vasWorker eps fuel p01 M.invertTaylorShift with
                | more => exact absurd r1 i1
                | bad => simp
                | ok L1 =>
                  simp only
                  cases svPushAll n l L1 with
                  | none => simp
                  | some L =>
                    simp only
                    cases r2 : vasWorker eps fuel p1 (M.shift 1) with
                    | more => exact absurd r2 i2
                    | bad => simp
                    | ok L2 =>
                      simp only
                      cases svPushAll n L L2 <;> simp
      obtain ⟨N, hN⟩ := key
      refine ⟨N + 1, fun fuel hf M => ?_⟩
      obtain ⟨fuel, rfl⟩ : ∃ k, fuel = k + 1 := ⟨fuel - 1, by omega⟩
      rw [vasWorker, ev]
      simp only [Out.lift, Out.bind]
      rw [if_neg (by omega), if_neg (by omega)]
      exact hN fuel (by omega) M

/-! ## What the calls preserve -/

/-- The number of roots that are not negative. -/
noncomputable def rootsGe {n : ℕ} (f : Arr ℝ n) : ℕ := ((polyOf f).roots.toFinset.filter (0 ≤ ·)).card

/-- Not zero, positive roots simple. -/
def Simple {n : ℕ} (f : Arr ℝ n) : Prop :=
  f ≠ 0 ∧ ∀ x, 0 < x → (polyOf f).rootMultiplicity x ≤ 1

theorem arr_ne {n : ℕ} {f : Arr ℝ n} (h : polyOf f ≠ 0) : f ≠ 0 := by
  rintro rfl
  exact h (polyOf_zeros n)

theorem comp_linear_ne {P : ℝ[X]} (hP : P ≠ 0) {a b : ℝ} (ha : a ≠ 0) : P.comp (C a * X + C b) ≠ 0 := by
  intro h
  rcases comp_eq_zero_iff.1 h with h | ⟨-, h⟩
  · exact hP h
  · have := congrArg (fun p : ℝ[X] => p.coeff 1) h
    simp at this
    exact ha this

theorem deflated_mult {n : ℕ} {f f' : Arr ℝ n} (hf : f ≠ 0) (h : f' = f ∨ polyOf f = X * polyOf f') {x : ℝ}
    (hx : x ≠ 0) : (polyOf f').rootMultiplicity x = (polyOf f).rootMultiplicity x := by
  rcases h with rfl | h
  · rfl
  · rw [h, rootMultiplicity_mul (by rw [← h]; exact polyOf_ne_zero hf),
      rootMultiplicity_eq_zero (p := X) (by simpa using hx), zero_add]

theorem deflated_ne {n : ℕ} {f f' : Arr ℝ n} (hf : f ≠ 0) (h : f' = f ∨ polyOf f = X * polyOf f') : f' ≠ 0 := by
  rcases h with rfl | h
  · exact hf
  · rintro rfl
    apply polyOf_ne_zero hf
    rw [h, show polyOf (0 : Arr ℝ n) = 0 from polyOf_zeros n, mul_zero]

theorem revArr_ne {n : ℕ} {f : Arr ℝ n} (hf : f ≠ 0) : polyOf (revArr f) ≠ 0 := by
  rw [polyOf_revArr, Ne, reflect_eq_zero_iff]
  exact polyOf_ne_zero hf

theorem Step.simple {eps : ℝ} {n : ℕ} {f g : Arr ℝ n} (hs : Step eps f g) (hf : Simple f) : Simple g := by
  obtain ⟨h0, hm⟩ := hf
  have p0 := polyOf_ne_zero h0
  cases hs with
  | lb α β hα hβ h =>
    refine ⟨arr_ne (by rw [h]; exact comp_linear_ne p0 (by linarith)), fun x hx => ?_⟩
    rw [h, rootMultiplicity_linear _ _ _ _ (by linarith)]
    exact hm _ (by nlinarith)
  | dbl p ep hp h =>
    have e : (C 2 * X : ℝ[X]) = C 2 * X + C 0 := by simp
    refine ⟨arr_ne (by rw [h, e]; exact comp_linear_ne p0 two_ne_zero), fun x hx => ?_⟩
    rw [h, e, rootMultiplicity_linear _ _ _ _ two_ne_zero]
    exact hm _ (by linarith)
  | inv f' hz h =>
    have e : (X + C 1 : ℝ[X]) = C 1 * X + C 1 := by simp
    refine ⟨arr_ne (by rw [h, e]; exact comp_linear_ne (revArr_ne (deflated_ne h0 hz)) one_ne_zero),
      fun x hx => ?_⟩
    have h1 : (0 : ℝ) < 1 * x + 1 := by linarith
    have := rootMultiplicity_reflect (polyOf_degree f') (r := (1 * x + 1)⁻¹) (inv_ne_zero h1.ne')
    rw [inv_inv] at this
    rw [h, e, rootMultiplicity_linear _ _ _ _ one_ne_zero, polyOf_revArr, this,
      deflated_mult h0 hz (inv_ne_zero h1.ne')]
    exact hm _ (inv_pos.2 h1)
  | one f' hz h =>
    have e : (X + C 1 : ℝ[X]) = C 1 * X + C 1 := by simp
    refine ⟨arr_ne (by rw [h, e]; exact comp_linear_ne (polyOf_ne_zero (deflated_ne h0 hz)) one_ne_zero),
      fun x hx => ?_⟩
    have h1 : (0 : ℝ) < 1 * x + 1 := by linarith
    rw [h, e, rootMultiplicity_linear _ _ _ _ one_ne_zero, deflated_mult h0 hz h1.ne']
    exact hm _ h1

theorem mem_rootsGe {n : ℕ} {f : Arr ℝ n} (hf : f ≠ 0) (x : ℝ) :
    x ∈ (polyOf f).roots.toFinset.filter (0 ≤ ·) ↔ value f x = 0 ∧ 0 ≤ x := by
  rw [Finset.mem_filter, Multiset.mem_toFinset, mem_roots (polyOf_ne_zero hf), IsRoot, value_eq]

theorem rootsGe_le {n : ℕ} {f g : Arr ℝ n} (hf : f ≠ 0) (hg : g ≠ 0) (φ : ℝ → ℝ)
    (h0 : ∀ x, 0 ≤ x → 0 ≤ φ x) (hi : ∀ x y, 0 ≤ x → 0 ≤ y → φ x = φ y → x = y)
    (hr : ∀ x, 0 ≤ x → value g x = 0 → value f (φ x) = 0) : rootsGe g ≤ rootsGe f := by
  refine Finset.card_le_card_of_injOn φ (fun x hx => ?_) (fun x hx y hy e => ?_)
  · obtain ⟨h1, h2⟩ := (mem_rootsGe hg x).1 hx
    exact (mem_rootsGe hf _).2 ⟨hr x h2 h1, h0 x h2⟩
  · exact hi x y ((mem_rootsGe hg x).1 hx).2 ((mem_rootsGe hg y).1 hy).2 e

theorem rootsGe_lt {n : ℕ} {f g : Arr ℝ n} (hf : f ≠ 0) (hg : g ≠ 0) (φ : ℝ → ℝ)
    (h0 : ∀ x, 0 ≤ x → 0 < φ x) (hi : ∀ x y, 0 ≤ x → 0 ≤ y → φ x = φ y → x = y)
    (hr : ∀ x, 0 ≤ x → value g x = 0 → value f (φ x) = 0) (hz : value f 0 = 0) : rootsGe g < rootsGe f := by
  have : rootsGe g ≤ (((polyOf f).roots.toFinset.filter (0 ≤ ·)).erase 0).card := by
    refine Finset.card_le_card_of_injOn φ (fun x hx => ?_) (fun x hx y hy e => ?_)
    · obtain ⟨h1, h2⟩ := (mem_rootsGe hg x).1 hx
      exact Finset.mem_coe.2 (Finset.mem_erase.2 ⟨(h0 x h2).ne', (mem_rootsGe hf _).2 ⟨hr x h2 h1, (h0 x h2).le⟩⟩)
    · exact hi x y ((mem_rootsGe hg x).1 hx).2 ((mem_rootsGe hg y).1 hy).2 e
  refine lt_of_le_of_lt this (Finset.card_erase_lt_of_mem ((mem_rootsGe hf 0).2 ⟨hz, le_rfl⟩))

/-- A call without division by `x`. -/
inductive Plain (eps : ℝ) {n : ℕ} (f g : Arr ℝ n) : Prop
  | lb (α β : ℝ) (hα : 1 ≤ α) (hβ : α ≤ β) (h : ∀ x, value g x = value f (α * x + β))
  | dbl (p : ℝ) (ep : precision eps f 1 = some p) (hp : |value f 1| ≤ 100 * p)
      (h : ∀ x, value g x = value f (2 * x))
  | inv (h : ∀ x, 0 ≤ x → value g x = (x + 1) ^ n * value f ((x + 1)⁻¹))

theorem inv_value {n : ℕ} {f g : Arr ℝ n} (h : polyOf g = (polyOf (revArr f)).comp (X + C 1)) (x : ℝ)
    (hx : 0 ≤ x) : value g x = (x + 1) ^ n * value f ((x + 1)⁻¹) := by
  rw [value_eq, h, eval_comp, eval_add, eval_X, eval_C, eval_revArr _ _ (by linarith), value_eq]

theorem Step.plain {eps : ℝ} {n : ℕ} {f g : Arr ℝ n} (hs : Step eps f g) (hf : Simple f) :
    rootsGe g ≤ rootsGe f ∧ (rootsGe g = rootsGe f → Plain eps f g) := by
  have hg := hs.simple hf
  cases hs with
  | lb α β hα hβ h =>
    have hv : ∀ x, value g x = value f (α * x + β) := fun x => by
      rw [value_eq, value_eq, h, eval_comp]; simp
    refine ⟨rootsGe_le hf.1 hg.1 (fun x => α * x + β) (fun x hx => by nlinarith) (fun x y _ _ e => ?_)
      (fun x _ e => by rw [← hv, e]), fun _ => .lb α β hα hβ hv⟩
    have : α * x = α * y := by linarith
    exact mul_left_cancel₀ (by linarith) this
  | dbl p ep hp h =>
    have hv : ∀ x, value g x = value f (2 * x) := fun x => by
      rw [value_eq, value_eq, h, eval_comp]; simp
    exact ⟨rootsGe_le hf.1 hg.1 (fun x => 2 * x) (fun x hx => by linarith) (fun x y _ _ e => by linarith)
      (fun x _ e => by rw [← hv, e]), fun _ => .dbl p ep hp hv⟩
  | inv f' hz h =>
    have hv := inv_value h
    have hr : ∀ x, 0 ≤ x → value g x = 0 → value f ((x + 1)⁻¹) = 0 := by
      intro x hx e
      have h1 : x + 1 ≠ 0 := by linarith
      rw [hv x hx] at e
      have e : value f' ((x + 1)⁻¹) = 0 := by
        rcases mul_eq_zero.1 e with e | e
        · exact absurd e (pow_ne_zero _ h1)
        · exact e
      rcases hz with rfl | hz
      · exact e
      · rw [value_eq] at e
        rw [value_eq, hz, eval_mul, e, mul_zero]
    have hpos : ∀ x : ℝ, 0 ≤ x → 0 < (x + 1)⁻¹ := fun x hx => inv_pos.2 (by linarith)
    have hinj : ∀ x y : ℝ, 0 ≤ x → 0 ≤ y → (x + 1)⁻¹ = (y + 1)⁻¹ → x = y := fun x y _ _ e => by
      have := inv_injective e
      linarith
    refine ⟨rootsGe_le hf.1 hg.1 (fun x => (x + 1)⁻¹) (fun x hx => (hpos x hx).le) hinj hr, fun heq => ?_⟩
    rcases hz with rfl | hz
    · exact .inv hv
    · have := rootsGe_lt hf.1 hg.1 (fun x => (x + 1)⁻¹) hpos hinj hr (by rw [value_eq, hz]; simp)
      omega
  | one f' hz h =>
    have hv : ∀ x, value g x = value f' (1 * x + 1) := fun x => by
      rw [value_eq, value_eq, h, eval_comp]; simp
    have hr : ∀ x, 0 ≤ x → value g x = 0 → value f (1 * x + 1) = 0 := by
      intro x hx e
      rw [hv] at e
      rcases hz with rfl | hz
      · exact e
      · rw [value_eq] at e
        rw [value_eq, hz, eval_mul, e, mul_zero]
    have hpos : ∀ x : ℝ, 0 ≤ x → 0 < 1 * x + 1 := fun x hx => by linarith
    have hinj : ∀ x y : ℝ, 0 ≤ x → 0 ≤ y → 1 * x + 1 = 1 * y + 1 → x = y := fun x y _ _ e => by linarith
    refine ⟨rootsGe_le hf.1 hg.1 (fun x => 1 * x + 1) (fun x hx => (hpos x hx).le) hinj hr, fun heq => ?_⟩
    rcases hz with rfl | hz
    · exact .lb 1 1 le_rfl le_rfl hv
    · have := rootsGe_lt hf.1 hg.1 (fun x => 1 * x + 1) hpos hinj hr (by rw [value_eq, hz]; simp)
      omega

/-- An infinite chain of calls gives one without divisions by `x`. -/
theorem plain_chain {eps : ℝ} {n : ℕ} {s : ℕ → Arr ℝ n} (h0 : Simple (s 0))
    (hs : ∀ i, Call eps (s (i + 1)) (s i)) :
    ∃ t : ℕ → Arr ℝ n, ∀ i, Simple (t i) ∧ (∃ v, descartes (t i) = some v ∧ 2 ≤ v) ∧
      Plain eps (t i) (t (i + 1)) := by
  have hS : ∀ i, Simple (s i) := by
    intro i
    induction i with
    | zero => exact h0
    | succ i ih => exact (hs i).2.simple ih
  have hanti : Antitone fun i => rootsGe (s i) := antitone_nat_of_succ_le fun i => ((hs i).2.plain (hS i)).1
  obtain ⟨N, hN⟩ : ∃ N, ∀ i, N ≤ i → rootsGe (s i) = rootsGe (s N) := by
    obtain ⟨N, hN⟩ : ∃ N, ∀ i, rootsGe (s N) ≤ rootsGe (s i) := by
      have hne : (Set.range fun i => rootsGe (s i)).Nonempty := ⟨_, 0, rfl⟩
      obtain ⟨N, hN⟩ := Nat.sInf_mem hne
      exact ⟨N, fun i => by
        have : rootsGe (s N) = sInf (Set.range fun i => rootsGe (s i)) := hN
        rw [this]
        exact Nat.sInf_le ⟨i, rfl⟩⟩
    exact ⟨N, fun i hi => le_antisymm (hanti hi) (hN i)⟩
  refine ⟨fun i => s (N + i), fun i => ⟨hS _, (hs _).1, ((hs (N + i)).2.plain (hS _)).2 ?_⟩⟩
  rw [hN (N + i + 1) (by omega), hN (N + i) (by omega)]

/-! ## Runs of scalings by 2 are bounded -/

/-- The tolerance test at 1 is an (over-estimated) cancellation test. -/
theorem precision_le (eps : ℝ) (he : 0 ≤ eps) {n : ℕ} (f : Arr ℝ n) {p : ℝ} (ep : precision eps f 1 = some p) :
    p ≤ eps * (2 * n + 1) * ∑ i ∈ Finset.range (n + 1), |coef f i| := by
  have hs : 0 ≤ ∑ i ∈ Finset.range (n + 1), |coef f i| := Finset.sum_nonneg fun i _ => abs_nonneg _
  have hn0 : (0 : ℝ) ≤ n := Nat.cast_nonneg n
  unfold precision at ep
  split at ep
  · simp only [Option.some.injEq] at ep
    rw [← ep]
    positivity
  · next hn =>
    obtain ⟨s, e, h1, h2⟩ := forUp_inv (lo := 1) (body := fun i (s : ℝ × ℝ) => do
      let c ← rd f i
      some (s.1 + (2 * (i : ℝ) + 1) * |c| * s.2, s.2 * |(1 : ℝ)|))
      (fun c s => s.2 = 1 ∧ (1 + c ≤ n + 1 → s.1 ≤ (2 * n + 1) * ∑ i ∈ Finset.range (c + 1), |coef f i|)) n
      (coef f 0, |(1 : ℝ)|) ⟨by simp, by
        intro _
        simp only [zero_add, Finset.sum_range_one]
        nlinarith [le_abs_self (coef f 0), abs_nonneg (coef f 0)]⟩
      (by
        rintro c ⟨s1, s2⟩ hc ⟨h1, h2⟩
        simp only at h1 h2
        subst h1
        refine ⟨_, by rw [rd_coef f (show 1 + c ≤ n by omega)]; rfl, by simp, fun _ => ?_⟩
        simp only
        rw [Finset.sum_range_succ, Nat.add_comm 1 c, mul_add]
        have h3 := h2 (by omega)
        have h4 : (2 * ((c + 1 : ℕ) : ℝ) + 1) * |coef f (c + 1)| * 1 ≤ (2 * n + 1) * |coef f (c + 1)| := by
          have : ((c + 1 : ℕ) : ℝ) ≤ n := by exact_mod_cast (by omega : c + 1 ≤ n)
          nlinarith [abs_nonneg (coef f (c + 1))]
        linarith)
    rw [rd_coef f (Nat.zero_le _)] at ep
    simp only [Option.bind_eq_bind, Option.bind_some] at e ep
    rw [e] at ep
    simp only [Option.bind_some, Option.some.injEq] at ep
    rw [← ep]
    have := mul_le_mul_of_nonneg_right (h2 (by omega)) he
    linarith

theorem no_dominant {N : ℕ} {t : ℕ → ℝ} {m : ℕ} (hm : m ≤ N)
    (h : |∑ i ∈ Finset.range (N + 1), t i| ≤ 1 / 2 * ∑ i ∈ Finset.range (N + 1), |t i|) (hpos : t m ≠ 0) :
    ∃ l ≤ N, l ≠ m ∧ |t m| ≤ 3 * (N + 1) * |t l| := by
  by_contra hc
  push Not at hc
  have hmem : m ∈ Finset.range (N + 1) := Finset.mem_range.2 (by omega)
  rw [← Finset.add_sum_erase _ _ hmem, ← Finset.add_sum_erase _ (fun i => |t i|) hmem] at h
  set S := ∑ i ∈ (Finset.range (N + 1)).erase m, t i
  set A := ∑ i ∈ (Finset.range (N + 1)).erase m, |t i| with hA
  have hSA : |S| ≤ A := Finset.abs_sum_le_sum_abs _ _
  have h1 : |t m| - |S| ≤ |t m + S| := by
    have := abs_sub_abs_le_abs_sub (t m) (-S)
    rwa [abs_neg, sub_neg_eq_add] at this
  have hN : (0 : ℝ) < 3 * (N + 1) := by positivity
  have hm0 : 0 < |t m| := abs_pos.2 hpos
  have h2 : A ≤ (N + 1 - 1 : ℕ) * (|t m| / (3 * (N + 1))) := by
    rw [hA]
    refine (Finset.sum_le_card_nsmul _ _ (|t m| / (3 * (N + 1))) fun i hi => ?_).trans ?_
    · rw [Finset.mem_erase, Finset.mem_range] at hi
      rw [le_div_iff₀ hN, mul_comm]
      exact (hc i (by omega) hi.1).le
    · rw [Finset.card_erase_of_mem hmem, Finset.card_range, nsmul_eq_mul]
  have h3 : A < |t m| / 3 := by
    refine h2.trans_lt ?_
    rw [Nat.add_sub_cancel]
    have hN' : (0 : ℝ) < N + 1 := by positivity
    rw [← mul_div_assoc, div_lt_div_iff₀ hN (by norm_num)]
    nlinarith
  linarith

/-- A polynomial of degree at most `n` cannot have strong cancellation at all of `1, 2, 4, …, 2^(D-1)`. -/
theorem cancel_bound (n : ℕ) : ∃ D : ℕ, ∀ c : ℕ → ℝ, (∃ i ≤ n, c i ≠ 0) →
    ∃ j < D, 1 / 2 * ∑ i ∈ Finset.range (n + 1), |c i * (2 ^ j) ^ i| <
      |∑ i ∈ Finset.range (n + 1), c i * (2 ^ j) ^ i| := by
  obtain ⟨W, hW⟩ := pow_unbounded_of_one_lt (3 * ((n : ℝ) + 1)) (one_lt_two (α := ℝ))
  have hR : (1 : ℝ) < 3 * (n + 1) := by have : (0 : ℝ) ≤ n := Nat.cast_nonneg n; linarith
  refine ⟨W * ((n + 1) * (n + 1) + 1), fun c ⟨i0, hi0, hc0⟩ => ?_⟩
  by_contra hcon
  push Not at hcon
  have hW0 : 0 < W := by
    rcases Nat.eq_zero_or_pos W with h | h
    · rw [h, pow_zero] at hW; linarith
    · exact h
  have key : ∀ k : Fin ((n + 1) * (n + 1) + 1), ∃ q : Fin (n + 1) × Fin (n + 1), q.1 ≠ q.2 ∧
      0 < |c q.1 * (2 ^ (W * k.1)) ^ (q.1 : ℕ)| ∧
      |c q.2 * (2 ^ (W * k.1)) ^ (q.2 : ℕ)| ≤ |c q.1 * (2 ^ (W * k.1)) ^ (q.1 : ℕ)| ∧
      |c q.1 * (2 ^ (W * k.1)) ^ (q.1 : ℕ)| ≤ 3 * (n + 1) * |c q.2 * (2 ^ (W * k.1)) ^ (q.2 : ℕ)| := by
    intro k
    have h := hcon (W * k.1) (by exact (Nat.mul_lt_mul_left hW0).2 k.2)
    obtain ⟨m, hm, hmax⟩ := Finset.exists_max_image (Finset.range (n + 1))
      (fun i => |c i * (2 ^ (W * k.1)) ^ i|) ⟨0, by simp⟩
    have hmn : m ≤ n := Nat.lt_succ_iff.1 (Finset.mem_range.1 hm)
    have hpos : 0 < |c m * (2 ^ (W * k.1)) ^ m| := by
      refine lt_of_lt_of_le ?_ (hmax i0 (Finset.mem_range.2 (by omega)))
      exact abs_pos.2 (mul_ne_zero hc0 (by positivity))
    obtain ⟨l, hl, hlm, hle⟩ := no_dominant hmn h (abs_pos.1 hpos)
    exact ⟨(⟨m, by omega⟩, ⟨l, by omega⟩), fun e => hlm (congrArg Fin.val e).symm, hpos,
      hmax l (Finset.mem_range.2 (by omega)), hle⟩
  choose q hq using key
  obtain ⟨k, k', hkk, hqq⟩ := Fintype.exists_ne_map_eq_of_card_lt q (by simp)
  wlog hlt : k < k' generalizing k k'
  · exact this k' k hkk.symm hqq.symm (lt_of_le_of_ne (not_lt.1 hlt) hkk.symm)
  obtain ⟨a1, a2, a3, a4⟩ := hq k
  obtain ⟨b1, b2, b3, b4⟩ := hq k'
  rw [← hqq] at b1 b2 b3 b4
  set m : ℕ := (q k).1.val
  set l : ℕ := (q k).2.val
  have hml : m ≠ l := fun e => a1 (Fin.ext e)
  have hk : k.1 < k'.1 := hlt
  have hZ : (2 : ℝ) ^ (W * k'.1) = 2 ^ (W * k.1) * 2 ^ (W * (k'.1 - k.1)) := by
    rw [← pow_add, ← Nat.mul_add]; congr 2; omega
  have hZR : 3 * ((n : ℝ) + 1) < 2 ^ (W * (k'.1 - k.1)) :=
    hW.trans_le (pow_le_pow_right₀ one_le_two (Nat.le_mul_of_pos_right _ (by omega)))
  rw [hZ] at b2 b3 b4
  set x : ℝ := 2 ^ (W * k.1)
  set z : ℝ := 2 ^ (W * (k'.1 - k.1))
  have hx : 0 < x := by positivity
  have hz : 0 < z := by positivity
  rw [mul_pow, mul_pow, ← mul_assoc, ← mul_assoc, abs_mul _ (z ^ m), abs_mul _ (z ^ l), abs_of_pos (pow_pos hz m),
    abs_of_pos (pow_pos hz l)] at b3 b4
  set u := |c m * x ^ m|
  set w := |c l * x ^ l|
  have hw : 0 < w := by
    by_contra h0
    nlinarith
  have fin : ∀ i j : ℕ, i < j → ∀ u w : ℝ, 0 < u → w ≤ 3 * (n + 1) * u → u * z ^ j ≤ w * z ^ i → False := by
    intro i j hij u w hu h1 h2
    have h3 : z ^ i * z ≤ z ^ j := by
      rw [← pow_succ]; exact pow_le_pow_right₀ (by linarith) hij
    have h4 : u * (z ^ i * z) ≤ 3 * (n + 1) * u * z ^ i :=
      (mul_le_mul_of_nonneg_left h3 hu.le).trans (h2.trans (mul_le_mul_of_nonneg_right h1 (by positivity)))
    have h5 : 0 < u * z ^ i := by positivity
    nlinarith
  rcases lt_or_gt_of_ne hml with h | h
  · exact fin m l h w u hw a4 b3
  · exact fin l m h u (3 * (n + 1) * w) a2 (mul_le_mul_of_nonneg_left a3 (by positivity)) (by linarith)

/-! ## Far away all coefficients have the same sign -/

theorem eventually_nonneg {P : ℝ[X]} (h : 0 ≤ P.leadingCoeff) : ∀ᶠ x in atTop, 0 ≤ P.eval x := by
  by_cases hd : 0 < P.degree
  · exact (tendsto_atTop_of_leadingCoeff_nonneg P hd h).eventually_ge_atTop 0
  · rw [eq_C_of_degree_le_zero (not_lt.1 hd), leadingCoeff_C] at h
    refine .of_forall fun x => ?_
    rw [eq_C_of_degree_le_zero (not_lt.1 hd), eval_C]
    exact h

theorem hasse_lead (P : ℝ[X]) (i : ℕ) : 0 ≤ P.leadingCoeff * (hasseDeriv i P).leadingCoeff := by
  rw [leadingCoeff, leadingCoeff, natDegree_hasseDeriv, hasseDeriv_coeff]
  by_cases hi : i ≤ P.natDegree
  · rw [Nat.sub_add_cancel hi]
    have : (0 : ℝ) ≤ (P.natDegree.choose i : ℕ) := Nat.cast_nonneg _
    nlinarith [mul_self_nonneg (P.coeff P.natDegree)]
  · rw [coeff_eq_zero_of_natDegree_lt (n := P.natDegree - i + i) (by omega)]
    simp

theorem far_one_sign {n : ℕ} (f : Arr ℝ n) (hf : f ≠ 0) : ∃ B₀ : ℝ, ∀ (A B : ℝ) (g : Arr ℝ n), 1 ≤ A → B₀ ≤ B →
    (∀ x, value g x = value f (A * x + B)) → OneTurn (polyOf g) := by
  set P := polyOf f
  have hl : P.leadingCoeff ≠ 0 := leadingCoeff_ne_zero.2 (polyOf_ne_zero hf)
  have h : ∀ᶠ B in atTop, ∀ i ∈ Finset.range (n + 1), 0 ≤ (C P.leadingCoeff * hasseDeriv i P).eval B :=
    (Finset.eventually_all _).2 fun i _ => eventually_nonneg (by
      rw [leadingCoeff_mul, leadingCoeff_C]; exact hasse_lead P i)
  obtain ⟨B₀, hB⟩ := eventually_atTop.1 h
  refine ⟨B₀, fun A B g hA hBB hg => ?_⟩
  have e : polyOf g = (taylor B P).comp (C A * X) := by
    refine poly_ext_pos fun x _ => ?_
    rw [← value_eq, hg, value_eq, eval_comp, taylor_eval]
    simp [P]
  refine ⟨P.leadingCoeff, hl, 0, by simp, fun i _ => ?_⟩
  rw [e, comp_C_mul_X_coeff, taylor_coeff, ← mul_assoc]
  refine mul_nonneg ?_ (by positivity)
  by_cases hi : i ≤ n
  · have := hB B hBB i (Finset.mem_range.2 (by omega))
    rwa [eval_mul, eval_C] at this
  · rw [hasseDeriv_eq_zero_of_lt_natDegree P i (lt_of_le_of_lt (polyOf_degree f) (by omega))]
    simp

/-! ## Short intervals have at most one sign change -/

theorem mob_local {n : ℕ} {P : ℝ[X]} (hP : P ≠ 0) (hn : P.natDegree ≤ n) (x0 : ℝ)
    (hm : 0 < x0 → P.rootMultiplicity x0 ≤ 1) :
    ∃ ε > 0, ∀ c d, 0 ≤ c → 0 ≤ d → |c - x0| < ε → |d - x0| < ε → OneTurn (mob n P c d) := by
  obtain ⟨H, hH, hdvd⟩ := exists_eq_pow_rootMultiplicity_mul_and_not_dvd P hP x0
  set μ := P.rootMultiplicity x0 with hμ
  have hH0 : H ≠ 0 := by rintro rfl; exact hdvd (dvd_zero _)
  have hHx : H.eval x0 ≠ 0 := fun h => hdvd (dvd_iff_isRoot.2 h)
  have hdeg : H.natDegree + μ ≤ n := by
    have := congrArg natDegree hH
    rw [natDegree_mul (pow_ne_zero _ (X_sub_C_ne_zero x0)) hH0, natDegree_pow, natDegree_X_sub_C] at this
    omega
  have hHd : H.natDegree ≤ n - μ := by omega
  obtain ⟨ε, hε, hconc⟩ := mob_concave hHd hHx
  refine ⟨ε, hε, fun c d hc0 hd0 hc hd => ?_⟩
  have G := hconc _ _ hc hd
  have Gd := mob_natDegree (n - μ) H c d
  have e : mob n P c d = (C (c - x0) + C (d - x0) * X) ^ μ * mob (n - μ) H c d := by
    have := mob_power hHd x0 c d μ
    rwa [← hH, show n - μ + μ = n by omega] at this
  rw [e]
  by_cases hin : (c - x0) * (d - x0) < 0
  · have hx0 : 0 < x0 := by
      by_contra h
      nlinarith [mul_nonneg (show 0 ≤ c - x0 by linarith) (show 0 ≤ d - x0 by linarith)]
    have hμ1 := hm hx0
    interval_cases μ
    · rw [pow_zero, one_mul]
      have := oneTurn_mul_nonneg (A := 1) (s := 1) (σ := H.eval x0) one_ne_zero hHx (fun i => by
        rw [coeff_one]; split <;> norm_num) (concave_nonneg G Gd)
      rwa [one_mul] at this
    · rw [pow_one]
      exact oneTurn_linear G Gd hin
  · rw [not_lt, mul_nonneg_iff] at hin
    rcases hin with ⟨h1, h2⟩ | ⟨h1, h2⟩
    · exact oneTurn_mul_nonneg (s := 1 ^ μ) (σ := H.eval x0) (by simp) hHx
        (coeff_pow_nonneg (linear_coeff_nonneg (by linarith) (by linarith)) μ) (concave_nonneg G Gd)
    · exact oneTurn_mul_nonneg (s := (-1) ^ μ) (σ := H.eval x0) (by simp) hHx
        (coeff_pow_nonneg (linear_coeff_nonneg (by linarith) (by linarith)) μ) (concave_nonneg G Gd)

theorem mob_short {n : ℕ} {f : Arr ℝ n} (hf : Simple f) :
    ∃ ε > 0, ∀ c d, 0 ≤ c → c ≤ 1 → 0 ≤ d → d ≤ 1 → |c - d| < ε → OneTurn (mob n (polyOf f) c d) := by
  choose ε hε hM using fun x0 => mob_local (polyOf_ne_zero hf.1) (polyOf_degree f) x0 (hf.2 x0)
  obtain ⟨t, ht⟩ := (isCompact_Icc (a := (0 : ℝ)) (b := 1)).elim_nhds_subcover
    (fun x => Metric.ball x (ε x / 2)) fun x _ => Metric.ball_mem_nhds x (half_pos (hε x))
  obtain ⟨δ, hδ, hδt⟩ : ∃ δ > 0, ∀ x ∈ t, δ ≤ ε x / 2 := by
    rcases t.eq_empty_or_nonempty with rfl | hne
    · exact ⟨1, one_pos, by simp⟩
    · obtain ⟨y, hy, hmin⟩ := Finset.exists_min_image t (fun x => ε x / 2) hne
      exact ⟨ε y / 2, half_pos (hε y), hmin⟩
  refine ⟨δ, hδ, fun c d hc0 hc1 hd0 hd1 hcd => ?_⟩
  obtain ⟨x, hx, hb⟩ := Set.mem_iUnion₂.1 (ht.2 (show c ∈ Set.Icc (0 : ℝ) 1 from ⟨hc0, hc1⟩))
  rw [Metric.mem_ball, Real.dist_eq] at hb
  have := hδt x hx
  refine hM x c d hc0 hd0 (by linarith [hε x]) ?_
  rw [abs_lt] at hb hcd ⊢
  constructor <;> linarith

/-! ## The chain of calls -/

/-- The hypotheses on an infinite chain of calls, from the `i`-th call on. -/
structure Chain (eps : ℝ) {n : ℕ} (t : ℕ → Arr ℝ n) : Prop where
  simple : ∀ i, Simple (t i)
  many : ∀ i, ∃ v, descartes (t i) = some v ∧ 2 ≤ v
  step : ∀ i, Plain eps (t i) (t (i + 1))

theorem Chain.tail {eps : ℝ} {n : ℕ} {t : ℕ → Arr ℝ n} (h : Chain eps t) (k : ℕ) :
    Chain eps fun i => t (k + i) :=
  ⟨fun i => h.simple _, fun i => h.many _, fun i => h.step _⟩

theorem Chain.not_oneTurn {eps : ℝ} {n : ℕ} {t : ℕ → Arr ℝ n} (h : Chain eps t) (i : ℕ) :
    ¬ OneTurn (polyOf (t i)) := by
  intro ho
  obtain ⟨v, ev, hv⟩ := descartes_oneTurn ho
  obtain ⟨w, ew, hw⟩ := h.many i
  rw [ev] at ew
  cases ew
  omega

/-- The kinds of calls other than a scaling by 2. -/
inductive Turn {n : ℕ} (f g : Arr ℝ n) : Prop
  | lb (α β : ℝ) (hα : 1 ≤ α) (hβ : α ≤ β) (h : ∀ x, value g x = value f (α * x + β))
  | inv (h : ∀ x, 0 ≤ x → value g x = (x + 1) ^ n * value f ((x + 1)⁻¹))

/-- Cancellation at `2^j`. -/
def Cancel {n : ℕ} (f : Arr ℝ n) (j : ℕ) : Prop :=
  |∑ i ∈ Finset.range (n + 1), coef f i * (2 ^ j) ^ i| ≤
    1 / 2 * ∑ i ∈ Finset.range (n + 1), |coef f i * (2 ^ j) ^ i|

theorem coef_of_scale {n : ℕ} {f g : Arr ℝ n} {a : ℝ} (h : ∀ x, value g x = value f (a * x)) (i : ℕ) :
    coef g i = coef f i * a ^ i := by
  have e : polyOf g = (polyOf f).comp (C a * X) := by
    refine poly_ext_pos fun x _ => ?_
    rw [← value_eq, h, value_eq, eval_comp]; simp
  rw [← polyOf_coeff, e, comp_C_mul_X_coeff, polyOf_coeff]

/-- Along a chain, a run of scalings by 2 ends after at most `D` calls. -/
theorem Chain.turn {eps : ℝ} (he : 0 ≤ eps) {n : ℕ} (hn : 200 * (2 * n + 1) * eps ≤ 1) {D : ℕ}
    (hD : ∀ c : ℕ → ℝ, (∃ i ≤ n, c i ≠ 0) →
      ∃ j < D, 1 / 2 * ∑ i ∈ Finset.range (n + 1), |c i * (2 ^ j) ^ i| <
        |∑ i ∈ Finset.range (n + 1), c i * (2 ^ j) ^ i|)
    {t : ℕ → Arr ℝ n} (h : Chain eps t) (k : ℕ) :
    ∃ e < D, (∀ x, value (t (k + e)) x = value (t k) (2 ^ e * x)) ∧ Turn (t (k + e)) (t (k + e + 1)) := by
  by_contra hc
  push Not at hc
  have main : ∀ e ≤ D, (∀ x, value (t (k + e)) x = value (t k) (2 ^ e * x)) ∧ ∀ j < e, Cancel (t k) j := by
    intro e
    induction e with
    | zero => intro _; exact ⟨fun x => by simp, by simp⟩
    | succ e ih =>
      intro heD
      obtain ⟨h1, h2⟩ := ih (by omega)
      have hnt := hc e (by omega) h1
      cases h.step (k + e) with
      | lb α β hα hβ hv => exact absurd (.lb α β hα hβ hv) hnt
      | inv hv => exact absurd (.inv hv) hnt
      | dbl p ep hp hv =>
        refine ⟨fun x => ?_, fun j hj => ?_⟩
        · rw [← add_assoc, hv, h1, ← mul_assoc, pow_succ]
        rcases Nat.lt_succ_iff_lt_or_eq.1 hj with hj | rfl
        · exact h2 j hj
        have hle := precision_le eps he _ ep
        set S := ∑ i ∈ Finset.range (n + 1), |coef (t (k + j)) i| with hS
        have hS0 : 0 ≤ S := Finset.sum_nonneg fun i _ => abs_nonneg _
        have h3 : |value (t (k + j)) 1| ≤ 1 / 2 * S := by nlinarith
        have e1 : S = ∑ i ∈ Finset.range (n + 1), |coef (t k) i * (2 ^ j) ^ i| :=
          Finset.sum_congr rfl fun i _ => by rw [coef_of_scale h1]
        have e2 : value (t (k + j)) 1 = ∑ i ∈ Finset.range (n + 1), coef (t k) i * (2 ^ j) ^ i := by
          rw [h1, value_eq, polyOf_eq_sum, eval_finsetSum]
          simp
        rw [e1, e2] at h3
        exact h3
  obtain ⟨i, hi, hci⟩ : ∃ i ≤ n, coef (t k) i ≠ 0 := by
    by_contra hz
    push Not at hz
    refine (h.simple k).1 (arr_ext fun i hi => ?_)
    rw [hz i hi, ← polyOf_coeff, show polyOf (0 : Arr ℝ n) = 0 from polyOf_zeros n, coeff_zero]
  obtain ⟨j, hj, hlt⟩ := hD (coef (t k)) ⟨i, hi, hci⟩
  have := (main D le_rfl).2 j hj
  rw [Cancel] at this
  linarith

/-- An inversion follows: shifts and scalings alone would push the argument to infinity. `Q` is anything the
calls before it preserve. -/
theorem Chain.inversion {eps : ℝ} (he : 0 ≤ eps) {n : ℕ} (hn : 200 * (2 * n + 1) * eps ≤ 1) {D : ℕ}
    (hD : ∀ c : ℕ → ℝ, (∃ i ≤ n, c i ≠ 0) →
      ∃ j < D, 1 / 2 * ∑ i ∈ Finset.range (n + 1), |c i * (2 ^ j) ^ i| <
        |∑ i ∈ Finset.range (n + 1), c i * (2 ^ j) ^ i|)
    {t : ℕ → Arr ℝ n} (h : Chain eps t) (Q : ℕ → Prop) (k : ℕ) (h0 : Q k)
    (hQ : ∀ i e α β, Q i → (∀ x, value (t (i + e)) x = value (t i) (2 ^ e * x)) → 1 ≤ α → α ≤ β →
      (∀ x, value (t (i + e + 1)) x = value (t (i + e)) (α * x + β)) → Q (i + e + 1)) :
    ∃ i, ∃ e < D, Q i ∧ (∀ x, value (t (i + e)) x = value (t i) (2 ^ e * x)) ∧
      ∀ x, 0 ≤ x → value (t (i + e + 1)) x = (x + 1) ^ n * value (t (i + e)) ((x + 1)⁻¹) := by
  by_contra hc
  obtain ⟨B₀, hB⟩ := far_one_sign (t k) (h.simple k).1
  have main : ∀ m : ℕ, ∃ i A B, Q i ∧ 1 ≤ A ∧ (m : ℝ) ≤ B ∧ ∀ x, value (t i) x = value (t k) (A * x + B) := by
    intro m
    induction m with
    | zero => exact ⟨k, 1, 0, h0, le_rfl, by simp, fun x => by simp⟩
    | succ m ih =>
      obtain ⟨i, A, B, hQi, hA, hm, hv⟩ := ih
      obtain ⟨e, heD, h1, h2⟩ := h.turn he hn hD i
      cases h2 with
      | inv h2 => exact absurd ⟨i, e, heD, hQi, h1, h2⟩ hc
      | lb α β hα hβ h2 =>
        have hp : (1 : ℝ) ≤ 2 ^ e := one_le_pow₀ one_le_two
        have hAp : 1 ≤ A * 2 ^ e := by nlinarith
        refine ⟨i + e + 1, A * 2 ^ e * α, A * 2 ^ e * β + B, hQ i e α β hQi h1 hα hβ h2, by nlinarith, ?_,
          fun x => ?_⟩
        · push_cast
          nlinarith
        · rw [h2, h1, hv]
          congr 1
          ring
  obtain ⟨m, hm⟩ := exists_nat_ge B₀
  obtain ⟨i, A, B, -, hA, hmB, hv⟩ := main m
  exact h.not_oneTurn i (hB A B (t i) hA (hm.trans hmB) hv)

/-- The `i`-th polynomial, as a transform of `P` on the interval between `p` and `q`. -/
def Seg {n : ℕ} (P f : Arr ℝ n) (κ τ p q : ℝ) : Prop :=
  0 < κ ∧ 0 < τ ∧ 0 ≤ p ∧ p ≤ 1 ∧ 0 ≤ q ∧ q ≤ 1 ∧
    ∀ x, 0 ≤ x → value f x = κ * (1 + τ * x) ^ n * value P ((p + q * (τ * x)) / (1 + τ * x))

theorem Seg.oneTurn {n : ℕ} {P f : Arr ℝ n} {κ τ p q : ℝ} (h : Seg P f κ τ p q)
    (ho : OneTurn (mob n (polyOf P) p q)) : OneTurn (polyOf f) := by
  obtain ⟨hκ, hτ, -, -, -, -, hv⟩ := h
  have e : polyOf f = C κ * (mob n (polyOf P) p q).comp (C τ * X) := by
    refine poly_ext_pos fun x hx => ?_
    have : 0 < τ * x := mul_pos hτ hx
    rw [← value_eq, hv x hx.le, eval_mul, eval_C, eval_comp, eval_mul, eval_C, eval_X,
      mob_eval (polyOf_degree P) _ _ _ (by linarith), value_eq, mul_assoc]
  obtain ⟨s, hs, j, h1, h2⟩ := ho
  refine ⟨s, hs, j, fun i hi => ?_, fun i hi => ?_⟩
  · rw [e, coeff_C_mul, comp_C_mul_X_coeff]
    have := h1 i hi
    have hp : 0 < κ * τ ^ i := by positivity
    nlinarith
  · rw [e, coeff_C_mul, comp_C_mul_X_coeff]
    have := h2 i hi
    have hp : 0 < κ * τ ^ i := by positivity
    nlinarith

theorem Seg.lb {n : ℕ} {P f g : Arr ℝ n} {κ τ p q : ℝ} (h : Seg P f κ τ p q) {α β : ℝ} (hα : 1 ≤ α)
    (hβ : α ≤ β) (hv : ∀ x, value g x = value f (α * x + β)) :
    ∃ κ' τ' p' q', Seg P g κ' τ' p' q' ∧ τ' ≤ 1 ∧ |p' - q'| ≤ |p - q| := by
  obtain ⟨hκ, hτ, hp0, hp1, hq0, hq1, hf⟩ := h
  have hτβ : 0 < τ * β := mul_pos hτ (by linarith)
  have h1 : 0 < 1 + τ * β := by linarith
  refine ⟨κ * (1 + τ * β) ^ n, τ * α / (1 + τ * β), (p + q * (τ * β)) / (1 + τ * β), q,
    ⟨by positivity, div_pos (mul_pos hτ (by linarith)) h1, by positivity, ?_, hq0, hq1, fun x hx => ?_⟩, ?_, ?_⟩
  · rw [div_le_one h1]; nlinarith
  · have hx' : 0 ≤ α * x + β := by nlinarith
    have h2 : 0 < 1 + τ * (α * x + β) := by positivity
    rw [hv, hf _ hx']
    have e1 : 1 + τ * (α * x + β) = (1 + τ * β) * (1 + τ * α / (1 + τ * β) * x) := by
      field_simp
      ring
    have e2 : (p + q * (τ * (α * x + β))) / (1 + τ * (α * x + β)) =
        ((p + q * (τ * β)) / (1 + τ * β) + q * (τ * α / (1 + τ * β) * x)) / (1 + τ * α / (1 + τ * β) * x) := by
      rw [e1, ← div_div]
      congr 1
      field_simp
      ring
    rw [e2, e1, mul_pow]
    ring
  · rw [div_le_one h1]; nlinarith
  · have : (p + q * (τ * β)) / (1 + τ * β) - q = (p - q) / (1 + τ * β) := by field_simp; ring
    rw [this, abs_div, abs_of_pos h1]
    exact div_le_self (abs_nonneg _) (by linarith)

theorem Seg.scale {n : ℕ} {P f g : Arr ℝ n} {κ τ p q : ℝ} (h : Seg P f κ τ p q) {a : ℝ} (ha : 0 < a)
    (hv : ∀ x, value g x = value f (a * x)) : Seg P g κ (a * τ) p q := by
  obtain ⟨hκ, hτ, hp0, hp1, hq0, hq1, hf⟩ := h
  refine ⟨hκ, mul_pos ha hτ, hp0, hp1, hq0, hq1, fun x hx => ?_⟩
  rw [hv, hf _ (by positivity), show τ * (a * x) = a * τ * x by ring]

theorem Seg.inv {n : ℕ} {P f g : Arr ℝ n} {κ τ p q : ℝ} (h : Seg P f κ τ p q)
    (hv : ∀ x, 0 ≤ x → value g x = (x + 1) ^ n * value f ((x + 1)⁻¹)) :
    ∃ κ' τ' p' q', Seg P g κ' τ' p' q' ∧ τ' ≤ 1 ∧ |p' - q'| = τ / (1 + τ) * |p - q| := by
  obtain ⟨hκ, hτ, hp0, hp1, hq0, hq1, hf⟩ := h
  have h1 : 0 < 1 + τ := by linarith
  refine ⟨κ * (1 + τ) ^ n, 1 / (1 + τ), (p + q * τ) / (1 + τ), p,
    ⟨by positivity, by positivity, by positivity, ?_, hp0, hp1, fun x hx => ?_⟩, ?_, ?_⟩
  · rw [div_le_one h1]; nlinarith
  · have hx1 : 0 < x + 1 := by linarith
    rw [hv x hx, hf _ (by positivity)]
    have e1 : (x + 1) * (1 + τ * (x + 1)⁻¹) = (1 + τ) * (1 + 1 / (1 + τ) * x) := by
      field_simp
      ring
    have e2 : (p + q * (τ * (x + 1)⁻¹)) / (1 + τ * (x + 1)⁻¹) =
        ((p + q * τ) / (1 + τ) + p * (1 / (1 + τ) * x)) / (1 + 1 / (1 + τ) * x) := by
      have h3 : 0 < 1 + τ + x := by linarith
      field_simp
      ring
    rw [e2, show (x + 1) ^ n * (κ * (1 + τ * (x + 1)⁻¹) ^ n * value P
        (((p + q * τ) / (1 + τ) + p * (1 / (1 + τ) * x)) / (1 + 1 / (1 + τ) * x))) =
        κ * ((x + 1) * (1 + τ * (x + 1)⁻¹)) ^ n * value P
        (((p + q * τ) / (1 + τ) + p * (1 / (1 + τ) * x)) / (1 + 1 / (1 + τ) * x)) by rw [mul_pow]; ring,
      e1, mul_pow]
    ring
  · rw [div_le_one h1]; linarith
  · have : (p + q * τ) / (1 + τ) - p = τ / (1 + τ) * (q - p) := by field_simp; ring
    rw [this, abs_mul, abs_of_pos (by positivity), abs_sub_comm]

/-- There is no infinite chain of calls. -/
theorem Chain.absurd {eps : ℝ} (he : 0 ≤ eps) {n : ℕ} (hn : 200 * (2 * n + 1) * eps ≤ 1)
    {t : ℕ → Arr ℝ n} (h : Chain eps t) : False := by
  obtain ⟨D, hD⟩ := cancel_bound n
  obtain ⟨k0, e0, -, -, -, hk⟩ := h.inversion he hn hD (fun _ => True) 0 trivial (fun _ _ _ _ _ _ _ _ _ => trivial)
  obtain ⟨ε, hε, hshort⟩ := mob_short (h.simple (k0 + e0))
  set k := k0 + e0
  set P := t k
  set ρ : ℝ := 2 ^ D / (1 + 2 ^ D) with hρ
  have h2D : (0 : ℝ) < 2 ^ D := by positivity
  have hρ1 : ρ < 1 := by rw [hρ, div_lt_one (by positivity)]; linarith
  have hρ0 : 0 < ρ := by positivity
  have main : ∀ m : ℕ, ∃ i κ τ p q, Seg P (t i) κ τ p q ∧ τ ≤ 1 ∧ |p - q| ≤ ρ ^ m := by
    intro m
    induction m with
    | zero =>
      refine ⟨k + 1, 1, 1, 1, 0, ⟨one_pos, one_pos, zero_le_one, le_rfl, le_rfl, zero_le_one, fun x hx => ?_⟩,
        le_rfl, by simp⟩
      rw [hk x hx]
      simp [add_comm]
    | succ m ih =>
      obtain ⟨i, hi⟩ := ih
      obtain ⟨i', e, heD, ⟨κ, τ, p, q, hs, hτ, hw⟩, h1, h2⟩ := h.inversion he hn hD
        (fun i => ∃ κ τ p q, Seg P (t i) κ τ p q ∧ τ ≤ 1 ∧ |p - q| ≤ ρ ^ m) i hi (by
          rintro i e α β ⟨κ, τ, p, q, hs, hτ, hw⟩ h1 hα hβ h2
          have hs' := hs.scale (by positivity : (0 : ℝ) < 2 ^ e) h1
          obtain ⟨κ', τ', p', q', hs'', hτ', hw'⟩ := hs'.lb hα hβ h2
          exact ⟨κ', τ', p', q', hs'', hτ', hw'.trans hw⟩)
      have hs' := hs.scale (by positivity : (0 : ℝ) < 2 ^ e) h1
      have hτ0 := hs.2.1
      obtain ⟨κ', τ', p', q', hs'', hτ', hw'⟩ := hs'.inv h2
      refine ⟨_, κ', τ', p', q', hs'', hτ', hw'.le.trans ?_⟩
      have hle : 2 ^ e * τ ≤ 2 ^ D := by
        have : (2 : ℝ) ^ e ≤ 2 ^ D := pow_le_pow_right₀ one_le_two heD.le
        have h2e : (0 : ℝ) < 2 ^ e := by positivity
        nlinarith
      have hρ' : 2 ^ e * τ / (1 + 2 ^ e * τ) ≤ ρ := by
        rw [hρ, div_le_div_iff₀ (by positivity) (by positivity)]
        nlinarith
      rw [pow_succ']
      exact mul_le_mul hρ' hw (abs_nonneg _) hρ0.le
  obtain ⟨m, hm⟩ := exists_pow_lt_of_lt_one hε hρ1
  obtain ⟨i, κ, τ, p, q, hs, -, hw⟩ := main m
  obtain ⟨-, -, hp0, hp1, hq0, hq1, -⟩ := id hs
  exact h.not_oneTurn i (hs.oneTurn (hshort p q hp0 hp1 hq0 hq1 (hw.trans_lt hm)))

/-! ## Termination -/

theorem vas_ends (eps : ℝ) (he : 0 ≤ eps) {n : ℕ} (hn : 200 * (2 * n + 1) * eps ≤ 1) (f : Arr ℝ n) (hf : f ≠ 0)
    (hm : ∀ x, 0 < x → (polyOf f).rootMultiplicity x ≤ 1) :
    ∃ N, ∀ fuel, N ≤ fuel → ∃ L, vas eps fuel f = .ok L := by
  have hacc : Acc (Call eps) f := by
    by_contra hc
    obtain ⟨s, h0, hs⟩ := not_acc_iff_exists_descending_chain.1 hc
    obtain ⟨t, ht⟩ := plain_chain (eps := eps) (s := s) (by rw [h0]; exact ⟨hf, hm⟩) hs
    exact Chain.absurd he hn ⟨fun i => (ht i).1, fun i => (ht i).2.1, fun i => (ht i).2.2⟩
  obtain ⟨N, hN⟩ := worker_ends eps f hacc
  refine ⟨N, fun fuel hfuel => ?_⟩
  have hb := (C32_vas eps he f hf fuel).1
  have hmore : vas eps fuel f ≠ .more := by
    obtain ⟨u, eu, -⟩ := C30_upper f hf
    rw [vas, eu]
    simp only [Out.lift, Out.bind]
    split
    · simp
    · have := hN fuel hfuel ⟨1, 0, 0, 1⟩
      cases er : vasWorker eps fuel f ⟨1, 0, 0, 1⟩ with
      | more => exact absurd er this
      | bad => simp
      | ok r => simp
  cases h : vas eps fuel f with
  | ok L => exact ⟨L, rfl⟩
  | bad => exact absurd h hb
  | more => exact absurd h hmore

/-- More fuel gives the same result, except that an unfinished run may finish. -/
def Upto {α : Type*} (a b : Out α) : Prop := a = .more ∨ a = b

theorem Upto.bind {α β : Type*} {a b : Out α} {f g : α → Out β} (h : Upto a b) (hf : ∀ x, Upto (f x) (g x)) :
    Upto (a.bind f) (b.bind g) := by
  rcases h with rfl | rfl
  · exact .inl rfl
  · cases a with
    | ok x => exact hf x
    | bad => exact .inr rfl
    | more => exact .inl rfl

theorem Upto.refl {α : Type*} (a : Out α) : Upto a a := .inr rfl

theorem vasWorker_upto (eps : ℝ) {n : ℕ} : ∀ (fuel fuel' : ℕ) (f : Arr ℝ n) (M : Mobius), fuel ≤ fuel' →
    Upto (vasWorker eps fuel f M) (vasWorker eps fuel' f M) := by
  intro fuel
  induction fuel with
  | zero => intro fuel' f M _; exact .inl rfl
  | succ fuel ih =>
    intro fuel' f M hle
    obtain ⟨fuel', rfl⟩ : ∃ k, fuel' = k + 1 := ⟨fuel' - 1, by omega⟩
    have ih := fun f M => ih fuel' f M (by omega)
    rw [vasWorker, vasWorker]
    refine (Upto.refl _).bind fun v => ?_
    split
    · exact .refl _
    split
    · exact .refl _
    refine (Upto.refl _).bind fun lb => (Upto.refl _).bind fun lb => (Upto.refl _).bind fun s => ?_
    simp only
    split
    · exact (Upto.refl _).bind fun g => ih _ _
    refine (Upto.refl _).bind fun v => (Upto.refl _).bind fun p => ?_
    split
    · exact (Upto.refl _).bind fun g => ih _ _
    exact (Upto.refl _).bind fun s => (Upto.refl _).bind fun p01 => (ih _ _).bind fun r1 =>
      (Upto.refl _).bind fun r => (Upto.refl _).bind fun p1 => (ih _ _).bind fun r2 => .refl _

theorem vas_upto (eps : ℝ) {n : ℕ} (fuel fuel' : ℕ) (f : Arr ℝ n) (h : fuel ≤ fuel') :
    Upto (vas eps fuel f) (vas eps fuel' f) := by
  rw [vas, vas]
  refine (Upto.refl _).bind fun u => (Upto.refl _).bind fun u => ?_
  split
  · exact .refl _
  · exact (vasWorker_upto eps fuel fuel' f _ h).bind fun r => .refl _

theorem vas_mono (eps : ℝ) {n : ℕ} (fuel fuel' : ℕ) (f : Arr ℝ n) (L) (hle : fuel ≤ fuel')
    (h : vas eps fuel f = .ok L) : vas eps fuel' f = .ok L := by
  rcases vas_upto eps fuel fuel' f hle with h' | h'
  · rw [h] at h'; cases h'
  · rw [← h', h]

/-- **C32**: `VAS_real_root_bounds` terminates if every positive root is simple, for every tolerance
`eps` small enough for the order (for `double`, `eps ≈ 1.2e-16`: up to order about 10¹³); the result is
the same for every larger fuel. -/
theorem C32_vas_terminates (eps : ℝ) (he : 0 ≤ eps) {n : ℕ} (hn : 200 * (2 * n + 1) * eps ≤ 1) (f : Arr ℝ n)
    (hf : f ≠ 0) (hm : ∀ x, 0 < x → (polyOf f).rootMultiplicity x ≤ 1) :
    ∃ fuel₀ L, ∀ fuel, fuel₀ ≤ fuel → vas eps fuel f = .ok L := by
  obtain ⟨N, hN⟩ := vas_ends eps he hn f hf hm
  obtain ⟨L, hL⟩ := hN N le_rfl
  exact ⟨N, L, fun fuel h => vas_mono eps N fuel f L h hL⟩

/-- **C32**: exactly when `VAS_real_root_bounds` terminates: every positive root is simple. -/
theorem C32_vas_terminates_iff (eps : ℝ) (he : 0 ≤ eps) {n : ℕ} (hn : 200 * (2 * n + 1) * eps ≤ 1) (f : Arr ℝ n)
    (hf : f ≠ 0) :
    (∃ fuel L, vas eps fuel f = .ok L) ↔ ∀ x, 0 < x → (polyOf f).rootMultiplicity x ≤ 1 := by
  constructor
  · rintro ⟨fuel, L, h⟩ x hx
    by_contra hc
    rw [C32_vas_multiple_root eps he f hf x hx (by omega) fuel] at h
    cases h
  · intro h
    obtain ⟨N, L, hL⟩ := C32_vas_terminates eps he hn f hf h
    exact ⟨N, L, hL N le_rfl⟩

/-- **C32**: the same in terms of the derivative. -/
theorem C32_vas_terminates_simple (eps : ℝ) (he : 0 ≤ eps) {n : ℕ} (hn : 200 * (2 * n + 1) * eps ≤ 1)
    (f : Arr ℝ n) (hf : f ≠ 0) (hs : ∀ x, 0 < x → value f x = 0 → deriv (value f) x ≠ 0) :
    ∃ fuel₀ L, ∀ fuel, fuel₀ ≤ fuel → vas eps fuel f = .ok L := by
  refine C32_vas_terminates eps he hn f hf fun x hx => rootMultiplicity_le_one fun h => ?_
  have hd := hs x hx (by rw [value_eq]; exact h)
  have : value f = fun x => (polyOf f).eval x := funext (value_eq f)
  rwa [this, Polynomial.deriv] at hd

-- a case that meets the hypotheses: `x³ - 3x + 1`, with the constant for `double`
example : ∃ fuel₀ L, ∀ fuel, fuel₀ ≤ fuel → vas (106 / 100 / 2 ^ 53) fuel (![1, -3, 0, 1] : Arr ℝ 3) = .ok L := by
  have hv : value (![1, -3, 0, 1] : Arr ℝ 3) = fun x => x ^ 3 - 3 * x + 1 := by
    funext x; simp [value, Fin.sum_univ_succ]; ring
  refine C32_vas_terminates_simple _ (by norm_num) (by norm_num) _
    (fun h => by have := congrFun h 0; simp at this) fun x hx h => ?_
  rw [hv] at h ⊢
  have hd : HasDerivAt (fun x : ℝ => x ^ 3 - 3 * x + 1) _ x :=
    ((hasDerivAt_pow 3 x).sub ((hasDerivAt_id x).const_mul 3)).add_const 1
  rw [hd.deriv]
  intro h'
  norm_num at h'
  have h1 : x ^ 2 = 1 := by linarith
  have h2 : x = 1 := by nlinarith
  rw [h2] at h
  norm_num at h

end Stator.Pol
