import Verif.Ct.Total
import Verif.Ct.CalculusProps
import Mathlib.Analysis.Calculus.Taylor

/-!
# Taylor series of expressions with polynomials (C101)
-/

namespace Stator.Ct.Expand

open C (val_neg val_add val_sub val_mul val_div val_null val_unity)
open Stator.Pol (Arr)
open Filter Topology

/-! ## Model -/

/-- `TaylorSeriesWorker<State, Order, Var>::eval(f, a)` for a `double` `a`; the first number is `Order - State`, the second one `State`.
models: taylor.hpp:26-49. -/
noncomputable def taylorX (x : List Char) (a : ℝ) : ℕ → ℕ → X → Option X
  | 0, s, f =>
    if f.isC .null then some (.c .null)
    else do apply .mul (.c (← C.invFactorial s)) (← substX x (.dbl a) f)
  | n + 1, s, f =>
    if f.isC .null then some (.c .null)
    else do
      apply .add (← apply .mul (.c (← C.invFactorial s)) (← substX x (.dbl a) f))
        (← apply .mul (← apply .sub (.var x) (.dbl a)) (← taylorX x a n (s + 1) (← derivX x f)))

/-- `taylor_series<n>(f, a, x)`. models: taylor.hpp:55-58. -/
noncomputable def taylorSeriesX (x : List Char) (a : ℝ) (n : ℕ) (f : X) : Option X := do
  trySimplify .simplify (← taylorX x a n 0 f)

/-! ## Trees that `simplify` builds -/

theorem formed_build {e : X} (h : e.formed) : build e = some e := by
  induction e with
  | bin o l r ihl ihr => simp [build, ihl h.1, ihr h.2.1, h.2.2]
  | neg a ih => simp [build, ih h.1, h.2]
  | pow a p ih => simp [build, ih h.1, h.2]
  | _ => rfl

theorem powSub_formed {a : X} (ha : a.formed) : ∀ {p : ℕ} {e : X}, powSub p a = some e → e.formed
  | 0, e, h => by cases h; trivial
  | 1, e, h => by cases h; exact ha
  | p + 2, e, h => by
    simp only [powSub, Option.bind_eq_bind, Option.bind_eq_some_iff] at h
    obtain ⟨b, hb, h⟩ := h
    exact apply_formed (powSub_formed ha hb) ha h

theorem rules_formed {o : BOp} {l r e : X} (h : rules o l r = some (some e)) : e.formed := by
  have z {u v : List Char} {n m : ℕ} {f : Arr ℤ n} {g : Arr ℤ m} (h : rulesZ o u v f g = some (some e)) : e.formed := by
    cases o <;> cases m <;> simp [rulesZ] at h
    all_goals
      obtain ⟨-, g, -, rfl⟩ := h
      trivial
  have q {u v : List Char} {n m : ℕ} {f : Arr ℝ n} {g : Arr ℝ m} (h : rulesR o u v f g = some (some e)) : e.formed := by
    cases o <;> cases m <;> simp [rulesR] at h
    all_goals
      obtain ⟨-, g, -, rfl⟩ := h
      trivial
  unfold rules at h
  split at h
  · exact z h
  · exact q h
  · exact q h
  · exact q h
  · split_ifs at h; simp only [Option.some.injEq, Option.map_eq_some_iff] at h; obtain ⟨g, hg, rfl⟩ := h; trivial
  · split_ifs at h; simp only [Option.some.injEq, Option.map_eq_some_iff] at h; obtain ⟨g, hg, rfl⟩ := h; trivial
  · cases h

theorem first_formed {o : BOp} {l r e : X} (h : first o l r = some e) : e.formed := by
  have vp : ∀ u p, (varPower u p).formed := by
    intro u p; unfold varPower; split_ifs with hp
    · trivial
    · exact ⟨trivial, by simp [opPow, hp]⟩
  unfold first at h
  split at h
  iterate 8 (cases h; trivial)
  · split_ifs at h; cases h; exact vp _ _
  · split_ifs at h; cases h; exact vp _ _
  · split_ifs at h; cases h; exact vp _ _
  · split_ifs at h; cases h; trivial
  · split_ifs at h; cases h; trivial
  · cases h

theorem lift_formed {o : BOp} {l r e : X} (h : lift o l r = some e) : e.formed := by
  unfold lift at h
  split at h
  all_goals first | (cases h; done) | (cases h; exact ⟨trivial, trivial, by cases o <;> simp [apply, node, X.number, X.isC]⟩)

/-- The operands are trees the operators leave as they are. -/
def Pre : X → Prop
  | .bin _ l r => l.formed ∧ r.formed
  | e => e.formed

theorem pre_of_formed {e : X} (h : e.formed) : Pre e := by cases e <;> first | exact h | exact ⟨h.1, h.2.1⟩

section
variable {s : X → Option (Option X)} (ih : ∀ e r, Pre e → s e = some (some r) → r.formed)
include ih

theorem formed_orSelf {e r : X} (he : e.formed) (h : orSelf e (s e) = some r) : r.formed := by
  simp only [orSelf, Option.map_eq_some_iff] at h
  obtain ⟨q, hq, rfl⟩ := h
  cases q with
  | none => exact he
  | some q => exact ih e q (pre_of_formed he) hq

theorem formed_attempt {e r : X} {f : X → Option X} (he : Pre e) (hf : ∀ d e', d.formed → f d = some e' → e'.formed)
    (h : attempt s e f = some (some r)) : r.formed := by
  simp only [attempt, Option.bind_eq_bind, Option.bind_eq_some_iff] at h
  obtain ⟨q, hq, h⟩ := h
  cases q with
  | none => simp at h
  | some d =>
    simp only [Option.bind_eq_some_iff] at h
    obtain ⟨e', he', y, hy, h⟩ := h
    cases h
    exact formed_orSelf ih (hf d e' (ih e d he hq) he') hy

theorem formed_reorder {o : BOp} {l r x : X} (hl : l.formed) (hr : r.formed) (h : reorder s o l r = some (some x)) : x.formed := by
  have r1 : ∀ x, (onParts (l.parts o) fun a b => attempt s (.bin o b r) (fun d => apply o a d)) = some (some x) → x.formed := by
    intro x h
    obtain ⟨a, b, hp, h'⟩ := onParts_some h
    obtain rfl := parts_eq hp
    exact formed_attempt ih (e := .bin o b r) ⟨hl.2.1, hr⟩ (fun d e' hd he => apply_formed hl.1 hd he) h'
  have r2 : ∀ x, (onParts (r.parts o) fun b c => attempt s (.bin o l b) (fun d => apply o d c)) = some (some x) → x.formed := by
    intro x h
    obtain ⟨a, b, hp, h'⟩ := onParts_some h
    obtain rfl := parts_eq hp
    exact formed_attempt ih (e := .bin o l a) ⟨hl, hr.1⟩ (fun d e' hd he => apply_formed hd hr.2.1 he) h'
  have r3 : ∀ x, (onParts (l.parts o) fun a b => attempt s (.bin o a r) (fun d => apply o d b)) = some (some x) → x.formed := by
    intro x h
    obtain ⟨a, b, hp, h'⟩ := onParts_some h
    obtain rfl := parts_eq hp
    exact formed_attempt ih (e := .bin o a r) ⟨hl.1, hr⟩ (fun d e' hd he => apply_formed hd hl.2.1 he) h'
  have r4 : ∀ x, (onParts (r.parts o) fun b c => attempt s (.bin o l c) (fun d => apply o d b)) = some (some x) → x.formed := by
    intro x h
    obtain ⟨a, b, hp, h'⟩ := onParts_some h
    obtain rfl := parts_eq hp
    exact formed_attempt ih (e := .bin o l b) ⟨hl, hr.2.1⟩ (fun d e' hd he => apply_formed hd hr.1 he) h'
  unfold reorder at h
  split_ifs at h
  · simp only [Option.bind_eq_bind, Option.bind_eq_some_iff] at h
    obtain ⟨q, hq, h⟩ := h
    cases q with
    | inl q =>
      simp only [Option.some.injEq] at h
      subst h
      exact (either_left hq).elim (r1 x) (r2 x)
    | inr _ =>
      simp only [Option.bind_eq_some_iff] at h
      obtain ⟨q, hq, h⟩ := h
      cases q with
      | inl q =>
        simp only [Option.some.injEq] at h
        subst h
        exact (either_left hq).elim (r3 x) (r4 x)
      | inr _ => simp at h
  · simp at h

theorem formed_step {cfg : Cfg} {e r : X} (he : Pre e) (h : step cfg s e = some (some r)) : r.formed := by
  cases e with
  | c a => simp only [step] at h; split_ifs at h <;> cases h; trivial
  | int z => cases h
  | dbl y => cases h
  | polyZ v n f => cases h
  | polyR v n f => cases h
  | var v => simp only [step] at h; split_ifs at h <;> cases h; trivial
  | neg a =>
    simp only [step, Option.bind_eq_bind, Option.bind_eq_some_iff] at h
    obtain ⟨q, hq, h⟩ := h
    cases q with
    | none => simp at h
    | some a' =>
      simp only [Option.bind_eq_some_iff] at h
      obtain ⟨e', he', y, hy, h⟩ := h
      cases h
      exact formed_orSelf ih (opNeg_formed (ih a a' (pre_of_formed he.1) hq) he') hy
  | pow a p =>
    by_cases hv : ∃ v, a = .var v
    · obtain ⟨v, rfl⟩ := hv
      simp only [step] at h
      split_ifs at h
      · simp only [Option.bind_eq_bind, Option.bind_eq_some_iff] at h
        obtain ⟨f, hf, h⟩ := h
        cases h
        trivial
      · cases h
    · rw [step] at h
      · simp only [Option.bind_eq_bind, Option.bind_eq_some_iff] at h
        obtain ⟨q, hq, h⟩ := h
        cases q with
        | none =>
          simp only [Option.bind_eq_some_iff] at h
          obtain ⟨e', he', q', hs, y, rfl, h⟩ := h
          cases h
          exact ih _ _ (pre_of_formed (powSub_formed he.1 he')) hs
        | some a' =>
          simp only [Option.bind_eq_some_iff] at h
          obtain ⟨e', he', y, hy, h⟩ := h
          cases h
          exact formed_orSelf ih (powSub_formed (ih a a' (pre_of_formed he.1) hq) he') hy
      · exact fun v hv' => hv ⟨v, hv'⟩
  | bin o l r' =>
    obtain ⟨hl, hr⟩ := he
    rw [step] at h
    split at h
    · rename_i e he
      simp only [Option.map_eq_some_iff] at h
      obtain ⟨y, rfl, h⟩ := h
      cases h
      unfold rulesC at he
      split_ifs at he
      exact rules_formed he
    · split at h
      · rename_i e he
        cases h
        unfold firstC at he
        split_ifs at he with h0
        · exact apply_formed hl hr he
        · exact first_formed he
      · split_ifs at h with hu
        · simp only [Option.bind_eq_bind, Option.bind_eq_some_iff] at h
          obtain ⟨y, hy, h⟩ := h
          cases h
          exact formed_orSelf ih hl hy
        · simp only [Option.bind_eq_bind, Option.bind_eq_some_iff] at h
          obtain ⟨p, hp, q, hq, h⟩ := h
          have kl : (p.getD l).formed := by
            cases p with
            | none => exact hl
            | some l' => exact ih l l' (pre_of_formed hl) hp
          have kr : (q.getD r').formed := by
            cases q with
            | none => exact hr
            | some l' => exact ih r' l' (pre_of_formed hr) hq
          have fin : ∀ e, apply o (p.getD l) (q.getD r') = some e → orSelf e (s e) = some r → r.formed :=
            fun e he hy => formed_orSelf ih (apply_formed kl kr he) hy
          cases p <;> cases q <;> simp only [Option.bind_eq_some_iff] at h
          · split at h
            · rename_i e he
              simp only [Option.bind_eq_some_iff] at h
              obtain ⟨y, hy, h⟩ := h
              cases h
              unfold liftC at he
              split_ifs at he
              exact formed_orSelf ih (lift_formed he) hy
            · exact formed_reorder ih hl hr h
          all_goals
            obtain ⟨e, he, y, hy, h⟩ := h
            cases h
            exact fin e he hy

end

theorem formed_upTo {cfg : Cfg} : ∀ (k : ℕ) (e r : X), Pre e → upTo cfg (fun _ => none) k e = some (some r) → r.formed
  | 0, e, r, _, h => by cases h
  | k + 1, e, r, he, h => formed_step (formed_upTo k) he h

/-- **C100.** What `simplify`, `N` and `expand` return is an expression the operators build: it can be simplified again. -/
theorem C100_again {cfg : Cfg} {s e r : X} (h : build s = some e) (hr : trySimplify cfg e = some r) : build r = some r :=
  formed_build (formed_orSelf (fun e r => formed_upTo _ e r) (build_formed h) hr)

/-! ## The value -/

theorem easy_exact {e : X} (h : e.easy) : e.exact := by
  induction e with
  | bin o l r ihl ihr =>
    obtain ⟨ho, h1, h2⟩ := h
    cases o with
    | div => exact absurd rfl ho
    | _ => exact ⟨ihl h1, ihr h2⟩
  | neg a ih => exact ih h
  | pow a p ih => cases a <;> trivial
  | _ => trivial

theorem uses_over {x : List Char} {e : X} (h : ∀ v, e.uses v → v = x) : e.over x := by
  induction e with
  | bin o l r ihl ihr => exact ⟨ihl fun v hv => h v (.inl hv), ihr fun v hv => h v (.inr hv)⟩
  | neg a ih => exact ih h
  | pow a p ih => exact ih h
  | var v => exact h v rfl
  | polyZ v n f => exact h v rfl
  | polyR v n f => exact h v rfl
  | _ => trivial

theorem easy_orderly {x : List Char} {e : X} (q : Bool) (h : e.easy) (hu : ∀ v, e.uses v → v = x) : e.orderly q := by
  have hs : ∀ (e : X) v, e.seen q v → e.uses v := by
    intro e
    induction e with
    | bin o l r ihl ihr => exact fun v hv => hv.imp (ihl v) (ihr v)
    | neg a ih => exact ih
    | pow a p ih => exact ih
    | var u => exact fun v hv => hv.2
    | _ => exact fun v hv => hv
  induction e with
  | bin o l r ihl ihr =>
    obtain ⟨ho, h1, h2⟩ := h
    have kl := ihl h1 fun v hv => hu v (.inl hv)
    have kr := ihr h2 fun v hv => hu v (.inr hv)
    cases o with
    | div => exact absurd rfl ho
    | mul => exact ⟨kl, kr, .inl ⟨x, fun v hv => hu v (hv.imp (hs l v) (hs r v))⟩⟩
    | _ => exact ⟨kl, kr⟩
  | neg a ih => exact ih h hu
  | pow a p ih => exact ⟨(by cases a <;> trivial), x, fun v hv => hu v (hs a v hv)⟩
  | _ => trivial

theorem number_leaf {e : X} (h : e.number ≠ none) : e.easy ∧ e.formed ∧ ∀ v, ¬ e.uses v := by
  cases e <;> first | exact ⟨trivial, trivial, fun v hv => hv⟩ | exact absurd rfl h

/-- What the worker gives. -/
theorem taylor_worker {x : List Char} {vs : List Char → Prop} (hvs : ∀ v, vs v → v = x) {ρ : List Char → ℝ} {I : Set ℝ} (hI : IsOpen I)
    {a : ℝ} (ha : a ∈ I) : ∀ (n s : ℕ) (f : X), Good {σ | ∃ t ∈ I, σ = at_ ρ x t} vs f →
    ∃ w, taylorX x a n s f = some w ∧ w.formed ∧ w.easy ∧ (∀ v, w.uses v → v = x) ∧ ∀ σ, w.val σ =
      ∑ k ∈ Finset.range (n + 1), iteratedDeriv k (fun t => f.val (at_ ρ x t)) a / ((s + k).factorial : ℝ) * (σ x - a) ^ k := by
  have head : ∀ (s : ℕ) (f : X), Good {σ | ∃ t ∈ I, σ = at_ ρ x t} vs f → ∃ q u w, C.invFactorial s = some q ∧
      substX x (.dbl a) f = some u ∧ apply .mul (.c q) u = some w ∧ w.formed ∧ w.easy ∧ (∀ v, w.uses v → v = x) ∧
      ∀ σ, w.val σ = f.val (at_ ρ x a) / (s.factorial : ℝ) := by
    intro s f gf
    obtain ⟨q, hq, hv⟩ := (C.C39_factorial s).2
    obtain ⟨u, hu, hn⟩ := evaluate_formed gf.formed (fun v hv => hvs v (gf.uses v hv)) (gf.defined _ ⟨a, ha, rfl⟩)
    obtain ⟨h1, h2, h3⟩ := number_leaf (e := u) (by simp [hn])
    obtain ⟨w, hw, hwe⟩ := apply_easy (o := .mul) (l := .c q) (by simp) trivial h1
    refine ⟨q, u, w, hq, hu, hw, apply_formed (l := .c q) trivial h2 hw, hwe, fun v hv => ?_, fun σ => ?_⟩
    · exact (apply_uses hw hv).elim (fun h => h.elim) fun h => absurd h (h3 v)
    · rw [apply_deriv (by simp) hw, ← number_val hn σ]
      have : (X.c q).val σ = 1 / (s.factorial : ℝ) := by
        have := congrArg (fun z : ℚ => (z : ℝ)) hv
        simpa [X.val, C.val, C.toRat] using this
      rw [this]
      simp only [BOp.real]
      ring
  have null : ∀ (n s : ℕ) (f : X), f.isC .null = true → ∀ σ, (X.c .null).val σ =
      ∑ k ∈ Finset.range (n + 1), iteratedDeriv k (fun t => f.val (at_ ρ x t)) a / ((s + k).factorial : ℝ) * (σ x - a) ^ k := by
    intro n s f h σ
    obtain rfl := isC_eq h
    simp [X.val, val_null]
  intro n
  induction n with
  | zero =>
    intro s f gf
    unfold taylorX
    by_cases h0 : f.isC .null = true
    · exact ⟨_, if_pos h0, trivial, trivial, fun v hv => hv.elim, null 0 s f h0⟩
    · obtain ⟨q, u, w, h1, h2, h3, h4, h5, h6, h7⟩ := head s f gf
      exact ⟨w, by simp [h0, h1, h2, h3], h4, h5, h6, fun σ => by simp [h7]⟩
  | succ n ih =>
    intro s f gf
    rw [taylorX]
    by_cases h0 : f.isC .null = true
    · exact ⟨_, if_pos h0, trivial, trivial, fun v hv => hv.elim, null (n + 1) s f h0⟩
    · obtain ⟨q, u, w, h1, h2, h3, h4, h5, h6, h7⟩ := head s f gf
      obtain ⟨f', hf', gf'⟩ := good_deriv (x := x) (U := {σ | ∃ t ∈ I, σ = at_ ρ x t}) ⟨_, a, ha, rfl⟩ f gf
      obtain ⟨w', hw', g4, g5, g6, g7⟩ := ih (s + 1) f' gf'
      obtain ⟨d, hd, d5⟩ := apply_easy (o := .sub) (l := .var x) (r := .dbl a) (by simp) trivial trivial
      obtain ⟨m, hm, m5⟩ := apply_easy (o := .mul) (by simp) d5 g5
      obtain ⟨e, he, e5⟩ := apply_easy (o := .add) (by simp) h5 m5
      have d4 := apply_formed (l := .var x) (r := .dbl a) trivial trivial hd
      refine ⟨e, by simp [h0, h1, h2, h3, hd, hf', hw', hm, he], apply_formed h4 (apply_formed d4 g4 hm) he, e5, fun v hv => ?_,
        fun σ => ?_⟩
      · refine (apply_uses he hv).elim (h6 v) fun hv => (apply_uses hm hv).elim (fun hv => ?_) (g6 v)
        exact (apply_uses hd hv).elim (fun h => h.symm) fun h => h.elim
      · rw [apply_deriv (by simp) he, apply_deriv (by simp) hm, apply_deriv (by simp) hd, h7, g7, Finset.sum_range_succ' _ (n + 1)]
        have hder : ∀ k, iteratedDeriv (k + 1) (fun t => f.val (at_ ρ x t)) a = iteratedDeriv k (fun t => f'.val (at_ ρ x t)) a := by
          intro k
          rw [iteratedDeriv_succ']
          refine Filter.EventuallyEq.iteratedDeriv_eq k ?_
          refine Filter.eventually_of_mem (hI.mem_nhds ha) fun t ht => ?_
          have hD := C99_derivative f hf' (gf.defined _ ⟨t, ht, rfl⟩)
          simp only [at_at, at_same] at hD
          exact hD.deriv
        simp only [BOp.real, X.val, iteratedDeriv_zero, pow_zero, mul_one, add_zero, hder]
        rw [add_comm, Finset.mul_sum]
        congr 1
        refine Finset.sum_congr rfl fun k _ => ?_
        rw [show s + (k + 1) = s + 1 + k by ring, pow_succ]
        ring

/-- An expression is a smooth function of a variable where no divisor vanishes, and none does nearby. -/
theorem smooth {x : List Char} {ρ : List Char → ℝ} (n : ℕ) : ∀ {e : X} {w : ℝ}, e.defined (at_ ρ x w) →
    ContDiffAt ℝ n (fun t => e.val (at_ ρ x t)) w ∧ ∀ᶠ t in 𝓝 w, e.defined (at_ ρ x t) := by
  have hv : ∀ (v : List Char) (w : ℝ), ContDiffAt ℝ n (fun t => at_ ρ x t v) w := by
    intro v w
    by_cases hn : v = x
    · simp only [at_, hn, if_true]; exact contDiffAt_id
    · simp only [at_, hn, if_false]; exact contDiffAt_const
  intro e
  induction e with
  | var v => exact fun {w} _ => ⟨hv v w, .of_forall fun _ => trivial⟩
  | polyZ v m f => exact fun {w} _ => ⟨ContDiffAt.sum fun i _ => contDiffAt_const.mul ((hv v w).pow i), .of_forall fun _ => trivial⟩
  | polyR v m f => exact fun {w} _ => ⟨ContDiffAt.sum fun i _ => contDiffAt_const.mul ((hv v w).pow i), .of_forall fun _ => trivial⟩
  | neg a ih => exact fun {w} h => ⟨(ih h).1.neg, (ih h).2⟩
  | pow a p ih => exact fun {w} h => ⟨(ih h).1.pow p, (ih h).2⟩
  | bin o l r ihl ihr =>
    intro w h
    cases o with
    | add => exact ⟨(ihl h.1).1.add (ihr h.2).1, (ihl h.1).2.and (ihr h.2).2⟩
    | sub => exact ⟨(ihl h.1).1.sub (ihr h.2).1, (ihl h.1).2.and (ihr h.2).2⟩
    | mul => exact ⟨(ihl h.1).1.mul (ihr h.2).1, (ihl h.1).2.and (ihr h.2).2⟩
    | div =>
      obtain ⟨h1, h2, h3⟩ := h
      refine ⟨(ihl h1).1.div (ihr h2).1 h3, ?_⟩
      filter_upwards [(ihl h1).2, (ihr h2).2, (ihr h2).1.continuousAt.eventually (isOpen_ne.mem_nhds h3)] with t k1 k2 k3
      exact ⟨k1, k2, k3⟩
  | _ => exact fun {w} _ => ⟨contDiffAt_const, .of_forall fun _ => trivial⟩

theorem taylor_good {x : List Char} {s e : X} (hb : build s = some e) (hc : e.noConstDivisor)
    {ρ : List Char → ℝ} {a : ℝ} (hd : e.defined (at_ ρ x a)) :
    ∃ I : Set ℝ, IsOpen I ∧ a ∈ I ∧ Good {σ | ∃ t ∈ I, σ = at_ ρ x t} e.uses e := by
  obtain ⟨I, h1, h2, h3⟩ := mem_nhds_iff.1 (smooth (n := 0) hd).2
  refine ⟨I, h2, h3, build_formed hb, hc, ?_, fun v h => h⟩
  rintro σ ⟨t, ht, rfl⟩
  exact h1 ht

/-- **C101.** `taylor_series<n>(f, a, x)` for a `double` `a`: if `x` is the only variable of `f`, no divisor is a constant `C<..>`, and none
vanishes at `a`, it exists, has no other variable, and has the value of the Taylor polynomial. -/
theorem C101_taylor {x : List Char} {s e : X} (hb : build s = some e) (hc : e.noConstDivisor) (hu : ∀ v, e.uses v → v = x)
    {ρ : List Char → ℝ} {a : ℝ} (hd : e.defined (at_ ρ x a)) (n : ℕ) :
    ∃ r, taylorSeriesX x a n e = some r ∧ (∀ v, r.uses v → v = x) ∧ ∀ σ, r.val σ =
      ∑ k ∈ Finset.range (n + 1), iteratedDeriv k (fun t => e.val (at_ ρ x t)) a / (k.factorial : ℝ) * (σ x - a) ^ k := by
  obtain ⟨I, hI, ha, hg⟩ := taylor_good hb hc hd
  obtain ⟨w, hw, h1, h2, h3, h4⟩ := taylor_worker hu hI ha n 0 e hg
  obtain ⟨r, hr, -⟩ := C100_total .simplify h2
  obtain ⟨k1, k2, -⟩ := C100_value (easy_orderly _ h2 h3) (formed_build h1) hr
  exact ⟨r, by simp [taylorSeriesX, hw, hr], fun v hv => h3 v (k2 v hv), fun σ => by rw [k1, h4]; simp⟩

/-- **C101.** `expand(taylor_series<n>(f, a, x))` is the Taylor polynomial, as a polynomial, a number, or a power of `x`. -/
theorem C101_expand {x : List Char} {s e : X} (hb : build s = some e) (hc : e.noConstDivisor) (hu : ∀ v, e.uses v → v = x)
    {ρ : List Char → ℝ} {a : ℝ} (hd : e.defined (at_ ρ x a)) (n : ℕ) :
    ∃ w r, taylorSeriesX x a n e = some w ∧ trySimplify .expand w = some r ∧
      (IsPoly x r ∨ r = .var x ∨ ∃ p, r = .pow (.var x) p) ∧ ∀ σ, r.val σ =
      ∑ k ∈ Finset.range (n + 1), iteratedDeriv k (fun t => e.val (at_ ρ x t)) a / (k.factorial : ℝ) * (σ x - a) ^ k := by
  obtain ⟨I, hI, ha, hg⟩ := taylor_good hb hc hd
  obtain ⟨w0, hw0, h1, h2, h3, h4⟩ := taylor_worker hu hI ha n 0 e hg
  obtain ⟨w, hw, h5⟩ := C100_total .simplify h2
  obtain ⟨k1, k2, -⟩ := C100_value (easy_orderly _ h2 h3) (formed_build h1) hw
  have hbw := C100_again (formed_build h1) hw
  obtain ⟨r, hr, hp, hv⟩ := C79_expand (uses_over fun v hv => h3 v (k2 v hv)) (easy_exact h5) hbw
  exact ⟨w, r, by simp [taylorSeriesX, hw0, hw], (C100_expand hbw).2 ((hr r).2 rfl), hp, fun σ => by rw [hv, k1, h4]; simp⟩

/-- **C101.** A polynomial of order at most `n` is reproduced exactly. -/
theorem C101_polynomial {x : List Char} {s e : X} (hb : build s = some e) (hc : e.noConstDivisor) (hu : ∀ v, e.uses v → v = x)
    {ρ : List Char → ℝ} {a : ℝ} (hd : e.defined (at_ ρ x a)) {n : ℕ} {p : Polynomial ℝ} (hn : p.natDegree ≤ n)
    (hp : ∀ t, e.val (at_ ρ x t) = p.eval t) :
    ∃ w r, taylorSeriesX x a n e = some w ∧ trySimplify .expand w = some r ∧ ∀ σ, r.val σ = p.eval (σ x) := by
  obtain ⟨w, r, h1, h2, -, h3⟩ := C101_expand hb hc hu hd n
  refine ⟨w, r, h1, h2, fun σ => ?_⟩
  rw [h3]
  simp only [hp]
  exact taylor_polynomial p n hn a (σ x)

/-- **C102.** The Taylor polynomial of a smooth function and its error. -/
theorem remainder {F : ℝ → ℝ} {a y : ℝ} (n : ℕ) (hF : ∀ t ∈ Set.uIcc a y, ContDiffAt ℝ (n + 1 : ℕ) F t) :
    ∃ ξ ∈ Set.uIcc a y, F y - ∑ k ∈ Finset.range (n + 1), iteratedDeriv k F a / (k.factorial : ℝ) * (y - a) ^ k =
      iteratedDeriv (n + 1) F ξ / ((n + 1).factorial : ℝ) * (y - a) ^ (n + 1) := by
  rcases eq_or_ne a y with rfl | hy
  · refine ⟨a, Set.left_mem_uIcc, ?_⟩
    rw [Finset.sum_range_succ']
    simp
  · obtain ⟨ξ, h1, h2⟩ := taylor_mean_remainder_lagrange_iteratedDeriv (n := n) hy
      fun t ht => by exact_mod_cast (hF t ht).contDiffWithinAt
    refine ⟨ξ, ⟨h1.1.le, h1.2.le⟩, ?_⟩
    rw [taylor_within_apply] at h2
    calc _ = F y - ∑ k ∈ Finset.range (n + 1), ((k.factorial : ℝ)⁻¹ * (y - a) ^ k) • iteratedDerivWithin k F (Set.uIcc a y) a := ?_
      _ = _ := h2
      _ = _ := by ring
    congr 1
    refine Finset.sum_congr rfl fun k hk => ?_
    rw [iteratedDerivWithin_eq_iteratedFDerivWithin, iteratedFDerivWithin_eq_iteratedFDeriv (uniqueDiffOn_uIcc hy)
      ((hF a Set.left_mem_uIcc).of_le _) Set.left_mem_uIcc, ← iteratedDeriv_eq_iteratedFDeriv, smul_eq_mul]
    · ring
    · have := Finset.mem_range.1 hk
      exact_mod_cast this.le

/-- **C102.** The error of the Taylor series, for expressions with polynomials: if no divisor vanishes between `a` and `y`, it is at `x = y`
the next term with the derivative taken at a point between `a` and `y`. -/
theorem C102_polynomials {x : List Char} {s e : X} (hb : build s = some e) (hc : e.noConstDivisor) (hu : ∀ v, e.uses v → v = x)
    {ρ : List Char → ℝ} {a y : ℝ} (hd : ∀ t ∈ Set.uIcc a y, e.defined (at_ ρ x t)) (n : ℕ) :
    ∃ r, taylorSeriesX x a n e = some r ∧ ∃ ξ ∈ Set.uIcc a y, e.val (at_ ρ x y) - r.val (at_ ρ x y) =
      iteratedDeriv (n + 1) (fun t => e.val (at_ ρ x t)) ξ / ((n + 1).factorial : ℝ) * (y - a) ^ (n + 1) := by
  obtain ⟨r, h1, -, h3⟩ := C101_taylor hb hc hu (hd a Set.left_mem_uIcc) n
  obtain ⟨ξ, h4, h5⟩ := remainder (F := fun t => e.val (at_ ρ x t)) n fun t ht => (smooth _ (hd t ht)).1
  refine ⟨r, h1, ξ, h4, ?_⟩
  rw [h3, at_same]
  exact h5

/-- `1 / x` around 1, on the positive numbers. -/
example : build (.bin .div (.int 1) (.var ['x'])) = some (.bin .div (.int 1) (.var ['x'])) ∧
    (X.bin .div (.int 1) (.var ['x'])).noConstDivisor ∧ (∀ v, (X.bin .div (.int 1) (.var ['x'])).uses v → v = ['x']) ∧
    ∀ t : ℝ, 0 < t → (X.bin .div (.int 1) (.var ['x'])).defined (at_ (fun _ => 0) ['x'] t) := by
  refine ⟨by simp [build, apply, node, X.number], ⟨trivial, trivial, fun b h => by cases h⟩, fun v hv => ?_,
    fun t ht => ⟨trivial, trivial, ?_⟩⟩
  · rcases hv with h | h
    · exact h.elim
    · exact h.symm
  · simp only [X.val, at_same]
    exact ne_of_gt ht

/-- The polynomial `1 + 2 x + 3 x ^ 2` with `int` coefficients. -/
example : (∀ t, (X.polyZ ['x'] 2 ![1, 2, 3]).defined (at_ (fun _ => 0) ['x'] t)) ∧
    ∀ t, (X.polyZ ['x'] 2 ![1, 2, 3]).val (at_ (fun _ => 0) ['x'] t) =
      (Polynomial.C 1 + Polynomial.C 2 * Polynomial.X + Polynomial.C 3 * Polynomial.X ^ 2 : Polynomial ℝ).eval t := by
  refine ⟨fun t => trivial, fun t => ?_⟩
  simp [X.val, at_same, Fin.sum_univ_succ]
  ring

end Stator.Ct.Expand
