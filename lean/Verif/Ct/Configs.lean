import Verif.Ct.ExpandMany

/-!
# `simplify`, `N` and `expand` (C100)

`Verif/Ct/Expand` has `simplify` with the configuration of `expand` only. Here are all three: `simplify<>()`, `N()` and `expand()`.
-/

namespace Stator.Ct.Expand

open C (val_neg val_add val_sub val_mul val_div val_null val_unity)
open Stator.Pol (Arr rd wr forUp zeros addOp mulPoly divConst mulVar varPow value polyOf coef)

/-! ## Model -/

/-- `DefaultSimplifyConfig`, `NConfig` and `ExpandConfig`. models: simplify.hpp:52-59, 94-96, 118. -/
inductive Cfg
  | simplify
  | N
  | expand
  deriving DecidableEq

/-- `Config::expand_to_Polynomial`. -/
def Cfg.poly : Cfg → Bool
  | .expand => true
  | _ => false

/-- `Config::expand_Constants`. -/
def Cfg.consts : Cfg → Bool
  | .simplify => false
  | _ => true

/-- The expression is a variable. -/
def X.isVar : X → Bool
  | .var _ => true
  | _ => false

/-- The overloads for polynomials; the product with a variable needs `expand_to_Polynomial`.
models: simplify.hpp:286-308, 367-414. -/
noncomputable def rulesC (cfg : Cfg) (o : BOp) (l r : X) : Option (Option X) :=
  if cfg.poly = true ∨ r.isVar = false then rules o l r else none

/-- The rules of the highest priority. Sums and products of two numbers are built by the rules for reordering only; the operator gives a
number. models: simplify.hpp:137-189. -/
noncomputable def firstC (o : BOp) (l r : X) : Option X :=
  if (o = .add ∨ o = .mul) ∧ l.number ≠ none ∧ r.number ≠ none then apply o l r else first o l r

/-- A number next to a polynomial becomes a polynomial. models: simplify.hpp:348-360. -/
noncomputable def liftC (cfg : Cfg) (o : BOp) (l r : X) : Option X := if cfg.poly = true then lift o l r else none

/-- `simplify` with the configuration `cfg`, for one expression; `s` is `simplify` for those it calls itself with. The inner `none`
says that `simplify` is not available for this type, the outer one that it does not compile or divides by zero. -/
noncomputable def step (cfg : Cfg) (s : X → Option (Option X)) : X → Option (Option X)
  -- models: simplify.hpp:344-346
  | .c a => if cfg.consts = true then some (some (.dbl a.val)) else some none
  | .int _ => some none
  | .dbl _ => some none
  | .polyZ _ _ _ => some none
  | .polyR _ _ _ => some none
  -- models: simplify.hpp:310-313
  | .var v => if cfg.poly = true then some (some (.polyZ v 1 ![0, 1])) else some none
  -- models: simplify.hpp:222-224, 315-324
  | .pow (.var v) p => if cfg.poly = true then do some (some (.polyZ v p (← varPow p))) else some none
  -- models: simplify.hpp:210-233
  | .pow a p => do
    match ← s a with
    | some a' =>
      let e ← powSub p a'
      some (some (← orSelf e (s e)))
    | none => some (some (← ← s (← powSub p a)))
  -- models: simplify.hpp:447-449
  | .neg a => do
    match ← s a with
    | some a' =>
      let e ← opNeg a'
      some (some (← orSelf e (s e)))
    | none => some none
  -- models: simplify.hpp:137-206, 273-274, 348-360
  | .bin o l r =>
    match rulesC cfg o l r with
    | some e => e.map some
    | none =>
      match firstC o l r with
      | some e => some (some e)
      | none =>
        if o = .div ∧ r.isC .unity then do some (some (← orSelf l (s l)))
        else do
          match ← s l, ← s r with
          | some l', some r' =>
            let e ← apply o l' r'
            some (some (← orSelf e (s e)))
          | some l', none =>
            let e ← apply o l' r
            some (some (← orSelf e (s e)))
          | none, some r' =>
            let e ← apply o l r'
            some (some (← orSelf e (s e)))
          | none, none =>
            match liftC cfg o l r with
            | some e => do some (some (← orSelf e (s e)))
            | none => reorder s o l r

/-- `simplify` down to the depth `k` of the recursion, below which `b` stands for what it does. -/
noncomputable def upTo (cfg : Cfg) (b : X → Option (Option X)) : ℕ → X → Option (Option X)
  | 0 => b
  | k + 1 => step cfg (upTo cfg b k)

/-- A bound on the depth of the recursion. -/
def X.weight : X → ℕ
  | .c _ => 3
  | .int _ => 2
  | .dbl _ => 2
  | .var _ => 2
  | .polyZ _ _ _ => 1
  | .polyR _ _ _ => 1
  | .bin _ l r => l.weight + r.weight
  | .neg a => a.weight + 1
  | .pow (.var _) _ => 3
  | .pow a p => (p + 1) * a.weight + 4

/-- `simplify<Config>(e)`. -/
noncomputable def simplifyC (cfg : Cfg) (e : X) : Option (Option X) := upTo cfg (fun _ => none) e.weight e

/-- `try_simplify<Config>(e)`: `try_simplify(e)`, `try_N(e)` and `try_expand(e)`. models: simplify.hpp:68-92, 103-104, 113-116, 131-133. -/
noncomputable def trySimplify (cfg : Cfg) (e : X) : Option X := orSelf e (simplifyC cfg e)

/-! ## The recursion ends -/

theorem weight_pos (e : X) : 1 ≤ e.weight := by
  induction e with
  | bin o l r ihl ihr => simp only [X.weight]; omega
  | neg a ih => simp only [X.weight]; omega
  | pow a p ih => unfold X.weight; split <;> simp_all <;> omega
  | _ => simp [X.weight]

theorem weight_pow {a : X} (p : ℕ) (h : a.isVar = false) : (X.pow a p).weight = (p + 1) * a.weight + 4 := by
  cases a <;> first | rfl | (simp [X.isVar] at h)

theorem number_weight {a : X} (h : a.number ≠ none) : 2 ≤ a.weight := by
  cases a <;> simp_all [X.number, X.weight]

theorem opNeg_weight {a e : X} (h : opNeg a = some e) : e.weight ≤ a.weight + 1 := by
  cases a with
  | polyZ v n f => simp only [opNeg, Option.map_eq_some_iff] at h; obtain ⟨g, hg, rfl⟩ := h; simp [X.weight]
  | polyR v n f => simp only [opNeg, Option.map_eq_some_iff] at h; obtain ⟨g, hg, rfl⟩ := h; simp [X.weight]
  | _ => cases h; simp [X.weight]

theorem node_weight {o : BOp} {l r e : X} (h : node o l r = some e) : e.weight ≤ l.weight + r.weight := by
  unfold node at h
  split at h
  · rename_i a b ha hb
    have h1 := number_weight (a := l) (by simp [ha])
    split at h <;> (simp only [Option.map_eq_some_iff] at h; obtain ⟨g, hg, rfl⟩ := h; simp only [X.weight] at *; omega)
  · cases h; rfl

theorem apply_weight {o : BOp} {l r e : X} (h : apply o l r = some e) : e.weight ≤ l.weight + r.weight := by
  unfold apply at h
  split at h
  · cases o with
    | div => simp only [Option.map_eq_some_iff] at h; obtain ⟨g, hg, rfl⟩ := h; simp [X.weight]
    | _ => cases h; simp [X.weight]
  · cases o with
    | add => simp only at h; split_ifs at h <;> first | (cases h; omega) | exact node_weight h
    | sub =>
      simp only at h
      split_ifs at h with h1 h2
      · cases h; omega
      · obtain rfl := isC_eq h2; have := opNeg_weight h; simp only [X.weight]; omega
      · exact node_weight h
    | mul =>
      simp only at h
      split_ifs at h with h1 h2 h3 h4
      · cases h; obtain rfl := isC_eq h1; simp [X.weight]
      · cases h; obtain rfl := isC_eq h2; simp [X.weight]
      · cases h; omega
      · cases h; omega
      · exact node_weight h
    | div => exact node_weight h

theorem powSub_weight {a : X} : ∀ {p : ℕ} {e : X}, powSub p a = some e → e.weight ≤ p * a.weight + 3
  | 0, e, h => by cases h; simp [X.weight]
  | 1, e, h => by cases h; simp
  | p + 2, e, h => by
    simp only [powSub, Option.bind_eq_bind, Option.bind_eq_some_iff] at h
    obtain ⟨b, hb, h⟩ := h
    have h1 := powSub_weight hb
    have h2 := apply_weight h
    have : (p + 2) * a.weight = (p + 1) * a.weight + a.weight := by ring
    omega

theorem rules_weight {o : BOp} {l r e : X} (h : rules o l r = some (some e)) : e.weight < l.weight + r.weight := by
  have z {u v : List Char} {n m : ℕ} {f : Arr ℤ n} {g : Arr ℤ m} (h : rulesZ o u v f g = some (some e)) : e.weight = 1 := by
    cases o <;> cases m <;> simp [rulesZ] at h
    all_goals
      obtain ⟨-, g, -, rfl⟩ := h
      rfl
  have q {u v : List Char} {n m : ℕ} {f : Arr ℝ n} {g : Arr ℝ m} (h : rulesR o u v f g = some (some e)) : e.weight = 1 := by
    cases o <;> cases m <;> simp [rulesR] at h
    all_goals
      obtain ⟨-, g, -, rfl⟩ := h
      rfl
  unfold rules at h
  split at h
  · rw [z h]; simp [X.weight]
  · rw [q h]; simp [X.weight]
  · rw [q h]; simp [X.weight]
  · rw [q h]; simp [X.weight]
  · split_ifs at h; simp only [Option.some.injEq, Option.map_eq_some_iff] at h; obtain ⟨g, hg, rfl⟩ := h; simp [X.weight]
  · split_ifs at h; simp only [Option.some.injEq, Option.map_eq_some_iff] at h; obtain ⟨g, hg, rfl⟩ := h; simp [X.weight]
  · cases h

theorem rulesC_weight {cfg : Cfg} {o : BOp} {l r e : X} (h : rulesC cfg o l r = some (some e)) : e.weight < l.weight + r.weight := by
  unfold rulesC at h
  split_ifs at h
  exact rules_weight h

theorem varPower_weight (u : List Char) (p : ℕ) : (varPower u p).weight ≤ 3 := by
  unfold varPower; split_ifs <;> simp [X.weight]

theorem first_weight {o : BOp} {l r e : X} (h : first o l r = some e) : e.weight < l.weight + r.weight := by
  unfold first at h
  split at h
  iterate 8 (cases h; simp [X.weight])
  · split_ifs at h; cases h; have := varPower_weight; simp only [X.weight]; exact lt_of_le_of_lt (varPower_weight _ _) (by omega)
  · split_ifs at h; cases h; simp only [X.weight]; exact lt_of_le_of_lt (varPower_weight _ _) (by omega)
  · split_ifs at h; cases h; simp only [X.weight]; exact lt_of_le_of_lt (varPower_weight _ _) (by omega)
  · split_ifs at h; cases h; simp [X.weight]
  · split_ifs at h; cases h; simp only [X.weight]; have := weight_pos r; omega
  · cases h

theorem firstC_weight {o : BOp} {l r e : X} (h : firstC o l r = some e) : e.weight < l.weight + r.weight := by
  unfold firstC at h
  split_ifs at h with hn
  · obtain ⟨ho, hl, hr⟩ := hn
    have w : ∀ {e}, node o l r = some e → e.weight < l.weight + r.weight := by
      intro e h
      have h1 := number_weight hl
      have h2 := number_weight hr
      unfold node at h
      split at h
      · split at h <;> (simp only [Option.map_eq_some_iff] at h; obtain ⟨g, hg, rfl⟩ := h; simp only [X.weight] at *; omega)
      · rename_i h3; obtain ⟨p, hp⟩ := Option.ne_none_iff_exists'.1 hl; obtain ⟨q, hq⟩ := Option.ne_none_iff_exists'.1 hr
        exact absurd hq (h3 p q hp)
    have h1 := weight_pos l
    have h2 := weight_pos r
    unfold apply at h
    split at h
    · rcases ho with rfl | rfl <;> cases h <;> simp [X.weight]
    · rcases ho with rfl | rfl
      · simp only at h
        split_ifs at h
        · cases h; omega
        · cases h; omega
        · exact w h
      · simp only at h
        split_ifs at h with h3 h4
        · cases h; obtain rfl := isC_eq h3; simp only [X.weight]; omega
        · cases h; obtain rfl := isC_eq h4; simp only [X.weight]; omega
        · cases h; omega
        · cases h; omega
        · exact w h
  · exact first_weight h

theorem liftC_weight {cfg : Cfg} {o : BOp} {l r e : X} (h : liftC cfg o l r = some e) : e.weight < l.weight + r.weight := by
  unfold liftC at h
  split_ifs at h
  unfold lift at h
  split at h
  all_goals first | (cases h; done) | (cases h; simp [X.weight])

/-- What `simplify` gives is lighter. -/
def Lowers (s : X → Option (Option X)) (e : X) : Prop := ∀ r, s e = some (some r) → r.weight < e.weight

variable {s s' : X → Option (Option X)}

theorem orSelf_weight {e r : X} (hl : Lowers s e) (h : orSelf e (s e) = some r) : r.weight ≤ e.weight := by
  simp only [orSelf, Option.map_eq_some_iff] at h
  obtain ⟨q, hq, rfl⟩ := h
  cases q with
  | none => exact le_rfl
  | some q => exact (hl q hq).le

theorem attempt_weight {e r : X} {f : X → Option X} {n : ℕ} (he : e.weight < n) (hl : ∀ e, e.weight < n → Lowers s e)
    (hf : ∀ d e', d.weight < e.weight → f d = some e' → e'.weight < n) (h : attempt s e f = some (some r)) : r.weight < n := by
  simp only [attempt, Option.bind_eq_bind, Option.bind_eq_some_iff] at h
  obtain ⟨q, hq, h⟩ := h
  cases q with
  | none => simp at h
  | some d =>
    simp only [Option.bind_eq_some_iff] at h
    obtain ⟨e', he', y, hy, h⟩ := h
    cases h
    have h1 := hf d e' (hl e he d hq) he'
    exact lt_of_le_of_lt (orSelf_weight (hl e' h1) hy) h1

theorem attempt_congr {e : X} {f : X → Option X} {n : ℕ} (he : e.weight < n) (hl : ∀ e, e.weight < n → Lowers s e)
    (hs : ∀ e, e.weight < n → s e = s' e) (hf : ∀ d e', d.weight < e.weight → f d = some e' → e'.weight < n) :
    attempt s e f = attempt s' e f := by
  unfold attempt
  rw [← hs e he]
  cases hq : s e with
  | none => rfl
  | some q =>
    cases q with
    | none => rfl
    | some d =>
      simp only [Option.bind_eq_bind, Option.bind_some]
      cases hf' : f d with
      | none => rfl
      | some e' => simp only [Option.bind_some, hs e' (hf d e' (hl e he d hq) hf')]

theorem parts_weight {o : BOp} {l a b : X} (h : l.parts o = some (a, b)) : l.weight = a.weight + b.weight := by
  rw [parts_eq h]; rfl

theorem onParts_congr {p : Option (X × X)} {f g : X → X → Option (Option X)} (h : ∀ a b, p = some (a, b) → f a b = g a b) :
    onParts p f = onParts p g := by
  cases p with
  | none => rfl
  | some p => exact h p.1 p.2 rfl

theorem onParts_some {p : Option (X × X)} {f : X → X → Option (Option X)} {r : X} (h : onParts p f = some (some r)) :
    ∃ a b, p = some (a, b) ∧ f a b = some (some r) := by
  cases p with
  | none => simp [onParts] at h
  | some p => exact ⟨p.1, p.2, rfl, h⟩

section
variable {o : BOp} {l r : X} (hl : ∀ e : X, e.weight < l.weight + r.weight → Lowers s e)
include hl

theorem reorder_weight {x : X} (h : reorder s o l r = some (some x)) : x.weight < l.weight + r.weight := by
  have r1 : ∀ x, (onParts (l.parts o) fun a b => attempt s (.bin o b r) (fun d => apply o a d)) = some (some x) →
      x.weight < l.weight + r.weight := by
    intro x h
    obtain ⟨a, b, hp, h⟩ := onParts_some h
    have h1 := parts_weight hp; have h2 := weight_pos a; have h3 := weight_pos b
    exact attempt_weight (by simp only [X.weight]; omega) hl
      (fun d e' hd he => by have := apply_weight he; simp only [X.weight] at hd; omega) h
  have r2 : ∀ x, (onParts (r.parts o) fun b c => attempt s (.bin o l b) (fun d => apply o d c)) = some (some x) →
      x.weight < l.weight + r.weight := by
    intro x h
    obtain ⟨a, b, hp, h⟩ := onParts_some h
    have h1 := parts_weight hp; have h2 := weight_pos a; have h3 := weight_pos b
    exact attempt_weight (by simp only [X.weight]; omega) hl
      (fun d e' hd he => by have := apply_weight he; simp only [X.weight] at hd; omega) h
  have r3 : ∀ x, (onParts (l.parts o) fun a b => attempt s (.bin o a r) (fun d => apply o d b)) = some (some x) →
      x.weight < l.weight + r.weight := by
    intro x h
    obtain ⟨a, b, hp, h⟩ := onParts_some h
    have h1 := parts_weight hp; have h2 := weight_pos a; have h3 := weight_pos b
    exact attempt_weight (by simp only [X.weight]; omega) hl
      (fun d e' hd he => by have := apply_weight he; simp only [X.weight] at hd; omega) h
  have r4 : ∀ x, (onParts (r.parts o) fun b c => attempt s (.bin o l c) (fun d => apply o d b)) = some (some x) →
      x.weight < l.weight + r.weight := by
    intro x h
    obtain ⟨a, b, hp, h⟩ := onParts_some h
    have h1 := parts_weight hp; have h2 := weight_pos a; have h3 := weight_pos b
    exact attempt_weight (by simp only [X.weight]; omega) hl
      (fun d e' hd he => by have := apply_weight he; simp only [X.weight] at hd; omega) h
  unfold reorder at h
  split_ifs at h
  on_goal 2 => simp at h
  simp only [Option.bind_eq_bind, Option.bind_eq_some_iff] at h
  obtain ⟨q, hq, h⟩ := h
  cases q with
  | inl q =>
    simp only [Option.some.injEq] at h
    subst h
    exact (either_left hq).elim (r1 x) (r2 x)
  | inr _ =>
    simp only [Option.bind_eq_some_iff] at h
    obtain ⟨q, hq, h⟩ := h
    cases q with
    | inl q =>
      simp only [Option.some.injEq] at h
      subst h
      exact (either_left hq).elim (r3 x) (r4 x)
    | inr _ => simp at h

theorem reorder_congr (hs : ∀ e : X, e.weight < l.weight + r.weight → s e = s' e) : reorder s o l r = reorder s' o l r := by
  unfold reorder
  have r1 : (onParts (l.parts o) fun a b => attempt s (.bin o b r) (fun d => apply o a d)) =
      onParts (l.parts o) fun a b => attempt s' (.bin o b r) (fun d => apply o a d) := by
    refine onParts_congr fun a b hp => ?_
    have h1 := parts_weight hp; have h2 := weight_pos a; have h3 := weight_pos b
    exact attempt_congr (by simp only [X.weight]; omega) hl hs
      (fun d e' hd he => by have := apply_weight he; simp only [X.weight] at hd; omega)
  have r2 : (onParts (r.parts o) fun b c => attempt s (.bin o l b) (fun d => apply o d c)) =
      onParts (r.parts o) fun b c => attempt s' (.bin o l b) (fun d => apply o d c) := by
    refine onParts_congr fun a b hp => ?_
    have h1 := parts_weight hp; have h2 := weight_pos a; have h3 := weight_pos b
    exact attempt_congr (by simp only [X.weight]; omega) hl hs
      (fun d e' hd he => by have := apply_weight he; simp only [X.weight] at hd; omega)
  have r3 : (onParts (l.parts o) fun a b => attempt s (.bin o a r) (fun d => apply o d b)) =
      onParts (l.parts o) fun a b => attempt s' (.bin o a r) (fun d => apply o d b) := by
    refine onParts_congr fun a b hp => ?_
    have h1 := parts_weight hp; have h2 := weight_pos a; have h3 := weight_pos b
    exact attempt_congr (by simp only [X.weight]; omega) hl hs
      (fun d e' hd he => by have := apply_weight he; simp only [X.weight] at hd; omega)
  have r4 : (onParts (r.parts o) fun b c => attempt s (.bin o l c) (fun d => apply o d b)) =
      onParts (r.parts o) fun b c => attempt s' (.bin o l c) (fun d => apply o d b) := by
    refine onParts_congr fun a b hp => ?_
    have h1 := parts_weight hp; have h2 := weight_pos a; have h3 := weight_pos b
    exact attempt_congr (by simp only [X.weight]; omega) hl hs
      (fun d e' hd he => by have := apply_weight he; simp only [X.weight] at hd; omega)
  rw [r1, r2, r3, r4]

end

theorem step_weight {cfg : Cfg} {e r : X} (hl : ∀ e' : X, e'.weight < e.weight → Lowers s e') (h : step cfg s e = some (some r)) :
    r.weight < e.weight := by
  cases e with
  | c a => simp only [step] at h; split_ifs at h <;> cases h; simp [X.weight]
  | int z => cases h
  | dbl z => cases h
  | polyZ v n f => cases h
  | polyR v n f => cases h
  | var v => simp only [step] at h; split_ifs at h <;> cases h; simp [X.weight]
  | neg a =>
    simp only [step, Option.bind_eq_bind, Option.bind_eq_some_iff] at h
    obtain ⟨q, hq, h⟩ := h
    cases q with
    | none => simp at h
    | some a' =>
      simp only [Option.bind_eq_some_iff] at h
      obtain ⟨e, he, y, hy, h⟩ := h
      cases h
      have h1 := hl a (by simp [X.weight]) a' hq
      have h2 := opNeg_weight he
      have h3 := orSelf_weight (hl e (by simp only [X.weight]; omega)) hy
      simp only [X.weight]
      omega
  | pow a p =>
    cases hv : a.isVar with
    | true =>
      cases a <;> simp [X.isVar] at hv
      simp only [step] at h
      split_ifs at h
      · simp only [Option.bind_eq_bind, Option.bind_eq_some_iff] at h
        obtain ⟨f, hf, h⟩ := h
        cases h
        simp [X.weight]
      · cases h
    | false =>
      rw [step] at h
      · rw [weight_pow p hv, Nat.succ_mul] at hl ⊢
        simp only [Option.bind_eq_bind, Option.bind_eq_some_iff] at h
        obtain ⟨q, hq, h⟩ := h
        cases q with
        | none =>
          simp only [Option.bind_eq_some_iff] at h
          obtain ⟨e, he, q', hs, y, rfl, h⟩ := h
          cases h
          have h1 := powSub_weight he
          have h2 := hl e (by omega) r hs
          omega
        | some a' =>
          simp only [Option.bind_eq_some_iff] at h
          obtain ⟨e, he, y, hy, h⟩ := h
          cases h
          have h1 := powSub_weight he
          have h5 := Nat.mul_le_mul_left p (hl a (by omega) a' hq).le
          have h3 := orSelf_weight (hl e (by omega)) hy
          omega
      · intro v hv'; subst hv'; simp [X.isVar] at hv
  | bin o l r' =>
    have wl := weight_pos l
    have wr := weight_pos r'
    simp only [X.weight] at hl ⊢
    rw [step] at h
    split at h
    · rename_i e he
      simp only [Option.map_eq_some_iff] at h
      obtain ⟨y, rfl, h⟩ := h
      cases h
      exact rulesC_weight he
    · split at h
      · rename_i e he
        cases h
        exact firstC_weight he
      · split_ifs at h with hu
        · simp only [Option.bind_eq_bind, Option.bind_eq_some_iff] at h
          obtain ⟨y, hy, h⟩ := h
          cases h
          have := orSelf_weight (hl l (by omega)) hy
          omega
        · simp only [Option.bind_eq_bind, Option.bind_eq_some_iff] at h
          obtain ⟨p, hp, q, hq, h⟩ := h
          have kl : p.isSome → (p.getD l).weight < l.weight := by
            cases p with
            | none => simp
            | some l' => exact fun _ => hl l (by omega) l' hp
          have kr : q.isSome → (q.getD r').weight < r'.weight := by
            cases q with
            | none => simp
            | some l' => exact fun _ => hl r' (by omega) l' hq
          have fin : p.isSome ∨ q.isSome → ∀ e, apply o (p.getD l) (q.getD r') = some e → orSelf e (s e) = some r →
              r.weight < l.weight + r'.weight := by
            intro hpq e he hy
            have h1 := apply_weight he
            have h2 : (p.getD l).weight ≤ l.weight := by cases p with | none => exact le_rfl | some l' => exact (kl rfl).le
            have h3 : (q.getD r').weight ≤ r'.weight := by cases q with | none => exact le_rfl | some l' => exact (kr rfl).le
            have h4 : e.weight < l.weight + r'.weight := by
              rcases hpq with h | h
              · have := kl h; omega
              · have := kr h; omega
            have := orSelf_weight (hl e h4) hy
            omega
          cases p <;> cases q <;> simp only [Option.bind_eq_some_iff] at h
          · split at h
            · rename_i e he
              simp only [Option.bind_eq_some_iff] at h
              obtain ⟨y, hy, h⟩ := h
              cases h
              have h1 := liftC_weight he
              have := orSelf_weight (hl e h1) hy
              omega
            · exact reorder_weight hl h
          all_goals
            obtain ⟨e, he, y, hy, h⟩ := h
            cases h
            exact fin (by simp) e he hy

theorem step_congr {cfg : Cfg} {e : X} (hl : ∀ e' : X, e'.weight < e.weight → Lowers s e')
    (hs : ∀ e' : X, e'.weight < e.weight → s e' = s' e') : step cfg s e = step cfg s' e := by
  cases e with
  | c a => rfl
  | int z => rfl
  | dbl z => rfl
  | polyZ v n f => rfl
  | polyR v n f => rfl
  | var v => rfl
  | neg a =>
    simp only [step]
    rw [← hs a (by simp [X.weight])]
    cases hq : s a with
    | none => rfl
    | some q =>
      cases q with
      | none => rfl
      | some a' =>
        simp only [Option.bind_eq_bind, Option.bind_some]
        cases he : opNeg a' with
        | none => rfl
        | some e =>
          have h1 := hl a (by simp [X.weight]) a' hq
          have h2 := opNeg_weight he
          simp only [Option.bind_some, hs e (by simp only [X.weight]; omega)]
  | pow a p =>
    cases hv : a.isVar with
    | true => cases a <;> simp [X.isVar] at hv; rfl
    | false =>
      have hv' : ∀ v, a ≠ .var v := by rintro v rfl; simp [X.isVar] at hv
      rw [weight_pow p hv, Nat.succ_mul] at hl hs
      rw [step, step]
      · rw [← hs a (by omega)]
        cases hq : s a with
        | none => rfl
        | some q =>
          cases q with
          | none =>
            simp only [Option.bind_eq_bind, Option.bind_some]
            cases he : powSub p a with
            | none => rfl
            | some e => have h1 := powSub_weight he; simp only [Option.bind_some, hs e (by omega)]
          | some a' =>
            simp only [Option.bind_eq_bind, Option.bind_some]
            cases he : powSub p a' with
            | none => rfl
            | some e =>
              have h1 := powSub_weight he
              have h2 := Nat.mul_le_mul_left p (hl a (by omega) a' hq).le
              simp only [Option.bind_some, hs e (by omega)]
      · exact hv'
      · exact hv'
  | bin o l r =>
    have wl := weight_pos l
    have wr := weight_pos r
    simp only [X.weight] at hl hs
    rw [step, step, ← hs l (by omega), ← hs r (by omega), reorder_congr hl hs]
    cases rulesC cfg o l r with
    | some e => rfl
    | none =>
      cases firstC o l r with
      | some e => rfl
      | none =>
        simp only
        split_ifs
        · rfl
        · cases hp : s l with
          | none => rfl
          | some p =>
            cases hq : s r with
            | none => cases p <;> rfl
            | some q =>
              cases p with
              | none =>
                cases q with
                | none =>
                  simp only [Option.bind_eq_bind, Option.bind_some]
                  cases he : liftC cfg o l r with
                  | none => rfl
                  | some e => simp only [hs e (liftC_weight he)]
                | some r' =>
                  simp only [Option.bind_eq_bind, Option.bind_some]
                  cases he : apply o l r' with
                  | none => rfl
                  | some e =>
                    have h1 := apply_weight he
                    have h2 := hl r (by omega) r' hq
                    simp only [Option.bind_some, hs e (by omega)]
              | some l' =>
                have h3 := hl l (by omega) l' hp
                cases q with
                | none =>
                  simp only [Option.bind_eq_bind, Option.bind_some]
                  cases he : apply o l' r with
                  | none => rfl
                  | some e =>
                    have h1 := apply_weight he
                    simp only [Option.bind_some, hs e (by omega)]
                | some r' =>
                  simp only [Option.bind_eq_bind, Option.bind_some]
                  cases he : apply o l' r' with
                  | none => rfl
                  | some e =>
                    have h1 := apply_weight he
                    have h2 := hl r (by omega) r' hq
                    simp only [Option.bind_some, hs e (by omega)]

theorem upTo_weight {cfg : Cfg} {b : X → Option (Option X)} : ∀ (k : ℕ) (e : X), e.weight ≤ k → Lowers (upTo cfg b k) e
  | 0, e, h => absurd h (by have := weight_pos e; omega)
  | k + 1, e, h => fun r hr => step_weight (fun e' he => upTo_weight k e' (by omega)) hr

theorem upTo_congr {cfg : Cfg} {b b' : X → Option (Option X)} : ∀ (k k' : ℕ) (e : X), e.weight ≤ k → e.weight ≤ k' →
    upTo cfg b k e = upTo cfg b' k' e
  | 0, _, e, h, _ => absurd h (by have := weight_pos e; omega)
  | _ + 1, 0, e, _, h => absurd h (by have := weight_pos e; omega)
  | k + 1, k' + 1, e, h, h' => step_congr (fun e' he => upTo_weight k e' (by omega)) fun e' he => upTo_congr k k' e' (by omega) (by omega)

/-- **C100.** `simplify`, `N` and `expand` come to an end for every expression: the templates are never nested deeper than its weight,
so it makes no difference what happens below. -/
theorem C100_ends (cfg : Cfg) (b : X → Option (Option X)) (e : X) (k : ℕ) (h : e.weight ≤ k) : upTo cfg b k e = simplifyC cfg e :=
  upTo_congr k e.weight e h le_rfl

/-- **C100.** The recursion, without a bound. -/
theorem C100_equation (cfg : Cfg) (e : X) : simplifyC cfg e = step cfg (simplifyC cfg) e := by
  obtain ⟨n, hn⟩ : ∃ n, e.weight = n + 1 := ⟨e.weight - 1, by have := weight_pos e; omega⟩
  unfold simplifyC
  rw [hn]
  refine step_congr (fun e' he => upTo_weight n e' (by omega)) fun e' he => upTo_congr n e'.weight e' (by omega) le_rfl

theorem simplifyC_lowers (cfg : Cfg) (e : X) : Lowers (simplifyC cfg) e := upTo_weight _ e le_rfl

end Stator.Ct.Expand
