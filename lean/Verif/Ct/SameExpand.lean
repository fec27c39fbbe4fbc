import Verif.Ct.Numbers

/-!
# `try_expand` of C79 and C98 is `try_simplify` with `ExpandConfig` of C100
-/

namespace Stator.Ct.Expand

open Stator.Pol (Arr)

/-- A constant `C<..>`. -/
def X.isConst : X → Bool
  | .c _ => true
  | _ => false

/-- No operation has two numbers as its operands with a constant `C<..>` among them: the operators build no such tree. -/
def X.fit : X → Prop
  | .bin _ l r => l.fit ∧ r.fit ∧ ¬ ((l.number ≠ none ∧ r.number ≠ none) ∧ (l.isConst = true ∨ r.isConst = true))
  | .neg a => a.fit
  | .pow a _ => a.fit
  | _ => True

theorem formed_fit {e : X} (h : e.formed) : e.fit := by
  induction e with
  | bin o l r ihl ihr => exact ⟨ihl h.1, ihr h.2.1, fun hn => formed_not_ints h.2.2 hn.1⟩
  | neg a ih => exact ih h.1
  | pow a p ih => exact ih h.1
  | _ => trivial

theorem opNeg_fit {a e : X} (ha : a.fit) (h : opNeg a = some e) : e.fit := by
  cases a with
  | polyZ v n f => simp only [opNeg, Option.map_eq_some_iff] at h; obtain ⟨g, hg, rfl⟩ := h; trivial
  | polyR v n f => simp only [opNeg, Option.map_eq_some_iff] at h; obtain ⟨g, hg, rfl⟩ := h; trivial
  | _ => cases h; exact ha

theorem node_fit {o : BOp} {l r e : X} (hl : l.fit) (hr : r.fit) (h : node o l r = some e) : e.fit := by
  unfold node at h
  split at h
  · split at h <;> (simp only [Option.map_eq_some_iff] at h; obtain ⟨g, hg, rfl⟩ := h; trivial)
  · rename_i hc
    cases h
    refine ⟨hl, hr, fun hn => ?_⟩
    obtain ⟨p, hp⟩ := Option.ne_none_iff_exists'.1 hn.1.1
    obtain ⟨q, hq⟩ := Option.ne_none_iff_exists'.1 hn.1.2
    exact hc _ _ hp hq

theorem apply_fit {o : BOp} {l r e : X} (hl : l.fit) (hr : r.fit) (h : apply o l r = some e) : e.fit := by
  unfold apply at h
  split at h
  · cases o with
    | div => simp only [Option.map_eq_some_iff] at h; obtain ⟨g, hg, rfl⟩ := h; trivial
    | _ => cases h; trivial
  · cases o with
    | add => simp only at h; split_ifs at h <;> first | (cases h; assumption) | exact node_fit hl hr h
    | sub => simp only at h; split_ifs at h <;> first | (cases h; assumption) | exact opNeg_fit hr h | exact node_fit hl hr h
    | mul => simp only at h; split_ifs at h <;> first | (cases h; assumption) | (cases h; trivial) | exact node_fit hl hr h
    | div => exact node_fit hl hr h

theorem powSub_fit {a : X} (ha : a.fit) : ∀ {p : ℕ} {e : X}, powSub p a = some e → e.fit
  | 0, e, h => by cases h; trivial
  | 1, e, h => by cases h; exact ha
  | p + 2, e, h => by
    simp only [powSub, Option.bind_eq_bind, Option.bind_eq_some_iff] at h
    obtain ⟨b, hb, h⟩ := h
    exact apply_fit (powSub_fit ha hb) ha h

theorem rules_fit {o : BOp} {l r e : X} (h : rules o l r = some (some e)) : e.fit := by
  have z {u v : List Char} {n m : ℕ} {f : Arr ℤ n} {g : Arr ℤ m} (h : rulesZ o u v f g = some (some e)) : e.fit := by
    cases o <;> cases m <;> simp [rulesZ] at h
    all_goals
      obtain ⟨-, g, -, rfl⟩ := h
      trivial
  have q {u v : List Char} {n m : ℕ} {f : Arr ℝ n} {g : Arr ℝ m} (h : rulesR o u v f g = some (some e)) : e.fit := by
    cases o <;> cases m <;> simp [rulesR] at h
    all_goals
      obtain ⟨-, g, -, rfl⟩ := h
      trivial
  unfold rules at h
  split at h
  · exact z h
  · exact q h
  · exact q h
  · exact q h
  · split_ifs at h; simp only [Option.some.injEq, Option.map_eq_some_iff] at h; obtain ⟨g, hg, rfl⟩ := h; trivial
  · split_ifs at h; simp only [Option.some.injEq, Option.map_eq_some_iff] at h; obtain ⟨g, hg, rfl⟩ := h; trivial
  · cases h

theorem first_fit {o : BOp} {l r e : X} (h : first o l r = some e) : e.fit := by
  have vp : ∀ u p, (varPower u p).fit := by intro u p; unfold varPower; split_ifs <;> trivial
  unfold first at h
  split at h
  iterate 8 (cases h; trivial)
  · split_ifs at h; cases h; exact vp _ _
  · split_ifs at h; cases h; exact vp _ _
  · split_ifs at h; cases h; exact vp _ _
  · split_ifs at h; cases h; trivial
  · split_ifs at h; cases h; trivial
  · cases h

theorem lift_fit {o : BOp} {l r e : X} (h : lift o l r = some e) : e.fit := by
  unfold lift at h
  split at h
  all_goals first | (cases h; done) | (cases h; exact ⟨trivial, trivial, fun hn => hn.1.1 rfl⟩)

/-- The sums and products of numbers. -/
theorem firstC_fit {o : BOp} {l r : X} (h : (X.bin o l r).fit) : firstC o l r = first o l r := by
  unfold firstC
  split_ifs with hn
  · obtain ⟨ho, hl, hr⟩ := hn
    have hc := fun hc => h.2.2 ⟨⟨hl, hr⟩, hc⟩
    rcases ho with rfl | rfl <;> cases l <;> simp [X.number, X.isConst] at hl hc <;> cases r <;>
      simp [X.number] at hr hc <;> simp [apply, first, node, X.number, X.isC, realOp, intOp]
  · rfl

/-- The depth-`k` recursion. -/
noncomputable abbrev ex (k : ℕ) : X → Option (Option X) := upTo .expand (fun _ => none) k

theorem ex_const {k : ℕ} {e : X} (h : ex k e = some none) : e.isConst = false := by
  cases k with
  | zero => cases h
  | succ k => cases e <;> first | rfl | (simp [ex, upTo, step, Cfg.consts] at h)

theorem ex_parts {k : ℕ} {o : BOp} {a b : X} (h : ex k (.bin o a b) = some none) : a.isConst = false ∧ b.isConst = false := by
  cases k with
  | zero => cases h
  | succ k =>
    simp only [ex, upTo] at h
    rw [step] at h
    split at h
    · simp [Option.map_eq_some_iff] at h
    · split at h
      · cases h
      · split_ifs at h
        · simp [Option.bind_eq_some_iff] at h
        · simp only [Option.bind_eq_bind, Option.bind_eq_some_iff] at h
          obtain ⟨p, hp, q, hq, h⟩ := h
          cases p <;> cases q <;> simp only [Option.bind_eq_some_iff] at h
          · exact ⟨ex_const hp, ex_const hq⟩
          all_goals
            obtain ⟨e, he, y, hy, h⟩ := h
            cases h

/-- The two models agree on `e`, down to the depth `k`. -/
def Same (k : ℕ) (e : X) : Prop := ex k e = simp k e ∧ ∀ r, ex k e = some (some r) → r.fit

section
variable {k : ℕ} (ih : ∀ e : X, e.fit → Same k e)
include ih

theorem same_orSelf {e r : X} (he : e.fit) (h : orSelf e (ex k e) = some r) : r.fit := by
  simp only [orSelf, Option.map_eq_some_iff] at h
  obtain ⟨q, hq, rfl⟩ := h
  cases q with
  | none => exact he
  | some q => exact (ih e he).2 q hq

theorem same_attempt {e : X} {f : X → Option X} (he : e.fit) (hf : ∀ d e', d.fit → f d = some e' → e'.fit) :
    attempt (ex k) e f = attempt (simp k) e f ∧ ∀ r, attempt (ex k) e f = some (some r) → r.fit := by
  constructor
  · unfold attempt
    rw [← (ih e he).1]
    cases hq : ex k e with
    | none => rfl
    | some q =>
      cases q with
      | none => rfl
      | some d =>
        simp only [Option.bind_eq_bind, Option.bind_some]
        cases hf' : f d with
        | none => rfl
        | some e' => simp only [Option.bind_some, (ih e' (hf d e' ((ih e he).2 d hq) hf')).1]
  · intro r h
    simp only [attempt, Option.bind_eq_bind, Option.bind_eq_some_iff] at h
    obtain ⟨q, hq, h⟩ := h
    cases q with
    | none => simp at h
    | some d =>
      simp only [Option.bind_eq_some_iff] at h
      obtain ⟨e', he', y, hy, h⟩ := h
      cases h
      exact same_orSelf ih (hf d e' ((ih e he).2 d hq) he') hy

theorem same_onParts {p : Option (X × X)} {g : X → X → X} {f : X → X → X → Option X}
    (he : ∀ a b, p = some (a, b) → (g a b).fit) (hf : ∀ a b, p = some (a, b) → ∀ d e', d.fit → f a b d = some e' → e'.fit) :
    (onParts p fun a b => attempt (ex k) (g a b) (f a b)) = (onParts p fun a b => attempt (simp k) (g a b) (f a b)) ∧
    ∀ r, (onParts p fun a b => attempt (ex k) (g a b) (f a b)) = some (some r) → r.fit := by
  cases p with
  | none => exact ⟨rfl, fun r h => by simp [onParts] at h⟩
  | some p => exact same_attempt ih (he p.1 p.2 rfl) (hf p.1 p.2 rfl)

theorem same_reorder {o : BOp} {l r : X} (hl : l.fit) (hr : r.fit) (nl : ex k l = some none) (nr : ex k r = some none) :
    reorder (ex k) o l r = reorder (simp k) o l r ∧ ∀ x, reorder (ex k) o l r = some (some x) → x.fit := by
  have cl := ex_const nl
  have cr := ex_const nr
  have pl : ∀ a b, l.parts o = some (a, b) → a.fit ∧ b.fit ∧ a.isConst = false ∧ b.isConst = false := by
    intro a b h
    obtain rfl := parts_eq h
    exact ⟨hl.1, hl.2.1, ex_parts nl⟩
  have pr : ∀ a b, r.parts o = some (a, b) → a.fit ∧ b.fit ∧ a.isConst = false ∧ b.isConst = false := by
    intro a b h
    obtain rfl := parts_eq h
    exact ⟨hr.1, hr.2.1, ex_parts nr⟩
  have mk : ∀ {a b : X}, a.fit → b.fit → a.isConst = false → b.isConst = false → (X.bin o a b).fit :=
    fun ha hb ca cb => ⟨ha, hb, fun h => by simp [ca, cb] at h⟩
  have r1 := same_onParts ih (p := l.parts o) (g := fun a b => .bin o b r) (f := fun a b d => apply o a d)
    (fun a b h => mk (pl a b h).2.1 hr (pl a b h).2.2.2 cr) (fun a b h d e' hd he => apply_fit (pl a b h).1 hd he)
  have r2 := same_onParts ih (p := r.parts o) (g := fun b c => .bin o l b) (f := fun b c d => apply o d c)
    (fun a b h => mk hl (pr a b h).1 cl (pr a b h).2.2.1) (fun a b h d e' hd he => apply_fit hd (pr a b h).2.1 he)
  have r3 := same_onParts ih (p := l.parts o) (g := fun a b => .bin o a r) (f := fun a b d => apply o d b)
    (fun a b h => mk (pl a b h).1 hr (pl a b h).2.2.1 cr) (fun a b h d e' hd he => apply_fit hd (pl a b h).2.1 he)
  have r4 := same_onParts ih (p := r.parts o) (g := fun b c => .bin o l c) (f := fun b c d => apply o d b)
    (fun a b h => mk hl (pr a b h).2.1 cl (pr a b h).2.2.2) (fun a b h d e' hd he => apply_fit hd (pr a b h).1 he)
  refine ⟨?_, ?_⟩
  · unfold reorder
    rw [r1.1, r2.1, r3.1, r4.1]
  · intro x h
    unfold reorder at h
    split_ifs at h
    · simp only [Option.bind_eq_bind, Option.bind_eq_some_iff] at h
      obtain ⟨q, hq, h⟩ := h
      cases q with
      | inl q =>
        simp only [Option.some.injEq] at h
        subst h
        exact (either_left hq).elim (r1.2 x) (r2.2 x)
      | inr _ =>
        simp only [Option.bind_eq_some_iff] at h
        obtain ⟨q, hq, h⟩ := h
        cases q with
        | inl q =>
          simp only [Option.some.injEq] at h
          subst h
          exact (either_left hq).elim (r3.2 x) (r4.2 x)
        | inr _ => simp at h
    · simp at h

theorem same_apply {o : BOp} {l r : X} (hl : l.fit) (hr : r.fit) :
    (apply o l r).bind (fun e => (orSelf e (ex k e)).bind fun y => some (some y)) =
      (apply o l r).bind (fun e => (orSelf e (simp k e)).bind fun y => some (some y)) ∧
    ∀ x, (apply o l r).bind (fun e => (orSelf e (ex k e)).bind fun y => some (some y)) = some (some x) → x.fit := by
  constructor
  · cases h : apply o l r with
    | none => rfl
    | some e => simp only [Option.bind_some, (ih e (apply_fit hl hr h)).1]
  · intro x h
    simp only [Option.bind_eq_some_iff] at h
    obtain ⟨e, he, y, hy, h⟩ := h
    cases h
    exact same_orSelf ih (apply_fit hl hr he) hy

theorem same_step {e : X} (he : e.fit) : Same (k + 1) e := by
  show step .expand (ex k) e = _ ∧ ∀ r, step .expand (ex k) e = _ → _
  cases e with
  | c a => exact ⟨rfl, fun r h => by cases h; trivial⟩
  | int z => exact ⟨rfl, fun r h => by cases h⟩
  | dbl y => exact ⟨rfl, fun r h => by cases h⟩
  | polyZ v n f => exact ⟨rfl, fun r h => by cases h⟩
  | polyR v n f => exact ⟨rfl, fun r h => by cases h⟩
  | var v => exact ⟨rfl, fun r h => by cases h; trivial⟩
  | neg a =>
    have ha := ih a he
    constructor
    · simp only [step, simp]
      rw [← ha.1]
      cases hq : ex k a with
      | none => rfl
      | some q =>
        cases q with
        | none => rfl
        | some a' =>
          simp only [Option.bind_eq_bind, Option.bind_some]
          cases hn : opNeg a' with
          | none => rfl
          | some e => simp only [Option.bind_some, (ih e (opNeg_fit (ha.2 a' hq) hn)).1]
    · intro r h
      simp only [step, Option.bind_eq_bind, Option.bind_eq_some_iff] at h
      obtain ⟨q, hq, h⟩ := h
      cases q with
      | none => simp at h
      | some a' =>
        simp only [Option.bind_eq_some_iff] at h
        obtain ⟨e, he, y, hy, h⟩ := h
        cases h
        exact same_orSelf ih (opNeg_fit (ha.2 a' hq) he) hy
  | pow a p =>
    by_cases hv : ∃ v, a = .var v
    · obtain ⟨v, rfl⟩ := hv
      refine ⟨by simp [step, simp, Cfg.poly], fun r h => ?_⟩
      simp only [step, Cfg.poly, if_true, Option.bind_eq_bind, Option.bind_eq_some_iff] at h
      obtain ⟨f, hf, h⟩ := h
      cases h
      trivial
    · have hv' : ∀ v, a ≠ .var v := fun v hv' => hv ⟨v, hv'⟩
      have hb : a.fit := he
      have ha := ih a hb
      constructor
      · rw [step, simp]
        · rw [← ha.1]
          cases hq : ex k a with
          | none => rfl
          | some q =>
            cases q with
            | none =>
              simp only [Option.bind_eq_bind, Option.bind_some]
              cases hp : powSub p a with
              | none => rfl
              | some e => simp only [Option.bind_some, (ih e (powSub_fit hb hp)).1]
            | some a' =>
              simp only [Option.bind_eq_bind, Option.bind_some]
              cases hp : powSub p a' with
              | none => rfl
              | some e => simp only [Option.bind_some, (ih e (powSub_fit (ha.2 a' hq) hp)).1]
        · exact hv'
        · exact hv'
      · intro r h
        rw [step] at h
        · simp only [Option.bind_eq_bind, Option.bind_eq_some_iff] at h
          obtain ⟨q, hq, h⟩ := h
          cases q with
          | none =>
            simp only [Option.bind_eq_some_iff] at h
            obtain ⟨e, he', q', hs, y, rfl, h⟩ := h
            cases h
            exact (ih e (powSub_fit hb he')).2 _ hs
          | some a' =>
            simp only [Option.bind_eq_some_iff] at h
            obtain ⟨e, he', y, hy, h⟩ := h
            cases h
            exact same_orSelf ih (powSub_fit (ha.2 a' hq) he') hy
        · exact hv'
  | bin o l r' =>
    have hl := ih l he.1
    have hr := ih r' he.2.1
    have hC : rulesC .expand o l r' = rules o l r' := if_pos (.inl rfl)
    have hL : liftC .expand o l r' = lift o l r' := if_pos rfl
    rw [step, simp, hC, firstC_fit he, hL, ← hl.1, ← hr.1]
    cases hR : rules o l r' with
    | some e =>
      refine ⟨rfl, fun r h => ?_⟩
      simp only [Option.map_eq_some_iff] at h
      obtain ⟨y, rfl, h⟩ := h
      cases h
      exact rules_fit hR
    | none =>
      cases hF : first o l r' with
      | some e => refine ⟨rfl, fun r h => ?_⟩; cases h; exact first_fit hF
      | none =>
        simp only
        by_cases hu : o = .div ∧ r'.isC .unity
        · rw [if_pos hu, if_pos hu]
          refine ⟨rfl, fun r h => ?_⟩
          simp only [Option.bind_eq_bind, Option.bind_eq_some_iff] at h
          obtain ⟨y, hy, h⟩ := h
          cases h
          exact same_orSelf ih he.1 hy
        · rw [if_neg hu, if_neg hu]
          cases hp : ex k l with
          | none => exact ⟨rfl, fun r h => by cases h⟩
          | some p =>
            cases hq : ex k r' with
            | none => cases p <;> exact ⟨rfl, fun r h => by cases h⟩
            | some q =>
              cases p with
              | none =>
                cases q with
                | none =>
                  simp only [Option.bind_eq_bind, Option.bind_some]
                  cases hE : lift o l r' with
                  | none => exact same_reorder ih he.1 he.2.1 hp hq
                  | some e =>
                    refine ⟨by simp only [(ih e (lift_fit hE)).1], fun r h => ?_⟩
                    simp only [Option.bind_eq_some_iff] at h
                    obtain ⟨y, hy, h⟩ := h
                    cases h
                    exact same_orSelf ih (lift_fit hE) hy
                | some r2 => exact same_apply ih he.1 (hr.2 r2 hq)
              | some l2 =>
                cases q with
                | none => exact same_apply ih (hl.2 l2 hp) he.2.1
                | some r2 => exact same_apply ih (hl.2 l2 hp) (hr.2 r2 hq)

end

theorem same (k : ℕ) : ∀ e : X, e.fit → Same k e := by
  induction k with
  | zero => exact fun e _ => ⟨rfl, fun r h => by cases h⟩
  | succ k ih => exact fun e he => same_step ih he

/-- **C100.** `try_expand`, which C79 and C98 are about, is `try_simplify` with `ExpandConfig`; what it returns is settled at a depth
bounded by the weight of the expression. -/
theorem C100_expand {s e r : X} (h : build s = some e) : trySimplify .expand e = some r ↔ TryExpand e r := by
  have hf := formed_fit (build_formed h)
  have hm : ∀ m, e.weight ≤ m → orSelf e (simp m e) = trySimplify .expand e := fun m hm => by
    rw [← (same m e hf).1, trySimplify, ← C100_ends .expand (fun _ => none) e m hm]
  constructor
  · exact fun hr => ⟨e.weight, fun m h => (hm m h).trans hr⟩
  · rintro ⟨k, hk⟩
    rw [← hm (max k e.weight) (le_max_right _ _)]
    exact hk _ (le_max_left _ _)

example : build (.bin .add (.var ['x']) (.c (.ofInt 3))) = some (.bin .add (.var ['x']) (.c (.ofInt 3))) ∧
    ∃ r, trySimplify .expand (.bin .add (.var ['x']) (.c (.ofInt 3))) = some r := by
  have hb : build (.bin .add (.var ['x']) (.c (.ofInt 3))) = some (.bin .add (.var ['x']) (.c (.ofInt 3))) := by
    simp [build, apply, node, X.number, X.isC, three_null]
  refine ⟨hb, ?_⟩
  obtain ⟨r, h, -⟩ := C79_expand (x := ['x']) (s := .bin .add (.var ['x']) (.c (.ofInt 3))) ⟨rfl, trivial⟩ ⟨trivial, trivial⟩ hb
  exact ⟨r, (C100_expand hb).2 ((h r).2 rfl)⟩

end Stator.Ct.Expand
