import Verif.Ct.Orderly
import Verif.Ct.PolyCalculus

/-!
# What `N` and `expand` leave of the constants `C<..>` (C100)
-/

namespace Stator.Ct.Expand

open C (val_neg val_add val_sub val_mul val_div val_null val_unity)
open Stator.Pol (Arr)

/-! ## Specification -/

/-- Nothing is divided. -/
def X.whole : X → Prop
  | .bin o l r => o ≠ .div ∧ l.whole ∧ r.whole
  | .neg a => a.whole
  | .pow a _ => a.whole
  | _ => True

/-- There is no constant `C<..>` in the expression, and nothing is divided. -/
def X.bare : X → Prop
  | .c _ => False
  | .bin o l r => o ≠ .div ∧ l.bare ∧ r.bare
  | .neg a => a.bare
  | .pow a _ => a.bare
  | _ => True

/-! ## Proofs -/

theorem bare_isC {a : X} (c : C) (h : a.bare) : a.isC c = false := by cases a <;> first | rfl | exact h.elim

theorem opNeg_bare {a e : X} (ha : a.bare) (h : opNeg a = some e) : e.bare := by
  cases a with
  | c b => exact ha.elim
  | polyZ v n f => simp only [opNeg, Option.map_eq_some_iff] at h; obtain ⟨g, hg, rfl⟩ := h; trivial
  | polyR v n f => simp only [opNeg, Option.map_eq_some_iff] at h; obtain ⟨g, hg, rfl⟩ := h; trivial
  | _ => cases h; exact ha

theorem node_bare {o : BOp} {l r e : X} (ho : o ≠ .div) (hl : l.bare) (hr : r.bare) (h : node o l r = some e) : e.bare := by
  unfold node at h
  split at h
  · split at h <;> (simp only [Option.map_eq_some_iff] at h; obtain ⟨g, hg, rfl⟩ := h; trivial)
  · cases h; exact ⟨ho, hl, hr⟩

theorem apply_bare {o : BOp} {l r e : X} (ho : o ≠ .div) (hl : l.bare) (hr : r.bare) (h : apply o l r = some e) : e.bare := by
  unfold apply at h
  split at h
  · exact hl.elim
  · simp only [bare_isC _ hl, bare_isC _ hr, Bool.false_eq_true, if_false] at h
    cases o with
    | div => exact absurd rfl ho
    | _ => exact node_bare ho hl hr h

theorem powSub_bare {a : X} (ha : a.bare) : ∀ {p : ℕ} {e : X}, powSub (p + 1) a = some e → e.bare
  | 0, e, h => by cases h; exact ha
  | p + 1, e, h => by
    simp only [powSub, Option.bind_eq_bind, Option.bind_eq_some_iff] at h
    obtain ⟨b, hb, h⟩ := h
    exact apply_bare (by simp) (powSub_bare ha hb) ha h

theorem rules_bare {o : BOp} {l r e : X} (ho : o ≠ .div) (h : rules o l r = some (some e)) : e.bare := by
  have z {u v : List Char} {n m : ℕ} {f : Arr ℤ n} {g : Arr ℤ m} (h : rulesZ o u v f g = some (some e)) : e.bare := by
    cases o <;> cases m <;> simp [rulesZ] at h
    all_goals
      obtain ⟨-, g, -, rfl⟩ := h
      trivial
  have q {u v : List Char} {n m : ℕ} {f : Arr ℝ n} {g : Arr ℝ m} (h : rulesR o u v f g = some (some e)) : e.bare := by
    cases o <;> cases m <;> simp [rulesR] at h
    all_goals
      obtain ⟨-, g, -, rfl⟩ := h
      trivial
  unfold rules at h
  split at h
  · exact z h
  · exact q h
  · exact q h
  · exact q h
  · split_ifs at h; simp only [Option.some.injEq, Option.map_eq_some_iff] at h; obtain ⟨g, hg, rfl⟩ := h; trivial
  · split_ifs at h; simp only [Option.some.injEq, Option.map_eq_some_iff] at h; obtain ⟨g, hg, rfl⟩ := h; trivial
  · cases h

theorem first_bare {o : BOp} {l r e : X} (ho : o ≠ .div) (h : first o l r = some e) : e.bare := by
  have vp : ∀ u p, (varPower u p).bare := by intro u p; unfold varPower; split_ifs <;> trivial
  unfold first at h
  split at h
  iterate 8 (cases h; trivial)
  · split_ifs at h; cases h; exact vp _ _
  · split_ifs at h; cases h; exact vp _ _
  · split_ifs at h; cases h; exact vp _ _
  · exact absurd rfl ho
  · exact absurd rfl ho
  · cases h

theorem lift_bare {o : BOp} {l r e : X} (ho : o ≠ .div) (h : lift o l r = some e) : e.bare := by
  unfold lift at h
  split at h
  all_goals first | (cases h; done) | (cases h; exact ⟨ho, trivial, trivial⟩)

/-- An expression without constants, or one that the operators build. -/
def Ok (e : X) : Prop := e.bare ∨ (e.formed ∧ e.whole)

/-- `simplify` leaves no constants. -/
def Bares (s : X → Option (Option X)) (e : X) : Prop := (∀ r, s e = some (some r) → r.bare) ∧ (s e = some none → e.bare)

variable {s : X → Option (Option X)}

theorem orSelf_bare (ih : ∀ e, Ok e → Bares s e) {e r : X} (he : Ok e) (h : orSelf e (s e) = some r) : r.bare := by
  simp only [orSelf, Option.map_eq_some_iff] at h
  obtain ⟨q, hq, rfl⟩ := h
  cases q with
  | none => exact (ih e he).2 hq
  | some q => exact (ih e he).1 q hq

theorem attempt_bare (ih : ∀ e, Ok e → Bares s e) {e r : X} {f : X → Option X} (he : e.bare)
    (hf : ∀ d e', d.bare → f d = some e' → e'.bare) (h : attempt s e f = some (some r)) : r.bare := by
  simp only [attempt, Option.bind_eq_bind, Option.bind_eq_some_iff] at h
  obtain ⟨q, hq, h⟩ := h
  cases q with
  | none => simp at h
  | some d =>
    simp only [Option.bind_eq_some_iff] at h
    obtain ⟨e', he', y, hy, h⟩ := h
    cases h
    exact orSelf_bare ih (.inl (hf d e' ((ih e (.inl he)).1 d hq) he')) hy

theorem reorder_bare (ih : ∀ e, Ok e → Bares s e) {o : BOp} {l r x : X} (ho : o ≠ .div) (hl : l.bare) (hr : r.bare)
    (h : reorder s o l r = some (some x)) : x.bare := by
  have r1 : ∀ x, (onParts (l.parts o) fun a b => attempt s (.bin o b r) (fun d => apply o a d)) = some (some x) → x.bare := by
    intro x h
    obtain ⟨a, b, hp, h'⟩ := onParts_some h
    obtain rfl := parts_eq hp
    exact attempt_bare ih (e := .bin o b r) ⟨ho, hl.2.2, hr⟩ (fun d e' hd he => apply_bare ho hl.2.1 hd he) h'
  have r2 : ∀ x, (onParts (r.parts o) fun b c => attempt s (.bin o l b) (fun d => apply o d c)) = some (some x) → x.bare := by
    intro x h
    obtain ⟨a, b, hp, h'⟩ := onParts_some h
    obtain rfl := parts_eq hp
    exact attempt_bare ih (e := .bin o l a) ⟨ho, hl, hr.2.1⟩ (fun d e' hd he => apply_bare ho hd hr.2.2 he) h'
  have r3 : ∀ x, (onParts (l.parts o) fun a b => attempt s (.bin o a r) (fun d => apply o d b)) = some (some x) → x.bare := by
    intro x h
    obtain ⟨a, b, hp, h'⟩ := onParts_some h
    obtain rfl := parts_eq hp
    exact attempt_bare ih (e := .bin o a r) ⟨ho, hl.2.1, hr⟩ (fun d e' hd he => apply_bare ho hd hl.2.2 he) h'
  have r4 : ∀ x, (onParts (r.parts o) fun b c => attempt s (.bin o l c) (fun d => apply o d b)) = some (some x) → x.bare := by
    intro x h
    obtain ⟨a, b, hp, h'⟩ := onParts_some h
    obtain rfl := parts_eq hp
    exact attempt_bare ih (e := .bin o l b) ⟨ho, hl, hr.2.2⟩ (fun d e' hd he => apply_bare ho hd hr.2.1 he) h'
  unfold reorder at h
  split_ifs at h
  · simp only [Option.bind_eq_bind, Option.bind_eq_some_iff] at h
    obtain ⟨q, hq, h⟩ := h
    cases q with
    | inl q =>
      simp only [Option.some.injEq] at h
      subst h
      exact (either_left hq).elim (r1 x) (r2 x)
    | inr _ =>
      simp only [Option.bind_eq_some_iff] at h
      obtain ⟨q, hq, h⟩ := h
      cases q with
      | inl q =>
        simp only [Option.some.injEq] at h
        subst h
        exact (either_left hq).elim (r3 x) (r4 x)
      | inr _ => simp at h
  · simp at h

theorem ok_c {cfg : Cfg} (hc : cfg.consts = true) (a : C) : Bares (step cfg s) (.c a) := by
  constructor
  · intro r h; simp only [step, hc, if_true, Option.some.injEq] at h; subst h; trivial
  · intro h; simp [step, hc] at h

theorem step_bare {cfg : Cfg} (hc : cfg.consts = true) (ih : ∀ e, Ok e → Bares s e) (one : ∀ a, Bares s (.c a)) {e : X} (he : Ok e) :
    Bares (step cfg s) e := by
  cases e with
  | c a => exact ok_c hc a
  | int z => exact ⟨(fun r h => by cases h), fun _ => trivial⟩
  | dbl y => exact ⟨(fun r h => by cases h), fun _ => trivial⟩
  | polyZ v n f => exact ⟨(fun r h => by cases h), fun _ => trivial⟩
  | polyR v n f => exact ⟨(fun r h => by cases h), fun _ => trivial⟩
  | var v => exact ⟨(fun r h => by simp only [step] at h; split_ifs at h <;> cases h; trivial), fun _ => trivial⟩
  | neg a =>
    have ha : Ok a := he.imp id fun h => ⟨h.1.1, h.2⟩
    constructor
    · intro r h
      simp only [step, Option.bind_eq_bind, Option.bind_eq_some_iff] at h
      obtain ⟨q, hq, h⟩ := h
      cases q with
      | none => simp at h
      | some a' =>
        simp only [Option.bind_eq_some_iff] at h
        obtain ⟨e, he, y, hy, h⟩ := h
        cases h
        exact orSelf_bare ih (.inl (opNeg_bare ((ih a ha).1 a' hq) he)) hy
    · intro h
      simp only [step, Option.bind_eq_bind, Option.bind_eq_some_iff] at h
      obtain ⟨q, hq, h⟩ := h
      cases q with
      | none => exact (ih a ha).2 hq
      | some a' => simp [Option.bind_eq_some_iff] at h
  | pow a p =>
    by_cases hv : ∃ v, a = .var v
    · obtain ⟨v, rfl⟩ := hv
      refine ⟨fun r h => ?_, fun _ => trivial⟩
      simp only [step] at h
      split_ifs at h
      · simp only [Option.bind_eq_bind, Option.bind_eq_some_iff] at h
        obtain ⟨f, hf, h⟩ := h
        cases h
        trivial
      · cases h
    · have ha : Ok a := he.imp id fun h => ⟨h.1.1, h.2⟩
      have fin : ∀ {b e r : X}, b.bare → powSub p b = some e → orSelf e (s e) = some r → r.bare := by
        intro b e r hb he hr
        cases p with
        | zero =>
          cases he
          simp only [orSelf, Option.map_eq_some_iff] at hr
          obtain ⟨q, hq, rfl⟩ := hr
          cases q with
          | none => exact ((one _).2 hq).elim
          | some q => exact (one _).1 q hq
        | succ p => exact orSelf_bare ih (.inl (powSub_bare hb he)) hr
      have hv' : ∀ v, a ≠ .var v := fun v hv' => hv ⟨v, hv'⟩
      constructor
      · intro r h
        rw [step] at h
        · simp only [Option.bind_eq_bind, Option.bind_eq_some_iff] at h
          obtain ⟨q, hq, h⟩ := h
          cases q with
          | none =>
            simp only [Option.bind_eq_some_iff] at h
            obtain ⟨e, he, q', hs, y, rfl, h⟩ := h
            cases h
            exact fin ((ih a ha).2 hq) he (by simp [orSelf, hs])
          | some a' =>
            simp only [Option.bind_eq_some_iff] at h
            obtain ⟨e, he, y, hy, h⟩ := h
            cases h
            exact fin ((ih a ha).1 a' hq) he hy
        · exact hv'
      · intro h
        rw [step] at h
        · simp only [Option.bind_eq_bind, Option.bind_eq_some_iff] at h
          obtain ⟨q, hq, h⟩ := h
          cases q <;> simp [Option.bind_eq_some_iff] at h
        · exact hv'
  | bin o l r' =>
    have hl : Ok l := he.imp (fun h => h.2.1) fun h => ⟨h.1.1, h.2.2.1⟩
    have hr : Ok r' := he.imp (fun h => h.2.2) fun h => ⟨h.1.2.1, h.2.2.2⟩
    have ho : o ≠ .div := he.elim (fun h => h.1) fun h => h.2.1
    have hn : l.number ≠ none ∧ r'.number ≠ none → l.bare ∧ r'.bare :=
      fun h => he.elim (fun h => h.2) fun hf => absurd h (formed_not_ints hf.1.2.2)
    constructor
    · intro r h
      rw [step] at h
      split at h
      · rename_i e he
        simp only [Option.map_eq_some_iff] at h
        obtain ⟨y, rfl, h⟩ := h
        cases h
        unfold rulesC at he
        split_ifs at he
        exact rules_bare ho he
      · split at h
        · rename_i e he
          cases h
          unfold firstC at he
          split_ifs at he with h0
          · exact apply_bare ho (hn h0.2).1 (hn h0.2).2 he
          · exact first_bare ho he
        · rw [if_neg (fun h => ho h.1)] at h
          simp only [Option.bind_eq_bind, Option.bind_eq_some_iff] at h
          obtain ⟨p, hp, q, hq, h⟩ := h
          have kl : (p.getD l).bare := by
            cases p with
            | none => exact (ih l hl).2 hp
            | some l' => exact (ih l hl).1 l' hp
          have kr : (q.getD r').bare := by
            cases q with
            | none => exact (ih r' hr).2 hq
            | some l' => exact (ih r' hr).1 l' hq
          have fin : ∀ e, apply o (p.getD l) (q.getD r') = some e → orSelf e (s e) = some r → r.bare :=
            fun e he hy => orSelf_bare ih (.inl (apply_bare ho kl kr he)) hy
          cases p <;> cases q <;> simp only [Option.bind_eq_some_iff] at h
          · split at h
            · rename_i e he
              simp only [Option.bind_eq_some_iff] at h
              obtain ⟨y, hy, h⟩ := h
              cases h
              unfold liftC at he
              split_ifs at he
              exact orSelf_bare ih (.inl (lift_bare ho he)) hy
            · exact reorder_bare ih ho kl kr h
          all_goals
            obtain ⟨e, he, y, hy, h⟩ := h
            cases h
            exact fin e he hy
    · intro h
      rw [step] at h
      split at h
      · simp [Option.map_eq_some_iff] at h
      · split at h
        · cases h
        · rw [if_neg (fun h => ho h.1)] at h
          simp only [Option.bind_eq_bind, Option.bind_eq_some_iff] at h
          obtain ⟨p, hp, q, hq, h⟩ := h
          cases p <;> cases q <;> simp only [Option.bind_eq_some_iff] at h
          · exact ⟨ho, (ih l hl).2 hp, (ih r' hr).2 hq⟩
          all_goals
            obtain ⟨e, he, y, hy, h⟩ := h
            cases h

theorem upTo_bare {cfg : Cfg} (hc : cfg.consts = true) : ∀ k, (∀ e, Ok e → Bares (upTo cfg (fun _ => none) k) e) ∧
    ∀ a, Bares (upTo cfg (fun _ => none) k) (.c a)
  | 0 => ⟨fun e _ => ⟨(fun r h => by cases h), (fun h => by cases h)⟩, fun a => ⟨(fun r h => by cases h), (fun h => by cases h)⟩⟩
  | k + 1 => ⟨fun e he => step_bare hc (upTo_bare hc k).1 (upTo_bare hc k).2 he, fun a => ok_c hc a⟩

theorem apply_whole {o : BOp} {l r e : X} (ho : o ≠ .div) (hl : l.whole) (hr : r.whole) (h : apply o l r = some e) : e.whole := by
  have hn : ∀ {a e : X}, a.whole → opNeg a = some e → e.whole := by
    intro a e ha h
    cases a with
    | polyZ v n f => simp only [opNeg, Option.map_eq_some_iff] at h; obtain ⟨g, hg, rfl⟩ := h; trivial
    | polyR v n f => simp only [opNeg, Option.map_eq_some_iff] at h; obtain ⟨g, hg, rfl⟩ := h; trivial
    | _ => cases h; exact ha
  have nd : node o l r = some e → e.whole := by
    intro h
    unfold node at h
    split at h
    · split at h <;> (simp only [Option.map_eq_some_iff] at h; obtain ⟨g, hg, rfl⟩ := h; trivial)
    · cases h; exact ⟨ho, hl, hr⟩
  unfold apply at h
  split at h
  · cases o with
    | div => exact absurd rfl ho
    | _ => cases h; trivial
  · cases o with
    | add => simp only at h; split_ifs at h <;> first | (cases h; assumption) | exact nd h
    | sub => simp only at h; split_ifs at h <;> first | (cases h; assumption) | exact hn hr h | exact nd h
    | mul => simp only at h; split_ifs at h <;> first | (cases h; assumption) | (cases h; trivial) | exact nd h
    | div => exact absurd rfl ho

theorem build_whole : ∀ {s e : X}, s.whole → build s = some e → e.whole := by
  intro s
  induction s with
  | bin o l r ihl ihr =>
    intro e ht h
    simp only [build, Option.bind_eq_bind, Option.bind_eq_some_iff] at h
    obtain ⟨l', hl, r', hr, h⟩ := h
    exact apply_whole ht.1 (ihl ht.2.1 hl) (ihr ht.2.2 hr) h
  | neg a ih =>
    intro e ht h
    simp only [build, Option.bind_eq_bind, Option.bind_eq_some_iff] at h
    obtain ⟨a', ha, h⟩ := h
    have k := ih ht ha
    cases a' with
    | polyZ v n f => simp only [opNeg, Option.map_eq_some_iff] at h; obtain ⟨g, hg, rfl⟩ := h; trivial
    | polyR v n f => simp only [opNeg, Option.map_eq_some_iff] at h; obtain ⟨g, hg, rfl⟩ := h; trivial
    | _ => cases h; exact k
  | pow a p ih =>
    intro e ht h
    simp only [build, Option.bind_eq_bind, Option.bind_eq_some_iff] at h
    obtain ⟨a', ha, h⟩ := h
    have k := ih ht ha
    unfold opPow at h
    split at h
    · cases h
    · split_ifs at h <;> cases h <;> trivial
    · split_ifs at h <;> cases h <;> trivial
    · split_ifs at h <;> cases h <;> exact k
  | _ => intro e ht h; cases h; trivial

/-- **C100.** What `try_N` and `try_expand` make of an expression without divisions has no constants `C<..>` in it: they have all become
`double`s. -/
theorem C100_numbers {cfg : Cfg} (hc : cfg.consts = true) {s e r : X} (hs : s.whole) (h : build s = some e)
    (hr : trySimplify cfg e = some r) : r.bare :=
  orSelf_bare (upTo_bare hc _).1 (.inr ⟨build_formed h, build_whole hs h⟩) hr

theorem three_null : ((C.ofInt 3 : C) = C.null) = False := by decide +kernel

/-- `simplify(x * x)` is `pow(x, C<2>())`, for the weight 4 of the expression. -/
example : simplifyC .simplify (.bin .mul (.var ['x']) (.var ['x'])) = some (some (.pow (.var ['x']) 2)) ∧
    (X.bin .mul (.var ['x']) (.var ['x'])).weight = 4 := by
  refine ⟨?_, rfl⟩
  rw [C100_equation]
  simp [step, rulesC, firstC, X.number, first, varPower, X.isVar, Cfg.poly]

theorem simplify_var (v : List Char) : simplifyC .N (.var v) = some none := by
  rw [C100_equation]; rfl

theorem N_c (a : C) : simplifyC .N (.c a) = some (some (.dbl a.val)) := by rw [C100_equation]; rfl

theorem N_dbl (y : ℝ) : simplifyC .N (.dbl y) = some none := by rw [C100_equation]; rfl

theorem N_mul : simplifyC .N (.bin .mul (.var ['x']) (.var ['y'])) = some none := by
  rw [C100_equation]
  simp [step, rulesC, firstC, X.number, first, X.isVar, Cfg.poly, liftC, reorder, X.parts, onParts, either, simplify_var]

/-- `N(x * y + C<3>())` is `x * y + 3.0`: two variables are multiplied, which C98 does not allow. -/
example : build (.bin .add (.bin .mul (.var ['x']) (.var ['y'])) (.c (.ofInt 3))) =
      some (.bin .add (.bin .mul (.var ['x']) (.var ['y'])) (.c (.ofInt 3))) ∧
    trySimplify .N (.bin .add (.bin .mul (.var ['x']) (.var ['y'])) (.c (.ofInt 3))) =
      some (.bin .add (.bin .mul (.var ['x']) (.var ['y'])) (.dbl 3)) ∧
    (X.bin .add (.bin .mul (.var ['x']) (.var ['y'])) (.c (.ofInt 3))).orderly Cfg.N.poly ∧
    ¬ (X.bin .add (.bin .mul (.var ['x']) (.var ['y'])) (.c (.ofInt 3))).tame := by
  refine ⟨?_, ?_, ?_, ?_⟩
  · simp [build, apply, node, X.number, X.isC, three_null]
  · have h : simplifyC .N (.bin .add (.bin .mul (.var ['x']) (.var ['y'])) (.dbl 3)) = some none := by
      rw [C100_equation]
      simp [step, rulesC, rules, firstC, X.number, first, X.isVar, Cfg.poly, liftC, reorder, X.parts, onParts, either,
        N_mul, N_dbl]
    have hv : (C.ofInt 3).val = 3 := by simp [C.val, C.ofInt]
    rw [trySimplify, C100_equation]
    simp [step, rulesC, rules, firstC, X.number, first, X.isVar, Cfg.poly, N_mul, N_c, apply, node, X.isC, orSelf, hv, h]
  · refine ⟨⟨trivial, trivial, .inr (.inl ?_)⟩, trivial⟩
    intro v hv
    cases hv.1
  · rintro ⟨⟨-, -, h⟩, -⟩
    rcases h with ⟨x, h⟩ | h | h
    · have h1 := h ['x'] (.inl rfl)
      have h2 := h ['y'] (.inr rfl)
      rw [← h1] at h2
      cases h2
    · exact h _ rfl
    · exact h _ rfl

/-- **C100_numbers fails with divisions**: `N(x / x)` is `Unity`. -/
theorem C100_quotient (x : List Char) : trySimplify .N (.bin .div (.var x) (.var x)) = some (.c .unity) := by
  rw [trySimplify, C100_equation]
  simp [step, rulesC, firstC, first, X.isVar, Cfg.poly, orSelf]

end Stator.Ct.Expand
