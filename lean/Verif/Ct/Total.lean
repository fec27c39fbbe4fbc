import Verif.Ct.SameExpand

/-!
# Expressions that `simplify`, `N` and `expand` can always be used with (C100)
-/

namespace Stator.Ct.Expand

open Stator.Pol (Arr)

/-- Sums, differences, products, negations and powers of variables: no divisions, and no powers of anything else. -/
def X.easy : X → Prop
  | .bin o l r => o ≠ .div ∧ l.easy ∧ r.easy
  | .neg a => a.easy
  | .pow a _ => a.isVar = true
  | _ => True

theorem opNeg_easy {a : X} (ha : a.easy) : ∃ e, opNeg a = some e ∧ e.easy := by
  obtain ⟨e, he⟩ := opNeg_some a
  refine ⟨e, he, ?_⟩
  cases a with
  | polyZ v n f => simp only [opNeg, Option.map_eq_some_iff] at he; obtain ⟨g, hg, rfl⟩ := he; trivial
  | polyR v n f => simp only [opNeg, Option.map_eq_some_iff] at he; obtain ⟨g, hg, rfl⟩ := he; trivial
  | _ => cases he; exact ha

theorem apply_easy {o : BOp} {l r : X} (ho : o ≠ .div) (hl : l.easy) (hr : r.easy) : ∃ e, apply o l r = some e ∧ e.easy := by
  obtain ⟨e, h⟩ := apply_some ho l r
  refine ⟨e, h, ?_⟩
  have nd : node o l r = some e → e.easy := by
    intro h
    unfold node at h
    split at h
    · split at h <;> (simp only [Option.map_eq_some_iff] at h; obtain ⟨g, hg, rfl⟩ := h; trivial)
    · cases h; exact ⟨ho, hl, hr⟩
  have hn : opNeg r = some e → e.easy := by
    intro h
    obtain ⟨e', he', hq⟩ := opNeg_easy hr
    rw [h] at he'; cases he'; exact hq
  unfold apply at h
  split at h
  · cases o with
    | div => exact absurd rfl ho
    | _ => cases h; trivial
  · cases o with
    | add => simp only at h; split_ifs at h <;> first | (cases h; assumption) | exact nd h
    | sub => simp only at h; split_ifs at h <;> first | (cases h; assumption) | exact hn h | exact nd h
    | mul => simp only at h; split_ifs at h <;> first | (cases h; assumption) | (cases h; trivial) | exact nd h
    | div => exact absurd rfl ho

theorem rules_total {o : BOp} {l r : X} (ho : o ≠ .div) : rules o l r ≠ some none := by
  have z {u v : List Char} {n m : ℕ} (f : Arr ℤ n) (g : Arr ℤ m) : rulesZ o u v f g ≠ some none := by
    cases o with
    | add => obtain ⟨a, ha, -⟩ := Pol.add_spec (· + ·) f g; simp [rulesZ, ha]
    | sub => obtain ⟨a, ha, -⟩ := Pol.add_spec (· - ·) f g; simp [rulesZ, ha]
    | mul => obtain ⟨a, ha, -⟩ := Pol.mulPoly_spec f g; simp [rulesZ, ha]
    | div => exact absurd rfl ho
  have q {u v : List Char} {n m : ℕ} (f : Arr ℝ n) (g : Arr ℝ m) : rulesR o u v f g ≠ some none := by
    cases o with
    | add => obtain ⟨a, ha, -⟩ := Pol.add_spec (· + ·) f g; simp [rulesR, ha]
    | sub => obtain ⟨a, ha, -⟩ := Pol.add_spec (· - ·) f g; simp [rulesR, ha]
    | mul => obtain ⟨a, ha, -⟩ := Pol.mulPoly_spec f g; simp [rulesR, ha]
    | div => exact absurd rfl ho
  unfold rules
  split
  · exact z _ _
  · exact q _ _
  · exact q _ _
  · exact q _ _
  · rename_i u n f v
    obtain ⟨a, ha, -⟩ := Pol.mulVar_spec f
    split_ifs <;> simp [ha]
  · rename_i u n f v
    obtain ⟨a, ha, -⟩ := Pol.mulVar_spec f
    split_ifs <;> simp [ha]
  · simp

theorem rules_easy {o : BOp} {l r e : X} (ho : o ≠ .div) (h : rules o l r = some (some e)) : e.easy := by
  have z {u v : List Char} {n m : ℕ} {f : Arr ℤ n} {g : Arr ℤ m} (h : rulesZ o u v f g = some (some e)) : e.easy := by
    cases o <;> cases m <;> simp [rulesZ] at h
    all_goals
      obtain ⟨-, g, -, rfl⟩ := h
      trivial
  have q {u v : List Char} {n m : ℕ} {f : Arr ℝ n} {g : Arr ℝ m} (h : rulesR o u v f g = some (some e)) : e.easy := by
    cases o <;> cases m <;> simp [rulesR] at h
    all_goals
      obtain ⟨-, g, -, rfl⟩ := h
      trivial
  unfold rules at h
  split at h
  · exact z h
  · exact q h
  · exact q h
  · exact q h
  · split_ifs at h; simp only [Option.some.injEq, Option.map_eq_some_iff] at h; obtain ⟨g, hg, rfl⟩ := h; trivial
  · split_ifs at h; simp only [Option.some.injEq, Option.map_eq_some_iff] at h; obtain ⟨g, hg, rfl⟩ := h; trivial
  · cases h

theorem first_easy {o : BOp} {l r e : X} (h : first o l r = some e) : e.easy := by
  have vp : ∀ u p, (varPower u p).easy := by
    intro u p; unfold varPower; split_ifs
    · trivial
    · exact rfl
  unfold first at h
  split at h
  iterate 8 (cases h; trivial)
  · split_ifs at h; cases h; exact vp _ _
  · split_ifs at h; cases h; exact vp _ _
  · split_ifs at h; cases h; exact vp _ _
  · split_ifs at h; cases h; trivial
  · split_ifs at h; cases h; trivial
  · cases h

theorem lift_easy {o : BOp} {l r e : X} (ho : o ≠ .div) (h : lift o l r = some e) : e.easy := by
  unfold lift at h
  split at h
  all_goals first | (cases h; done) | (cases h; exact ⟨ho, trivial, trivial⟩)

/-- `simplify` can be used with `e`, and gives an expression of the same kind. -/
def Easy (s : X → Option (Option X)) (e : X) : Prop := ∃ q, s e = some q ∧ ∀ r, q = some r → r.easy

variable {s : X → Option (Option X)}

theorem easy_orSelf {e : X} (he : e.easy) (h : Easy s e) : ∃ y, orSelf e (s e) = some y ∧ y.easy := by
  obtain ⟨q, hq, hr⟩ := h
  refine ⟨q.getD e, by simp [orSelf, hq], ?_⟩
  cases q with
  | none => exact he
  | some r => exact hr r rfl

theorem easy_attempt {e : X} {f : X → Option X} {n : ℕ} (ih : ∀ e : X, e.easy → e.weight < n → Easy s e)
    (hl : ∀ e : X, e.weight < n → Lowers s e) (he : e.easy) (hn : e.weight < n)
    (hf : ∀ d : X, d.easy → d.weight < e.weight → ∃ e', f d = some e' ∧ e'.easy ∧ e'.weight < n) : Easy (fun e => attempt s e f) e := by
  obtain ⟨q, hq, hr⟩ := ih e he hn
  cases q with
  | none => exact ⟨none, by simp [attempt, hq], fun r h => by cases h⟩
  | some d =>
    obtain ⟨e', h1, h2, h3⟩ := hf d (hr d rfl) (hl e hn d hq)
    obtain ⟨y, hy, hy'⟩ := easy_orSelf h2 (ih e' h2 h3)
    exact ⟨some y, by simp [attempt, hq, h1, hy], fun r h => by cases h; exact hy'⟩

theorem easy_reorder {o : BOp} {l r : X} (ho : o ≠ .div) (ih : ∀ e : X, e.easy → e.weight < l.weight + r.weight → Easy s e)
    (hl : ∀ e : X, e.weight < l.weight + r.weight → Lowers s e) (el : l.easy) (er : r.easy) :
    ∃ q, reorder s o l r = some q ∧ ∀ x, q = some x → x.easy := by
  have r1 : ∃ q, (onParts (l.parts o) fun a b => attempt s (.bin o b r) (fun d => apply o a d)) = some q ∧ ∀ x, q = some x → x.easy := by
    cases hp : l.parts o with
    | none => exact ⟨none, rfl, fun x h => by cases h⟩
    | some p =>
      obtain ⟨a, b⟩ := p
      obtain rfl := parts_eq hp
      have wa := weight_pos a; have wb := weight_pos b
      refine easy_attempt (e := .bin o b r) ih hl ⟨ho, el.2.2, er⟩ (by simp only [X.weight]; omega) fun d hd hw => ?_
      obtain ⟨e', h1, h2⟩ := apply_easy ho el.2.1 hd
      exact ⟨e', h1, h2, by have := apply_weight h1; simp only [X.weight] at hw ⊢; omega⟩
  have r2 : ∃ q, (onParts (r.parts o) fun b c => attempt s (.bin o l b) (fun d => apply o d c)) = some q ∧ ∀ x, q = some x → x.easy := by
    cases hp : r.parts o with
    | none => exact ⟨none, rfl, fun x h => by cases h⟩
    | some p =>
      obtain ⟨a, b⟩ := p
      obtain rfl := parts_eq hp
      have wa := weight_pos a; have wb := weight_pos b
      refine easy_attempt (e := .bin o l a) ih hl ⟨ho, el, er.2.1⟩ (by simp only [X.weight]; omega) fun d hd hw => ?_
      obtain ⟨e', h1, h2⟩ := apply_easy ho hd er.2.2
      exact ⟨e', h1, h2, by have := apply_weight h1; simp only [X.weight] at hw ⊢; omega⟩
  have r3 : ∃ q, (onParts (l.parts o) fun a b => attempt s (.bin o a r) (fun d => apply o d b)) = some q ∧ ∀ x, q = some x → x.easy := by
    cases hp : l.parts o with
    | none => exact ⟨none, rfl, fun x h => by cases h⟩
    | some p =>
      obtain ⟨a, b⟩ := p
      obtain rfl := parts_eq hp
      have wa := weight_pos a; have wb := weight_pos b
      refine easy_attempt (e := .bin o a r) ih hl ⟨ho, el.2.1, er⟩ (by simp only [X.weight]; omega) fun d hd hw => ?_
      obtain ⟨e', h1, h2⟩ := apply_easy ho hd el.2.2
      exact ⟨e', h1, h2, by have := apply_weight h1; simp only [X.weight] at hw ⊢; omega⟩
  have r4 : ∃ q, (onParts (r.parts o) fun b c => attempt s (.bin o l c) (fun d => apply o d b)) = some q ∧ ∀ x, q = some x → x.easy := by
    cases hp : r.parts o with
    | none => exact ⟨none, rfl, fun x h => by cases h⟩
    | some p =>
      obtain ⟨a, b⟩ := p
      obtain rfl := parts_eq hp
      have wa := weight_pos a; have wb := weight_pos b
      refine easy_attempt (e := .bin o l b) ih hl ⟨ho, el, er.2.2⟩ (by simp only [X.weight]; omega) fun d hd hw => ?_
      obtain ⟨e', h1, h2⟩ := apply_easy ho hd er.2.1
      exact ⟨e', h1, h2, by have := apply_weight h1; simp only [X.weight] at hw ⊢; omega⟩
  obtain ⟨q1, e1, h1⟩ := r1
  obtain ⟨q2, e2, h2⟩ := r2
  obtain ⟨q3, e3, h3⟩ := r3
  obtain ⟨q4, e4, h4⟩ := r4
  unfold reorder
  rw [e1, e2, e3, e4]
  split_ifs
  · cases q1 with
    | some x =>
      cases q2 with
      | some y => exact ⟨none, rfl, fun x h => by cases h⟩
      | none => exact ⟨some x, rfl, h1⟩
    | none =>
      cases q2 with
      | some y => exact ⟨some y, rfl, h2⟩
      | none =>
        cases q3 with
        | some x =>
          cases q4 with
          | some y => exact ⟨none, rfl, fun x h => by cases h⟩
          | none => exact ⟨some x, rfl, h3⟩
        | none =>
          cases q4 with
          | some y => exact ⟨some y, rfl, h4⟩
          | none => exact ⟨none, rfl, fun x h => by cases h⟩
  · exact ⟨none, rfl, fun x h => by cases h⟩

theorem easy_step {cfg : Cfg} {e : X} (he : e.easy) (ih : ∀ e' : X, e'.easy → e'.weight < e.weight → Easy s e')
    (hl : ∀ e' : X, e'.weight < e.weight → Lowers s e') : Easy (step cfg s) e := by
  cases e with
  | c a => by_cases h : cfg.consts = true <;> simp [Easy, step, h, X.easy]
  | int z => exact ⟨none, rfl, fun r h => by cases h⟩
  | dbl y => exact ⟨none, rfl, fun r h => by cases h⟩
  | polyZ v n f => exact ⟨none, rfl, fun r h => by cases h⟩
  | polyR v n f => exact ⟨none, rfl, fun r h => by cases h⟩
  | var v => by_cases h : cfg.poly = true <;> simp [Easy, step, h, X.easy]
  | neg a =>
    obtain ⟨q, hq, hr⟩ := ih a he (by simp [X.weight])
    cases q with
    | none => exact ⟨none, by simp [step, hq], fun r h => by cases h⟩
    | some a' =>
      obtain ⟨e', h1, h2⟩ := opNeg_easy (hr a' rfl)
      have w1 := opNeg_weight h1
      have w2 := hl a (by simp [X.weight]) a' hq
      obtain ⟨y, hy, hy'⟩ := easy_orSelf h2 (ih e' h2 (by simp only [X.weight]; omega))
      exact ⟨some y, by simp [step, hq, h1, hy], fun r h => by cases h; exact hy'⟩
  | pow a p =>
    cases a <;> simp [X.easy, X.isVar] at he
    rename_i v
    obtain ⟨f, hf, -⟩ := Pol.varPow_spec (K := ℤ) p
    by_cases h : cfg.poly = true <;> simp [Easy, step, h, hf, X.easy]
  | bin o l r' =>
    obtain ⟨ho, el, er⟩ := he
    have wl := weight_pos l
    have wr := weight_pos r'
    simp only [X.weight] at ih hl
    obtain ⟨p, hp, hp'⟩ := ih l el (by omega)
    obtain ⟨q, hq, hq'⟩ := ih r' er (by omega)
    have fin : ∀ l' r2, l'.easy → r2.easy → l'.weight + r2.weight < l.weight + r'.weight →
        ∃ z, ((apply o l' r2).bind fun e => (orSelf e (s e)).bind fun y => some (some y)) = some z ∧ ∀ r, z = some r → r.easy := by
      intro l' r2 h1 h2 hw
      obtain ⟨e', h3, h4⟩ := apply_easy ho h1 h2
      have := apply_weight h3
      obtain ⟨y, hy, hy'⟩ := easy_orSelf h4 (ih e' h4 (by omega))
      exact ⟨some y, by simp [h3, hy], fun r h => by cases h; exact hy'⟩
    unfold Easy
    rw [step]
    cases hR : rulesC cfg o l r' with
    | some z =>
      unfold rulesC at hR
      split_ifs at hR
      cases z with
      | none => exact absurd hR (rules_total ho)
      | some e => exact ⟨some e, rfl, fun r h => by cases h; exact rules_easy ho hR⟩
    | none =>
      cases hF : firstC o l r' with
      | some e =>
        refine ⟨some e, rfl, fun r h => ?_⟩
        cases h
        unfold firstC at hF
        split_ifs at hF
        · obtain ⟨e', h1, h2⟩ := apply_easy ho el er
          rw [hF] at h1; cases h1; exact h2
        · exact first_easy hF
      | none =>
        simp only
        rw [if_neg (fun h => ho h.1), hp, hq]
        cases p with
        | none =>
          cases q with
          | none =>
            simp only [Option.bind_eq_bind, Option.bind_some]
            cases hL : liftC cfg o l r' with
            | none => exact easy_reorder ho ih hl el er
            | some e =>
              have hw := liftC_weight hL
              have he : e.easy := by
                unfold liftC at hL
                split_ifs at hL
                exact lift_easy ho hL
              obtain ⟨y, hy, hy'⟩ := easy_orSelf he (ih e he hw)
              exact ⟨some y, by simp [hy], fun r h => by cases h; exact hy'⟩
          | some r2 => exact fin l r2 el (hq' r2 rfl) (by have := hl r' (by omega) r2 hq; omega)
        | some l2 =>
          have := hl l (by omega) l2 hp
          cases q with
          | none => exact fin l2 r' (hp' l2 rfl) er (by omega)
          | some r2 => exact fin l2 r2 (hp' l2 rfl) (hq' r2 rfl) (by have := hl r' (by omega) r2 hq; omega)

theorem easy_simplify (cfg : Cfg) : ∀ (n : ℕ) (e : X), e.weight ≤ n → e.easy → Easy (simplifyC cfg) e
  | 0, e, h, _ => absurd h (by have := weight_pos e; omega)
  | n + 1, e, h, he => by
    have := easy_step (cfg := cfg) he (fun e' h1 h2 => easy_simplify cfg n e' (by omega) h1) fun e' _ => simplifyC_lowers cfg e'
    unfold Easy at this ⊢
    rwa [C100_equation]

/-- **C100.** `try_simplify`, `try_N` and `try_expand` compile for every expression without divisions whose powers are of variables. -/
theorem C100_total (cfg : Cfg) {e : X} (he : e.easy) : ∃ r, trySimplify cfg e = some r ∧ r.easy :=
  easy_orSelf he (easy_simplify cfg _ e le_rfl he)

/-- `x * y - pow(x, 3)`. -/
example : (X.bin .sub (.bin .mul (.var ['x']) (.var ['y'])) (.pow (.var ['x']) 3)).easy :=
  ⟨by simp, ⟨by simp, trivial, trivial⟩, rfl⟩

/-- `simplify` does not compile for the power of a sum of variables. -/
theorem C100_power_fails : trySimplify .simplify (.pow (.bin .add (.var ['x']) (.var ['y'])) 2) = none := by
  have hv : ∀ v, simplifyC .simplify (.var v) = some none := fun v => by rw [C100_equation]; rfl
  have ha : simplifyC .simplify (.bin .add (.var ['x']) (.var ['y'])) = some none := by
    rw [C100_equation]
    simp [step, rulesC, firstC, X.number, first, X.isVar, Cfg.poly, liftC, reorder, X.parts, onParts, either, hv]
  have hm : simplifyC .simplify (.bin .mul (.bin .add (.var ['x']) (.var ['y'])) (.bin .add (.var ['x']) (.var ['y']))) = some none := by
    rw [C100_equation]
    simp [step, rulesC, rules, firstC, X.number, first, X.isVar, Cfg.poly, liftC, reorder, X.parts, onParts, either, ha]
  rw [trySimplify, C100_equation]
  simp [step, ha, powSub, apply, node, X.number, X.isC, hm, orSelf]

end Stator.Ct.Expand
