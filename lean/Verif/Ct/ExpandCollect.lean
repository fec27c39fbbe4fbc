import Verif.Ct.ExpandSums

/-!
# Sums in several variables are collected (C98)
-/

namespace Stator.Ct.Expand

open Stator.Pol (Arr rd wr forUp zeros addOp mulPoly divConst mulVar varPow value polyOf coef)

/-! ## Specification -/

/-- The terms of a sum. -/
def X.terms : X → List X
  | .bin .add l r => l.terms ++ r.terms
  | e => [e]

/-- The variable of a polynomial. -/
def X.polyVar : X → Option (List Char)
  | .polyZ v _ _ => some v
  | .polyR v _ _ => some v
  | _ => none

/-- A sum of polynomials in pairwise different variables (a single polynomial is one, too). -/
def Tidy (e : X) : Prop := (∀ t ∈ e.terms, t.polyVar ≠ none) ∧ (e.terms.map X.polyVar).Nodup

/-- A number, a power of a variable, or a sum of polynomials in pairwise different variables. -/
def Collected (e : X) : Prop :=
  (∃ z, e = .int z) ∨ (∃ y, e = .dbl y) ∨ (∃ x, e = .var x) ∨ (∃ x p, e = .pow (.var x) p) ∨ Tidy e

/-- `t₁ + t₂ + ... + tₙ`, as it is written in C++ without parentheses; every term has only one variable. -/
inductive Chain : X → Prop
  | one {x : List Char} {s : X} : s.over x → s.exact → Chain s
  | add {x : List Char} {l r : X} : Chain l → r.over x → r.exact → Chain (.bin .add l r)

/-! ## Proofs -/

theorem tidy_of_perm {e e' : X} (h : Tidy e) (hp : (e'.terms.map X.polyVar).Perm (e.terms.map X.polyVar)) : Tidy e' := by
  refine ⟨fun t ht hn => ?_, hp.nodup_iff.2 h.2⟩
  have : none ∈ e.terms.map X.polyVar := hp.subset (List.mem_map.2 ⟨t, ht, hn⟩)
  obtain ⟨t', h1, h2⟩ := List.mem_map.1 this
  exact h.1 t' h1 h2

theorem tidy_sublist {e e' : X} (h : Tidy e) (hp : (e'.terms.map X.polyVar).Subperm (e.terms.map X.polyVar)) : Tidy e' := by
  obtain ⟨L, h1, h2⟩ := hp
  refine ⟨fun t ht hn => ?_, h1.nodup_iff.1 (h.2.sublist h2)⟩
  have : none ∈ e.terms.map X.polyVar := h2.subset (h1.symm.subset (List.mem_map.2 ⟨t, ht, hn⟩))
  obtain ⟨t', h3, h4⟩ := List.mem_map.1 this
  exact h.1 t' h3 h4

theorem terms_length (e : X) : 1 ≤ e.terms.length := by
  induction e with
  | bin o l r ihl ihr => cases o <;> simp [X.terms]; omega
  | _ => simp [X.terms]

/-- A collected sum is a polynomial or a sum. -/
theorem tidy_cases {e : X} (h : Tidy e) :
    (∃ v n f, e = .polyZ v n f) ∨ (∃ v n f, e = .polyR v n f) ∨ ∃ l r, e = .bin .add l r ∧ Tidy l ∧ Tidy r := by
  cases e with
  | polyZ v n f => exact .inl ⟨v, n, f, rfl⟩
  | polyR v n f => exact .inr (.inl ⟨v, n, f, rfl⟩)
  | bin o l r =>
    cases o with
    | add =>
      refine .inr (.inr ⟨l, r, rfl, tidy_sublist h ?_, tidy_sublist h ?_⟩)
      · simp only [X.terms, List.map_append]
        exact (List.sublist_append_left _ _).subperm
      · simp only [X.terms, List.map_append]
        exact (List.sublist_append_right _ _).subperm
    | _ => exact absurd rfl (h.1 _ (List.mem_singleton.2 rfl))
  | _ => exact absurd rfl (h.1 _ (List.mem_singleton.2 rfl))

theorem tidy_parts {l a b : X} (hp : l.parts .add = some (a, b)) : l.terms = a.terms ++ b.terms := by
  obtain rfl := parts_eq hp
  rfl

theorem tidy_none (n : ℕ) : ∀ e : X, e.terms.length ≤ n → Tidy e → Gives e none := by
  induction n with
  | zero => intro e h; have := terms_length e; omega
  | succ n ih =>
    intro e hn h
    rcases tidy_cases h with ⟨v, k, f, rfl⟩ | ⟨v, k, f, rfl⟩ | ⟨l, r, rfl, hl, hr⟩
    · exact gives_polyZ _ _ _
    · exact gives_polyR _ _ _
    · have nl := terms_length l
      have nr := terms_length r
      have len : l.terms.length + r.terms.length ≤ n + 1 := by simpa [X.terms] using hn
      obtain ⟨k1, h1⟩ := ih l (by omega) hl
      obtain ⟨k2, h2⟩ := ih r (by omega) hr
      have hdisj : ∀ a ∈ l.terms, ∀ b ∈ r.terms, a.polyVar ≠ b.polyVar := by
        intro a ha b hb hab
        have := h.2
        simp only [X.terms, List.map_append, List.nodup_append] at this
        exact this.2.2 _ (List.mem_map.2 ⟨a, ha, rfl⟩) _ (List.mem_map.2 ⟨b, hb, rfl⟩) hab
      have hrules : rules .add l r = none := by
        rcases rules_sum (.inl rfl) l r with h | ⟨x, e, he, -⟩
        · exact h
        · exfalso
          unfold rules at he
          split at he
          · rename_i u n f v m g
            have := hdisj _ (List.mem_singleton.2 rfl) _ (List.mem_singleton.2 rfl)
            simp [X.polyVar] at this
            simp [rulesZ, this] at he
          · rename_i u n f v m g
            have := hdisj _ (List.mem_singleton.2 rfl) _ (List.mem_singleton.2 rfl)
            simp [X.polyVar] at this
            simp [rulesR, this] at he
          · rename_i u n f v m g
            have := hdisj _ (List.mem_singleton.2 rfl) _ (List.mem_singleton.2 rfl)
            simp [X.polyVar] at this
            simp [rulesR, this] at he
          · rename_i u n f v m g
            have := hdisj _ (List.mem_singleton.2 rfl) _ (List.mem_singleton.2 rfl)
            simp [X.polyVar] at this
            simp [rulesR, this] at he
          · simp at he
          · simp at he
          · cases he
      have hnum : ∀ {t : X}, Tidy t → (∀ z, t ≠ .int z) ∧ ∀ y, t ≠ .dbl y := by
        intro t ht
        constructor
        · rintro z rfl; exact ht.1 _ (List.mem_singleton.2 rfl) rfl
        · rintro z rfl; exact ht.1 _ (List.mem_singleton.2 rfl) rfl
      have hfirst : first .add l r = none := by
        cases l <;> cases r <;> first
          | rfl
          | exact absurd rfl ((hnum hl).1 _)
          | exact absurd rfl ((hnum hl).2 _)
      have hlift : lift .add l r = none := by
        unfold lift
        split
        all_goals first
          | rfl
          | exact absurd rfl ((hnum hl).1 _)
          | exact absurd rfl ((hnum hl).2 _)
          | exact absurd rfl ((hnum hr).1 _)
          | exact absurd rfl ((hnum hr).2 _)
      -- one attempt
      have att : ∀ (e : X) (f : X → Option X), e.terms.length ≤ n → (e.terms.map X.polyVar).Subperm ((X.bin .add l r).terms.map X.polyVar) →
          ∃ k, ∀ m, k ≤ m → attempt (simp m) e f = some none := by
        intro e f hle hs
        obtain ⟨k, hk⟩ := ih e hle (tidy_sublist h hs)
        exact ⟨k, fun m hm => by simp [attempt, hk m hm]⟩
      have al : ∃ k, ∀ m, k ≤ m → (onParts (l.parts .add) fun a b => attempt (simp m) (.bin .add b r) fun d => apply .add a d) = some none ∧
          (onParts (l.parts .add) fun a b => attempt (simp m) (.bin .add a r) fun d => apply .add d b) = some none := by
        cases hp : l.parts .add with
        | none => exact ⟨0, fun m _ => ⟨rfl, rfl⟩⟩
        | some p =>
          obtain ⟨a, b⟩ := p
          have ht := tidy_parts hp
          have na := terms_length a
          have nb := terms_length b
          rw [ht, List.length_append] at len
          obtain ⟨k1, h1⟩ := att (.bin .add b r) (fun d => apply .add a d) (by simp [X.terms]; omega) (by
            simp only [X.terms, ht, List.map_append, List.append_assoc]
            exact (List.sublist_append_right _ _).subperm)
          obtain ⟨k2, h2⟩ := att (.bin .add a r) (fun d => apply .add d b) (by simp [X.terms]; omega) (by
            simp only [X.terms, ht, List.map_append, List.append_assoc]
            exact ((List.Sublist.refl _).append (List.sublist_append_right _ _)).subperm)
          exact ⟨max k1 k2, fun m hm => ⟨h1 m (by omega), h2 m (by omega)⟩⟩
      have ar : ∃ k, ∀ m, k ≤ m → (onParts (r.parts .add) fun b c => attempt (simp m) (.bin .add l b) fun d => apply .add d c) = some none ∧
          (onParts (r.parts .add) fun b c => attempt (simp m) (.bin .add l c) fun d => apply .add d b) = some none := by
        cases hp : r.parts .add with
        | none => exact ⟨0, fun m _ => ⟨rfl, rfl⟩⟩
        | some p =>
          obtain ⟨a, b⟩ := p
          have ht := tidy_parts hp
          have na := terms_length a
          have nb := terms_length b
          rw [ht, List.length_append] at len
          obtain ⟨k1, h1⟩ := att (.bin .add l a) (fun d => apply .add d b) (by simp [X.terms]; omega) (by
            simp only [X.terms, ht, List.map_append, ← List.append_assoc]
            exact (List.sublist_append_left _ _).subperm)
          obtain ⟨k2, h2⟩ := att (.bin .add l b) (fun d => apply .add d a) (by simp [X.terms]; omega) (by
            simp only [X.terms, ht, List.map_append]
            exact ((List.Sublist.refl _).append (List.sublist_append_right _ _)).subperm)
          exact ⟨max k1 k2, fun m hm => ⟨h1 m (by omega), h2 m (by omega)⟩⟩
      obtain ⟨k3, h3⟩ := al
      obtain ⟨k4, h4⟩ := ar
      refine gives_succ (max (max k1 k2) (max k3 k4)) fun m hm => ?_
      rw [simp]
      simp only [hrules, hfirst, h1 m (by omega), h2 m (by omega), hlift, Option.bind_eq_bind, Option.bind_some, reduceCtorEq, false_and,
        if_false, reorder, true_or, if_true, either, h3 m (by omega), h4 m (by omega)]

theorem poly_add {v : List Char} {a b : X} (ha : a.polyVar = some v) (hb : b.polyVar = some v) :
    ∃ r, rules .add a b = some (some r) ∧ r.polyVar = some v := by
  cases a with
  | polyZ u n f =>
    cases ha
    cases b with
    | polyZ w m g => cases hb; obtain ⟨r, e, -⟩ := add_poly f g; exact ⟨.polyZ v _ r, by simp [rules, rulesZ, e], rfl⟩
    | polyR w m g => cases hb; obtain ⟨r, e, -⟩ := add_poly (toR f) g; exact ⟨.polyR v _ r, by simp [rules, rulesR, e], rfl⟩
    | _ => cases hb
  | polyR u n f =>
    cases ha
    cases b with
    | polyZ w m g => cases hb; obtain ⟨r, e, -⟩ := add_poly f (toR g); exact ⟨.polyR v _ r, by simp [rules, rulesR, e], rfl⟩
    | polyR w m g => cases hb; obtain ⟨r, e, -⟩ := add_poly f g; exact ⟨.polyR v _ r, by simp [rules, rulesR, e], rfl⟩
    | _ => cases hb
  | _ => cases ha

theorem poly_none {v : List Char} {a : X} (ha : a.polyVar = some v) : Gives a none ∧ a.terms = [a] := by
  cases a with
  | polyZ u n f => exact ⟨gives_polyZ _ _ _, rfl⟩
  | polyR u n f => exact ⟨gives_polyR _ _ _, rfl⟩
  | _ => cases ha

theorem poly_number {v : List Char} {a t : X} (ha : a.polyVar = some v) (ht : (∃ z, t = .int z) ∨ ∃ y, t = .dbl y) :
    ∃ r, Gives (.bin .add a t) (some r) ∧ r.polyVar = some v := by
  rcases ht with ⟨z, rfl⟩ | ⟨y, rfl⟩
  · obtain ⟨r, e, h⟩ := poly_add (b := .polyZ v 0 ![z]) ha rfl
    refine ⟨r, ?_, h⟩
    cases a with
    | polyZ u n f => cases ha; exact gives_lift rfl rfl (by simp) (gives_polyZ _ _ _) (gives_int z) rfl (.inl (gives_rules e))
    | polyR u n f => cases ha; exact gives_lift rfl rfl (by simp) (gives_polyR _ _ _) (gives_int z) rfl (.inl (gives_rules e))
    | _ => cases ha
  · obtain ⟨r, e, h⟩ := poly_add (b := .polyR v 0 ![y]) ha rfl
    refine ⟨r, ?_, h⟩
    cases a with
    | polyZ u n f => cases ha; exact gives_lift rfl rfl (by simp) (gives_polyZ _ _ _) (gives_dbl y) rfl (.inl (gives_rules e))
    | polyR u n f => cases ha; exact gives_lift rfl rfl (by simp) (gives_polyR _ _ _) (gives_dbl y) rfl (.inl (gives_rules e))
    | _ => cases ha

theorem number_poly {v : List Char} {a t : X} (ha : a.polyVar = some v) (ht : (∃ z, t = .int z) ∨ ∃ y, t = .dbl y) :
    ∃ r, Gives (.bin .add t a) (some r) ∧ r.polyVar = some v := by
  rcases ht with ⟨z, rfl⟩ | ⟨y, rfl⟩
  · obtain ⟨r, e, h⟩ := poly_add (a := .polyZ v 0 ![z]) rfl ha
    refine ⟨r, ?_, h⟩
    cases a with
    | polyZ u n f => cases ha; exact gives_lift rfl rfl (by simp) (gives_int z) (gives_polyZ _ _ _) rfl (.inl (gives_rules e))
    | polyR u n f => cases ha; exact gives_lift rfl rfl (by simp) (gives_int z) (gives_polyR _ _ _) rfl (.inl (gives_rules e))
    | _ => cases ha
  · obtain ⟨r, e, h⟩ := poly_add (a := .polyR v 0 ![y]) rfl ha
    refine ⟨r, ?_, h⟩
    cases a with
    | polyZ u n f => cases ha; exact gives_lift rfl rfl (by simp) (gives_dbl y) (gives_polyZ _ _ _) rfl (.inl (gives_rules e))
    | polyR u n f => cases ha; exact gives_lift rfl rfl (by simp) (gives_dbl y) (gives_polyR _ _ _) rfl (.inl (gives_rules e))
    | _ => cases ha

theorem tidy_number {e : X} (h : Tidy e) : e.number = none ∧ ∀ c, e.isC c = false := by
  rcases tidy_cases h with ⟨v, k, f, rfl⟩ | ⟨v, k, f, rfl⟩ | ⟨l, r, rfl, -, -⟩ <;> exact ⟨rfl, fun _ => rfl⟩

theorem tidy_gives {e : X} (h : Tidy e) : Gives e none := tidy_none _ e le_rfl h

/-- What can be added to a collected sum without a new term: a number, or a polynomial in one of its variables. -/
def Fits (t S : X) : Prop := ((∃ z, t = .int z) ∨ ∃ y, t = .dbl y) ∨ (t.polyVar ≠ none ∧ t.polyVar ∈ S.terms.map X.polyVar)

theorem tidy_insert (n : ℕ) : ∀ (S t : X), S.terms.length ≤ n → Tidy S → Fits t S →
    ∃ r, Gives (.bin .add S t) (some r) ∧ r.terms.map X.polyVar = S.terms.map X.polyVar := by
  induction n with
  | zero => intro S t h; have := terms_length S; omega
  | succ n ih =>
    intro S t hn hS ht
    have leaf : ∀ {v : List Char}, S.polyVar = some v →
        ∃ r, Gives (.bin .add S t) (some r) ∧ r.terms.map X.polyVar = S.terms.map X.polyVar := by
      intro v hv
      have hterms := (poly_none hv).2
      obtain ⟨r, hg, hr⟩ : ∃ r, Gives (.bin .add S t) (some r) ∧ r.polyVar = some v := by
        rcases ht with ht | ⟨h0, h⟩
        · exact poly_number hv ht
        · rw [hterms] at h
          simp only [List.map_cons, List.map_nil, List.mem_singleton, hv] at h
          obtain ⟨r, e, hr⟩ := poly_add hv h
          exact ⟨r, gives_rules e, hr⟩
      refine ⟨r, hg, ?_⟩
      rw [hterms, (poly_none hr).2]
      simp [hv, hr]
    rcases tidy_cases hS with ⟨v, k, f, rfl⟩ | ⟨v, k, f, rfl⟩ | ⟨a, b, rfl, ha, hb⟩
    · exact leaf rfl
    · exact leaf rfl
    · have na := terms_length a
      have nb := terms_length b
      have len : a.terms.length + b.terms.length ≤ n + 1 := by simpa [X.terms] using hn
      have tl : Gives t none ∧ t.parts .add = none ∧ t.terms = [t] := by
        rcases ht with (⟨z, rfl⟩ | ⟨y, rfl⟩) | ⟨h0, h⟩
        · exact ⟨gives_int z, rfl, rfl⟩
        · exact ⟨gives_dbl y, rfl, rfl⟩
        · cases t with
          | polyZ u n f => exact ⟨gives_polyZ _ _ _, rfl, rfl⟩
          | polyR u n f => exact ⟨gives_polyR _ _ _, rfl, rfl⟩
          | _ => exact absurd rfl h0
      obtain ⟨⟨k2, h2⟩, pt, tt⟩ := tl
      obtain ⟨k1, h1⟩ := tidy_gives hS
      have hrules : rules .add (.bin .add a b) t = none := by cases t <;> rfl
      have hfirst : first .add (.bin .add a b) t = none := by cases t <;> rfl
      have hlift : lift .add (.bin .add a b) t = none := by cases t <;> rfl
      have pS : (X.bin .add a b).parts .add = some (a, b) := rfl
      -- the step before the reordering
      have step : ∀ i, max k1 k2 ≤ i → simp (i + 1) (.bin .add (.bin .add a b) t) = reorder (simp i) .add (.bin .add a b) t := by
        intro i hi
        rw [simp]
        simp only [hrules, hfirst, h1 i (by omega), h2 i (by omega), hlift, Option.bind_eq_bind, Option.bind_some, reduceCtorEq, false_and,
          if_false]
      by_cases hf : Fits t b
      · obtain ⟨d, ⟨k3, h3⟩, hd⟩ := ih b t (by omega) hb hf
        have td : Tidy d := tidy_of_perm hb (by rw [hd])
        have hm : (X.bin .add a d).terms.map X.polyVar = (X.bin .add a b).terms.map X.polyVar := by simp [X.terms, hd]
        obtain ⟨k4, h4⟩ := tidy_gives (tidy_of_perm hS (by rw [hm]) : Tidy (.bin .add a d))
        have hap : apply .add a d = some (.bin .add a d) := by
          rw [apply_node (tidy_number ha).2 (tidy_number td).2, node_tree (by simp [(tidy_number ha).1])]
        refine ⟨.bin .add a d, gives_succ (max (max k1 k2) (max k3 k4)) fun i hi => ?_, hm⟩
        rw [step i (by omega)]
        simp [reorder, either, onParts, pS, pt, attempt, h3 i (by omega), hap, orSelf, h4 i (by omega)]
      · have hnum : ¬ ((∃ z, t = .int z) ∨ ∃ y, t = .dbl y) := fun h => hf (.inl h)
        have hp : t.polyVar ≠ none ∧ t.polyVar ∈ (X.bin .add a b).terms.map X.polyVar := ht.resolve_left hnum
        have hnb : t.polyVar ∉ b.terms.map X.polyVar := fun h => hf (.inr ⟨hp.1, h⟩)
        have hma : t.polyVar ∈ a.terms.map X.polyVar := by
          have := hp.2
          simp only [X.terms, List.map_append, List.mem_append] at this
          exact this.resolve_right hnb
        have tbt : Tidy (.bin .add b t) := by
          refine ⟨fun u hu => ?_, ?_⟩
          · simp only [X.terms, tt, List.mem_append, List.mem_singleton] at hu
            rcases hu with hu | rfl
            · exact hb.1 u hu
            · exact hp.1
          · simp only [X.terms, tt, List.map_append, List.map_cons, List.map_nil]
            exact List.Nodup.append hb.2 (List.nodup_singleton _) (by
              intro u hu hu'
              rw [List.mem_singleton] at hu'
              exact hnb (hu' ▸ hu))
        obtain ⟨k5, h5⟩ := tidy_gives tbt
        obtain ⟨d, ⟨k3, h3⟩, hd⟩ := ih a t (by omega) ha (.inr ⟨hp.1, hma⟩)
        have td : Tidy d := tidy_of_perm ha (by rw [hd])
        have hm : (X.bin .add d b).terms.map X.polyVar = (X.bin .add a b).terms.map X.polyVar := by simp [X.terms, hd]
        obtain ⟨k4, h4⟩ := tidy_gives (tidy_of_perm hS (by rw [hm]) : Tidy (.bin .add d b))
        have hap : apply .add d b = some (.bin .add d b) := by
          rw [apply_node (tidy_number td).2 (tidy_number hb).2, node_tree (by simp [(tidy_number td).1])]
        refine ⟨.bin .add d b, gives_succ (max (max (max k1 k2) (max k3 k4)) k5) fun i hi => ?_, hm⟩
        rw [step i (by omega)]
        simp [reorder, either, onParts, pS, pt, attempt, h5 i (by omega), h3 i (by omega), hap, orSelf, h4 i (by omega)]

/-- A number, a power of a variable, or a collected sum. -/
def Coll (r : X) : Prop := (∃ x, Form x r) ∨ Tidy r

/-- A number or a collected sum. -/
def Done (r : X) : Prop := ((∃ z, r = .int z) ∨ ∃ y, r = .dbl y) ∨ Tidy r

theorem poly_tidy {v : List Char} {r : X} (h : r.polyVar = some v) : Tidy r := by
  obtain ⟨-, ht⟩ := poly_none h
  refine ⟨fun t m => ?_, ?_⟩
  · rw [ht, List.mem_singleton] at m; subst m; simp [h]
  · rw [ht]; exact List.nodup_singleton _

theorem flat_done {x : List Char} {r : X} (h : Flat x r) : Done r := by
  cases h with
  | int z => exact .inl (.inl ⟨z, rfl⟩)
  | dbl y => exact .inl (.inr ⟨y, rfl⟩)
  | polyZ n f => exact .inr (poly_tidy (v := x) rfl)
  | polyR n f => exact .inr (poly_tidy (v := x) rfl)

theorem done_coll {r : X} (h : Done r) : Coll r := by
  rcases h with (⟨z, rfl⟩ | ⟨y, rfl⟩) | h
  · exact .inl ⟨[], .flat (.int z)⟩
  · exact .inl ⟨[], .flat (.dbl y)⟩
  · exact .inr h

theorem coll_collected {r : X} (h : Coll r) : Collected r := by
  rcases h with ⟨x, h⟩ | h
  · cases h with
    | flat h =>
      rcases flat_done h with (h | h) | h
      · exact .inl h
      · exact .inr (.inl h)
      · exact .inr (.inr (.inr (.inr h)))
    | var => exact .inr (.inr (.inl ⟨x, rfl⟩))
    | pow p => exact .inr (.inr (.inr (.inl ⟨x, p, rfl⟩)))
  · exact .inr (.inr (.inr (.inr h)))

theorem coll_not_c {r : X} (h : Coll r) (c : C) : r.isC c = false := by
  rcases h with ⟨x, h⟩ | h
  · exact form_not_c h c
  · exact (tidy_number h).2 c

theorem coll_done {r : X} (h : Coll r) : ∃ r', Ready r r' ∧ Done r' ∧ (Gives r none → Done r) := by
  rcases h with ⟨x, h⟩ | h
  · obtain ⟨r', h1, h2, _, h3, h4⟩ := form_flat h
    refine ⟨r', h1, flat_done h2, fun hn => ?_⟩
    obtain rfl := ready_unique h1 (.inr ⟨hn, rfl⟩)
    exact flat_done h2
  · exact ⟨r, .inr ⟨tidy_gives h, rfl⟩, .inr h, fun _ => .inr h⟩

/-- One more term, when nothing is left to expand. -/
theorem done_add {y : List Char} {a b : X} (ha : Done a) (hb : Flat y b) :
    ∃ e r, apply .add a b = some e ∧ Ready e r ∧ Done r := by
  have hs : Side .add b := fun h => by cases h
  rcases ha with (⟨z, rfl⟩ | ⟨z, rfl⟩) | ha
  · obtain ⟨e, r, h1, h2, h3, _⟩ := flat_apply (.int z : Flat y _) hb hs
    exact ⟨e, r, h1, h2, flat_done h3⟩
  · obtain ⟨e, r, h1, h2, h3, _⟩ := flat_apply (.dbl z : Flat y _) hb hs
    exact ⟨e, r, h1, h2, flat_done h3⟩
  · refine ⟨.bin .add a b, ?_⟩
    rw [apply_node (tidy_number ha).2 (flat_not_c hb), node_tree (by simp [(tidy_number ha).1])]
    by_cases hf : Fits b a
    · obtain ⟨r, hg, hr⟩ := tidy_insert _ a b le_rfl ha hf
      exact ⟨r, rfl, .inl hg, .inr (tidy_of_perm ha (by rw [hr]))⟩
    · have ht : Tidy (.bin .add a b) := by
        rcases flat_done hb with h | h
        · exact absurd (.inl h) hf
        · have hp : b.polyVar ≠ none ∧ b.terms = [b] := by
            cases hb with
            | int z => exact absurd (.inl (.inl ⟨z, rfl⟩)) hf
            | dbl z => exact absurd (.inl (.inr ⟨z, rfl⟩)) hf
            | polyZ n f => exact ⟨by simp [X.polyVar], rfl⟩
            | polyR n f => exact ⟨by simp [X.polyVar], rfl⟩
          refine ⟨fun u hu => ?_, ?_⟩
          · simp only [X.terms, hp.2, List.mem_append, List.mem_singleton] at hu
            rcases hu with hu | rfl
            · exact ha.1 u hu
            · exact hp.1
          · simp only [X.terms, hp.2, List.map_append, List.map_cons, List.map_nil]
            refine List.Nodup.append ha.2 (List.nodup_singleton _) fun u hu hu' => ?_
            rw [List.mem_singleton] at hu'
            exact hf (.inr ⟨hp.1, hu' ▸ hu⟩)
      exact ⟨_, rfl, .inr ⟨tidy_gives ht, rfl⟩, .inr ht⟩

/-- A tree that is not a number, once its operands are known. -/
theorem tree_add {e1 e2 r1 r2 e x : X} (h1 : Ready e1 r1) (h2 : Ready e2 r2) (ha : apply .add r1 r2 = some e) (he : Ready e x) (hx : Coll x)
    (c1 : ∀ c, e1.isC c = false ∨ ¬ Gives e1 none) (c2 : ∀ c, e2.isC c = false ∨ ¬ Gives e2 none)
    (hn : ¬ (e1.number ≠ none ∧ e2.number ≠ none)) : ∃ x, Ready (.bin .add e1 e2) x ∧ Coll x := by
  rcases rules_sum (.inl rfl) e1 e2 with hr | ⟨v, q, hr, hf⟩
  · cases hf : first .add e1 e2 with
    | some q =>
      obtain ⟨v, h⟩ := first_sum (.inl rfl) hf
      exact ⟨q, .inl (gives_first hr hf), .inl ⟨v, .flat h⟩⟩
    | none =>
      by_cases hb : Gives e1 none ∧ Gives e2 none
      · obtain rfl := ready_unique h1 (.inr ⟨hb.1, rfl⟩)
        obtain rfl := ready_unique h2 (.inr ⟨hb.2, rfl⟩)
        rw [apply_node (fun c => (c1 c).resolve_right (not_not.2 hb.1)) (fun c => (c2 c).resolve_right (not_not.2 hb.2)), node_tree hn] at ha
        cases ha
        exact ⟨x, he, hx⟩
      · exact ⟨x, .inl (gives_operands hr hf (by simp) h1 h2 hb ha he), hx⟩
  · exact ⟨q, .inl (gives_rules hr), .inl ⟨v, .flat hf⟩⟩

theorem coll_number {a : X} (h : Coll a) (hn : a.number ≠ none) (x : List Char) : Flat x a := flat_number hn (coll_not_c h) x

/-- One more term. -/
theorem coll_add {y : List Char} {a b : X} (ha : Coll a) (hb : Form y b) :
    ∃ e r, apply .add a b = some e ∧ Ready e r ∧ Coll r := by
  by_cases hn : a.number ≠ none ∧ b.number ≠ none
  · obtain ⟨e, r, h1, h2, h3, _⟩ := flat_apply (o := .add) (coll_number ha hn.1 y) (flat_number hn.2 (form_not_c hb) y) (fun h => by cases h)
    exact ⟨e, r, h1, h2, .inl ⟨y, .flat h3⟩⟩
  · obtain ⟨a', ga, da, _⟩ := coll_done ha
    obtain ⟨b', gb, fb, _⟩ := form_flat hb
    obtain ⟨e, r, h1, h2, h3⟩ := done_add da fb
    obtain ⟨x, hx, cx⟩ := tree_add ga gb h1 h2 (done_coll h3) (fun c => .inl (coll_not_c ha c)) (fun c => .inl (form_not_c hb c)) hn
    exact ⟨_, x, by rw [apply_node (coll_not_c ha) (form_not_c hb), node_tree hn], hx, cx⟩

/-- One more term, with operands that are still to be expanded. -/
theorem chain_add {y : List Char} {e1 e2 r1 r2 e : X} (h1 : Ready e1 r1) (f1 : Coll r1) (h2 : Ready e2 r2) (f2 : Form y r2)
    (h : apply .add e1 e2 = some e) : ∃ r, Ready e r ∧ Coll r := by
  have nd : node .add e1 e2 = some e → ∃ r, Ready e r ∧ Coll r := by
    intro h
    by_cases hn : e1.number ≠ none ∧ e2.number ≠ none
    · obtain ⟨y1, n1⟩ := Option.ne_none_iff_exists'.1 hn.1
      obtain ⟨y2, n2⟩ := Option.ne_none_iff_exists'.1 hn.2
      simp only [node, n1, n2] at h
      split at h
      · cases h; exact ⟨_, .inr ⟨gives_int _, rfl⟩, .inl ⟨y, .flat (.int _)⟩⟩
      · cases h; exact ⟨_, .inr ⟨gives_dbl _, rfl⟩, .inl ⟨y, .flat (.dbl _)⟩⟩
    · rw [node_tree hn] at h
      cases h
      obtain ⟨e', x, a1, a2, a3⟩ := coll_add f1 f2
      refine tree_add h1 h2 a1 a2 a3 (fun c => ?_) (fun c => ?_) hn
      · by_cases hg : Gives e1 none
        · exact .inl (none_not_c hg c)
        · exact .inr hg
      · by_cases hg : Gives e2 none
        · exact .inl (none_not_c hg c)
        · exact .inr hg
  unfold apply at h
  split at h
  · cases h; exact ⟨_, .inl (gives_c _), .inl ⟨y, .flat (.dbl _)⟩⟩
  · simp only at h
    split_ifs at h
    · cases h; exact ⟨r1, h1, f1⟩
    · cases h; exact ⟨r2, h2, .inl ⟨y, f2⟩⟩
    · exact nd h

theorem build_chain {s : X} (h : Chain s) : ∀ {e : X}, build s = some e → ∃ r, Ready e r ∧ Coll r := by
  induction h with
  | one ho hx =>
    intro e he
    obtain ⟨r, hr, hf, _⟩ := build_ready ho hx he
    exact ⟨r, hr, .inl ⟨_, hf⟩⟩
  | add _ ho hx ih =>
    intro e he
    simp only [build, Option.bind_eq_bind, Option.bind_eq_some_iff] at he
    obtain ⟨l', hl, r', hr, he⟩ := he
    obtain ⟨r1, h1, f1⟩ := ih hl
    obtain ⟨r2, h2, f2, _⟩ := build_ready ho hx hr
    exact chain_add h1 f1 h2 f2 he

theorem chain_sums {s : X} (h : Chain s) : Sums s := by
  induction h with
  | one ho hx => exact .one ho hx
  | add _ ho hx ih => exact .add ih (.one ho hx)

/-- **C98.** `t₁ + t₂ + ... + tₙ`, with one variable in every term and any number of variables in all, is collected: the result is a sum
of polynomials in pairwise different variables (or a number or a power of a variable). It has the value of the sum. -/
theorem C98_collects {s e : X} (hs : Chain s) (h : build s = some e) :
    ∃ r, (∀ r', TryExpand e r' ↔ r' = r) ∧ Collected r ∧ ∀ ρ, r.val ρ = s.val ρ := by
  obtain ⟨r, hr, hc⟩ := build_chain hs h
  refine ⟨r, tryExpand_iff (x := []) hr, coll_collected hc, ?_⟩
  exact (C98_value (sums_tame (chain_sums hs)) h ((tryExpand_iff (x := []) hr _).2 rfl)).1

/-! ## Sums of sums are not collected -/

theorem two_tidy {p q : X} {u v : List Char} (huv : u ≠ v) (hp : p.polyVar = some u) (hq : q.polyVar = some v) : Tidy (.bin .add p q) := by
  refine ⟨fun t ht => ?_, ?_⟩
  · simp only [X.terms, (poly_none hp).2, (poly_none hq).2, List.mem_append, List.mem_singleton] at ht
    rcases ht with rfl | rfl
    · simp [hp]
    · simp [hq]
  · simp [X.terms, (poly_none hp).2, (poly_none hq).2, hp, hq, huv]

/-- A polynomial before a sum whose second term has the same variable. -/
theorem front_insert {u v : List Char} (huv : u ≠ v) {b c d : X} (hb : b.polyVar = some u) (hc : c.polyVar = some v) (hd : d.polyVar = some u) :
    ∃ e, e.polyVar = some u ∧ Gives (.bin .add b (.bin .add c d)) (some (.bin .add e c)) := by
  obtain ⟨e, he, hv⟩ := poly_add hb hd
  refine ⟨e, hv, ?_⟩
  obtain ⟨k1, h1⟩ := (poly_none hb).1
  obtain ⟨k2, h2⟩ := tidy_gives (two_tidy huv.symm hc hd)
  obtain ⟨k3, h3⟩ := tidy_gives (two_tidy huv hb hc)
  obtain ⟨k4, h4⟩ := gives_rules he
  obtain ⟨k5, h5⟩ := tidy_gives (two_tidy huv hv hc)
  have hap : apply .add e c = some (.bin .add e c) := by
    rw [apply_node (tidy_number (poly_tidy hv)).2 (tidy_number (poly_tidy hc)).2, node_tree (by simp [(tidy_number (poly_tidy hv)).1])]
  have pb : b.parts .add = none := by cases b <;> first | rfl | cases hb
  have hrules : rules .add b (.bin .add c d) = none := by cases b <;> rfl
  have hfirst : first .add b (.bin .add c d) = none := by cases b <;> rfl
  have hlift : lift .add b (.bin .add c d) = none := by cases b <;> rfl
  have ps : (X.bin .add c d).parts .add = some (c, d) := rfl
  refine gives_succ (max (max k1 k2) (max k3 (max k4 k5))) fun i hi => ?_
  rw [simp]
  simp only [hrules, hfirst, h1 i (by omega), h2 i (by omega), hlift, Option.bind_eq_bind, Option.bind_some, reduceCtorEq, false_and,
    if_false]
  simp [reorder, either, onParts, ps, pb, attempt, h3 i (by omega), h4 i (by omega), hap, orSelf, h5 i (by omega)]

theorem ambiguous_none {x y : List Char} (hxy : x ≠ y) {a b c d : X} (ha : a.polyVar = some x) (hb : b.polyVar = some y)
    (hc : c.polyVar = some x) (hd : d.polyVar = some y) : Gives (.bin .add (.bin .add a b) (.bin .add c d)) none := by
  have tl := two_tidy hxy ha hb
  have tr := two_tidy hxy hc hd
  obtain ⟨k1, h1⟩ := tidy_gives tl
  obtain ⟨k2, h2⟩ := tidy_gives tr
  -- the first rule
  obtain ⟨e, he, k3, h3⟩ := front_insert hxy.symm hb hc hd
  obtain ⟨f, hf, k4, h4⟩ := front_insert hxy ha he hc
  have ap1 : apply .add a (.bin .add e c) = some (.bin .add a (.bin .add e c)) := by
    rw [apply_node (tidy_number (poly_tidy ha)).2 (fun _ => rfl), node_tree (by simp [(tidy_number (poly_tidy ha)).1])]
  -- the second rule
  have fc : Fits c (.bin .add a b) := .inr ⟨by simp [hc], by simp [X.terms, (poly_none ha).2, (poly_none hb).2, ha, hb, hc]⟩
  obtain ⟨g, ⟨k5, h5⟩, hg⟩ := tidy_insert _ _ c le_rfl tl fc
  have tg : Tidy g := tidy_of_perm tl (by rw [hg])
  have fd : Fits d g := .inr ⟨by simp [hd], by rw [hg]; simp [X.terms, (poly_none ha).2, (poly_none hb).2, ha, hb, hd]⟩
  obtain ⟨w, ⟨k6, h6⟩, _⟩ := tidy_insert _ _ d le_rfl tg fd
  have ap2 : apply .add g d = some (.bin .add g d) := by
    rw [apply_node (tidy_number tg).2 (tidy_number (poly_tidy hd)).2, node_tree (by simp [(tidy_number tg).1])]
  have pl : (X.bin .add a b).parts .add = some (a, b) := rfl
  have pr : (X.bin .add c d).parts .add = some (c, d) := rfl
  refine gives_succ (max (max k1 k2) (max (max k3 k4) (max k5 k6))) fun i hi => ?_
  rw [simp]
  simp only [rules, first, lift, h1 i (by omega), h2 i (by omega), Option.bind_eq_bind, Option.bind_some, reduceCtorEq, false_and,
    if_false]
  simp [reorder, either, onParts, pl, pr, attempt, h3 i (by omega), h4 i (by omega), h5 i (by omega), h6 i (by omega), ap1, ap2, orSelf]

/-- **C98: two sums.** If each of two sums has a polynomial in `x` and one in `y`, their sum is left as it is: two of the rules for
reordering fit equally well, so neither is used. -/
theorem C98_ambiguous {x y : List Char} (hxy : x ≠ y) {a b c d : X} (ha : a.polyVar = some x) (hb : b.polyVar = some y)
    (hc : c.polyVar = some x) (hd : d.polyVar = some y) (r : X) :
    TryExpand (.bin .add (.bin .add a b) (.bin .add c d)) r ↔ r = .bin .add (.bin .add a b) (.bin .add c d) :=
  tryExpand_iff (x := []) (.inr ⟨ambiguous_none hxy ha hb hc hd, rfl⟩) r

/-- `(x + y) + (x + y)` is not collected: its expansion has four terms. -/
theorem C98_sum_of_sums {x y : List Char} (hxy : x ≠ y) :
    let s : X := .bin .add (.bin .add (.var x) (.var y)) (.bin .add (.var x) (.var y))
    build s = some s ∧ ∃ r, (∀ r', TryExpand s r' ↔ r' = r) ∧ r.terms.length = 4 ∧ ¬ Collected r := by
  intro s
  let px : X := .polyZ x 1 ![0, 1]
  let py : X := .polyZ y 1 ![0, 1]
  refine ⟨by simp [s, build, apply, node, X.number, X.isC], .bin .add (.bin .add px py) (.bin .add px py), ?_, rfl, ?_⟩
  · have one : Gives (.bin .add (.var x) (.var y)) (some (.bin .add px py)) := by
      refine gives_operands (l' := px) (r' := py) rfl rfl (by simp) (.inl (gives_var x)) (.inl (gives_var y)) ?_
        (e := .bin .add px py) (by simp [px, py, apply, node, X.number, X.isC]) (.inr ⟨tidy_gives (two_tidy hxy rfl rfl), rfl⟩)
      rintro ⟨h, _⟩; simpa using gives_unique h (gives_var x)
    refine tryExpand_iff (x := []) (.inl ?_)
    refine gives_operands (l' := .bin .add px py) (r' := .bin .add px py) rfl rfl (by simp) (.inl one) (.inl one) ?_
      (e := .bin .add (.bin .add px py) (.bin .add px py)) (by simp [apply, node, X.number, X.isC]) (.inr ⟨?_, rfl⟩)
    · rintro ⟨h, _⟩; simpa using gives_unique h one
    · exact ambiguous_none hxy rfl rfl rfl rfl
  · rintro (⟨z, h⟩ | ⟨z, h⟩ | ⟨z, h⟩ | ⟨z, p, h⟩ | h)
    · cases h
    · cases h
    · cases h
    · cases h
    · have := h.2
      simp [X.terms, X.polyVar, px, py] at this

/-! ## Examples -/

/-- A case of the theorems: `x + y + x`, with `x` and `y` collected. -/
example : ∃ s : X, s = .bin .add (.bin .add (.var ['x']) (.var ['y'])) (.var ['x']) ∧ Chain s ∧ Sums s ∧ s.tame ∧ build s = some s := by
  have h : Chain (.bin .add (.bin .add (.var ['x']) (.var ['y'])) (.var ['x'])) :=
    .add (x := ['x']) (.add (x := ['y']) (.one (x := ['x']) rfl trivial) rfl trivial) rfl trivial
  exact ⟨_, rfl, h, chain_sums h, sums_tame (chain_sums h), by simp [build, apply, node, X.number, X.isC]⟩

/-- A collected sum: `2 * x + y`. -/
example : Collected (.bin .add (.polyZ ['x'] 1 ![0, 2]) (.polyZ ['y'] 1 ![0, 1])) :=
  .inr (.inr (.inr (.inr (two_tidy (u := ['x']) (v := ['y']) (by decide) rfl rfl))))

/-- A case of `C98_value` that is not a sum: `(2.0 * (x + y)) * 3.0`. -/
example : ∃ s : X, s = .bin .mul (.bin .mul (.dbl 2) (.bin .add (.var ['x']) (.var ['y']))) (.dbl 3) ∧ s.tame ∧ build s = some s := by
  refine ⟨_, rfl, ⟨⟨trivial, ⟨trivial, trivial⟩, .inr (.inl fun v hv => hv)⟩, trivial, .inr (.inr fun v hv => hv)⟩, ?_⟩
  simp [build, apply, node, X.number, X.isC]

end Stator.Ct.Expand
