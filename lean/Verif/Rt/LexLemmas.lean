import Verif.Rt.Lex

/-!
# Numeric literals and token boundaries
-/

namespace Stator

/-- All characters are decimal digits. -/
def Digits (s : List Char) : Prop := ∀ c ∈ s, isDigit c = true

/-- Specification of a numeric literal: `digits+ [. digits*] [(e|E) [+|-] digits+]`. -/
def IsLit (s : List Char) : Prop :=
  ∃ ip fp ep : List Char, s = ip ++ fp ++ ep ∧ ip ≠ [] ∧ Digits ip ∧
    (fp = [] ∨ ∃ ds, fp = '.' :: ds ∧ Digits ds) ∧
    (ep = [] ∨ ∃ x sg ds, ep = x :: (sg ++ ds) ∧ (x = 'e' ∨ x = 'E') ∧
      (sg = [] ∨ sg = ['+'] ∨ sg = ['-']) ∧ ds ≠ [] ∧ Digits ds)

/-- The text does not go on with a character that could continue a literal. -/
def Boundary (rest : List Char) : Prop :=
  ∀ c, rest.head? = some c → isDigit c = false ∧ c ≠ '.' ∧ c ≠ 'e' ∧ c ≠ 'E'

/-- An optional exponent part. -/
def IsExp (ep : List Char) : Prop :=
  ep = [] ∨ ∃ x sg ds, ep = x :: (sg ++ ds) ∧ (x = 'e' ∨ x = 'E') ∧
      (sg = [] ∨ sg = ['+'] ∨ sg = ['-']) ∧ ds ≠ [] ∧ Digits ds

theorem digits_cons {c : Char} {s : List Char} : Digits (c :: s) ↔ isDigit c = true ∧ Digits s := by
  simp [Digits]

theorem digits_nil : Digits [] := by simp [Digits]

theorem boundary_nil : Boundary [] := by simp [Boundary]

theorem boundary_cons {c : Char} {s : List Char} :
    Boundary (c :: s) ↔ isDigit c = false ∧ c ≠ '.' ∧ c ≠ 'e' ∧ c ≠ 'E' := by
  simp [Boundary]

theorem floatLoop_tt (cs t rest : List Char) :
    floatLoop true true cs = some (t, rest) ↔ cs = t ++ rest ∧ Digits t ∧ Boundary rest := by
  induction cs generalizing t rest with
  | nil =>
    simp only [floatLoop, Option.some.injEq, Prod.mk.injEq]
    constructor
    · rintro ⟨rfl, rfl⟩; simp [digits_nil, boundary_nil]
    · rintro ⟨h, -, -⟩
      simp at h
      simp [h]
  | cons c cs ih =>
    unfold floatLoop
    by_cases h1 : c = '.'
    · subst h1
      simp only [if_true, Bool.not_true, Bool.and_false, Bool.false_eq_true, if_false]
      constructor
      · simp
      · rintro ⟨h, h2, h3⟩
        cases t with
        | nil => simp at h; subst h; simp [boundary_cons] at h3
        | cons a t => simp at h; rw [← h.1] at h2; simp [digits_cons, isDigit] at h2
    · rw [if_neg h1]
      by_cases h2 : c = 'e' ∨ c = 'E'
      · rw [if_pos h2]
        simp only [Bool.not_true, Bool.false_eq_true, if_false]
        constructor
        · simp
        · rintro ⟨h, h3, h4⟩
          cases t with
          | nil => simp at h; subst h; simp [boundary_cons] at h4; grind
          | cons a t =>
            simp at h
            rw [← h.1] at h3
            rcases h2 with rfl | rfl <;> simp [digits_cons, isDigit] at h3
      · rw [if_neg h2]
        by_cases h3 : isDigit c = true
        · rw [if_pos h3]
          constructor
          · intro h
            simp only [Option.map_eq_some_iff, Prod.exists, Prod.mk.injEq] at h
            obtain ⟨a, b, h4, rfl, rfl⟩ := h
            obtain ⟨h5, h6, h7⟩ := (ih _ _).1 h4
            exact ⟨by simp [h5], by simp [digits_cons, h3, h6], h7⟩
          · rintro ⟨h, h4, h5⟩
            cases t with
            | nil => simp at h; subst h; simp [boundary_cons, h3] at h5
            | cons a t =>
              simp at h
              rw [(ih t rest).2 ⟨h.2, (digits_cons.1 h4).2, h5⟩]
              simp [h.1]
        · rw [if_neg h3]
          simp only [Option.some.injEq, Prod.mk.injEq]
          constructor
          · rintro ⟨rfl, rfl⟩
            refine ⟨by simp, digits_nil, ?_⟩
            simp [boundary_cons]; grind
          · rintro ⟨h, h4, h5⟩
            cases t with
            | nil => simp at h; simp [h]
            | cons a t => simp at h; rw [← h.1] at h4; simp [digits_cons, h3] at h4

/-- Body of a literal after the first digit: digits, optional fraction (if `f`), optional exponent. -/
def IsTail (f : Bool) (t : List Char) : Prop :=
  ∃ ip fp ep, t = ip ++ fp ++ ep ∧ Digits ip ∧
    (fp = [] ∨ (f = true ∧ ∃ ds, fp = '.' :: ds ∧ Digits ds)) ∧ IsExp ep

theorem isTail_cons_digit {f : Bool} {c : Char} {t : List Char} (h : isDigit c = true) :
    IsTail f (c :: t) ↔ IsTail f t := by
  constructor
  · rintro ⟨ip, fp, ep, h1, h2, h3, h4⟩
    cases ip with
    | nil =>
      rcases h3 with rfl | ⟨rfl, ds, rfl, h5⟩
      · rcases h4 with rfl | ⟨x, sg, ds, rfl, h6, -⟩
        · simp at h1
        · simp at h1; rw [h1.1] at h; rcases h6 with rfl | rfl <;> simp [isDigit] at h
      · simp at h1; rw [h1.1] at h; simp [isDigit] at h
    | cons a ip =>
      simp at h1
      exact ⟨ip, fp, ep, by simp [h1.2], (digits_cons.1 h2).2, h3, h4⟩
  · rintro ⟨ip, fp, ep, rfl, h2, h3, h4⟩
    exact ⟨c :: ip, fp, ep, by simp, by simp [digits_cons, h, h2], h3, h4⟩

theorem isLit_iff_tail {c : Char} {t : List Char} (h : isDigit c = true) :
    IsLit (c :: t) ↔ IsTail true t := by
  rw [← isTail_cons_digit h]
  constructor
  · rintro ⟨ip, fp, ep, h1, h2, h3, h4, h5⟩
    refine ⟨ip, fp, ep, h1, h3, ?_, h5⟩
    simpa using h4
  · rintro ⟨ip, fp, ep, h1, h2, h3, h4⟩
    refine ⟨ip, fp, ep, h1, ?_, h2, by simpa using h3, h4⟩
    rintro rfl
    simp only [true_and] at h3
    rcases h3 with rfl | ⟨ds, rfl, h5⟩
    · rcases h4 with rfl | ⟨x, sg, ds, rfl, h6, -⟩
      · simp at h1
      · simp at h1; rw [h1.1] at h; rcases h6 with rfl | rfl <;> simp [isDigit] at h
    · simp at h1; rw [h1.1] at h; simp [isDigit] at h

theorem floatLoop_f (d : Bool) (cs t rest : List Char) :
    floatLoop d false cs = some (t, rest) ↔ cs = t ++ rest ∧ IsTail (!d) t ∧ Boundary rest := by
  induction cs generalizing d t rest with
  | nil =>
    simp only [floatLoop, Option.some.injEq, Prod.mk.injEq]
    constructor
    · rintro ⟨rfl, rfl⟩
      exact ⟨rfl, ⟨[], [], [], rfl, digits_nil, .inl rfl, .inl rfl⟩, boundary_nil⟩
    · rintro ⟨h, -, -⟩
      simp at h
      simp [h]
  | cons c cs ih =>
    unfold floatLoop
    by_cases h1 : c = '.'
    · subst h1
      rw [if_pos rfl]
      cases d
      · simp only [Bool.not_false, Bool.and_self, if_true]
        constructor
        · intro h
          simp only [Option.map_eq_some_iff, Prod.exists, Prod.mk.injEq] at h
          obtain ⟨a, b, h4, rfl, rfl⟩ := h
          obtain ⟨h5, ⟨ip, fp, ep, rfl, h7, h8, h9⟩, h10⟩ := (ih _ _ _).1 h4
          simp at h8
          subst h8
          exact ⟨by simp [h5], ⟨[], '.' :: ip, ep, by simp, digits_nil, .inr ⟨rfl, ip, rfl, h7⟩, h9⟩, h10⟩
        · rintro ⟨h, ⟨ip, fp, ep, rfl, h7, h8, h9⟩, h10⟩
          cases ip with
          | nil =>
            simp only [true_and] at h8
            rcases h8 with rfl | ⟨ds, rfl, h11⟩
            · rcases h9 with rfl | ⟨x, sg, ds, rfl, h6, -⟩
              · simp at h; subst h; simp [boundary_cons] at h10
              · simp at h; rw [← h.1] at h6; simp at h6
            · simp at h
              rw [(ih true (ds ++ ep) rest).2 ⟨by simp [h], ⟨ds, [], ep, by simp, h11, .inl rfl, h9⟩, h10⟩]
              simp
          | cons a ip => simp at h; rw [← h.1] at h7; simp [digits_cons, isDigit] at h7
      · simp only [Bool.not_true, Bool.false_and, Bool.false_eq_true, if_false]
        constructor
        · simp
        · rintro ⟨h, ⟨ip, fp, ep, rfl, h7, h8, h9⟩, h10⟩
          simp at h8
          subst h8
          cases ip with
          | nil =>
            rcases h9 with rfl | ⟨x, sg, ds, rfl, h6, -⟩
            · simp at h; subst h; simp [boundary_cons] at h10
            · simp at h; rw [← h.1] at h6; simp at h6
          | cons a ip => simp at h; rw [← h.1] at h7; simp [digits_cons, isDigit] at h7
    · rw [if_neg h1]
      by_cases h2 : c = 'e' ∨ c = 'E'
      · rw [if_pos h2]
        have key : (∃ ip fp ep, t = ip ++ fp ++ ep ∧ Digits ip ∧
            (fp = [] ∨ ((!d) = true ∧ ∃ ds, fp = '.' :: ds ∧ Digits ds)) ∧ IsExp ep) ∧
            c :: cs = t ++ rest ∧ Boundary rest →
            ∃ sg ds, t = c :: (sg ++ ds) ∧ (sg = [] ∨ sg = ['+'] ∨ sg = ['-']) ∧ ds ≠ [] ∧
              Digits ds ∧ cs = sg ++ ds ++ rest := by
          rintro ⟨⟨ip, fp, ep, rfl, h7, h8, h9⟩, h, h10⟩
          cases ip with
          | nil =>
            rcases h8 with rfl | ⟨-, ds, rfl, h11⟩
            · rcases h9 with rfl | ⟨x, sg, ds, rfl, h6, h12, h13, h14⟩
              · simp at h; subst h; simp [boundary_cons] at h10; grind
              · simp at h
                exact ⟨sg, ds, by simp [h.1], h12, h13, h14, by simp [h.2]⟩
            · simp at h; grind
          | cons a ip =>
            simp at h; rw [← h.1] at h7
            rcases h2 with rfl | rfl <;> simp [digits_cons, isDigit] at h7
        simp only [Bool.not_false, if_true]
        split
        · constructor
          · simp
          · rintro ⟨h, h3, h4⟩
            obtain ⟨sg, ds, -, -, h5, -, h6⟩ := key ⟨h3, h, h4⟩
            simp at h6; simp_all
        · rename_i s cs'
          by_cases hs : s = '+' ∨ s = '-'
          · rw [if_pos hs]
            split
            · constructor
              · simp
              · rintro ⟨h, h3, h4⟩
                obtain ⟨sg, ds, -, h7, h5, h8, h6⟩ := key ⟨h3, h, h4⟩
                rcases h7 with rfl | rfl | rfl
                · cases ds with
                  | nil => simp at h5
                  | cons a ds =>
                    simp at h6; rw [← h6.1] at h8
                    rcases hs with rfl | rfl <;> simp [digits_cons, isDigit] at h8
                · simp at h6; simp_all
                · simp at h6; simp_all
            · rename_i g cs''
              by_cases hg : isDigit g = true
              · rw [if_pos hg]
                constructor
                · intro h
                  simp only [Option.map_eq_some_iff, Prod.exists, Prod.mk.injEq] at h
                  obtain ⟨a, b, h4, rfl, rfl⟩ := h
                  obtain ⟨h5, h6, h7⟩ := (floatLoop_tt _ _ _).1 h4
                  refine ⟨by simp [h5], ⟨[], [], c :: s :: a, by simp, digits_nil, .inl rfl,
                    .inr ⟨c, [s], a, by simp, h2, by grind, ?_, h6⟩⟩, h7⟩
                  rintro rfl
                  simp at h5
                  rw [← h5, boundary_cons] at h7
                  simp [hg] at h7
                · rintro ⟨h, h3, h4⟩
                  obtain ⟨sg, ds, rfl, h7, h5, h8, h6⟩ := key ⟨h3, h, h4⟩
                  have : sg = [s] ∧ g :: cs'' = ds ++ rest := by
                    rcases h7 with rfl | rfl | rfl
                    · cases ds with
                      | nil => simp at h5
                      | cons a ds =>
                        simp at h6; rw [← h6.1] at h8
                        rcases hs with rfl | rfl <;> simp [digits_cons, isDigit] at h8
                    · simp at h6; simp [h6]
                    · simp at h6; simp [h6]
                  rw [(floatLoop_tt _ ds rest).2 ⟨this.2, h8, h4⟩]
                  simp [this.1]
              · rw [if_neg hg]
                constructor
                · simp
                · rintro ⟨h, h3, h4⟩
                  obtain ⟨sg, ds, -, h7, h5, h8, h6⟩ := key ⟨h3, h, h4⟩
                  cases ds with
                  | nil => simp at h5
                  | cons a ds =>
                    rcases h7 with rfl | rfl | rfl
                    · simp at h6; rw [← h6.1] at h8
                      rcases hs with rfl | rfl <;> simp [digits_cons, isDigit] at h8
                    · simp at h6; simp [digits_cons, ← h6.2.1, hg] at h8
                    · simp at h6; simp [digits_cons, ← h6.2.1, hg] at h8
          · rw [if_neg hs]
            by_cases hg : isDigit s = true
            · rw [if_pos hg]
              constructor
              · intro h
                simp only [Option.map_eq_some_iff, Prod.exists, Prod.mk.injEq] at h
                obtain ⟨a, b, h4, rfl, rfl⟩ := h
                obtain ⟨h5, h6, h7⟩ := (floatLoop_tt _ _ _).1 h4
                refine ⟨by simp [h5], ⟨[], [], c :: a, by simp, digits_nil, .inl rfl,
                    .inr ⟨c, [], a, by simp, h2, by grind, ?_, h6⟩⟩, h7⟩
                rintro rfl
                simp at h5
                rw [← h5, boundary_cons] at h7
                simp [hg] at h7
              · rintro ⟨h, h3, h4⟩
                obtain ⟨sg, ds, rfl, h7, h5, h8, h6⟩ := key ⟨h3, h, h4⟩
                have : sg = [] ∧ s :: cs' = ds ++ rest := by
                  rcases h7 with rfl | rfl | rfl
                  · simpa using h6
                  · simp at h6; simp [h6.1] at hs
                  · simp at h6; simp [h6.1] at hs
                rw [(floatLoop_tt _ ds rest).2 ⟨this.2, h8, h4⟩]
                simp [this.1]
            · rw [if_neg hg]
              constructor
              · simp
              · rintro ⟨h, h3, h4⟩
                obtain ⟨sg, ds, -, h7, h5, h8, h6⟩ := key ⟨h3, h, h4⟩
                rcases h7 with rfl | rfl | rfl
                · cases ds with
                  | nil => simp at h5
                  | cons a ds => simp at h6; simp [digits_cons, ← h6.1, hg] at h8
                · simp at h6; simp [h6.1] at hs
                · simp at h6; simp [h6.1] at hs
      · rw [if_neg h2]
        by_cases h3 : isDigit c = true
        · rw [if_pos h3]
          constructor
          · intro h
            simp only [Option.map_eq_some_iff, Prod.exists, Prod.mk.injEq] at h
            obtain ⟨a, b, h4, rfl, rfl⟩ := h
            obtain ⟨h5, h6, h7⟩ := (ih _ _ _).1 h4
            exact ⟨by simp [h5], (isTail_cons_digit h3).2 h6, h7⟩
          · rintro ⟨h, h4, h5⟩
            cases t with
            | nil => simp at h; subst h; simp [boundary_cons, h3] at h5
            | cons a t =>
              simp at h
              rw [← h.1] at h4
              rw [(ih d t rest).2 ⟨h.2, (isTail_cons_digit h3).1 h4, h5⟩]
              simp [h.1]
        · rw [if_neg h3]
          simp only [Option.some.injEq, Prod.mk.injEq]
          constructor
          · rintro ⟨rfl, rfl⟩
            refine ⟨by simp, ⟨[], [], [], rfl, digits_nil, .inl rfl, .inl rfl⟩, ?_⟩
            simp [boundary_cons]; grind
          · rintro ⟨h, ⟨ip, fp, ep, rfl, h7, h8, h9⟩, h10⟩
            cases ip with
            | nil =>
              rcases h8 with rfl | ⟨-, ds, rfl, h11⟩
              · rcases h9 with rfl | ⟨x, sg, ds, rfl, h6, -⟩
                · simp at h; simp [h]
                · simp at h; grind
              · simp at h; grind
            | cons a ip => simp at h; rw [← h.1] at h7; simp [digits_cons, h3] at h7

end Stator
