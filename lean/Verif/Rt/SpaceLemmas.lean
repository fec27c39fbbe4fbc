import Verif.Rt.ParserFacts

/-!
# Tokenization of concatenated texts (helper lemmas)
-/

namespace Stator

/-- The text does not start with a character that could continue a number or a word. -/
def Sep (r : List Char) : Prop :=
  ∀ x, r.head? = some x → isDigit x = false ∧ x ≠ '.' ∧ isAlpha x = false

theorem sep_nil : Sep [] := by simp [Sep]

theorem sep_cons {c : Char} {r : List Char} :
    Sep (c :: r) ↔ isDigit c = false ∧ c ≠ '.' ∧ isAlpha c = false := by simp [Sep]

theorem sep_space (b : List Char) : Sep (' ' :: b) := by
  rw [sep_cons]; decide

theorem Sep.boundary {r : List Char} (h : Sep r) : Boundary r := by
  intro c hc
  obtain ⟨h1, h2, h3⟩ := h c hc
  refine ⟨h1, h2, ?_, ?_⟩ <;> (rintro rfl; simp [isAlpha] at h3)

theorem Boundary.append {a r : List Char} (h : Boundary a) (hr : Boundary r) : Boundary (a ++ r) := by
  cases a with
  | nil => simpa using hr
  | cons x a => rw [boundary_cons] at h; simpa [boundary_cons] using h

theorem takeWhile_append_sep (a r : List Char) (hr : Sep r) :
    (a ++ r).takeWhile isAlpha = a.takeWhile isAlpha ∧
    (a ++ r).dropWhile isAlpha = a.dropWhile isAlpha ++ r := by
  induction a with
  | nil =>
    cases r with
    | nil => simp
    | cons c r =>
      have := (sep_cons.1 hr).2.2
      simp [List.takeWhile, List.dropWhile, this]
  | cons x a ih =>
    by_cases h : isAlpha x = true
    · simp [List.takeWhile, List.dropWhile, h, ih]
    · simp [List.takeWhile, List.dropWhile, h]

theorem symTable_single (c : Char) (h : c = '\u00c2' ∨ c = '\u00c3') : [c] ∉ symTable := by
  rcases h with rfl | rfl <;> decide

/-- A recognised token stays the same when the text is continued by a separator. -/
theorem lexOne_append (c : Char) (a r : List Char) (hr : Sep r) (h : (lexOne c a).1 ≠ .bad) :
    lexOne c (a ++ r) = ((lexOne c a).1, (lexOne c a).2 ++ r) := by
  unfold lexOne at h ⊢
  by_cases hd : isDigit c = true
  · simp only [hd, if_true] at h ⊢
    cases hf : floatLoop false false a with
    | none => simp [hf] at h
    | some p =>
      obtain ⟨t, rest⟩ := p
      obtain ⟨h1, h2, h3⟩ := (floatLoop_f _ _ _ _).1 hf
      rw [(floatLoop_f false (a ++ r) t (rest ++ r)).2
        ⟨by simp [h1], h2, h3.append hr.boundary⟩]
  · simp only [hd, Bool.false_eq_true, if_false] at h ⊢
    by_cases ha : isAlpha c = true
    · simp only [ha, if_true]
      rw [(takeWhile_append_sep a r hr).1, (takeWhile_append_sep a r hr).2]
    · simp only [ha, Bool.false_eq_true, if_false] at h ⊢
      by_cases hc : c = '\u00c2' ∨ c = '\u00c3'
      · simp only [hc, if_true] at h ⊢
        cases a with
        | nil => simp [symTable_single c hc] at h
        | cons x a =>
          simp only [List.take_succ_cons, List.take_zero, List.drop_succ_cons, List.drop_zero,
            List.cons_append] at h ⊢
          split at h
          · rename_i h1; simp [h1]
          · simp at h
      · simp only [hc, if_false] at h ⊢
        split at h
        · rename_i h1; simp [h1]
        · simp at h

theorem isTail_no_space {f : Bool} {t : List Char} (h : IsTail f t) : ' ' ∉ t := by
  obtain ⟨ip, fp, ep, rfl, h1, h2, h3⟩ := h
  have hd : ∀ s, Digits s → ' ' ∉ s := fun s hs hm => by
    have := hs _ hm; simp [isDigit] at this
  simp only [List.mem_append, not_or]
  refine ⟨⟨hd _ h1, ?_⟩, ?_⟩
  · rcases h2 with rfl | ⟨-, ds, rfl, h⟩
    · simp
    · simp [hd _ h]
  · rcases h3 with rfl | ⟨x, sg, ds, rfl, hx, hs, -, h⟩
    · simp
    · simp only [List.mem_cons, List.mem_append, not_or]
      refine ⟨?_, ?_, hd _ h⟩
      · rcases hx with rfl | rfl <;> decide
      · rcases hs with rfl | rfl | rfl <;> decide

theorem append_space_split {a b t rest : List Char} (h : a ++ ' ' :: b = t ++ rest)
    (ht : ' ' ∉ t) : ∃ a', a = t ++ a' ∧ rest = a' ++ ' ' :: b := by
  induction a generalizing t with
  | nil =>
    cases t with
    | nil => exact ⟨[], by simp, by simpa using h.symm⟩
    | cons x t => simp at h; simp [← h.1] at ht
  | cons y a ih =>
    cases t with
    | nil => exact ⟨y :: a, by simp, by simpa using h.symm⟩
    | cons x t =>
      simp at h ht
      obtain ⟨a', h1, h2⟩ := ih h.2 (by simp [ht.2])
      exact ⟨a', by simp [h.1, h1], h2⟩

/-- A text at which `consume` throws still makes it throw when continued by a blank. -/
theorem lexOne_bad_space (c : Char) (a b : List Char) (h : (lexOne c a).1 = .bad) :
    (lexOne c (a ++ ' ' :: b)).1 = .bad := by
  unfold lexOne at h ⊢
  by_cases hd : isDigit c = true
  · simp only [hd, if_true] at h ⊢
    cases hf : floatLoop false false (a ++ ' ' :: b) with
    | none => rfl
    | some p =>
      obtain ⟨t, rest⟩ := p
      obtain ⟨h1, h2, h3⟩ := (floatLoop_f _ _ _ _).1 hf
      obtain ⟨a', rfl, rfl⟩ := append_space_split h1 (isTail_no_space h2)
      have : Boundary a' := by
        cases a' with
        | nil => exact boundary_nil
        | cons x a' => simpa [boundary_cons] using h3
      rw [(floatLoop_f false (t ++ a') t a').2 ⟨rfl, h2, this⟩] at h
      simp at h
  · simp only [hd, Bool.false_eq_true, if_false] at h ⊢
    by_cases ha : isAlpha c = true
    · simp [ha] at h
    · simp only [ha, Bool.false_eq_true, if_false] at h ⊢
      by_cases hc : c = '\u00c2' ∨ c = '\u00c3'
      · simp only [hc, if_true] at h ⊢
        cases a with
        | nil =>
          have : [c, ' '] ∉ symTable := by rcases hc with rfl | rfl <;> decide
          simp [this]
        | cons x a =>
          simp only [List.take_succ_cons, List.take_zero, List.drop_succ_cons, List.drop_zero,
            List.cons_append] at h ⊢
          split at h
          · simp at h
          · rename_i h1; simp [h1]
      · simp only [hc, if_false] at h ⊢
        split at h
        · simp at h
        · rename_i h1; simp [h1]

/-- Tokens of a text continued by a separator. -/
theorem lex_append_sep (a r : List Char) (hr : Sep r) (h : Tok.bad ∉ lex a) :
    lex (a ++ r) = lex a ++ lex r := by
  induction a using lex_ind with
  | nil => simp [lex_nil]
  | space cs ih => rw [lex_space] at *; rw [List.cons_append, lex_space, ih h]
  | bad c cs hc hb => rw [lex_cons c cs hc] at h; simp [hb] at h
  | tok c cs hc hb ih =>
    rw [lex_cons c cs hc, if_neg hb] at h ⊢
    simp only [List.mem_cons, not_or] at h
    rw [List.cons_append, lex_cons _ _ hc, lexOne_append c cs r hr hb]
    simp only [hb, if_false, List.cons_append]
    rw [ih h.2]

/-- Tokens of a text that contains a blank. -/
theorem lex_split (a b : List Char) :
    lex (a ++ ' ' :: b) = if .bad ∈ lex a then lex a else lex a ++ lex b := by
  induction a using lex_ind with
  | nil => simp [lex_nil, lex_space]
  | space cs ih => rw [List.cons_append, lex_space, lex_space, ih]
  | bad c cs hc hb =>
    rw [lex_cons c cs hc, if_pos hb, List.cons_append, lex_cons _ _ hc,
      if_pos (lexOne_bad_space c cs b hb)]
    simp
  | tok c cs hc hb ih =>
    rw [lex_cons c cs hc, if_neg hb, List.cons_append, lex_cons _ _ hc,
      lexOne_append c cs _ (sep_space b) hb]
    simp only [hb, if_false, List.mem_cons]
    rw [ih]
    have : Tok.bad ≠ (lexOne c cs).1 := fun h => hb h.symm
    simp only [this, false_or]
    split <;> simp

end Stator
