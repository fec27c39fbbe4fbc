import Verif.Rt.PrecLemmas

/-!
# Properties of the expression parser: C01, C03, C04, C05, C06

`parse L s` is `Expr(std::string)` (without the later `simplify`) on the text `s`; its fuel is
`3 * |s| + 2`.
-/

namespace Stator

/-- An instance of the number interface used in the examples: a number is its text. -/
def textNum : NumLex (List Char) where
  ofLit := id
  neg := fun s => '-' :: s

/-! ## C01: parsing terminates, with work bounded by the length of the text -/

/-- C01. With fuel linear in the length of the text (or any larger amount) the parser answers, and the
answer is the same whatever the fuel. -/
theorem C01_parse_terminates {K : Type} (L : NumLex K) (s : List Char) (fuel : Nat)
    (h : 3 * s.length + 2 ≤ fuel) :
    parseString L fuel s ≠ .diverge ∧ parseString L fuel s = parse L s := by
  have := lex_length s
  exact ⟨parseToks_terminates L _ _ (by omega), parseToks_det L _ _ _ (by omega) (by omega)⟩

/-- C01. Every text has an answer: an expression or an exception. -/
theorem C01_parse_total {K : Type} (L : NumLex K) (s : List Char) :
    (∃ e, parse L s = .ok e) ∨ parse L s = .throw := by
  have := (C01_parse_terminates L s _ (Nat.le_refl _)).1
  unfold parse
  cases h : parseString L (3 * s.length + 2) s with
  | ok e => exact .inl ⟨e, rfl⟩
  | throw => exact .inr rfl
  | diverge => exact absurd h this

/-- Both outcomes occur. -/
example : (∃ e, parse textNum ['2', '*', '(', 'x', '+', '1', ')'] = .ok e) ∧ parse textNum ['2', '*', '(', 'x', '+', '1'] = .throw := by
  refine ⟨?_, ?_⟩
  · rw [parse_eq_fuel]; exact ⟨_, rfl⟩
  · rw [parse_eq_fuel]; rfl

/-! ## C06: numeric literals -/

/-- C06. At a digit the tokenizer yields a number token exactly when the text splits into a literal
`digits+[.digits*][(e|E)[+-]digits+]` and a rest that cannot continue a number. -/
theorem C06_literal (c : Char) (cs s rest : List Char) (hd : isDigit c = true) :
    lexOne c cs = (.num s, rest) ↔ c :: cs = s ++ rest ∧ IsLit s ∧ Boundary rest := by
  constructor
  · intro h
    unfold lexOne at h
    simp only [hd, if_true] at h
    split at h
    · rename_i t r hf
      simp at h
      obtain ⟨rfl, rfl⟩ := h
      obtain ⟨h1, h2, h3⟩ := (floatLoop_f _ _ _ _).1 hf
      exact ⟨by simp [h1], (isLit_iff_tail hd).2 h2, h3⟩
    · simp at h
  · rintro ⟨h1, h2, h3⟩
    cases s with
    | nil =>
      obtain ⟨ip, fp, ep, h4, h5, -⟩ := h2
      simp at h4; simp_all
    | cons x s =>
      simp at h1
      obtain ⟨rfl, rfl⟩ := h1
      have := (floatLoop_f false _ _ _).2 ⟨rfl, (isLit_iff_tail hd).1 h2, h3⟩
      simp [lexOne, hd, this]

/-- C06. If no such split exists the tokenizer throws: it never yields another token at a digit. -/
theorem C06_literal_or_error (c : Char) (cs : List Char) (hd : isDigit c = true) :
    (∃ s rest, lexOne c cs = (.num s, rest)) ∨ (lexOne c cs).1 = .bad := by
  unfold lexOne
  simp only [hd, if_true]
  split
  · exact .inl ⟨_, _, rfl⟩
  · exact .inr rfl

/-- C06. The literal is the longest prefix of the text that is a literal. -/
theorem C06_longest (c : Char) (cs s rest : List Char) (hd : isDigit c = true)
    (h : lexOne c cs = (.num s, rest)) (s' rest' : List Char) (h' : c :: cs = s' ++ rest')
    (hl : IsLit s') : s'.length ≤ s.length := by
  obtain ⟨h1, h2, h3⟩ := (C06_literal c cs s rest hd).1 h
  by_contra hlt
  have hlt : s.length < s'.length := by omega
  -- `s'` extends `s` by at least the first character of `rest`
  have hpre : ∃ x t, s' = s ++ x :: t ∧ ∃ r, rest = x :: r := by
    rw [h1] at h'
    rw [List.append_eq_append_iff] at h'
    rcases h' with ⟨as, h4, h5⟩ | ⟨bs, h4, h5⟩
    · cases as with
      | nil => simp at h4; simp [h4] at hlt
      | cons x t => exact ⟨x, t, h4, _, by simpa using h5⟩
    · simp [h4] at hlt; omega
  obtain ⟨x, t, rfl, r, rfl⟩ := hpre
  have hb := (boundary_cons).1 h3
  obtain ⟨y, s, rfl⟩ : ∃ y s0, s = y :: s0 := by
    cases s with
    | nil => obtain ⟨ip, fp, ep, h4, h5, -⟩ := h2; simp at h4; simp_all
    | cons y s => exact ⟨y, s, rfl⟩
  have hyc : isDigit y = true := by simp at h1; rw [← h1.1]; exact hd
  have g1 : floatLoop false false (s ++ x :: t) = some (s, x :: t) :=
    (floatLoop_f false _ _ _).2 ⟨rfl, (isLit_iff_tail hyc).1 h2, boundary_cons.2 hb⟩
  have g2 : floatLoop false false (s ++ x :: t) = some (s ++ x :: t, []) :=
    (floatLoop_f false _ _ _).2 ⟨by simp, (isLit_iff_tail hyc).1 hl, boundary_nil⟩
  rw [g1] at g2
  simp at g2

/-- The tokenizer accepts `1.5e-3`, followed by a boundary. -/
example : lexOne '1' ['.', '5', 'e', '-', '3', '*', 'x'] = (.num ['1', '.', '5', 'e', '-', '3'], ['*', 'x']) := by rfl
/-- A second decimal point, an exponent without digits, and a signed exponent without digits throw. -/
example : (lexOne '1' ['.', '2', '.', '3']).1 = .bad ∧ (lexOne '1' ['e']).1 = .bad ∧
    (lexOne '1' ['e', '+', 'x']).1 = .bad := by decide

/-! ## C04: an accepted text is entirely part of the expression -/

/-- C04. If parsing succeeds, all characters of the text other than blanks are the characters of the
tokens, and the whole token sequence is a way to write the expression. -/
theorem C04_whole_text {K : Type} (L : NumLex K) (s : List Char) (e : Expr K)
    (h : parse L s = .ok e) :
    Gram L (lex s) e ∧ ((lex s).map Tok.text).flatten = s.filter (fun c => c ≠ ' ') := by
  obtain ⟨-, h2⟩ := (parse_ok_iff L s e).1 h
  obtain ⟨u, h3, h4⟩ := D_sound L h2
  simp at h3
  subst h3
  exact ⟨h4, lex_text s (gram_no_bad L h4)⟩

/-- C04. A text whose brackets do not match is rejected. -/
theorem C04_unbalanced {K : Type} (L : NumLex K) (s : List Char) (h : bal [] (lex s) = false) :
    parse L s = .throw := by
  rcases C01_parse_total L s with ⟨e, he⟩ | ht
  · have := gram_neutral L (C04_whole_text L s e he).1 [] []
    simp [h, bal] at this
  · exact ht

example : parse textNum ['(', 'a', '+', 'b', ']'] = .throw :=
  C04_unbalanced _ _ (by rw [lex_eq_fuel _ _ (Nat.le_refl _)]; rfl)
example : ∃ e, parse textNum ['f', '*', '[', '1', ',', ' ', '{', 'a', ':', '2', '}', ']'] = .ok e := by
  rw [parse_eq_fuel]; exact ⟨_, rfl⟩
/-- Trailing tokens after a complete expression are rejected. -/
example : parse textNum ['a', ' ', 'b'] = .throw ∧ parse textNum ['a', ',', 'b'] = .throw ∧
    parse textNum ['a', ':'] = .throw := by
  simp only [parse_eq_fuel]; exact ⟨rfl, rfl, rfl⟩

/-! ## C05: blanks -/

/-- C05. Blanks in front of a text do not matter. -/
theorem C05_leading {K : Type} (L : NumLex K) (n : Nat) (s : List Char) :
    parse L (List.replicate n ' ' ++ s) = parse L s := by
  have h : lex (List.replicate n ' ' ++ s) = lex s := by
    induction n with
    | zero => simp
    | succ n ih => simp [List.replicate_succ, lex_space, ih]
  have h1 := lex_length s
  unfold parse parseString
  rw [h]
  exact parseToks_det L _ _ _ (by simp; omega) (by omega)

/-- C05. Blanks after a text do not matter. -/
theorem C05_trailing {K : Type} (L : NumLex K) (n : Nat) (s : List Char) :
    parse L (s ++ List.replicate n ' ') = parse L s := by
  have h : lex (s ++ List.replicate n ' ') = lex s := by
    cases n with
    | zero => simp
    | succ n =>
      rw [List.replicate_succ, lex_split]
      have : lex (List.replicate n ' ') = [] := by
        induction n with
        | zero => simp [lex_nil]
        | succ n ih => simp [List.replicate_succ, lex_space, ih]
      simp [this]
  have h1 := lex_length s
  unfold parse parseString
  rw [h]
  exact parseToks_det L _ _ _ (by simp; omega) (by omega)

/-- C05. Where there is a blank, any positive number of blanks gives the same result. -/
theorem C05_repeat {K : Type} (L : NumLex K) (n : Nat) (a b : List Char) :
    parse L (a ++ List.replicate (n + 1) ' ' ++ b) = parse L (a ++ ' ' :: b) := by
  have hb : lex (List.replicate n ' ' ++ b) = lex b := by
    induction n with
    | zero => simp
    | succ n ih => simp [List.replicate_succ, lex_space, ih]
  have h : lex (a ++ List.replicate (n + 1) ' ' ++ b) = lex (a ++ ' ' :: b) := by
    have : a ++ List.replicate (n + 1) ' ' ++ b = a ++ ' ' :: (List.replicate n ' ' ++ b) := by
      simp [List.replicate_succ]
    rw [this, lex_split, lex_split, hb]
  have h1 := lex_length (a ++ ' ' :: b)
  unfold parse parseString
  rw [h]
  exact parseToks_det L _ _ _ (by simp at h1 ⊢; omega) (by omega)

/-- C05. Blanks inserted between two tokens do not matter: `a` and `b` are texts such that the tokens of
`a b` written together are those of `a` followed by those of `b`. -/
theorem C05_between {K : Type} (L : NumLex K) (n : Nat) (a b : List Char)
    (h : lex (a ++ b) = lex a ++ lex b) :
    parse L (a ++ List.replicate n ' ' ++ b) = parse L (a ++ b) := by
  cases n with
  | zero => simp
  | succ n =>
    rw [C05_repeat]
    have h1 := lex_length (a ++ b)
    have h2 := lex_length (a ++ ' ' :: b)
    have h3 := lex_length a
    by_cases hb : Tok.bad ∈ lex a
    · -- both texts make the tokenizer throw, so both are rejected
      have e1 : parse L (a ++ ' ' :: b) = .throw := by
        rcases C01_parse_total L (a ++ ' ' :: b) with ⟨e, he⟩ | ht
        · have := gram_no_bad L (C04_whole_text L _ e he).1
          rw [lex_split, if_pos hb] at this
          exact absurd hb this
        · exact ht
      have e2 : parse L (a ++ b) = .throw := by
        rcases C01_parse_total L (a ++ b) with ⟨e, he⟩ | ht
        · have := gram_no_bad L (C04_whole_text L _ e he).1
          rw [h] at this
          simp [hb] at this
        · exact ht
      rw [e1, e2]
    · have e : lex (a ++ ' ' :: b) = lex (a ++ b) := by rw [lex_split, if_neg hb, h]
      unfold parse parseString
      rw [e]
      exact parseToks_det L _ _ _ (by simp at h1 ⊢; omega) (by omega)

example : lex (['a', '*'] ++ ['(', 'b', '+', '2', ')']) = lex ['a', '*'] ++ lex ['(', 'b', '+', '2', ')'] := by
  rw [lex_eq_fuel 10 _ (by decide), lex_eq_fuel 10 _ (by decide), lex_eq_fuel 10 _ (by decide)]; rfl

/-! ## C03: precedence and associativity -/

/-- C03. `a o1 b o2 c` groups to the operator with the higher precedence, on ties to the right for `^` and
`=` and to the left for the others, for all operands (including parenthesised expressions). -/
theorem C03_precedence {K : Type} (L : NumLex K) {a b c : List Tok} {ea eb ec : Expr K}
    (ha : Operand L a ea) (hb : Operand L b eb) (hc : Operand L c ec)
    {o1 o2 : BinOp} {t1 t2 : Tok} (h1 : infixTok o1 = some t1) (h2 : infixTok o2 = some t2)
    (s : List Char) (hs : lex s = a ++ [t1] ++ b ++ [t2] ++ c) :
    parse L s = .ok (if groupsRight o1 o2 then .bin o1 ea (.bin o2 eb ec)
      else .bin o2 (.bin o1 ea eb) ec) := by
  rw [parse_ok_iff, hs]
  exact D_two_ops L ha hb hc h1 h2

/-- C03. Parentheses override precedence: a parenthesised expression is an operand with the value of the
expression inside, and on its own it parses to that expression. -/
theorem C03_parens {K : Type} (L : NumLex K) (s s' : List Char) (e : Expr K)
    (h : parse L s = .ok e) (hs : lex s' = [.sym ['(']] ++ lex s ++ [.sym [')']]) :
    Operand L (lex s') e ∧ parse L s' = .ok e := by
  have ho : Operand L (lex s') e := by rw [hs]; exact .paren h
  refine ⟨ho, ?_⟩
  rw [parse_ok_iff]
  obtain ⟨h1, h2⟩ := operand_D L ho [] opRest_nil
  simp only [List.append_nil] at h1 h2
  exact ⟨h2, .expr h1 .loopEnd⟩

/-- C03. Unary minus binds looser than `*`, `/`, `^` and tighter than `+`, `-`, `=`. -/
theorem C03_unary_minus {K : Type} (L : NumLex K) {a b : List Tok} {ea eb : Expr K}
    (ha : Operand L a ea) (hb : Operand L b eb) {o : BinOp} {t : Tok} (h : infixTok o = some t)
    (s : List Char) (hs : lex s = [.sym ['-']] ++ a ++ [t] ++ b) :
    parse L s = .ok (if prec o ≤ 2 then .bin o (negate L ea) eb else negate L (.bin o ea eb)) := by
  rw [parse_ok_iff, hs]
  have e : [Tok.sym ['-']] ++ a ++ [t] ++ b = .sym ['-'] :: (a ++ (t :: (b ++ []))) := by simp
  rw [e]
  obtain ⟨ha1, ha2⟩ := operand_D L ha (t :: (b ++ [])) (opRest_infix h _)
  obtain ⟨hb1, hb2⟩ := operand_D L hb [] opRest_nil
  obtain ⟨r, w, -⟩ := infix_rightOp h
  refine ⟨by simp [NB], ?_⟩
  split
  · rename_i hp
    have hl : ¬ (21 : Int) ≤ o.lbp := by revert hp; cases o <;> decide
    refine .expr (.minus rfl ha2 (.expr ha1 (.loopStop r (.inl ?_)))) ?_
    · simp only [RightOp.lbp]; omega
    · exact .loopBin r (lbp_nonneg _) (lbp_le_max _) w hb2 (.expr hb1 .loopEnd) .loopEnd
  · rename_i hp
    have hl : (21 : Int) ≤ o.lbp := by revert hp; cases o <;> decide
    refine .expr (.minus rfl ha2 (.expr ha1 ?_)) .loopEnd
    exact .loopBin r hl (lbp_le_max _) w hb2 (.expr hb1 .loopEnd) .loopEnd

/-- C03, instance: `a-b-c` and `a^(b+1)^c`. -/
example : parse textNum ['a', '-', 'b', '-', 'c']
    = .ok (.bin .sub (.bin .sub (.var ['a']) (.var ['b'])) (.var ['c'])) :=
  C03_precedence textNum (a := [.word ['a']]) (b := [.word ['b']]) (c := [.word ['c']])
    (.var _ (by intro o; cases o <;> simp [fnName])) (.var _ (by intro o; cases o <;> simp [fnName]))
    (.var _ (by intro o; cases o <;> simp [fnName])) (o1 := .sub) (o2 := .sub) rfl rfl _
    (by rw [lex_eq_fuel 10 _ (by decide)]; rfl)
example : parse textNum ['a', '^', '(', 'b', '+', '1', ')', '^', 'c']
    = .ok (.bin .pow (.var ['a']) (.bin .pow (.bin .add (.var ['b']) (.const ['1'])) (.var ['c']))) :=
  C03_precedence textNum (a := [.word ['a']]) (c := [.word ['c']])
    (.var _ (by intro o; cases o <;> simp [fnName])) (.paren (ts := [.word ['b'], .sym ['+'], .num ['1']]) (n := 20) (by rfl))
    (.var _ (by intro o; cases o <;> simp [fnName])) (o1 := .pow) (o2 := .pow) rfl rfl _
    (by rw [lex_eq_fuel 10 _ (by decide)]; rfl)

/-- C03, a limit of the grammar as coded: the postfix operators do not combine in increasing order of
binding power. `a[b]{c}` (a quantity taken from an array) is rejected although `a{c}[b]` is
accepted. -/
theorem C03_postfix_rejected :
    parse textNum ['a', '[', 'b', ']', '{', 'c', '}'] = .throw ∧
    parse textNum ['a', '{', 'c', '}', '[', 'b', ']']
      = .ok (.bin .access (.bin .units (.var ['a']) (.var ['c'])) (.var ['b'])) := by
  simp only [parse_eq_fuel]; exact ⟨rfl, rfl⟩

end Stator
