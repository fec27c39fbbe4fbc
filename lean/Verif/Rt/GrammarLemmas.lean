import Verif.Rt.Grammar
import Verif.Rt.SpaceLemmas

/-!
# The parser is sound for the grammar (helper lemmas)
-/

namespace Stator

theorem leftOp_skip {tok : Tok} (h : leftOp tok = some .skip) : tok = .sym ['+'] := by
  unfold leftOp at h; split at h <;> simp_all
theorem leftOp_minus {tok : Tok} (h : leftOp tok = some .minus) : tok = .sym ['-'] := by
  unfold leftOp at h; split at h <;> simp_all
theorem leftOp_paren {tok : Tok} (h : leftOp tok = some .paren) : tok = .sym ['('] := by
  unfold leftOp at h; split at h <;> simp_all
theorem leftOp_array {tok : Tok} (h : leftOp tok = some .array) : tok = .sym ['['] := by
  unfold leftOp at h; split at h <;> simp_all
theorem leftOp_dict {tok : Tok} (h : leftOp tok = some .dict) : tok = .sym ['{'] := by
  unfold leftOp at h; split at h <;> simp_all
theorem leftOp_fn {tok : Tok} {o : UnOp} (h : leftOp tok = some (.fn o)) :
    ∃ s, tok = .word s ∧ fnName o = some s := by
  unfold leftOp at h; split at h <;> simp_all <;> (subst h; rfl)

theorem leftOp_word_none {s : List Char} (h : leftOp (.word s) = none) (o : UnOp) :
    fnName o ≠ some s := by
  intro h1
  cases o <;> simp [fnName] at h1 <;> subst h1 <;> simp [leftOp] at h

theorem rightOp_infix {tok : Tok} {b : BinOp} (h : rightOp tok = some (.bin b))
    (hw : b.wrapped = false) : infixTok b = some tok := by
  unfold rightOp at h; split at h <;> simp_all <;> subst h <;> simp_all [infixTok, pmSign, BinOp.wrapped]

theorem rightOp_wrapped {tok : Tok} {b : BinOp} (h : rightOp tok = some (.bin b))
    (hw : b.wrapped = true) : (b = .access ∧ tok = .sym ['[']) ∨ (b = .units ∧ tok = .sym ['{']) := by
  unfold rightOp at h; split at h <;> simp_all <;> subst h <;> simp_all [BinOp.wrapped]

/-- What a successful run of a routine says about the tokens it read. -/
def SoundCat {K : Type} (L : NumLex K) : Cat K → List Tok → Expr K → List Tok → Prop
  | .expr _, ts, e, rest => ∃ used, ts = used ++ rest ∧ Gram L used e
  | .tok, ts, e, rest => ∃ used, ts = used ++ rest ∧ Gram L used e
  | .loop _ _ t, ts, e, rest => ∃ used, ts = used ++ rest ∧
      ∀ pre, Gram L pre t → Gram L (pre ++ used) e
  | .arr acc, ts, e, rest => ∃ used xs, ts = used ++ [.sym [']']] ++ rest ∧ e = .arr xs ∧
      (acc = [] → GramArr L used xs) ∧
      (∀ pre, GramArr L pre acc → GramArr L (pre ++ [.sym [',']] ++ used) xs)
  | .dict acc, ts, e, rest => ∃ used es, ts = used ++ [.sym ['}']] ++ rest ∧
      e = .dict (es.foldl (fun m p => dictSet m p.1 p.2) acc) ∧ GramDict L used es

theorem dictSet_mapOf {K : Type} {es kvs : List (List Char × Expr K)} (h : MapOf es kvs)
    (k : List Char) (v : Expr K) : MapOf (es ++ [(k, v)]) (dictSet kvs k v) := by
  obtain ⟨hn, hm⟩ := h
  have key : ∀ k' v', (∃ a b, es ++ [(k, v)] = a ++ (k', v') :: b ∧ k' ∉ b.map Prod.fst) ↔
      ((k' = k ∧ v' = v) ∨ (k' ≠ k ∧ (k', v') ∈ kvs)) := by
    intro k' v'
    rw [hm]
    constructor
    · rintro ⟨a, b, he, hb⟩
      rcases List.eq_nil_or_concat b with rfl | ⟨b', p, rfl⟩
      · have := List.append_inj' he rfl
        simp at this
        exact .inl ⟨this.2.1.symm, this.2.2.symm⟩
      · have e : a ++ (k', v') :: (b' ++ [p]) = (a ++ (k', v') :: b') ++ [p] := by simp
        rw [List.concat_eq_append] at *
        rw [e] at he
        have h2 := List.append_inj' he rfl
        simp at h2
        obtain ⟨h3, rfl⟩ := h2
        simp at hb
        refine .inr ⟨hb.2, a, b', h3, by simpa using hb.1⟩
    · rintro (⟨rfl, rfl⟩ | ⟨hk, a, b, rfl, hb⟩)
      · exact ⟨es, [], rfl, by simp⟩
      · refine ⟨a, b ++ [(k, v)], by simp, ?_⟩
        simp at hb ⊢
        exact ⟨hb, hk⟩
  unfold dictSet
  split
  · rename_i h1
    simp only [List.any_eq_true, beq_iff_eq] at h1
    obtain ⟨p, hp, hpk⟩ := h1
    refine ⟨?_, fun k' v' => ?_⟩
    · have : (kvs.map fun p => if p.1 = k then (k, v) else p).map Prod.fst = kvs.map Prod.fst := by
        rw [List.map_map]
        apply List.map_congr_left
        intro q _
        simp only [Function.comp]
        split <;> simp_all
      rw [this]; exact hn
    · rw [key]
      simp only [List.mem_map]
      constructor
      · rintro ⟨q, hq, hqe⟩
        split at hqe
        · simp at hqe; exact .inl ⟨hqe.1.symm, hqe.2.symm⟩
        · rename_i hne
          subst hqe
          exact .inr ⟨hne, hq⟩
      · rintro (⟨rfl, rfl⟩ | ⟨hk, hq⟩)
        · exact ⟨p, hp, by simp [hpk]⟩
        · exact ⟨(k', v'), hq, by simp [hk]⟩
  · rename_i h1
    have hnot : k ∉ kvs.map Prod.fst := by
      intro hmem
      apply h1
      simp only [List.any_eq_true, beq_iff_eq]
      obtain ⟨q, hq, rfl⟩ := List.mem_map.1 hmem
      exact ⟨q, hq, rfl⟩
    refine ⟨?_, fun k' v' => ?_⟩
    · rw [List.map_append, List.nodup_append]
      refine ⟨hn, by simp, ?_⟩
      rintro a ha b hb rfl
      simp at hb; subst hb
      exact hnot ha
    · rw [key, List.mem_append]
      constructor
      · rintro (h | h)
        · refine .inr ⟨?_, h⟩
          rintro rfl
          exact hnot (List.mem_map.2 ⟨_, h, rfl⟩)
        · simp at h; exact .inl h
      · rintro (h | h)
        · right; simp [h]
        · exact .inl h.2

theorem foldl_mapOf {K : Type} (es : List (List Char × Expr K)) :
    ∀ acc pre, MapOf pre acc → MapOf (pre ++ es) (es.foldl (fun m p => dictSet m p.1 p.2) acc) := by
  induction es with
  | nil => intro acc pre h; simpa using h
  | cons p es ih =>
    intro acc pre h
    have := ih _ _ (dictSet_mapOf h p.1 p.2)
    simpa using this

theorem mapOf_nil {K : Type} : MapOf ([] : List (List Char × Expr K)) [] := by
  refine ⟨by simp, fun k v => ?_⟩
  simp

theorem gramDict_cons {K : Type} (L : NumLex K) {ts1 ts2 : List Tok} {k : List Char} {v : Expr K}
    (h1 : Gram L ts1 (.var k)) (h2 : Gram L ts2 v) {ts : List Tok}
    {es : List (List Char × Expr K)} (h : GramDict L ts es) :
    GramDict L (ts1 ++ [.sym [':']] ++ ts2 ++ [.sym [',']] ++ ts) ((k, v) :: es) := by
  refine GramDict.rec (motive_1 := fun _ _ _ => True) (motive_2 := fun _ _ _ => True)
    (motive_3 := fun ts es _ =>
      GramDict L (ts1 ++ [.sym [':']] ++ ts2 ++ [.sym [',']] ++ ts) ((k, v) :: es))
    ?_ ?_ ?_ ?_ ?_ ?_ ?_ ?_ ?_ ?_ ?_ ?_ ?_ ?_ ?_ ?_ ?_ h
  case refine_16 =>
    intro a b k' v' ha hb _ _
    have := GramDict.more (GramDict.one h1 h2) ha hb
    simpa using this
  case refine_17 =>
    intro a b c es k' v' _ hb hc ih _ _
    have := GramDict.more ih hb hc
    simpa using this
  all_goals intros; trivial

theorem D_sound {K : Type} (L : NumLex K) {c : Cat K} {ts rest : List Tok} {e : Expr K}
    (h : D L c ts e rest) : SoundCat L c ts e rest := by
  induction h with
  | expr _ _ ih1 ih2 =>
    obtain ⟨u1, rfl, h1⟩ := ih1
    obtain ⟨u2, rfl, h2⟩ := ih2
    exact ⟨u1 ++ u2, by simp, h2 _ h1⟩
  | loopEnd => exact ⟨[], rfl, fun pre h => by simpa using h⟩
  | loopStop => exact ⟨[], rfl, fun pre h => by simpa using h⟩
  | loopWrap ho _ _ hw _ _ _ _ ih1 ih2 =>
    obtain ⟨u1, rfl, h1⟩ := ih1
    obtain ⟨u2, rfl, h2⟩ := ih2
    rcases rightOp_wrapped ho hw with ⟨rfl, rfl⟩ | ⟨rfl, rfl⟩
    · refine ⟨[.sym ['[']] ++ u1 ++ [.sym [']']] ++ u2, by simp [BinOp.closer], fun pre h => ?_⟩
      have := h2 _ (Gram.access h h1)
      simpa using this
    · refine ⟨[.sym ['{']] ++ u1 ++ [.sym ['}']] ++ u2, by simp [BinOp.closer], fun pre h => ?_⟩
      have := h2 _ (Gram.units h h1)
      simpa using this
  | @loopBin m M t tok _ _ _ _ _ _ ho _ _ hw _ _ _ ih1 ih2 =>
    obtain ⟨u1, rfl, h1⟩ := ih1
    obtain ⟨u2, rfl, h2⟩ := ih2
    refine ⟨[tok] ++ u1 ++ u2, by simp, fun pre h => ?_⟩
    have := h2 _ (Gram.infix (rightOp_infix ho hw) h h1)
    simpa using this
  | num => exact ⟨[_], rfl, .num _⟩
  | var h => exact ⟨[_], rfl, .var _ (leftOp_word_none h)⟩
  | skip h _ _ ih =>
    obtain ⟨u1, rfl, h1⟩ := ih
    rw [leftOp_skip h]
    exact ⟨_ :: u1, rfl, .plus h1⟩
  | minus h _ _ ih =>
    obtain ⟨u1, rfl, h1⟩ := ih
    rw [leftOp_minus h]
    exact ⟨_ :: u1, rfl, .minus h1⟩
  | paren h _ _ _ ih =>
    obtain ⟨u1, rfl, h1⟩ := ih
    rw [leftOp_paren h]
    exact ⟨_, by simp, .paren h1⟩
  | arr0 h =>
    rw [leftOp_array h]
    exact ⟨_, rfl, .arr0⟩
  | arr h _ _ _ ih =>
    obtain ⟨u, xs, rfl, rfl, h1, -⟩ := ih
    rw [leftOp_array h]
    exact ⟨_, by simp, .arr (h1 rfl)⟩
  | dict0 h =>
    rw [leftOp_dict h]
    exact ⟨_, rfl, .dict0⟩
  | dict h _ _ _ ih =>
    obtain ⟨u, xs, rfl, rfl, h1⟩ := ih
    rw [leftOp_dict h]
    exact ⟨_, by simp, .dict h1 (by simpa using foldl_mapOf xs [] [] mapOf_nil)⟩
  | fn h _ _ ih =>
    obtain ⟨u1, rfl, h1⟩ := ih
    obtain ⟨s, rfl, hs⟩ := leftOp_fn h
    exact ⟨_ :: u1, rfl, .fn hs h1⟩
  | arrLast _ _ ih =>
    obtain ⟨u1, rfl, h1⟩ := ih
    refine ⟨u1, _, by simp, rfl, ?_, fun pre h => .more h h1⟩
    rintro rfl; exact .one h1
  | arrMore _ _ _ ih1 ih2 =>
    obtain ⟨u1, rfl, h1⟩ := ih1
    obtain ⟨u2, xs, rfl, rfl, -, h2⟩ := ih2
    refine ⟨u1 ++ [.sym [',']] ++ u2, xs, by simp, rfl, ?_, fun pre h => ?_⟩
    · rintro rfl; exact h2 _ (.one h1)
    · have := h2 _ (.more h h1)
      simpa using this
  | dictLast _ _ _ _ ih1 ih2 =>
    obtain ⟨u1, rfl, h1⟩ := ih1
    obtain ⟨u2, rfl, h2⟩ := ih2
    exact ⟨u1 ++ [.sym [':']] ++ u2, [(_, _)], by simp, rfl, .one h1 h2⟩
  | dictMore _ _ _ _ _ ih1 ih2 ih3 =>
    obtain ⟨u1, rfl, h1⟩ := ih1
    obtain ⟨u2, rfl, h2⟩ := ih2
    obtain ⟨u3, es, rfl, rfl, h3⟩ := ih3
    exact ⟨u1 ++ [.sym [':']] ++ u2 ++ [.sym [',']] ++ u3, (_, _) :: es, by simp, rfl,
      gramDict_cons L h1 h2 h3⟩

/-- Texts that leave the bracket stack as it was. -/
def Neutral (ts : List Tok) : Prop := ∀ st rest, bal st (ts ++ rest) = bal st rest

theorem Neutral.append {a b : List Tok} (ha : Neutral a) (hb : Neutral b) : Neutral (a ++ b) := by
  intro st rest; rw [List.append_assoc, ha, hb]

theorem neutral_infix {o : BinOp} {t : Tok} (h : infixTok o = some t) : Neutral [t] := by
  intro st rest
  cases o <;> simp [infixTok] at h <;> subst h <;> simp [bal, pmSign]

theorem neutral_comma : Neutral [.sym [',']] := by intro st rest; simp [bal]
theorem neutral_colon : Neutral [.sym [':']] := by intro st rest; simp [bal]

theorem neutral_paren {a : List Tok} (ha : Neutral a) : Neutral ([.sym ['(']] ++ a ++ [.sym [')']]) := by
  intro st rest; simp [bal, ha _ _]
theorem neutral_square {a : List Tok} (ha : Neutral a) : Neutral ([.sym ['[']] ++ a ++ [.sym [']']]) := by
  intro st rest; simp [bal, ha _ _]
theorem neutral_brace {a : List Tok} (ha : Neutral a) : Neutral ([.sym ['{']] ++ a ++ [.sym ['}']]) := by
  intro st rest; simp [bal, ha _ _]

theorem gram_neutral {K : Type} (L : NumLex K) {ts : List Tok} {e : Expr K} (h : Gram L ts e) :
    Neutral ts := by
  refine Gram.rec (motive_1 := fun ts _ _ => Neutral ts) (motive_2 := fun ts _ _ => Neutral ts)
    (motive_3 := fun ts _ _ => Neutral ts) ?_ ?_ ?_ ?_ ?_ ?_ ?_ ?_ ?_ ?_ ?_ ?_ ?_ ?_ ?_ ?_ ?_ h
  · intro s st rest; simp [bal]
  · intro s _ st rest; simp [bal]
  · intro ts e _ ih st rest; simp [bal, ih _ _]
  · intro ts e _ ih st rest; simp [bal, ih _ _]
  · intro ts e o s _ _ ih st rest; simp [bal, ih _ _]
  · intro ts e _ ih; exact neutral_paren ih
  · intro ts1 ts2 l r o t ho _ _ ih1 ih2; exact (ih1.append (neutral_infix ho)).append ih2
  · intro ts1 ts2 l r _ _ ih1 ih2
    have := ih1.append (neutral_square ih2)
    simpa using this
  · intro ts1 ts2 l r _ _ ih1 ih2
    have := ih1.append (neutral_brace ih2)
    simpa using this
  · intro st rest; simp [bal]
  · intro ts e _ ih; exact neutral_square ih
  · intro st rest; simp [bal]
  · intro ts e _ _ _ ih; exact neutral_brace ih
  · intro ts e _ ih; exact ih
  · intro _ _ _ _ _ _ ih1 ih2; exact (ih1.append neutral_comma).append ih2
  · intro _ _ _ _ _ _ ih1 ih2; exact (ih1.append neutral_colon).append ih2
  · intro _ _ _ _ _ _ _ _ _ ih1 ih2 ih3
    exact (((ih1.append neutral_comma).append ih2).append neutral_colon).append ih3

theorem gram_no_bad {K : Type} (L : NumLex K) {ts : List Tok} {e : Expr K} (h : Gram L ts e) :
    Tok.bad ∉ ts := by
  refine Gram.rec (motive_1 := fun ts _ _ => Tok.bad ∉ ts) (motive_2 := fun ts _ _ => Tok.bad ∉ ts)
    (motive_3 := fun ts _ _ => Tok.bad ∉ ts) ?_ ?_ ?_ ?_ ?_ ?_ ?_ ?_ ?_ ?_ ?_ ?_ ?_ ?_ ?_ ?_ ?_ h
  case refine_7 =>
    intro ts1 ts2 l r o t ho _ _ ih1 ih2
    cases o <;> simp [infixTok] at ho <;> subst ho <;> simp_all
  all_goals intros; simp_all

theorem lexOne_text (c : Char) (cs : List Char) (h : (lexOne c cs).1 ≠ .bad) (hc : c ≠ ' ') :
    c :: cs = (lexOne c cs).1.text ++ (lexOne c cs).2 ∧ ' ' ∉ (lexOne c cs).1.text := by
  unfold lexOne at h ⊢
  by_cases hd : isDigit c = true
  · simp only [hd, if_true] at h ⊢
    cases hf : floatLoop false false cs with
    | none => simp [hf] at h
    | some p =>
      obtain ⟨t, rest⟩ := p
      obtain ⟨h1, h2, h3⟩ := (floatLoop_f _ _ _ _).1 hf
      have := isTail_no_space h2
      simp [Tok.text, h1, this, hc.symm]
  · simp only [hd, Bool.false_eq_true, if_false] at h ⊢
    by_cases ha : isAlpha c = true
    · simp only [ha, if_true, Tok.text]
      simp only [List.cons_append, List.takeWhile_append_dropWhile, true_and, List.mem_cons, not_or]
      refine ⟨hc.symm, fun hm => ?_⟩
      have := List.all_eq_true.1 List.all_takeWhile _ hm
      simp [isAlpha] at this
    · simp only [ha, Bool.false_eq_true, if_false] at h ⊢
      have htab : ∀ s ∈ symTable, ' ' ∉ s := by decide
      by_cases hc : c = '\u00c2' ∨ c = '\u00c3'
      · simp only [hc, if_true] at h ⊢
        split at h
        · rename_i h1
          simp only [h1, if_true, Tok.text]
          exact ⟨by cases cs <;> simp, htab _ h1⟩
        · simp at h
      · simp only [hc, if_false] at h ⊢
        split at h
        · rename_i h1
          simp only [h1, if_true, Tok.text]
          exact ⟨by simp, htab _ h1⟩
        · simp at h

theorem lex_text (s : List Char) (h : Tok.bad ∉ lex s) :
    ((lex s).map Tok.text).flatten = s.filter (fun c => c ≠ ' ') := by
  induction s using lex_ind with
  | nil => simp [lex_nil]
  | space cs ih => rw [lex_space] at *; simpa using ih h
  | bad c cs hc hb => rw [lex_cons c cs hc] at h; simp [hb] at h
  | tok c cs hc hb ih =>
    rw [lex_cons c cs hc, if_neg hb] at h ⊢
    simp only [List.mem_cons, not_or] at h
    obtain ⟨h1, h2⟩ := lexOne_text c cs hb hc
    rw [h1, List.filter_append, List.map_cons, List.flatten_cons, ih h.2]
    congr 1
    rw [List.filter_eq_self.2]
    intro x hx
    have : x ≠ ' ' := by rintro rfl; exact h2 hx
    simp [this]

end Stator
