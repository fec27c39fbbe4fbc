import Verif.Rt.GrammarLemmas

/-!
# Precedence (helper lemmas)
-/

namespace Stator

def Cat.nonneg {K : Type} : Cat K → Prop
  | .expr m => 0 ≤ m
  | .loop m _ _ => 0 ≤ m
  | _ => True

theorem NB.append {ts s : List Tok} (h : NB ts) (hs : NB s) : NB (ts ++ s) := by
  cases ts <;> simp_all [NB]

theorem rbp_nonneg (o : BinOp) : 0 ≤ o.rbp := by cases o <;> decide
theorem ubp_nonneg (o : UnOp) : 0 ≤ o.bp := by cases o <;> decide

theorem head?_append_ne {ts s : List Tok} {t : Tok} (h : ts.head? ≠ some t) (hs : s.head? ≠ some t) :
    (ts ++ s).head? ≠ some t := by cases ts <;> simp_all

theorem D_nonempty {K : Type} (L : NumLex K) {c : Cat K} {ts rest : List Tok} {e : Expr K}
    (h : D L c ts e rest) : (∀ m M t, c ≠ .loop m M t) → ts ≠ [] := by
  induction h with
  | expr _ _ ih1 _ => intro _; exact ih1 (by simp)
  | loopEnd => intro h; exact absurd rfl (h _ _ _)
  | loopStop _ _ => intro h; exact absurd rfl (h _ _ _)
  | loopWrap _ _ _ _ _ _ _ _ _ _ => intro h; exact absurd rfl (h _ _ _)
  | loopBin _ _ _ _ _ _ _ _ _ => intro h; exact absurd rfl (h _ _ _)
  | arrLast _ _ ih => intro _; exact ih (by simp)
  | arrMore _ _ _ ih _ => intro _; exact ih (by simp)
  | dictLast _ _ _ _ ih _ => intro _; exact ih (by simp)
  | dictMore _ _ _ _ _ ih _ _ => intro _; exact ih (by simp)
  | _ => intro _; simp

theorem head?_append_ne' {ts s : List Tok} {t : Tok} (h : ts.head? ≠ some t) (hs : ts ≠ []) :
    (ts ++ s).head? ≠ some t := by cases ts <;> simp_all

/-- Appending a delimiter does not change what is read. -/
theorem D_extend' {K : Type} (L : NumLex K) {t : Tok} (ht : rightOp t = some .halt) {c : Cat K}
    {ts rest : List Tok} {e : Expr K} (s : List Tok) (h : D L c ts e rest) (hc : c.nonneg) :
    D L c (ts ++ t :: s) e (rest ++ t :: s) := by
  have hNB : NB (t :: s) := by
    intro h0
    simp at h0
    subst h0
    simp [rightOp] at ht
  induction h with
  | expr _ _ ih1 ih2 => exact .expr (ih1 trivial) (ih2 hc)
  | loopEnd =>
    refine .loopStop (o := .halt) ht (.inl ?_)
    simp only [Cat.nonneg] at hc
    simp only [RightOp.lbp]; omega
  | loopStop h1 h2 => exact .loopStop h1 h2
  | loopWrap h1 h2 h3 h4 h5 _ h6 _ ih1 ih2 =>
    have := ih1 (by simp [Cat.nonneg])
    exact .loopWrap h1 h2 h3 h4 (h5.append hNB) this (h6.append hNB) (ih2 hc)
  | loopBin h1 h2 h3 h4 h5 _ _ ih1 ih2 =>
    exact .loopBin h1 h2 h3 h4 (h5.append hNB) (ih1 (rbp_nonneg _)) (ih2 hc)
  | num h => exact .num (h.append hNB)
  | var h1 h => exact .var h1 (h.append hNB)
  | skip h1 h _ ih => exact .skip h1 (h.append hNB) (ih (by simp [Cat.nonneg]))
  | minus h1 h _ ih => exact .minus h1 (h.append hNB) (ih (by simp [Cat.nonneg]))
  | paren h1 h _ h2 ih => exact .paren h1 (h.append hNB) (ih (by simp [Cat.nonneg])) (h2.append hNB)
  | arr0 h1 h => exact .arr0 h1 (h.append hNB)
  | arr h1 h h2 h3 ih =>
    exact .arr h1 (h.append hNB) (head?_append_ne' h2 (D_nonempty L h3 (by simp))) (ih trivial)
  | dict0 h1 h => exact .dict0 h1 (h.append hNB)
  | dict h1 h h2 h3 ih =>
    exact .dict h1 (h.append hNB) (head?_append_ne' h2 (D_nonempty L h3 (by simp))) (ih trivial)
  | fn h1 h _ ih => exact .fn h1 (h.append hNB) (ih (ubp_nonneg _))
  | arrLast _ h ih => exact .arrLast (ih (by simp [Cat.nonneg])) (h.append hNB)
  | arrMore _ h _ ih1 ih2 => exact .arrMore (ih1 (by simp [Cat.nonneg])) (h.append hNB) (ih2 trivial)
  | dictLast _ h1 _ h2 ih1 ih2 =>
    exact .dictLast (ih1 (by simp [Cat.nonneg])) (h1.append hNB) (ih2 (by simp [Cat.nonneg]))
      (h2.append hNB)
  | dictMore _ h1 _ h2 _ ih1 ih2 ih3 =>
    exact .dictMore (ih1 (by simp [Cat.nonneg])) (h1.append hNB) (ih2 (by simp [Cat.nonneg]))
      (h2.append hNB) (ih3 trivial)

theorem D_extend {K : Type} (L : NumLex K) {c : Cat K} {ts rest : List Tok} {e : Expr K} (s : List Tok)
    (h : D L c ts e rest) (hc : c.nonneg) :
    D L c (ts ++ .sym [')'] :: s) e (rest ++ .sym [')'] :: s) := D_extend' L rfl s h hc

/-- The end of the text, or a token of the table of right operators. -/
def OpRest (rest : List Tok) : Prop := ∀ t, rest.head? = some t → ∃ o, rightOp t = some o

theorem OpRest.nb {rest : List Tok} (h : OpRest rest) : NB rest := by
  intro h1
  obtain ⟨o, ho⟩ := h _ h1
  simp [rightOp] at ho

theorem rightOp_lbp_lt (o : RightOp) : o.lbp < intMax := by
  cases o with
  | halt => decide
  | bin b => cases b <;> decide

theorem D_stop {K : Type} (L : NumLex K) (t : Expr K) (M : Int) (rest : List Tok) (h : OpRest rest) :
    D L (.loop intMax M t) rest t rest := by
  cases rest with
  | nil => exact .loopEnd
  | cons a rest =>
    obtain ⟨o, ho⟩ := h a rfl
    exact .loopStop ho (.inl (rightOp_lbp_lt o))

theorem fnName_leftOp {o : UnOp} {s : List Char} (h : fnName o = some s) :
    leftOp (.word s) = some (.fn o) ∧ o.bp = intMax := by
  cases o <;> simp [fnName] at h <;> subst h <;> exact ⟨rfl, rfl⟩

theorem leftOp_word_of_not_fn {s : List Char} (h : ∀ o, fnName o ≠ some s) :
    leftOp (.word s) = none := by
  unfold leftOp
  split <;> try rfl
  all_goals (rename_i h1; simp at h1)
  · subst h1; exact absurd rfl (h .sin)
  · subst h1; exact absurd rfl (h .cos)
  · subst h1; exact absurd rfl (h .exp)
  · subst h1; exact absurd rfl (h .log)

theorem parseToks_ok_D {K : Type} (L : NumLex K) {n : Nat} {ts : List Tok} {e : Expr K}
    (h : parseToks L n ts = .ok e) : NB ts ∧ D L (.expr 0) ts e [] := by
  unfold parseToks at h
  split at h
  · simp at h
  · rename_i h0
    simp only [Res.bind_eq_ok] at h
    obtain ⟨⟨e', rest⟩, h1, h2⟩ := h
    dsimp only at h2
    split at h2
    · rename_i h3
      simp at h3 h2
      subst h3 h2
      refine ⟨?_, D_of_run L n (.expr 0) _ _ _ h1⟩
      cases ts with
      | nil => simp [NB]
      | cons a ts =>
        intro h; simp at h; subst h; exact h0 _ rfl
    · simp at h2

theorem operand_D {K : Type} (L : NumLex K) {p : List Tok} {e : Expr K} (h : Operand L p e)
    (rest : List Tok) (hr : OpRest rest) : D L .tok (p ++ rest) e rest ∧ NB (p ++ rest) := by
  induction h with
  | num s => exact ⟨.num hr.nb, by simp [NB]⟩
  | var s hs => exact ⟨.var (leftOp_word_of_not_fn hs) hr.nb, by simp [NB]⟩
  | fn hs _ ih =>
    obtain ⟨h1, h2⟩ := fnName_leftOp hs
    refine ⟨.fn h1 ih.2 ?_, by simp [NB]⟩
    rw [h2]
    exact .expr ih.1 (D_stop L _ _ _ hr)
  | @paren ts e n h =>
    obtain ⟨h1, h2⟩ := parseToks_ok_D L h
    have := D_extend L rest h2 (by simp [Cat.nonneg])
    refine ⟨?_, by simp [NB]⟩
    simp only [List.append_assoc, List.cons_append, List.nil_append] at this ⊢
    exact .paren rfl (h1.append (by simp [NB])) this hr.nb

theorem infix_rightOp {o : BinOp} {t : Tok} (h : infixTok o = some t) :
    rightOp t = some (.bin o) ∧ o.wrapped = false ∧ t ≠ .bad := by
  cases o <;> simp [infixTok] at h <;> subst h <;> exact ⟨rfl, rfl, by simp⟩

theorem groupsRight_iff (o1 o2 : BinOp) : groupsRight o1 o2 ↔ o1.rbp ≤ o2.lbp := by
  cases o1 <;> cases o2 <;> decide

theorem not_rbp_le {o1 o2 : BinOp} (h : ¬ o1.rbp ≤ o2.lbp) : o2.lbp ≤ o1.nbp := by
  revert h; cases o1 <;> cases o2 <;> decide

theorem lbp_nonneg (o : BinOp) : 0 ≤ o.lbp := by cases o <;> decide
theorem lbp_le_max (o : BinOp) : o.lbp ≤ intMax := by cases o <;> decide

theorem opRest_nil : OpRest [] := by intro t h; simp at h
theorem opRest_infix {o : BinOp} {t : Tok} (h : infixTok o = some t) (ts : List Tok) :
    OpRest (t :: ts) := by
  intro t' h'; simp at h'; subst h'; exact ⟨_, (infix_rightOp h).1⟩

theorem D_two_ops {K : Type} (L : NumLex K) {a b c : List Tok} {ea eb ec : Expr K}
    (ha : Operand L a ea) (hb : Operand L b eb) (hc : Operand L c ec)
    {o1 o2 : BinOp} {t1 t2 : Tok} (h1 : infixTok o1 = some t1) (h2 : infixTok o2 = some t2) :
    NB (a ++ [t1] ++ b ++ [t2] ++ c) ∧ D L (.expr 0) (a ++ [t1] ++ b ++ [t2] ++ c)
      (if groupsRight o1 o2 then .bin o1 ea (.bin o2 eb ec) else .bin o2 (.bin o1 ea eb) ec) [] := by
  have e : a ++ [t1] ++ b ++ [t2] ++ c = a ++ (t1 :: (b ++ (t2 :: (c ++ [])))) := by simp
  rw [e]
  obtain ⟨ha1, ha2⟩ := operand_D L ha (t1 :: (b ++ (t2 :: (c ++ [])))) (opRest_infix h1 _)
  obtain ⟨hb1, hb2⟩ := operand_D L hb (t2 :: (c ++ [])) (opRest_infix h2 _)
  obtain ⟨hc1, hc2⟩ := operand_D L hc [] opRest_nil
  obtain ⟨r1, w1, -⟩ := infix_rightOp h1
  obtain ⟨r2, w2, -⟩ := infix_rightOp h2
  refine ⟨ha2, .expr ha1 ?_⟩
  split
  · rename_i hg
    rw [groupsRight_iff] at hg
    refine .loopBin r1 (lbp_nonneg _) (lbp_le_max _) w1 hb2 (.expr hb1 ?_) .loopEnd
    exact .loopBin r2 hg (lbp_le_max _) w2 hc2 (.expr hc1 .loopEnd) .loopEnd
  · rename_i hg
    rw [groupsRight_iff] at hg
    refine .loopBin r1 (lbp_nonneg _) (lbp_le_max _) w1 hb2
      (.expr hb1 (.loopStop r2 (.inl ?_))) ?_
    · simp only [RightOp.lbp]; omega
    · exact .loopBin r2 (lbp_nonneg _) (not_rbp_le hg) w2 hc2 (.expr hc1 .loopEnd) .loopEnd

end Stator
