import Verif.Rt.ParserProps

/-!
# Reading a text with two kinds of numbers

What the parser does depends on the text only, not on the numbers it reads: with two ways to read literals the two results have the
same shape, and their constants correspond.
-/

namespace Stator

variable {K K' : Type}

/-- Expressions of the same shape with related constants. -/
inductive Like (R : K → K' → Prop) : Expr K → Expr K' → Prop
  | const {k k'} : R k k' → Like R (.const k) (.const k')
  | var {n} : Like R (.var n) (.var n)
  | un {o a a'} : Like R a a' → Like R (.un o a) (.un o a')
  | bin {o l l' r r'} : Like R l l' → Like R r r' → Like R (.bin o l r) (.bin o l' r')
  | arr {xs ys} : xs.length = ys.length → (∀ p ∈ xs.zip ys, Like R p.1 p.2) → Like R (.arr xs) (.arr ys)
  | dict {xs ys : List (List Char × _)} : xs.map (·.1) = ys.map (·.1) → (∀ p ∈ xs.zip ys, Like R p.1.2 p.2.2) →
      Like R (.dict xs) (.dict ys)

/-- Like, for the state of the parser. -/
inductive LikeCat (R : K → K' → Prop) : Cat K → Cat K' → Prop
  | expr {m} : LikeCat R (.expr m) (.expr m)
  | loop {m M t t'} : Like R t t' → LikeCat R (.loop m M t) (.loop m M t')
  | tok : LikeCat R .tok .tok
  | arr {xs ys} : Like R (.arr xs) (.arr ys) → LikeCat R (.arr xs) (.arr ys)
  | dict {xs ys} : Like R (.dict xs) (.dict ys) → LikeCat R (.dict xs) (.dict ys)

variable {R : K → K' → Prop}

theorem Like.snoc {xs : List (Expr K)} {ys : List (Expr K')} {x y} (h : Like R (.arr xs) (.arr ys)) (hx : Like R x y) :
    Like R (.arr (xs ++ [x])) (.arr (ys ++ [y])) := by
  cases h with
  | arr h1 h2 =>
    refine .arr (by simp [h1]) fun p hp => ?_
    rw [List.zip_append h1, List.mem_append] at hp
    rcases hp with hp | hp
    · exact h2 p hp
    · simp at hp; subst hp; exact hx

theorem Like.dictSet {xs : List (List Char × Expr K)} {ys : List (List Char × Expr K')} {x y} (k : List Char)
    (h : Like R (.dict xs) (.dict ys)) (hx : Like R x y) : Like R (.dict (dictSet xs k x)) (.dict (dictSet ys k y)) := by
  cases h with
  | dict h1 h2 =>
    have hl : xs.length = ys.length := by simpa using congrArg List.length h1
    have ha : xs.any (fun p => p.1 == k) = ys.any (fun p => p.1 == k) := by
      have : ∀ {A : Type} (l : List (List Char × A)), l.any (fun p => p.1 == k) = (l.map (·.1)).any (· == k) := by
        intro A l; simp [List.any_map, Function.comp_def]
      rw [this, this, h1]
    unfold Stator.dictSet
    rw [ha]
    split
    · have hm : ∀ {A : Type} (l : List (List Char × A)) (v : A),
          (l.map fun p => if p.1 = k then (k, v) else p).map (·.1) = l.map (·.1) := by
        intro A l v
        rw [List.map_map]
        refine List.map_congr_left fun p _ => ?_
        simp only [Function.comp]
        split
        · rename_i h; exact h.symm
        · rfl
      refine .dict (by rw [hm, hm, h1]) fun p hp => ?_
      rw [List.zip_map, List.mem_map] at hp
      obtain ⟨q, hq, rfl⟩ := hp
      have hk : q.1.1 = q.2.1 := by
        have : ∀ (xs : List (List Char × Expr K)) (ys : List (List Char × Expr K')), xs.map (·.1) = ys.map (·.1) →
            ∀ q ∈ xs.zip ys, q.1.1 = q.2.1 := by
          intro xs
          induction xs with
          | nil => simp
          | cons a xs ih =>
            intro ys h q hq
            cases ys with
            | nil => simp at hq
            | cons b ys =>
              simp only [List.map_cons, List.cons.injEq] at h
              simp only [List.zip_cons_cons, List.mem_cons] at hq
              rcases hq with rfl | hq
              · exact h.1
              · exact ih ys h.2 q hq
        exact this xs ys h1 q hq
      simp only [Prod.map]
      rw [← hk]
      by_cases hq1 : q.1.1 = k
      · rw [if_pos hq1, if_pos hq1]; exact hx
      · rw [if_neg hq1, if_neg hq1]; exact h2 q hq
    · refine .dict (by simp [h1]) fun p hp => ?_
      rw [List.zip_append hl, List.mem_append] at hp
      rcases hp with hp | hp
      · exact h2 p hp
      · simp at hp; subst hp; exact hx

theorem Like.negate {L : NumLex K} {L' : NumLex K'} (hn : ∀ k k', R k k' → R (L.neg k) (L'.neg k')) {e e'} (h : Like R e e') :
    Like R (negate L e) (negate L' e') := by
  cases h with
  | const h => exact .const (hn _ _ h)
  | var => exact .un .var
  | un h => exact .un (.un h)
  | bin h1 h2 => exact .un (.bin h1 h2)
  | arr h1 h2 => exact .un (.arr h1 h2)
  | dict h1 h2 => exact .un (.dict h1 h2)

theorem D_like {L : NumLex K} {L' : NumLex K'} (hl : ∀ s, R (L.ofLit s) (L'.ofLit s))
    (hn : ∀ k k', R k k' → R (L.neg k) (L'.neg k')) {c ts e rest} (h : D L c ts e rest) :
    ∀ c', LikeCat R c c' → ∃ e', D L' c' ts e' rest ∧ Like R e e' := by
  induction h with
  | expr _ _ ih1 ih2 =>
    rintro _ ⟨⟩
    obtain ⟨t', h1, h2⟩ := ih1 _ .tok
    obtain ⟨e', h3, h4⟩ := ih2 _ (.loop h2)
    exact ⟨e', .expr h1 h3, h4⟩
  | loopEnd =>
    rintro _ ⟨h⟩
    rename_i h
    exact ⟨_, .loopEnd, h⟩
  | loopStop h1 h2 =>
    rintro _ ⟨h⟩
    rename_i h
    exact ⟨_, .loopStop h1 h2, h⟩
  | loopWrap h1 h2 h3 h4 h5 _ h6 _ ih1 ih2 =>
    rintro _ ⟨h⟩
    rename_i h
    obtain ⟨r', g1, g2⟩ := ih1 _ .expr
    obtain ⟨e', g3, g4⟩ := ih2 _ (.loop (.bin h g2))
    exact ⟨e', .loopWrap h1 h2 h3 h4 h5 g1 h6 g3, g4⟩
  | loopBin h1 h2 h3 h4 h5 _ _ ih1 ih2 =>
    rintro _ ⟨h⟩
    rename_i h
    obtain ⟨r', g1, g2⟩ := ih1 _ .expr
    obtain ⟨e', g3, g4⟩ := ih2 _ (.loop (.bin h g2))
    exact ⟨e', .loopBin h1 h2 h3 h4 h5 g1 g3, g4⟩
  | num h => rintro _ ⟨⟩; exact ⟨_, .num h, .const (hl _)⟩
  | var h1 h2 => rintro _ ⟨⟩; exact ⟨_, .var h1 h2, .var⟩
  | skip h1 h2 _ ih =>
    rintro _ ⟨⟩
    obtain ⟨e', g1, g2⟩ := ih _ .expr
    exact ⟨e', .skip h1 h2 g1, g2⟩
  | minus h1 h2 _ ih =>
    rintro _ ⟨⟩
    obtain ⟨e', g1, g2⟩ := ih _ .expr
    exact ⟨_, .minus h1 h2 g1, g2.negate hn⟩
  | paren h1 h2 _ h3 ih =>
    rintro _ ⟨⟩
    obtain ⟨e', g1, g2⟩ := ih _ .expr
    exact ⟨e', .paren h1 h2 g1 h3, g2⟩
  | arr0 h1 h2 => rintro _ ⟨⟩; exact ⟨_, .arr0 h1 h2, .arr rfl (by simp)⟩
  | arr h1 h2 h3 _ ih =>
    rintro _ ⟨⟩
    obtain ⟨e', g1, g2⟩ := ih (.arr []) (.arr (.arr rfl (by simp)))
    exact ⟨e', .arr h1 h2 h3 g1, g2⟩
  | dict0 h1 h2 => rintro _ ⟨⟩; exact ⟨_, .dict0 h1 h2, .dict rfl (by simp)⟩
  | dict h1 h2 h3 _ ih =>
    rintro _ ⟨⟩
    obtain ⟨e', g1, g2⟩ := ih (.dict []) (.dict (.dict rfl (by simp)))
    exact ⟨e', .dict h1 h2 h3 g1, g2⟩
  | fn h1 h2 _ ih =>
    rintro _ ⟨⟩
    obtain ⟨e', g1, g2⟩ := ih _ .expr
    exact ⟨_, .fn h1 h2 g1, .un g2⟩
  | arrLast _ h1 ih =>
    rintro _ ⟨h⟩
    rename_i h
    obtain ⟨e', g1, g2⟩ := ih _ .expr
    exact ⟨_, .arrLast g1 h1, h.snoc g2⟩
  | arrMore _ h1 _ ih1 ih2 =>
    rintro _ ⟨h⟩
    rename_i h
    obtain ⟨x', g1, g2⟩ := ih1 _ .expr
    obtain ⟨e', g3, g4⟩ := ih2 _ (.arr (h.snoc g2))
    exact ⟨e', .arrMore g1 h1 g3, g4⟩
  | dictLast _ h1 _ h2 ih1 ih2 =>
    rintro _ ⟨h⟩
    rename_i h
    obtain ⟨k', g1, g2⟩ := ih1 _ .expr
    cases g2
    obtain ⟨v', g3, g4⟩ := ih2 _ .expr
    exact ⟨_, .dictLast g1 h1 g3 h2, h.dictSet _ g4⟩
  | dictMore _ h1 _ h2 _ ih1 ih2 ih3 =>
    rintro _ ⟨h⟩
    rename_i h
    obtain ⟨k', g1, g2⟩ := ih1 _ .expr
    cases g2
    obtain ⟨v', g3, g4⟩ := ih2 _ .expr
    obtain ⟨e', g5, g6⟩ := ih3 _ (.dict (h.dictSet _ g4))
    exact ⟨e', .dictMore g1 h1 g3 h2 g5, g6⟩

/-- The text decides the shape: with another way to read literals (and to negate numbers) that is related to the first, the same
texts are accepted, and the results have the same shape and related constants. -/
theorem parse_like {L : NumLex K} {L' : NumLex K'} (hl : ∀ s, R (L.ofLit s) (L'.ofLit s))
    (hn : ∀ k k', R k k' → R (L.neg k) (L'.neg k')) {s : List Char} {e : Expr K} (h : parse L s = .ok e) :
    ∃ e', parse L' s = .ok e' ∧ Like R e e' := by
  obtain ⟨h1, h2⟩ := (parse_ok_iff L s e).1 h
  obtain ⟨e', g1, g2⟩ := D_like hl hn h2 _ .expr
  exact ⟨e', (parse_ok_iff L' s e').2 ⟨h1, g1⟩, g2⟩

end Stator
