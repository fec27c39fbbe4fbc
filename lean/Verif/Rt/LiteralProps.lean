import Verif.Rt.ParserProps
import Verif.Rt.RoundTripLemmas

/-!
# Array and dictionary literals (C56)

Everything is stated for an arbitrary text and an arbitrary way `L` of reading numbers. The grammar
of `Verif/Rt/Grammar` describes a dictionary by `MapOf`: distinct keys, last value wins.
-/

namespace Stator

/-- The tokens of the comma separated pieces. -/
def commaToks : List (List Tok) → List Tok
  | [] => []
  | [t] => t
  | t :: ts => t ++ [.sym [',']] ++ commaToks ts

/-- The tokens of one written entry. -/
def entryToks {K : Type} (p : List Char × List Tok × Expr K) : List Tok :=
  [.word p.1, .sym [':']] ++ p.2.1

mutual
/-- No dictionary inside the expression has a key twice. -/
def Expr.keysDistinct {K : Type} : Expr K → Prop
  | .const _ => True
  | .var _ => True
  | .un _ a => a.keysDistinct
  | .bin _ l r => l.keysDistinct ∧ r.keysDistinct
  | .arr xs => keysDistinctList xs
  | .dict kvs => (kvs.map Prod.fst).Nodup ∧ keysDistinctDict kvs
def keysDistinctList {K : Type} : List (Expr K) → Prop
  | [] => True
  | x :: xs => x.keysDistinct ∧ keysDistinctList xs
def keysDistinctDict {K : Type} : List (List Char × Expr K) → Prop
  | [] => True
  | (_, v) :: kvs => v.keysDistinct ∧ keysDistinctDict kvs
end

theorem keysDistinctList_iff {K : Type} (xs : List (Expr K)) :
    keysDistinctList xs ↔ ∀ x ∈ xs, x.keysDistinct := by
  induction xs with
  | nil => simp [keysDistinctList]
  | cons x xs ih => simp [keysDistinctList, ih]

theorem keysDistinctDict_iff {K : Type} (kvs : List (List Char × Expr K)) :
    keysDistinctDict kvs ↔ ∀ p ∈ kvs, p.2.keysDistinct := by
  induction kvs with
  | nil => simp [keysDistinctDict]
  | cons x xs ih => obtain ⟨k, v⟩ := x; simp only [keysDistinctDict, ih, List.forall_mem_cons]

theorem gram_keys {K : Type} (L : NumLex K) {ts : List Tok} {e : Expr K} (h : Gram L ts e) :
    e.keysDistinct := by
  refine Gram.rec (motive_1 := fun _ e _ => e.keysDistinct)
    (motive_2 := fun _ xs _ => ∀ x ∈ xs, x.keysDistinct)
    (motive_3 := fun _ es _ => ∀ p ∈ es, p.2.keysDistinct)
    ?_ ?_ ?_ ?_ ?_ ?_ ?_ ?_ ?_ ?_ ?_ ?_ ?_ ?_ ?_ ?_ ?_ h
  case refine_4 =>
    intro ts e _ ih
    cases e <;> simp_all [negate, Expr.keysDistinct]
  case refine_11 => intro ts xs _ ih; rw [Expr.keysDistinct, keysDistinctList_iff]; exact ih
  case refine_13 =>
    intro ts es kvs _ hm ih
    rw [Expr.keysDistinct, keysDistinctDict_iff]
    refine ⟨hm.1, ?_⟩
    rintro ⟨k, v⟩ hp
    obtain ⟨a, b, rfl, -⟩ := (hm.2 k v).1 hp
    exact ih (k, v) (by simp)
  case refine_15 =>
    intro _ _ xs e _ _ ih1 ih2 x hx
    rcases List.mem_append.1 hx with h | h
    · exact ih1 x h
    · simp at h; subst h; exact ih2
  case refine_16 => intro _ _ k v _ _ _ ih p hp; simp at hp; subst hp; exact ih
  case refine_17 =>
    intro _ _ _ es k v _ _ _ ih1 _ ih2 p hp
    rcases List.mem_append.1 hp with h | h
    · exact ih1 p h
    · simp at h; subst h; exact ih2
  all_goals intros; simp_all [Expr.keysDistinct, keysDistinctList, keysDistinctDict]

/-- C56. Whatever the text, no dictionary in the parsed expression has a key twice. -/
theorem C56_keys_distinct {K : Type} (L : NumLex K) (s : List Char) (e : Expr K)
    (h : parse L s = .ok e) : e.keysDistinct :=
  gram_keys L (C04_whole_text L s e h).1

theorem commaToks_cons {t : List Tok} {ts : List (List Tok)} (h : ts ≠ []) :
    commaToks (t :: ts) = t ++ [.sym [',']] ++ commaToks ts := by
  cases ts with
  | nil => exact absurd rfl h
  | cons _ _ => rfl

theorem D_arr_lit {K : Type} (L : NumLex K) (items : List (List Tok × Expr K)) (hne : items ≠ [])
    (h : ∀ p ∈ items, NB p.1 ∧ D L (.expr 0) p.1 p.2 []) (acc : List (Expr K)) (rest : List Tok)
    (hr : NB rest) :
    D L (.arr acc) (commaToks (items.map Prod.fst) ++ .sym [']'] :: rest)
      (.arr (acc ++ items.map Prod.snd)) rest ∧ NB (commaToks (items.map Prod.fst)) := by
  induction items generalizing acc with
  | nil => exact absurd rfl hne
  | cons p items ih =>
    obtain ⟨h1, h2⟩ := h p (by simp)
    by_cases hi : items = []
    · subst hi
      refine ⟨?_, h1⟩
      have := D_extend' L (t := .sym [']']) rfl rest h2 (by simp [Cat.nonneg])
      exact .arrLast this hr
    · obtain ⟨i1, i2⟩ := ih hi (fun q hq => h q (by simp [hq])) (acc ++ [p.2])
      rw [List.map_cons, commaToks_cons (by simpa using hi)]
      refine ⟨?_, ?_⟩
      · have := D_extend' L (t := .sym [',']) rfl
          (commaToks (items.map Prod.fst) ++ .sym [']'] :: rest) h2 (by simp [Cat.nonneg])
        simp only [List.append_assoc, List.cons_append, List.nil_append] at this i1 ⊢
        exact .arrMore this (i2.append (by simp [NB])) i1
      · rw [List.append_assoc]; exact h1.append (by simp [NB])

theorem D_key {K : Type} {L : NumLex K} {k : List Char} (hk : ∀ o, fnName o ≠ some k) (rest : List Tok) :
    D L (.expr 0) (.word k :: .sym [':'] :: rest) (.var k) (.sym [':'] :: rest) := by
  refine .expr (.var ?_ (by simp [NB])) (.loopStop (o := .halt) rfl (.inl (by decide)))
  unfold leftOp
  split <;> simp_all [fnName]
  · exact hk .sin rfl
  · exact hk .cos rfl
  · exact hk .exp rfl
  · exact hk .log rfl

theorem D_dict_lit {K : Type} (L : NumLex K) (items : List (List Char × List Tok × Expr K))
    (hne : items ≠ [])
    (h : ∀ p ∈ items, (∀ o, fnName o ≠ some p.1) ∧ NB p.2.1 ∧ D L (.expr 0) p.2.1 p.2.2 [])
    (acc : List (List Char × Expr K)) (rest : List Tok) (hr : NB rest) :
    D L (.dict acc) (commaToks (items.map entryToks) ++ .sym ['}'] :: rest)
      (.dict ((items.map fun p => (p.1, p.2.2)).foldl (fun m p => dictSet m p.1 p.2) acc)) rest ∧
      NB (commaToks (items.map entryToks)) := by
  induction items generalizing acc with
  | nil => exact absurd rfl hne
  | cons p items ih =>
    obtain ⟨hk, h1, h2⟩ := h p (by simp)
    by_cases hi : items = []
    · subst hi
      refine ⟨?_, by simp [commaToks, entryToks, NB]⟩
      have := D_extend' L (t := .sym ['}']) rfl rest h2 (by simp [Cat.nonneg])
      simp only [List.nil_append] at this
      simp only [List.map_cons, List.map_nil, commaToks, entryToks, List.cons_append,
        List.nil_append, List.foldl_cons, List.foldl_nil]
      exact .dictLast (D_key hk _) (h1.append (by simp [NB])) this hr
    · obtain ⟨i1, i2⟩ := ih hi (fun q hq => h q (by simp [hq])) (dictSet acc p.1 p.2.2)
      rw [List.map_cons, commaToks_cons (by simpa using hi)]
      refine ⟨?_, by simp [entryToks, NB]⟩
      have := D_extend' L (t := .sym [',']) rfl
        (commaToks (items.map entryToks) ++ .sym ['}'] :: rest) h2 (by simp [Cat.nonneg])
      simp only [List.append_assoc, List.cons_append, List.nil_append, entryToks, List.map_cons,
        List.foldl_cons] at this i1 ⊢
      exact .dictMore (D_key hk _) (h1.append (by simp [NB])) this (i2.append (by simp [NB])) i1

/-- C56. A text `[t1, …, tn]` whose pieces are texts of expressions is the array of these
expressions, in order. -/
theorem C56_array {K : Type} (L : NumLex K) (items : List (List Char × Expr K)) (hne : items ≠ [])
    (h : ∀ p ∈ items, parse L p.1 = .ok p.2) (s : List Char)
    (hs : lex s = [.sym ['[']] ++ commaToks (items.map fun p => lex p.1) ++ [.sym [']']]) :
    parse L s = .ok (.arr (items.map Prod.snd)) := by
  rw [parse_ok_iff, hs]
  have h' : ∀ p ∈ items.map (fun p => (lex p.1, p.2)), NB p.1 ∧ D L (.expr 0) p.1 p.2 [] := by
    intro p hp
    obtain ⟨q, hq, rfl⟩ := List.mem_map.1 hp
    exact (parse_ok_iff L _ _).1 (h q hq)
  obtain ⟨h1, h2⟩ := D_arr_lit L _ (by simpa using hne) h' [] [] (by simp [NB])
  simp only [List.map_map, List.nil_append, Function.comp_def] at h1 h2
  refine ⟨by simp [NB], ?_⟩
  simp only [List.append_assoc, List.cons_append, List.nil_append]
  refine .expr (.arr rfl (h2.append (by simp [NB])) ?_ h1) .loopEnd
  -- the first piece does not start with a closing bracket
  obtain ⟨p, items, rfl⟩ := List.exists_cons_of_ne_nil hne
  have hd := (parse_ok_iff L _ _).1 (h p (by simp))
  have hn := D_nonempty L hd.2 (by simp)
  obtain ⟨t, ts, ht⟩ := List.exists_cons_of_ne_nil hn
  have : (commaToks ((p :: items).map fun p => lex p.1)).head? = some t := by
    by_cases hi : items = []
    · subst hi; simp [commaToks, ht]
    · rw [List.map_cons, commaToks_cons (by simpa using hi), ht]; simp
  rw [List.head?_append, this]
  simp only [Option.some_or]
  intro h0
  rw [Option.some.injEq] at h0
  subst h0
  have hg := gram_neutral L (C04_whole_text L _ _ (h p (by simp))).1 [] []
  rw [ht] at hg
  simp [bal] at hg

/-- C56. A text `{k1 : t1, …, kn : tn}` whose keys are names and whose values are texts of expressions
is a dictionary; it is the map written: distinct keys, and a repeated key has its last value. -/
theorem C56_dictionary {K : Type} (L : NumLex K) (items : List (List Char × List Char × Expr K))
    (hne : items ≠ [])
    (h : ∀ p ∈ items, (∀ o, fnName o ≠ some p.1) ∧ parse L p.2.1 = .ok p.2.2) (s : List Char)
    (hs : lex s = [.sym ['{']] ++
      commaToks (items.map fun p => [.word p.1, .sym [':']] ++ lex p.2.1) ++ [.sym ['}']]) :
    ∃ kvs, parse L s = .ok (.dict kvs) ∧ MapOf (items.map fun p => (p.1, p.2.2)) kvs := by
  have h' : ∀ p ∈ items.map (fun p => (p.1, lex p.2.1, p.2.2)),
      (∀ o, fnName o ≠ some p.1) ∧ NB p.2.1 ∧ D L (.expr 0) p.2.1 p.2.2 [] := by
    intro p hp
    obtain ⟨q, hq, rfl⟩ := List.mem_map.1 hp
    exact ⟨(h q hq).1, (parse_ok_iff L _ _).1 (h q hq).2⟩
  obtain ⟨h1, h2⟩ := D_dict_lit L _ (by simpa using hne) h' [] [] (by simp [NB])
  simp only [List.map_map, Function.comp_def, entryToks] at h1 h2
  refine ⟨_, ?_, by simpa using foldl_mapOf (items.map fun p => (p.1, p.2.2)) [] [] mapOf_nil⟩
  rw [parse_ok_iff, hs]
  refine ⟨by simp [NB], ?_⟩
  simp only [List.append_assoc, List.cons_append, List.nil_append] at h1 h2 ⊢
  refine .expr (.dict rfl (h2.append (by simp [NB])) ?_ h1) .loopEnd
  obtain ⟨p, items, rfl⟩ := List.exists_cons_of_ne_nil hne
  by_cases hi : items = []
  · subst hi; simp [commaToks]
  · rw [List.map_cons, commaToks_cons (by simpa using hi)]; simp

/-- The hypotheses are met: `{a : 1, b : x, a : 2}` has two entries, and `a` is 2. -/
example : parse textNum ['{', 'a', ':', '1', ',', 'b', ':', 'x', ',', 'a', ':', '2', '}'] =
    .ok (.dict [(['a'], .const ['2']), (['b'], .var ['x'])]) := by
  rw [parse_eq_fuel]; rfl

example : ∃ kvs, parse textNum ['{', 'a', ':', '1', ',', 'b', ':', 'x', ',', 'a', ':', '2', '}'] =
    .ok (.dict kvs) ∧
    MapOf [(['a'], .const ['1']), (['b'], .var ['x']), (['a'], .const ['2'])] kvs := by
  refine C56_dictionary textNum [(['a'], ['1'], .const ['1']), (['b'], ['x'], .var ['x']),
    (['a'], ['2'], .const ['2'])] (by simp) ?_ _ ?_
  · intro p hp
    simp at hp
    rcases hp with rfl | rfl | rfl
    all_goals refine ⟨fun o => by cases o <;> simp [fnName], ?_⟩
    all_goals rw [parse_eq_fuel]; rfl
  · simp only [List.map]
    rw [lex_eq_fuel 20 _ (by decide), lex_eq_fuel 20 ['1'] (by decide),
      lex_eq_fuel 20 ['x'] (by decide), lex_eq_fuel 20 ['2'] (by decide)]
    rfl

example : parse textNum ['[', '1', ',', ' ', 'x', ']'] = .ok (.arr [.const ['1'], .var ['x']]) := by
  refine C56_array textNum [(['1'], .const ['1']), (['x'], .var ['x'])] (by simp) ?_ _ ?_
  · intro p hp
    simp at hp
    rcases hp with rfl | rfl
    all_goals rw [parse_eq_fuel]; rfl
  · simp only [List.map]
    rw [lex_eq_fuel 20 _ (by decide), lex_eq_fuel 20 ['1'] (by decide),
      lex_eq_fuel 20 ['x'] (by decide)]
    rfl

end Stator
