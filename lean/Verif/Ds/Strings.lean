import Mathlib.Data.List.Infix
import Mathlib.Tactic.Linarith
import Verif.Ds.Outcome

/-!
# String helpers (C43, C44)

Models `strip` and `search_replace` of `stator/string.hpp`. Strings are lists of characters; the limit
`max_size()` and allocation failure are not modelled. The members of `std::string` that are used are written
out below.
-/

namespace Stator.Ds

/-- `std::string::find_first_not_of`: the first position whose character is not in `ws`. -/
def findFirstNotOf (ws : List Char) : Nat → List Char → Option Nat
  | _, [] => none
  | p, c :: s => if c ∈ ws then findFirstNotOf ws (p + 1) s else some p

/-- `std::string::find_last_not_of`: scans the positions `n-1, ..., 0` of `s`. -/
def findLastNotOf (ws s : List Char) : Nat → Option Nat
  | 0 => none
  | n + 1 =>
    match s[n]? with
    | none => findLastNotOf ws s n
    | some c => if c ∈ ws then findLastNotOf ws s n else some n

/-- `std::string::substr`: throws `out_of_range` past the end, otherwise at most `n` characters. -/
def substr (s : List Char) (pos n : Nat) : Out (List Char) :=
  if s.length < pos then .throw else .ok ((s.drop pos).take n)

/-- `strip`. `strEnd - strBegin + 1` is unsigned: should `strEnd` be smaller it would wrap; `W` is the size of
the number range. models: string.hpp:37-46. -/
def strip (W : Nat) (s ws : List Char) : Out (List Char) :=
  match findFirstNotOf ws 0 s with
  | none => .ok []
  | some b =>
    match findLastNotOf ws s s.length with
    | none => substr s b ((W - 1 + W - b + 1) % W)
    | some e => substr s b ((e + W - b + 1) % W)

/-- `std::string::find(pat, loc)` on the remaining text, which starts at position `p`. -/
def findAux (pat : List Char) : Nat → List Char → Option Nat
  | p, [] => if pat.isPrefixOf [] then some p else none
  | p, c :: s => if pat.isPrefixOf (c :: s) then some p else findAux pat (p + 1) s

/-- `std::string::find(pat, loc)`: the first position from `loc` on where `pat` stands. -/
def strFind (s pat : List Char) (loc : Nat) : Option Nat :=
  if loc ≤ s.length then findAux pat loc (s.drop loc) else none

/-- `std::string::replace(loc, len, repl)` for a position inside of the text. -/
def strReplace (s : List Char) (loc len : Nat) (repl : List Char) : List Char :=
  s.take loc ++ repl ++ s.drop (loc + len)

/-- The loop of `search_replace`; `none`: not finished after that many rounds.
models: string.hpp:78-86. -/
def srLoop (pat repl : List Char) : Nat → List Char → Nat → Nat → Option (List Char × Nat)
  | 0, _, _, _ => none
  | fuel + 1, s, loc, n =>
    match strFind s pat loc with
    | none => some (s, n)
    | some p =>
      let s' := strReplace s p pat.length repl
      let loc' := p + repl.length
      if loc' ≥ s'.length then some (s', n + 1) else srLoop pat repl fuel s' loc' (n + 1)

/-- `search_replace` with a bound on the rounds of its loop. models: string.hpp:69-90. -/
def searchReplace (fuel : Nat) (s pat repl : List Char) : Option (List Char × Nat) :=
  if s.isEmpty then some (s, 0) else srLoop pat repl fuel s 0 0

/-! ## Specification -/

/-- `r` is `s` with the characters of `ws` taken off both ends. -/
def Stripped (ws s r : List Char) : Prop :=
  ∃ pre post, s = pre ++ r ++ post ∧ (∀ c ∈ pre, c ∈ ws) ∧ (∀ c ∈ post, c ∈ ws) ∧
    (∀ c, r.head? = some c → c ∉ ws) ∧ (∀ c, r.getLast? = some c → c ∉ ws) ∧
    (r = [] → post = [])

/-- `out` is `s` with each of its `n` occurrences of `pat`, found from the left and not overlapping, replaced
by `to`. -/
inductive Replaced (pat repl : List Char) : List Char → List Char → Nat → Prop
  | none (s) : ¬ (∃ a b, s = a ++ pat ++ b) → Replaced pat repl s s 0
  | next (a b b' n) : (∀ a' b'', a ++ pat ++ b = a' ++ pat ++ b'' → a.length ≤ a'.length) →
      Replaced pat repl b b' n → Replaced pat repl (a ++ pat ++ b) (a ++ repl ++ b') (n + 1)

/-! ## Lemmas -/

theorem findFirstNotOf_none {ws s : List Char} {p : Nat} :
    findFirstNotOf ws p s = none ↔ ∀ c ∈ s, c ∈ ws := by
  induction s generalizing p with
  | nil => simp [findFirstNotOf]
  | cons c s ih =>
    unfold findFirstNotOf
    split
    · rename_i h; simp [ih, h]
    · rename_i h; simp [h]

theorem findFirstNotOf_some {ws s : List Char} {p q : Nat} (h : findFirstNotOf ws p s = some q) :
    ∃ pre c t, s = pre ++ c :: t ∧ (∀ x ∈ pre, x ∈ ws) ∧ c ∉ ws ∧ q = p + pre.length := by
  induction s generalizing p with
  | nil => simp [findFirstNotOf] at h
  | cons c s ih =>
    unfold findFirstNotOf at h
    split at h
    · rename_i hc
      obtain ⟨pre, d, t, rfl, hp, hd, rfl⟩ := ih h
      refine ⟨c :: pre, d, t, rfl, ?_, hd, by simp; omega⟩
      intro x hx
      rcases List.mem_cons.1 hx with rfl | hx
      · exact hc
      · exact hp x hx
    · rename_i hc
      obtain rfl := Option.some.inj h
      exact ⟨[], c, s, rfl, by simp, hc, by simp⟩

theorem findLastNotOf_append (ws s u : List Char) (n : Nat) (h : n ≤ s.length) :
    findLastNotOf ws (s ++ u) n = findLastNotOf ws s n := by
  induction n with
  | zero => rfl
  | succ n ih =>
    have : n < s.length := h
    simp only [findLastNotOf, List.getElem?_append_left this]
    rw [ih (by omega)]

theorem findLastNotOf_suffix (ws s : List Char) (c : Char) (post : List Char) (hc : c ∉ ws)
    (hp : ∀ x ∈ post, x ∈ ws) :
    findLastNotOf ws (s ++ c :: post) (s ++ c :: post).length = some s.length := by
  induction post using List.reverseRecOn with
  | nil =>
    simp only [List.length_append, List.length_singleton, findLastNotOf]
    rw [List.getElem?_append_right (Nat.le_refl _)]
    simp [hc]
  | append_singleton post d ih =>
    have e : s ++ c :: (post ++ [d]) = (s ++ c :: post) ++ [d] := by simp
    rw [e]
    have hl : ((s ++ c :: post) ++ [d]).length = (s ++ c :: post).length + 1 := by simp; omega
    rw [hl]
    simp only [findLastNotOf]
    rw [List.getElem?_append_right (Nat.le_refl _)]
    have hd : d ∈ ws := hp d (by simp)
    simp only [Nat.sub_self, List.getElem?_cons_zero, hd, if_true]
    rw [findLastNotOf_append _ _ _ _ (Nat.le_refl _)]
    exact ih fun x hx => hp x (by simp [hx])

/-- Every text that has a character outside of `ws` splits at its last one. -/
theorem split_last {ws : List Char} {t : List Char} (h : ∃ c ∈ t, c ∉ ws) :
    ∃ u c post, t = u ++ c :: post ∧ c ∉ ws ∧ ∀ x ∈ post, x ∈ ws := by
  induction t using List.reverseRecOn with
  | nil => simp at h
  | append_singleton t d ih =>
    by_cases hd : d ∈ ws
    · obtain ⟨c, hc, hcw⟩ := h
      rcases List.mem_append.1 hc with hc | hc
      · obtain ⟨u, e, post, rfl, he, hp⟩ := ih ⟨c, hc, hcw⟩
        refine ⟨u, e, post ++ [d], by simp, he, ?_⟩
        intro x hx
        rcases List.mem_append.1 hx with hx | hx
        · exact hp x hx
        · simp at hx; subst hx; exact hd
      · simp at hc; subst hc; exact absurd hd hcw
    · exact ⟨t, d, [], rfl, hd, by simp⟩

theorem Stripped.unique {ws s r r' : List Char} (h : Stripped ws s r) (h' : Stripped ws s r') : r = r' := by
  have key : ∀ r, Stripped ws s r →
      r = ((s.dropWhile (· ∈ ws)).reverse.dropWhile (· ∈ ws)).reverse := by
    intro r ⟨pre, post, e, h1, h2, h3, h4, h5⟩
    have hd : s.dropWhile (· ∈ ws) = r ++ post := by
      rw [e, List.append_assoc, List.dropWhile_append_of_pos (by simpa using h1)]
      cases r with
      | nil => simp [h5 rfl]
      | cons c r =>
        have := h3 c rfl
        simp [this]
    rw [hd, List.reverse_append, List.dropWhile_append_of_pos (by simpa using h2)]
    have : r.reverse.dropWhile (· ∈ ws) = r.reverse := by
      cases hr : r.reverse with
      | nil => rfl
      | cons c q =>
        have : c ∉ ws := h4 c (by rw [List.getLast?_eq_head?_reverse, hr]; rfl)
        simp [this]
    rw [this, List.reverse_reverse]
  rw [key r h, key r' h']

/-! ## C43 -/

/-- C43: `strip` ends without an exception, and its result is the text with the whitespace taken off both ends.
`W` is the size of the range of `size_t`, which is larger than every text. -/
theorem C43_strip (W : Nat) (s ws : List Char) (hW : s.length < W) :
    ∃ r, strip W s ws = .ok r ∧ Stripped ws s r := by
  unfold strip
  cases hf : findFirstNotOf ws 0 s with
  | none =>
    exact ⟨[], rfl, s, [], by simp, findFirstNotOf_none.1 hf, by simp, by simp, by simp, by simp⟩
  | some b =>
    obtain ⟨pre, c, t, rfl, hpre, hc, rfl⟩ := findFirstNotOf_some hf
    obtain ⟨u, d, post, hu, hd, hpost⟩ := split_last (ws := ws) (t := c :: t) ⟨c, by simp, hc⟩
    have hl := findLastNotOf_suffix ws (pre ++ u) d post hd hpost
    rw [List.append_assoc, ← hu] at hl
    simp only [hl]
    refine ⟨u ++ [d], ?_, pre, post, ?_, hpre, hpost, ?_, ?_, ?_⟩
    · have hlen : (pre ++ c :: t).length = pre.length + u.length + 1 + post.length := by
        rw [hu]; simp; omega
      have : ((pre ++ u).length + W - (0 + pre.length) + 1) % W = u.length + 1 := by
        have : (pre ++ u).length + W - (0 + pre.length) + 1 = (u.length + 1) + W := by simp; omega
        rw [this, Nat.add_mod_right, Nat.mod_eq_of_lt (by omega)]
      rw [this]
      unfold substr
      rw [if_neg (by simp), hu, show u ++ d :: post = (u ++ [d]) ++ post by simp]
      simp only [Nat.zero_add, List.drop_left]
      rw [List.take_left' (by simp)]
    · rw [hu]; simp
    · intro x hx
      cases u with
      | nil => simp at hx hu; subst hx; exact hd
      | cons y u => simp at hx hu; rw [← hx, ← hu.1]; exact hc
    · intro x hx; simp at hx; subst hx; exact hd
    · simp

/-- C43: the result is the only text that is the given one without the whitespace at its ends. -/
theorem C43_unique (W : Nat) (s ws r : List Char) (hW : s.length < W) :
    strip W s ws = .ok r ↔ Stripped ws s r := by
  obtain ⟨r', h, hs⟩ := C43_strip W s ws hW
  constructor
  · intro h'; rw [h] at h'; injection h' with e; exact e ▸ hs
  · intro h'; rw [h, hs.unique h']

/-- C43: stripping twice is stripping once. -/
theorem C43_idempotent (W : Nat) (s ws r : List Char) (hW : s.length < W) (h : strip W s ws = .ok r) :
    strip W r ws = .ok r := by
  obtain ⟨pre, post, e, h1, h2, h3, h4, h5⟩ := (C43_unique W s ws r hW).1 h
  have : r.length < W := by rw [e] at hW; simp at hW; omega
  exact (C43_unique W r ws r this).2 ⟨[], [], by simp, by simp, by simp, h3, h4, by simp⟩

example : strip (2 ^ 64) "  a b\t ".toList " \t".toList = .ok "a b".toList ∧
    strip (2 ^ 64) " \t ".toList " \t".toList = .ok [] ∧
    strip (2 ^ 64) "xxabxx".toList "x".toList = .ok "ab".toList := by decide

/-! ## C44 -/

theorem findAux_spec (pat s : List Char) (p : Nat) :
    (findAux pat p s = none ∧ ¬ ∃ a b, s = a ++ pat ++ b) ∨
    (∃ a b, s = a ++ pat ++ b ∧ findAux pat p s = some (p + a.length) ∧
      ∀ a' b', s = a' ++ pat ++ b' → a.length ≤ a'.length) := by
  induction s generalizing p with
  | nil =>
    by_cases h : pat = []
    · right
      subst h
      exact ⟨[], [], rfl, by simp [findAux], by simp⟩
    · left
      refine ⟨?_, ?_⟩
      · cases pat with
        | nil => exact absurd rfl h
        | cons c q => simp [findAux]
      · rintro ⟨a, b, e⟩
        simp at e
        exact h e.2.1
  | cons c s ih =>
    by_cases h : pat <+: c :: s
    · right
      obtain ⟨b, hb⟩ := h
      refine ⟨[], b, by simp [hb], ?_, by simp⟩
      have : pat.isPrefixOf (c :: s) = true := List.isPrefixOf_iff_prefix.2 ⟨b, hb⟩
      simp [findAux, this]
    · have hf : findAux pat p (c :: s) = findAux pat (p + 1) s := by
        have : ¬ pat.isPrefixOf (c :: s) = true := fun e => h (List.isPrefixOf_iff_prefix.1 e)
        simp only [findAux, if_neg this]
      have hcons : ∀ a b, c :: s = a ++ pat ++ b → ∃ a', a = c :: a' ∧ s = a' ++ pat ++ b := by
        intro a b e
        cases a with
        | nil => exact absurd ⟨b, by simpa using e.symm⟩ h
        | cons d a => simp at e; exact ⟨a, by rw [e.1], by simp [e.2]⟩
      rcases ih (p + 1) with ⟨h1, h2⟩ | ⟨a, b, h1, h2, h3⟩
      · left
        refine ⟨by rw [hf, h1], ?_⟩
        rintro ⟨a, b, e⟩
        obtain ⟨a', -, e'⟩ := hcons a b e
        exact h2 ⟨a', b, e'⟩
      · right
        refine ⟨c :: a, b, by simp [h1], ?_, ?_⟩
        · rw [hf, h2]; simp; omega
        · intro a' b' e
          obtain ⟨a'', rfl, e'⟩ := hcons a' b' e
          have := h3 a'' b' e'
          simp; exact this

theorem strFind_spec (pat d s : List Char) :
    (strFind (d ++ s) pat d.length = none ∧ ¬ ∃ a b, s = a ++ pat ++ b) ∨
    (∃ a b, s = a ++ pat ++ b ∧ strFind (d ++ s) pat d.length = some (d.length + a.length) ∧
      ∀ a' b', s = a' ++ pat ++ b' → a.length ≤ a'.length) := by
  have : strFind (d ++ s) pat d.length = findAux pat d.length s := by
    unfold strFind; rw [if_pos (by simp)]; simp
  rw [this]
  exact findAux_spec pat s d.length

theorem srLoop_spec (pat repl : List Char) (hp : pat ≠ []) :
    ∀ (m fuel : Nat) (d s : List Char) (n : Nat), s.length ≤ m → m < fuel →
      ∃ out k, srLoop pat repl fuel (d ++ s) d.length n = some (d ++ out, n + k) ∧ Replaced pat repl s out k := by
  intro m
  induction m using Nat.strong_induction_on with
  | _ m ih =>
    intro fuel d s n hs hfuel
    obtain ⟨fuel, rfl⟩ : ∃ f, fuel = f + 1 := ⟨fuel - 1, by omega⟩
    have hpl : 0 < pat.length := List.length_pos_iff.2 hp
    rcases strFind_spec pat d s with ⟨h1, h2⟩ | ⟨a, b, h1, h2, h3⟩
    · exact ⟨s, 0, by simp [srLoop, h1], .none s h2⟩
    · have hr : strReplace (d ++ s) (d.length + a.length) pat.length repl = (d ++ a ++ repl) ++ b := by
        subst h1
        unfold strReplace
        have e1 : d ++ (a ++ pat ++ b) = (d ++ a) ++ (pat ++ b) := by simp
        rw [e1, ← List.length_append, List.take_left, ← List.drop_drop, List.drop_left, List.drop_left]
      have hl : d.length + a.length + repl.length = (d ++ a ++ repl).length := by simp; omega
      simp only [srLoop, h2, hr, hl]
      have hb : b.length < s.length := by subst h1; simp; omega
      by_cases hend : (d ++ a ++ repl).length ≥ (d ++ a ++ repl ++ b).length
      · have : b = [] := by
          rw [List.length_append (as := d ++ a ++ repl)] at hend
          exact List.length_eq_zero_iff.1 (by omega)
        subst this
        rw [if_pos hend]
        refine ⟨a ++ repl ++ [], 1, by simp, ?_⟩
        subst h1
        refine .next a [] [] 0 h3 (.none [] ?_)
        rintro ⟨a', b', e⟩
        simp at e
        exact hp e.2.1
      · rw [if_neg hend]
        obtain ⟨out, k, h4, h5⟩ := ih (m - 1) (by omega) fuel (d ++ a ++ repl) b (n + 1) (by omega) (by omega)
        refine ⟨a ++ repl ++ out, k + 1, ?_, ?_⟩
        · rw [h4]; simp; omega
        · subst h1; exact .next a b out k h3 h5

theorem Replaced.unique {pat repl s o o' : List Char} {n n' : Nat} (h : Replaced pat repl s o n)
    (h' : Replaced pat repl s o' n') : o = o' ∧ n = n' := by
  induction h generalizing o' n' with
  | none s hs =>
    cases h' with
    | none => exact ⟨rfl, rfl⟩
    | next a b b' m _ _ => exact absurd ⟨a, b, rfl⟩ hs
  | next a b b' m hmin hrest ih =>
    generalize hx : a ++ pat ++ b = x at h'
    cases h' with
    | none _ hs => exact absurd ⟨a, b, hx.symm⟩ hs
    | next a₂ b₂ b₂' m₂ hmin₂ hrest₂ =>
      have h1 := hmin a₂ b₂ hx
      have h2 := hmin₂ a b hx.symm
      have hl : a.length = a₂.length := Nat.le_antisymm h1 h2
      rw [List.append_assoc, List.append_assoc] at hx
      obtain ⟨rfl, e⟩ := List.append_inj hx hl
      obtain rfl := List.append_cancel_left e
      obtain ⟨rfl, rfl⟩ := ih hrest₂
      exact ⟨rfl, rfl⟩

/-- C44: for a search text that is not empty `search_replace` ends (after at most one round more than there
are characters) with the text in which every occurrence, found from the left without overlap, is replaced, and
the number of these. The replacement text is not searched again. -/
theorem C44_search_replace (s pat repl : List Char) (hp : pat ≠ []) (fuel : Nat) (hf : s.length < fuel) :
    ∃ out n, searchReplace fuel s pat repl = some (out, n) ∧ Replaced pat repl s out n := by
  unfold searchReplace
  cases s with
  | nil =>
    refine ⟨[], 0, rfl, .none _ ?_⟩
    rintro ⟨a, b, e⟩
    simp at e
    exact hp e.2.1
  | cons c s =>
    rw [if_neg (by simp)]
    obtain ⟨out, n, h, hr⟩ := srLoop_spec pat repl hp _ fuel [] (c :: s) 0 (Nat.le_refl _) hf
    exact ⟨out, n, by simpa using h, hr⟩

/-- C44: that result is the only one. -/
theorem C44_unique (s pat repl out : List Char) (n : Nat) (hp : pat ≠ []) (fuel : Nat) (hf : s.length < fuel) :
    searchReplace fuel s pat repl = some (out, n) ↔ Replaced pat repl s out n := by
  obtain ⟨o, m, h, hr⟩ := C44_search_replace s pat repl hp fuel hf
  constructor
  · intro e; rw [h] at e; injection e with e; injection e with e1 e2; exact e1 ▸ e2 ▸ hr
  · intro e; obtain ⟨rfl, rfl⟩ := hr.unique e; exact h

/-- C44: the length of the result is as the number of replacements says. -/
theorem C44_length (s pat repl out : List Char) (n : Nat) (h : Replaced pat repl s out n) :
    out.length + n * pat.length = s.length + n * repl.length := by
  induction h with
  | none => simp
  | next a b b' m _ _ ih =>
    simp only [List.length_append, Nat.add_mul, Nat.one_mul]; omega

/-- C44: replacing a text by itself changes nothing. -/
theorem C44_same (s pat out : List Char) (n : Nat) (h : Replaced pat pat s out n) : out = s := by
  induction h with
  | none => rfl
  | next a b b' m _ _ ih => rw [ih]

theorem srLoop_empty_pat (repl : List Char) (fuel : Nat) (d : List Char) (s : List Char) (n : Nat) (hs : s ≠ []) :
    srLoop [] repl fuel (d ++ s) d.length n = none := by
  induction fuel generalizing d n with
  | zero => rfl
  | succ fuel ih =>
    have hf : strFind (d ++ s) [] d.length = some d.length := by
      unfold strFind
      rw [if_pos (by simp)]
      cases s with
      | nil => exact absurd rfl hs
      | cons c s => simp [findAux]
    have hr : strReplace (d ++ s) d.length ([] : List Char).length repl = (d ++ repl) ++ s := by
      simp [strReplace]
    simp only [srLoop, hf, hr]
    rw [if_neg]
    · rw [← List.length_append]; exact ih (d ++ repl) (n + 1)
    · have := List.length_pos_iff.2 hs
      simp; omega

/-- C44 fails for an empty search text: on a text that is not empty the loop of `search_replace` never
ends. -/
theorem C44_empty_pattern_diverges (s repl : List Char) (hs : s ≠ []) (fuel : Nat) :
    searchReplace fuel s [] repl = none := by
  unfold searchReplace
  rw [if_neg (by simpa using hs)]
  simpa using srLoop_empty_pat repl fuel [] s 0 hs

/-- Overlapping occurrences, a replacement that contains the search text, and an occurrence at the end. -/
example : searchReplace 10 "aaa".toList "aa".toList "b".toList = some ("ba".toList, 1) ∧
    searchReplace 10 "xax".toList "a".toList "aa".toList = some ("xaax".toList, 1) ∧
    searchReplace 10 "xaya".toList "a".toList "bc".toList = some ("xbcybc".toList, 2) ∧
    searchReplace 10 "".toList "a".toList "b".toList = some ([], 0) := by decide

end Stator.Ds
