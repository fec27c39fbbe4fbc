import Verif.Rt.ParseLemmas
import Verif.Rt.LexLemmas
import Mathlib.Tactic.Common

/-!
# Facts about `lex` and the whole parser (helper lemmas)
-/

namespace Stator

/-- The parser with the amount of fuel that always suffices. -/
def parse {K : Type} (L : NumLex K) (s : List Char) : Res (Expr K) :=
  parseString L (3 * s.length + 2) s

theorem lex_length (cs : List Char) : (lex cs).length ≤ cs.length := by
  fun_induction lex cs with
  | case1 => simp
  | case2 cs c cs' h hb =>
    have := skipSpaces_length cs
    rw [h] at this
    simp at this ⊢; omega
  | case3 cs c cs' h hb ih =>
    have h1 := skipSpaces_length cs
    have h2 := lexOne_length c cs'
    rw [h] at h1
    simp at h1 ⊢; omega

theorem parseToks_terminates {K : Type} (L : NumLex K) (n : Nat) (ts : List Tok)
    (h : 3 * ts.length + 2 ≤ n) : parseToks L n ts ≠ .diverge := by
  unfold parseToks
  split
  · simp
  · refine Res.bind_ne_diverge (run_terminates L n (.expr 0) _ h) ?_
    rintro ⟨e, rest⟩ -
    dsimp only
    split <;> simp

theorem parseToks_det {K : Type} (L : NumLex K) (n m : Nat) (ts : List Tok)
    (hn : 3 * ts.length + 2 ≤ n) (hm : 3 * ts.length + 2 ≤ m) :
    parseToks L n ts = parseToks L m ts := by
  unfold parseToks
  split
  · rfl
  · have := run_det L n m (.expr 0) ts (run_terminates L n (.expr 0) ts hn) hm
    simp only [run] at this
    rw [this]

theorem parseToks_ok_iff {K : Type} (L : NumLex K) (n : Nat) (ts : List Tok) (e : Expr K)
    (hn : 3 * ts.length + 2 ≤ n) :
    parseToks L n ts = .ok e ↔ NB ts ∧ D L (.expr 0) ts e [] := by
  constructor
  · intro h
    unfold parseToks at h
    split at h
    · simp at h
    · rename_i h0
      simp only [Res.bind_eq_ok] at h
      obtain ⟨⟨e', rest⟩, h1, h2⟩ := h
      dsimp only at h2
      split at h2
      · rename_i h3
        simp at h3 h2
        subst h3 h2
        refine ⟨?_, D_of_run L n (.expr 0) _ _ _ h1⟩
        cases ts with
        | nil => simp [NB]
        | cons a ts =>
          intro h; simp at h; subst h; exact h0 _ rfl
      · simp at h2
  · rintro ⟨h1, h2⟩
    obtain ⟨N, hN⟩ := run_of_D L _ _ _ _ h2
    have h3 := hN N (Nat.le_refl _)
    have h4 := run_det L N n (.expr 0) ts (by rw [h3]; simp) hn
    rw [h3] at h4
    simp only [run] at h4
    unfold parseToks
    split
    · exact absurd rfl h1
    · rw [h4]; simp

theorem parse_ok_iff {K : Type} (L : NumLex K) (s : List Char) (e : Expr K) :
    parse L s = .ok e ↔ NB (lex s) ∧ D L (.expr 0) (lex s) e [] := by
  have := lex_length s
  exact parseToks_ok_iff L _ _ _ (by omega)

/-- A leading blank does not matter. -/
theorem skipSpaces_cons (cs : List Char) : skipSpaces (' ' :: cs) = skipSpaces cs := rfl

theorem lex_space (cs : List Char) : lex (' ' :: cs) = lex cs := by
  rw [lex]
  conv_rhs => rw [lex]
  rfl

theorem skipSpaces_cons_ne (c : Char) (cs : List Char) (h : c ≠ ' ') :
    skipSpaces (c :: cs) = c :: cs := by
  unfold skipSpaces; split
  · rename_i h1; simp at h1; exact absurd h1.1 h
  · rfl

theorem lex_nil : lex [] = [] := by
  rw [lex]; rfl

theorem lex_cons (c : Char) (cs : List Char) (h : c ≠ ' ') :
    lex (c :: cs) = if (lexOne c cs).1 = .bad then [.bad]
      else (lexOne c cs).1 :: lex (lexOne c cs).2 := by
  rw [lex]
  split
  · rename_i h1; rw [skipSpaces_cons_ne c cs h] at h1; simp at h1
  · rename_i h1; rw [skipSpaces_cons_ne c cs h] at h1; simp at h1
    obtain ⟨rfl, rfl⟩ := h1; rfl

/-- `lex` by cases on the first character. -/
theorem lex_ind {P : List Char → Prop} (nil : P []) (space : ∀ cs, P cs → P (' ' :: cs))
    (bad : ∀ c cs, c ≠ ' ' → (lexOne c cs).1 = .bad → P (c :: cs))
    (tok : ∀ c cs, c ≠ ' ' → (lexOne c cs).1 ≠ .bad → P (lexOne c cs).2 → P (c :: cs))
    (cs : List Char) : P cs := by
  generalize hn : cs.length = n
  induction n using Nat.strongRecOn generalizing cs with
  | _ n ih =>
    cases cs with
    | nil => exact nil
    | cons c cs =>
      simp at hn
      by_cases h : c = ' '
      · subst h; exact space _ (ih cs.length (by omega) _ rfl)
      · by_cases hb : (lexOne c cs).1 = .bad
        · exact bad c cs h hb
        · refine tok c cs h hb (ih _ ?_ _ rfl)
          have := lexOne_length c cs
          omega

end Stator

namespace Stator

/-- `lex` by structural recursion on fuel, for evaluating it on literals. -/
def lexFuel : Nat → List Char → List Tok
  | 0, _ => []
  | n + 1, cs =>
    match skipSpaces cs with
    | [] => []
    | c :: cs' =>
      if (lexOne c cs').1 = .bad then [.bad]
      else (lexOne c cs').1 :: lexFuel n (lexOne c cs').2

theorem lex_eq_fuel (n : Nat) (cs : List Char) (h : cs.length ≤ n) : lex cs = lexFuel n cs := by
  induction n generalizing cs with
  | zero => cases cs <;> simp_all [lex_nil, lexFuel]
  | succ n ih =>
    rw [lex, lexFuel]
    have h1 := skipSpaces_length cs
    split
    · rename_i h2; rw [h2]
    · rename_i c cs' h2
      rw [h2] at h1 ⊢
      have h3 := lexOne_length c cs'
      dsimp only
      simp only [List.length_cons] at h1
      rw [ih _ (by omega)]

theorem parse_eq_fuel {K : Type} (L : NumLex K) (s : List Char) :
    parse L s = parseToks L (3 * s.length + 2) (lexFuel s.length s) := by
  unfold parse parseString
  rw [lex_eq_fuel s.length s (Nat.le_refl _)]

end Stator
