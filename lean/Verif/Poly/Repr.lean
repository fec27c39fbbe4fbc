import Verif.Ct.Convert
import Verif.Poly.OpsLemmas
import Mathlib.Algebra.Polynomial.Roots

/-!
# C72: the text of a polynomial

`repr` of a `Polynomial` writes `P(` … `)` around a sum of monomials. The sum is read by the parser as an expression with the
values of the polynomial; the whole text is not accepted.
-/

namespace Stator.Pol

open Polynomial

/-! ## Model -/

/-- The text of the monomial `c x^i`, `i > 0`. models: polynomial.hpp:1916-1918. -/
def monoText (showK : ℝ → List Char) (name : List Char) (c : ℝ) (i : ℕ) : List Char :=
  showK c ++ ['*'] ++ name ++ (if i > 1 then '^' :: Nat.toDigits 10 i else [])

open Classical in
/-- What is between `P(` and `)`. `terms` counts the terms written. models: polynomial.hpp:1908-1925. -/
noncomputable def bodyText (showK : ℝ → List Char) (name : List Char) {n : ℕ} (a : Arr ℝ n) : Option (List Char) := do
  let st ← forDown (fun i (st : List Char × ℕ) => do
    let c ← rd a i
    if c = 0 then some st
    else some (st.1 ++ (if st.2 ≠ 0 then [' ', '+', ' '] else []) ++ monoText showK name c i, st.2 + 1)) n ([], 0)
  let c ← rd a 0
  if c ≠ 0 ∨ st.2 = 0 then some (st.1 ++ (if st.2 ≠ 0 then [' ', '+', ' '] else []) ++ showK c)
  else some st.1

/-- `repr(poly)`. models: polynomial.hpp:1905-1929. -/
noncomputable def polyText (showK : ℝ → List Char) (name : List Char) {n : ℕ} (a : Arr ℝ n) : Option (List Char) :=
  (bodyText showK name a).map fun s => ['P', '('] ++ s ++ [')']

/-! ## Specification -/

/-- The coefficients that are written read back, with their sign if they are negative. -/
def Shown (L : NumLex ℝ) (showK : ℝ → List Char) {n : ℕ} (a : Arr ℝ n) : Prop :=
  ∀ i, (a i ≠ 0 ∨ i = 0) → PosConst L showK (a i) ∨ NegConst L showK (a i)

/-! ## Proofs -/

def Plus (rest : List Tok) : Prop := rest = [] ∨ ∃ r, rest = .sym ['+'] :: r ∧ NB r

theorem Plus.weaker {rest : List Tok} (h : Plus rest) : Weaker 21 rest := by
  intro t ht
  rcases h with rfl | ⟨r, rfl, -⟩
  · simp at ht
  · simp at ht; subst ht; exact ⟨.bin .add, rfl, by decide⟩

/-- A text that is read as `e`, before the end or a plus sign. -/
structure Term (L : NumLex ℝ) (top : Int) (s : List Char) (e : Expr ℝ) : Prop where
  ok : Tok.bad ∉ lex s
  ne : lex s ≠ []
  reads : ∃ M, 20 ≤ M ∧ ∀ m ≤ top, ∀ rest e' rest', Plus rest → D L (.loop m M e) rest e' rest' →
    D L (.expr m) (lex s ++ rest) e' rest'

theorem Term.nb {L : NumLex ℝ} {top : Int} {s : List Char} {e : Expr ℝ} (h : Term L top s e) (rest : List Tok) :
    NB (lex s ++ rest) := by
  cases hs : lex s with
  | nil => exact absurd hs h.ne
  | cons t ts =>
    have := h.ok
    rw [hs] at this
    simp only [List.mem_cons, not_or] at this
    simp only [NB, List.cons_append, List.head?_cons]
    exact fun h => this.1 (by simpa using h.symm)

theorem ok_lex {L : NumLex ℝ} {e : PExpr ℝ} (h : PExpr.Ok L true e) : lex e.text = e.toks ∧ Tok.bad ∉ e.toks := by
  have h5 := PExpr.ok_reads h 0 [] [] e.erase
    (by cases e <;> simp [PExpr.mb, intMax, lbp_nonneg]) weaker_nil (fun _ => weaker_nil) .loopEnd
  simp only [List.append_nil] at h5
  have hb : Tok.bad ∉ e.toks := by
    obtain ⟨u, hu, hg⟩ := D_sound L h5
    rw [List.append_nil] at hu
    rw [hu]
    exact gram_no_bad L hg
  rcases PExpr.text_lexes h with ⟨-, h2⟩ | ⟨h2, -⟩
  · have h3 := h2 [] sep_nil
    simp only [List.append_nil, lex_nil] at h3
    exact ⟨h3, hb⟩
  · exact absurd h2 hb

theorem Ok.loosen {L : NumLex ℝ} {e : PExpr ℝ} {b : Bool} (h : PExpr.Ok L b e) : PExpr.Ok L true e := by
  induction h with
  | const h1 h2 => exact .const h1 h2
  | negc h1 h2 => exact .negc h1 h2
  | var h => exact .var h
  | fn h1 h2 ih => exact .fn h1 (by simpa using ih)
  | neg h1 h2 ih => exact .neg h1 (by simpa using ih)
  | bin h1 h2 h3 h4 ih3 ih4 => exact .bin h1 h2 h3 (by simpa using ih4)
  | paren h _ => exact .paren h

/-- Terms that the printer's own rules describe. -/
theorem Term.of_ok {L : NumLex ℝ} {e : PExpr ℝ} {b : Bool} (h : PExpr.Ok L b e) (h1 : 21 ≤ e.mb) (h2 : 21 ≤ e.BP.2)
    (h3 : 20 ≤ e.nb) : Term L 21 e.text e.erase := by
  obtain ⟨hl, hb⟩ := ok_lex (Ok.loosen h)
  refine ⟨by rw [hl]; exact hb, ?_, e.nb, h3, ?_⟩
  · obtain ⟨t, r, h4, -⟩ := PExpr.toks_start h
    rw [hl, h4]; simp
  · intro m hm rest e' rest' hr hD
    rw [hl]
    exact PExpr.ok_reads h m rest rest' e' (hm.trans h1) (hr.weaker.mono h2) (fun _ => hr.weaker) hD

/-- A minus sign in front. -/
theorem Term.minus {L : NumLex ℝ} {s : List Char} {e : Expr ℝ} (h : Term L 21 s e) :
    Term L 21 ('-' :: s) (negate L e) := by
  have hl : lex ('-' :: s) = .sym ['-'] :: lex s := lex_sym1 _ _ (by decide)
  refine ⟨by rw [hl]; simpa using h.ok, by rw [hl]; simp, intMax, by decide, ?_⟩
  intro m hm rest e' rest' hr hD
  obtain ⟨M, -, h1⟩ := h.reads
  rw [hl, List.cons_append]
  exact .expr (.minus rfl (h.nb rest) (h1 21 le_rfl rest e rest hr (D_stop' L e _ _ _ hr.weaker))) hD

/-- A sum. -/
theorem Term.add {L : NumLex ℝ} {s s' : List Char} {e e' : Expr ℝ} {top : Int} (ht : 0 ≤ top) (h : Term L top s e)
    (h' : Term L 21 s' e') : Term L 0 (s ++ [' ', '+', ' '] ++ s') (.bin .add e e') := by
  have hl : lex (s ++ [' ', '+', ' '] ++ s') = lex s ++ .sym ['+'] :: lex s' := by
    have h1 : s ++ [' ', '+', ' '] ++ s' = s ++ ' ' :: ('+' :: ' ' :: s') := by simp
    rw [h1, lex_split, if_neg h.ok, lex_sym1 _ _ (by decide), lex_space]
  obtain ⟨M, hM, h1⟩ := h.reads
  obtain ⟨M', -, h2⟩ := h'.reads
  refine ⟨by rw [hl]; simp [h.ok, h'.ok], by rw [hl]; simp, BinOp.add.nbp, by decide, ?_⟩
  intro m hm rest e'' rest' hr hD
  rw [hl, List.append_assoc, List.cons_append]
  refine h1 m (hm.trans ht) _ _ _ (.inr ⟨_, rfl, h'.nb rest⟩) ?_
  exact .loopBin rfl (hm.trans (by decide)) hM rfl (h'.nb rest)
    (h2 _ (by decide) rest e' rest hr (D_stop' L e' _ _ _ hr.weaker)) hD

theorem Term.parse {L : NumLex ℝ} {top : Int} (ht : 0 ≤ top) {s : List Char} {e : Expr ℝ} (h : Term L top s e) :
    parse L s = .ok e := by
  obtain ⟨M, -, h1⟩ := h.reads
  rw [parse_ok_iff]
  have h2 := h.nb []
  have h3 := h1 0 ht [] e [] (.inl rfl) .loopEnd
  rw [List.append_nil] at h2 h3
  exact ⟨h2, h3⟩

/-- `x^i` or `x`. -/
noncomputable def powP (name : List Char) (i : ℕ) : PExpr ℝ :=
  if i > 1 then .bin .pow (.var name) (.const (Nat.toDigits 10 i) i) else .var name

theorem powP_ok {L : NumLex ℝ} (hL : Ct.Reads L) {name : List Char} (hn : IsName name) (i : ℕ) (b : Bool) :
    PExpr.Ok L b (powP name i) := by
  unfold powP
  split
  · exact .bin (fun _ => rfl) (by simp) (.var hn) (.const (Ct.isLit_nat i) (hL.nat i))
  · exact .var hn

theorem powP_eval {name : List Char} {i : ℕ} (hi : 0 < i) (ρ : List Char → ℝ) :
    (powP name i).erase.eval ρ = some (ρ name ^ i) := by
  unfold powP
  split
  · have := powDom_nat (ρ name) i
    simp [PExpr.erase, Expr.eval, binVal, this]
  · obtain rfl : i = 1 := by omega
    simp [PExpr.erase, Expr.eval]

theorem powP_text (s : List Char) (k : ℝ) (name : List Char) (i : ℕ) :
    (PExpr.bin .mul (.const s k) (powP name i)).text =
      s ++ ['*'] ++ name ++ (if i > 1 then '^' :: Nat.toDigits 10 i else []) := by
  unfold powP
  split <;> simp [PExpr.text, PExpr.BP, wrapIf, BinOp.text, BinOp.rtext, BinOp.lbp, BinOp.rbp, intMax, BinOp.wrapped,
      BinOp.rightAssoc]

theorem powP_BP (name : List Char) (i : ℕ) : (powP name i).BP.1 ≥ 31 := by
  unfold powP
  split <;> simp [PExpr.BP, BinOp.lbp, intMax]

theorem term_const {L : NumLex ℝ} (hL : Ct.Reads L) {showK : ℝ → List Char} {k : ℝ}
    (h : PosConst L showK k ∨ NegConst L showK k) :
    ∃ e, Term L 21 (showK k) e ∧ ∀ ρ, e.eval ρ = some k := by
  rcases h with h | ⟨t, h1, h2, h3⟩
  · exact ⟨_, Term.of_ok (e := .const (showK k) k) (b := false) (.const h.1 h.2) (by simp [PExpr.mb, intMax])
      (by simp [PExpr.BP, intMax]) (by simp [PExpr.nb, intMax]),
      fun ρ => rfl⟩
  · have := (Term.of_ok (e := .const t (L.ofLit t)) (L := L) (b := false) (.const h2 rfl) (by simp [PExpr.mb, intMax])
      (by simp [PExpr.BP, intMax]) (by simp [PExpr.nb, intMax])).minus
    rw [h1]
    exact ⟨_, this, fun ρ => by simp [PExpr.erase, negate, Expr.eval, h3]⟩

theorem term_mono {L : NumLex ℝ} (hL : Ct.Reads L) {showK : ℝ → List Char} {name : List Char} (hn : IsName name) {k : ℝ}
    {i : ℕ} (hi : 0 < i) (h : PosConst L showK k ∨ NegConst L showK k) :
    ∃ e, Term L 21 (monoText showK name k i) e ∧ ∀ ρ, e.eval ρ = some (k * ρ name ^ i) := by
  have key : ∀ s c, IsLit s → L.ofLit s = c →
      Term L 21 (s ++ ['*'] ++ name ++ (if i > 1 then '^' :: Nat.toDigits 10 i else []))
        (.bin .mul (.const c) (powP name i).erase) := by
    intro s c h1 h2
    have := Term.of_ok (e := .bin .mul (.const s c) (powP name i)) (b := false)
      (.bin (by simp) (by simp) (.const h1 h2) (powP_ok hL hn i _)) (by simp [PExpr.mb, BinOp.lbp])
      (by simp [PExpr.BP, BinOp.rbp, BinOp.lbp, BinOp.rightAssoc])
      (by simp [PExpr.nb, BinOp.nbp, BinOp.lbp, BinOp.rightAssoc])
    rw [powP_text] at this
    exact this
  rcases h with h | ⟨t, h1, h2, h3⟩
  · exact ⟨_, key _ _ h.1 h.2, fun ρ => by simp [Expr.eval, powP_eval hi, binVal]⟩
  · have := (key t _ h2 rfl).minus
    unfold monoText
    rw [h1]
    refine ⟨_, this, fun ρ => ?_⟩
    rw [hL.neg] at h3
    simp [negate, Expr.eval, powP_eval hi, binVal, unVal, ← h3]

/-- The text of the terms above `i`. -/
def Inv (L : NumLex ℝ) (name : List Char) {n : ℕ} (a : Arr ℝ n) (i : ℕ) (st : List Char × ℕ) : Prop :=
  (st = ([], 0) ∧ ∀ j, i < j → coef a j = 0) ∨
  (st.2 ≠ 0 ∧ ∃ e top, 0 ≤ top ∧ Term L top st.1 e ∧
    ∀ ρ, e.eval ρ = some (∑ j ∈ Finset.Ico (i + 1) (n + 1), coef a j * ρ name ^ j))

theorem inv_step {L : NumLex ℝ} {name : List Char} {n : ℕ} {a : Arr ℝ n} {i : ℕ} {st : List Char × ℕ} (hi : i ≤ n)
    (h : Inv L name a i st) {s : List Char} {e : Expr ℝ} (ht : Term L 21 s e) (he : ∀ ρ, e.eval ρ = some (coef a i * ρ name ^ i)) :
    ∃ e' top, 0 ≤ top ∧ Term L top (st.1 ++ (if st.2 ≠ 0 then [' ', '+', ' '] else []) ++ s) e' ∧
      ∀ ρ, e'.eval ρ = some (∑ j ∈ Finset.Ico i (n + 1), coef a j * ρ name ^ j) := by
  rcases h with ⟨rfl, h⟩ | ⟨h0, e0, top, h1, h2, h3⟩
  · refine ⟨e, 21, by decide, by simpa using ht, fun ρ => ?_⟩
    rw [he, Finset.sum_eq_sum_Ico_succ_bot (by omega), Finset.sum_eq_zero, add_zero]
    intro j hj
    rw [h j (by simp at hj; omega), zero_mul]
  · refine ⟨.bin .add e0 e, 0, le_rfl, ?_, fun ρ => ?_⟩
    · rw [if_pos h0]; exact h2.add h1 ht
    · rw [Finset.sum_eq_sum_Ico_succ_bot (by omega)]
      simp [Expr.eval, he, h3, binVal, add_comm]

theorem body_spec {L : NumLex ℝ} (hL : Ct.Reads L) {showK : ℝ → List Char} {name : List Char} (hn : IsName name) {n : ℕ}
    (a : Arr ℝ n) (hs : Shown L showK a) :
    ∃ s e, bodyText showK name a = some s ∧ parse L s = .ok e ∧ ∀ ρ, e.eval ρ = some (value a (ρ name)) := by
  have hval : ∀ x, value a x = ∑ j ∈ Finset.Ico 0 (n + 1), coef a j * x ^ j := by
    intro x
    rw [← Finset.range_eq_Ico, Finset.sum_range, value]
    exact Finset.sum_congr rfl fun i _ => by rw [coef_fin]
  have hsh : ∀ i ≤ n, (coef a i ≠ 0 ∨ i = 0) → PosConst L showK (coef a i) ∨ NegConst L showK (coef a i) := by
    intro i hi h
    have := coef_fin a ⟨i, by omega⟩
    simp only at this
    rw [this] at h ⊢
    exact hs _ (h.imp_right fun h => by simp [h])
  unfold bodyText
  obtain ⟨st, h1, h2⟩ := forDown_inv (body := fun i (st : List Char × ℕ) => do
    let c ← rd a i
    if c = 0 then some st
    else some (st.1 ++ (if st.2 ≠ 0 then [' ', '+', ' '] else []) ++ monoText showK name c i, st.2 + 1))
    (Inv L name a) n ([], 0) (.inl ⟨rfl, fun j hj => coef_gt a hj⟩) (by
      intro i st hi hI
      rw [rd_coef a (by omega)]
      by_cases hc : coef a (i + 1) = 0
      · refine ⟨st, by simp [hc], ?_⟩
        rcases hI with ⟨h1, h2⟩ | ⟨h0, e0, top, h1, h2, h3⟩
        · refine .inl ⟨h1, fun j hj => ?_⟩
          rcases Nat.lt_or_ge (i + 1) j with h | h
          · exact h2 j h
          · obtain rfl : j = i + 1 := by omega
            exact hc
        · refine .inr ⟨h0, e0, top, h1, h2, fun ρ => ?_⟩
          rw [h3, Finset.sum_eq_sum_Ico_succ_bot (a := i + 1) (b := n + 1) (by omega), hc]
          simp
      · obtain ⟨e, h1, h2⟩ := term_mono hL hn (Nat.succ_pos i) (hsh (i + 1) (by omega) (.inl hc))
        obtain ⟨e', top, h3, h4, h5⟩ := inv_step (by omega) hI h1 h2
        exact ⟨(st.1 ++ (if st.2 ≠ 0 then [' ', '+', ' '] else []) ++ monoText showK name (coef a (i + 1)) (i + 1), st.2 + 1),
          by simp [hc], .inr ⟨by simp, e', top, h3, h4, h5⟩⟩)
  rw [h1, rd_coef a (by omega)]
  simp only [Option.bind_eq_bind, Option.bind_some]
  by_cases hc : coef a 0 ≠ 0 ∨ st.2 = 0
  · rw [if_pos hc]
    obtain ⟨e, h3, h4⟩ := term_const hL (hsh 0 (by omega) (.inr rfl))
    obtain ⟨e', top, h5, h6, h7⟩ := inv_step (by omega) h2 h3 (by simpa using h4)
    exact ⟨_, e', rfl, h6.parse h5, fun ρ => by rw [h7, hval]⟩
  · rw [if_neg hc]
    push Not at hc
    rcases h2 with ⟨rfl, -⟩ | ⟨h0, e0, top, h5, h6, h7⟩
    · exact absurd rfl hc.2
    · refine ⟨_, e0, rfl, h6.parse h5, fun ρ => ?_⟩
      rw [h7, hval, Finset.sum_eq_sum_Ico_succ_bot (a := 0) (b := n + 1) (by omega), hc.1]
      simp

/-- **C72**: what `repr` writes inside `P(` … `)` is accepted by the parser and read as an expression with the values of the
polynomial. -/
theorem C72_text {L : NumLex ℝ} (hL : Ct.Reads L) (showK : ℝ → List Char) {name : List Char} (hn : IsName name) {n : ℕ}
    (a : Arr ℝ n) (hs : Shown L showK a) :
    ∃ s e, polyText showK name a = some (['P', '('] ++ s ++ [')']) ∧ parse L s = .ok e ∧
      ∀ ρ, e.eval ρ = some (value a (ρ name)) := by
  obtain ⟨s, e, h1, h2, h3⟩ := body_spec hL hn a hs
  exact ⟨s, e, by simp [polyText, h1], h2, h3⟩

/-- **C72**: two polynomials with the same text are the same polynomial, whatever their orders are. -/
theorem C72_injective {L : NumLex ℝ} (hL : Ct.Reads L) (showK : ℝ → List Char) {name : List Char} (hn : IsName name)
    {n m : ℕ} (a : Arr ℝ n) (b : Arr ℝ m) (ha : Shown L showK a) (hb : Shown L showK b)
    (h : polyText showK name a = polyText showK name b) : polyOf a = polyOf b := by
  obtain ⟨s, e, h1, h2, h3⟩ := C72_text hL showK hn a ha
  obtain ⟨s', e', h1', h2', h3'⟩ := C72_text hL showK hn b hb
  rw [h1, h1'] at h
  obtain rfl : s = s' := by simpa using h
  rw [h2] at h2'
  cases h2'
  refine Polynomial.funext fun x => ?_
  have h4 := h3 fun _ => x
  rw [h3' fun _ => x] at h4
  rw [← value_eq, ← value_eq]
  exact (Option.some.inj h4).symm

/-- **C72**, the failing half: the whole text is not accepted, for no polynomial. -/
theorem C72_not_parsed (L : NumLex ℝ) (showK : ℝ → List Char) (name : List Char) {n : ℕ} (a : Arr ℝ n) {s : List Char}
    (h : polyText showK name a = some s) (e : Expr ℝ) : parse L s ≠ .ok e := by
  intro hp
  simp only [polyText, Option.map_eq_some_iff] at h
  obtain ⟨t, -, rfl⟩ := h
  rw [parse_ok_iff] at hp
  obtain ⟨-, hp⟩ := hp
  have hl : lex (['P', '('] ++ t ++ [')']) = .word ['P'] :: .sym ['('] :: lex (t ++ [')']) := by
    have h1 : ['P', '('] ++ t ++ [')'] = ['P'] ++ ('(' :: (t ++ [')'])) := by simp
    rw [h1, lex_word _ _ (by simp) (by decide) (by rw [sep_cons]; decide), lex_sym1 _ _ (by decide)]
  rw [hl] at hp
  cases hp with
  | expr h1 h2 =>
    have : ∀ {ts e r}, ts = .word ['P'] :: .sym ['('] :: lex (t ++ [')']) → D L .tok ts e r →
        r = .sym ['('] :: lex (t ++ [')']) := by
      intro ts e r hts hD
      cases hD <;> simp_all [leftOp]
    obtain rfl := this rfl h1
    cases h2 with
    | loopWrap h => simp [rightOp] at h
    | loopBin h => simp [rightOp] at h

/-- `2x² - 3x`: the text is `P(2*x^2 + -3*x)`. -/
example (L : NumLex ℝ) (hL : Ct.Reads L) :
    ∃ showK : ℝ → List Char, let a : Arr ℝ 2 := ![0, -3, 2]
      polyText showK ['x'] a = some "P(2*x^2 + -3*x)".toList ∧ Shown L showK a := by
  classical
  refine ⟨fun c => if c = 2 then ['2'] else if c = -3 then ['-', '3'] else ['0'], ?_, ?_⟩
  · have h : (2 : ℝ) ≠ 0 ∧ (-3 : ℝ) ≠ 0 ∧ (-3 : ℝ) ≠ 2 := by norm_num
    simp [polyText, bodyText, forDown, rd, monoText, h]
    decide
  · have h2 := hL.nat 2
    have h3 := hL.nat 3
    have h0 := hL.nat 0
    have l2 := Ct.isLit_nat 2
    have l3 := Ct.isLit_nat 3
    have l0 := Ct.isLit_nat 0
    rw [show Nat.toDigits 10 2 = ['2'] by decide] at h2 l2
    rw [show Nat.toDigits 10 3 = ['3'] by decide] at h3 l3
    rw [show Nat.toDigits 10 0 = ['0'] by decide] at h0 l0
    intro i _
    fin_cases i
    · exact .inl ⟨by norm_num; exact l0, by norm_num; exact_mod_cast h0⟩
    · exact .inr ⟨['3'], by norm_num, l3, by rw [hL.neg, h3]; norm_num⟩
    · exact .inl ⟨by norm_num; exact l2, by norm_num; exact_mod_cast h2⟩

end Stator.Pol
