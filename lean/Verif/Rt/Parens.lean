import Verif.Rt.RoundTripProps
import Verif.Rt.Eval

/-!
# C70: redundant parentheses

Any subexpression of a text may be put in parentheses, several times if one likes: the parser returns the same tree. The printer
itself relies on this for compile-time fractions, which it always writes as `(n/d)`.
-/

namespace Stator

/-! ## Specification -/

/-- A scalar expression in which some subexpressions are marked as written in parentheses; `const s k` is the constant `k`
written as `s`. -/
inductive PExpr (K : Type) where
  | const (s : List Char) (k : K)
  | var (n : List Char)
  | un (o : UnOp) (a : PExpr K)
  | bin (o : BinOp) (l r : PExpr K)
  | paren (a : PExpr K)

namespace PExpr

variable {K : Type}

/-- The expression without the marks. -/
def erase : PExpr K → Expr K
  | .const _ k => .const k
  | .var n => .var n
  | .un o a => .un o a.erase
  | .bin o l r => .bin o l.erase r.erase
  | .paren a => a.erase

/-- What the printer takes for the left and right binding power: parentheses make an atom of everything. -/
def BP : PExpr K → Int × Int
  | .un o _ => (0, o.bp)
  | .bin o _ _ => (o.lbp, o.rbp)
  | _ => (intMax, intMax)

/-- The text: the parentheses the printer needs and the marked ones. -/
def text : PExpr K → List Char
  | .const s _ => s
  | .var n => n
  | .un o a => o.ltext ++ wrapIf (decide (a.BP.1 < o.bp)) a.text ++ o.rtext
  | .bin o l r => wrapIf (decide (l.BP.2 < o.lbp)) l.text ++ o.text
      ++ wrapIf (decide (o.rbp > r.BP.1) && !o.wrapped) r.text ++ o.rtext
  | .paren a => ['('] ++ a.text ++ [')']

/-- Is the root the operator `o`, not in parentheses? -/
def isBin (o : BinOp) : PExpr K → Bool
  | .bin o' _ _ => o == o'
  | _ => false

def parenU (o : UnOp) (a : PExpr K) : Bool := decide (a.BP.1 < o.bp)
def parenL (o : BinOp) (l : PExpr K) : Bool := decide (l.BP.2 < o.lbp)
def parenR (o : BinOp) (r : PExpr K) : Bool := o.wrapped || decide (r.BP.1 < o.rbp)

/-- As `Printable`: outside of the defects of the default output. The marked parentheses remove the ambiguities: a power in
parentheses may be a base and a negative constant in parentheses may be anywhere. -/
inductive Ok (L : NumLex K) : Bool → PExpr K → Prop
  | const {loose s k} : IsLit s → L.ofLit s = k → Ok L loose (.const s k)
  | negc {s k} : IsLit s → L.neg (L.ofLit s) = k → Ok L true (.const ('-' :: s) k)
  | var {loose n} : IsName n → Ok L loose (.var n)
  | fn {loose o a s} : fnName o = some s → Ok L (a.parenU o || loose) a → Ok L loose (.un o a)
  | neg {loose a} : a.erase.isConst = false → Ok L (a.parenU .neg || loose) a → Ok L loose (.un .neg a)
  | bin {loose o l r} : (o = .pow → l.isBin .pow = false) → (o = .eq → l.isBin .eq = false) →
      Ok L (parenL o l || o.weak) l → Ok L (parenR o r || loose) r → Ok L loose (.bin o l r)
  | paren {loose a} : Ok L true a → Ok L loose (.paren a)

/-! ## Proofs -/

def toks : PExpr K → List Tok
  | .const s _ => constToks s
  | .var n => [.word n]
  | .un o a => o.tok :: wrapT (a.parenU o) a.toks
  | .bin o l r => wrapT (parenL o l) l.toks ++ [.sym o.text] ++
      wrapT (parenR o r && !o.wrapped) r.toks ++ (if o.wrapped then [.sym o.closer] else [])
  | .paren a => wrapT true a.toks

def nb : PExpr K → Int
  | .bin o _ _ => o.nbp
  | _ => intMax

def mb : PExpr K → Int
  | .bin o _ _ => o.lbp
  | _ => intMax

theorem toks_start {L : NumLex K} {e : PExpr K} {b : Bool} (h : Ok L b e) :
    ∃ t r, e.toks = t :: r ∧ Start t := by
  induction h with
  | @const _ s k h => exact ⟨_, [], by rw [toks, constToks_lit h], by simp [Start]⟩
  | negc => exact ⟨_, _, by rw [toks, constToks], by simp [Start]⟩
  | var => exact ⟨_, _, rfl, by simp [Start]⟩
  | @fn _ o a s h1 => exact ⟨_, _, rfl, by cases o <;> simp [fnName] at h1 <;> simp [Start, UnOp.tok]⟩
  | neg => exact ⟨_, _, rfl, by simp [Start, UnOp.tok]⟩
  | @bin loose o l r h1 h2 h3 h4 ih1 ih2 =>
    obtain ⟨t, r', h, hs⟩ := wrapT_start (b := parenL o l) ih1
    exact ⟨t, _, by rw [toks, h]; simp; rfl, hs⟩
  | paren _ ih => exact wrapT_start (b := true) ih

theorem toks_nb {L : NumLex K} {e : PExpr K} {b : Bool} (h : Ok L b e) (rest : List Tok) :
    NB (e.toks ++ rest) := by
  obtain ⟨t, r, h1, h2⟩ := toks_start h
  rw [h1]; simpa [NB] using h2.1

theorem wrapT_nb {L : NumLex K} {e : PExpr K} (b : Bool) {b' : Bool} (h : Ok L b' e)
    (rest : List Tok) : NB (wrapT b e.toks ++ rest) := by
  obtain ⟨t, r, h1, h2⟩ := wrapT_start (b := b) (toks_start h)
  rw [h1]; simpa [NB] using h2.1

/-- The statement proved by induction. -/
def Reads (L : NumLex K) (loose : Bool) (e : PExpr K) : Prop :=
  ∀ (m : Int) (rest rest' : List Tok) (e' : Expr K), m ≤ e.mb → Weaker e.BP.2 rest →
    (loose = true → Weaker 21 rest) →
    D L (.loop m e.nb e.erase) rest e' rest' → D L (.expr m) (e.toks ++ rest) e' rest'

theorem rb_nonneg (e : PExpr K) : 0 ≤ e.BP.2 := by
  cases e with
  | un o a => exact ubp_nonneg o
  | bin o l r => exact rbp_nonneg o
  | _ => simp [BP, intMax]

theorem Reads.delim {L : NumLex K} {e : PExpr K} {b : Bool} (h : Reads L b e) {t : Tok}
    (ht : rightOp t = some .halt) (rest : List Tok) :
    D L (.expr 0) (e.toks ++ t :: rest) e.erase (t :: rest) := by
  refine h 0 _ _ _ ?_ (weaker_halt (rb_nonneg e) ht rest)
    (fun _ => weaker_halt (by decide) ht rest) (D_stop' L e.erase 0 _ _ (weaker_halt (by omega) ht rest))
  cases e <;> simp [mb, intMax, lbp_nonneg]

theorem Reads.paren {L : NumLex K} {e : PExpr K} {b b' : Bool} (h : Reads L b e)
    (hp : Ok L b' e) (rest : List Tok) (hr : NB rest) :
    D L .tok (wrapT true e.toks ++ rest) e.erase rest := by
  have := h.delim (t := .sym [')']) rfl rest
  simp only [wrapT, if_true, List.append_assoc, List.cons_append, List.nil_append]
  exact .paren rfl (toks_nb hp _) this hr

theorem Reads.operand {L : NumLex K} {e : PExpr K} {loose b' : Bool} (b : Bool)
    (h : Reads L (b || loose) e) (hp : Ok L b' e) (m : Int) (rest : List Tok)
    (hb : b = false → m ≤ e.mb ∧ m ≤ e.BP.2) (hw : Weaker m rest) (hl : loose = true → Weaker 21 rest) :
    D L (.expr m) (wrapT b e.toks ++ rest) e.erase rest := by
  cases b with
  | true => exact .expr (h.paren hp rest hw.opRest.nb) (D_stop' L e.erase _ _ _ hw)
  | false =>
    obtain ⟨h1, h2⟩ := hb rfl
    exact h m rest rest e.erase h1 (hw.mono h2) (by simpa using hl) (D_stop' L e.erase _ _ _ hw)

theorem reads_prim {L : NumLex K} {e : PExpr K} {loose : Bool} (hn : e.nb = intMax)
    (h : ∀ rest, Weaker e.BP.2 rest → (loose = true → Weaker 21 rest) → D L .tok (e.toks ++ rest) e.erase rest) :
    Reads L loose e := by
  intro m rest rest' e' _ hw hl hd
  rw [hn] at hd
  exact .expr (h rest hw hl) hd

theorem ok_reads {L : NumLex K} {e : PExpr K} {loose : Bool} (h : Ok L loose e) :
    Reads L loose e := by
  induction h with
  | @const _ s k h h' =>
    refine reads_prim rfl fun rest hw _ => ?_
    have := D.num (L := L) (s := s) hw.opRest.nb
    rw [h'] at this
    rw [toks, constToks_lit h]
    exact this
  | @negc t k h2 h3 =>
    refine reads_prim rfl fun rest hw hl => ?_
    rw [toks]
    have := D.num (L := L) (s := t) hw.opRest.nb
    have := D.minus (L := L) (tok := .sym ['-']) rfl (by simp [NB]) (.expr this (D_stop' L _ 21 intMax rest (hl rfl)))
    simpa [negate, h3, constToks, erase] using this
  | @var _ n h => exact reads_prim rfl fun rest hw _ => .var (leftOp_word_of_not_fn h.2.2) hw.opRest.nb
  | @fn _ o a s h1 h3 ih =>
    refine reads_prim rfl fun rest hw hl => ?_
    obtain ⟨h4, h5⟩ := fnName_leftOp h1
    have h6 : o.tok = .word s := by cases o <;> simp [fnName] at h1 <;> subst h1 <;> rfl
    rw [toks, h6]
    refine .fn h4 (wrapT_nb _ h3 _) (Reads.operand _ ih h3 _ _ ?_ hw hl)
    rw [h5]
    intro h7
    rw [parenU, decide_eq_false_iff_not, h5] at h7
    revert h7
    cases a with
    | bin o l r => have := lbp_nonneg o; have := rightOp_lbp_lt (.bin o); simp [BP, RightOp.lbp] at *; omega
    | _ => simp [BP, mb, intMax]
  | @neg _ a h2 h3 ih =>
    refine reads_prim rfl fun rest hw hl => ?_
    rw [toks]
    have hneg : (PExpr.un .neg a).erase = negate L a.erase := by
      rw [erase]
      revert h2
      cases a.erase <;> simp [negate, Expr.isConst]
    rw [hneg]
    refine .minus rfl (wrapT_nb _ h3 _) (Reads.operand _ ih h3 _ _ ?_ hw hl)
    intro h7
    simp only [parenU, decide_eq_false_iff_not, UnOp.bp] at h7
    revert h7
    cases a with
    | bin o l r => cases o <;> simp [BP, mb, BinOp.lbp, BinOp.rbp, BinOp.rightAssoc]
    | _ => simp [BP, mb, intMax]
  | @bin loose o l r h3 h4 h5 h6 ih1 ih2 =>
    intro m rest rest' e' hm hw hl hd
    have hm : m ≤ o.lbp := hm
    have hw : Weaker o.rbp rest := hw
    have hd : D L (.loop m o.nbp (.bin o l.erase r.erase)) rest e' rest' := hd
    have key : ∀ M, o.lbp ≤ M → D L (.loop m M l.erase) ([Tok.sym o.text] ++
        wrapT (parenR o r && !o.wrapped) r.toks ++
        (if o.wrapped then [.sym o.closer] else []) ++ rest) e' rest' := by
      intro M hM
      cases hwr : o.wrapped with
      | true =>
        simp only [Bool.not_true, Bool.and_false, if_true, wrapT, Bool.false_eq_true, if_false,
          List.append_assoc, List.cons_append, List.nil_append]
        exact .loopWrap (rightOp_text o) hm hM hwr (toks_nb h6 _)
          (ih2.delim (closer_halt hwr) rest) hw.opRest.nb hd
      | false =>
        simp only [Bool.not_false, Bool.and_true, Bool.false_eq_true, if_false, List.append_nil,
          List.append_assoc, List.cons_append, List.nil_append]
        refine .loopBin (rightOp_text o) hm hM hwr (wrapT_nb _ h6 _)
          (Reads.operand _ ih2 h6 _ _ ?_ hw hl) hd
        intro h7
        simp only [parenR, hwr, Bool.false_or, decide_eq_false_iff_not] at h7
        revert h7
        cases r with
        | bin o' l' r' =>
          have : o'.lbp ≤ o'.rbp := by cases o' <;> decide
          simp only [BP, mb]
          intro h; omega
        | un o' a => cases o <;> simp [BP, BinOp.rbp, BinOp.lbp, BinOp.rightAssoc]
        | _ => have := rightOp_lbp_lt (.bin o)
               simp [BP, mb]
    rw [toks]
    have hassoc : ∀ a b c d r : List Tok, a ++ b ++ c ++ d ++ r = a ++ (b ++ c ++ d ++ r) := by simp
    rw [hassoc]
    have hopen : Weaker (o.lbp + 1) ([Tok.sym o.text] ++
        wrapT (parenR o r && !o.wrapped) r.toks ++
        (if o.wrapped then [.sym o.closer] else []) ++ rest) := by
      intro t ht
      simp at ht
      subst ht
      exact ⟨_, rightOp_text o, by simp only [RightOp.lbp]; omega⟩
    by_cases hb : l.BP.2 < o.lbp
    · have hb' : parenL o l = true := by simpa [parenL] using hb
      rw [hb']
      exact .expr (ih1.paren h5 _ hopen.opRest.nb) (key _ (lbp_le_max o))
    · have hb' : parenL o l = false := by simpa [parenL] using hb
      rw [hb']
      have h7 : m ≤ l.mb ∧ o.lbp + 1 ≤ l.BP.2 ∧ o.lbp ≤ l.nb := by
        have hmx := rightOp_lbp_lt (.bin o)
        simp only [RightOp.lbp] at hmx
        cases l with
        | bin o' l' r' =>
          have h8 : o = .pow → o' ≠ .pow := by
            intro h9 h10; subst h10; simpa [isBin] using h3 h9
          have h9 : o = .eq → o' ≠ .eq := by
            intro h9 h10; subst h10; simpa [isBin] using h4 h9
          have := lbp_le_of_lt_rbp (by simpa [BP] using hb) h8 h9
          simp only [BP, mb, nb]
          omega
        | un o' a =>
          have : o.lbp + 1 ≤ o'.bp := by
            revert hb
            simp only [BP]
            cases o <;> cases o' <;> decide
          simp only [BP, mb, nb]
          omega
        | _ =>
          simp only [BP, mb, nb]
          omega
      refine ih1 m _ _ _ h7.1 (hopen.mono h7.2.1) ?_ (key _ h7.2.2)
      rw [hb', Bool.false_or]
      intro hwk
      refine hopen.mono ?_
      cases o <;> simp [BinOp.weak, BinOp.lbp] at hwk ⊢
  | @paren loose a h ih =>
    refine reads_prim rfl fun rest hw hl => ?_
    rw [toks, erase]
    exact ih.paren h rest hw.opRest.nb

theorem text_lexes {L : NumLex K} {e : PExpr K} {b : Bool} (h : Ok L b e) :
    LexTo e.text e.toks := by
  have hun : ∀ (o : UnOp) (a : PExpr K), fnName o ≠ none ∨ o = .neg → LexTo a.text a.toks →
      LexTo ((PExpr.un o a).text) ((PExpr.un o a).toks) := by
    intro o a ho ih
    rw [text, toks]
    have hw := ih.wrap (a.parenU o)
    cases hf : fnName o with
    | some n =>
      rw [(lex_fn hf []).2, List.append_nil]
      refine LexTo.cons (ts := [o.tok]) (fun rest => by simpa using (lex_fn hf rest).1) ?_ hw
      cases o <;> simp_all [fnName, UnOp.tok]
    | none =>
      obtain rfl : o = .neg := by rcases ho with h | h; exacts [absurd hf h, h]
      simp only [UnOp.ltext, UnOp.rtext, List.append_nil, List.cons_append, List.nil_append]
      exact .cons1 (by decide) hw
  induction h with
  | @const _ s k h => rw [text, toks, constToks_lit h]; exact .lit h
  | @negc t k h => rw [text, toks]; exact .cons1 (by decide) (.lit h)
  | @var _ n h => exact .name h
  | @fn _ o a s h1 h3 ih => exact hun o a (.inl (by simp [h1])) ih
  | @neg _ a h2 h3 ih => exact hun .neg a (.inr rfl) ih
  | @bin loose o l r h3 h4 h5 h6 ih1 ih2 =>
    rw [text, toks]
    have hpr : (parenR o r && !o.wrapped) = (decide (o.rbp > r.BP.1) && !o.wrapped) := by
      unfold parenR; cases o.wrapped <;> simp
    rw [hpr]
    simp only [List.append_assoc]
    refine (ih1.wrap _).append ?_ (fun rest _ => by rw [List.append_assoc]; exact sep_text o _)
    refine LexTo.cons (ts := [.sym o.text]) (fun rest => by simpa using lex_text_op o rest) (by simp) ?_
    refine (ih2.wrap _).append ?_ (fun rest h => sep_rtext o rest h)
    refine .inl ⟨by cases o.wrapped <;> simp, fun rest _ => lex_rtext o rest⟩
  | @paren loose a h ih => exact ih.wrap true

/-- **C70**: a text with additional parentheses anywhere is read as the expression without them. -/
theorem C70_redundant_parentheses (L : NumLex K) (e : PExpr K) (h : Ok L true e) :
    parse L e.text = .ok e.erase := by
  have h5 := ok_reads h 0 [] [] e.erase
    (by cases e <;> simp [mb, intMax, lbp_nonneg]) weaker_nil (fun _ => weaker_nil) .loopEnd
  simp only [List.append_nil] at h5
  have hb : Tok.bad ∉ e.toks := by
    obtain ⟨u, hu, hg⟩ := D_sound L h5
    rw [List.append_nil] at hu
    rw [hu]
    exact gram_no_bad L hg
  rcases text_lexes h with ⟨-, h2⟩ | ⟨h2, -⟩
  · have h3 := h2 [] sep_nil
    simp only [List.append_nil, lex_nil] at h3
    rw [parse_ok_iff, h3]
    have h4 := toks_nb h []
    simp only [List.append_nil] at h4
    exact ⟨h4, h5⟩
  · exact absurd h2 hb

/-! ### The unmarked text is the printer's -/

/-- Marks no parentheses. -/
def ofExpr (showK : K → List Char) : Expr K → Option (PExpr K)
  | .const k => some (.const (showK k) k)
  | .var n => some (.var n)
  | .un o a => (ofExpr showK a).map (.un o)
  | .bin o l r => (ofExpr showK l).bind fun l => (ofExpr showK r).map (.bin o l)
  | _ => none

theorem ofExpr_spec (showK : K → List Char) (e : Expr K) (p : PExpr K) (h : ofExpr showK e = some p) :
    e.BP = some p.BP ∧ e.repr showK = some p.text ∧ p.erase = e := by
  induction e using Expr.ind generalizing p with
  | const k => simp [ofExpr] at h; subst h; simp [Expr.BP, BP, Expr.repr, text, erase]
  | var n => simp [ofExpr] at h; subst h; simp [Expr.BP, BP, Expr.repr, text, erase]
  | un o a ih =>
    simp only [ofExpr, Option.map_eq_some_iff] at h
    obtain ⟨q, hq, rfl⟩ := h
    obtain ⟨h1, h2, h3⟩ := ih q hq
    exact ⟨rfl, by simp [Expr.repr, text, h1, h2], by simp [erase, h3]⟩
  | bin o l r ihl ihr =>
    simp only [ofExpr, Option.bind_eq_some_iff, Option.map_eq_some_iff] at h
    obtain ⟨q, hq, q', hq', rfl⟩ := h
    obtain ⟨h1, h2, h3⟩ := ihl q hq
    obtain ⟨h1', h2', h3'⟩ := ihr q' hq'
    exact ⟨rfl, by simp [Expr.repr, text, h1, h2, h1', h2'], by simp [erase, h3, h3']⟩
  | arr => simp [ofExpr] at h
  | dict => simp [ofExpr] at h

/-- **C70**: without marks the text is the default output of the printer. -/
theorem C70_no_marks (showK : K → List Char) (e : Expr K) (p : PExpr K) (h : ofExpr showK e = some p) :
    e.repr showK = some p.text ∧ p.erase = e :=
  ⟨(ofExpr_spec showK e p h).2.1, (ofExpr_spec showK e p h).2.2⟩

/-- `((x)^(y))^2`, which the default output cannot express (C02_power_fails). -/
example : parse textNum "((x)^(y))^2".toList =
    .ok (.bin .pow (.bin .pow (.var ['x']) (.var ['y'])) (.const ['2'])) := by
  have h : Ok textNum true (.bin .pow (.paren (.bin .pow (.paren (.var ['x'])) (.paren (.var ['y'])))) (.const ['2'] ['2'])) :=
    .bin (by simp [isBin]) (by simp) (.paren (.bin (by simp [isBin]) (by simp) (.paren (.var isName_x))
      (.paren (.var isName_y)))) (.const isLit_2 rfl)
  have := C70_redundant_parentheses textNum _ h
  simpa [text, BP, wrapIf, erase, BinOp.text, BinOp.rtext, BinOp.lbp, BinOp.rbp, intMax, BinOp.wrapped, BinOp.rightAssoc]
    using this

end PExpr

end Stator
