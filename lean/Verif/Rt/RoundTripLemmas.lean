import Verif.Rt.RoundTripSpec
import Verif.Rt.PrecLemmas
import Verif.Rt.ParserProps

/-!
# Round trip: helper lemmas
-/

namespace Stator

/-- Induction on expressions with lists of children. -/
theorem Expr.ind {K : Type} {P : Expr K → Prop} (const : ∀ k, P (.const k)) (var : ∀ n, P (.var n))
    (un : ∀ o a, P a → P (.un o a)) (bin : ∀ o l r, P l → P r → P (.bin o l r))
    (arr : ∀ xs, (∀ x ∈ xs, P x) → P (.arr xs))
    (dict : ∀ kvs : List (List Char × Expr K), (∀ p ∈ kvs, P p.2) → P (.dict kvs)) (e : Expr K) : P e := by
  refine Expr.rec (motive_1 := P) (motive_2 := fun xs => ∀ x ∈ xs, P x)
    (motive_3 := fun kvs => ∀ p ∈ kvs, P p.2) (motive_4 := fun p => P p.2)
    const var un bin arr dict ?_ ?_ ?_ ?_ ?_ e
  · simp
  · intro x xs h1 h2; simpa using ⟨h1, h2⟩
  · simp
  · intro p kvs h1 h2; simpa using ⟨h1, by simpa using h2⟩
  · intro k v h; exact h

/-- Parenthesise a token sequence if `b`. -/
def wrapT (b : Bool) (ts : List Tok) : List Tok :=
  if b then [.sym ['(']] ++ ts ++ [.sym [')']] else ts

/-- The tokens of a constant. -/
def constToks : List Char → List Tok
  | '-' :: t => [.sym ['-'], .num t]
  | s => [.num s]

def UnOp.tok : UnOp → Tok
  | .sin => .word ['s', 'i', 'n']
  | .cos => .word ['c', 'o', 's']
  | .exp => .word ['e', 'x', 'p']
  | .log => .word ['l', 'n']
  | .neg => .sym ['-']
  | .abs => .bad
  | .arbsign => .bad

mutual
/-- The tokens of the printed expression. -/
def Expr.toks {K : Type} (showK : K → List Char) : Expr K → List Tok
  | .const k => constToks (showK k)
  | .var n => [.word n]
  | .un o a => o.tok :: wrapT (parenU o a) (a.toks showK)
  | .bin o l r => wrapT (parenL o l) (l.toks showK) ++ [.sym o.text] ++
      wrapT (parenR o r && !o.wrapped) (r.toks showK) ++
      (if o.wrapped then [.sym o.closer] else [])
  | .arr xs => [.sym ['[']] ++ toksTerms showK xs ++ [.sym [']']]
  | .dict kvs => [.sym ['{']] ++ toksEntries showK kvs ++ [.sym ['}']]
def toksTerms {K : Type} (showK : K → List Char) : List (Expr K) → List Tok
  | [] => []
  | x :: xs => x.toks showK ++ (if xs.isEmpty then [] else .sym [','] :: toksTerms showK xs)
def toksEntries {K : Type} (showK : K → List Char) : List (List Char × Expr K) → List Tok
  | [] => []
  | (k, v) :: kvs => .word k :: .sym [':'] :: (v.toks showK ++
      (if kvs.isEmpty then [] else .sym [','] :: toksEntries showK kvs))
end

/-! ## Parsing the tokens -/

/-- First tokens an expression can start with. -/
def Start (t : Tok) : Prop := t ≠ .bad ∧ t ≠ .sym [']'] ∧ t ≠ .sym ['}']

theorem wrapT_start {b : Bool} {ts : List Tok} (h : ∃ t r, ts = t :: r ∧ Start t) :
    ∃ t r, wrapT b ts = t :: r ∧ Start t := by
  unfold wrapT
  split
  · exact ⟨_, _, rfl, by simp [Start]⟩
  · exact h

theorem isLit_digit {s : List Char} (h : IsLit s) : ∃ c t, s = c :: t ∧ isDigit c = true := by
  obtain ⟨ip, fp, ep, h4, h5, h6, h7⟩ := h
  cases ip with
  | nil => simp at h5
  | cons c ip => exact ⟨c, _, by rw [h4]; rfl, (digits_cons.1 h6).1⟩

theorem constToks_lit {s : List Char} (h : IsLit s) : constToks s = [.num s] := by
  obtain ⟨c, t, rfl, hc⟩ := isLit_digit h
  unfold constToks
  split
  · rename_i h; simp at h; rw [h.1] at hc; simp [isDigit] at hc
  · rfl

theorem toks_start {K : Type} {L : NumLex K} {showK : K → List Char} {e : Expr K}
    {b : Bool} (h : Printable L showK b e) : ∃ t r, e.toks showK = t :: r ∧ Start t := by
  induction h with
  | @const _ k h => rw [Expr.toks, constToks_lit h.1]; exact ⟨_, _, rfl, by simp [Start]⟩
  | @negc k h =>
    obtain ⟨t, h, -⟩ := h
    rw [Expr.toks, h]; exact ⟨_, _, rfl, by simp [Start]⟩
  | var n => exact ⟨_, _, rfl, by simp [Start]⟩
  | @fn _ o a s h =>
    refine ⟨_, _, by rw [Expr.toks], ?_⟩
    cases o <;> simp_all [fnName, Start, UnOp.tok]
  | neg => exact ⟨_, _, by rw [Expr.toks], by simp [Start, UnOp.tok]⟩
  | bin _ _ _ _ _ _ ih1 _ =>
    rw [Expr.toks]
    obtain ⟨t, r, h1, h2⟩ := wrapT_start ih1
    rw [h1]
    exact ⟨_, _, rfl, h2⟩
  | arr => exact ⟨_, _, by rw [Expr.toks]; rfl, by simp [Start]⟩
  | dict => exact ⟨_, _, by rw [Expr.toks]; rfl, by simp [Start]⟩

theorem toks_nb {K : Type} {L : NumLex K} {showK : K → List Char} {e : Expr K}
    {b : Bool} (h : Printable L showK b e) (rest : List Tok) : NB (e.toks showK ++ rest) := by
  obtain ⟨t, r, h1, h2⟩ := toks_start h
  rw [h1]; simpa [NB] using h2.1

theorem wrapT_nb {K : Type} {L : NumLex K} {showK : K → List Char} {e : Expr K} (b : Bool)
    {b' : Bool} (h : Printable L showK b' e) (rest : List Tok) : NB (wrapT b (e.toks showK) ++ rest) := by
  obtain ⟨t, r, h1, h2⟩ := wrapT_start (b := b) (toks_start h)
  rw [h1]; simpa [NB] using h2.1

/-- Upper limit of the loop after the expression was read. -/
def Expr.nb {K : Type} : Expr K → Int
  | .bin o _ _ => o.nbp
  | _ => intMax

/-- Smallest minimum under which the expression is read without stopping inside. -/
def Expr.mb {K : Type} : Expr K → Int
  | .bin o _ _ => o.lbp
  | _ => intMax

/-- Every operator in `rest` at the front binds weaker than `b`. -/
def Weaker (b : Int) (rest : List Tok) : Prop :=
  ∀ t, rest.head? = some t → ∃ o, rightOp t = some o ∧ o.lbp < b

theorem Weaker.opRest {b : Int} {rest : List Tok} (h : Weaker b rest) : OpRest rest := by
  intro t ht; obtain ⟨o, h1, -⟩ := h t ht; exact ⟨o, h1⟩

theorem Weaker.mono {b b' : Int} {rest : List Tok} (h : Weaker b rest) (hb : b ≤ b') :
    Weaker b' rest := by
  intro t ht; obtain ⟨o, h1, h2⟩ := h t ht; exact ⟨o, h1, by omega⟩

theorem weaker_halt {b : Int} (hb : 0 ≤ b) {t : Tok} (ht : rightOp t = some .halt) (rest : List Tok) :
    Weaker b (t :: rest) := by
  intro t' h'; simp at h'; subst h'; exact ⟨_, ht, by simp only [RightOp.lbp]; omega⟩

theorem weaker_nil {b : Int} : Weaker b [] := by intro t h; simp at h

theorem D_stop' {K : Type} (L : NumLex K) (t : Expr K) (m M : Int) (rest : List Tok)
    (h : Weaker m rest) : D L (.loop m M t) rest t rest := by
  cases rest with
  | nil => exact .loopEnd
  | cons a rest =>
    obtain ⟨o, ho, h2⟩ := h a rfl
    exact .loopStop ho (.inl h2)

/-- The statement proved by induction. -/
def Reads {K : Type} (L : NumLex K) (showK : K → List Char) (loose : Bool) (e : Expr K) : Prop :=
  ∀ (m : Int) (rest rest' : List Tok) (e' : Expr K), m ≤ e.mb → Weaker e.rb rest →
    (loose = true → Weaker 21 rest) →
    D L (.loop m e.nb e) rest e' rest' → D L (.expr m) (e.toks showK ++ rest) e' rest'

theorem rb_nonneg {K : Type} (e : Expr K) : 0 ≤ e.rb := by
  cases e with
  | un o a => exact ubp_nonneg o
  | bin o l r => exact rbp_nonneg o
  | _ => simp [Expr.rb, Expr.BP, intMax]

theorem Reads.delim {K : Type} {L : NumLex K} {showK : K → List Char} {e : Expr K}
    {b : Bool} (h : Reads L showK b e) {t : Tok} (ht : rightOp t = some .halt) (rest : List Tok) :
    D L (.expr 0) (e.toks showK ++ t :: rest) e (t :: rest) := by
  refine h 0 _ _ _ ?_ (weaker_halt (rb_nonneg e) ht rest)
    (fun _ => weaker_halt (by decide) ht rest) (D_stop' L e 0 _ _ (weaker_halt (by omega) ht rest))
  cases e <;> simp [Expr.mb, intMax, lbp_nonneg]

theorem Reads.paren {K : Type} {L : NumLex K} {showK : K → List Char} {e : Expr K}
    {b b' : Bool} (h : Reads L showK b e) (hp : Printable L showK b' e) (rest : List Tok) (hr : NB rest) :
    D L .tok (wrapT true (e.toks showK) ++ rest) e rest := by
  have := h.delim (t := .sym [')']) rfl rest
  simp only [wrapT, if_true, List.append_assoc, List.cons_append, List.nil_append]
  exact .paren rfl (toks_nb hp _) this hr

/-- An operand: parenthesised, or bare with enough binding power on its left. -/
theorem Reads.operand {K : Type} {L : NumLex K} {showK : K → List Char} {e : Expr K}
    {loose b' : Bool} (b : Bool) (h : Reads L showK (b || loose) e) (hp : Printable L showK b' e) (m : Int)
    (rest : List Tok) (hb : b = false → m ≤ e.mb ∧ m ≤ e.rb) (hw : Weaker m rest)
    (hl : loose = true → Weaker 21 rest) :
    D L (.expr m) (wrapT b (e.toks showK) ++ rest) e rest := by
  cases b with
  | true => exact .expr (h.paren hp rest hw.opRest.nb) (D_stop' L e _ _ _ hw)
  | false =>
    obtain ⟨h1, h2⟩ := hb rfl
    exact h m rest rest e h1 (hw.mono h2) (by simpa using hl) (D_stop' L e _ _ _ hw)

theorem rightOp_text (o : BinOp) : rightOp (.sym o.text) = some (.bin o) := by cases o <;> rfl
theorem closer_halt {o : BinOp} (h : o.wrapped = true) : rightOp (.sym o.closer) = some .halt := by
  cases o <;> first | rfl | simp [BinOp.wrapped] at h

theorem reads_prim {K : Type} {L : NumLex K} {showK : K → List Char} {e : Expr K}
    {loose : Bool} (hn : e.nb = intMax) (h : ∀ rest, Weaker e.rb rest → (loose = true → Weaker 21 rest) →
      D L .tok (e.toks showK ++ rest) e rest) :
    Reads L showK loose e := by
  intro m rest rest' e' _ hw hl hd
  rw [hn] at hd
  exact .expr (h rest hw hl) hd

theorem reads_terms {K : Type} {L : NumLex K} {showK : K → List Char} (xs : List (Expr K))
    (x : Expr K) (acc : List (Expr K)) (hp : ∀ y ∈ x :: xs, Printable L showK true y)
    (hr : ∀ y ∈ x :: xs, Reads L showK true y) (rest : List Tok) (hn : NB rest) :
    D L (.arr acc) (toksTerms showK (x :: xs) ++ .sym [']'] :: rest) (.arr (acc ++ x :: xs)) rest := by
  induction xs generalizing x acc with
  | nil =>
    rw [toksTerms]
    simp only [List.isEmpty_nil, if_true, List.append_nil]
    exact .arrLast ((hr x (by simp)).delim rfl rest) hn
  | cons y ys ih =>
    rw [toksTerms]
    simp only [List.isEmpty_cons, Bool.false_eq_true, if_false, List.append_assoc, List.cons_append]
    have h1 := (hr x (by simp)).delim (t := .sym [',']) rfl (toksTerms showK (y :: ys) ++ .sym [']'] :: rest)
    have h2 := ih y (acc ++ [x]) (fun z hz => hp z (by simp at hz ⊢; tauto))
      (fun z hz => hr z (by simp at hz ⊢; tauto))
    simp only [List.append_assoc, List.cons_append, List.nil_append] at h2
    refine .arrMore h1 ?_ h2
    rw [toksTerms, List.append_assoc]
    exact toks_nb (hp y (by simp)) _

theorem dictSet_new {K : Type} (acc : List (List Char × Expr K)) (k : List Char) (v : Expr K)
    (h : k ∉ acc.map Prod.fst) : dictSet acc k v = acc ++ [(k, v)] := by
  unfold dictSet
  rw [if_neg]
  simp at h ⊢
  intro a b
  exact h a b

theorem reads_key {K : Type} {L : NumLex K} {k : List Char} (hk : IsName k) (rest : List Tok) :
    D L (.expr 0) (.word k :: .sym [':'] :: rest) (.var k) (.sym [':'] :: rest) := by
  refine .expr (.var (leftOp_word_of_not_fn hk.2.2) (by simp [NB])) ?_
  exact .loopStop (o := .halt) rfl (.inl (by decide))

theorem reads_entries {K : Type} {L : NumLex K} {showK : K → List Char}
    (kvs : List (List Char × Expr K)) (p : List Char × Expr K) (acc : List (List Char × Expr K))
    (hk : ((acc ++ p :: kvs).map Prod.fst).Nodup) (hN : ∀ q ∈ p :: kvs, IsName q.1)
    (hp : ∀ q ∈ p :: kvs, Printable L showK true q.2) (hr : ∀ q ∈ p :: kvs, Reads L showK true q.2)
    (rest : List Tok) (hn : NB rest) :
    D L (.dict acc) (toksEntries showK (p :: kvs) ++ .sym ['}'] :: rest)
      (.dict (acc ++ p :: kvs)) rest := by
  induction kvs generalizing p acc with
  | nil =>
    obtain ⟨k, v⟩ := p
    rw [toksEntries]
    simp only [List.isEmpty_nil, if_true, List.append_nil, List.cons_append]
    have h1 : k ∉ acc.map Prod.fst := by
      rw [List.map_append, List.nodup_append] at hk
      intro hm
      exact hk.2.2 k hm k (by simp) rfl
    have h2 := D.dictLast (acc := acc) (reads_key (L := L) (hN (k, v) (by simp)) _)
      (toks_nb (hp (k, v) (by simp)) _) ((hr (k, v) (by simp)).delim (t := .sym ['}']) rfl rest) hn
    rwa [dictSet_new _ _ _ h1] at h2
  | cons q kvs ih =>
    obtain ⟨k, v⟩ := p
    rw [toksEntries]
    simp only [List.isEmpty_cons, Bool.false_eq_true, if_false, List.append_assoc, List.cons_append]
    have h1 : k ∉ acc.map Prod.fst := by
      rw [List.map_append, List.nodup_append] at hk
      intro hm
      exact hk.2.2 k hm k (by simp) rfl
    have h3 := ih q (acc ++ [(k, v)]) (by simpa using hk) (fun z hz => hN z (by simp at hz ⊢; tauto))
      (fun z hz => hp z (by simp at hz ⊢; tauto)) (fun z hz => hr z (by simp at hz ⊢; tauto))
    rw [← dictSet_new _ _ _ h1] at h3
    have h4 : acc ++ (k, v) :: q :: kvs = dictSet acc k v ++ q :: kvs := by
      rw [dictSet_new _ _ _ h1]; simp
    rw [h4]
    refine D.dictMore (reads_key (L := L) (hN (k, v) (by simp)) _)
      (toks_nb (hp (k, v) (by simp)) _)
      ((hr (k, v) (by simp)).delim (t := .sym [',']) rfl _) ?_ h3
    obtain ⟨k', v'⟩ := q
    rw [toksEntries]
    simp [NB]

theorem lbp_le_of_lt_rbp {o o' : BinOp} (h : ¬ o'.rbp < o.lbp) (h2 : o = .pow → o' ≠ .pow)
    (h3 : o = .eq → o' ≠ .eq) : o.lbp ≤ o'.lbp ∧ o.lbp < o'.rbp ∧ o.lbp ≤ o'.nbp := by
  revert h h2 h3; cases o <;> cases o' <;> decide

theorem printable_reads {K : Type} {L : NumLex K} {showK : K → List Char} {e : Expr K}
    {loose : Bool} (h : Printable L showK loose e) : Reads L showK loose e := by
  induction h with
  | @const _ k h =>
    refine reads_prim rfl fun rest hw _ => ?_
    have := D.num (L := L) (s := showK k) hw.opRest.nb
    rw [h.2] at this
    rw [Expr.toks, constToks_lit h.1]
    exact this
  | @negc k h =>
    refine reads_prim rfl fun rest hw hl => ?_
    obtain ⟨t, h1, h2, h3⟩ := h
    rw [Expr.toks, h1]
    have := D.num (L := L) (s := t) hw.opRest.nb
    have := D.minus (L := L) (tok := .sym ['-']) rfl (by simp [NB]) (.expr this (D_stop' L _ 21 intMax rest (hl rfl)))
    simpa [negate, h3, constToks] using this
  | @var _ n h => exact reads_prim rfl fun rest hw _ => .var (leftOp_word_of_not_fn h.2.2) hw.opRest.nb
  | @fn _ o a s h1 h2 h3 ih =>
    refine reads_prim rfl fun rest hw hl => ?_
    obtain ⟨h4, h5⟩ := fnName_leftOp h1
    have h6 : o.tok = .word s := by cases o <;> simp [fnName] at h1 <;> subst h1 <;> rfl
    rw [Expr.toks, h6]
    refine .fn h4 (wrapT_nb _ h3 _) (Reads.operand _ ih h3 _ _ ?_ hw hl)
    rw [h5]
    intro h7
    rw [parenU, decide_eq_false_iff_not, h5] at h7
    revert h7 h2
    cases a with
    | bin o l r => have := lbp_nonneg o; have := rightOp_lbp_lt (.bin o); simp [Expr.lb, Expr.BP, RightOp.lbp] at *; omega
    | _ => simp [Expr.lb, Expr.BP, Expr.mb, Expr.rb, intMax, Expr.isDict]
  | @neg _ a h1 h2 h3 ih =>
    refine reads_prim rfl fun rest hw hl => ?_
    rw [Expr.toks]
    have hneg : (Expr.un .neg a) = negate L a := by
      cases a <;> simp_all [negate, Expr.isConst]
    conv => arg 4; rw [hneg]
    refine .minus rfl (wrapT_nb _ h3 _) (Reads.operand _ ih h3 _ _ ?_ hw hl)
    intro h7
    simp only [parenU, decide_eq_false_iff_not, UnOp.bp] at h7
    revert h7 h1
    cases a with
    | bin o l r => cases o <;> simp [Expr.lb, Expr.BP, Expr.mb, Expr.rb, BinOp.lbp, BinOp.rbp, BinOp.rightAssoc]
    | _ => simp [Expr.lb, Expr.BP, Expr.mb, Expr.rb, intMax, Expr.isDict]
  | @bin loose o l r h1 h2 h3 h4 h5 h6 ih1 ih2 =>
    intro m rest rest' e' hm hw hl hd
    have hm : m ≤ o.lbp := hm
    have hw : Weaker o.rbp rest := hw
    have hd : D L (.loop m o.nbp (.bin o l r)) rest e' rest' := hd
    -- the part after the left operand
    have key : ∀ M, o.lbp ≤ M → D L (.loop m M l) ([Tok.sym o.text] ++
        wrapT (parenR o r && !o.wrapped) (r.toks showK) ++
        (if o.wrapped then [.sym o.closer] else []) ++ rest) e' rest' := by
      intro M hM
      cases hwr : o.wrapped with
      | true =>
        simp only [Bool.not_true, Bool.and_false, if_true, wrapT, Bool.false_eq_true, if_false,
          List.append_assoc, List.cons_append, List.nil_append]
        exact .loopWrap (rightOp_text o) hm hM hwr (toks_nb h6 _)
          (ih2.delim (closer_halt hwr) rest) hw.opRest.nb hd
      | false =>
        simp only [Bool.not_false, Bool.and_true, Bool.false_eq_true, if_false, List.append_nil,
          List.append_assoc, List.cons_append, List.nil_append]
        refine .loopBin (rightOp_text o) hm hM hwr (wrapT_nb _ h6 _)
          (Reads.operand _ ih2 h6 _ _ ?_ hw hl) hd
        intro h7
        simp only [parenR, hwr, Bool.false_or, decide_eq_false_iff_not] at h7
        revert h7 h2
        cases r with
        | bin o' l' r' =>
          have : o'.lbp ≤ o'.rbp := by cases o' <;> decide
          simp only [Expr.lb, Expr.BP, Expr.mb, Expr.rb, Option.getD_some]
          intro _ h; omega
        | un o' a => cases o <;> simp [Expr.lb, Expr.BP, BinOp.rbp, BinOp.lbp, BinOp.rightAssoc]
        | dict _ => simp [Expr.isDict]
        | _ => have := rightOp_lbp_lt (.bin o)
               simp [Expr.lb, Expr.BP, Expr.mb, Expr.rb]
    rw [Expr.toks]
    have hassoc : ∀ a b c d r : List Tok, a ++ b ++ c ++ d ++ r = a ++ (b ++ c ++ d ++ r) := by simp
    rw [hassoc]
    have hopen : Weaker (o.lbp + 1) ([Tok.sym o.text] ++
        wrapT (parenR o r && !o.wrapped) (r.toks showK) ++
        (if o.wrapped then [.sym o.closer] else []) ++ rest) := by
      intro t ht
      simp at ht
      subst ht
      exact ⟨_, rightOp_text o, by simp only [RightOp.lbp]; omega⟩
    by_cases hb : l.rb < o.lbp
    · have hb' : parenL o l = true := by simpa [parenL] using hb
      rw [hb']
      exact .expr (ih1.paren h5 _ hopen.opRest.nb) (key _ (lbp_le_max o))
    · have hb' : parenL o l = false := by simpa [parenL] using hb
      rw [hb']
      have h7 : m ≤ l.mb ∧ o.lbp + 1 ≤ l.rb ∧ o.lbp ≤ l.nb := by
        have hmx := rightOp_lbp_lt (.bin o)
        simp only [RightOp.lbp] at hmx
        cases l with
        | bin o' l' r' =>
          have h8 : o = .pow → o' ≠ .pow := by
            intro h9 h10; subst h10; simpa [Expr.isBin] using h3 h9
          have h9 : o = .eq → o' ≠ .eq := by
            intro h9 h10; subst h10; simpa [Expr.isBin] using h4 h9
          have := lbp_le_of_lt_rbp (by simpa [Expr.rb, Expr.BP] using hb) h8 h9
          simp only [Expr.lb, Expr.BP, Expr.mb, Expr.rb, Expr.nb, Option.getD_some]
          omega
        | un o' a =>
          have : o.lbp + 1 ≤ o'.bp := by
            revert hb
            simp only [Expr.rb, Expr.BP, Option.getD_some]
            cases o <;> cases o' <;> decide
          simp only [Expr.lb, Expr.BP, Expr.mb, Expr.rb, Expr.nb, Option.getD_some]
          omega
        | dict _ => simp [Expr.isDict] at h1
        | _ =>
          simp only [Expr.lb, Expr.BP, Expr.mb, Expr.rb, Expr.nb, Option.getD_some]
          omega
      refine ih1 m _ _ _ h7.1 (hopen.mono h7.2.1) ?_ (key _ h7.2.2)
      rw [hb', Bool.false_or]
      intro hwk
      refine hopen.mono ?_
      cases o <;> simp [BinOp.weak, BinOp.lbp] at hwk ⊢
  | @arr _ xs h ih =>
    refine reads_prim rfl fun rest hw _ => ?_
    rw [Expr.toks]
    cases xs with
    | nil => exact .arr0 rfl hw.opRest.nb
    | cons x xs =>
      simp only [List.append_assoc, List.cons_append, List.nil_append]
      have hst := toks_start (h x (by simp))
      obtain ⟨t, r, h1, h2⟩ := hst
      refine .arr rfl ?_ ?_ (reads_terms xs x [] h ih rest hw.opRest.nb)
      · rw [toksTerms, h1]; simpa [NB] using h2.1
      · rw [toksTerms, h1]; simpa using h2.2.1
  | @dict _ kvs h1 h2 h3 ih =>
    refine reads_prim rfl fun rest hw _ => ?_
    rw [Expr.toks]
    cases kvs with
    | nil => exact .dict0 rfl hw.opRest.nb
    | cons p kvs =>
      simp only [List.append_assoc, List.cons_append, List.nil_append]
      refine .dict rfl ?_ ?_ (reads_entries kvs p [] (by simpa using h1) h2 h3 ih rest hw.opRest.nb)
      · rw [toksEntries]; simp [NB]
      · rw [toksEntries]; simp

/-! ## Tokenizing the printed text -/

theorem lex_sym1 (c : Char) (cs : List Char) (h : isDigit c = false ∧ isAlpha c = false ∧ c ≠ ' ' ∧
    c ≠ '\u00c2' ∧ c ≠ '\u00c3' ∧ [c] ∈ symTable) : lex (c :: cs) = .sym [c] :: lex cs := by
  obtain ⟨h1, h2, h3, h4, h5, h6⟩ := h
  rw [lex_cons _ _ h3]
  simp [lexOne, h1, h2, h4, h5, h6]

theorem lex_pm (cs : List Char) : lex (pmSign ++ cs) = .sym pmSign :: lex cs := by
  rw [pmSign, List.cons_append, lex_cons _ _ (by decide)]
  have : lexOne '\u00c2' (['\u00b1'] ++ cs) = (.sym pmSign, cs) := by
    simp [lexOne, isDigit, isAlpha, symTable, pmSign]
  rw [this]
  simp [pmSign]

theorem lex_lit (s rest : List Char) (hs : IsLit s) (hr : Sep rest) :
    lex (s ++ rest) = .num s :: lex rest := by
  obtain ⟨ip, fp, ep, h4, h5, h6, h7⟩ := id hs
  cases ip with
  | nil => simp at h5
  | cons c ip =>
    have hc := (digits_cons.1 h6).1
    cases s with
    | nil => simp at h4
    | cons x s =>
      simp at h4
      obtain ⟨rfl, h8⟩ := h4
      have hsp : x ≠ ' ' := by rintro rfl; simp [isDigit] at hc
      have := (C06_literal x (s ++ rest) (x :: s) rest hc).2 ⟨by simp, hs, hr.boundary⟩
      rw [List.cons_append, lex_cons _ _ hsp, this]
      simp

theorem takeWhile_all {l : List Char} (h : ∀ c ∈ l, isAlpha c = true) :
    l.takeWhile isAlpha = l ∧ l.dropWhile isAlpha = [] := by
  induction l with
  | nil => simp
  | cons a l ih =>
    simp at h
    simp [List.takeWhile, List.dropWhile, h.1, ih h.2]

theorem lex_word (s rest : List Char) (h : s ≠ []) (hs : ∀ c ∈ s, isAlpha c = true) (hr : Sep rest) :
    lex (s ++ rest) = .word s :: lex rest := by
  cases s with
  | nil => simp at h
  | cons c s =>
    simp at hs
    have hsp : c ≠ ' ' := by rintro rfl; simp [isAlpha] at hs
    have hd : isDigit c = false := by
      have := hs.1
      simp only [isAlpha, isDigit, Bool.or_eq_true, Bool.and_eq_true, decide_eq_true_eq,
        Bool.and_eq_false_iff, decide_eq_false_iff_not, Char.le_def] at this ⊢
      have h0 : ('9' : Char).val = 57 := rfl
      have h1 : ('a' : Char).val = 97 := rfl
      have h2 : ('A' : Char).val = 65 := rfl
      right
      rw [h0]; rw [h1, h2] at this
      intro hh
      rcases this with ⟨h3, -⟩ | ⟨h3, -⟩
      · exact absurd (UInt32.le_trans h3 hh) (by decide)
      · exact absurd (UInt32.le_trans h3 hh) (by decide)
    rw [List.cons_append, lex_cons _ _ hsp]
    have h1 := takeWhile_append_sep s rest hr
    have h2 := takeWhile_all hs.2
    simp [lexOne, hd, hs.1, h1.1, h1.2, h2.1, h2.2]

theorem BP_some {K : Type} {e : Expr K} (h : e.isDict = false) : e.BP = some (e.lb, e.rb) := by
  cases e <;> simp_all [Expr.BP, Expr.lb, Expr.rb, Expr.isDict]

/-- The text `s` has the tokens `ts`; after a token that is not recognised there are no more. -/
def LexTo (s : List Char) (ts : List Tok) : Prop :=
  (Tok.bad ∉ ts ∧ ∀ rest, Sep rest → lex (s ++ rest) = ts ++ lex rest) ∨
  (Tok.bad ∈ ts ∧ ∀ rest, Sep rest → Tok.bad ∈ lex (s ++ rest))

theorem LexTo.wrap (b : Bool) {s : List Char} {ts : List Tok} (h : LexTo s ts) :
    LexTo (wrapIf b s) (wrapT b ts) := by
  cases b with
  | false => exact h
  | true =>
    simp only [LexTo, wrapIf, wrapT, if_true, List.append_assoc, List.cons_append, List.nil_append]
    rcases h with ⟨h0, h⟩ | ⟨h0, h⟩
    · refine .inl ⟨by simpa using h0, fun rest hr => ?_⟩
      rw [lex_sym1 _ _ (by decide), h _ (by rw [sep_cons]; decide), lex_sym1 _ _ (by decide)]
    · refine .inr ⟨by simpa using h0, fun rest hr => ?_⟩
      rw [lex_sym1 _ _ (by decide)]
      exact List.mem_cons_of_mem _ (h _ (by rw [sep_cons]; decide))

/-- A text followed by another one that begins with a separator. -/
theorem LexTo.append {s s' : List Char} {ts ts' : List Tok} (h : LexTo s ts) (h' : LexTo s' ts')
    (hs : ∀ rest, Sep rest → Sep (s' ++ rest)) : LexTo (s ++ s') (ts ++ ts') := by
  rcases h with ⟨h0, h⟩ | ⟨h0, h⟩
  · rcases h' with ⟨h0', h'⟩ | ⟨h0', h'⟩
    · refine .inl ⟨by simp [h0, h0'], fun rest hr => ?_⟩
      rw [List.append_assoc, h _ (hs rest hr), h' rest hr, List.append_assoc]
    · refine .inr ⟨by simp [h0'], fun rest hr => ?_⟩
      rw [List.append_assoc, h _ (hs rest hr)]
      exact List.mem_append_right _ (h' rest hr)
  · refine .inr ⟨by simp [h0], fun rest hr => ?_⟩
    rw [List.append_assoc]
    exact h _ (hs rest hr)

/-- A prefix of tokens that are recognised whatever follows. -/
theorem LexTo.cons {s s' : List Char} {ts ts' : List Tok} (h : ∀ rest, lex (s ++ rest) = ts ++ lex rest)
    (h0 : Tok.bad ∉ ts) (h' : LexTo s' ts') : LexTo (s ++ s') (ts ++ ts') := by
  rcases h' with ⟨h0', h'⟩ | ⟨h0', h'⟩
  · refine .inl ⟨by simp [h0, h0'], fun rest hr => ?_⟩
    rw [List.append_assoc, h, h' rest hr, List.append_assoc]
  · refine .inr ⟨by simp [h0'], fun rest hr => ?_⟩
    rw [List.append_assoc, h]
    exact List.mem_append_right _ (h' rest hr)

theorem LexTo.cons1 {c : Char} {s' : List Char} {ts' : List Tok} (hc : isDigit c = false ∧ isAlpha c = false ∧
    c ≠ ' ' ∧ c ≠ '\u00c2' ∧ c ≠ '\u00c3' ∧ [c] ∈ symTable) (h' : LexTo s' ts') :
    LexTo (c :: s') (.sym [c] :: ts') := by
  have := LexTo.cons (s := [c]) (ts := [.sym [c]]) (fun rest => lex_sym1 c rest hc) (by simp) h'
  simpa using this

theorem LexTo.sym1 {c : Char} (hc : isDigit c = false ∧ isAlpha c = false ∧
    c ≠ ' ' ∧ c ≠ '\u00c2' ∧ c ≠ '\u00c3' ∧ [c] ∈ symTable) : LexTo [c] [.sym [c]] :=
  .inl ⟨by simp, fun rest _ => lex_sym1 c rest hc⟩

theorem LexTo.lit {s : List Char} (h : IsLit s) : LexTo s [.num s] :=
  .inl ⟨by simp, fun rest hr => by simpa using lex_lit s rest h hr⟩

theorem LexTo.name {s : List Char} (h : IsName s) : LexTo s [.word s] :=
  .inl ⟨by simp, fun rest hr => by simpa using lex_word s rest h.1 h.2.1 hr⟩

theorem sep_text (o : BinOp) (r : List Char) : Sep (o.text ++ r) := by
  cases o <;> (simp only [BinOp.text, pmSign, List.cons_append, sep_cons]; decide)

theorem lex_text_op (o : BinOp) (r : List Char) : lex (o.text ++ r) = .sym o.text :: lex r := by
  cases o
  case uncert => exact lex_pm r
  all_goals exact lex_sym1 _ _ (by decide)

theorem lex_rtext (o : BinOp) (r : List Char) :
    lex (o.rtext ++ r) = (if o.wrapped then [.sym o.closer] else []) ++ lex r := by
  cases o
  case access => exact lex_sym1 _ _ (by decide)
  case units => exact lex_sym1 _ _ (by decide)
  all_goals rfl

theorem sep_rtext (o : BinOp) (r : List Char) (h : Sep r) : Sep (o.rtext ++ r) := by
  cases o
  case access => simp only [BinOp.rtext, List.cons_append, sep_cons]; decide
  case units => simp only [BinOp.rtext, List.cons_append, sep_cons]; decide
  all_goals exact h

theorem dropTwo_append (s : List Char) (a b : Char) : dropTwo (s ++ [a, b]) = s := by
  unfold dropTwo
  rw [show s ++ [a, b] = (s ++ [a]) ++ [b] by simp, List.dropLast_concat, List.dropLast_concat]

theorem lexes_terms {K : Type} (showK : K → List Char) (xs : List (Expr K)) (x : Expr K) (s : List Char)
    (h : ∀ y ∈ x :: xs, ∀ s, y.repr showK = some s → LexTo s (y.toks showK))
    (hs : reprTerms showK (x :: xs) = some s) :
    ∃ s', s = s' ++ [',', ' '] ∧ LexTo s' (toksTerms showK (x :: xs)) := by
  induction xs generalizing x s with
  | nil =>
    rw [reprTerms] at hs
    cases hx : x.repr showK with
    | none => simp [hx] at hs
    | some sx =>
      simp [hx, reprTerms] at hs
      exact ⟨sx, hs.symm, by simpa [toksTerms] using h x (by simp) sx hx⟩
  | cons y ys ih =>
    rw [reprTerms] at hs
    cases hx : x.repr showK with
    | none => simp [hx] at hs
    | some sx =>
      cases hys : reprTerms showK (y :: ys) with
      | none => simp [hx, hys] at hs
      | some ss =>
        obtain ⟨s', rfl, h'⟩ := ih y ss (fun z hz => h z (by simp at hz ⊢; tauto)) hys
        simp [hx, hys] at hs
        refine ⟨sx ++ (',' :: ' ' :: s'), by rw [← hs]; simp, ?_⟩
        rw [toksTerms]
        simp only [List.isEmpty_cons, Bool.false_eq_true, if_false]
        refine (h x (by simp) sx hx).append ?_ (fun rest hr => by rw [List.cons_append, sep_cons]; decide)
        have := LexTo.cons (s := [',', ' ']) (ts := [.sym [',']])
          (fun rest => by rw [List.cons_append, lex_sym1 _ _ (by decide)]; simp [lex_space]) (by simp) h'
        simpa using this

theorem lexes_entries {K : Type} (showK : K → List Char) (kvs : List (List Char × Expr K))
    (p : List Char × Expr K) (s : List Char) (hN : ∀ q ∈ p :: kvs, IsName q.1)
    (h : ∀ q ∈ p :: kvs, ∀ s, q.2.repr showK = some s → LexTo s (q.2.toks showK))
    (hs : reprEntries showK (p :: kvs) = some s) :
    ∃ s', s = s' ++ [',', ' '] ∧ LexTo s' (toksEntries showK (p :: kvs)) := by
  induction kvs generalizing p s with
  | nil =>
    obtain ⟨k, v⟩ := p
    rw [reprEntries] at hs
    cases hx : v.repr showK with
    | none => simp [hx] at hs
    | some sx =>
      simp [hx, reprEntries] at hs
      refine ⟨k ++ ':' :: sx, by rw [← hs]; simp, ?_⟩
      have := (LexTo.name (hN (k, v) (by simp))).append (LexTo.cons1 (c := ':') (by decide)
        (h (k, v) (by simp) sx hx)) (fun rest hr => by rw [List.cons_append, sep_cons]; decide)
      simpa [toksEntries] using this
  | cons q kvs ih =>
    obtain ⟨k, v⟩ := p
    rw [reprEntries] at hs
    cases hx : v.repr showK with
    | none => simp [hx] at hs
    | some sx =>
      cases hys : reprEntries showK (q :: kvs) with
      | none => simp [hx, hys] at hs
      | some ss =>
        obtain ⟨s', rfl, h'⟩ := ih q ss (fun z hz => hN z (by simp at hz ⊢; tauto))
          (fun z hz => h z (by simp at hz ⊢; tauto)) hys
        simp [hx, hys] at hs
        refine ⟨k ++ ':' :: (sx ++ (',' :: ' ' :: s')), by rw [← hs]; simp, ?_⟩
        rw [toksEntries]
        simp only [List.isEmpty_cons, Bool.false_eq_true, if_false]
        have h1 := LexTo.cons (s := [',', ' ']) (ts := [.sym [',']])
          (fun rest => by rw [List.cons_append, lex_sym1 _ _ (by decide)]; simp [lex_space]) (by simp) h'
        have h2 := (h (k, v) (by simp) sx hx).append h1
          (fun rest hr => by rw [List.append_assoc, List.cons_append, sep_cons]; decide)
        have h3 := (LexTo.name (hN (k, v) (by simp))).append (LexTo.cons1 (c := ':') (by decide) h2)
          (fun rest hr => by rw [List.cons_append, sep_cons]; decide)
        simpa using h3

theorem lex_fn {o : UnOp} {n : List Char} (h : fnName o = some n) (r : List Char) :
    lex (o.ltext ++ r) = o.tok :: lex r ∧ o.rtext = [] := by
  have hw := fun s (h1 : s ≠ []) (h2 : ∀ c ∈ s, isAlpha c = true) => lex_word s (' ' :: r) h1 h2 (sep_space r)
  cases o <;> simp [fnName] at h
  · exact ⟨by simpa [lex_space, UnOp.ltext, UnOp.tok] using hw ['s', 'i', 'n'] (by simp) (by decide), rfl⟩
  · exact ⟨by simpa [lex_space, UnOp.ltext, UnOp.tok] using hw ['c', 'o', 's'] (by simp) (by decide), rfl⟩
  · exact ⟨by simpa [lex_space, UnOp.ltext, UnOp.tok] using hw ['e', 'x', 'p'] (by simp) (by decide), rfl⟩
  · exact ⟨by simpa [lex_space, UnOp.ltext, UnOp.tok] using hw ['l', 'n'] (by simp) (by decide), rfl⟩

theorem lex_abs {o : UnOp} (h : o.tok = .bad) (s rest : List Char) : Tok.bad ∈ lex (o.ltext ++ s ++ rest) := by
  cases o <;> simp [UnOp.tok] at h
  · simp only [UnOp.ltext, List.cons_append, List.nil_append]
    rw [lex_cons _ _ (by decide)]
    simp [lexOne, isDigit, isAlpha, symTable, pmSign]
  · simp only [UnOp.ltext, List.append_assoc]
    rw [lex_pm, List.cons_append, lex_cons _ _ (by decide)]
    simp [lexOne, isDigit, isAlpha, symTable, pmSign]

theorem toks_isDict {K : Type} {showK : K → List Char} {e : Expr K} {p : Int × Int} (h : e.BP = some p) :
    e.isDict = false ∧ p = (e.lb, e.rb) := by
  cases e <;> simp_all [Expr.BP, Expr.lb, Expr.rb, Expr.isDict]

/-- The tokens of the printed text. -/
theorem repr_lexes {K : Type} {L : NumLex K} {showK : K → List Char} {e : Expr K}
    (h : Writable L showK e) : ∀ s, e.repr showK = some s → LexTo s (e.toks showK) := by
  induction h with
  | @const k h =>
    intro s hs
    simp only [Expr.repr, Option.some.injEq] at hs
    subst hs
    rw [Expr.toks]
    rcases h with h | ⟨t, h1, h2, -⟩
    · rw [constToks_lit h.1]; exact .lit h.1
    · rw [h1]; exact .cons1 (by decide) (.lit h2)
  | @var n h =>
    intro s hs
    simp only [Expr.repr, Option.some.injEq] at hs
    subst hs
    exact .name h
  | @un o a h ih =>
    intro s hs
    rw [Expr.repr] at hs
    cases ha : a.repr showK with
    | none => simp [ha] at hs
    | some sa =>
      cases hb : a.BP with
      | none => simp [ha, hb] at hs
      | some p =>
        obtain ⟨-, rfl⟩ := toks_isDict (showK := showK) hb
        simp only [ha, hb, Option.bind_eq_bind, Option.bind_some, Option.some.injEq] at hs
        subst hs
        rw [Expr.toks]
        have hw := (ih sa ha).wrap (parenU o a)
        cases hf : fnName o with
        | some n =>
          rw [(lex_fn hf []).2, List.append_nil]
          refine LexTo.cons (ts := [o.tok]) (fun rest => by simpa using (lex_fn hf rest).1) ?_ hw
          cases o <;> simp_all [fnName, UnOp.tok]
        | none =>
          by_cases ho : o = .neg
          · subst ho
            simp only [UnOp.ltext, UnOp.rtext, List.append_nil, List.cons_append, List.nil_append]
            exact .cons1 (by decide) hw
          · have hbad : o.tok = .bad := by cases o <;> simp_all [fnName, UnOp.tok]
            refine .inr ⟨by simp [hbad], fun rest _ => ?_⟩
            rw [List.append_assoc, List.append_assoc, ← List.append_assoc _ _ (o.rtext ++ rest)]
            exact lex_abs hbad _ _
  | @bin o l r h1 h2 ih1 ih2 =>
    intro s hs
    rw [Expr.repr] at hs
    cases hl : l.repr showK with
    | none => cases hb : l.BP <;> cases hb' : r.BP <;> simp [hl, hb, hb'] at hs
    | some sl =>
      cases hr : r.repr showK with
      | none => cases hb : l.BP <;> cases hb' : r.BP <;> simp [hl, hr, hb, hb'] at hs
      | some sr =>
        cases hb : l.BP with
        | none => simp [hb] at hs
        | some p =>
          cases hb' : r.BP with
          | none => simp [hb, hb'] at hs
          | some p' =>
            obtain ⟨-, rfl⟩ := toks_isDict (showK := showK) hb
            obtain ⟨-, rfl⟩ := toks_isDict (showK := showK) hb'
            simp only [hl, hr, hb, hb', Option.bind_eq_bind, Option.bind_some, Option.some.injEq] at hs
            subst hs
            rw [Expr.toks]
            have hpr : (parenR o r && !o.wrapped) = (decide (o.rbp > r.lb) && !o.wrapped) := by
              unfold parenR; cases o.wrapped <;> simp
            rw [hpr]
            simp only [List.append_assoc]
            refine ((ih1 sl hl).wrap _).append ?_ (fun rest _ => by rw [List.append_assoc]; exact sep_text o _)
            refine LexTo.cons (ts := [.sym o.text]) (fun rest => by simpa using lex_text_op o rest) (by simp) ?_
            refine ((ih2 sr hr).wrap _).append ?_ (fun rest h => sep_rtext o rest h)
            refine .inl ⟨by cases o.wrapped <;> simp, fun rest _ => lex_rtext o rest⟩
  | @arr xs h ih =>
    intro s hs
    cases xs with
    | nil =>
      simp only [Expr.repr, Option.some.injEq] at hs
      subst hs
      exact .cons1 (by decide) (.sym1 (by decide))
    | cons x xs =>
      rw [Expr.repr] at hs
      cases hx : reprTerms showK (x :: xs) with
      | none => simp [hx] at hs
      | some ss =>
        obtain ⟨s', rfl, h'⟩ := lexes_terms showK xs x ss ih hx
        simp only [hx, Option.bind_eq_bind, Option.bind_some, Option.some.injEq] at hs
        rw [← List.append_assoc ['['] s', dropTwo_append] at hs
        subst hs
        rw [Expr.toks]
        simp only [List.append_assoc, List.cons_append, List.nil_append]
        exact .cons1 (by decide) (h'.append (.sym1 (by decide)) (fun rest hr => by rw [List.cons_append, sep_cons]; decide))
  | @dict kvs h1 h2 h3 ih =>
    intro s hs
    cases kvs with
    | nil =>
      simp only [Expr.repr, Option.some.injEq] at hs
      subst hs
      exact .cons1 (by decide) (.sym1 (by decide))
    | cons x xs =>
      rw [Expr.repr] at hs
      cases hx : reprEntries showK (x :: xs) with
      | none => simp [hx] at hs
      | some ss =>
        obtain ⟨s', rfl, h'⟩ := lexes_entries showK xs x ss h2 ih hx
        simp only [hx, Option.bind_eq_bind, Option.bind_some, Option.some.injEq] at hs
        rw [← List.append_assoc ['{'] s', dropTwo_append] at hs
        subst hs
        rw [Expr.toks]
        simp only [List.append_assoc, List.cons_append, List.nil_append]
        exact .cons1 (by decide) (h'.append (.sym1 (by decide)) (fun rest hr => by rw [List.cons_append, sep_cons]; decide))

theorem printable_writable {K : Type} {L : NumLex K} {showK : K → List Char} {e : Expr K} {b : Bool}
    (h : Printable L showK b e) : Writable L showK e := by
  induction h with
  | const h => exact .const (.inl h)
  | negc h => exact .const (.inr h)
  | var h => exact .var h
  | fn _ _ _ ih => exact .un ih
  | neg _ _ _ ih => exact .un ih
  | bin _ _ _ _ _ _ ih1 ih2 => exact .bin ih1 ih2
  | arr _ ih => exact .arr ih
  | dict h1 h2 _ ih => exact .dict h1 h2 ih

theorem reprTerms_some {K : Type} {showK : K → List Char} {xs : List (Expr K)}
    (h : ∀ x ∈ xs, ∃ s, x.repr showK = some s) : ∃ s, reprTerms showK xs = some s := by
  induction xs with
  | nil => exact ⟨_, rfl⟩
  | cons x xs ih =>
    obtain ⟨s, h1⟩ := h x (by simp)
    obtain ⟨s', h2⟩ := ih (fun y hy => h y (by simp [hy]))
    exact ⟨_, by rw [reprTerms, h1, h2]; rfl⟩

theorem reprEntries_some {K : Type} {showK : K → List Char} {xs : List (List Char × Expr K)}
    (h : ∀ x ∈ xs, ∃ s, x.2.repr showK = some s) : ∃ s, reprEntries showK xs = some s := by
  induction xs with
  | nil => exact ⟨_, rfl⟩
  | cons x xs ih =>
    obtain ⟨k, v⟩ := x
    obtain ⟨s, h1⟩ := h (k, v) (by simp)
    obtain ⟨s', h2⟩ := ih (fun y hy => h y (by simp [hy]))
    dsimp only at h1
    exact ⟨_, by rw [reprEntries, h1, h2]; rfl⟩

theorem printable_repr {K : Type} {L : NumLex K} {showK : K → List Char} {e : Expr K} {b : Bool}
    (h : Printable L showK b e) : ∃ s, e.repr showK = some s := by
  induction h with
  | const h => exact ⟨_, by rw [Expr.repr]⟩
  | negc h => exact ⟨_, by rw [Expr.repr]⟩
  | var h => exact ⟨_, by rw [Expr.repr]⟩
  | fn _ h _ ih => obtain ⟨s, ih⟩ := ih; exact ⟨_, by rw [Expr.repr, ih, BP_some h]; rfl⟩
  | neg h _ _ ih => obtain ⟨s, ih⟩ := ih; exact ⟨_, by rw [Expr.repr, ih, BP_some h]; rfl⟩
  | bin h h' _ _ _ _ ih1 ih2 =>
    obtain ⟨s, ih1⟩ := ih1
    obtain ⟨s', ih2⟩ := ih2
    exact ⟨_, by rw [Expr.repr, ih1, ih2, BP_some h, BP_some h']; rfl⟩
  | @arr _ xs _ ih =>
    cases xs with
    | nil => exact ⟨_, by rw [Expr.repr]⟩
    | cons x xs =>
      obtain ⟨s, h⟩ := reprTerms_some ih
      exact ⟨_, by rw [Expr.repr, h]; rfl⟩
  | @dict _ kvs _ _ _ ih =>
    cases kvs with
    | nil => exact ⟨_, by rw [Expr.repr]⟩
    | cons x xs =>
      obtain ⟨s, h⟩ := reprEntries_some ih
      exact ⟨_, by rw [Expr.repr, h]; rfl⟩

theorem printable_roundtrip {K : Type} {L : NumLex K} {showK : K → List Char} {e : Expr K}
    {b : Bool} (h : Printable L showK b e) : ∃ s, e.repr showK = some s ∧ parse L s = .ok e := by
  obtain ⟨s, h1⟩ := printable_repr h
  refine ⟨s, h1, ?_⟩
  have h5 := printable_reads h 0 [] [] e
    (by cases e <;> simp [Expr.mb, intMax, lbp_nonneg]) weaker_nil (fun _ => weaker_nil) .loopEnd
  simp only [List.append_nil] at h5
  have hb : Tok.bad ∉ e.toks showK := by
    obtain ⟨u, hu, hg⟩ := D_sound L h5
    rw [List.append_nil] at hu
    rw [hu]
    exact gram_no_bad L hg
  rcases repr_lexes (printable_writable h) s h1 with ⟨-, h2⟩ | ⟨h2, -⟩
  · have h3 := h2 [] sep_nil
    simp only [List.append_nil, lex_nil] at h3
    rw [parse_ok_iff, h3]
    have h4 := toks_nb h []
    simp only [List.append_nil] at h4
    exact ⟨h4, h5⟩
  · exact absurd h2 hb

end Stator
