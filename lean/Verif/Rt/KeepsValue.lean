import Verif.Rt.RoundTripProps
import Verif.Rt.Eval

/-!
# C103: the printed text keeps the value

Printing and reading back does not give the same tree when a negative constant is followed by an operator
(`C02_roundtrip_iff`): `(-2)*x` is read as `-(2*x)`. Here: for which expressions the *value* survives although
the tree does not. A negative constant may be the first factor of a product or quotient, or a factor after a
`*`, at any depth of a chain of `*` and `/`; it must not be a divisor, a base or an exponent followed by
`*` or `/` (counterexamples below).
-/

namespace Stator

/-! ## Specification -/

/-- No arrays, no dictionaries. -/
def Expr.flat {K : Type} : Expr K → Bool
  | .const _ => true
  | .var _ => true
  | .un _ a => a.flat
  | .bin _ l r => l.flat && r.flat
  | .arr _ => false
  | .dict _ => false

/-- `k` prints as a minus sign and the text of `c`, a positive literal, of which it is the negation. -/
def NegOf {K : Type} (L : NumLex K) (showK : K → List Char) (k c : K) : Prop :=
  showK k = '-' :: showK c ∧ IsLit (showK c) ∧ L.ofLit (showK c) = c ∧ L.neg c = k

/-- `e` is a product or quotient (of products and quotients ...) whose first factor is a negative constant;
`g` is the same with the positive constant. -/
inductive Leads {K : Type} (L : NumLex K) (showK : K → List Char) : Expr K → Expr K → Prop
  | mul {k c r} : NegOf L showK k c → Leads L showK (.bin .mul (.const k) r) (.bin .mul (.const c) r)
  | div {k c r} : NegOf L showK k c → Leads L showK (.bin .div (.const k) r) (.bin .div (.const c) r)
  | mulL {l l' r} : Leads L showK l l' → Leads L showK (.bin .mul l r) (.bin .mul l' r)
  | divL {l l' r} : Leads L showK l l' → Leads L showK (.bin .div l r) (.bin .div l' r)

/-- `e` is `a * k * ..`, `a * k / ..` and so on with a negative constant `k`; `g` is what follows the `*`,
with the positive constant. -/
inductive Inside {K : Type} (L : NumLex K) (showK : K → List Char) (a : Expr K) : Expr K → Expr K → Prop
  | base {k c} : NegOf L showK k c → Inside L showK a (.bin .mul a (.const k)) (.const c)
  | mulL {l g r} : Inside L showK a l g → Inside L showK a (.bin .mul l r) (.bin .mul g r)
  | divL {l g r} : Inside L showK a l g → Inside L showK a (.bin .div l r) (.bin .div g r)

/-- Expressions whose printed text keeps the value. As `Printable` (`loose`: what follows the text is nothing,
a closing bracket, a separator or an operator weaker than the unary minus), but a negated constant is allowed,
and in a loose place so are products whose first factor is a negative constant and, if `P` (products may be regrouped), products with
a negative constant after a `*`. -/
inductive Keeps {K : Type} (L : NumLex K) (showK : K → List Char) (P : Prop) : Bool → Expr K → Prop
  | const {loose k} : PosConst L showK k → Keeps L showK P loose (.const k)
  | negc {k} : NegConst L showK k → Keeps L showK P true (.const k)
  | var {loose n} : IsName n → Keeps L showK P loose (.var n)
  | fn {loose o a s} : fnName o = some s → Keeps L showK P (parenU o a || loose) a →
      Keeps L showK P loose (.un o a)
  | neg {loose a} : Keeps L showK P (parenU .neg a || loose) a → Keeps L showK P loose (.un .neg a)
  | bin {loose o l r} : (o = .pow → l.isBin .pow = false) → (o = .eq → l.isBin .eq = false) →
      Keeps L showK P (parenL o l || o.weak) l → Keeps L showK P (parenR o r || loose) r →
      Keeps L showK P loose (.bin o l r)
  | lead {e g} : Leads L showK e g → Keeps L showK P true g → Keeps L showK P true e
  | inside {e a g} : P → Inside L showK a e g → Keeps L showK P (parenL .mul a) a → Keeps L showK P true g →
      Keeps L showK P true e

/-- A constant whose text starts with a minus sign. -/
def IsNeg {K : Type} (showK : K → List Char) (e : Expr K) : Prop := ∃ k t, e = .const k ∧ showK k = '-' :: t

/-- Expressions made of constants that can be read back, variables, functions, unary minus and `+ - * / ^`
in which no divisor, base, exponent or argument of a function is a negative constant and no base is a
power, nor, unless `P`, the second factor of a product a negative constant. -/
inductive NoNegOperand {K : Type} (L : NumLex K) (showK : K → List Char) (P : Prop) : Expr K → Prop
  | const {k} : PosConst L showK k → NoNegOperand L showK P (.const k)
  | negc {k c} : NegOf L showK k c → NoNegOperand L showK P (.const k)
  | var {n} : IsName n → NoNegOperand L showK P (.var n)
  | fn {o a s} : fnName o = some s → NoNegOperand L showK P a → ¬ IsNeg showK a → NoNegOperand L showK P (.un o a)
  | neg {a} : NoNegOperand L showK P a → NoNegOperand L showK P (.un .neg a)
  | add {l r} : NoNegOperand L showK P l → NoNegOperand L showK P r → NoNegOperand L showK P (.bin .add l r)
  | sub {l r} : NoNegOperand L showK P l → NoNegOperand L showK P r → NoNegOperand L showK P (.bin .sub l r)
  | mul {l r} : NoNegOperand L showK P l → NoNegOperand L showK P r → P ∨ ¬ IsNeg showK r → NoNegOperand L showK P (.bin .mul l r)
  | div {l r} : NoNegOperand L showK P l → NoNegOperand L showK P r → ¬ IsNeg showK r → NoNegOperand L showK P (.bin .div l r)
  | pow {l r} : NoNegOperand L showK P l → NoNegOperand L showK P r → ¬ IsNeg showK l → ¬ IsNeg showK r →
      l.isBin .pow = false → NoNegOperand L showK P (.bin .pow l r)

/-! ## Lemmas -/

variable {K : Type} {L : NumLex K} {showK : K → List Char} {P : Prop}

theorem NegOf.negConst {k c : K} (h : NegOf L showK k c) : NegConst L showK k :=
  ⟨showK c, h.1, h.2.1, by rw [h.2.2.1, h.2.2.2]⟩

theorem NegOf.toks {k c : K} (h : NegOf L showK k c) :
    constToks (showK k) = .sym ['-'] :: constToks (showK c) := by
  rw [h.1, constToks_lit h.2.1]; rfl

theorem Leads.shape {e g : Expr K} (h : Leads L showK e g) :
    e.lb = 30 ∧ e.rb = 31 ∧ e.mb = 30 ∧ g.lb = 30 ∧ g.rb = 31 ∧ g.mb = 30 ∧ 30 ≤ e.nb := by
  cases h <;> exact ⟨rfl, rfl, rfl, rfl, rfl, rfl, by simp [Expr.nb, BinOp.nbp, BinOp.lbp, BinOp.rightAssoc]⟩

theorem Inside.shape {a e g : Expr K} (h : Inside L showK a e g) :
    e.lb = 30 ∧ e.rb = 31 ∧ e.mb = 30 ∧ 30 ≤ g.lb ∧ 31 ≤ g.rb ∧ 30 ≤ g.mb ∧ 30 ≤ e.nb := by
  cases h <;> simp only [Expr.lb, Expr.rb, Expr.mb, Expr.nb, Expr.BP, Option.getD_some, intMax] <;> decide

theorem Leads.toks {e g : Expr K} (h : Leads L showK e g) :
    e.toks showK = .sym ['-'] :: g.toks showK := by
  induction h with
  | mul h =>
    simp only [Expr.toks, h.toks, parenL, Expr.rb, Expr.BP, Option.getD_some, BinOp.lbp]
    simp [wrapT, intMax]
  | div h =>
    simp only [Expr.toks, h.toks, parenL, Expr.rb, Expr.BP, Option.getD_some, BinOp.lbp]
    simp [wrapT, intMax]
  | mulL h ih =>
    simp only [Expr.toks, parenL, h.shape.2.1, h.shape.2.2.2.2.1, BinOp.lbp]
    simp [wrapT, ih]
  | divL h ih =>
    simp only [Expr.toks, parenL, h.shape.2.1, h.shape.2.2.2.2.1, BinOp.lbp]
    simp [wrapT, ih]

theorem Inside.toks {a e g : Expr K} (h : Inside L showK a e g) :
    e.toks showK = wrapT (parenL .mul a) (a.toks showK) ++ (.sym ['*'] :: .sym ['-'] :: g.toks showK) := by
  induction h with
  | base h =>
    rw [Expr.toks]
    simp only [Expr.toks, h.toks]
    simp [parenR, BinOp.wrapped, Expr.lb, Expr.BP, intMax, BinOp.rbp, BinOp.lbp, BinOp.rightAssoc, wrapT,
      BinOp.text]
  | @mulL l g r h ih =>
    have h3 : ¬ (g.rb < 30) := by have := h.shape; omega
    have h4 : ¬ (l.rb < 30) := by have := h.shape; omega
    have h5 : parenL .mul l = false := decide_eq_false h4
    have h6 : parenL .mul g = false := decide_eq_false h3
    simp only [Expr.toks, h5, h6]
    rw [show ∀ ts, wrapT false ts = ts from fun _ => rfl, ih]
    simp [wrapT]
  | @divL l g r h ih =>
    have h3 : ¬ (g.rb < 30) := by have := h.shape; omega
    have h4 : ¬ (l.rb < 30) := by have := h.shape; omega
    have h5 : parenL .div l = false := decide_eq_false h4
    have h6 : parenL .div g = false := decide_eq_false h3
    simp only [Expr.toks, h5, h6]
    rw [show ∀ ts, wrapT false ts = ts from fun _ => rfl, ih]
    simp [wrapT]

theorem Leads.flat {e g : Expr K} (h : Leads L showK e g) (hg : g.flat = true) : e.flat = true := by
  induction h with
  | mul _ => simpa [Expr.flat] using hg
  | div _ => simpa [Expr.flat] using hg
  | mulL _ ih => simp [Expr.flat] at hg ⊢; exact ⟨ih hg.1, hg.2⟩
  | divL _ ih => simp [Expr.flat] at hg ⊢; exact ⟨ih hg.1, hg.2⟩

theorem Inside.flat {a e g : Expr K} (h : Inside L showK a e g) (ha : a.flat = true) (hg : g.flat = true) :
    e.flat = true := by
  induction h with
  | base _ => simpa [Expr.flat] using ha
  | mulL _ ih => simp [Expr.flat] at hg ⊢; exact ⟨ih hg.1, hg.2⟩
  | divL _ ih => simp [Expr.flat] at hg ⊢; exact ⟨ih hg.1, hg.2⟩

theorem Leads.writable {e g : Expr K} (h : Leads L showK e g) (hg : Writable L showK g) : Writable L showK e := by
  induction h with
  | mul h => cases hg with | bin _ h2 => exact .bin (.const (.inr h.negConst)) h2
  | div h => cases hg with | bin _ h2 => exact .bin (.const (.inr h.negConst)) h2
  | mulL _ ih => cases hg with | bin h1 h2 => exact .bin (ih h1) h2
  | divL _ ih => cases hg with | bin h1 h2 => exact .bin (ih h1) h2

theorem Inside.writable {a e g : Expr K} (h : Inside L showK a e g) (ha : Writable L showK a)
    (hg : Writable L showK g) : Writable L showK e := by
  induction h with
  | base h => exact .bin ha (.const (.inr h.negConst))
  | mulL _ ih => cases hg with | bin h1 h2 => exact .bin (ih h1) h2
  | divL _ ih => cases hg with | bin h1 h2 => exact .bin (ih h1) h2

theorem Keeps.loosen {e : Expr K} {b : Bool} (h : Keeps L showK P b e) : Keeps L showK P true e := by
  induction h with
  | const h => exact .const h
  | negc h => exact .negc h
  | var h => exact .var h
  | fn h _ ih => exact .fn h (by rw [Bool.or_true]; exact ih)
  | neg _ ih => exact .neg (by rw [Bool.or_true]; exact ih)
  | bin h1 h2 h3 _ _ ih => exact .bin h1 h2 h3 (by rw [Bool.or_true]; exact ih)
  | lead h1 h2 _ => exact .lead h1 h2
  | inside h0 h1 h2 h3 _ _ => exact .inside h0 h1 h2 h3

theorem Keeps.flat {e : Expr K} {b : Bool} (h : Keeps L showK P b e) : e.flat = true := by
  induction h with
  | const _ => rfl
  | negc _ => rfl
  | var _ => rfl
  | fn _ _ ih => exact ih
  | neg _ ih => exact ih
  | bin _ _ _ _ ih1 ih2 => simp [Expr.flat, ih1, ih2]
  | lead h _ ih => exact h.flat ih
  | inside _ h _ _ ih1 ih2 => exact h.flat ih1 ih2

theorem Keeps.writable {e : Expr K} {b : Bool} (h : Keeps L showK P b e) : Writable L showK e := by
  induction h with
  | const h => exact .const (.inl h)
  | negc h => exact .const (.inr h)
  | var h => exact .var h
  | fn _ _ ih => exact .un ih
  | neg _ ih => exact .un ih
  | bin _ _ _ _ ih1 ih2 => exact .bin ih1 ih2
  | lead h _ ih => exact h.writable ih
  | inside _ h _ _ ih1 ih2 => exact h.writable ih1 ih2

theorem flat_isDict {e : Expr K} (h : e.flat = true) : e.isDict = false := by
  cases e <;> simp_all [Expr.flat, Expr.isDict]

theorem flat_repr (showK : K → List Char) {e : Expr K} (h : e.flat = true) : ∃ s, e.repr showK = some s := by
  induction e using Expr.ind with
  | const k => exact ⟨_, by rw [Expr.repr]⟩
  | var n => exact ⟨_, by rw [Expr.repr]⟩
  | un o a ih =>
    simp only [Expr.flat] at h
    obtain ⟨s, ih⟩ := ih h
    exact ⟨_, by rw [Expr.repr, ih, BP_some (flat_isDict h)]; rfl⟩
  | bin o l r ih1 ih2 =>
    simp only [Expr.flat, Bool.and_eq_true] at h
    obtain ⟨s, ih1⟩ := ih1 h.1
    obtain ⟨s', ih2⟩ := ih2 h.2
    exact ⟨_, by rw [Expr.repr, ih1, ih2, BP_some (flat_isDict h.1), BP_some (flat_isDict h.2)]; rfl⟩
  | arr xs => simp [Expr.flat] at h
  | dict kvs => simp [Expr.flat] at h

theorem keeps_start {e : Expr K} {b : Bool} (h : Keeps L showK P b e) :
    ∃ t r, e.toks showK = t :: r ∧ Start t := by
  induction h with
  | @const _ k h => rw [Expr.toks, constToks_lit h.1]; exact ⟨_, _, rfl, by simp [Start]⟩
  | @negc k h =>
    obtain ⟨t, h, -⟩ := h
    rw [Expr.toks, h]; exact ⟨_, _, rfl, by simp [Start]⟩
  | var n => exact ⟨_, _, rfl, by simp [Start]⟩
  | @fn _ o a s h =>
    refine ⟨_, _, by rw [Expr.toks], ?_⟩
    cases o <;> simp_all [fnName, Start, UnOp.tok]
  | neg => exact ⟨_, _, by rw [Expr.toks], by simp [Start, UnOp.tok]⟩
  | bin _ _ _ _ ih1 _ =>
    rw [Expr.toks]
    obtain ⟨t, r, h1, h2⟩ := wrapT_start ih1
    rw [h1]
    exact ⟨_, _, rfl, h2⟩
  | lead h _ _ => rw [h.toks]; exact ⟨_, _, rfl, by simp [Start]⟩
  | inside _ h _ _ ih _ =>
    rw [h.toks]
    obtain ⟨t, r, h1, h2⟩ := wrapT_start ih
    rw [h1]
    exact ⟨_, _, rfl, h2⟩

theorem keeps_wrap_nb {e : Expr K} {b' : Bool} (b : Bool) (h : Keeps L showK P b' e) (rest : List Tok) :
    NB (wrapT b (e.toks showK) ++ rest) := by
  obtain ⟨t, r, h1, h2⟩ := wrapT_start (b := b) (keeps_start h)
  rw [h1]; simpa [NB] using h2.1

theorem keeps_nb {e : Expr K} {b' : Bool} (h : Keeps L showK P b' e) (rest : List Tok) :
    NB (e.toks showK ++ rest) := keeps_wrap_nb false h rest

/-- Above the unary minus the upper limit of the loop does not matter when what follows binds weaker. -/
theorem loop_limit {m M M' : Int} {t e : Expr K} {ts rest : List Tok} (hw : Weaker 21 ts) (hM : 21 ≤ M)
    (hM' : 21 ≤ M') (h : D L (.loop m M t) ts e rest) : D L (.loop m M' t) ts e rest := by
  cases h with
  | loopEnd => exact .loopEnd
  | loopStop ho hs =>
    obtain ⟨o', h1, h2⟩ := hw _ rfl
    rw [ho] at h1
    obtain rfl := Option.some.inj h1
    exact .loopStop ho (by omega)
  | loopWrap ho h1 h2 h3 h4 h5 h6 h7 =>
    obtain ⟨o', h8, h9⟩ := hw _ rfl
    rw [ho] at h8
    obtain rfl := Option.some.inj h8
    exact .loopWrap ho h1 (by simp only [RightOp.lbp] at h9; omega) h3 h4 h5 h6 h7
  | loopBin ho h1 h2 h3 h4 h5 h7 =>
    obtain ⟨o', h8, h9⟩ := hw _ rfl
    rw [ho] at h8
    obtain rfl := Option.some.inj h8
    exact .loopBin ho h1 (by simp only [RightOp.lbp] at h9; omega) h3 h4 h5 h7

/-- The tokens of `e` are read as `f`. -/
def ReadsAs (L : NumLex K) (showK : K → List Char) (loose : Bool) (e f : Expr K) : Prop :=
  ∀ (m : Int) (rest rest' : List Tok) (e' : Expr K), m ≤ e.mb → Weaker e.rb rest →
    (loose = true → Weaker 21 rest) →
    D L (.loop m e.nb f) rest e' rest' → D L (.expr m) (e.toks showK ++ rest) e' rest'

theorem ReadsAs.delim {e f : Expr K} {b : Bool} (h : ReadsAs L showK b e f) {t : Tok}
    (ht : rightOp t = some .halt) (rest : List Tok) :
    D L (.expr 0) (e.toks showK ++ t :: rest) f (t :: rest) := by
  refine h 0 _ _ _ ?_ (weaker_halt (rb_nonneg e) ht rest)
    (fun _ => weaker_halt (by decide) ht rest) (D_stop' L f 0 _ _ (weaker_halt (by omega) ht rest))
  cases e <;> simp [Expr.mb, intMax, lbp_nonneg]

theorem ReadsAs.paren {e f : Expr K} {b b' : Bool} (h : ReadsAs L showK b e f) (hp : Keeps L showK P b' e)
    (rest : List Tok) (hr : NB rest) : D L .tok (wrapT true (e.toks showK) ++ rest) f rest := by
  have := h.delim (t := .sym [')']) rfl rest
  simp only [wrapT, if_true, List.append_assoc, List.cons_append, List.nil_append]
  exact .paren rfl (keeps_nb hp _) this hr

theorem ReadsAs.operand {e f : Expr K} {loose b' : Bool} (b : Bool) (h : ReadsAs L showK (b || loose) e f)
    (hp : Keeps L showK P b' e) (m : Int) (rest : List Tok) (hb : b = false → m ≤ e.mb ∧ m ≤ e.rb)
    (hw : Weaker m rest) (hl : loose = true → Weaker 21 rest) :
    D L (.expr m) (wrapT b (e.toks showK) ++ rest) f rest := by
  cases b with
  | true => exact .expr (h.paren hp rest hw.opRest.nb) (D_stop' L f _ _ _ hw)
  | false =>
    obtain ⟨h1, h2⟩ := hb rfl
    exact h m rest rest f h1 (hw.mono h2) (by simpa using hl) (D_stop' L f _ _ _ hw)

theorem readsAs_prim {e f : Expr K} {loose : Bool} (hn : e.nb = intMax)
    (h : ∀ rest, Weaker e.rb rest → (loose = true → Weaker 21 rest) →
      D L .tok (e.toks showK ++ rest) f rest) : ReadsAs L showK loose e f := by
  intro m rest rest' e' _ hw hl hd
  rw [hn] at hd
  exact .expr (h rest hw hl) hd

/-- A left operand, followed by its operator. -/
theorem ReadsAs.left {l f : Expr K} {o : BinOp} {m : Int} {ts rest' : List Tok} {e' : Expr K}
    (h : ReadsAs L showK (parenL o l || o.weak) l f) (hp : Keeps L showK P (parenL o l || o.weak) l)
    (h3 : o = .pow → l.isBin .pow = false) (h4 : o = .eq → l.isBin .eq = false) (hm : m ≤ o.lbp)
    (key : ∀ M, o.lbp ≤ M → D L (.loop m M f) (.sym o.text :: ts) e' rest') :
    D L (.expr m) (wrapT (parenL o l) (l.toks showK) ++ .sym o.text :: ts) e' rest' := by
  have hopen : Weaker (o.lbp + 1) (.sym o.text :: ts) := by
    intro t ht
    simp at ht
    subst ht
    exact ⟨_, rightOp_text o, by simp only [RightOp.lbp]; omega⟩
  have h1 := flat_isDict hp.flat
  by_cases hb : l.rb < o.lbp
  · have hb' : parenL o l = true := by simpa [parenL] using hb
    rw [hb']
    exact .expr (h.paren hp _ hopen.opRest.nb) (key _ (lbp_le_max o))
  · have hb' : parenL o l = false := by simpa [parenL] using hb
    rw [hb'] at h ⊢
    have h7 : m ≤ l.mb ∧ o.lbp + 1 ≤ l.rb ∧ o.lbp ≤ l.nb := by
      have hmx := rightOp_lbp_lt (.bin o)
      simp only [RightOp.lbp] at hmx
      cases l with
      | bin o' l' r' =>
        have h8 : o = .pow → o' ≠ .pow := by
          intro h9 h10; subst h10; simpa [Expr.isBin] using h3 h9
        have h9 : o = .eq → o' ≠ .eq := by
          intro h9 h10; subst h10; simpa [Expr.isBin] using h4 h9
        have := lbp_le_of_lt_rbp (by simpa [Expr.rb, Expr.BP] using hb) h8 h9
        simp only [Expr.BP, Expr.mb, Expr.rb, Expr.nb, Option.getD_some]
        omega
      | un o' a =>
        have : o.lbp + 1 ≤ o'.bp := by
          revert hb
          simp only [Expr.rb, Expr.BP, Option.getD_some]
          cases o <;> cases o' <;> decide
        simp only [Expr.BP, Expr.mb, Expr.rb, Expr.nb, Option.getD_some]
        omega
      | dict _ => simp [Expr.isDict] at h1
      | _ =>
        simp only [Expr.BP, Expr.mb, Expr.rb, Expr.nb, Option.getD_some]
        omega
    refine h m _ _ _ h7.1 (hopen.mono h7.2.1) ?_ (key _ h7.2.2)
    rw [Bool.false_or]
    intro hwk
    refine hopen.mono ?_
    cases o <;> simp [BinOp.weak, BinOp.lbp] at hwk ⊢

/-! ## Values -/

theorem eval_negate {L : NumLex ℝ} (hneg : ∀ x, L.neg x = -x) (ρ : List Char → ℝ) (e : Expr ℝ) :
    (negate L e).eval ρ = (e.eval ρ).map (fun x => -x) := by
  cases e with
  | const k => simp [negate, Expr.eval, hneg]
  | _ =>
    simp only [negate, Expr.eval]
    first
      | rfl
      | (rw [Option.map_eq_bind]; rfl)

theorem Leads.eval {L : NumLex ℝ} {showK : ℝ → List Char} (hneg : ∀ x, L.neg x = -x) (ρ : List Char → ℝ)
    {e g : Expr ℝ} (h : Leads L showK e g) : e.eval ρ = (g.eval ρ).map (fun x => -x) := by
  induction h with
  | @mul k c r h =>
    obtain rfl : -c = k := by rw [← hneg]; exact h.2.2.2
    simp only [Expr.eval, Option.bind_some]
    cases r.eval ρ <;> simp [binVal]
  | @div k c r h =>
    obtain rfl : -c = k := by rw [← hneg]; exact h.2.2.2
    simp only [Expr.eval, Option.bind_some]
    cases r.eval ρ with
    | none => rfl
    | some y => by_cases hy : y = 0 <;> simp [binVal, hy, neg_div]
  | @mulL l l' r _ ih =>
    simp only [Expr.eval, ih]
    cases l'.eval ρ <;> cases r.eval ρ <;> simp [binVal]
  | @divL l l' r _ ih =>
    simp only [Expr.eval, ih]
    cases l'.eval ρ with
    | none => rfl
    | some x => cases r.eval ρ with
      | none => rfl
      | some y => by_cases hy : y = 0 <;> simp [binVal, hy, neg_div]

theorem Inside.eval {L : NumLex ℝ} {showK : ℝ → List Char} (hneg : ∀ x, L.neg x = -x) (ρ : List Char → ℝ)
    {a e g : Expr ℝ} (h : Inside L showK a e g) :
    e.eval ρ = (a.eval ρ).bind fun x => (g.eval ρ).bind fun y => some (x * -y) := by
  induction h with
  | @base k c h =>
    obtain rfl : -c = k := by rw [← hneg]; exact h.2.2.2
    simp [Expr.eval, binVal]
  | @mulL l g r _ ih =>
    simp only [Expr.eval, ih]
    cases a.eval ρ <;> cases g.eval ρ <;> cases r.eval ρ <;> simp [binVal, mul_assoc]
  | @divL l g r _ ih =>
    simp only [Expr.eval, ih]
    cases a.eval ρ with
    | none => rfl
    | some x => cases g.eval ρ with
      | none => rfl
      | some y => cases r.eval ρ with
        | none => rfl
        | some z => by_cases hz : z = 0 <;> simp [binVal, hz, mul_div_assoc, neg_div]

/-- `f` is what is read from the text of `e`: a minus sign has been moved in front of a product. -/
inductive Moved (L : NumLex K) (showK : K → List Char) (P : Prop) : Expr K → Expr K → Prop
  | const (k) : Moved L showK P (.const k) (.const k)
  | var (n) : Moved L showK P (.var n) (.var n)
  | un {o a b} : Moved L showK P a b → Moved L showK P (.un o a) (.un o b)
  | neg {a b} : Moved L showK P a b → Moved L showK P (.un .neg a) (negate L b)
  | bin {o l r l' r'} : Moved L showK P l l' → Moved L showK P r r' → Moved L showK P (.bin o l r) (.bin o l' r')
  | lead {e g f} : Leads L showK e g → Moved L showK P g f → Moved L showK P e (negate L f)
  | inside {e a g a' f} : P → Inside L showK a e g → Moved L showK P a a' → Moved L showK P g f →
      Moved L showK P e (.bin .mul a' (negate L f))

theorem Moved.eval {L : NumLex ℝ} {showK : ℝ → List Char} (hneg : ∀ x, L.neg x = -x) (ρ : List Char → ℝ)
    {e f : Expr ℝ} (h : Moved L showK P e f) : f.eval ρ = e.eval ρ := by
  induction h with
  | const => rfl
  | var => rfl
  | un _ ih => simp only [Expr.eval, ih]
  | neg _ ih => rw [eval_negate hneg, ih, Option.map_eq_bind]; rfl
  | bin _ _ ih1 ih2 => simp only [Expr.eval, ih1, ih2]
  | lead h _ ih => rw [eval_negate hneg, ih, h.eval hneg]
  | @inside e a g a' f _ h _ _ ih1 ih2 =>
    rw [h.eval hneg]
    simp only [Expr.eval, eval_negate hneg, ih1, ih2]
    cases a.eval ρ <;> cases g.eval ρ <;> simp [binVal]

theorem keeps_reads {e : Expr K} {loose : Bool} (h : Keeps L showK P loose e) :
    ∃ f, ReadsAs L showK loose e f ∧ Moved L showK P e f := by
  induction h with
  | @const _ k h =>
    refine ⟨_, readsAs_prim rfl fun rest hw _ => ?_, .const k⟩
    have := D.num (L := L) (s := showK k) hw.opRest.nb
    rw [h.2] at this
    rw [Expr.toks, constToks_lit h.1]
    exact this
  | @negc k h =>
    refine ⟨.const k, readsAs_prim rfl fun rest hw hl => ?_, .const k⟩
    obtain ⟨t, h1, h2, h3⟩ := h
    rw [Expr.toks, h1]
    have := D.num (L := L) (s := t) hw.opRest.nb
    have := D.minus (L := L) (tok := .sym ['-']) rfl (by simp [NB])
      (.expr this (D_stop' L _ 21 intMax rest (hl rfl)))
    simpa [negate, h3, constToks] using this
  | @var _ n h =>
    exact ⟨_, readsAs_prim rfl fun rest hw _ => .var (leftOp_word_of_not_fn h.2.2) hw.opRest.nb, .var n⟩
  | @fn _ o a s h1 h3 ih =>
    obtain ⟨f, ih, hv⟩ := ih
    refine ⟨.un o f, readsAs_prim rfl fun rest hw hl => ?_, .un hv⟩
    have h2 := flat_isDict h3.flat
    obtain ⟨h4, h5⟩ := fnName_leftOp h1
    have h6 : o.tok = .word s := by cases o <;> simp [fnName] at h1 <;> subst h1 <;> rfl
    rw [Expr.toks, h6]
    refine .fn h4 (keeps_wrap_nb _ h3 _) (ReadsAs.operand _ ih h3 _ _ ?_ hw hl)
    rw [h5]
    intro h7
    rw [parenU, decide_eq_false_iff_not, h5] at h7
    revert h7 h2
    cases a with
    | bin o l r => have := lbp_nonneg o; have := rightOp_lbp_lt (.bin o); simp [Expr.lb, Expr.BP, RightOp.lbp] at *; omega
    | _ => simp [Expr.lb, Expr.BP, Expr.mb, Expr.rb, intMax, Expr.isDict]
  | @neg _ a h3 ih =>
    obtain ⟨f, ih, hv⟩ := ih
    refine ⟨negate L f, readsAs_prim rfl fun rest hw hl => ?_, .neg hv⟩
    · have h1 := flat_isDict h3.flat
      rw [Expr.toks]
      refine .minus rfl (keeps_wrap_nb _ h3 _) (ReadsAs.operand _ ih h3 _ _ ?_ hw hl)
      intro h7
      simp only [parenU, decide_eq_false_iff_not, UnOp.bp] at h7
      revert h7 h1
      cases a with
      | bin o l r => cases o <;> simp [Expr.lb, Expr.BP, Expr.mb, Expr.rb, BinOp.lbp, BinOp.rbp, BinOp.rightAssoc]
      | _ => simp [Expr.lb, Expr.BP, Expr.mb, Expr.rb, intMax, Expr.isDict]
  | @bin loose o l r h3 h4 h5 h6 ih1 ih2 =>
    obtain ⟨fl, ih1, hvl⟩ := ih1
    obtain ⟨fr, ih2, hvr⟩ := ih2
    refine ⟨.bin o fl fr, ?_, .bin hvl hvr⟩
    intro m rest rest' e' hm hw hl hd
    have hm : m ≤ o.lbp := hm
    have hw : Weaker o.rbp rest := hw
    have hd : D L (.loop m o.nbp (.bin o fl fr)) rest e' rest' := hd
    have h2 := flat_isDict h6.flat
    have key : ∀ M, o.lbp ≤ M → D L (.loop m M fl) (Tok.sym o.text :: (
        wrapT (parenR o r && !o.wrapped) (r.toks showK) ++
        (if o.wrapped then [.sym o.closer] else []) ++ rest)) e' rest' := by
      intro M hM
      cases hwr : o.wrapped with
      | true =>
        simp only [Bool.not_true, Bool.and_false, if_true, wrapT, Bool.false_eq_true, if_false,
          List.append_assoc, List.cons_append, List.nil_append]
        exact .loopWrap (rightOp_text o) hm hM hwr (keeps_nb h6 _)
          (ih2.delim (closer_halt hwr) rest) hw.opRest.nb hd
      | false =>
        simp only [Bool.not_false, Bool.and_true, Bool.false_eq_true, if_false, List.append_nil]
        refine .loopBin (rightOp_text o) hm hM hwr (keeps_wrap_nb _ h6 _)
          (ReadsAs.operand _ ih2 h6 _ _ ?_ hw hl) hd
        intro h7
        simp only [parenR, hwr, Bool.false_or, decide_eq_false_iff_not] at h7
        revert h7 h2
        cases r with
        | bin o' l' r' =>
          have : o'.lbp ≤ o'.rbp := by cases o' <;> decide
          simp only [Expr.lb, Expr.BP, Expr.mb, Expr.rb, Option.getD_some]
          intro _ h; omega
        | un o' a => cases o <;> simp [Expr.lb, Expr.BP, BinOp.rbp, BinOp.lbp, BinOp.rightAssoc]
        | dict _ => simp [Expr.isDict]
        | _ => have := rightOp_lbp_lt (.bin o)
               simp [Expr.lb, Expr.BP, Expr.mb, Expr.rb]
    have := ih1.left h5 h3 h4 hm key
    rw [Expr.toks]
    simpa using this
  | @lead e g h hg ih =>
    obtain ⟨f, ih, hv⟩ := ih
    refine ⟨negate L f, ?_, .lead h hv⟩
    intro m rest rest' e' hm hw hl hd
    have h21 := hl rfl
    have hs := h.shape
    rw [h.toks]
    have h1 := ih 21 rest rest f (by omega) (h21.mono (by omega)) (fun _ => h21) (D_stop' L _ 21 _ rest h21)
    exact .expr (.minus rfl (keeps_nb hg _) h1)
      (loop_limit h21 (by omega) (by decide) hd)
  | @inside e a g h0 h ha hg ih1 ih2 =>
    obtain ⟨fa, ih1, hva⟩ := ih1
    obtain ⟨f, ih2, hv⟩ := ih2
    refine ⟨.bin .mul fa (negate L f), ?_, .inside h0 h hva hv⟩
    · intro m rest rest' e' hm hw hl hd
      have h21 := hl rfl
      have hs := h.shape
      rw [h.toks]
      have hw31 : Weaker 31 rest := h21.mono (by decide)
      have h1 := ih2 21 rest rest f (by omega) (h21.mono (by omega)) (fun _ => h21) (D_stop' L _ 21 _ rest h21)
      have h2 : D L (.expr 31) (.sym ['-'] :: g.toks showK ++ rest) (negate L f) rest :=
        .expr (.minus rfl (keeps_nb hg _) h1) (D_stop' L _ 31 _ rest hw31)
      have key : ∀ M, BinOp.mul.lbp ≤ M →
          D L (.loop m M fa) (.sym BinOp.mul.text :: (.sym ['-'] :: g.toks showK ++ rest)) e' rest' := by
        intro M hM
        refine .loopBin (rightOp_text .mul) (by simp only [BinOp.lbp]; omega) hM rfl (by simp [NB]) h2 ?_
        exact loop_limit h21 (by omega) (by decide) hd
      have hweak : (parenL .mul a || BinOp.mul.weak) = parenL .mul a := by simp [BinOp.weak]
      have := ReadsAs.left (o := .mul) (by rw [hweak]; exact ih1) (by rw [hweak]; exact ha) (by simp) (by simp)
        (by simp only [BinOp.lbp]; omega) key
      simpa [BinOp.text] using this

/-! ## The property -/

theorem parse_of_reads {e f : Expr K} (hf : e.flat = true) (hw : Writable L showK e)
    (h : D L (.expr 0) (e.toks showK) f []) : ∃ s, e.repr showK = some s ∧ parse L s = .ok f := by
  obtain ⟨s, h1⟩ := flat_repr showK hf
  refine ⟨s, h1, ?_⟩
  have hb : Tok.bad ∉ e.toks showK := by
    obtain ⟨u, hu, hg⟩ := D_sound L h
    rw [List.append_nil] at hu
    rw [hu]
    exact gram_no_bad L hg
  rcases repr_lexes hw s h1 with ⟨-, h2⟩ | ⟨h2, -⟩
  · have h3 := h2 [] sep_nil
    simp only [List.append_nil, lex_nil] at h3
    rw [parse_ok_iff, h3]
    refine ⟨?_, h⟩
    cases ht : e.toks showK with
    | nil => simp [NB]
    | cons t ts => rw [ht] at hb; simp only [NB, List.head?_cons]; intro h; simp at h; simp [h] at hb
  · exact absurd h2 hb

theorem keeps_parsed {e : Expr K} (h : Keeps L showK P true e) :
    ∃ s f, e.repr showK = some s ∧ parse L s = .ok f ∧ Moved L showK P e f := by
  obtain ⟨f, hr, hv⟩ := keeps_reads h
  have h5 := hr 0 [] [] f
    (by cases e <;> simp [Expr.mb, intMax, lbp_nonneg]) weaker_nil (fun _ => weaker_nil) .loopEnd
  simp only [List.append_nil] at h5
  obtain ⟨s, h1, h2⟩ := parse_of_reads h.flat h.writable h5
  exact ⟨s, f, h1, h2, hv⟩

/-- **C103**. The printed text of an expression in `Keeps` is accepted, and what is read has the same value
for every assignment of the variables: the same number, or no value in both. -/
theorem C103_keeps_value {L : NumLex ℝ} {showK : ℝ → List Char} (hneg : ∀ x, L.neg x = -x) (e : Expr ℝ)
    (h : Keeps L showK True true e) :
    ∃ s f, e.repr showK = some s ∧ parse L s = .ok f ∧ ∀ ρ, f.eval ρ = e.eval ρ := by
  obtain ⟨s, f, h1, h2, h3⟩ := keeps_parsed h
  exact ⟨s, f, h1, h2, fun ρ => h3.eval hneg ρ⟩

/-! ## Expressions without negative operands -/

/-- Atoms, functions and powers. -/
def Expr.tight : Expr K → Bool
  | .const _ => true
  | .var _ => true
  | .un o _ => o != .neg
  | .bin o _ _ => o == .pow
  | _ => false

/-- A product or quotient. -/
def Expr.chain : Expr K → Bool
  | .bin o _ _ => o == .mul || o == .div
  | _ => false

open Classical in
/-- Number of nodes, negative constants counted twice. -/
noncomputable def weight (showK : K → List Char) : Expr K → ℕ
  | .const k => if IsNeg showK (.const k) then 2 else 1
  | .var _ => 1
  | .un _ a => weight showK a + 1
  | .bin _ l r => weight showK l + weight showK r + 1
  | .arr _ => 1
  | .dict _ => 1

theorem lit_not_neg {k : K} (h : IsLit (showK k)) : ¬ IsNeg showK (.const k) := by
  rintro ⟨k', t, h1, h2⟩
  obtain rfl : k = k' := by injection h1
  obtain ⟨c, t', h3, h4⟩ := isLit_digit h
  rw [h2] at h3
  obtain rfl : '-' = c := by injection h3
  simp [isDigit] at h4

theorem NegOf.weight {k c : K} (h : NegOf L showK k c) :
    weight showK (.const c : Expr K) < weight showK (.const k : Expr K) := by
  have h1 : IsNeg showK (.const k) := ⟨k, _, rfl, h.1⟩
  have h2 := lit_not_neg h.2.1
  simp [Stator.weight, h1, h2]

theorem NegOf.plain {k c : K} (h : NegOf L showK k c) : NoNegOperand L showK P (.const c) := .const ⟨h.2.1, h.2.2.1⟩

/-- The constructors of `Keeps` put into one place: what strong induction gives for an operand. -/
def KeepsAll (L : NumLex K) (showK : K → List Char) (P : Prop) (e : Expr K) : Prop :=
  Keeps L showK P true e ∧ (e.tight = true → ¬ IsNeg showK e → Keeps L showK P false e)

theorem KeepsAll.of_tight {e : Expr K} (h : KeepsAll L showK P e) (hn : ¬ IsNeg showK e) {b loose : Bool}
    (hb : b = false → e.tight = true) : Keeps L showK P (b || loose) e := by
  cases b with
  | true => exact h.1
  | false => cases loose with
    | true => exact h.1
    | false => exact h.2 (hb rfl) hn

theorem NoNegOperand.parenU {a : Expr K} (h : NoNegOperand L showK P a) {o : UnOp} {s : List Char} (ho : fnName o = some s)
    (hb : parenU o a = false) : a.tight = true := by
  rw [Stator.parenU, decide_eq_false_iff_not, (fnName_leftOp ho).2] at hb
  cases h with
  | const _ => rfl
  | negc _ => rfl
  | var _ => rfl
  | fn h1 => rename_i o' a' s' _ _; cases o' <;> simp [fnName] at h1 <;> rfl
  | neg _ => exact absurd (by simp [Expr.lb, Expr.BP, intMax]) hb
  | pow => rfl
  | _ => exact absurd (by simp [Expr.lb, Expr.BP, intMax, BinOp.lbp]) hb

theorem NoNegOperand.parenR {a : Expr K} (h : NoNegOperand L showK P a) {o : BinOp} (ho : 30 ≤ o.lbp)
    (hb : parenR o a = false) (h3 : o = .pow ∨ o = .mul ∨ o = .div) : a.tight = true := by
  rw [Stator.parenR, Bool.or_eq_false_iff, decide_eq_false_iff_not] at hb
  obtain ⟨-, hb⟩ := hb
  cases h with
  | const _ => rfl
  | negc _ => rfl
  | var _ => rfl
  | fn h1 => rename_i o' a' s' _ _; cases o' <;> simp [fnName] at h1 <;> rfl
  | pow => rfl
  | neg _ =>
    refine absurd ?_ hb
    rcases h3 with rfl | rfl | rfl <;> simp [Expr.lb, Expr.BP, BinOp.rbp, BinOp.lbp, BinOp.rightAssoc]
  | _ =>
    refine absurd ?_ hb
    rcases h3 with rfl | rfl | rfl <;> simp [Expr.lb, Expr.BP, BinOp.rbp, BinOp.lbp, BinOp.rightAssoc]

theorem NoNegOperand.parenL {a : Expr K} (h : NoNegOperand L showK P a) {o : BinOp}
    (hb : parenL o a = false) (h3 : o = .pow ∨ o = .mul ∨ o = .div) :
    a.tight = true ∨ a.chain = true ∧ o ≠ .pow := by
  rw [Stator.parenL, decide_eq_false_iff_not] at hb
  cases h with
  | const _ => exact .inl rfl
  | negc _ => exact .inl rfl
  | var _ => exact .inl rfl
  | fn h1 => rename_i o' a' s' _ _; left; cases o' <;> simp [fnName] at h1 <;> rfl
  | pow => exact .inl rfl
  | mul =>
    rcases h3 with rfl | rfl | rfl
    · exact absurd (by simp [Expr.rb, Expr.BP, BinOp.rbp, BinOp.lbp, BinOp.rightAssoc]) hb
    · exact .inr ⟨rfl, by simp⟩
    · exact .inr ⟨rfl, by simp⟩
  | div =>
    rcases h3 with rfl | rfl | rfl
    · exact absurd (by simp [Expr.rb, Expr.BP, BinOp.rbp, BinOp.lbp, BinOp.rightAssoc]) hb
    · exact .inr ⟨rfl, by simp⟩
    · exact .inr ⟨rfl, by simp⟩
  | neg _ =>
    refine absurd ?_ hb
    rcases h3 with rfl | rfl | rfl <;> simp [Expr.rb, Expr.BP, UnOp.bp, BinOp.lbp]
  | _ =>
    refine absurd ?_ hb
    rcases h3 with rfl | rfl | rfl <;> simp [Expr.rb, Expr.BP, BinOp.rbp, BinOp.lbp, BinOp.rightAssoc]

/-- A product or quotient has no negative constant among its factors, or starts with one, or has one
after a `*`. -/
theorem chain_cases {e : Expr K} (h : NoNegOperand L showK P e)
    (ih : ∀ a, NoNegOperand L showK P a → weight showK a < weight showK e → KeepsAll L showK P a) (hc : e.chain = true) :
    Keeps L showK P false e ∨
    (∃ g, Leads L showK e g ∧ NoNegOperand L showK P g ∧ weight showK g < weight showK e) ∨
    (∃ a g, P ∧ Inside L showK a e g ∧ Keeps L showK P (Stator.parenL .mul a) a ∧ NoNegOperand L showK P g ∧
      weight showK g < weight showK e) := by
  induction h with
  | @mul l r hl hr hpr ih1 _ =>
    have hwl : weight showK l < weight showK (.bin .mul l r) := by simp only [weight]; omega
    have hwr : weight showK r < weight showK (.bin .mul l r) := by simp only [weight]; omega
    by_cases hln : IsNeg showK l
    · obtain ⟨k, t, rfl, hk⟩ := hln
      cases hl with
      | const h => exact absurd ⟨k, t, rfl, hk⟩ (lit_not_neg h.1)
      | @negc _ c h =>
        refine .inr (.inl ⟨_, .mul h, .mul h.plain hr hpr, ?_⟩)
        have := h.weight
        simp only [weight] at this ⊢; omega
    · have hgood : Keeps L showK P (Stator.parenL .mul l) l ∨ ¬ Keeps L showK P (Stator.parenL .mul l) l := em _
      rcases hgood with hg | hg
      · by_cases hrn : IsNeg showK r
        · obtain ⟨k, t, rfl, hk⟩ := hrn
          cases hr with
          | const h => exact absurd ⟨k, t, rfl, hk⟩ (lit_not_neg h.1)
          | @negc _ c h =>
            have hP : P := hpr.resolve_right (fun hn => hn ⟨k, t, rfl, hk⟩)
            refine .inr (.inr ⟨l, _, hP, .base h, hg, h.plain, ?_⟩)
            have := h.weight
            simp only [weight] at this ⊢; omega
        · exact .inl (.bin (by simp) (by simp) (by simpa [BinOp.weak] using hg)
            ((ih r hr hwr).of_tight hrn (fun hb => hr.parenR (by decide) hb (by simp))))
      · have hc' : l.chain = true := by
          cases hb : Stator.parenL .mul l with
          | true => exact absurd (by rw [hb]; exact (ih l hl hwl).1) hg
          | false =>
            rcases hl.parenL hb (by simp) with h1 | h1
            · exact absurd (by rw [hb]; exact (ih l hl hwl).2 h1 hln) hg
            · exact h1.1
        rcases ih1 (fun a ha hw => ih a ha (hw.trans hwl)) hc' with h1 | ⟨g, h1, h2, h3⟩ | ⟨a, g, hP, h1, h0, h2, h3⟩
        · refine absurd ?_ hg
          cases hb : Stator.parenL .mul l with
          | true => exact (ih l hl hwl).1
          | false => exact h1
        · exact .inr (.inl ⟨_, .mulL h1, .mul h2 hr hpr, by simp only [weight]; omega⟩)
        · exact .inr (.inr ⟨a, _, hP, .mulL h1, h0, .mul h2 hr hpr, by simp only [weight]; omega⟩)
  | @div l r hl hr hrn ih1 _ =>
    have hwl : weight showK l < weight showK (.bin .div l r) := by simp only [weight]; omega
    have hwr : weight showK r < weight showK (.bin .div l r) := by simp only [weight]; omega
    by_cases hln : IsNeg showK l
    · obtain ⟨k, t, rfl, hk⟩ := hln
      cases hl with
      | const h => exact absurd ⟨k, t, rfl, hk⟩ (lit_not_neg h.1)
      | @negc _ c h =>
        refine .inr (.inl ⟨_, .div h, .div h.plain hr hrn, ?_⟩)
        have := h.weight
        simp only [weight] at this ⊢; omega
    · have hgood : Keeps L showK P (Stator.parenL .div l) l ∨ ¬ Keeps L showK P (Stator.parenL .div l) l := em _
      rcases hgood with hg | hg
      · exact .inl (.bin (by simp) (by simp) (by simpa [BinOp.weak] using hg)
            ((ih r hr hwr).of_tight hrn (fun hb => hr.parenR (by decide) hb (by simp))))
      · have hc' : l.chain = true := by
          cases hb : Stator.parenL .div l with
          | true => exact absurd (by rw [hb]; exact (ih l hl hwl).1) hg
          | false =>
            rcases hl.parenL hb (by simp) with h1 | h1
            · exact absurd (by rw [hb]; exact (ih l hl hwl).2 h1 hln) hg
            · exact h1.1
        rcases ih1 (fun a ha hw => ih a ha (hw.trans hwl)) hc' with h1 | ⟨g, h1, h2, h3⟩ | ⟨a, g, hP, h1, h0, h2, h3⟩
        · refine absurd ?_ hg
          cases hb : Stator.parenL .div l with
          | true => exact (ih l hl hwl).1
          | false => exact h1
        · exact .inr (.inl ⟨_, .divL h1, .div h2 hr hrn, by simp only [weight]; omega⟩)
        · exact .inr (.inr ⟨a, _, hP, .divL h1, h0, .div h2 hr hrn, by simp only [weight]; omega⟩)
  | _ => simp [Expr.chain] at hc

theorem plain_keeps {e : Expr K} (h : NoNegOperand L showK P e) : KeepsAll L showK P e := by
  induction hn : weight showK e using Nat.strong_induction_on generalizing e with
  | _ n IH =>
    subst hn
    have ih : ∀ a, NoNegOperand L showK P a → weight showK a < weight showK e → KeepsAll L showK P a :=
      fun a ha hw => IH _ hw ha rfl
    clear IH
    by_cases hc : e.chain = true
    · refine ⟨?_, fun ht => ?_⟩
      · rcases chain_cases h ih hc with h1 | ⟨g, h1, h2, h3⟩ | ⟨a, g, hP, h1, h0, h2, h3⟩
        · exact h1.loosen
        · exact .lead h1 (ih g h2 h3).1
        · exact .inside hP h1 h0 (ih g h2 h3).1
      · cases e <;> simp_all [Expr.chain, Expr.tight]
    · have hw2 : ∀ o (l r : Expr K), weight showK l < weight showK (.bin o l r) ∧
          weight showK r < weight showK (.bin o l r) := by intro o l r; simp only [weight]; omega
      have hw1 : ∀ o (a : Expr K), weight showK a < weight showK (.un o a) := by
        intro o a; simp only [weight]; omega
      cases h with
      | const h => exact ⟨.const h, fun _ _ => .const h⟩
      | @negc k c h => exact ⟨.negc h.negConst, fun _ hn => absurd ⟨k, _, rfl, h.1⟩ hn⟩
      | var h => exact ⟨.var h, fun _ _ => .var h⟩
      | @fn o a s h1 h2 h3 =>
        have := fun loose => Keeps.fn (loose := loose) h1 ((ih a h2 (hw1 _ _)).of_tight h3 (fun hb => h2.parenU h1 hb))
        exact ⟨this true, fun _ _ => this false⟩
      | @neg a h1 =>
        exact ⟨.neg (by rw [Bool.or_true]; exact (ih a h1 (hw1 _ _)).1), fun ht => by simp [Expr.tight] at ht⟩
      | @add l r h1 h2 =>
        exact ⟨.bin (by simp) (by simp) (by simpa [BinOp.weak] using (ih l h1 (hw2 _ _ _).1).1)
          (by simpa using (ih r h2 (hw2 _ _ _).2).1), fun ht => by simp [Expr.tight] at ht⟩
      | @sub l r h1 h2 =>
        exact ⟨.bin (by simp) (by simp) (by simpa [BinOp.weak] using (ih l h1 (hw2 _ _ _).1).1)
          (by simpa using (ih r h2 (hw2 _ _ _).2).1), fun ht => by simp [Expr.tight] at ht⟩
      | mul => simp [Expr.chain] at hc
      | div => simp [Expr.chain] at hc
      | @pow l r h1 h2 h3 h4 h5 =>
        have := fun loose => Keeps.bin (loose := loose) (o := .pow) (fun _ => h5) (by simp)
          ((ih l h1 (hw2 _ _ _).1).of_tight (b := Stator.parenL .pow l) h3 (fun hb => by
            rcases h1.parenL hb (by simp) with h | h
            · exact h
            · exact absurd rfl h.2))
          ((ih r h2 (hw2 _ _ _).2).of_tight h4 (fun hb => h2.parenR (by decide) hb (by simp)))
        exact ⟨this true, fun _ _ => this false⟩

/-- **C103**. The printed text of an expression in which no divisor, base, exponent or argument of a function is
a negative constant, and no base is a power, is accepted, and what is read has the same value for every
assignment of the variables: the same number, or no value in both. -/
theorem C103_plain {L : NumLex ℝ} {showK : ℝ → List Char} (hneg : ∀ x, L.neg x = -x) (e : Expr ℝ)
    (h : NoNegOperand L showK True e) :
    ∃ s f, e.repr showK = some s ∧ parse L s = .ok f ∧ ∀ ρ, f.eval ρ = e.eval ρ :=
  C103_keeps_value hneg e (plain_keeps h).1

/-! ## The conditions are needed -/

/-- `-c*y` is read as `-(c*y)`. -/
theorem reads_neg_mul (L : NumLex K) (s n : List Char) (hn : IsName n) (m : Int) :
    D L (.expr m) [.sym ['-'], .num s, .sym ['*'], .word n]
      (.un .neg (.bin .mul (.const (L.ofLit s)) (.var n))) [] := by
  have h1 : D L (.expr 31) [.word n] (.var n) [] :=
    .expr (.var (leftOp_word_of_not_fn hn.2.2) (by simp [NB])) .loopEnd
  have h2 : D L (.expr 21) [.num s, .sym ['*'], .word n] (.bin .mul (.const (L.ofLit s)) (.var n)) [] :=
    .expr (.num (by simp [NB])) (.loopBin (b := .mul) rfl (by decide) (by decide) rfl (by simp [NB]) h1 .loopEnd)
  exact .expr (.minus rfl (by simp [NB]) h2) .loopEnd

/-- A negative exponent, divisor or argument followed by `*`: `(x^k)*y` is read as `x^(-(c*y))`, `(x/k)*y` as
`x/(-(c*y))` and `exp(k)*y` as `exp(-(c*y))`, where `k` is the negation of `c`. -/
theorem C103_what_is_read (L : NumLex K) (showK : K → List Char) {k c : K} (h : NegOf L showK k c)
    (x y : List Char) (hx : IsName x) (hy : IsName y) :
    (∃ s, (Expr.bin .mul (.bin .pow (.var x) (.const k)) (.var y)).repr showK = some s ∧
      parse L s = .ok (.bin .pow (.var x) (.un .neg (.bin .mul (.const c) (.var y))))) ∧
    (∃ s, (Expr.bin .mul (.bin .div (.var x) (.const k)) (.var y)).repr showK = some s ∧
      parse L s = .ok (.bin .div (.var x) (.un .neg (.bin .mul (.const c) (.var y))))) ∧
    (∃ s, (Expr.bin .mul (.un .exp (.const k)) (.var y)).repr showK = some s ∧
      parse L s = .ok (.un .exp (.un .neg (.bin .mul (.const c) (.var y))))) := by
  have hk : Writable L showK (.const k) := .const (.inr h.negConst)
  have hr := fun m => reads_neg_mul L (showK c) y hy m
  rw [h.2.2.1] at hr
  refine ⟨parse_of_reads rfl (.bin (.bin (.var hx) hk) (.var hy)) ?_,
    parse_of_reads rfl (.bin (.bin (.var hx) hk) (.var hy)) ?_,
    parse_of_reads rfl (.bin (.un hk) (.var hy)) ?_⟩
  · have e : (Expr.bin .mul (.bin .pow (.var x) (.const k)) (.var y)).toks showK =
        [.word x, .sym ['^'], .sym ['-'], .num (showK c), .sym ['*'], .word y] := by
      simp [Expr.toks, h.toks, constToks_lit h.2.1, parenL, parenR, Expr.lb, Expr.rb, Expr.BP, BinOp.lbp, BinOp.rbp,
        BinOp.rightAssoc, BinOp.wrapped, wrapT, intMax, BinOp.text]
    rw [e]
    exact .expr (.var (leftOp_word_of_not_fn hx.2.2) (by simp [NB]))
      (.loopBin (b := .pow) rfl (by decide) (by decide) rfl (by simp [NB]) (hr _) .loopEnd)
  · have e : (Expr.bin .mul (.bin .div (.var x) (.const k)) (.var y)).toks showK =
        [.word x, .sym ['/'], .sym ['-'], .num (showK c), .sym ['*'], .word y] := by
      simp [Expr.toks, h.toks, constToks_lit h.2.1, parenL, parenR, Expr.lb, Expr.rb, Expr.BP, BinOp.lbp, BinOp.rbp,
        BinOp.rightAssoc, BinOp.wrapped, wrapT, intMax, BinOp.text]
    rw [e]
    exact .expr (.var (leftOp_word_of_not_fn hx.2.2) (by simp [NB]))
      (.loopBin (b := .div) rfl (by decide) (by decide) rfl (by simp [NB]) (hr _) .loopEnd)
  · have e : (Expr.bin .mul (.un .exp (.const k)) (.var y)).toks showK =
        [.word ['e', 'x', 'p'], .sym ['-'], .num (showK c), .sym ['*'], .word y] := by
      simp [Expr.toks, h.toks, constToks_lit h.2.1, parenL, parenR, parenU, Expr.lb, Expr.rb, Expr.BP, BinOp.lbp, BinOp.rbp,
        BinOp.rightAssoc, BinOp.wrapped, wrapT, intMax, BinOp.text, UnOp.bp, UnOp.tok]
    rw [e]
    exact .expr (.fn (o := .exp) rfl (by simp [NB]) (hr _)) .loopEnd

/-- A negative factor that is followed by `*`: `(x*k)*y` is read as `x*(-(c*y))`. -/
theorem C103_product_read (L : NumLex K) (showK : K → List Char) {k c : K} (h : NegOf L showK k c)
    (x y : List Char) (hx : IsName x) (hy : IsName y) :
    ∃ s, (Expr.bin .mul (.bin .mul (.var x) (.const k)) (.var y)).repr showK = some s ∧
      parse L s = .ok (.bin .mul (.var x) (.un .neg (.bin .mul (.const c) (.var y)))) := by
  have hr := fun m => reads_neg_mul L (showK c) y hy m
  rw [h.2.2.1] at hr
  refine parse_of_reads rfl (.bin (.bin (.var hx) (.const (.inr h.negConst))) (.var hy)) ?_
  have e : (Expr.bin .mul (.bin .mul (.var x) (.const k)) (.var y)).toks showK =
      [.word x, .sym ['*'], .sym ['-'], .num (showK c), .sym ['*'], .word y] := by
    simp [Expr.toks, h.toks, constToks_lit h.2.1, parenL, parenR, Expr.lb, Expr.rb, Expr.BP, BinOp.lbp, BinOp.rbp,
      BinOp.rightAssoc, BinOp.wrapped, wrapT, intMax, BinOp.text]
  rw [e]
  exact .expr (.var (leftOp_word_of_not_fn hx.2.2) (by simp [NB]))
    (.loopBin (b := .mul) rfl (by decide) (by decide) rfl (by simp [NB]) (hr _) .loopEnd)

/-- The value is not kept in any of the excluded cases: for every constant `k` that prints as the negation of
a positive `c`, the printed texts of `(x^k)*y`, `(x/k)*y`, `exp(k)*y` and `k^x`, and of `(x^y)^z`, are read
as expressions that for some values of the variables have a different value. -/
theorem C103_conditions_needed (L : NumLex ℝ) (showK : ℝ → List Char) (hneg : ∀ x, L.neg x = -x) {k c : ℝ}
    (h : NegOf L showK k c) (hc : 0 < c) (x y z : List Char) (hx : IsName x) (hy : IsName y) (hz : IsName z)
    (hxy : x ≠ y) (hxz : x ≠ z) (hyz : y ≠ z) :
    ∀ e ∈ [Expr.bin .mul (.bin .pow (.var x) (.const k)) (.var y),
        .bin .mul (.bin .div (.var x) (.const k)) (.var y), .bin .mul (.un .exp (.const k)) (.var y),
        .bin .pow (.const k) (.var x), .bin .pow (.bin .pow (.var x) (.var y)) (.var z)],
      ∃ s f ρ u v, e.repr showK = some s ∧ parse L s = .ok f ∧ e.eval ρ = some u ∧ f.eval ρ = some v ∧
        u ≠ v := by
  obtain ⟨⟨s1, p1, q1⟩, ⟨s2, p2, q2⟩, s3, p3, q3⟩ := C103_what_is_read L showK h x y hx hy
  obtain ⟨s4, p4, q4⟩ := C02_negative_base_fails L showK k c x hx h.1 h.2.1 h.2.2.1
  obtain ⟨s5, p5, q5⟩ := C02_power_fails L showK (.var x) (.var z) y (.var hx) (.var hz) hy rfl rfl rfl
  obtain rfl : -c = k := by rw [← hneg]; exact h.2.2.2
  intro e he
  simp only [List.mem_cons, List.not_mem_nil, or_false] at he
  rcases he with rfl | rfl | rfl | rfl | rfl
  · refine ⟨s1, _, fun n => if n = x then 2 else 0, 0, 1, p1, q1, ?_, ?_, by norm_num⟩
    · simp [Expr.eval, binVal, powDom, hxy.symm]
    · simp [Expr.eval, binVal, unVal, powDom, hxy.symm]
  · refine ⟨s2, _, fun n => if n = x then 1 else 2, 1 / (-c) * 2, 1 / (-(c * 2)), p2, q2, ?_, ?_, ?_⟩
    · simp [Expr.eval, binVal, hxy.symm, hc.ne']
    · simp [Expr.eval, binVal, unVal, hxy.symm, hc.ne']
    · intro h
      rw [div_mul_eq_mul_div, div_eq_div_iff (by simpa using hc.ne') (by simpa using hc.ne')] at h
      linarith
  · refine ⟨s3, _, fun n => 0, 0, 1, p3, q3, ?_, ?_, by norm_num⟩
    · simp [Expr.eval, binVal, unVal]
    · simp [Expr.eval, binVal, unVal]
  · refine ⟨s4, _, fun n => 2, c ^ 2, -(c ^ 2), p4, q4, ?_, ?_, ?_⟩
    · have : powDom (-c) 2 := .inr (.inr ⟨by linarith, 2, by norm_num⟩)
      simp only [Expr.eval, Option.bind_some, binVal, if_pos this]
      rw [show (2 : ℝ) = ((2 : ℕ) : ℝ) by norm_num, Real.rpow_natCast]
      simp
    · have : powDom c 2 := .inl hc
      simp only [Expr.eval, Option.bind_some, binVal, unVal, if_pos this]
      rw [show (2 : ℝ) = ((2 : ℕ) : ℝ) by norm_num, Real.rpow_natCast]
    · have : 0 < c ^ 2 := by positivity
      intro h; linarith
  · refine ⟨s5, _, fun n => if n = y then 1 else 2, 4, 2, p5, q5, ?_, ?_, by norm_num⟩
    · simp [Expr.eval, binVal, powDom, hxy, hyz.symm]
      norm_num
    · simp [Expr.eval, binVal, powDom, hxy, hyz.symm]

/-! ## A concrete case -/

/-- Numbers that are written `2`, `3`, `-2` and `-3`. -/
noncomputable def smallNum : NumLex ℝ := ⟨fun s => if s = ['2'] then 2 else 3, fun x => -x⟩
open Classical in
noncomputable def smallShow (x : ℝ) : List Char :=
  if x = 2 then ['2'] else if x = -2 then ['-', '2'] else if x = 3 then ['3'] else ['-', '3']

theorem isLit_3 : IsLit ['3'] :=
  ⟨['3'], [], [], by simp, by simp, by simp [Digits, isDigit], .inl rfl, .inl rfl⟩

theorem smallShow_2 : smallShow 2 = ['2'] := by simp [smallShow]
theorem smallShow_m2 : smallShow (-2) = ['-', '2'] := by norm_num [smallShow]
theorem smallShow_3 : smallShow 3 = ['3'] := by norm_num [smallShow]
theorem smallShow_m3 : smallShow (-3) = ['-', '3'] := by norm_num [smallShow]

theorem negOf_2 : NegOf smallNum smallShow (-2) 2 := by
  refine ⟨?_, ?_, ?_, rfl⟩ <;> simp [smallShow_2, smallShow_m2, smallNum, isLit_2]

theorem negOf_3 : NegOf smallNum smallShow (-3) 3 := by
  refine ⟨?_, ?_, ?_, rfl⟩ <;> simp [smallShow_3, smallShow_m3, smallNum, isLit_3]

/-- `-2*x/y + 3^x*-3*y/x`: not `Printable`, but the value is kept. -/
example : ∃ s f, (Expr.bin .add (.bin .div (.bin .mul (.const (-2)) (.var ['x'])) (.var ['y']))
      (.bin .div (.bin .mul (.bin .mul (.bin .pow (.const 3) (.var ['x'])) (.const (-3))) (.var ['y']))
        (.var ['x']))).repr smallShow = some s ∧ parse smallNum s = .ok f ∧
    ∀ ρ, f.eval ρ = (Expr.bin .add (.bin .div (.bin .mul (.const (-2)) (.var ['x'])) (.var ['y']))
      (.bin .div (.bin .mul (.bin .mul (.bin .pow (.const 3) (.var ['x'])) (.const (-3))) (.var ['y']))
        (.var ['x']))).eval ρ := by
  have hv : ∀ n, ¬ IsNeg smallShow (.var n) := by rintro n ⟨k, t, h, -⟩; cases h
  have x := NoNegOperand.var (L := smallNum) (showK := smallShow) (P := True) isName_x
  have y := NoNegOperand.var (L := smallNum) (showK := smallShow) (P := True) isName_y
  refine C103_plain (fun _ => rfl) _ (.add (.div (.mul (.negc negOf_2) x (.inl trivial)) y (hv _))
    (.div (.mul (.mul (.pow negOf_3.plain x (lit_not_neg negOf_3.2.1) (hv _) rfl) (.negc negOf_3) (.inl trivial)) y
      (.inl trivial)) x (hv _)))

example := C103_conditions_needed smallNum smallShow (fun _ => rfl) negOf_2 (by norm_num) ['x'] ['y'] ['z']
  isName_x isName_y ⟨by simp, by decide, by intro o; cases o <;> simp [fnName]⟩ (by decide) (by decide) (by decide)

/-- A negative exponent is allowed where nothing that binds as strong follows: `-2*x^-3 + y`. -/
example := C103_keeps_value (L := smallNum) (showK := smallShow) (fun _ => rfl)
  (.bin .add (.bin .mul (.const (-2)) (.bin .pow (.var ['x']) (.const (-3)))) (.var ['y']))
  (.bin (by simp) (by simp) (.lead (.mul negOf_2) (.bin (by simp) (by simp) (.const ⟨negOf_2.2.1, negOf_2.2.2.1⟩)
    (.bin (fun _ => rfl) (by simp) (.var isName_x) (.negc negOf_3.negConst)))) (.var isName_y))

end Stator
