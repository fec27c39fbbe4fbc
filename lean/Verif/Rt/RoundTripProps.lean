import Verif.Rt.RoundTripInv

/-!
# C02: printing and parsing

The property "parsing the printed text of any runtime expression gives the expression back" is false in
the code. `C02_roundtrip_iff` says exactly for which expressions it holds, those of `Printable`; the other
theorems show, for all operands, what happens in the cases that `Printable` excludes.
-/

namespace Stator

/-- **C02**. For every expression that can be written (finite constants, names that are names), printing
terminates and parsing the text gives the same tree exactly if the expression is `Printable`. -/
theorem C02_roundtrip_iff {K : Type} (L : NumLex K) (showK : K → List Char) (e : Expr K)
    (h : Writable L showK e) :
    (∃ s, e.repr showK = some s ∧ parse L s = .ok e) ↔ Printable L showK true e :=
  roundtrip_iff h

/-- Printing is injective on `Printable` expressions. -/
theorem C02_repr_injective {K : Type} (L : NumLex K) (showK : K → List Char) (e e' : Expr K)
    (h : Printable L showK true e) (h' : Printable L showK true e') (heq : e.repr showK = e'.repr showK) :
    e = e' := by
  obtain ⟨s, h1, h2⟩ := printable_roundtrip h
  obtain ⟨s', h3, h4⟩ := printable_roundtrip h'
  rw [h1, h3] at heq
  simp at heq
  subst heq
  rw [h2] at h4
  simpa using h4

/-- Whatever a printed text is read as, if it is another tree than the one printed, then one of the
conditions of `Printable` fails. -/
theorem C02_no_other_defect {K : Type} (L : NumLex K) (showK : K → List Char) (e : Expr K) (s : List Char)
    (h : Writable L showK e) (hs : e.repr showK = some s) (hp : parse L s ≠ .ok e) :
    ¬ Printable L showK true e := by
  intro h1
  obtain ⟨s', h2, h3⟩ := printable_roundtrip h1
  rw [hs] at h2
  simp at h2
  subst h2
  exact hp h3

theorem printable_bin_inv {K : Type} {L : NumLex K} {showK : K → List Char} {b : Bool} {o : BinOp} {l r : Expr K}
    (h : Printable L showK b (.bin o l r)) :
    Printable L showK (parenL o l || o.weak) l ∧ Printable L showK (parenR o r || b) r := by
  cases h with
  | bin _ _ _ _ h1 h2 => exact ⟨h1, h2⟩

theorem printable_const_inv {K : Type} {L : NumLex K} {showK : K → List Char} {b : Bool} {k : K}
    (h : Printable L showK b (.const k)) (hb : b = false) : PosConst L showK k := by
  cases h with
  | const h => exact h
  | negc => simp at hb

theorem isName_x : IsName ['x'] :=
  ⟨by simp, by decide, by intro o; cases o <;> simp [fnName]⟩
theorem isName_y : IsName ['y'] :=
  ⟨by simp, by decide, by intro o; cases o <;> simp [fnName]⟩
theorem isLit_2 : IsLit ['2'] :=
  ⟨['2'], [], [], by simp, by simp, by simp [Digits, isDigit], .inl rfl, .inl rfl⟩

theorem posConst_2 : PosConst textNum id ['2'] := ⟨isLit_2, rfl⟩

/-- A number type that keeps the text, with a sign. -/
def signNum : NumLex (Bool × List Char) := ⟨fun s => (false, s), fun p => (!p.1, p.2)⟩
def signShow (p : Bool × List Char) : List Char := if p.1 then '-' :: p.2 else p.2

theorem negConst_2 : NegConst signNum signShow (true, ['2']) := ⟨['2'], rfl, isLit_2, rfl⟩

/-- A non-trivial instance: `-(x-(2-y))*sin (x*y)^y`. -/
example : Printable textNum id true
    (.un .neg (.bin .mul (.bin .sub (.var ['x']) (.bin .sub (.const ['2']) (.var ['y'])))
      (.bin .pow (.un .sin (.bin .mul (.var ['x']) (.var ['y']))) (.var ['y'])))) := by
  have x := fun b => Printable.var (L := textNum) (showK := id) (loose := b) isName_x
  have y := fun b => Printable.var (L := textNum) (showK := id) (loose := b) isName_y
  have two := fun b => Printable.const (L := textNum) (showK := id) (loose := b) posConst_2
  refine .neg rfl rfl (.bin rfl rfl (by simp) (by simp) (.bin rfl rfl (by simp) (by simp) (x _)
    (.bin rfl rfl (by simp) (by simp) (two _) (y _))) (.bin rfl rfl ?_ (by simp) ?_ (y _)))
  · intro _; rfl
  · exact .fn (s := ['s', 'i', 'n']) rfl rfl (.bin rfl rfl (by simp) (by simp) (x _) (y _))

/-- A negative constant comes back at the end of `x*-2+y`, ... -/
example : Printable signNum signShow true
    (.bin .add (.bin .mul (.var ['x']) (.const (true, ['2']))) (.var ['y'])) :=
  .bin rfl rfl (by simp) (by simp) (.bin rfl rfl (by simp) (by simp) (.var isName_x) (.negc negConst_2))
    (.var isName_y)

/-- ... but not in `x*-2*y`: the hypotheses of `C02_roundtrip_iff` hold and both sides are false. -/
example : Writable signNum signShow (.bin .mul (.bin .mul (.var ['x']) (.const (true, ['2']))) (.var ['y'])) ∧
    ¬ Printable signNum signShow true
      (.bin .mul (.bin .mul (.var ['x']) (.const (true, ['2']))) (.var ['y'])) := by
  refine ⟨.bin (.bin (.var isName_x) (.const (.inr negConst_2))) (.var isName_y), fun h => ?_⟩
  have h := printable_const_inv (printable_bin_inv (printable_bin_inv h).1).2 (by decide)
  obtain ⟨c, t, h1, h2⟩ := isLit_digit h.1
  have h1 : ['-', '2'] = c :: t := h1
  simp at h1
  rw [← h1.1] at h2
  exact absurd h2 (by decide)

/-! ## Failures of the full property -/

theorem BP_bin {K : Type} (o : BinOp) (l r : Expr K) : (Expr.bin o l r).BP = some (o.lbp, o.rbp) := rfl
theorem BP_var {K : Type} (n : List Char) : (Expr.var n : Expr K).BP = some (intMax, intMax) := rfl

/-- `(a^b)^c` prints as the same text as `a^(b^c)`, for all `a`, `c` and every variable `b`. -/
theorem C02_power_ambiguous {K : Type} (showK : K → List Char) (a c : Expr K) (b : List Char) :
    (Expr.bin .pow (.bin .pow a (.var b)) c).repr showK
      = (Expr.bin .pow a (.bin .pow (.var b) c)).repr showK := by
  cases ha : a.repr showK <;> cases hc : c.repr showK <;> cases hab : a.BP <;> cases hcb : c.BP <;>
    simp [Expr.repr, BP_bin, BP_var, ha, hc, hab, hcb, BinOp.lbp, BinOp.rbp, BinOp.rightAssoc, wrapIf, intMax, BinOp.rtext,
      BinOp.wrapped]

/-- Hence the round trip of `(a^b)^c` gives `a^(b^c)`, a different tree with a different value. -/
theorem C02_power_fails {K : Type} (L : NumLex K) (showK : K → List Char) (a c : Expr K)
    (b : List Char) (ha : Printable L showK false a) (hc : Printable L showK true c) (hb : IsName b)
    (h1 : a.isDict = false) (h2 : c.isDict = false) (h3 : a.isBin .pow = false) :
    ∃ s, (Expr.bin .pow (.bin .pow a (.var b)) c).repr showK = some s ∧
      parse L s = .ok (.bin .pow a (.bin .pow (.var b) c)) := by
  rw [C02_power_ambiguous]
  exact printable_roundtrip (b := true) (.bin h1 rfl (fun _ => h3) (by simp) (ha.mono (by simp))
    (.bin rfl h2 (fun _ => rfl) (by simp) (.var hb) (hc.mono (by simp))))

/-- The same for equations: `(a=b)=c` prints as `a=b=c`, which is read as `a=(b=c)`. -/
theorem C02_equation_fails {K : Type} (L : NumLex K) (showK : K → List Char) (a c : Expr K)
    (b : List Char) (ha : Printable L showK true a) (hc : Printable L showK true c) (hb : IsName b)
    (h1 : a.isDict = false) (h2 : c.isDict = false) (h3 : a.isBin .eq = false) :
    ∃ s, (Expr.bin .eq (.bin .eq a (.var b)) c).repr showK = some s ∧
      parse L s = .ok (.bin .eq a (.bin .eq (.var b) c)) := by
  have : (Expr.bin .eq (.bin .eq a (.var b)) c).repr showK
      = (Expr.bin .eq a (.bin .eq (.var b) c)).repr showK := by
    cases ha : a.repr showK <;> cases hc : c.repr showK <;> cases hab : a.BP <;> cases hcb : c.BP <;>
      simp [Expr.repr, BP_bin, BP_var, ha, hc, hab, hcb, BinOp.lbp, BinOp.rbp, BinOp.rightAssoc, wrapIf, intMax, BinOp.rtext,
        BinOp.wrapped]
  rw [this]
  exact printable_roundtrip (b := true) (.bin h1 rfl (by simp) (fun _ => h3) (ha.mono (by simp [BinOp.weak]))
    (.bin rfl h2 (by simp) (fun _ => rfl) (.var hb) (hc.mono (by simp))))

/-- Negative constants are printed without parentheses: a constant `k` that prints as `-` followed by
a literal makes `k^x` read back as the negation of a power. -/
theorem C02_negative_base_fails {K : Type} (L : NumLex K) (showK : K → List Char) (k k' : K)
    (n : List Char) (hn : IsName n) (hk : showK k = '-' :: showK k') (hl : IsLit (showK k'))
    (hr : L.ofLit (showK k') = k') :
    ∃ s, (Expr.bin .pow (.const k) (.var n)).repr showK = some s ∧
      parse L s = .ok (.un .neg (.bin .pow (.const k') (.var n))) := by
  have h : Printable L showK true (.un .neg (.bin .pow (.const k') (.var n))) :=
    .neg rfl rfl (.bin rfl rfl (fun _ => rfl) (by simp) (.const ⟨hl, hr⟩) (.var hn))
  obtain ⟨s, h1, h2⟩ := printable_roundtrip h
  refine ⟨s, ?_, h2⟩
  rw [← h1]
  simp [Expr.repr, Expr.BP, hk, BinOp.lbp, BinOp.rbp, BinOp.rightAssoc, wrapIf, intMax, BinOp.rtext,
        BinOp.wrapped, UnOp.ltext, UnOp.rtext, UnOp.bp]

/-- ... and `(x / k) / y` read back as `x / (-(k' / y))`, whose value is different. -/
theorem C02_negative_divisor_fails :
    ∃ s, (Expr.bin .div (.bin .div (.var ['x']) (.const ['-', '2'])) (.var ['y'])).repr id = some s ∧
      parse textNum s = .ok (.bin .div (.var ['x'])
        (.un .neg (.bin .div (.const ['2']) (.var ['y'])))) := by
  refine ⟨['x', '/', '-', '2', '/', 'y'], rfl, ?_⟩
  rw [parse_eq_fuel]; rfl

/-- The negation of a literal reads back as a constant. -/
theorem C02_negated_constant_fails {K : Type} (L : NumLex K) (showK : K → List Char) (k : K)
    (hl : IsLit (showK k)) (hr : L.ofLit (showK k) = k) :
    ∃ s, (Expr.un .neg (.const k)).repr showK = some s ∧ parse L s = .ok (.const (L.neg k)) := by
  refine ⟨'-' :: showK k, by simp [Expr.repr, Expr.BP, wrapIf, UnOp.bp, intMax, UnOp.ltext, UnOp.rtext], ?_⟩
  have h1 := lex_lit (showK k) [] hl sep_nil
  simp only [List.append_nil, lex_nil] at h1
  rw [parse_ok_iff, lex_sym1 _ _ (by decide), h1]
  refine ⟨by simp [NB], .expr (.minus (e := .const k) rfl (by simp [NB]) (.expr (t := .const k) ?_ .loopEnd)) .loopEnd⟩
  have := D.num (L := L) (s := showK k) (ts := []) (by simp [NB])
  rwa [hr] at this

/-- Absolute values and `±|..|` print as text that is never accepted. -/
theorem C02_abs_fails {K : Type} (L : NumLex K) (showK : K → List Char) (a : Expr K) (s : List Char)
    (h : (Expr.un .abs a).repr showK = some s ∨ (Expr.un .arbsign a).repr showK = some s) :
    parse L s = .throw := by
  have hb : Tok.bad ∈ lex s := by
    rcases h with h | h <;> simp only [Expr.repr] at h
    · cases h1 : a.repr showK <;> simp [h1] at h
      cases h2 : a.BP <;> simp [h2] at h
      subst h
      simp only [UnOp.ltext, List.cons_append, List.nil_append]
      rw [lex_cons _ _ (by decide)]
      simp [lexOne, isDigit, isAlpha, symTable, pmSign]
    · cases h1 : a.repr showK <;> simp [h1] at h
      cases h2 : a.BP <;> simp [h2] at h
      subst h
      simp only [UnOp.ltext, List.append_assoc]
      rw [lex_pm, List.cons_append, lex_cons _ _ (by decide)]
      simp [lexOne, isDigit, isAlpha, symTable, pmSign]
  rcases C01_parse_total L s with ⟨e, he⟩ | ht
  · exact absurd hb (gram_no_bad L (C04_whole_text L s e he).1)
  · exact ht

/-- Printing an operator applied to a dictionary does not terminate. -/
theorem C02_dict_operand_fails {K : Type} (showK : K → List Char) (kvs : List (List Char × Expr K))
    (o : BinOp) (u : UnOp) (e : Expr K) :
    (Expr.bin o (.dict kvs) e).repr showK = none ∧ (Expr.bin o e (.dict kvs)).repr showK = none ∧
    (Expr.un u (.dict kvs)).repr showK = none := by
  refine ⟨by simp [Expr.repr, Expr.BP], ?_, ?_⟩
  · simp only [Expr.repr]; cases e.BP <;> simp [Expr.BP]
  · rw [Expr.repr]; cases (Expr.dict kvs).repr showK <;> simp [Expr.BP]

example : (Expr.un UnOp.abs (.var ['x']) : Expr (List Char)).repr id = some ['|', 'x', '|'] := by rfl
/-- The hypotheses of `C02_negative_base_fails` are met. -/
example : (fun s : List Char => s) ['-', '2'] = '-' :: id ['2'] := rfl

end Stator
