import Verif.Rt.ForceParens
import Verif.Rt.LiteralProps
import Mathlib.Data.List.TakeWhile

/-!
# C76: what the parser returns

Which expressions come out of the parser, and that each of them can be printed (with forced parentheses) and read again.
-/

namespace Stator

variable {K : Type}

/-- Specification: names are names, keys are different names, no constant is directly under a negation, and there is no
operator without a notation. `C k` says which constants there are. -/
inductive FromText (C : K → Prop) : Expr K → Prop
  | const {k} : C k → FromText C (.const k)
  | var {n} : IsName n → FromText C (.var n)
  | fn {o a s} : fnName o = some s → FromText C a → FromText C (.un o a)
  | neg {a} : a.isConst = false → FromText C a → FromText C (.un .neg a)
  | bin {o l r} : FromText C l → FromText C r → FromText C (.bin o l r)
  | arr {xs} : (∀ x ∈ xs, FromText C x) → FromText C (.arr xs)
  | dict {kvs : List (List Char × Expr K)} : (kvs.map Prod.fst).Nodup → (∀ p ∈ kvs, IsName p.1) →
      (∀ p ∈ kvs, FromText C p.2) → FromText C (.dict kvs)

theorem FromText.mono {C C' : K → Prop} (h : ∀ k, C k → C' k) {e : Expr K} (he : FromText C e) : FromText C' e := by
  induction he with
  | const hk => exact .const (h _ hk)
  | var hn => exact .var hn
  | fn ho _ ih => exact .fn ho ih
  | neg ha _ ih => exact .neg ha ih
  | bin _ _ ih1 ih2 => exact .bin ih1 ih2
  | arr _ ih => exact .arr ih
  | dict h1 h2 _ ih => exact .dict h1 h2 ih

theorem FromText.writable {L : NumLex K} {showK : K → List Char} {e : Expr K}
    (he : FromText (fun k => PosConst L showK k ∨ NegConst L showK k) e) : Writable L showK e := by
  induction he with
  | const hk => exact .const hk
  | var hn => exact .var hn
  | fn ho _ ih => exact .un ih
  | neg ha _ ih => exact .un ih
  | bin _ _ ih1 ih2 => exact .bin ih1 ih2
  | arr _ ih => exact .arr ih
  | dict h1 h2 _ ih => exact .dict h1 h2 ih

theorem negConstTerms_false {xs : List (Expr K)} (h : ∀ x ∈ xs, x.negConst = false) : negConstTerms xs = false := by
  induction xs with
  | nil => rfl
  | cons x xs ih =>
    rw [negConstTerms, h x (by simp), ih fun y hy => h y (by simp [hy])]
    rfl

theorem negConstEntries_false {xs : List (List Char × Expr K)} (h : ∀ p ∈ xs, p.2.negConst = false) :
    negConstEntries xs = false := by
  induction xs with
  | nil => rfl
  | cons x xs ih =>
    obtain ⟨k, v⟩ := x
    rw [negConstEntries, h (k, v) (by simp), ih fun y hy => h y (by simp [hy])]
    rfl

theorem fnName_ne {o : UnOp} {s : List Char} (h : fnName o = some s) : o ≠ .neg ∧ o ≠ .abs ∧ o ≠ .arbsign := by
  cases o <;> simp_all [fnName]

theorem FromText.negConst {C : K → Prop} {e : Expr K} (he : FromText C e) : e.negConst = false := by
  induction he with
  | const hk => rfl
  | var hn => rfl
  | @fn o a s ho _ ih =>
    rw [Expr.negConst, ih, Bool.or_false, Bool.and_eq_false_iff]
    exact .inl (by simpa using (fnName_ne ho).1)
  | neg ha _ ih => rw [Expr.negConst, ih, ha]; simp
  | bin _ _ ih1 ih2 => rw [Expr.negConst, ih1, ih2]; rfl
  | arr _ ih => rw [Expr.negConst]; exact negConstTerms_false ih
  | dict h1 h2 _ ih => rw [Expr.negConst]; exact negConstEntries_false ih

/-- If the printer terminates, no dictionary is an operand. -/
theorem FromText.plain {C : K → Prop} {showK : K → List Char} {e : Expr K} (he : FromText C e) :
    ∀ s, e.reprF showK = some s → Plain e := by
  have un : ∀ (o : UnOp) (a : Expr K) s, (Expr.un o a).reprF showK = some s →
      a.isDict = false ∧ ∃ s', a.reprF showK = some s' := by
    intro o a s hs
    rw [Expr.reprF] at hs
    cases ha : a.reprF showK with
    | none => simp [ha] at hs
    | some sa =>
      cases hbp : a.BP with
      | none => simp [ha, hbp] at hs
      | some p => exact ⟨(toks_isDict (showK := showK) hbp).1, sa, rfl⟩
  induction he with
  | const hk => exact fun _ _ => .const
  | var hn => exact fun _ _ => .var
  | fn ho _ ih =>
    intro s hs
    obtain ⟨h1, s', h2⟩ := un _ _ s hs
    exact .un (fnName_ne ho).2.1 (fnName_ne ho).2.2 h1 (ih s' h2)
  | neg ha _ ih =>
    intro s hs
    obtain ⟨h1, s', h2⟩ := un _ _ s hs
    exact .un (by decide) (by decide) h1 (ih s' h2)
  | @bin o l r _ _ ih1 ih2 =>
    intro s hs
    rw [Expr.reprF] at hs
    cases hl : l.reprF showK with
    | none => cases hb : l.BP <;> cases hb' : r.BP <;> simp [hl, hb, hb'] at hs
    | some sl =>
      cases hr : r.reprF showK with
      | none => cases hb : l.BP <;> cases hb' : r.BP <;> simp [hl, hr, hb, hb'] at hs
      | some sr =>
        cases hb1 : l.BP with
        | none => simp [hb1] at hs
        | some p =>
          cases hb' : r.BP with
          | none => simp [hb1, hb'] at hs
          | some p' =>
            exact .bin (toks_isDict (showK := showK) hb1).1 (toks_isDict (showK := showK) hb').1
              (ih1 sl hl) (ih2 sr hr)
  | @arr xs _ ih =>
    intro s hs
    refine .arr fun x hx => ?_
    cases xs with
    | nil => simp at hx
    | cons y ys =>
      rw [Expr.reprF] at hs
      cases hys : reprFTerms showK (y :: ys) with
      | none => simp [hys] at hs
      | some ss =>
        obtain ⟨sx, h⟩ := reprFTerms_inv hys x hx
        exact ih x hx sx h
  | @dict kvs _ _ _ ih =>
    intro s hs
    refine .dict fun x hx => ?_
    cases kvs with
    | nil => simp at hx
    | cons y ys =>
      rw [Expr.reprF] at hs
      cases hys : reprFEntries showK (y :: ys) with
      | none => simp [hys] at hs
      | some ss =>
        obtain ⟨sx, h⟩ := reprFEntries_inv hys x hx
        exact ih x hx sx h

/-- Tokens as the tokenizer makes them: words are letters, numbers are literals. -/
def TokOk (t : Tok) : Prop :=
  (∀ w, t = .word w → w ≠ [] ∧ ∀ c ∈ w, isAlpha c = true) ∧ ∀ w, t = .num w → IsLit w

theorem lexOne_ok (c : Char) (cs : List Char) : TokOk (lexOne c cs).1 := by
  by_cases hd : isDigit c = true
  · rcases C06_literal_or_error c cs hd with ⟨s, rest, h⟩ | h
    · rw [h]
      refine ⟨fun w hw => by simp at hw, fun w hw => ?_⟩
      simp at hw
      subst hw
      exact ((C06_literal c cs s rest hd).1 h).2.1
    · rw [h]; exact ⟨fun w hw => by simp at hw, fun w hw => by simp at hw⟩
  · unfold lexOne
    simp only [hd, Bool.false_eq_true, if_false]
    split
    · rename_i ha
      refine ⟨fun w hw => ?_, fun w hw => by simp at hw⟩
      simp at hw
      subst hw
      refine ⟨by simp, fun x hx => ?_⟩
      rcases List.mem_cons.1 hx with rfl | hx
      · exact ha
      · exact List.mem_takeWhile_imp hx
    · generalize (if c = '\u00c2' ∨ c = '\u00c3' then c :: cs.take 1 else [c]) = text
      split <;> exact ⟨fun w hw => by simp at hw, fun w hw => by simp at hw⟩

theorem lex_ok (s : List Char) : ∀ t ∈ lex s, TokOk t := by
  have hbad : TokOk .bad := ⟨fun w hw => by simp at hw, fun w hw => by simp at hw⟩
  induction s using lex_ind with
  | nil => simp [lex_nil]
  | space cs ih => rwa [lex_space]
  | bad c cs h hb =>
    rw [lex_cons c cs h, if_pos hb]
    intro t ht
    simp at ht
    subst ht
    exact hbad
  | tok c cs h hb ih =>
    rw [lex_cons c cs h, if_neg hb]
    intro t ht
    rcases List.mem_cons.1 ht with rfl | ht
    · exact lexOne_ok c cs
    · exact ih t ht

theorem FromText.negate {C : K → Prop} {L : NumLex K} (hneg : ∀ k, C k → C (L.neg k)) {e : Expr K} (h : FromText C e) :
    FromText C (Stator.negate L e) := by
  cases e with
  | const k => cases h with | const hk => exact .const (hneg k hk)
  | _ => exact .neg rfl h

/-- Every way to write an expression with the tokens of a text gives such an expression. -/
theorem gram_fromText {L : NumLex K} {C : K → Prop} (hlit : ∀ s, IsLit s → C (L.ofLit s))
    (hneg : ∀ k, C k → C (L.neg k)) {ts : List Tok} {e : Expr K} (h : Gram L ts e) :
    (∀ t ∈ ts, TokOk t) → FromText C e := by
  refine Gram.rec (motive_1 := fun ts e _ => (∀ t ∈ ts, TokOk t) → FromText C e)
    (motive_2 := fun ts xs _ => (∀ t ∈ ts, TokOk t) → ∀ x ∈ xs, FromText C x)
    (motive_3 := fun ts es _ => (∀ t ∈ ts, TokOk t) → ∀ p ∈ es, IsName p.1 ∧ FromText C p.2)
    ?_ ?_ ?_ ?_ ?_ ?_ ?_ ?_ ?_ ?_ ?_ ?_ ?_ ?_ ?_ ?_ ?_ h
  · intro s hts
    exact .const (hlit s ((hts _ (by simp)).2 s rfl))
  · intro s hs hts
    obtain ⟨h1, h2⟩ := (hts (.word s) (by simp)).1 s rfl
    exact .var ⟨h1, h2, hs⟩
  · intro ts e _ ih hts
    exact ih fun t ht => hts t (by simp [ht])
  · intro ts e _ ih hts
    exact (ih fun t ht => hts t (by simp [ht])).negate hneg
  · intro ts e o s ho _ ih hts
    exact .fn ho (ih fun t ht => hts t (by simp [ht]))
  · intro ts e _ ih hts
    exact ih fun t ht => hts t (by simp [ht])
  · intro ts1 ts2 l r o t ho _ _ ih1 ih2 hts
    exact .bin (ih1 fun t ht => hts t (by simp [ht])) (ih2 fun t ht => hts t (by simp [ht]))
  · intro ts1 ts2 l r _ _ ih1 ih2 hts
    exact .bin (ih1 fun t ht => hts t (by simp [ht])) (ih2 fun t ht => hts t (by simp [ht]))
  · intro ts1 ts2 l r _ _ ih1 ih2 hts
    exact .bin (ih1 fun t ht => hts t (by simp [ht])) (ih2 fun t ht => hts t (by simp [ht]))
  · intro _; exact .arr (by simp)
  · intro ts xs _ ih hts
    exact .arr (ih fun t ht => hts t (by simp [ht]))
  · intro _; exact .dict (by simp) (by simp) (by simp)
  · intro ts es kvs _ hm ih hts
    have ih := ih fun t ht => hts t (by simp [ht])
    have hin : ∀ p ∈ kvs, p ∈ es := by
      rintro ⟨k, v⟩ hp
      obtain ⟨a, b, rfl, -⟩ := (hm.2 k v).1 hp
      simp
    exact .dict hm.1 (fun p hp => (ih p (hin p hp)).1) (fun p hp => (ih p (hin p hp)).2)
  · intro ts e _ ih hts x hx
    simp at hx
    subst hx
    exact ih hts
  · intro ts1 ts2 xs e _ _ ih1 ih2 hts x hx
    rcases List.mem_append.1 hx with h | h
    · exact ih1 (fun t ht => hts t (by simp [ht])) x h
    · simp at h; subst h; exact ih2 fun t ht => hts t (by simp [ht])
  · intro ts1 ts2 k v _ _ ih1 ih2 hts p hp
    simp at hp
    subst hp
    have := ih1 fun t ht => hts t (by simp [ht])
    cases this with | var hn => exact ⟨hn, ih2 fun t ht => hts t (by simp [ht])⟩
  · intro ts1 ts2 ts3 es k v _ _ _ ih0 ih1 ih2 hts p hp
    rcases List.mem_append.1 hp with h | h
    · exact ih0 (fun t ht => hts t (by simp [ht])) p h
    · simp at h
      subst h
      have := ih1 fun t ht => hts t (by simp [ht])
      cases this with | var hn => exact ⟨hn, ih2 fun t ht => hts t (by simp [ht])⟩

/-- **What comes out of the parser.** For any text: names are names, keys are different names, no constant is directly under
a negation, and only operators that have a notation occur; the constants are literals of the text, possibly negated. -/
theorem C76_parsed (L : NumLex K) (C : K → Prop) (hlit : ∀ s, IsLit s → C (L.ofLit s)) (hneg : ∀ k, C k → C (L.neg k))
    (s : List Char) (e : Expr K) (h : parse L s = .ok e) : FromText C e :=
  gram_fromText hlit hneg (C04_whole_text L s e h).1 (lex_ok s)

/-- Every number that can be read is read back from its text. -/
structure Faithful (L : NumLex K) (showK : K → List Char) : Prop where
  lit : ∀ s, IsLit s → PosConst L showK (L.ofLit s) ∨ NegConst L showK (L.ofLit s)
  neg : ∀ k, PosConst L showK k ∨ NegConst L showK k → PosConst L showK (L.neg k) ∨ NegConst L showK (L.neg k)

/-- **Reading is stable.** Whatever the text, if what it is read as can be printed with forced parentheses, then the printed
text is read as the same expression. It cannot be printed only if a dictionary is an operand. -/
theorem C76_stable (L : NumLex K) (showK : K → List Char) (hL : Faithful L showK) (s : List Char) (e : Expr K)
    (h : parse L s = .ok e) :
    (∀ s', e.reprF showK = some s' → parse L s' = .ok e) ∧ ((∃ s', e.reprF showK = some s') ↔ Plain e) := by
  have hf := C76_parsed L _ hL.lit hL.neg s e h
  refine ⟨fun s' hs' => ?_, ⟨fun ⟨s', hs'⟩ => hf.plain s' hs', plain_reprF⟩⟩
  obtain ⟨s'', h1, h2⟩ := (C65_roundtrip_iff L showK e hf.writable).2 ⟨hf.plain s' hs', hf.negConst⟩
  rw [hs'] at h1
  simp at h1
  subst h1
  exact h2

/-- The default text of what was read is read as the same expression exactly when the expression is outside the defects of
the printer. -/
theorem C76_default (L : NumLex K) (showK : K → List Char) (hL : Faithful L showK) (s : List Char) (e : Expr K)
    (h : parse L s = .ok e) :
    (∃ s', e.repr showK = some s' ∧ parse L s' = .ok e) ↔ Printable L showK true e :=
  C02_roundtrip_iff L showK e (C76_parsed L _ hL.lit hL.neg s e h).writable

/-! ## The hypotheses are met -/

theorem faithful_sign : Faithful signNum signShow where
  lit := fun s hs => .inl ⟨hs, rfl⟩
  neg := by
    rintro ⟨b, t⟩ h
    cases b with
    | false =>
      rcases h with ⟨h1, -⟩ | ⟨t', h1, h2, h3⟩
      · exact .inr ⟨t, rfl, h1, rfl⟩
      · simp [signNum] at h3
    | true =>
      rcases h with ⟨h1, h2⟩ | ⟨t', h1, h2, h3⟩
      · simp [signNum] at h2
      · simp [signShow] at h1
        subst h1
        exact .inl ⟨h2, rfl⟩

/-- `-2*(-x)^-3`: read as a negated product; printed with forced parentheses and read again, the same. -/
example : parse signNum ['-', '2', '*', '(', '-', 'x', ')', '^', '-', '3'] =
    .ok (.un .neg (.bin .mul (.const (false, ['2'])) (.bin .pow (.un .neg (.var ['x'])) (.const (true, ['3']))))) := by
  rw [parse_eq_fuel]; rfl

example : Expr.reprF signShow
    (.un .neg (.bin .mul (.const (false, ['2'])) (.bin .pow (.un .neg (.var ['x'])) (.const (true, ['3'])))))
      = some ['-', '(', '(', '2', ')', '*', '(', '(', '-', '(', 'x', ')', ')', '^', '(', '-', '3', ')', ')', ')'] := rfl

/-- The exception: a dictionary as an operand is accepted by the parser, and printing it does not end. -/
example : parse signNum ['{', 'x', ':', '1', '}', '+', '2'] =
    .ok (.bin .add (.dict [(['x'], .const (false, ['1']))]) (.const (false, ['2']))) := by
  rw [parse_eq_fuel]; rfl

example : Expr.reprF signShow (.bin .add (.dict [(['x'], .const (false, ['1']))]) (.const (false, ['2']))) = none := by
  simp [Expr.reprF, Expr.BP]

end Stator
