import Verif.Rt.RoundTripProps
import Verif.Rt.Eval

/-!
# C65: printing with `Force_parenthesis`

`repr<ReprConfig<Force_parenthesis>>` puts every operand in parentheses. The text then reads back in all
the cases where the default output is ambiguous (C02): nested powers and equations, negative constants
as operands. What is left: a negated constant comes back as a constant (of the same value), `|..|` is not
in the grammar of the parser, and a dictionary as an operand makes the printer loop.
-/

namespace Stator

mutual

/-- `repr<ReprConfig<Force_parenthesis>>(const Expr&)`; `none`: the printer does not terminate (the binding
powers of the operands are still asked for). models: binary_ops.hpp:448-467, unary_ops.hpp:193-208,
array.hpp:382-394, dict.hpp:92-104 with `Config::Force_parenthesis` true (repr.hpp:40-48). -/
def Expr.reprF {K : Type} (showK : K → List Char) : Expr K → Option (List Char)
  | .const k => some (showK k)
  | .var n => some n
  | .un o a => do
    let s ← a.reprF showK
    let abp ← a.BP
    some (o.ltext ++ wrapIf (decide (abp.1 < o.bp) || true) s ++ o.rtext)
  | .bin o l r => do
    let lbp ← l.BP
    let rbp ← r.BP
    let ls ← l.reprF showK
    let rs ← r.reprF showK
    some (wrapIf (decide (lbp.2 < o.lbp) || true) ls ++ o.text
      ++ wrapIf (decide (o.rbp > rbp.1) && !o.wrapped || true) rs ++ o.rtext)
  | .arr [] => some ['[', ']']
  | .arr (x :: xs) => do
    let s ← reprFTerms showK (x :: xs)
    some (dropTwo (['['] ++ s) ++ [']'])
  | .dict [] => some ['{', '}']
  | .dict (p :: kvs) => do
    let s ← reprFEntries showK (p :: kvs)
    some (dropTwo (['{'] ++ s) ++ ['}'])

/-- The loop over the elements of an array. models: array.hpp:390-391. -/
def reprFTerms {K : Type} (showK : K → List Char) : List (Expr K) → Option (List Char)
  | [] => some []
  | x :: xs => do
    let s ← x.reprF showK
    let ss ← reprFTerms showK xs
    some (s ++ [',', ' '] ++ ss)

/-- The loop over the entries of a dictionary. models: dict.hpp:100-101. -/
def reprFEntries {K : Type} (showK : K → List Char) :
    List (List Char × Expr K) → Option (List Char)
  | [] => some []
  | (k, v) :: kvs => do
    let s ← v.reprF showK
    let ss ← reprFEntries showK kvs
    some (k ++ [':'] ++ s ++ [',', ' '] ++ ss)

end

/-! ## Specification -/

/-- No dictionary is an operand and there is no `|..|` and no `±|..|`. -/
inductive Plain {K : Type} : Expr K → Prop
  | const {k} : Plain (.const k)
  | var {n} : Plain (.var n)
  | un {o a} : o ≠ .abs → o ≠ .arbsign → a.isDict = false → Plain a → Plain (.un o a)
  | bin {o l r} : l.isDict = false → r.isDict = false → Plain l → Plain r → Plain (.bin o l r)
  | arr {xs} : (∀ x ∈ xs, Plain x) → Plain (.arr xs)
  | dict {kvs : List (List Char × Expr K)} : (∀ p ∈ kvs, Plain p.2) → Plain (.dict kvs)

mutual
/-- Some constant of the tree is directly under a negation. -/
def Expr.negConst {K : Type} : Expr K → Bool
  | .const _ => false
  | .var _ => false
  | .un o a => (o == .neg && a.isConst) || a.negConst
  | .bin _ l r => l.negConst || r.negConst
  | .arr xs => negConstTerms xs
  | .dict kvs => negConstEntries kvs
def negConstTerms {K : Type} : List (Expr K) → Bool
  | [] => false
  | x :: xs => x.negConst || negConstTerms xs
def negConstEntries {K : Type} : List (List Char × Expr K) → Bool
  | [] => false
  | (_, v) :: kvs => v.negConst || negConstEntries kvs
end

mutual
/-- The tree in which negations of constants are replaced by constants, from the leaves upwards. -/
def Expr.foldNeg {K : Type} (neg : K → K) : Expr K → Expr K
  | .const k => .const k
  | .var n => .var n
  | .un o a =>
    match o, a.foldNeg neg with
    | .neg, .const k => .const (neg k)
    | o, a' => .un o a'
  | .bin o l r => .bin o (l.foldNeg neg) (r.foldNeg neg)
  | .arr xs => .arr (foldNegTerms neg xs)
  | .dict kvs => .dict (foldNegEntries neg kvs)
def foldNegTerms {K : Type} (neg : K → K) : List (Expr K) → List (Expr K)
  | [] => []
  | x :: xs => x.foldNeg neg :: foldNegTerms neg xs
def foldNegEntries {K : Type} (neg : K → K) : List (List Char × Expr K) → List (List Char × Expr K)
  | [] => []
  | (k, v) :: kvs => (k, v.foldNeg neg) :: foldNegEntries neg kvs
end

/-! ## Tokens -/

mutual
/-- The tokens of the printed expression. -/
def Expr.toksF {K : Type} (showK : K → List Char) : Expr K → List Tok
  | .const k => constToks (showK k)
  | .var n => [.word n]
  | .un o a => o.tok :: wrapT true (a.toksF showK)
  | .bin o l r => wrapT true (l.toksF showK) ++ [.sym o.text] ++ wrapT true (r.toksF showK) ++
      (if o.wrapped then [.sym o.closer] else [])
  | .arr xs => [.sym ['[']] ++ toksFTerms showK xs ++ [.sym [']']]
  | .dict kvs => [.sym ['{']] ++ toksFEntries showK kvs ++ [.sym ['}']]
def toksFTerms {K : Type} (showK : K → List Char) : List (Expr K) → List Tok
  | [] => []
  | x :: xs => x.toksF showK ++ (if xs.isEmpty then [] else .sym [','] :: toksFTerms showK xs)
def toksFEntries {K : Type} (showK : K → List Char) : List (List Char × Expr K) → List Tok
  | [] => []
  | (k, v) :: kvs => .word k :: .sym [':'] :: (v.toksF showK ++
      (if kvs.isEmpty then [] else .sym [','] :: toksFEntries showK kvs))
end

theorem lexesF_terms {K : Type} (showK : K → List Char) (xs : List (Expr K)) (x : Expr K) (s : List Char)
    (h : ∀ y ∈ x :: xs, ∀ s, y.reprF showK = some s → LexTo s (y.toksF showK))
    (hs : reprFTerms showK (x :: xs) = some s) :
    ∃ s', s = s' ++ [',', ' '] ∧ LexTo s' (toksFTerms showK (x :: xs)) := by
  induction xs generalizing x s with
  | nil =>
    rw [reprFTerms] at hs
    cases hx : x.reprF showK with
    | none => simp [hx] at hs
    | some sx =>
      simp [hx, reprFTerms] at hs
      exact ⟨sx, hs.symm, by simpa [toksFTerms] using h x (by simp) sx hx⟩
  | cons y ys ih =>
    rw [reprFTerms] at hs
    cases hx : x.reprF showK with
    | none => simp [hx] at hs
    | some sx =>
      cases hys : reprFTerms showK (y :: ys) with
      | none => simp [hx, hys] at hs
      | some ss =>
        obtain ⟨s', rfl, h'⟩ := ih y ss (fun z hz => h z (by simp at hz ⊢; tauto)) hys
        simp [hx, hys] at hs
        refine ⟨sx ++ (',' :: ' ' :: s'), by rw [← hs]; simp, ?_⟩
        rw [toksFTerms]
        simp only [List.isEmpty_cons, Bool.false_eq_true, if_false]
        refine (h x (by simp) sx hx).append ?_ (fun rest hr => by rw [List.cons_append, sep_cons]; decide)
        have := LexTo.cons (s := [',', ' ']) (ts := [.sym [',']])
          (fun rest => by rw [List.cons_append, lex_sym1 _ _ (by decide)]; simp [lex_space]) (by simp) h'
        simpa using this

theorem lexesF_entries {K : Type} (showK : K → List Char) (kvs : List (List Char × Expr K))
    (p : List Char × Expr K) (s : List Char) (hN : ∀ q ∈ p :: kvs, IsName q.1)
    (h : ∀ q ∈ p :: kvs, ∀ s, q.2.reprF showK = some s → LexTo s (q.2.toksF showK))
    (hs : reprFEntries showK (p :: kvs) = some s) :
    ∃ s', s = s' ++ [',', ' '] ∧ LexTo s' (toksFEntries showK (p :: kvs)) := by
  induction kvs generalizing p s with
  | nil =>
    obtain ⟨k, v⟩ := p
    rw [reprFEntries] at hs
    cases hx : v.reprF showK with
    | none => simp [hx] at hs
    | some sx =>
      simp [hx, reprFEntries] at hs
      refine ⟨k ++ ':' :: sx, by rw [← hs]; simp, ?_⟩
      have := (LexTo.name (hN (k, v) (by simp))).append (LexTo.cons1 (c := ':') (by decide)
        (h (k, v) (by simp) sx hx)) (fun rest hr => by rw [List.cons_append, sep_cons]; decide)
      simpa [toksFEntries] using this
  | cons q kvs ih =>
    obtain ⟨k, v⟩ := p
    rw [reprFEntries] at hs
    cases hx : v.reprF showK with
    | none => simp [hx] at hs
    | some sx =>
      cases hys : reprFEntries showK (q :: kvs) with
      | none => simp [hx, hys] at hs
      | some ss =>
        obtain ⟨s', rfl, h'⟩ := ih q ss (fun z hz => hN z (by simp at hz ⊢; tauto))
          (fun z hz => h z (by simp at hz ⊢; tauto)) hys
        simp [hx, hys] at hs
        refine ⟨k ++ ':' :: (sx ++ (',' :: ' ' :: s')), by rw [← hs]; simp, ?_⟩
        rw [toksFEntries]
        simp only [List.isEmpty_cons, Bool.false_eq_true, if_false]
        have h1 := LexTo.cons (s := [',', ' ']) (ts := [.sym [',']])
          (fun rest => by rw [List.cons_append, lex_sym1 _ _ (by decide)]; simp [lex_space]) (by simp) h'
        have h2 := (h (k, v) (by simp) sx hx).append h1
          (fun rest hr => by rw [List.append_assoc, List.cons_append, sep_cons]; decide)
        have h3 := (LexTo.name (hN (k, v) (by simp))).append (LexTo.cons1 (c := ':') (by decide) h2)
          (fun rest hr => by rw [List.cons_append, sep_cons]; decide)
        simpa using h3

/-- The tokens of the printed text. -/
theorem reprF_lexes {K : Type} {L : NumLex K} {showK : K → List Char} {e : Expr K}
    (h : Writable L showK e) : ∀ s, e.reprF showK = some s → LexTo s (e.toksF showK) := by
  induction h with
  | @const k h =>
    intro s hs
    simp only [Expr.reprF, Option.some.injEq] at hs
    subst hs
    rw [Expr.toksF]
    rcases h with h | ⟨t, h1, h2, -⟩
    · rw [constToks_lit h.1]; exact .lit h.1
    · rw [h1]; exact .cons1 (by decide) (.lit h2)
  | @var n h =>
    intro s hs
    simp only [Expr.reprF, Option.some.injEq] at hs
    subst hs
    exact .name h
  | @un o a h ih =>
    intro s hs
    rw [Expr.reprF] at hs
    cases ha : a.reprF showK with
    | none => simp [ha] at hs
    | some sa =>
      cases hb : a.BP with
      | none => simp [ha, hb] at hs
      | some p =>
        simp only [ha, hb, Option.bind_eq_bind, Option.bind_some, Option.some.injEq, Bool.or_true] at hs
        subst hs
        rw [Expr.toksF]
        have hw := (ih sa ha).wrap true
        cases hf : fnName o with
        | some n =>
          rw [(lex_fn hf []).2, List.append_nil]
          refine LexTo.cons (ts := [o.tok]) (fun rest => by simpa using (lex_fn hf rest).1) ?_ hw
          cases o <;> simp_all [fnName, UnOp.tok]
        | none =>
          by_cases ho : o = .neg
          · subst ho
            simp only [UnOp.ltext, UnOp.rtext, List.append_nil, List.cons_append, List.nil_append]
            exact .cons1 (by decide) hw
          · have hbad : o.tok = .bad := by cases o <;> simp_all [fnName, UnOp.tok]
            refine .inr ⟨by simp [hbad], fun rest _ => ?_⟩
            rw [List.append_assoc, List.append_assoc, ← List.append_assoc _ _ (o.rtext ++ rest)]
            exact lex_abs hbad _ _
  | @bin o l r h1 h2 ih1 ih2 =>
    intro s hs
    rw [Expr.reprF] at hs
    cases hl : l.reprF showK with
    | none => cases hb : l.BP <;> cases hb' : r.BP <;> simp [hl, hb, hb'] at hs
    | some sl =>
      cases hr : r.reprF showK with
      | none => cases hb : l.BP <;> cases hb' : r.BP <;> simp [hl, hr, hb, hb'] at hs
      | some sr =>
        cases hb : l.BP with
        | none => simp [hb] at hs
        | some p =>
          cases hb' : r.BP with
          | none => simp [hb, hb'] at hs
          | some p' =>
            simp only [hl, hr, hb, hb', Option.bind_eq_bind, Option.bind_some, Option.some.injEq, Bool.or_true] at hs
            subst hs
            rw [Expr.toksF]
            simp only [List.append_assoc]
            refine ((ih1 sl hl).wrap _).append ?_ (fun rest _ => by rw [List.append_assoc]; exact sep_text o _)
            refine LexTo.cons (ts := [.sym o.text]) (fun rest => by simpa using lex_text_op o rest) (by simp) ?_
            refine ((ih2 sr hr).wrap _).append ?_ (fun rest h => sep_rtext o rest h)
            refine .inl ⟨by cases o.wrapped <;> simp, fun rest _ => lex_rtext o rest⟩
  | @arr xs h ih =>
    intro s hs
    cases xs with
    | nil =>
      simp only [Expr.reprF, Option.some.injEq] at hs
      subst hs
      exact .cons1 (by decide) (.sym1 (by decide))
    | cons x xs =>
      rw [Expr.reprF] at hs
      cases hx : reprFTerms showK (x :: xs) with
      | none => simp [hx] at hs
      | some ss =>
        obtain ⟨s', rfl, h'⟩ := lexesF_terms showK xs x ss ih hx
        simp only [hx, Option.bind_eq_bind, Option.bind_some, Option.some.injEq] at hs
        rw [← List.append_assoc ['['] s', dropTwo_append] at hs
        subst hs
        rw [Expr.toksF]
        simp only [List.append_assoc, List.cons_append, List.nil_append]
        exact .cons1 (by decide) (h'.append (.sym1 (by decide)) (fun rest hr => by rw [List.cons_append, sep_cons]; decide))
  | @dict kvs h1 h2 h3 ih =>
    intro s hs
    cases kvs with
    | nil =>
      simp only [Expr.reprF, Option.some.injEq] at hs
      subst hs
      exact .cons1 (by decide) (.sym1 (by decide))
    | cons x xs =>
      rw [Expr.reprF] at hs
      cases hx : reprFEntries showK (x :: xs) with
      | none => simp [hx] at hs
      | some ss =>
        obtain ⟨s', rfl, h'⟩ := lexesF_entries showK xs x ss h2 ih hx
        simp only [hx, Option.bind_eq_bind, Option.bind_some, Option.some.injEq] at hs
        rw [← List.append_assoc ['{'] s', dropTwo_append] at hs
        subst hs
        rw [Expr.toksF]
        simp only [List.append_assoc, List.cons_append, List.nil_append]
        exact .cons1 (by decide) (h'.append (.sym1 (by decide)) (fun rest hr => by rw [List.cons_append, sep_cons]; decide))

/-! ## Reading the tokens -/

theorem toksF_start {K : Type} {L : NumLex K} {showK : K → List Char} {e : Expr K}
    (h : Writable L showK e) (hp : Plain e) : ∃ t r, e.toksF showK = t :: r ∧ Start t := by
  cases h with
  | @const k h =>
    rw [Expr.toksF]
    rcases h with h | ⟨t, h1, h2, -⟩
    · rw [constToks_lit h.1]; exact ⟨_, _, rfl, by simp [Start]⟩
    · rw [h1]; exact ⟨_, _, rfl, by simp [Start]⟩
  | var => exact ⟨_, _, rfl, by simp [Start]⟩
  | @un o a h =>
    cases hp with
    | un h1 h2 _ _ => exact ⟨_, _, by rw [Expr.toksF], by cases o <;> simp_all [Start, UnOp.tok]⟩
  | bin => exact ⟨.sym ['('], _, by rw [Expr.toksF]; simp [wrapT]; rfl, by simp [Start]⟩
  | arr => exact ⟨_, _, by rw [Expr.toksF]; rfl, by simp [Start]⟩
  | dict => exact ⟨_, _, by rw [Expr.toksF]; rfl, by simp [Start]⟩

theorem toksF_nb {K : Type} {L : NumLex K} {showK : K → List Char} {e : Expr K}
    (h : Writable L showK e) (hp : Plain e) (rest : List Tok) : NB (e.toksF showK ++ rest) := by
  obtain ⟨t, r, h1, h2⟩ := toksF_start h hp
  rw [h1]; simpa [NB] using h2.1

/-- Read back with nothing or a closing token behind it. -/
def ReadsF {K : Type} (L : NumLex K) (showK : K → List Char) (e : Expr K) : Prop :=
  ∀ rest, Weaker 0 rest → D L (.expr 0) (e.toksF showK ++ rest) (e.foldNeg L.neg) rest

theorem ReadsF.delim {K : Type} {L : NumLex K} {showK : K → List Char} {e : Expr K} (h : ReadsF L showK e)
    {t : Tok} (ht : rightOp t = some .halt) (rest : List Tok) :
    D L (.expr 0) (e.toksF showK ++ t :: rest) (e.foldNeg L.neg) (t :: rest) :=
  h _ (weaker_halt (by omega) ht rest)

theorem ReadsF.paren {K : Type} {L : NumLex K} {showK : K → List Char} {e : Expr K} (h : ReadsF L showK e)
    (hw : Writable L showK e) (hp : Plain e) (rest : List Tok) (hr : NB rest) :
    D L .tok (wrapT true (e.toksF showK) ++ rest) (e.foldNeg L.neg) rest := by
  have := h.delim (t := .sym [')']) rfl rest
  simp only [wrapT, if_true, List.append_assoc, List.cons_append, List.nil_append]
  exact .paren rfl (toksF_nb hw hp _) this hr

theorem nb_wrapT (ts rest : List Tok) : NB (wrapT true ts ++ rest) := by
  simp [wrapT, NB]

theorem readsF_terms {K : Type} {L : NumLex K} {showK : K → List Char} (xs : List (Expr K))
    (x : Expr K) (acc : List (Expr K)) (hw : ∀ y ∈ x :: xs, Writable L showK y) (hp : ∀ y ∈ x :: xs, Plain y)
    (hr : ∀ y ∈ x :: xs, ReadsF L showK y) (rest : List Tok) (hn : NB rest) :
    D L (.arr acc) (toksFTerms showK (x :: xs) ++ .sym [']'] :: rest)
      (.arr (acc ++ foldNegTerms L.neg (x :: xs))) rest := by
  induction xs generalizing x acc with
  | nil =>
    rw [toksFTerms]
    simp only [List.isEmpty_nil, if_true, List.append_nil, foldNegTerms]
    exact .arrLast ((hr x (by simp)).delim rfl rest) hn
  | cons y ys ih =>
    rw [toksFTerms, foldNegTerms]
    simp only [List.isEmpty_cons, Bool.false_eq_true, if_false, List.append_assoc, List.cons_append]
    have h1 := (hr x (by simp)).delim (t := .sym [',']) rfl (toksFTerms showK (y :: ys) ++ .sym [']'] :: rest)
    have h2 := ih y (acc ++ [x.foldNeg L.neg]) (fun z hz => hw z (by simp at hz ⊢; tauto))
      (fun z hz => hp z (by simp at hz ⊢; tauto)) (fun z hz => hr z (by simp at hz ⊢; tauto))
    simp only [List.append_assoc, List.cons_append, List.nil_append] at h2
    refine .arrMore h1 ?_ h2
    rw [toksFTerms, List.append_assoc]
    exact toksF_nb (hw y (by simp)) (hp y (by simp)) _

theorem foldNegEntries_fst {K : Type} (neg : K → K) (kvs : List (List Char × Expr K)) :
    (foldNegEntries neg kvs).map Prod.fst = kvs.map Prod.fst := by
  induction kvs with
  | nil => rfl
  | cons p kvs ih => obtain ⟨k, v⟩ := p; simp [foldNegEntries, ih]

theorem readsF_entries {K : Type} {L : NumLex K} {showK : K → List Char}
    (kvs : List (List Char × Expr K)) (p : List Char × Expr K) (acc : List (List Char × Expr K))
    (hk : (acc.map Prod.fst ++ (p :: kvs).map Prod.fst).Nodup) (hN : ∀ q ∈ p :: kvs, IsName q.1)
    (hw : ∀ q ∈ p :: kvs, Writable L showK q.2) (hp : ∀ q ∈ p :: kvs, Plain q.2)
    (hr : ∀ q ∈ p :: kvs, ReadsF L showK q.2) (rest : List Tok) (hn : NB rest) :
    D L (.dict acc) (toksFEntries showK (p :: kvs) ++ .sym ['}'] :: rest)
      (.dict (acc ++ foldNegEntries L.neg (p :: kvs))) rest := by
  induction kvs generalizing p acc with
  | nil =>
    obtain ⟨k, v⟩ := p
    rw [toksFEntries]
    simp only [List.isEmpty_nil, if_true, List.append_nil, List.cons_append, foldNegEntries]
    have h1 : k ∉ acc.map Prod.fst := by
      rw [List.nodup_append] at hk
      intro hm
      exact hk.2.2 k hm k (by simp) rfl
    have h2 := D.dictLast (acc := acc) (reads_key (L := L) (hN (k, v) (by simp)) _)
      (toksF_nb (hw (k, v) (by simp)) (hp (k, v) (by simp)) _)
      ((hr (k, v) (by simp)).delim (t := .sym ['}']) rfl rest) hn
    rwa [dictSet_new _ _ _ h1] at h2
  | cons q kvs ih =>
    obtain ⟨k, v⟩ := p
    rw [toksFEntries, foldNegEntries]
    simp only [List.isEmpty_cons, Bool.false_eq_true, if_false, List.append_assoc, List.cons_append]
    have h1 : k ∉ acc.map Prod.fst := by
      rw [List.nodup_append] at hk
      intro hm
      exact hk.2.2 k hm k (by simp) rfl
    have h3 := ih q (acc ++ [(k, v.foldNeg L.neg)]) (by simpa using hk) (fun z hz => hN z (by simp at hz ⊢; tauto))
      (fun z hz => hw z (by simp at hz ⊢; tauto)) (fun z hz => hp z (by simp at hz ⊢; tauto))
      (fun z hz => hr z (by simp at hz ⊢; tauto))
    rw [← dictSet_new _ _ _ h1] at h3
    have h4 : acc ++ (k, v.foldNeg L.neg) :: foldNegEntries L.neg (q :: kvs)
        = dictSet acc k (v.foldNeg L.neg) ++ foldNegEntries L.neg (q :: kvs) := by
      rw [dictSet_new _ _ _ h1]; simp
    rw [h4]
    refine D.dictMore (reads_key (L := L) (hN (k, v) (by simp)) _)
      (toksF_nb (hw (k, v) (by simp)) (hp (k, v) (by simp)) _)
      ((hr (k, v) (by simp)).delim (t := .sym [',']) rfl _) ?_ h3
    obtain ⟨k', v'⟩ := q
    rw [toksFEntries]
    simp [NB]

theorem foldNeg_un {K : Type} (L : NumLex K) (o : UnOp) (a : Expr K) :
    (Expr.un o a).foldNeg L.neg =
      if o = .neg then negate L (a.foldNeg L.neg) else .un o (a.foldNeg L.neg) := by
  have : (Expr.un o a).foldNeg L.neg = (match o, a.foldNeg L.neg with
    | .neg, .const k => .const (L.neg k)
    | o, a' => .un o a') := by
    conv => lhs; unfold Expr.foldNeg
  rw [this]
  cases o <;> cases h : a.foldNeg L.neg <;> simp [negate]

theorem Weaker0.mono {rest : List Tok} (h : Weaker 0 rest) {b : Int} (hb : 0 ≤ b) : Weaker b rest :=
  h.mono hb

theorem readsF {K : Type} {L : NumLex K} {showK : K → List Char} {e : Expr K}
    (h : Writable L showK e) (hp : Plain e) : ReadsF L showK e := by
  induction h with
  | @const k h =>
    intro rest hr
    rw [Expr.toksF, Expr.foldNeg]
    rcases h with h | ⟨t, h1, h2, h3⟩
    · have := D.num (L := L) (s := showK k) hr.opRest.nb
      rw [h.2] at this
      rw [constToks_lit h.1]
      exact .expr this (D_stop' L _ _ _ _ hr)
    · rw [h1]
      have := D.num (L := L) (s := t) hr.opRest.nb
      have := D.minus (L := L) (tok := .sym ['-']) rfl (by simp [NB])
        (.expr this (D_stop' L _ 21 intMax rest (hr.mono (by decide))))
      refine .expr (by simpa [negate, h3, constToks] using this) (D_stop' L _ _ _ _ hr)
  | @var n h =>
    intro rest hr
    exact .expr (.var (leftOp_word_of_not_fn h.2.2) hr.opRest.nb) (D_stop' L _ _ _ _ hr)
  | @un o a h ih =>
    intro rest hr
    cases hp with
    | un h1 h2 h3 h4 =>
    have hpar := (ih h4).paren h h4 rest hr.opRest.nb
    have hn := nb_wrapT (a.toksF showK) rest
    rw [Expr.toksF, foldNeg_un, List.cons_append]
    cases hf : fnName o with
    | some n =>
      obtain ⟨h5, h6⟩ := fnName_leftOp hf
      have h7 : o.tok = .word n := by cases o <;> simp [fnName] at hf <;> subst hf <;> rfl
      rw [if_neg (by rintro rfl; simp [fnName] at hf), h7]
      exact .expr (.fn h5 hn (.expr hpar (D_stop' L _ _ _ _ (hr.mono (ubp_nonneg o))))) (D_stop' L _ _ _ _ hr)
    | none =>
      have ho : o = .neg := by cases o <;> simp_all [fnName]
      subst ho
      rw [if_pos rfl]
      exact .expr (.minus rfl hn (.expr hpar (D_stop' L _ _ _ _ (hr.mono (by decide))))) (D_stop' L _ _ _ _ hr)
  | @bin o l r h1 h2 ih1 ih2 =>
    intro rest hr
    cases hp with
    | bin h3 h4 h5 h6 =>
    rw [Expr.toksF, Expr.foldNeg]
    simp only [List.append_assoc]
    refine .expr ((ih1 h5).paren h1 h5 _ (by simp [NB])) ?_
    have hd : D L (.loop 0 o.nbp (.bin o (l.foldNeg L.neg) (r.foldNeg L.neg))) rest
        (.bin o (l.foldNeg L.neg) (r.foldNeg L.neg)) rest := D_stop' L _ _ _ _ hr
    cases hwr : o.wrapped with
    | true =>
      simp only [if_true, List.cons_append, List.nil_append]
      have hc := closer_halt hwr
      refine .loopWrap (rightOp_text o) (lbp_nonneg o) (lbp_le_max o) hwr (nb_wrapT _ _)
        (.expr ((ih2 h6).paren h2 h6 _ ?_) (D_stop' L _ _ _ _ (weaker_halt (by omega) hc rest))) hr.opRest.nb hd
      simp [NB]
    | false =>
      simp only [Bool.false_eq_true, if_false, List.nil_append, List.cons_append]
      exact .loopBin (rightOp_text o) (lbp_nonneg o) (lbp_le_max o) hwr (nb_wrapT _ _)
        (.expr ((ih2 h6).paren h2 h6 _ hr.opRest.nb) (D_stop' L _ _ _ _ (hr.mono (rbp_nonneg o)))) hd
  | @arr xs h ih =>
    intro rest hr
    cases hp with
    | arr hp =>
    rw [Expr.toksF, Expr.foldNeg]
    refine .expr ?_ (D_stop' L _ _ _ _ hr)
    cases xs with
    | nil => exact .arr0 rfl hr.opRest.nb
    | cons x xs =>
      simp only [List.append_assoc, List.cons_append, List.nil_append]
      have h1 := readsF_terms (L := L) xs x [] h hp (fun y hy => ih y hy (hp y hy)) rest hr.opRest.nb
      obtain ⟨t, r, h2, h3⟩ := toksF_start (h x (by simp)) (hp x (by simp))
      refine .arr rfl ?_ ?_ h1
      · rw [toksFTerms, List.append_assoc]; exact toksF_nb (h x (by simp)) (hp x (by simp)) _
      · rw [toksFTerms, List.append_assoc, h2]
        simpa using h3.2.1
  | @dict kvs h1 h2 h3 ih =>
    intro rest hr
    cases hp with
    | dict hp =>
    rw [Expr.toksF, Expr.foldNeg]
    refine .expr ?_ (D_stop' L _ _ _ _ hr)
    cases kvs with
    | nil => exact .dict0 rfl hr.opRest.nb
    | cons x xs =>
      simp only [List.append_assoc, List.cons_append, List.nil_append]
      have h4 := readsF_entries (L := L) xs x [] (by simpa using h1) h2 h3 hp (fun y hy => ih y hy (hp y hy)) rest
        hr.opRest.nb
      refine .dict rfl ?_ ?_ h4
      · obtain ⟨k, v⟩ := x; rw [toksFEntries]; simp [NB]
      · obtain ⟨k, v⟩ := x; rw [toksFEntries]; simp

/-! ## When the printer terminates -/

theorem reprFTerms_some {K : Type} {showK : K → List Char} {xs : List (Expr K)}
    (h : ∀ x ∈ xs, ∃ s, x.reprF showK = some s) : ∃ s, reprFTerms showK xs = some s := by
  induction xs with
  | nil => exact ⟨_, rfl⟩
  | cons x xs ih =>
    obtain ⟨s, h1⟩ := h x (by simp)
    obtain ⟨s', h2⟩ := ih (fun y hy => h y (by simp [hy]))
    exact ⟨_, by rw [reprFTerms, h1, h2]; rfl⟩

theorem reprFEntries_some {K : Type} {showK : K → List Char} {xs : List (List Char × Expr K)}
    (h : ∀ x ∈ xs, ∃ s, x.2.reprF showK = some s) : ∃ s, reprFEntries showK xs = some s := by
  induction xs with
  | nil => exact ⟨_, rfl⟩
  | cons x xs ih =>
    obtain ⟨k, v⟩ := x
    obtain ⟨s, h1⟩ := h (k, v) (by simp)
    obtain ⟨s', h2⟩ := ih (fun y hy => h y (by simp [hy]))
    dsimp only at h1
    exact ⟨_, by rw [reprFEntries, h1, h2]; rfl⟩

theorem plain_reprF {K : Type} {showK : K → List Char} {e : Expr K} (h : Plain e) :
    ∃ s, e.reprF showK = some s := by
  induction h with
  | const => exact ⟨_, by rw [Expr.reprF]⟩
  | var => exact ⟨_, by rw [Expr.reprF]⟩
  | un _ _ h _ ih => obtain ⟨s, ih⟩ := ih; exact ⟨_, by rw [Expr.reprF, ih, BP_some h]; rfl⟩
  | bin h h' _ _ ih1 ih2 =>
    obtain ⟨s, ih1⟩ := ih1
    obtain ⟨s', ih2⟩ := ih2
    exact ⟨_, by rw [Expr.reprF, ih1, ih2, BP_some h, BP_some h']; rfl⟩
  | @arr xs _ ih =>
    cases xs with
    | nil => exact ⟨_, by rw [Expr.reprF]⟩
    | cons x xs =>
      obtain ⟨s, h⟩ := reprFTerms_some ih
      exact ⟨_, by rw [Expr.reprF, h]; rfl⟩
  | @dict kvs _ ih =>
    cases kvs with
    | nil => exact ⟨_, by rw [Expr.reprF]⟩
    | cons x xs =>
      obtain ⟨s, h⟩ := reprFEntries_some ih
      exact ⟨_, by rw [Expr.reprF, h]; rfl⟩

theorem reprFTerms_inv {K : Type} {showK : K → List Char} {xs : List (Expr K)} {s : List Char}
    (h : reprFTerms showK xs = some s) : ∀ x ∈ xs, ∃ s, x.reprF showK = some s := by
  induction xs generalizing s with
  | nil => simp
  | cons x xs ih =>
    rw [reprFTerms] at h
    cases hx : x.reprF showK with
    | none => simp [hx] at h
    | some sx =>
      cases hys : reprFTerms showK xs with
      | none => simp [hx, hys] at h
      | some ss =>
        intro y hy
        rcases List.mem_cons.1 hy with rfl | hy
        · exact ⟨_, hx⟩
        · exact ih hys y hy

theorem reprFEntries_inv {K : Type} {showK : K → List Char} {xs : List (List Char × Expr K)} {s : List Char}
    (h : reprFEntries showK xs = some s) : ∀ x ∈ xs, ∃ s, x.2.reprF showK = some s := by
  induction xs generalizing s with
  | nil => simp
  | cons x xs ih =>
    obtain ⟨k, v⟩ := x
    rw [reprFEntries] at h
    cases hx : v.reprF showK with
    | none => simp [hx] at h
    | some sx =>
      cases hys : reprFEntries showK xs with
      | none => simp [hx, hys] at h
      | some ss =>
        intro y hy
        rcases List.mem_cons.1 hy with rfl | hy
        · exact ⟨_, hx⟩
        · exact ih hys y hy

theorem bad_toksFTerms {K : Type} {showK : K → List Char} {xs : List (Expr K)} {x : Expr K} (hx : x ∈ xs)
    (h : Tok.bad ∈ x.toksF showK) : Tok.bad ∈ toksFTerms showK xs := by
  induction xs with
  | nil => simp at hx
  | cons y ys ih =>
    rw [toksFTerms]
    rcases List.mem_cons.1 hx with rfl | hx
    · exact List.mem_append_left _ h
    · refine List.mem_append_right _ ?_
      rw [if_neg (by cases ys <;> simp_all)]
      exact List.mem_cons_of_mem _ (ih hx)

theorem bad_toksFEntries {K : Type} {showK : K → List Char} {xs : List (List Char × Expr K)}
    {x : List Char × Expr K} (hx : x ∈ xs)
    (h : Tok.bad ∈ x.2.toksF showK) : Tok.bad ∈ toksFEntries showK xs := by
  induction xs with
  | nil => simp at hx
  | cons y ys ih =>
    obtain ⟨k, v⟩ := y
    rw [toksFEntries]
    refine List.mem_cons_of_mem _ (List.mem_cons_of_mem _ ?_)
    rcases List.mem_cons.1 hx with rfl | hx
    · exact List.mem_append_left _ h
    · refine List.mem_append_right _ ?_
      rw [if_neg (by cases ys <;> simp_all)]
      exact List.mem_cons_of_mem _ (ih hx)

theorem bad_wrapT {b : Bool} {ts : List Tok} : Tok.bad ∈ wrapT b ts ↔ Tok.bad ∈ ts := by
  cases b <;> simp [wrapT]

theorem plain_of {K : Type} {showK : K → List Char} (e : Expr K) :
    ∀ s, e.reprF showK = some s → Tok.bad ∉ e.toksF showK → Plain e := by
  induction e using Expr.ind with
  | const k => intro s _ _; exact .const
  | var n => intro s _ _; exact .var
  | un o a ih =>
    intro s hs hb
    rw [Expr.reprF] at hs
    rw [Expr.toksF, List.mem_cons, bad_wrapT, not_or] at hb
    cases ha : a.reprF showK with
    | none => simp [ha] at hs
    | some sa =>
      cases hbp : a.BP with
      | none => simp [ha, hbp] at hs
      | some p =>
        refine .un ?_ ?_ (toks_isDict (showK := showK) hbp).1 (ih sa ha hb.2)
        · rintro rfl; simp [UnOp.tok] at hb
        · rintro rfl; simp [UnOp.tok] at hb
  | bin o l r ih1 ih2 =>
    intro s hs hb
    rw [Expr.reprF] at hs
    rw [Expr.toksF] at hb
    simp only [List.mem_append, bad_wrapT, not_or] at hb
    cases hl : l.reprF showK with
    | none => cases hb : l.BP <;> cases hb' : r.BP <;> simp [hl, hb, hb'] at hs
    | some sl =>
      cases hr : r.reprF showK with
      | none => cases hb : l.BP <;> cases hb' : r.BP <;> simp [hl, hr, hb, hb'] at hs
      | some sr =>
        cases hb1 : l.BP with
        | none => simp [hb1] at hs
        | some p =>
          cases hb' : r.BP with
          | none => simp [hb1, hb'] at hs
          | some p' =>
            exact .bin (toks_isDict (showK := showK) hb1).1 (toks_isDict (showK := showK) hb').1
              (ih1 sl hl hb.1.1.1) (ih2 sr hr hb.1.2)
  | arr xs ih =>
    intro s hs hb
    refine .arr fun x hx => ?_
    have hb' : Tok.bad ∉ x.toksF showK := by
      intro h
      refine hb ?_
      rw [Expr.toksF]
      exact List.mem_append_left _ (List.mem_append_right _ (bad_toksFTerms hx h))
    cases xs with
    | nil => simp at hx
    | cons y ys =>
      rw [Expr.reprF] at hs
      cases hys : reprFTerms showK (y :: ys) with
      | none => simp [hys] at hs
      | some ss =>
        obtain ⟨sx, h⟩ := reprFTerms_inv hys x hx
        exact ih x hx sx h hb'
  | dict xs ih =>
    intro s hs hb
    refine .dict fun x hx => ?_
    have hb' : Tok.bad ∉ x.2.toksF showK := by
      intro h
      refine hb ?_
      rw [Expr.toksF]
      exact List.mem_append_left _ (List.mem_append_right _ (bad_toksFEntries hx h))
    cases xs with
    | nil => simp at hx
    | cons y ys =>
      rw [Expr.reprF] at hs
      cases hys : reprFEntries showK (y :: ys) with
      | none => simp [hys] at hs
      | some ss =>
        obtain ⟨sx, h⟩ := reprFEntries_inv hys x hx
        exact ih x hx sx h hb'

theorem foldNegTerms_eq {K : Type} {neg : K → K} {xs : List (Expr K)}
    (h : ∀ x ∈ xs, x.foldNeg neg = x ↔ x.negConst = false) :
    foldNegTerms neg xs = xs ↔ negConstTerms xs = false := by
  induction xs with
  | nil => simp [foldNegTerms, negConstTerms]
  | cons x xs ih =>
    simp only [foldNegTerms, negConstTerms, List.cons.injEq, Bool.or_eq_false_iff, h x (by simp),
      ih (fun y hy => h y (by simp [hy]))]

theorem foldNegEntries_eq {K : Type} {neg : K → K} {xs : List (List Char × Expr K)}
    (h : ∀ x ∈ xs, x.2.foldNeg neg = x.2 ↔ x.2.negConst = false) :
    foldNegEntries neg xs = xs ↔ negConstEntries xs = false := by
  induction xs with
  | nil => simp [foldNegEntries, negConstEntries]
  | cons x xs ih =>
    obtain ⟨k, v⟩ := x
    have h1 := h (k, v) (by simp)
    dsimp only at h1
    simp only [foldNegEntries, negConstEntries, List.cons.injEq, Bool.or_eq_false_iff, Prod.mk.injEq, true_and,
      h1, ih (fun y hy => h y (by simp [hy]))]

theorem foldNeg_eq {K : Type} (L : NumLex K) (e : Expr K) :
    e.foldNeg L.neg = e ↔ e.negConst = false := by
  induction e using Expr.ind with
  | const k => simp [Expr.foldNeg, Expr.negConst]
  | var n => simp [Expr.foldNeg, Expr.negConst]
  | un o a ih =>
    rw [foldNeg_un, Expr.negConst]
    by_cases ho : o = .neg
    · subst ho
      rw [if_pos rfl]
      cases hc : a.isConst with
      | true =>
        cases a <;> simp [Expr.isConst] at hc
        simp [Expr.foldNeg, negate]
      | false =>
        simp only [Bool.and_false, Bool.false_or, ← ih]
        cases hf : a.foldNeg L.neg with
        | const k =>
          simp only [negate, reduceCtorEq, false_iff]
          rintro rfl
          simp [Expr.isConst] at hc
        | _ => simp [negate]
    · rw [if_neg ho]
      simp [ih, ho]
  | bin o l r ih1 ih2 => simp [Expr.foldNeg, Expr.negConst, ih1, ih2]
  | arr xs ih => simpa [Expr.foldNeg, Expr.negConst] using foldNegTerms_eq ih
  | dict xs ih => simpa [Expr.foldNeg, Expr.negConst] using foldNegEntries_eq ih

/-! ## Theorems -/

/-- **C65**. With `Force_parenthesis`, every expression that can be written, has no dictionary as an operand
and no `|..|` prints and reads back as itself, up to the folding of negated constants. -/
theorem C65_reads {K : Type} (L : NumLex K) (showK : K → List Char) (e : Expr K)
    (h : Writable L showK e) (hp : Plain e) :
    ∃ s, e.reprF showK = some s ∧ parse L s = .ok (e.foldNeg L.neg) := by
  obtain ⟨s, h1⟩ := plain_reprF (showK := showK) hp
  refine ⟨s, h1, ?_⟩
  have h5 := readsF h hp [] weaker_nil
  rw [List.append_nil] at h5
  have hb : Tok.bad ∉ e.toksF showK := by
    obtain ⟨u, hu, hg⟩ := D_sound L h5
    rw [List.append_nil] at hu
    rw [hu]
    exact gram_no_bad L hg
  rcases reprF_lexes h s h1 with ⟨-, h2⟩ | ⟨h2, -⟩
  · have h3 := h2 [] sep_nil
    simp only [List.append_nil, lex_nil] at h3
    rw [parse_ok_iff, h3]
    have h4 := toksF_nb h hp []
    simp only [List.append_nil] at h4
    exact ⟨h4, h5⟩
  · exact absurd h2 hb

/-- The rest: if the printer terminates and the text is accepted at all, the expression is one of those. -/
theorem C65_accepted {K : Type} (L : NumLex K) (showK : K → List Char) (e e' : Expr K) (s : List Char)
    (h : Writable L showK e) (hs : e.reprF showK = some s) (hp : parse L s = .ok e') :
    Plain e ∧ e' = e.foldNeg L.neg := by
  have h1 : Plain e := by
    refine plain_of e s hs fun hb => ?_
    rcases reprF_lexes h s hs with ⟨h2, -⟩ | ⟨-, h2⟩
    · exact h2 hb
    · have h3 := h2 [] sep_nil
      rw [List.append_nil] at h3
      obtain ⟨-, h4⟩ := (parse_ok_iff L s e').1 hp
      obtain ⟨u, hu, hg⟩ := D_sound L h4
      rw [List.append_nil] at hu
      rw [hu] at h3
      exact gram_no_bad L hg h3
  refine ⟨h1, ?_⟩
  obtain ⟨s', h2, h3⟩ := C65_reads L showK e h h1
  rw [hs] at h2
  cases h2
  rw [hp] at h3
  cases h3
  rfl

/-- **C65**, exactly: the round trip gives the same tree for an expression that can be written if and only
if no dictionary is an operand, there is no `|..|` and no constant is directly negated. -/
theorem C65_roundtrip_iff {K : Type} (L : NumLex K) (showK : K → List Char) (e : Expr K)
    (h : Writable L showK e) :
    (∃ s, e.reprF showK = some s ∧ parse L s = .ok e) ↔ Plain e ∧ e.negConst = false := by
  constructor
  · rintro ⟨s, h1, h2⟩
    obtain ⟨h3, h4⟩ := C65_accepted L showK e e s h h1 h2
    exact ⟨h3, (foldNeg_eq L e).1 h4.symm⟩
  · rintro ⟨h1, h2⟩
    have h3 := C65_reads L showK e h h1
    rwa [(foldNeg_eq L e).2 h2] at h3

/-- Forced parentheses only help: whatever reads back from the default output reads back from this one. -/
theorem C65_extends_default {K : Type} (L : NumLex K) (showK : K → List Char) (e : Expr K)
    (h : Printable L showK true e) : ∃ s, e.reprF showK = some s ∧ parse L s = .ok e := by
  rw [C65_roundtrip_iff L showK e (printable_writable h)]
  generalize true = b at h
  induction h with
  | const => exact ⟨.const, rfl⟩
  | negc => exact ⟨.const, rfl⟩
  | var => exact ⟨.var, rfl⟩
  | @fn _ o a s h1 h2 _ ih =>
    refine ⟨.un ?_ ?_ h2 ih.1, ?_⟩
    · rintro rfl; simp [fnName] at h1
    · rintro rfl; simp [fnName] at h1
    · cases o <;> simp_all [fnName, Expr.negConst]
  | neg h1 h2 _ ih => exact ⟨.un (by simp) (by simp) h1 ih.1, by simp [Expr.negConst, h2, ih.2]⟩
  | bin h1 h2 _ _ _ _ ih1 ih2 => exact ⟨.bin h1 h2 ih1.1 ih2.1, by simp [Expr.negConst, ih1.2, ih2.2]⟩
  | @arr _ xs h ih =>
    refine ⟨.arr fun x hx => (ih x hx).1, ?_⟩
    rw [Expr.negConst]
    have := fun x hx => (ih x hx).2
    clear ih h
    induction xs with
    | nil => rfl
    | cons x xs ih => simp [negConstTerms, this x (by simp), ih (fun y hy => this y (by simp [hy]))]
  | @dict _ xs h1 h2 h ih =>
    refine ⟨.dict fun x hx => (ih x hx).1, ?_⟩
    rw [Expr.negConst]
    have := fun x hx => (ih x hx).2
    clear ih h h1 h2
    induction xs with
    | nil => rfl
    | cons x xs ih =>
      obtain ⟨k, v⟩ := x
      have h1 := this (k, v) (by simp)
      dsimp only at h1
      simp [negConstEntries, h1, ih (fun y hy => this y (by simp [hy]))]

/-- Two expressions with the same text are equal (up to the folding of negated constants). -/
theorem C65_injective {K : Type} (L : NumLex K) (showK : K → List Char) (e e' : Expr K)
    (h : Writable L showK e) (h' : Writable L showK e') (hp : Plain e) (hp' : Plain e')
    (heq : e.reprF showK = e'.reprF showK) : e.foldNeg L.neg = e'.foldNeg L.neg := by
  obtain ⟨s, h1, h2⟩ := C65_reads L showK e h hp
  obtain ⟨s', h3, h4⟩ := C65_reads L showK e' h' hp'
  rw [h1, h3] at heq
  cases heq
  rw [h2] at h4
  simpa using h4

/-- The folding changes no value, so reading the text back never changes the value of an arithmetic
expression (the default output does, see `C02_power_fails`). -/
theorem C65_same_value (L : NumLex ℝ) (showK : ℝ → List Char) (hneg : ∀ x, L.neg x = -x) (e e' : Expr ℝ)
    (s : List Char) (h : Writable L showK e) (hs : e.reprF showK = some s) (hp : parse L s = .ok e')
    (ρ : List Char → ℝ) : e'.eval ρ = e.eval ρ := by
  obtain ⟨-, rfl⟩ := C65_accepted L showK e e' s h hs hp
  clear h hs hp
  induction e using Expr.ind with
  | const k => simp [Expr.foldNeg]
  | var n => simp [Expr.foldNeg]
  | un o a ih =>
    rw [foldNeg_un, Expr.eval, ← ih]
    by_cases ho : o = .neg
    · subst ho
      rw [if_pos rfl]
      cases hf : a.foldNeg L.neg <;> simp [negate, Expr.eval, unVal, hneg]
    · rw [if_neg ho, Expr.eval]
  | bin o l r ih1 ih2 => rw [Expr.foldNeg, Expr.eval, Expr.eval, ih1, ih2]
  | arr xs ih => simp [Expr.foldNeg, Expr.eval]
  | dict xs ih => simp [Expr.foldNeg, Expr.eval]

/-- The hypotheses hold for the trees on which the default output fails: `(x^y)^x`, with the text
`((x)^(y))^(x)`, ... -/
example : Writable textNum id (.bin .pow (.bin .pow (.var ['x']) (.var ['y'])) (.var ['x'])) ∧
    Plain (.bin .pow (.bin .pow (.var ['x']) (.var ['y'])) (.var ['x']) : Expr (List Char)) ∧
    Expr.reprF id (.bin .pow (.bin .pow (.var ['x']) (.var ['y'])) (.var ['x']))
      = some "((x)^(y))^(x)".toList :=
  ⟨.bin (.bin (.var isName_x) (.var isName_y)) (.var isName_x),
    .bin rfl rfl (.bin rfl rfl .var .var) .var, by decide⟩

/-- ... and `x*-2*y`, with the text `((x)*(-2))*(y)`. -/
example : (∃ s, (Expr.bin .mul (.bin .mul (.var ['x']) (.const (true, ['2']))) (.var ['y'])).reprF signShow = some s ∧
      parse signNum s = .ok (.bin .mul (.bin .mul (.var ['x']) (.const (true, ['2']))) (.var ['y']))) ∧
    Expr.reprF signShow (.bin .mul (.bin .mul (.var ['x']) (.const (true, ['2']))) (.var ['y']))
      = some "((x)*(-2))*(y)".toList := by
  refine ⟨(C65_roundtrip_iff _ _ _ (.bin (.bin (.var isName_x) (.const (.inr negConst_2))) (.var isName_y))).2
    ⟨.bin rfl rfl (.bin rfl rfl .var .const) .var, rfl⟩, by decide⟩

/-- A negated constant: `-(2)` is read as the constant `-2`. -/
theorem C65_negated_constant {K : Type} (L : NumLex K) (showK : K → List Char) (k : K)
    (h : PosConst L showK k) :
    ∃ s, (Expr.un .neg (.const k)).reprF showK = some s ∧ parse L s = .ok (.const (L.neg k)) := by
  simpa [Expr.foldNeg] using C65_reads L showK _ (.un (.const (.inl h))) (.un (by simp) (by simp) rfl .const)

/-- `|e|` and `±|e|` are never read back, for any `e`. -/
theorem C65_abs_rejected {K : Type} (L : NumLex K) (showK : K → List Char) (e e' : Expr K) (o : UnOp)
    (ho : o = .abs ∨ o = .arbsign) (h : Writable L showK e) (s : List Char)
    (hs : (Expr.un o e).reprF showK = some s) : parse L s ≠ .ok e' := by
  intro hp
  obtain ⟨h1, -⟩ := C65_accepted L showK _ e' s (.un h) hs hp
  cases h1 with
  | un h2 h3 => rcases ho with rfl | rfl <;> simp_all

/-- A dictionary as an operand: the printer does not terminate. -/
theorem C65_dict_operand {K : Type} (showK : K → List Char) (o : UnOp) (b : BinOp)
    (kvs : List (List Char × Expr K)) (e : Expr K) :
    (Expr.un o (.dict kvs)).reprF showK = none ∧ (Expr.bin b (.dict kvs) e).reprF showK = none ∧
      (Expr.bin b e (.dict kvs)).reprF showK = none := by
  refine ⟨?_, ?_, ?_⟩ <;> rw [Expr.reprF]
  · cases (Expr.dict kvs).reprF showK <;> simp [Expr.BP]
  · simp [Expr.BP]
  · cases e.BP <;> simp [Expr.BP]

end Stator
