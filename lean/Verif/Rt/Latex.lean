import Verif.Rt.RoundTripProps
import Verif.Ds.Strings

/-!
# C66: LaTeX output

`repr<ReprConfig<Latex_output>>` (the Python method `latex()`). The property is that the text is well-formed
TeX mathematics. It is false in the code; `C66_wellformed_iff` says for exactly which expressions it holds.
-/

namespace Stator

/-! ## Model -/

/-- `Op::l_latex_repr()` of the binary operators. models: binary_ops.hpp:71,92,112,132,148,176,194;
units.hpp:52; uncertainty.hpp:52. -/
def BinOp.llatex : BinOp → List Char
  | .div => ['\\', 'f', 'r', 'a', 'c', '{']
  | _ => []

/-- `Op::latex_repr()`. models: binary_ops.hpp:72,93,113,133,149,177,195; units.hpp:53; uncertainty.hpp:53. -/
def BinOp.latex : BinOp → List Char
  | .eq => ['=']
  | .add => ['+']
  | .sub => ['-']
  | .mul => ['\\', 't', 'i', 'm', 'e', 's', ' ']
  | .div => ['}', '{']
  | .pow => ['^', '{']
  | .access => ['\\', 'l', 'e', 'f', 't', '[']
  | .units => ['\\', 'l', 'e', 'f', 't', '\\', '{']
  | .uncert => ['\\', 'p', 'm']

/-- `Op::r_latex_repr()` of the binary operators. models: binary_ops.hpp:73,94,114,134,150,178,196;
units.hpp:54; uncertainty.hpp:54. -/
def BinOp.rlatex : BinOp → List Char
  | .div => ['}']
  | .pow => ['}']
  | .access => ['\\', 'r', 'i', 'g', 'h', 't', ']']
  | .units => ['\\', 'r', 'i', 'g', 'h', 't', '\\', '}']
  | _ => []

/-- `Op::l_latex_repr()` of the unary operators. models: unary_ops.hpp:49,59,69,79,89,99,112. -/
def UnOp.llatex : UnOp → List Char
  | .sin => ['\\', 's', 'i', 'n', ' ']
  | .cos => ['\\', 'c', 'o', 's', ' ']
  | .exp => ['\\', 'm', 'a', 't', 'h', 'r', 'm', '{', 'e', '}', '^', '{']
  | .log => ['\\', 'l', 'n', ' ']
  | .abs => ['\\', 'l', 'e', 'f', 't', '|']
  | .arbsign => ['\\', 'p', 'm', '\\', 'l', 'e', 'f', 't', '|']
  | .neg => ['-']

/-- `Op::r_latex_repr()` of the unary operators. models: unary_ops.hpp:50,60,70,80,90,100,113. -/
def UnOp.rlatex : UnOp → List Char
  | .exp => ['}']
  | .log => ['}']
  | .abs => ['\\', 'r', 'i', 'g', 'h', 't', '|']
  | .arbsign => ['\\', 'r', 'i', 'g', 'h', 't', '|']
  | _ => []

/-- `paren_wrap` if `b`. models: binary_ops.hpp:430-433. -/
def wrapL (b : Bool) (s : List Char) : List Char :=
  if b then ['\\', 'l', 'e', 'f', 't', '('] ++ s ++ ['\\', 'r', 'i', 'g', 'h', 't', ')'] else s

/-- The text of a number, from the text `s` that `printf` makes of it. (`search_replace` ends for a search
text that is not empty, so the default values are not used.) models: repr.hpp:60-74. -/
def latexNum (s : List Char) : List Char :=
  let fin := (Ds.searchReplace (s.length + 1) s ['e', '+'] ['\\', 't', 'i', 'm', 'e', 's', '1', '0', '^', '{']).getD (s, 0)
  if fin.2 ≠ 0 then fin.1 ++ ['}']
  else
    let fin := (Ds.searchReplace (s.length + 1) s ['e'] ['\\', 't', 'i', 'm', 'e', 's', '1', '0', '^', '{']).getD (s, 0)
    if fin.2 ≠ 0 then fin.1 ++ ['}'] else s

mutual

/-- `repr<ReprConfig<Latex_output>>(const Expr&)`; `none`: the printer does not terminate (binding power of a
dictionary). models: binary_ops.hpp:448-467, unary_ops.hpp:193-208, array.hpp:382-394, dict.hpp:92-104,
runtime.hpp:1128-1134 and 1168-1194, with `Config::Latex_output` true; core.cpp:75. -/
def Expr.latex {K : Type} (showK : K → List Char) : Expr K → Option (List Char)
  | .const k => some (latexNum (showK k))
  | .var n => some n
  | .un o a => do
    let s ← a.latex showK
    let abp ← a.BP
    some (o.llatex ++ wrapL (decide (abp.1 < o.bp)) s ++ o.rlatex)
  | .bin o l r => do
    let lbp ← l.BP
    let rbp ← r.BP
    let ls ← l.latex showK
    let rs ← r.latex showK
    some (o.llatex ++ wrapL (decide (lbp.2 < o.lbp)) ls ++ o.latex
      ++ wrapL (decide (o.rbp > rbp.1) && !o.wrapped) rs ++ o.rlatex)
  | .arr [] => some (['\\', 'l', 'e', 'f', 't', '['] ++ ['\\', 'r', 'i', 'g', 'h', 't', ']'])
  | .arr (x :: xs) => do
    let s ← latexTerms showK (x :: xs)
    some (dropTwo (['\\', 'l', 'e', 'f', 't', '['] ++ s) ++ ['\\', 'r', 'i', 'g', 'h', 't', ']'])
  | .dict [] => some (['\\', 'l', 'e', 'f', 't', '\\', '{'] ++ ['\\', 'r', 'i', 'g', 'h', 't', '\\', '}'])
  | .dict (p :: kvs) => do
    let s ← latexEntries showK (p :: kvs)
    some (dropTwo (['\\', 'l', 'e', 'f', 't', '\\', '{'] ++ s) ++ ['\\', 'r', 'i', 'g', 'h', 't', '\\', '}'])

/-- The loop over the elements of an array. models: array.hpp:390-391. -/
def latexTerms {K : Type} (showK : K → List Char) : List (Expr K) → Option (List Char)
  | [] => some []
  | x :: xs => do
    let s ← x.latex showK
    let ss ← latexTerms showK xs
    some (s ++ [',', ' '] ++ ss)

/-- The loop over the entries of a dictionary. models: dict.hpp:100-101. -/
def latexEntries {K : Type} (showK : K → List Char) : List (List Char × Expr K) → Option (List Char)
  | [] => some []
  | (k, v) :: kvs => do
    let s ← v.latex showK
    let ss ← latexEntries showK kvs
    some (k ++ [':'] ++ s ++ [',', ' '] ++ ss)

end

/-! ## Specification: TeX mathematics

The part of the rules of TeX that matters here. -/

/-- Tokens of TeX: characters and control sequences. -/
inductive TexTok
  | ch (c : Char)
  | cs (w : List Char)
  deriving DecidableEq

/-- The tokens of a text, in mathematics mode: a backslash and all the letters that follow, or a backslash and
one other character, is a control sequence; blanks are ignored. The first argument holds the letters of the
control sequence being read. -/
def texGo : Option (List Char) → List Char → List TexTok
  | none, [] => []
  | some w, [] => [.cs w]
  | none, c :: s =>
    if c = '\\' then texGo (some []) s else if c = ' ' then texGo none s else .ch c :: texGo none s
  | some w, c :: s =>
    if isAlpha c then texGo (some (w ++ [c])) s
    else if w = [] then .cs [c] :: texGo none s
    else if c = '\\' then .cs w :: texGo (some []) s
    else if c = ' ' then .cs w :: texGo none s
    else .cs w :: .ch c :: texGo none s

def texToks (s : List Char) : List TexTok := texGo none s

/-- What a closing brace or a `\right` ends. -/
inductive Frame
  | group | sup | num | den | delim
  deriving DecidableEq

/-- What is expected next: anything (`sup`: what was just read has a superscript already), an opening brace
for a group of the given kind, or a delimiter. -/
inductive Mode
  | normal (sup : Bool)
  | brace (f : Frame)
  | open
  | close
  deriving DecidableEq

def isDelim (t : TexTok) : Bool :=
  t ∈ [.ch '(', .ch ')', .ch '[', .ch ']', .ch '|', .cs ['{'], .cs ['}']]

/-- Characters with a special meaning. -/
def texSpecial (c : Char) : Bool := c ∈ ['\\', '{', '}', '^', '_', '&', '#', '$', '%', '~', ' ']

/-- Control words without an argument. -/
def texWords : List (List Char) := [['t', 'i', 'm', 'e', 's'], ['p', 'm'], ['s', 'i', 'n'], ['c', 'o', 's'], ['l', 'n']]

/-- One token. `none`: an error ("double superscript", "extra }", "undefined control sequence", ...). -/
def texStep : List Frame × Mode → TexTok → Option (List Frame × Mode)
  | (st, .brace f), t => if t = .ch '{' then some (f :: st, .normal false) else none
  | (st, .open), t => if isDelim t then some (.delim :: st, .normal false) else none
  | (st, .close), t =>
    match st with
    | .delim :: st => if isDelim t then some (st, .normal false) else none
    | _ => none
  | (st, .normal b), .ch c =>
    if c = '{' then some (.group :: st, .normal false)
    else if c = '}' then
      match st with
      | .group :: st => some (st, .normal false)
      | .sup :: st => some (st, .normal true)
      | .num :: st => some (st, .brace .den)
      | .den :: st => some (st, .normal false)
      | _ => none
    else if c = '^' then (if b then none else some (st, .brace .sup))
    else if texSpecial c then none
    else some (st, .normal false)
  | (st, .normal _), .cs w =>
    if w ∈ texWords then some (st, .normal false)
    else if w = ['l', 'e', 'f', 't'] then some (st, .open)
    else if w = ['r', 'i', 'g', 'h', 't'] then some (st, .close)
    else if w = ['f', 'r', 'a', 'c'] then some (st, .brace .num)
    else if w = ['m', 'a', 't', 'h', 'r', 'm'] then some (st, .brace .group)
    else none

def texRun : List Frame × Mode → List TexTok → Option (List Frame × Mode)
  | s, [] => some s
  | s, t :: ts => (texStep s t).bind fun s => texRun s ts

/-- The text is well-formed TeX mathematics. -/
def TexValid (s : List Char) : Prop := ∃ b, texRun ([], .normal false) (texToks s) = some ([], .normal b)

instance (s : List Char) : Decidable (TexValid s) :=
  decidable_of_iff (texRun ([], .normal false) (texToks s) = some ([], .normal false) ∨
    texRun ([], .normal false) (texToks s) = some ([], .normal true))
    ⟨fun h => h.elim (fun h => ⟨_, h⟩) fun h => ⟨_, h⟩, fun ⟨b, h⟩ => by cases b <;> simp [h]⟩

/-- A text that `printf` can make of a number: characters without special meaning and perhaps an exponent. This
includes negative numbers and the texts `inf` and `nan`. -/
def NumText (s : List Char) (hasExp : Bool) : Prop :=
  ∃ m ep, s = m ++ ep ∧ m ≠ [] ∧ (∀ c ∈ m, c ≠ 'e' ∧ texSpecial c = false) ∧
    if hasExp then ∃ sg ds, ep = 'e' :: (sg ++ ds) ∧ (sg = [] ∨ sg = ['+'] ∨ sg = ['-']) ∧ Digits ds
    else ep = []

/-- Names are names and numbers have the texts of numbers. -/
inductive Texable {K : Type} (showK : K → List Char) : Expr K → Prop
  | const {k b} : NumText (showK k) b → Texable showK (.const k)
  | var {n} : n ≠ [] → (∀ c ∈ n, isAlpha c = true) → Texable showK (.var n)
  | un {o a} : Texable showK a → Texable showK (.un o a)
  | bin {o l r} : Texable showK l → Texable showK r → Texable showK (.bin o l r)
  | arr {xs} : (∀ x ∈ xs, Texable showK x) → Texable showK (.arr xs)
  | dict {kvs : List (List Char × Expr K)} : (∀ p ∈ kvs, p.1 ≠ [] ∧ ∀ c ∈ p.1, isAlpha c = true) →
      (∀ p ∈ kvs, Texable showK p.2) → Texable showK (.dict kvs)

/-- The printed text ends with a superscript that is not inside brackets. -/
def Expr.endsSup {K : Type} (showK : K → List Char) : Expr K → Bool
  | .const k => 'e' ∈ showK k
  | .var _ => false
  | .un o a =>
    match o with
    | .exp => true
    | .abs => false
    | .arbsign => false
    | _ => !parenU o a && a.endsSup showK
  | .bin o _ r =>
    match o with
    | .pow => true
    | .div => false
    | .access => false
    | .units => false
    | _ => !parenR o r && r.endsSup showK
  | .arr _ => false
  | .dict _ => false

/-- The printed text begins with a letter. -/
def Expr.startsLetter {K : Type} (showK : K → List Char) (e : Expr K) : Prop :=
  ∃ c s, e.latex showK = some (c :: s) ∧ isAlpha c = true

/-- The expressions whose LaTeX text is well-formed: no logarithm; the base of a power, if it is not in
parentheses, does not end with a superscript itself; what follows `±`, if it is not in parentheses, does not
begin with a letter. -/
inductive TexOk {K : Type} (showK : K → List Char) : Expr K → Prop
  | const {k} : TexOk showK (.const k)
  | var {n} : TexOk showK (.var n)
  | un {o a} : o ≠ .log → TexOk showK a → TexOk showK (.un o a)
  | bin {o l r} : (o = .pow → parenL o l = true ∨ l.endsSup showK = false) →
      (o = .uncert → parenR o r = true ∨ ¬ r.startsLetter showK) →
      TexOk showK l → TexOk showK r → TexOk showK (.bin o l r)
  | arr {xs} : (∀ x ∈ xs, TexOk showK x) → TexOk showK (.arr xs)
  | dict {kvs : List (List Char × Expr K)} : (∀ p ∈ kvs, TexOk showK p.2) → TexOk showK (.dict kvs)

/-! ## Lemmas: tokens -/

theorem texGo_some {w : List Char} (hw : w ≠ []) (s : List Char) :
    ∃ v, texGo (some w) s = .cs (w ++ s.takeWhile isAlpha) :: v := by
  induction s generalizing w with
  | nil => exact ⟨_, by simp [texGo]; rfl⟩
  | cons c s ih =>
    rw [texGo]
    by_cases h : isAlpha c = true
    · obtain ⟨v, hv⟩ := ih (w := w ++ [c]) (by simp)
      exact ⟨v, by simp [h, hv]⟩
    · rw [if_neg h, if_neg hw]
      have : (c :: s).takeWhile isAlpha = [] := by simp [h]
      rw [this, List.append_nil]
      split
      · exact ⟨_, rfl⟩
      · split <;> exact ⟨_, rfl⟩

/-- After a control word, with something that is not a letter. -/
theorem texGo_word {w s : List Char} (hw : w ≠ []) (hs : ∀ c, s.head? = some c → isAlpha c = false) :
    texGo (some w) s = .cs w :: texGo none s := by
  cases s with
  | nil => rfl
  | cons c s =>
    have := hs c rfl
    simp only [texGo, this, Bool.false_eq_true, if_false, hw]
    split
    · rfl
    · split <;> rfl

theorem alpha_plain {c : Char} (h : isAlpha c = true) : texSpecial c = false := by
  by_contra hc
  simp only [Bool.not_eq_false, texSpecial, decide_eq_true_eq, List.mem_cons, List.not_mem_nil, or_false] at hc
  rcases hc with rfl | rfl | rfl | rfl | rfl | rfl | rfl | rfl | rfl | rfl | rfl <;> revert h <;> decide

theorem digit_plain {c : Char} (h : isDigit c = true) : texSpecial c = false := by
  by_contra hc
  simp only [Bool.not_eq_false, texSpecial, decide_eq_true_eq, List.mem_cons, List.not_mem_nil, or_false] at hc
  rcases hc with rfl | rfl | rfl | rfl | rfl | rfl | rfl | rfl | rfl | rfl | rfl <;> revert h <;> decide

theorem plain_ne {c : Char} (h : texSpecial c = false) :
    c ≠ '\\' ∧ c ≠ '{' ∧ c ≠ '}' ∧ c ≠ '^' ∧ c ≠ ' ' := by
  refine ⟨?_, ?_, ?_, ?_, ?_⟩ <;> rintro rfl <;> revert h <;> decide

/-- The text is read completely, in any context, and leaves the flag `b`. -/
def TexTo (s : List Char) (b : Bool) : Prop :=
  ∀ st fl rest, texRun (st, .normal fl) (texToks (s ++ rest)) = texRun (st, .normal b) (texToks rest)

/-- The text leads to an error in any context. -/
def TexFails (s : List Char) : Prop :=
  ∀ st fl rest, texRun (st, .normal fl) (texToks (s ++ rest)) = none

theorem run_plain1 {c : Char} (h : texSpecial c = false) (st : List Frame) (fl : Bool) (rest : List Char) :
    texRun (st, .normal fl) (texToks (c :: rest)) = texRun (st, .normal false) (texToks rest) := by
  obtain ⟨h1, h2, h3, h4, h5⟩ := plain_ne h
  have : texToks (c :: rest) = .ch c :: texToks rest := by simp [texToks, texGo, h1, h5]
  rw [this, texRun]
  simp [texStep, h2, h3, h4, h]

theorem texTo_plain {s : List Char} (hs : s ≠ []) (h : ∀ c ∈ s, texSpecial c = false) : TexTo s false := by
  induction s with
  | nil => exact absurd rfl hs
  | cons c s ih =>
    intro st fl rest
    rw [List.cons_append, run_plain1 (h c (by simp))]
    cases s with
    | nil => rfl
    | cons d s => exact ih (by simp) (fun x hx => h x (by simp [hx])) st false rest

theorem TexTo.append {s t : List Char} {b c : Bool} (h : TexTo s b) (h' : TexTo t c) : TexTo (s ++ t) c := by
  intro st fl rest
  rw [List.append_assoc, h, h']

theorem TexTo.fails {s t : List Char} {b : Bool} (h : TexTo s b) (h' : TexFails t) : TexFails (s ++ t) := by
  intro st fl rest
  rw [List.append_assoc, h, h']

theorem TexFails.append {s : List Char} (h : TexFails s) (t : List Char) : TexFails (s ++ t) := by
  intro st fl rest
  rw [List.append_assoc, h]

/-- A text that can be enclosed: read completely or failing. -/
theorem TexTo.paren {s : List Char} {b : Bool} (h : TexTo s b) : TexTo (['\\', 'l', 'e', 'f', 't', '('] ++ s ++ ['\\', 'r', 'i', 'g', 'h', 't', ')']) false := by
  intro st fl rest
  have h1 : ∀ r, texRun (st, .normal fl) (texToks (['\\', 'l', 'e', 'f', 't', '('] ++ r)) = texRun (.delim :: st, .normal false) (texToks r) :=
    fun _ => rfl
  have h2 : ∀ f, texRun (.delim :: st, .normal f) (texToks (['\\', 'r', 'i', 'g', 'h', 't', ')'] ++ rest)) = texRun (st, .normal false) (texToks rest) :=
    fun _ => rfl
  rw [List.append_assoc, List.append_assoc, h1, h, h2]

theorem TexFails.paren {s : List Char} (h : TexFails s) : TexFails (['\\', 'l', 'e', 'f', 't', '('] ++ s ++ ['\\', 'r', 'i', 'g', 'h', 't', ')']) := by
  intro st fl rest
  have h1 : ∀ r, texRun (st, .normal fl) (texToks (['\\', 'l', 'e', 'f', 't', '('] ++ r)) = texRun (.delim :: st, .normal false) (texToks r) :=
    fun _ => rfl
  rw [List.append_assoc, List.append_assoc, h1, h]

theorem TexTo.wrap {s : List Char} {b : Bool} (h : TexTo s b) (w : Bool) : TexTo (wrapL w s) (!w && b) := by
  cases w with
  | false => simpa [wrapL] using h
  | true => simpa [wrapL] using h.paren

theorem TexFails.wrap {s : List Char} (h : TexFails s) (w : Bool) : TexFails (wrapL w s) := by
  cases w with
  | false => simpa [wrapL] using h
  | true => simpa [wrapL] using h.paren

/-! ## Lemmas: numbers -/

theorem run_plains {s : List Char} (h : ∀ c ∈ s, texSpecial c = false) (st : List Frame) (rest : List Char) :
    texRun (st, .normal false) (texToks (s ++ rest)) = texRun (st, .normal false) (texToks rest) := by
  cases s with
  | nil => rfl
  | cons c s => exact texTo_plain (by simp) h st false rest

theorem replaced_one {m x pre post p : List Char} (hm : 'e' ∉ m) (hx : 'e' ∉ x) (hpre : pre = 'e' :: p) (hp : 'e' ∉ p) :
    Ds.Replaced pre post (m ++ pre ++ x) (m ++ post ++ x) 1 := by
  subst hpre
  refine .next m x x 0 ?_ (.none x ?_)
  · intro a' b' h
    simp only [List.append_assoc, List.cons_append] at h
    have h2 := (List.append_cons_inj_of_notMem (a₁ := 'e') (a₂ := 'e') (x₂ := a') (z₂ := p ++ b') hm
      (by simp [hp, hx])).1 h
    rw [h2.1]
  · rintro ⟨a, b, rfl⟩
    simp at hx

theorem latexNum_none {s : List Char} (h : 'e' ∉ s) : latexNum s = s := by
  have h1 : Ds.searchReplace (s.length + 1) s ['e', '+'] ['\\', 't', 'i', 'm', 'e', 's', '1', '0', '^', '{'] = some (s, 0) :=
    (Ds.C44_unique _ _ _ _ _ (by simp) _ (by omega)).2 (.none s (by rintro ⟨a, b, rfl⟩; simp at h))
  have h2 : Ds.searchReplace (s.length + 1) s ['e'] ['\\', 't', 'i', 'm', 'e', 's', '1', '0', '^', '{'] = some (s, 0) :=
    (Ds.C44_unique _ _ _ _ _ (by simp) _ (by omega)).2 (.none s (by rintro ⟨a, b, rfl⟩; simp at h))
  simp [latexNum, h1, h2]

theorem latexNum_plus {m x : List Char} (hm : 'e' ∉ m) (hx : 'e' ∉ x) :
    latexNum (m ++ ['e', '+'] ++ x) = m ++ ['\\', 't', 'i', 'm', 'e', 's', '1', '0', '^', '{'] ++ x ++ ['}'] := by
  have h1 : Ds.searchReplace ((m ++ ['e', '+'] ++ x).length + 1) (m ++ ['e', '+'] ++ x) ['e', '+'] ['\\', 't', 'i', 'm', 'e', 's', '1', '0', '^', '{']
      = some (m ++ ['\\', 't', 'i', 'm', 'e', 's', '1', '0', '^', '{'] ++ x, 1) :=
    (Ds.C44_unique _ _ _ _ _ (by simp) _ (by omega)).2 (replaced_one hm hx rfl (by simp))
  unfold latexNum
  rw [h1]
  rfl

theorem latexNum_other {m x : List Char} (hm : 'e' ∉ m) (hx : 'e' ∉ x) (hp : x.head? ≠ some '+') :
    latexNum (m ++ ['e'] ++ x) = m ++ ['\\', 't', 'i', 'm', 'e', 's', '1', '0', '^', '{'] ++ x ++ ['}'] := by
  have h0 : Ds.searchReplace ((m ++ ['e'] ++ x).length + 1) (m ++ ['e'] ++ x) ['e', '+'] ['\\', 't', 'i', 'm', 'e', 's', '1', '0', '^', '{']
      = some (m ++ ['e'] ++ x, 0) := by
    refine (Ds.C44_unique _ _ _ _ _ (by simp) _ (by omega)).2 (.none _ ?_)
    rintro ⟨a, b, h⟩
    simp only [List.append_assoc, List.cons_append, List.nil_append] at h
    have h2 := (List.append_cons_inj_of_notMem (a₁ := 'e') (a₂ := 'e') (x₂ := a) (z₂ := '+' :: b) hm hx).1 h
    rw [h2.2.2] at hp
    simp at hp
  have h1 : Ds.searchReplace ((m ++ ['e'] ++ x).length + 1) (m ++ ['e'] ++ x) ['e'] ['\\', 't', 'i', 'm', 'e', 's', '1', '0', '^', '{']
      = some (m ++ ['\\', 't', 'i', 'm', 'e', 's', '1', '0', '^', '{'] ++ x, 1) :=
    (Ds.C44_unique _ _ _ _ _ (by simp) _ (by omega)).2 (replaced_one hm hx rfl (by simp))
  unfold latexNum
  rw [h0, h1]
  rfl

/-- The text of a number. -/
theorem latexNum_cases {s : List Char} {b : Bool} (h : NumText s b) :
    (b = false ∧ latexNum s = s ∧ s ≠ [] ∧ 'e' ∉ s ∧ ∀ c ∈ s, texSpecial c = false) ∨
    (b = true ∧ 'e' ∈ s ∧ ∃ m x, latexNum s = m ++ ['\\', 't', 'i', 'm', 'e', 's', '1', '0', '^', '{'] ++ x ++ ['}'] ∧ m ≠ [] ∧
      (∀ c ∈ m, texSpecial c = false) ∧ ∀ c ∈ x, texSpecial c = false) := by
  obtain ⟨m, ep, rfl, hm0, hm, h⟩ := h
  have hme : 'e' ∉ m := fun h => (hm _ h).1 rfl
  have hms : ∀ c ∈ m, texSpecial c = false := fun c hc => (hm c hc).2
  cases b with
  | false =>
    simp only [Bool.false_eq_true, if_false] at h
    subst h
    rw [List.append_nil]
    exact .inl ⟨rfl, latexNum_none hme, hm0, hme, hms⟩
  | true =>
    simp only [if_true] at h
    obtain ⟨sg, ds, rfl, hsg, hds⟩ := h
    have hde : 'e' ∉ ds := fun h => absurd (hds _ h) (by decide)
    have hdp : ∀ c ∈ ds, texSpecial c = false := fun c hc => digit_plain (hds c hc)
    refine .inr ⟨rfl, by simp, m, ?_⟩
    rcases hsg with rfl | rfl | rfl
    · refine ⟨ds, ?_, hm0, hms, hdp⟩
      have := latexNum_other hme hde (by
        intro h
        cases ds with
        | nil => simp at h
        | cons d ds => simp at h; exact absurd (hds d (by simp)) (by rw [h]; decide))
      simpa using this
    · refine ⟨ds, ?_, hm0, hms, hdp⟩
      simpa using latexNum_plus hme hde
    · refine ⟨'-' :: ds, ?_, hm0, hms, ?_⟩
      · have := latexNum_other (m := m) (x := '-' :: ds) hme (by simp [hde]) (by simp)
        simpa using this
      · intro c hc
        rcases List.mem_cons.1 hc with rfl | hc
        · decide
        · exact hdp c hc

theorem texTo_num {s : List Char} {b : Bool} (h : NumText s b) :
    TexTo (latexNum s) (decide ('e' ∈ s)) ∧ latexNum s ≠ [] := by
  rcases latexNum_cases h with ⟨rfl, h1, h2, h3, h4⟩ | ⟨rfl, h1, m, x, h2, h3, h4, h5⟩
  · rw [h1, decide_eq_false h3]
    exact ⟨texTo_plain h2 h4, h2⟩
  · rw [h2, decide_eq_true h1]
    refine ⟨?_, by simp⟩
    intro st fl rest
    have e1 : ∀ r, texRun (st, .normal false) (texToks (['\\', 't', 'i', 'm', 'e', 's', '1', '0', '^', '{'] ++ r)) = texRun (.sup :: st, .normal false) (texToks r) :=
      fun _ => rfl
    have e2 : texRun (.sup :: st, .normal false) (texToks (['}'] ++ rest)) = texRun (st, .normal true) (texToks rest) := rfl
    rw [List.append_assoc, List.append_assoc, List.append_assoc, texTo_plain h3 h4, e1, run_plains h5, e2]

/-! ## Lemmas: operators -/

/-- Opening text: puts frames on the stack. -/
def TexOpen (p : List Char) (f : List Frame) : Prop :=
  ∀ st fl r, texRun (st, .normal fl) (texToks (p ++ r)) = texRun (f ++ st, .normal false) (texToks r)

/-- Closing text: takes them off. -/
def TexClose (p : List Char) (f : List Frame) (b : Bool) : Prop :=
  ∀ st fl r, texRun (f ++ st, .normal fl) (texToks (p ++ r)) = texRun (st, .normal b) (texToks r)

theorem TexOpen.fails {p s : List Char} {f : List Frame} (h : TexOpen p f) (h' : TexFails s) : TexFails (p ++ s) := by
  intro st fl rest
  rw [List.append_assoc, h, h']

theorem TexOpen.encl {p s q : List Char} {f : List Frame} {b c : Bool} (h : TexOpen p f) (h' : TexTo s b)
    (hq : TexClose q f c) : TexTo (p ++ s ++ q) c := by
  intro st fl rest
  rw [List.append_assoc, List.append_assoc, h, h', hq]

theorem open_sin : TexTo ['\\', 's', 'i', 'n', ' '] false := fun _ _ _ => rfl
theorem open_cos : TexTo ['\\', 'c', 'o', 's', ' '] false := fun _ _ _ => rfl
theorem open_neg : TexTo ['-'] false := fun _ _ _ => rfl
theorem open_exp : TexOpen ['\\', 'm', 'a', 't', 'h', 'r', 'm', '{', 'e', '}', '^', '{'] [.sup] := fun _ _ _ => rfl
theorem close_exp : TexClose ['}'] [.sup] true := fun _ _ _ => rfl
theorem open_abs : TexOpen ['\\', 'l', 'e', 'f', 't', '|'] [.delim] := fun _ _ _ => rfl
theorem close_abs : TexClose ['\\', 'r', 'i', 'g', 'h', 't', '|'] [.delim] false := fun _ _ _ => rfl
theorem open_arb : TexOpen ['\\', 'p', 'm', '\\', 'l', 'e', 'f', 't', '|'] [.delim] := fun _ _ _ => rfl
theorem open_arr : TexOpen ['\\', 'l', 'e', 'f', 't', '['] [.delim] := fun _ _ _ => rfl
theorem close_arr : TexClose ['\\', 'r', 'i', 'g', 'h', 't', ']'] [.delim] false := fun _ _ _ => rfl
theorem open_dict : TexOpen ['\\', 'l', 'e', 'f', 't', '\\', '{'] [.delim] := fun _ _ _ => rfl
theorem close_dict : TexClose ['\\', 'r', 'i', 'g', 'h', 't', '\\', '}'] [.delim] false := fun _ _ _ => rfl
theorem open_frac : TexOpen ['\\', 'f', 'r', 'a', 'c', '{'] [.num] := fun _ _ _ => rfl
theorem mid_frac (st : List Frame) (fl : Bool) (r : List Char) :
    texRun (.num :: st, .normal fl) (texToks (['}', '{'] ++ r)) = texRun (.den :: st, .normal false) (texToks r) := rfl
theorem close_frac : TexClose ['}'] [.den] false := fun _ _ _ => rfl
theorem texTo_comma : TexTo [',', ' '] false := fun _ _ _ => rfl
theorem texTo_colon : TexTo [':'] false := fun _ _ _ => rfl
theorem open_pow (st : List Frame) (r : List Char) :
    texRun (st, .normal false) (texToks (['^', '{'] ++ r)) = texRun (.sup :: st, .normal false) (texToks r) := rfl
theorem double_sup (st : List Frame) (r : List Char) :
    texRun (st, .normal true) (texToks (['^', '{'] ++ r)) = none := rfl

/-- The binary operators that stand between their operands. -/
def BinOp.plainTex : BinOp → Bool
  | .eq => true
  | .add => true
  | .sub => true
  | .mul => true
  | _ => false

theorem texTo_infix {o : BinOp} (h : o.plainTex = true) :
    TexTo o.latex false ∧ o.llatex = [] ∧ o.rlatex = [] := by
  cases o <;> simp [BinOp.plainTex] at h
  · exact ⟨fun _ _ _ => rfl, rfl, rfl⟩
  · exact ⟨fun _ _ _ => rfl, rfl, rfl⟩
  · exact ⟨fun _ _ _ => rfl, rfl, rfl⟩
  · exact ⟨fun _ _ _ => rfl, rfl, rfl⟩

theorem texTo_pm {s : List Char} {b : Bool} (h : TexTo s b) (hs : s ≠ [])
    (hc : ∀ c, s.head? = some c → isAlpha c = false) : TexTo (['\\', 'p', 'm'] ++ s) b := by
  intro st fl rest
  have e : texToks (['\\', 'p', 'm'] ++ s ++ rest) = .cs ['p', 'm'] :: texToks (s ++ rest) := by
    have : texToks (['\\', 'p', 'm'] ++ s ++ rest) = texGo (some ['p', 'm']) (s ++ rest) := rfl
    rw [this, texGo_word (by simp)]
    · rfl
    · cases s with
      | nil => exact absurd rfl hs
      | cons c s => simpa using hc
  rw [e, texRun]
  have : texStep (st, .normal fl) (.cs ['p', 'm']) = some (st, .normal false) := rfl
  rw [this, Option.bind_some, h]

theorem fails_pm_start {s : List Char} (h : TexFails s) (hs : s ≠ [])
    (hc : ∀ c, s.head? = some c → isAlpha c = false) : TexFails (['\\', 'p', 'm'] ++ s) := by
  intro st fl rest
  have e : texToks (['\\', 'p', 'm'] ++ s ++ rest) = .cs ['p', 'm'] :: texToks (s ++ rest) := by
    have : texToks (['\\', 'p', 'm'] ++ s ++ rest) = texGo (some ['p', 'm']) (s ++ rest) := rfl
    rw [this, texGo_word (by simp)]
    · rfl
    · cases s with
      | nil => exact absurd rfl hs
      | cons c s => simpa using hc
  rw [e, texRun]
  have : texStep (st, .normal fl) (.cs ['p', 'm']) = some (st, .normal false) := rfl
  rw [this, Option.bind_some, h]

theorem fails_pm_glued {c : Char} {s : List Char} (hc : isAlpha c = true) : TexFails (['\\', 'p', 'm'] ++ (c :: s)) := by
  intro st fl rest
  have e : texToks (['\\', 'p', 'm'] ++ (c :: s) ++ rest) = texGo (some ['p', 'm']) (c :: (s ++ rest)) := rfl
  obtain ⟨v, hv⟩ := texGo_some (w := ['p', 'm']) (by simp) (c :: (s ++ rest))
  rw [e, hv, texRun]
  have : texStep (st, .normal fl) (.cs (['p', 'm'] ++ (c :: (s ++ rest)).takeWhile isAlpha)) = none := by
    simp [texStep, texWords, hc]
  rw [this]
  rfl

/-! ## The induction -/

mutual
/-- The number of logarithms. -/
def Expr.logs {K : Type} : Expr K → Nat
  | .const _ => 0
  | .var _ => 0
  | .un o a => (if o = .log then 1 else 0) + a.logs
  | .bin _ l r => l.logs + r.logs
  | .arr xs => logsTerms xs
  | .dict kvs => logsEntries kvs
def logsTerms {K : Type} : List (Expr K) → Nat
  | [] => 0
  | x :: xs => x.logs + logsTerms xs
def logsEntries {K : Type} : List (List Char × Expr K) → Nat
  | [] => 0
  | (_, v) :: kvs => v.logs + logsEntries kvs
end

theorem latex_ne {K : Type} {showK : K → List Char} {e : Expr K} (h : Texable showK e) {s : List Char}
    (hs : e.latex showK = some s) : s ≠ [] := by
  cases h with
  | const h => rw [Expr.latex, Option.some.injEq] at hs; rw [← hs]; exact (texTo_num h).2
  | var h => rw [Expr.latex, Option.some.injEq] at hs; rw [← hs]; exact h
  | @un o a h =>
    rw [Expr.latex] at hs
    cases ha : a.latex showK with
    | none => simp [ha] at hs
    | some sa =>
      cases hb : a.BP with
      | none => simp [ha, hb] at hs
      | some p =>
        simp only [ha, hb, Option.bind_eq_bind, Option.bind_some, Option.some.injEq] at hs
        rw [← hs]
        cases o <;> simp [UnOp.llatex]
  | @bin o l r h h' =>
    rw [Expr.latex] at hs
    cases hl : l.latex showK with
    | none => cases hb : l.BP <;> cases hb' : r.BP <;> simp [hl, hb, hb'] at hs
    | some sl =>
      cases hr : r.latex showK with
      | none => cases hb : l.BP <;> cases hb' : r.BP <;> simp [hl, hr, hb, hb'] at hs
      | some sr =>
        cases hb : l.BP with
        | none => simp [hb] at hs
        | some p =>
          cases hb' : r.BP with
          | none => simp [hb, hb'] at hs
          | some p' =>
            simp only [hl, hr, hb, hb', Option.bind_eq_bind, Option.bind_some, Option.some.injEq] at hs
            rw [← hs]
            cases o <;> simp [BinOp.latex]
  | @arr xs h =>
    cases xs with
    | nil => rw [Expr.latex, Option.some.injEq] at hs; rw [← hs]; simp
    | cons x xs =>
      rw [Expr.latex] at hs
      cases hx : latexTerms showK (x :: xs) with
      | none => simp [hx] at hs
      | some ss =>
        simp only [hx, Option.bind_eq_bind, Option.bind_some, Option.some.injEq] at hs
        rw [← hs]; simp
  | @dict xs h =>
    cases xs with
    | nil => rw [Expr.latex, Option.some.injEq] at hs; rw [← hs]; simp
    | cons x xs =>
      rw [Expr.latex] at hs
      cases hx : latexEntries showK (x :: xs) with
      | none => simp [hx] at hs
      | some ss =>
        simp only [hx, Option.bind_eq_bind, Option.bind_some, Option.some.injEq] at hs
        rw [← hs]; simp

/-- The statement proved by induction. -/
def TexInd {K : Type} (showK : K → List Char) (e : Expr K) : Prop :=
  ∀ s, e.latex showK = some s → (TexOk showK e → TexTo s (e.endsSup showK)) ∧
    (¬ TexOk showK e → e.logs = 0 → TexFails s)

theorem texInd_terms {K : Type} {showK : K → List Char} (xs : List (Expr K)) (x : Expr K) (s : List Char)
    (h : ∀ y ∈ x :: xs, TexInd showK y) (hs : latexTerms showK (x :: xs) = some s) :
    ∃ s', s = s' ++ [',', ' '] ∧ ((∀ y ∈ x :: xs, TexOk showK y) → ∃ b, TexTo s' b) ∧
      (¬ (∀ y ∈ x :: xs, TexOk showK y) → logsTerms (x :: xs) = 0 → TexFails s') := by
  induction xs generalizing x s with
  | nil =>
    rw [latexTerms] at hs
    cases hx : x.latex showK with
    | none => simp [hx] at hs
    | some sx =>
      simp [hx, latexTerms] at hs
      have := h x (by simp) sx hx
      refine ⟨sx, hs.symm, fun h => ⟨_, this.1 (h x (by simp))⟩, fun h hl => this.2 ?_ ?_⟩
      · simpa using h
      · simpa [logsTerms] using hl
  | cons y ys ih =>
    rw [latexTerms] at hs
    cases hx : x.latex showK with
    | none => simp [hx] at hs
    | some sx =>
      cases hys : latexTerms showK (y :: ys) with
      | none => simp [hx, hys] at hs
      | some ss =>
        obtain ⟨s', rfl, h1, h2⟩ := ih y ss (fun z hz => h z (by simp at hz ⊢; tauto)) hys
        simp [hx, hys] at hs
        have hx' := h x (by simp) sx hx
        refine ⟨sx ++ [',', ' '] ++ s', by rw [← hs]; simp, fun hok => ?_, fun hok hl => ?_⟩
        · obtain ⟨b, hb⟩ := h1 fun z hz => hok z (by simp at hz ⊢; tauto)
          exact ⟨b, ((hx'.1 (hok x (by simp))).append texTo_comma).append hb⟩
        · rw [logsTerms] at hl
          by_cases hxo : TexOk showK x
          · refine ((hx'.1 hxo).append texTo_comma).fails (h2 (fun hall => hok fun z hz => ?_) (by omega))
            rcases List.mem_cons.1 hz with rfl | hz
            · exact hxo
            · exact hall z hz
          · rw [List.append_assoc]
            exact (hx'.2 hxo (by omega)).append _

theorem texInd_entries {K : Type} {showK : K → List Char} (xs : List (List Char × Expr K))
    (x : List Char × Expr K) (s : List Char)
    (hN : ∀ p ∈ x :: xs, p.1 ≠ [] ∧ ∀ c ∈ p.1, isAlpha c = true)
    (h : ∀ y ∈ x :: xs, TexInd showK y.2) (hs : latexEntries showK (x :: xs) = some s) :
    ∃ s', s = s' ++ [',', ' '] ∧ ((∀ y ∈ x :: xs, TexOk showK y.2) → ∃ b, TexTo s' b) ∧
      (¬ (∀ y ∈ x :: xs, TexOk showK y.2) → logsEntries (x :: xs) = 0 → TexFails s') := by
  have hkey : ∀ p ∈ x :: xs, TexTo (p.1 ++ [':']) false := fun p hp =>
    (texTo_plain (hN p hp).1 fun c hc => alpha_plain ((hN p hp).2 c hc)).append texTo_colon
  clear hN
  induction xs generalizing x s with
  | nil =>
    obtain ⟨k, v⟩ := x
    rw [latexEntries] at hs
    cases hx : v.latex showK with
    | none => simp [hx] at hs
    | some sx =>
      simp [hx, latexEntries] at hs
      have := h (k, v) (by simp) sx hx
      have hk := hkey (k, v) (by simp)
      refine ⟨k ++ [':'] ++ sx, by rw [← hs]; simp, fun h => ⟨_, hk.append (this.1 (h (k, v) (by simp)))⟩,
        fun h hl => hk.fails (this.2 ?_ ?_)⟩
      · simpa using h
      · simpa [logsEntries] using hl
  | cons y ys ih =>
    obtain ⟨k, v⟩ := x
    rw [latexEntries] at hs
    cases hx : v.latex showK with
    | none => simp [hx] at hs
    | some sx =>
      cases hys : latexEntries showK (y :: ys) with
      | none => simp [hx, hys] at hs
      | some ss =>
        obtain ⟨s', rfl, h1, h2⟩ := ih y ss (fun z hz => h z (by simp at hz ⊢; tauto)) hys
          (fun z hz => hkey z (by simp at hz ⊢; tauto))
        simp [hx, hys] at hs
        have hx' := h (k, v) (by simp) sx hx
        have hk := hkey (k, v) (by simp)
        refine ⟨k ++ [':'] ++ sx ++ [',', ' '] ++ s', by rw [← hs]; simp, fun hok => ?_, fun hok hl => ?_⟩
        · obtain ⟨b, hb⟩ := h1 fun z hz => hok z (by simp at hz ⊢; tauto)
          exact ⟨b, ((hk.append (hx'.1 (hok (k, v) (by simp)))).append texTo_comma).append hb⟩
        · rw [logsEntries] at hl
          by_cases hxo : TexOk showK v
          · refine ((hk.append (hx'.1 hxo)).append texTo_comma).fails (h2 (fun hall => hok fun z hz => ?_) (by omega))
            rcases List.mem_cons.1 hz with rfl | hz
            · exact hxo
            · exact hall z hz
          · rw [List.append_assoc]
            exact (hk.fails (hx'.2 hxo (show v.logs = 0 by omega))).append _

theorem texInd {K : Type} {showK : K → List Char} {e : Expr K} (h : Texable showK e) : TexInd showK e := by
  induction h with
  | const h =>
    intro s hs
    rw [Expr.latex, Option.some.injEq] at hs
    subst hs
    exact ⟨fun _ => (texTo_num h).1, fun h => absurd .const h⟩
  | var h h' =>
    intro s hs
    rw [Expr.latex, Option.some.injEq] at hs
    subst hs
    exact ⟨fun _ => texTo_plain h fun c hc => alpha_plain (h' c hc), fun h => absurd .var h⟩
  | @un o a h ih =>
    intro s hs
    rw [Expr.latex] at hs
    cases ha : a.latex showK with
    | none => simp [ha] at hs
    | some sa =>
      cases hb : a.BP with
      | none => simp [ha, hb] at hs
      | some p =>
        obtain ⟨-, rfl⟩ := toks_isDict (showK := showK) hb
        simp only [ha, hb, Option.bind_eq_bind, Option.bind_some, Option.some.injEq] at hs
        subst hs
        rw [show decide (a.lb < o.bp) = parenU o a from rfl]
        obtain ⟨i1, i2⟩ := ih sa ha
        constructor
        · intro hok
          cases hok with
          | un ho hok =>
          have hw := (i1 hok).wrap (parenU o a)
          cases o with
          | sin => simpa [UnOp.llatex, UnOp.rlatex, Expr.endsSup] using open_sin.append hw
          | cos => simpa [UnOp.llatex, UnOp.rlatex, Expr.endsSup] using open_cos.append hw
          | neg => simpa [UnOp.llatex, UnOp.rlatex, Expr.endsSup] using open_neg.append hw
          | exp => exact open_exp.encl hw close_exp
          | log => exact absurd rfl ho
          | abs => exact open_abs.encl hw close_abs
          | arbsign => exact open_arb.encl hw close_abs
        · intro hok hl
          rw [Expr.logs] at hl
          have ho : o ≠ .log := by rintro rfl; simp at hl
          have hw := (i2 (fun h => hok (.un ho h)) (by omega)).wrap (parenU o a)
          refine TexFails.append ?_ _
          cases o with
          | sin => exact open_sin.fails hw
          | cos => exact open_cos.fails hw
          | neg => exact open_neg.fails hw
          | exp => exact open_exp.fails hw
          | log => exact absurd rfl ho
          | abs => exact open_abs.fails hw
          | arbsign => exact open_arb.fails hw
  | @bin o l r h1 h2 ih1 ih2 =>
    intro s hs
    rw [Expr.latex] at hs
    cases hl : l.latex showK with
    | none => cases hb : l.BP <;> cases hb' : r.BP <;> simp [hl, hb, hb'] at hs
    | some sl =>
      cases hr : r.latex showK with
      | none => cases hb : l.BP <;> cases hb' : r.BP <;> simp [hl, hr, hb, hb'] at hs
      | some sr =>
        cases hb : l.BP with
        | none => simp [hb] at hs
        | some p =>
          cases hb' : r.BP with
          | none => simp [hb, hb'] at hs
          | some p' =>
            obtain ⟨-, rfl⟩ := toks_isDict (showK := showK) hb
            obtain ⟨-, rfl⟩ := toks_isDict (showK := showK) hb'
            simp only [hl, hr, hb, hb', Option.bind_eq_bind, Option.bind_some, Option.some.injEq] at hs
            subst hs
            have hpr : (decide (o.rbp > r.lb) && !o.wrapped) = (parenR o r && !o.wrapped) := by
              unfold parenR; cases o.wrapped <;> simp
            rw [hpr, show decide (l.rb < o.lbp) = parenL o l from rfl]
            obtain ⟨i1, i2⟩ := ih1 sl hl
            obtain ⟨j1, j2⟩ := ih2 sr hr
            -- the right operand
            have hrne : wrapL (parenR o r && !o.wrapped) sr ≠ [] := by
              unfold wrapL
              split
              · simp
              · exact latex_ne h2 hr
            have hrhead : (o = .uncert → parenR o r = true ∨ ¬ r.startsLetter showK) → o = .uncert →
                ∀ c, (wrapL (parenR o r && !o.wrapped) sr).head? = some c → isAlpha c = false := by
              intro hu ho c hc
              have hnw : o.wrapped = false := by rw [ho]; rfl
              rw [hnw, Bool.not_false, Bool.and_true] at hc
              rcases hu ho with hu | hu
              · rw [hu] at hc
                simp [wrapL] at hc
                rw [← hc]; decide
              · by_cases hp : parenR o r = true
                · rw [hp] at hc
                  simp [wrapL] at hc
                  rw [← hc]; decide
                · rw [Bool.not_eq_true] at hp
                  rw [hp] at hc
                  simp only [wrapL, Bool.false_eq_true, if_false] at hc
                  cases sr with
                  | nil => simp at hc
                  | cons d sr =>
                    simp at hc
                    subst hc
                    by_contra hal
                    exact hu ⟨d, sr, hr, by simpa using hal⟩
            constructor
            · intro hok
              cases hok with
              | bin c1 c2 hokl hokr =>
              have hL := (i1 hokl).wrap (parenL o l)
              have hR := (j1 hokr).wrap (parenR o r && !o.wrapped)
              by_cases hp : o.plainTex = true
              · obtain ⟨e1, e2, e3⟩ := texTo_infix hp
                rw [e2, e3, List.nil_append, List.append_nil]
                have := (hL.append e1).append hR
                cases o <;> simp [BinOp.plainTex] at hp <;> simpa [Expr.endsSup, BinOp.wrapped] using this
              · cases o with
                | div =>
                  intro st fl rest
                  simp only [BinOp.llatex, BinOp.latex, BinOp.rlatex]
                  simp only [List.append_assoc]
                  rw [open_frac, hL, List.singleton_append, mid_frac, hR]
                  exact close_frac st _ rest
                | pow =>
                  have hfl : (!parenL BinOp.pow l && l.endsSup showK) = false := by
                    rcases c1 rfl with h | h <;> simp [h]
                  rw [hfl] at hL
                  intro st fl rest
                  simp only [BinOp.llatex, BinOp.latex, BinOp.rlatex, List.nil_append]
                  simp only [List.append_assoc]
                  rw [hL, open_pow, hR]
                  exact close_exp st _ rest
                | access =>
                  intro st fl rest
                  simp only [BinOp.llatex, BinOp.latex, BinOp.rlatex, List.nil_append]
                  simp only [List.append_assoc]
                  rw [hL, open_arr, hR]
                  exact close_arr st _ rest
                | units =>
                  intro st fl rest
                  simp only [BinOp.llatex, BinOp.latex, BinOp.rlatex, List.nil_append]
                  simp only [List.append_assoc]
                  rw [hL, open_dict, hR]
                  exact close_dict st _ rest
                | uncert =>
                  have := hL.append (texTo_pm hR hrne (hrhead c2 rfl))
                  simpa [BinOp.llatex, BinOp.latex, BinOp.rlatex, Expr.endsSup, BinOp.wrapped] using this
                | _ => exact absurd rfl hp
            · intro hok hlog
              rw [Expr.logs] at hlog
              by_cases hokl : TexOk showK l
              swap
              · have hL := (i2 hokl (by omega)).wrap (parenL o l)
                refine TexFails.append (TexFails.append (TexFails.append ?_ _) _) _
                cases o with
                | div => exact open_frac.fails hL
                | _ => exact hL
              have hL := (i1 hokl).wrap (parenL o l)
              by_cases c1 : o = .pow → parenL o l = true ∨ l.endsSup showK = false
              swap
              · simp only [not_forall, not_or, Bool.not_eq_true, Bool.not_eq_false] at c1
                obtain ⟨rfl, c1, c1'⟩ := c1
                rw [c1, c1'] at hL
                intro st fl rest
                simp only [BinOp.llatex, BinOp.latex, BinOp.rlatex, List.nil_append, c1]
                simp only [List.append_assoc]
                rw [hL]
                exact double_sup _ _
              by_cases c2 : o = .uncert → parenR o r = true ∨ ¬ r.startsLetter showK
              swap
              · simp only [not_forall, not_or, Bool.not_eq_true, not_not] at c2
                obtain ⟨rfl, c2, d, t, c3, c4⟩ := c2
                rw [hr, Option.some.injEq] at c3
                subst c3
                rw [c2]
                simp only [BinOp.llatex, BinOp.latex, BinOp.rlatex, List.nil_append, wrapL, Bool.false_and,
                  Bool.false_eq_true, if_false, List.append_nil]
                rw [List.append_assoc]
                exact hL.fails (fails_pm_glued c4)
              have hR := (j2 (fun h => hok (.bin c1 c2 hokl h)) (by omega)).wrap (parenR o r && !o.wrapped)
              refine TexFails.append ?_ _
              by_cases hp : o.plainTex = true
              · obtain ⟨e1, e2, e3⟩ := texTo_infix hp
                rw [e2, List.nil_append]
                exact (hL.append e1).fails hR
              · cases o with
                | div =>
                  intro st fl rest
                  simp only [BinOp.llatex, BinOp.latex]
                  simp only [List.append_assoc]
                  rw [open_frac, hL, List.singleton_append, mid_frac, hR]
                | pow =>
                  have hfl : (!parenL BinOp.pow l && l.endsSup showK) = false := by
                    rcases c1 rfl with h | h <;> simp [h]
                  rw [hfl] at hL
                  intro st fl rest
                  simp only [BinOp.llatex, BinOp.latex, List.nil_append]
                  simp only [List.append_assoc]
                  rw [hL, open_pow, hR]
                | access =>
                  intro st fl rest
                  simp only [BinOp.llatex, BinOp.latex, List.nil_append]
                  simp only [List.append_assoc]
                  rw [hL, open_arr, hR]
                | units =>
                  intro st fl rest
                  simp only [BinOp.llatex, BinOp.latex, List.nil_append]
                  simp only [List.append_assoc]
                  rw [hL, open_dict, hR]
                | uncert =>
                  simp only [BinOp.llatex, BinOp.latex, List.nil_append]
                  rw [List.append_assoc]
                  exact hL.fails (fails_pm_start hR hrne (hrhead c2 rfl))
                | _ => exact absurd rfl hp
  | @arr xs h ih =>
    intro s hs
    cases xs with
    | nil =>
      rw [Expr.latex, Option.some.injEq] at hs
      subst hs
      exact ⟨fun _ _ _ _ => rfl, fun h => absurd (.arr (by simp)) h⟩
    | cons x xs =>
      rw [Expr.latex] at hs
      cases hx : latexTerms showK (x :: xs) with
      | none => simp [hx] at hs
      | some ss =>
        obtain ⟨s', rfl, h1, h2⟩ := texInd_terms xs x ss ih hx
        simp only [hx, Option.bind_eq_bind, Option.bind_some, Option.some.injEq] at hs
        rw [← List.append_assoc ['\\', 'l', 'e', 'f', 't', '['] s', dropTwo_append] at hs
        subst hs
        constructor
        · intro hok
          cases hok with
          | arr hok =>
          obtain ⟨b, hb⟩ := h1 hok
          exact open_arr.encl hb close_arr
        · intro hok hl
          exact (open_arr.fails (h2 (fun h => hok (.arr h)) hl)).append _
  | @dict xs hN h ih =>
    intro s hs
    cases xs with
    | nil =>
      rw [Expr.latex, Option.some.injEq] at hs
      subst hs
      exact ⟨fun _ _ _ _ => rfl, fun h => absurd (.dict (by simp)) h⟩
    | cons x xs =>
      rw [Expr.latex] at hs
      cases hx : latexEntries showK (x :: xs) with
      | none => simp [hx] at hs
      | some ss =>
        obtain ⟨s', rfl, h1, h2⟩ := texInd_entries xs x ss hN ih hx
        simp only [hx, Option.bind_eq_bind, Option.bind_some, Option.some.injEq] at hs
        rw [← List.append_assoc ['\\', 'l', 'e', 'f', 't', '\\', '{'] s', dropTwo_append] at hs
        subst hs
        constructor
        · intro hok
          cases hok with
          | dict hok =>
          obtain ⟨b, hb⟩ := h1 hok
          exact open_dict.encl hb close_dict
        · intro hok hl
          exact (open_dict.fails (h2 (fun h => hok (.dict h)) hl)).append _

/-! ## Braces -/

/-- What a token adds to the number of open braces. -/
def TexTok.brace : TexTok → Int
  | .ch c => if c = '{' then 1 else if c = '}' then -1 else 0
  | .cs _ => 0

def braces : List TexTok → Int
  | [] => 0
  | t :: ts => t.brace + braces ts

def Frame.braces (st : List Frame) : Int := (st.filter (· ≠ .delim)).length

theorem Frame.braces_cons (f : Frame) (st : List Frame) :
    Frame.braces (f :: st) = (if f = .delim then 0 else 1) + Frame.braces st := by
  cases f <;> simp [Frame.braces] <;> omega

theorem delim_brace {t : TexTok} (h : isDelim t = true) : t.brace = 0 := by
  simp only [isDelim, decide_eq_true_eq, List.mem_cons, List.not_mem_nil, or_false] at h
  rcases h with rfl | rfl | rfl | rfl | rfl | rfl | rfl <;> rfl

theorem step_braces {st st' : List Frame} {m m' : Mode} {t : TexTok}
    (hb : ∀ f, m = .brace f → f ≠ .delim) (h : texStep (st, m) t = some (st', m')) :
    Frame.braces st' = Frame.braces st + t.brace ∧ ∀ f, m' = .brace f → f ≠ .delim := by
  cases m with
  | brace f =>
    simp only [texStep] at h
    split at h
    · rename_i ht
      simp only [Option.some.injEq, Prod.mk.injEq] at h
      obtain ⟨rfl, rfl⟩ := h
      rw [ht, Frame.braces_cons, if_neg (hb f rfl)]
      exact ⟨by simp [TexTok.brace]; omega, by simp⟩
    · simp at h
  | «open» =>
    simp only [texStep] at h
    split at h
    · rename_i ht
      simp only [Option.some.injEq, Prod.mk.injEq] at h
      obtain ⟨rfl, rfl⟩ := h
      rw [delim_brace ht, Frame.braces_cons]
      exact ⟨by simp, by simp⟩
    · simp at h
  | close =>
    simp only [texStep] at h
    split at h
    · split at h
      · rename_i ht
        simp only [Option.some.injEq, Prod.mk.injEq] at h
        obtain ⟨rfl, rfl⟩ := h
        rw [delim_brace ht, Frame.braces_cons]
        exact ⟨by simp, by simp⟩
      · simp at h
    · simp at h
  | normal b =>
    cases t with
    | ch c =>
      simp only [texStep] at h
      split at h
      · rename_i ht
        simp only [Option.some.injEq, Prod.mk.injEq] at h
        obtain ⟨rfl, rfl⟩ := h
        rw [Frame.braces_cons, ht]
        exact ⟨by simp [TexTok.brace]; omega, by simp⟩
      · rename_i h0
        split at h
        · rename_i ht
          subst ht
          split at h <;> simp only [Option.some.injEq, Prod.mk.injEq, reduceCtorEq] at h <;>
            obtain ⟨rfl, rfl⟩ := h <;> rw [Frame.braces_cons] <;> exact ⟨by simp [TexTok.brace], by simp⟩
        · rename_i h1
          have e : (TexTok.ch c).brace = 0 := by simp [TexTok.brace, h0, h1]
          rw [e]
          split at h
          · split at h
            · simp at h
            · simp only [Option.some.injEq, Prod.mk.injEq] at h
              obtain ⟨rfl, rfl⟩ := h
              exact ⟨by simp, by simp⟩
          · split at h
            · simp at h
            · simp only [Option.some.injEq, Prod.mk.injEq] at h
              obtain ⟨rfl, rfl⟩ := h
              exact ⟨by simp, by simp⟩
    | cs w =>
      simp only [texStep] at h
      have e : (TexTok.cs w).brace = 0 := rfl
      rw [e]
      split at h
      · simp only [Option.some.injEq, Prod.mk.injEq] at h
        obtain ⟨rfl, rfl⟩ := h
        exact ⟨by simp, by simp⟩
      split at h
      · simp only [Option.some.injEq, Prod.mk.injEq] at h
        obtain ⟨rfl, rfl⟩ := h
        exact ⟨by simp, by simp⟩
      split at h
      · simp only [Option.some.injEq, Prod.mk.injEq] at h
        obtain ⟨rfl, rfl⟩ := h
        exact ⟨by simp, by simp⟩
      split at h
      · simp only [Option.some.injEq, Prod.mk.injEq] at h
        obtain ⟨rfl, rfl⟩ := h
        exact ⟨by simp, by simp⟩
      split at h
      · simp only [Option.some.injEq, Prod.mk.injEq] at h
        obtain ⟨rfl, rfl⟩ := h
        exact ⟨by simp, by simp⟩
      · simp at h

theorem run_braces {ts : List TexTok} {s s' : List Frame × Mode} (hb : ∀ f, s.2 = .brace f → f ≠ .delim)
    (h : texRun s ts = some s') : Frame.braces s'.1 = Frame.braces s.1 + braces ts := by
  induction ts generalizing s with
  | nil => simp [texRun] at h; simp [h, braces]
  | cons t ts ih =>
    rw [texRun] at h
    cases h1 : texStep s t with
    | none => simp [h1] at h
    | some s1 =>
      rw [h1, Option.bind_some] at h
      have := step_braces (st := s.1) (m := s.2) (st' := s1.1) (m' := s1.2) hb h1
      rw [ih this.2 h, this.1, braces]
      omega

/-- A text with `n` more opening than closing braces. -/
def Bal (s : List Char) (n : Int) : Prop := ∀ r, braces (texToks (s ++ r)) = n + braces (texToks r)

theorem Bal.append {s t : List Char} {a b : Int} (h : Bal s a) (h' : Bal t b) : Bal (s ++ t) (a + b) := by
  intro r
  rw [List.append_assoc, h, h']
  omega

theorem bal_plain {s : List Char} (h : ∀ c ∈ s, texSpecial c = false) : Bal s 0 := by
  induction s with
  | nil => intro r; simp
  | cons c s ih =>
    intro r
    obtain ⟨h1, h2, h3, h4, h5⟩ := plain_ne (h c (by simp))
    have e : texToks (c :: s ++ r) = .ch c :: texToks (s ++ r) := by simp [texToks, texGo, h1, h5]
    have e' : (TexTok.ch c).brace = 0 := by simp [TexTok.brace, h2, h3]
    rw [e, braces, e', ih (fun x hx => h x (by simp [hx]))]
    omega

theorem braces_word {w : List Char} (hw : w ≠ []) (s : List Char) :
    braces (texGo (some w) s) = braces (texGo none s) := by
  induction s generalizing w with
  | nil => simp [texGo, braces, TexTok.brace]
  | cons c s ih =>
    by_cases h : isAlpha c = true
    · have e := bal_plain (s := [c]) (by simpa using alpha_plain h) s
      have e2 : texGo (some w) (c :: s) = texGo (some (w ++ [c])) s := by simp [texGo, h]
      rw [e2, ih (by simp)]
      simpa [texToks] using e.symm
    · rw [texGo_word hw (by simpa using h), braces, TexTok.brace]
      simp

theorem bal_pm : Bal ['\\', 'p', 'm'] 0 := by
  intro r
  have : texToks (['\\', 'p', 'm'] ++ r) = texGo (some ['p', 'm']) r := rfl
  rw [this, braces_word (by simp)]
  simp [texToks]

theorem braces_append (a b : List TexTok) : braces (a ++ b) = braces a + braces b := by
  induction a with
  | nil => simp [braces]
  | cons t a ih => rw [List.cons_append, braces, ih, braces]; omega

theorem Bal.lit {p : List Char} {n : Int} (ts : List TexTok) (hn : braces ts = n)
    (h : ∀ r, texToks (p ++ r) = ts ++ texToks r) : Bal p n := by
  intro r
  rw [h, braces_append, hn]

theorem Bal.wrap {s : List Char} {n : Int} (h : Bal s n) (w : Bool) : Bal (wrapL w s) n := by
  cases w with
  | false => exact h
  | true =>
    have h1 : Bal ['\\', 'l', 'e', 'f', 't', '('] 0 := .lit [.cs ['l', 'e', 'f', 't'], .ch '('] rfl fun _ => rfl
    have h2 : Bal ['\\', 'r', 'i', 'g', 'h', 't', ')'] 0 := .lit [.cs ['r', 'i', 'g', 'h', 't'], .ch ')'] rfl fun _ => rfl
    simpa [wrapL] using (h1.append h).append h2

theorem bal_num {s : List Char} {b : Bool} (h : NumText s b) : Bal (latexNum s) 0 := by
  rcases latexNum_cases h with ⟨rfl, h1, h2, h3, h4⟩ | ⟨rfl, h1, m, x, h2, h3, h4, h5⟩
  · rw [h1]
    exact bal_plain h4
  · rw [h2]
    have b1 : Bal ['\\', 't', 'i', 'm', 'e', 's', '1', '0', '^', '{'] 1 := .lit [.cs ['t', 'i', 'm', 'e', 's'], .ch '1', .ch '0', .ch '^', .ch '{'] rfl fun _ => rfl
    have b2 : Bal ['}'] (-1) := .lit [.ch '}'] rfl fun _ => rfl
    simpa using (((bal_plain h4).append b1).append (bal_plain h5)).append b2

/-- The text around the operand of a unary operator: balanced but for the logarithm. -/
theorem bal_un (o : UnOp) {s : List Char} {n : Int} (h : Bal s n) :
    Bal (o.llatex ++ s ++ o.rlatex) (n - if o = .log then 1 else 0) := by
  have c1 : Bal ['}'] (-1) := .lit [.ch '}'] rfl fun _ => rfl
  have c0 : Bal [] 0 := .lit [] rfl fun _ => rfl
  have bar : Bal ['\\', 'r', 'i', 'g', 'h', 't', '|'] 0 := .lit [.cs ['r', 'i', 'g', 'h', 't'], .ch '|'] rfl fun _ => rfl
  cases o with
  | sin =>
    have a : Bal ['\\', 's', 'i', 'n', ' '] 0 := .lit [.cs ['s', 'i', 'n']] rfl fun _ => rfl
    simpa [UnOp.llatex, UnOp.rlatex] using (a.append h).append c0
  | cos =>
    have a : Bal ['\\', 'c', 'o', 's', ' '] 0 := .lit [.cs ['c', 'o', 's']] rfl fun _ => rfl
    simpa [UnOp.llatex, UnOp.rlatex] using (a.append h).append c0
  | exp =>
    have a : Bal ['\\', 'm', 'a', 't', 'h', 'r', 'm', '{', 'e', '}', '^', '{'] 1 :=
      .lit [.cs ['m', 'a', 't', 'h', 'r', 'm'], .ch '{', .ch 'e', .ch '}', .ch '^', .ch '{'] rfl fun _ => rfl
    have := (a.append h).append c1
    rwa [show 1 + n + -1 = n - (if UnOp.exp = .log then 1 else 0) by simp] at this
  | log =>
    have a : Bal ['\\', 'l', 'n', ' '] 0 := .lit [.cs ['l', 'n']] rfl fun _ => rfl
    have := (a.append h).append c1
    rwa [show 0 + n + -1 = n - (if UnOp.log = .log then 1 else 0) by simp; omega] at this
  | abs =>
    have a : Bal ['\\', 'l', 'e', 'f', 't', '|'] 0 := .lit [.cs ['l', 'e', 'f', 't'], .ch '|'] rfl fun _ => rfl
    simpa [UnOp.llatex, UnOp.rlatex] using (a.append h).append bar
  | arbsign =>
    have a : Bal ['\\', 'p', 'm', '\\', 'l', 'e', 'f', 't', '|'] 0 := .lit [.cs ['p', 'm'], .cs ['l', 'e', 'f', 't'], .ch '|'] rfl fun _ => rfl
    simpa [UnOp.llatex, UnOp.rlatex] using (a.append h).append bar
  | neg =>
    have a : Bal ['-'] 0 := .lit [.ch '-'] rfl fun _ => rfl
    simpa [UnOp.llatex, UnOp.rlatex] using (a.append h).append c0

theorem bal_bin (o : BinOp) {s t : List Char} {n m : Int} (h : Bal s n) (h' : Bal t m) :
    Bal (o.llatex ++ s ++ o.latex ++ t ++ o.rlatex) (n + m) := by
  have c1 : Bal ['}'] (-1) := .lit [.ch '}'] rfl fun _ => rfl
  have c0 : Bal [] 0 := .lit [] rfl fun _ => rfl
  have key : ∀ {p q r : List Char} {a b c : Int}, Bal p a → Bal q b → Bal r c → a + b + c = 0 →
      Bal (p ++ s ++ q ++ t ++ r) (n + m) := by
    intro p q r a b c hp hq hr e
    have := (((hp.append h).append hq).append h').append hr
    rwa [show a + n + b + m + c = n + m by omega] at this
  cases o with
  | eq => exact key c0 (.lit [.ch '='] rfl fun _ => rfl) c0 rfl
  | add => exact key c0 (.lit [.ch '+'] rfl fun _ => rfl) c0 rfl
  | sub => exact key c0 (.lit [.ch '-'] rfl fun _ => rfl) c0 rfl
  | mul => exact key c0 (.lit [.cs ['t', 'i', 'm', 'e', 's']] rfl fun _ => rfl) c0 rfl
  | div => exact key (.lit [.cs ['f', 'r', 'a', 'c'], .ch '{'] rfl fun _ => rfl) (.lit [.ch '}', .ch '{'] rfl fun _ => rfl) c1 rfl
  | pow => exact key c0 (.lit [.ch '^', .ch '{'] rfl fun _ => rfl) c1 rfl
  | access =>
    exact key c0 (.lit [.cs ['l', 'e', 'f', 't'], .ch '['] rfl fun _ => rfl) (.lit [.cs ['r', 'i', 'g', 'h', 't'], .ch ']'] rfl fun _ => rfl) rfl
  | units =>
    exact key c0 (.lit [.cs ['l', 'e', 'f', 't'], .cs ['{']] rfl fun _ => rfl) (.lit [.cs ['r', 'i', 'g', 'h', 't'], .cs ['}']] rfl fun _ => rfl) rfl
  | uncert => exact key c0 bal_pm c0 rfl

theorem bal_comma : Bal [',', ' '] 0 := .lit [.ch ','] rfl fun _ => rfl

theorem bal_terms {K : Type} {showK : K → List Char} (xs : List (Expr K)) (x : Expr K) (s : List Char)
    (h : ∀ y ∈ x :: xs, ∀ s, y.latex showK = some s → Bal s (-y.logs)) (hs : latexTerms showK (x :: xs) = some s) :
    ∃ s', s = s' ++ [',', ' '] ∧ Bal s' (-logsTerms (x :: xs)) := by
  induction xs generalizing x s with
  | nil =>
    rw [latexTerms] at hs
    cases hx : x.latex showK with
    | none => simp [hx] at hs
    | some sx =>
      simp [hx, latexTerms] at hs
      exact ⟨sx, hs.symm, by simpa [logsTerms] using h x (by simp) sx hx⟩
  | cons y ys ih =>
    rw [latexTerms] at hs
    cases hx : x.latex showK with
    | none => simp [hx] at hs
    | some sx =>
      cases hys : latexTerms showK (y :: ys) with
      | none => simp [hx, hys] at hs
      | some ss =>
        obtain ⟨s', rfl, h1⟩ := ih y ss (fun z hz => h z (by simp at hz ⊢; tauto)) hys
        simp [hx, hys] at hs
        have := ((h x (by simp) sx hx).append bal_comma).append h1
        refine ⟨sx ++ [',', ' '] ++ s', by rw [← hs]; simp, ?_⟩
        rw [logsTerms]
        rwa [show -(x.logs : Int) + 0 + -(logsTerms (y :: ys) : Int)
          = -((x.logs + logsTerms (y :: ys) : Nat) : Int) by push_cast; omega] at this

theorem bal_entries {K : Type} {showK : K → List Char} (xs : List (List Char × Expr K))
    (x : List Char × Expr K) (s : List Char)
    (hN : ∀ p ∈ x :: xs, p.1 ≠ [] ∧ ∀ c ∈ p.1, isAlpha c = true)
    (h : ∀ y ∈ x :: xs, ∀ s, y.2.latex showK = some s → Bal s (-y.2.logs))
    (hs : latexEntries showK (x :: xs) = some s) :
    ∃ s', s = s' ++ [',', ' '] ∧ Bal s' (-logsEntries (x :: xs)) := by
  have hkey : ∀ p ∈ x :: xs, Bal (p.1 ++ [':']) 0 := fun p hp =>
    (bal_plain fun c hc => alpha_plain ((hN p hp).2 c hc)).append (.lit [.ch ':'] rfl fun _ => rfl)
  clear hN
  induction xs generalizing x s with
  | nil =>
    obtain ⟨k, v⟩ := x
    rw [latexEntries] at hs
    cases hx : v.latex showK with
    | none => simp [hx] at hs
    | some sx =>
      simp [hx, latexEntries] at hs
      have := (hkey (k, v) (by simp)).append (h (k, v) (by simp) sx hx)
      exact ⟨k ++ [':'] ++ sx, by rw [← hs]; simp, by simpa [logsEntries] using this⟩
  | cons y ys ih =>
    obtain ⟨k, v⟩ := x
    rw [latexEntries] at hs
    cases hx : v.latex showK with
    | none => simp [hx] at hs
    | some sx =>
      cases hys : latexEntries showK (y :: ys) with
      | none => simp [hx, hys] at hs
      | some ss =>
        obtain ⟨s', rfl, h1⟩ := ih y ss (fun z hz => h z (by simp at hz ⊢; tauto)) hys
          (fun z hz => hkey z (by simp at hz ⊢; tauto))
        simp [hx, hys] at hs
        have := (((hkey (k, v) (by simp)).append (h (k, v) (by simp) sx hx)).append bal_comma).append h1
        refine ⟨k ++ [':'] ++ sx ++ [',', ' '] ++ s', by rw [← hs]; simp, ?_⟩
        rw [logsEntries]
        rwa [show 0 + -(v.logs : Int) + 0 + -(logsEntries (y :: ys) : Int)
          = -((v.logs + logsEntries (y :: ys) : Nat) : Int) by push_cast; omega] at this

theorem bal_latex {K : Type} {showK : K → List Char} {e : Expr K} (h : Texable showK e) :
    ∀ s, e.latex showK = some s → Bal s (-e.logs) := by
  induction h with
  | const h =>
    intro s hs
    rw [Expr.latex, Option.some.injEq] at hs
    subst hs
    simpa [Expr.logs] using bal_num h
  | var h h' =>
    intro s hs
    rw [Expr.latex, Option.some.injEq] at hs
    subst hs
    simpa [Expr.logs] using bal_plain fun c hc => alpha_plain (h' c hc)
  | @un o a h ih =>
    intro s hs
    rw [Expr.latex] at hs
    cases ha : a.latex showK with
    | none => simp [ha] at hs
    | some sa =>
      cases hb : a.BP with
      | none => simp [ha, hb] at hs
      | some p =>
        simp only [ha, hb, Option.bind_eq_bind, Option.bind_some, Option.some.injEq] at hs
        subst hs
        have := bal_un o ((ih sa ha).wrap (decide (p.1 < o.bp)))
        rw [Expr.logs]
        rwa [show -(a.logs : Int) - (if o = .log then 1 else 0)
          = -(((if o = .log then 1 else 0) + a.logs : Nat) : Int) by split <;> push_cast <;> omega] at this
  | @bin o l r h1 h2 ih1 ih2 =>
    intro s hs
    rw [Expr.latex] at hs
    cases hl : l.latex showK with
    | none => cases hb : l.BP <;> cases hb' : r.BP <;> simp [hl, hb, hb'] at hs
    | some sl =>
      cases hr : r.latex showK with
      | none => cases hb : l.BP <;> cases hb' : r.BP <;> simp [hl, hr, hb, hb'] at hs
      | some sr =>
        cases hb : l.BP with
        | none => simp [hb] at hs
        | some p =>
          cases hb' : r.BP with
          | none => simp [hb, hb'] at hs
          | some p' =>
            simp only [hl, hr, hb, hb', Option.bind_eq_bind, Option.bind_some, Option.some.injEq] at hs
            subst hs
            have := bal_bin o ((ih1 sl hl).wrap (decide (p.2 < o.lbp)))
              ((ih2 sr hr).wrap (decide (o.rbp > p'.1) && !o.wrapped))
            rw [Expr.logs]
            rwa [show -(l.logs : Int) + -(r.logs : Int) = -((l.logs + r.logs : Nat) : Int) by push_cast; omega] at this
  | @arr xs h ih =>
    intro s hs
    have b1 : Bal ['\\', 'l', 'e', 'f', 't', '['] 0 := .lit [.cs ['l', 'e', 'f', 't'], .ch '['] rfl fun _ => rfl
    have b2 : Bal ['\\', 'r', 'i', 'g', 'h', 't', ']'] 0 := .lit [.cs ['r', 'i', 'g', 'h', 't'], .ch ']'] rfl fun _ => rfl
    cases xs with
    | nil =>
      rw [Expr.latex, Option.some.injEq] at hs
      subst hs
      simpa [Expr.logs, logsTerms] using b1.append b2
    | cons x xs =>
      rw [Expr.latex] at hs
      cases hx : latexTerms showK (x :: xs) with
      | none => simp [hx] at hs
      | some ss =>
        obtain ⟨s', rfl, h1⟩ := bal_terms xs x ss ih hx
        simp only [hx, Option.bind_eq_bind, Option.bind_some, Option.some.injEq] at hs
        rw [← List.append_assoc ['\\', 'l', 'e', 'f', 't', '['] s', dropTwo_append] at hs
        subst hs
        simpa [Expr.logs] using (b1.append h1).append b2
  | @dict xs hN h ih =>
    intro s hs
    have b1 : Bal ['\\', 'l', 'e', 'f', 't', '\\', '{'] 0 := .lit [.cs ['l', 'e', 'f', 't'], .cs ['{']] rfl fun _ => rfl
    have b2 : Bal ['\\', 'r', 'i', 'g', 'h', 't', '\\', '}'] 0 := .lit [.cs ['r', 'i', 'g', 'h', 't'], .cs ['}']] rfl fun _ => rfl
    cases xs with
    | nil =>
      rw [Expr.latex, Option.some.injEq] at hs
      subst hs
      simpa [Expr.logs, logsEntries] using b1.append b2
    | cons x xs =>
      rw [Expr.latex] at hs
      cases hx : latexEntries showK (x :: xs) with
      | none => simp [hx] at hs
      | some ss =>
        obtain ⟨s', rfl, h1⟩ := bal_entries xs x ss hN ih hx
        simp only [hx, Option.bind_eq_bind, Option.bind_some, Option.some.injEq] at hs
        rw [← List.append_assoc ['\\', 'l', 'e', 'f', 't', '\\', '{'] s', dropTwo_append] at hs
        subst hs
        simpa [Expr.logs] using (b1.append h1).append b2

theorem logs_of_valid {K : Type} {showK : K → List Char} {e : Expr K} (h : Texable showK e) {s : List Char}
    (hs : e.latex showK = some s) (hv : TexValid s) : e.logs = 0 := by
  obtain ⟨b, hb⟩ := hv
  have h1 := run_braces (s := ([], .normal false)) (by simp) hb
  have h2 := bal_latex h s hs []
  rw [List.append_nil] at h2
  rw [h2] at h1
  simp [Frame.braces, texToks, texGo, braces] at h1
  exact h1

/-! ## What the text says -/

/-- The text without the TeX markup. `\frac{a}{b}` becomes `a/b`, `\mathrm{e}^` becomes `exp`, braces and the words
`\left` and `\right` are dropped. Arguments: which of the open braces hold a numerator, whether the next one
does, and how many tokens to skip. -/
def untexGo : List Bool → Bool → Nat → List TexTok → List Char
  | _, _, _, [] => []
  | st, nx, n + 1, _ :: ts => untexGo st nx n ts
  | st, nx, 0, .ch c :: ts =>
    if c = '{' then untexGo (nx :: st) false 0 ts
    else if c = '}' then (if st.head? = some true then ['/'] else []) ++ untexGo st.tail nx 0 ts
    else if c = ',' then [',', ' '] ++ untexGo st nx 0 ts
    else c :: untexGo st nx 0 ts
  | st, nx, 0, .cs w :: ts =>
    if w = ['t', 'i', 'm', 'e', 's'] then '*' :: untexGo st nx 0 ts
    else if w = ['p', 'm'] then pmSign ++ untexGo st nx 0 ts
    else if w = ['s', 'i', 'n'] ∨ w = ['c', 'o', 's'] ∨ w = ['l', 'n'] then w ++ ' ' :: untexGo st nx 0 ts
    else if w = ['f', 'r', 'a', 'c'] then untexGo st true 0 ts
    else if w = ['m', 'a', 't', 'h', 'r', 'm'] then ['e', 'x', 'p', ' '] ++ untexGo st nx 4 ts
    else if w = ['{'] ∨ w = ['}'] then w ++ untexGo st nx 0 ts
    else untexGo st nx 0 ts

def untex (s : List Char) : List Char := untexGo [] false 0 (texToks s)

/-- In every context the text `s` becomes `t`. -/
def UnTo (s t : List Char) : Prop :=
  ∀ st rest, untexGo st false 0 (texToks (s ++ rest)) = t ++ untexGo st false 0 (texToks rest)

theorem UnTo.append {s t s' t' : List Char} (h : UnTo s t) (h' : UnTo s' t') : UnTo (s ++ s') (t ++ t') := by
  intro st rest
  rw [List.append_assoc, h, h', List.append_assoc]

theorem UnTo.untex {s t : List Char} (h : UnTo s t) : Stator.untex s = t := by
  have := h [] []
  rw [List.append_nil] at this
  rw [Stator.untex, this]
  simp [texToks, texGo, untexGo]

/-- Between braces that are not around a numerator. -/
theorem UnTo.brace {s t : List Char} (h : UnTo s t) : UnTo (['{'] ++ s ++ ['}']) t := by
  intro st rest
  have e1 : ∀ r, untexGo st false 0 (texToks (['{'] ++ r)) = untexGo (false :: st) false 0 (texToks r) := fun _ => rfl
  have e2 : ∀ r, untexGo (false :: st) false 0 (texToks (['}'] ++ r)) = untexGo st false 0 (texToks r) := fun _ => rfl
  rw [List.append_assoc, List.append_assoc, e1, h, e2]

/-- Commas are followed by a blank. -/
def commaBlank (s : List Char) : List Char := s.flatMap fun c => if c = ',' then [',', ' '] else [c]

theorem commaBlank_alpha {s : List Char} (h : ∀ c ∈ s, isAlpha c = true) : commaBlank s = s := by
  induction s with
  | nil => rfl
  | cons c s ih =>
    have h6 : c ≠ ',' := by rintro rfl; exact absurd (h ',' (by simp)) (by decide)
    have := ih fun x hx => h x (by simp [hx])
    simp only [commaBlank] at this
    simp [commaBlank, h6, this]

theorem unTo_plain {s : List Char} (h : ∀ c ∈ s, texSpecial c = false) : UnTo s (commaBlank s) := by
  induction s with
  | nil => intro st rest; rfl
  | cons c s ih =>
    intro st rest
    obtain ⟨h1, h2, h3, h4, h5⟩ := plain_ne (h c (by simp))
    have e : texToks (c :: s ++ rest) = .ch c :: texToks (s ++ rest) := by simp [texToks, texGo, h1, h5]
    have := ih (fun x hx => h x (by simp [hx])) st rest
    rw [e]
    by_cases h6 : c = ','
    · subst h6
      simp [untexGo, this, commaBlank]
    · simp [untexGo, h2, h3, h6, this, commaBlank]

theorem unTo_alpha {s : List Char} (h : ∀ c ∈ s, isAlpha c = true) : UnTo s s := by
  have := unTo_plain fun c hc => alpha_plain (h c hc)
  rwa [commaBlank_alpha h] at this

theorem UnTo.wrap {s t : List Char} (h : UnTo s t) (w : Bool) : UnTo (wrapL w s) (wrapIf w t) := by
  cases w with
  | false => exact h
  | true =>
    have h1 : UnTo ['\\', 'l', 'e', 'f', 't', '('] ['('] := fun _ _ => rfl
    have h2 : UnTo ['\\', 'r', 'i', 'g', 'h', 't', ')'] [')'] := fun _ _ => rfl
    simpa [wrapL, wrapIf] using (h1.append h).append h2

theorem unTo_num {s : List Char} {b : Bool} (h : NumText s b) : UnTo (latexNum s) (untex (latexNum s)) := by
  have : ∃ t, UnTo (latexNum s) t := by
    rcases latexNum_cases h with ⟨rfl, h1, h2, h3, h4⟩ | ⟨rfl, h1, m, x, h2, h3, h4, h5⟩
    · rw [h1]
      exact ⟨_, unTo_plain h4⟩
    · rw [h2]
      have b1 : UnTo ['\\', 't', 'i', 'm', 'e', 's', '1', '0', '^'] ['*', '1', '0', '^'] := fun _ _ => rfl
      refine ⟨commaBlank m ++ ['*', '1', '0', '^'] ++ commaBlank x, ?_⟩
      have := ((unTo_plain h4).append b1).append (unTo_plain h5).brace
      simpa using this
  obtain ⟨t, ht⟩ := this
  rwa [ht.untex]

theorem unTo_nil : UnTo [] [] := fun _ _ => rfl

theorem unTo_un {o : UnOp} (ho : o ≠ .log) {s t : List Char} (h : UnTo s t) :
    UnTo (o.llatex ++ s ++ o.rlatex) (o.ltext ++ t ++ o.rtext) := by
  have bar : UnTo ['\\', 'r', 'i', 'g', 'h', 't', '|'] ['|'] := fun _ _ => rfl
  have encl : ∀ {p p' q q' : List Char}, UnTo p p' → UnTo q q' → UnTo (p ++ s ++ q) (p' ++ t ++ q') :=
    fun hp hq => (hp.append h).append hq
  cases o with
  | sin => exact encl (fun _ _ => rfl) unTo_nil
  | cos => exact encl (fun _ _ => rfl) unTo_nil
  | neg => exact encl (fun _ _ => rfl) unTo_nil
  | log => exact absurd rfl ho
  | abs => exact encl (fun _ _ => rfl) bar
  | arbsign => exact encl (fun _ _ => rfl) bar
  | exp =>
    have e : UnTo ['\\', 'm', 'a', 't', 'h', 'r', 'm', '{', 'e', '}', '^'] ['e', 'x', 'p', ' '] := fun _ _ => rfl
    have := e.append h.brace
    simpa [UnOp.llatex, UnOp.rlatex, UnOp.ltext, UnOp.rtext] using this

theorem unTo_bin {o : BinOp} {s t s' t' : List Char} (h : UnTo s t) (h' : UnTo s' t') (hne : s' ≠ [])
    (hg : o = .uncert → ∀ c, s'.head? = some c → isAlpha c = false) :
    UnTo (o.llatex ++ s ++ o.latex ++ s' ++ o.rlatex) (t ++ o.text ++ t' ++ o.rtext) := by
  have key : ∀ {p p' q q' : List Char}, UnTo p p' → UnTo q q' → UnTo (s ++ p ++ s' ++ q) (t ++ p' ++ t' ++ q') :=
    fun hp hq => (((h.append hp).append h').append hq)
  cases o with
  | eq => exact key (fun _ _ => rfl) unTo_nil
  | add => exact key (fun _ _ => rfl) unTo_nil
  | sub => exact key (fun _ _ => rfl) unTo_nil
  | mul => exact key (fun _ _ => rfl) unTo_nil
  | access => exact key (fun _ _ => rfl) (fun _ _ => rfl)
  | units => exact key (fun _ _ => rfl) (fun _ _ => rfl)
  | pow =>
    have c : UnTo ['^'] ['^'] := fun _ _ => rfl
    have := (h.append c).append h'.brace
    simpa [BinOp.llatex, BinOp.latex, BinOp.rlatex, BinOp.text, BinOp.rtext] using this
  | div =>
    intro st rest
    have e1 : ∀ r, untexGo st false 0 (texToks (['\\', 'f', 'r', 'a', 'c', '{'] ++ r)) = untexGo (true :: st) false 0 (texToks r) :=
      fun _ => rfl
    have e2 : ∀ r, untexGo (true :: st) false 0 (texToks (['}', '{'] ++ r)) = '/' :: untexGo (false :: st) false 0 (texToks r) :=
      fun _ => rfl
    simp only [BinOp.llatex, BinOp.latex, BinOp.rlatex]
    simp only [List.append_assoc]
    rw [e1, h, List.singleton_append, e2, h']
    change _ ++ '/' :: (_ ++ untexGo st false 0 (texToks rest)) = _
    simp [BinOp.text, BinOp.rtext]
  | uncert =>
    intro st rest
    have e : texToks (['\\', 'p', 'm'] ++ (s' ++ rest)) = .cs ['p', 'm'] :: texToks (s' ++ rest) := by
      have : texToks (['\\', 'p', 'm'] ++ (s' ++ rest)) = texGo (some ['p', 'm']) (s' ++ rest) := rfl
      rw [this, texGo_word (by simp)]
      · rfl
      · cases s' with
        | nil => exact absurd rfl hne
        | cons c s => simpa using hg rfl
    simp only [BinOp.llatex, BinOp.latex, BinOp.rlatex, List.nil_append, List.append_nil]
    simp only [List.append_assoc]
    rw [h, e]
    have e2 : untexGo st false 0 (.cs ['p', 'm'] :: texToks (s' ++ rest)) = pmSign ++ untexGo st false 0 (texToks (s' ++ rest)) := rfl
    rw [e2, h']
    simp [BinOp.text, BinOp.rtext]

theorem unTo_terms {K : Type} {showK showK' : K → List Char} (xs : List (Expr K)) (x : Expr K) (s : List Char)
    (h : ∀ y ∈ x :: xs, ∀ s, y.latex showK = some s → ∃ t, y.repr showK' = some t ∧ UnTo s t)
    (hs : latexTerms showK (x :: xs) = some s) :
    ∃ s' t', s = s' ++ [',', ' '] ∧ reprTerms showK' (x :: xs) = some (t' ++ [',', ' ']) ∧ UnTo s' t' := by
  induction xs generalizing x s with
  | nil =>
    rw [latexTerms] at hs
    cases hx : x.latex showK with
    | none => simp [hx] at hs
    | some sx =>
      obtain ⟨t1, h1, h2⟩ := h x (by simp) sx hx
      simp [hx, latexTerms] at hs
      exact ⟨sx, t1, hs.symm, by simp [reprTerms, h1], h2⟩
  | cons y ys ih =>
    rw [latexTerms] at hs
    cases hx : x.latex showK with
    | none => simp [hx] at hs
    | some sx =>
      cases hys : latexTerms showK (y :: ys) with
      | none => simp [hx, hys] at hs
      | some ss =>
        obtain ⟨t1, h1, h2⟩ := h x (by simp) sx hx
        obtain ⟨s', t2, rfl, h3, h4⟩ := ih y ss (fun z hz => h z (by simp at hz ⊢; tauto)) hys
        simp [hx, hys] at hs
        have c : UnTo [',', ' '] [',', ' '] := fun _ _ => rfl
        refine ⟨sx ++ [',', ' '] ++ s', t1 ++ [',', ' '] ++ t2, by rw [← hs]; simp, ?_, (h2.append c).append h4⟩
        rw [reprTerms]
        simp [h1, h3]

theorem unTo_entries {K : Type} {showK showK' : K → List Char} (xs : List (List Char × Expr K))
    (x : List Char × Expr K) (s : List Char) (hN : ∀ p ∈ x :: xs, ∀ c ∈ p.1, isAlpha c = true)
    (h : ∀ y ∈ x :: xs, ∀ s, y.2.latex showK = some s → ∃ t, y.2.repr showK' = some t ∧ UnTo s t)
    (hs : latexEntries showK (x :: xs) = some s) :
    ∃ s' t', s = s' ++ [',', ' '] ∧ reprEntries showK' (x :: xs) = some (t' ++ [',', ' ']) ∧ UnTo s' t' := by
  have c2 : UnTo [':'] [':'] := fun _ _ => rfl
  induction xs generalizing x s with
  | nil =>
    obtain ⟨k, v⟩ := x
    rw [latexEntries] at hs
    cases hx : v.latex showK with
    | none => simp [hx] at hs
    | some sx =>
      obtain ⟨t1, h1, h2⟩ := h (k, v) (by simp) sx hx
      replace h1 : v.repr showK' = some t1 := h1
      simp [hx, latexEntries] at hs
      exact ⟨k ++ [':'] ++ sx, k ++ [':'] ++ t1, by rw [← hs]; simp, by simp [reprEntries, h1],
        ((unTo_alpha (hN (k, v) (by simp))).append c2).append h2⟩
  | cons y ys ih =>
    obtain ⟨k, v⟩ := x
    rw [latexEntries] at hs
    cases hx : v.latex showK with
    | none => simp [hx] at hs
    | some sx =>
      cases hys : latexEntries showK (y :: ys) with
      | none => simp [hx, hys] at hs
      | some ss =>
        obtain ⟨t1, h1, h2⟩ := h (k, v) (by simp) sx hx
        replace h1 : v.repr showK' = some t1 := h1
        obtain ⟨s', t2, rfl, h3, h4⟩ := ih y ss (fun z hz => hN z (by simp at hz ⊢; tauto))
          (fun z hz => h z (by simp at hz ⊢; tauto)) hys
        simp [hx, hys] at hs
        have c : UnTo [',', ' '] [',', ' '] := fun _ _ => rfl
        refine ⟨k ++ [':'] ++ sx ++ [',', ' '] ++ s', k ++ [':'] ++ t1 ++ [',', ' '] ++ t2, by rw [← hs]; simp, ?_,
          ((((unTo_alpha (hN (k, v) (by simp))).append c2).append h2).append c).append h4⟩
        rw [reprEntries]
        simp [h1, h3]

theorem unTo_latex {K : Type} {showK : K → List Char} {e : Expr K} (h : Texable showK e) :
    TexOk showK e → ∀ s, e.latex showK = some s →
      ∃ t, e.repr (fun k => untex (latexNum (showK k))) = some t ∧ UnTo s t := by
  induction h with
  | const h =>
    intro _ s hs
    rw [Expr.latex, Option.some.injEq] at hs
    subst hs
    exact ⟨_, rfl, unTo_num h⟩
  | var h h' =>
    intro _ s hs
    rw [Expr.latex, Option.some.injEq] at hs
    subst hs
    exact ⟨_, rfl, unTo_alpha h'⟩
  | @un o a h ih =>
    intro hok s hs
    cases hok with
    | un ho hok =>
    rw [Expr.latex] at hs
    cases ha : a.latex showK with
    | none => simp [ha] at hs
    | some sa =>
      cases hb : a.BP with
      | none => simp [ha, hb] at hs
      | some p =>
        simp only [ha, hb, Option.bind_eq_bind, Option.bind_some, Option.some.injEq] at hs
        subst hs
        obtain ⟨t, h1, h2⟩ := ih hok sa ha
        exact ⟨_, by simp [Expr.repr, h1, hb]; rfl, by simpa using unTo_un ho (h2.wrap (decide (p.1 < o.bp)))⟩
  | @bin o l r h1 h2 ih1 ih2 =>
    intro hok s hs
    cases hok with
    | bin c1 c2 hokl hokr =>
    rw [Expr.latex] at hs
    cases hl : l.latex showK with
    | none => cases hb : l.BP <;> cases hb' : r.BP <;> simp [hl, hb, hb'] at hs
    | some sl =>
      cases hr : r.latex showK with
      | none => cases hb : l.BP <;> cases hb' : r.BP <;> simp [hl, hr, hb, hb'] at hs
      | some sr =>
        cases hb : l.BP with
        | none => simp [hb] at hs
        | some p =>
          cases hb' : r.BP with
          | none => simp [hb, hb'] at hs
          | some p' =>
            obtain ⟨-, hp'⟩ := toks_isDict (showK := showK) hb'
            simp only [hl, hr, hb, hb', Option.bind_eq_bind, Option.bind_some, Option.some.injEq] at hs
            subst hs
            obtain ⟨tl, e1, u1⟩ := ih1 hokl sl hl
            obtain ⟨tr, e2, u2⟩ := ih2 hokr sr hr
            refine ⟨wrapIf (decide (p.2 < o.lbp)) tl ++ o.text ++
              wrapIf (decide (o.rbp > p'.1) && !o.wrapped) tr ++ o.rtext, by simp [Expr.repr, e1, e2, hb, hb'], ?_⟩
            refine unTo_bin (u1.wrap _) (u2.wrap _) ?_ ?_
            · unfold wrapL
              split
              · simp
              · exact latex_ne h2 hr
            · intro ho c hc
              by_cases hp : (decide (o.rbp > p'.1) && !o.wrapped) = true
              · rw [hp] at hc
                simp [wrapL] at hc
                rw [← hc]; decide
              · rw [Bool.not_eq_true] at hp
                rw [hp] at hc
                simp only [wrapL, Bool.false_eq_true, if_false] at hc
                rcases c2 ho with hu | hu
                · subst ho hp'
                  simp [parenR, BinOp.wrapped] at hu hp
                  omega
                · cases sr with
                  | nil => simp at hc
                  | cons d sr =>
                    simp at hc
                    subst hc
                    by_contra hal
                    exact hu ⟨d, sr, hr, by simpa using hal⟩
  | @arr xs h ih =>
    intro hok s hs
    cases hok with
    | arr hok =>
    have b1 : UnTo ['\\', 'l', 'e', 'f', 't', '['] ['['] := fun _ _ => rfl
    have b2 : UnTo ['\\', 'r', 'i', 'g', 'h', 't', ']'] [']'] := fun _ _ => rfl
    cases xs with
    | nil =>
      rw [Expr.latex, Option.some.injEq] at hs
      subst hs
      exact ⟨_, rfl, b1.append b2⟩
    | cons x xs =>
      rw [Expr.latex] at hs
      cases hx : latexTerms showK (x :: xs) with
      | none => simp [hx] at hs
      | some ss =>
        obtain ⟨s', t', rfl, h1, h2⟩ := unTo_terms xs x ss (fun y hy => ih y hy (hok y hy)) hx
        simp only [hx, Option.bind_eq_bind, Option.bind_some, Option.some.injEq] at hs
        rw [← List.append_assoc ['\\', 'l', 'e', 'f', 't', '['] s', dropTwo_append] at hs
        subst hs
        refine ⟨['['] ++ t' ++ [']'], ?_, (b1.append h2).append b2⟩
        rw [Expr.repr, h1]
        simp only [Option.bind_eq_bind, Option.bind_some]
        rw [← List.append_assoc ['['] t', dropTwo_append]
  | @dict xs hN h ih =>
    intro hok s hs
    cases hok with
    | dict hok =>
    have b1 : UnTo ['\\', 'l', 'e', 'f', 't', '\\', '{'] ['{'] := fun _ _ => rfl
    have b2 : UnTo ['\\', 'r', 'i', 'g', 'h', 't', '\\', '}'] ['}'] := fun _ _ => rfl
    cases xs with
    | nil =>
      rw [Expr.latex, Option.some.injEq] at hs
      subst hs
      exact ⟨_, rfl, b1.append b2⟩
    | cons x xs =>
      rw [Expr.latex] at hs
      cases hx : latexEntries showK (x :: xs) with
      | none => simp [hx] at hs
      | some ss =>
        obtain ⟨s', t', rfl, h1, h2⟩ := unTo_entries xs x ss (fun y hy => (hN y hy).2)
          (fun y hy => ih y hy (hok y hy)) hx
        simp only [hx, Option.bind_eq_bind, Option.bind_some, Option.some.injEq] at hs
        rw [← List.append_assoc ['\\', 'l', 'e', 'f', 't', '\\', '{'] s', dropTwo_append] at hs
        subst hs
        refine ⟨['{'] ++ t' ++ ['}'], ?_, (b1.append h2).append b2⟩
        rw [Expr.repr, h1]
        simp only [Option.bind_eq_bind, Option.bind_some]
        rw [← List.append_assoc ['{'] t', dropTwo_append]

/-! ## C66 -/

/-- No operand of an operator is a dictionary. -/
inductive NoDictOperand {K : Type} : Expr K → Prop
  | const {k} : NoDictOperand (.const k)
  | var {n} : NoDictOperand (.var n)
  | un {o a} : (∀ kvs, a ≠ .dict kvs) → NoDictOperand a → NoDictOperand (.un o a)
  | bin {o l r} : (∀ kvs, l ≠ .dict kvs) → (∀ kvs, r ≠ .dict kvs) → NoDictOperand l → NoDictOperand r →
      NoDictOperand (.bin o l r)
  | arr {xs} : (∀ x ∈ xs, NoDictOperand x) → NoDictOperand (.arr xs)
  | dict {kvs : List (List Char × Expr K)} : (∀ p ∈ kvs, NoDictOperand p.2) → NoDictOperand (.dict kvs)

theorem BP_some_iff {K : Type} (e : Expr K) : (∃ p, e.BP = some p) ↔ ∀ kvs, e ≠ .dict kvs := by
  cases e <;> simp [Expr.BP]

theorem latexTerms_some {K : Type} (showK : K → List Char) (xs : List (Expr K)) :
    (∃ s, latexTerms showK xs = some s) ↔ ∀ x ∈ xs, ∃ s, x.latex showK = some s := by
  induction xs with
  | nil => simp [latexTerms]
  | cons x xs ih =>
    rw [List.forall_mem_cons, ← ih, latexTerms]
    cases x.latex showK <;> cases latexTerms showK xs <;> simp

theorem latexEntries_some {K : Type} (showK : K → List Char) (xs : List (List Char × Expr K)) :
    (∃ s, latexEntries showK xs = some s) ↔ ∀ x ∈ xs, ∃ s, x.2.latex showK = some s := by
  induction xs with
  | nil => simp [latexEntries]
  | cons x xs ih =>
    obtain ⟨k, v⟩ := x
    rw [List.forall_mem_cons, ← ih, latexEntries]
    cases v.latex showK <;> cases latexEntries showK xs <;> simp

/-- C66: the printer ends exactly if no operand of an operator is a dictionary. -/
theorem C66_printed_iff {K : Type} (showK : K → List Char) (e : Expr K) :
    (∃ s, e.latex showK = some s) ↔ NoDictOperand e := by
  induction e using Expr.ind with
  | const k => simp [Expr.latex, NoDictOperand.const]
  | var n => simp [Expr.latex, NoDictOperand.var]
  | un o a ih =>
    have e1 : (∃ s, (Expr.un o a).latex showK = some s) ↔ (∃ s, a.latex showK = some s) ∧ ∃ p, a.BP = some p := by
      rw [Expr.latex]
      cases a.latex showK <;> cases a.BP <;> simp
    rw [e1, ih, BP_some_iff]
    exact ⟨fun h => .un h.2 h.1, fun h => by cases h; exact ⟨by assumption, by assumption⟩⟩
  | bin o l r ihl ihr =>
    have e1 : (∃ s, (Expr.bin o l r).latex showK = some s) ↔
        ((∃ s, l.latex showK = some s) ∧ ∃ p, l.BP = some p) ∧ (∃ s, r.latex showK = some s) ∧ ∃ p, r.BP = some p := by
      rw [Expr.latex]
      cases l.latex showK <;> cases l.BP <;> cases r.latex showK <;> cases r.BP <;> simp
    rw [e1, ihl, ihr, BP_some_iff, BP_some_iff]
    exact ⟨fun h => .bin h.1.2 h.2.2 h.1.1 h.2.1, fun h => by
      cases h; exact ⟨⟨by assumption, by assumption⟩, by assumption, by assumption⟩⟩
  | arr xs ih =>
    have e1 : (∃ s, (Expr.arr xs).latex showK = some s) ↔ ∃ s, latexTerms showK xs = some s := by
      cases xs with
      | nil => simp [Expr.latex, latexTerms]
      | cons x xs => rw [Expr.latex]; cases latexTerms showK (x :: xs) <;> simp
    rw [e1, latexTerms_some]
    exact ⟨fun h => .arr fun x hx => (ih x hx).1 (h x hx), fun h => by
      cases h with | arr h => exact fun x hx => (ih x hx).2 (h x hx)⟩
  | dict xs ih =>
    have e1 : (∃ s, (Expr.dict xs).latex showK = some s) ↔ ∃ s, latexEntries showK xs = some s := by
      cases xs with
      | nil => simp [Expr.latex, latexEntries]
      | cons x xs => rw [Expr.latex]; cases latexEntries showK (x :: xs) <;> simp
    rw [e1, latexEntries_some]
    exact ⟨fun h => .dict fun x hx => (ih x hx).1 (h x hx), fun h => by
      cases h with | dict h => exact fun x hx => (ih x hx).2 (h x hx)⟩

/-- C66: the text is well-formed exactly for the expressions of `TexOk`. -/
theorem C66_wellformed_iff {K : Type} {showK : K → List Char} {e : Expr K} (h : Texable showK e) {s : List Char}
    (hs : e.latex showK = some s) : TexValid s ↔ TexOk showK e := by
  constructor
  · intro hv
    by_contra hok
    have := (texInd h s hs).2 hok (logs_of_valid h hs hv) [] false []
    obtain ⟨b, hb⟩ := hv
    rw [List.append_nil, hb] at this
    simp at this
  · intro hok
    have := (texInd h s hs).1 hok [] false []
    rw [List.append_nil] at this
    exact ⟨_, this⟩

/-- C66: if the text is well-formed, then without the TeX markup it is the default output (C02), with exponents of
numbers written as powers of ten. -/
theorem C66_text {K : Type} {showK : K → List Char} {e : Expr K} (h : Texable showK e) {s : List Char}
    (hs : e.latex showK = some s) (hv : TexValid s) :
    e.repr (fun k => untex (latexNum (showK k))) = some (untex s) := by
  obtain ⟨t, h1, h2⟩ := unTo_latex h ((C66_wellformed_iff h hs).1 hv) s hs
  rw [h1, h2.untex]

/-- C66: the numbers in `C66_text`. -/
theorem C66_text_number (m ds : List Char) (hm : ∀ c ∈ m, c ≠ 'e' ∧ c ≠ ',' ∧ texSpecial c = false) (hd : Digits ds) :
    untex (latexNum m) = m ∧
    untex (latexNum (m ++ ['e', '+'] ++ ds)) = m ++ ['*', '1', '0', '^'] ++ ds ∧
    untex (latexNum (m ++ ['e', '-'] ++ ds)) = m ++ ['*', '1', '0', '^', '-'] ++ ds := by
  have cb : ∀ l : List Char, ',' ∉ l → commaBlank l = l := by
    intro l hl
    induction l with
    | nil => rfl
    | cons c l ih =>
      simp at hl
      have := ih hl.2
      simp only [commaBlank] at this
      simp [commaBlank, Ne.symm hl.1, this]
  have hme : 'e' ∉ m := fun h => (hm _ h).1 rfl
  have hde : 'e' ∉ ds := fun h => absurd (hd _ h) (by decide)
  have um : UnTo m m := by
    have := unTo_plain fun c hc => (hm c hc).2.2
    rwa [cb m fun h => (hm _ h).2.1 rfl] at this
  have ud : UnTo ds ds := by
    have := unTo_plain fun c hc => digit_plain (hd c hc)
    rwa [cb ds fun h => absurd (hd _ h) (by decide)] at this
  have b1 : UnTo ['\\', 't', 'i', 'm', 'e', 's', '1', '0', '^'] ['*', '1', '0', '^'] := fun _ _ => rfl
  have b2 : UnTo ['-'] ['-'] := fun _ _ => rfl
  refine ⟨?_, ?_, ?_⟩
  · rw [latexNum_none hme]
    exact um.untex
  · rw [latexNum_plus hme hde]
    refine UnTo.untex ?_
    simpa using (um.append b1).append ud.brace
  · have := latexNum_other (m := m) (x := '-' :: ds) hme (by simp [hde]) (by simp)
    rw [show m ++ ['e', '-'] ++ ds = m ++ ['e'] ++ '-' :: ds by simp, this]
    refine UnTo.untex ?_
    simpa using (um.append b1).append (b2.append ud).brace

/-- C66: the text of a number: as `printf` makes it, or with the exponent as a power of ten (without a plus
sign). -/
theorem C66_number (m ds : List Char) (hm : 'e' ∉ m) (hd : Digits ds) :
    latexNum m = m ∧
    latexNum (m ++ ['e', '+'] ++ ds) = m ++ ['\\', 't', 'i', 'm', 'e', 's', '1', '0', '^', '{'] ++ ds ++ ['}'] ∧
    latexNum (m ++ ['e', '-'] ++ ds) = m ++ ['\\', 't', 'i', 'm', 'e', 's', '1', '0', '^', '{', '-'] ++ ds ++ ['}'] ∧
    latexNum (m ++ ['e'] ++ ds) = m ++ ['\\', 't', 'i', 'm', 'e', 's', '1', '0', '^', '{'] ++ ds ++ ['}'] := by
  have hde : 'e' ∉ ds := fun h => absurd (hd _ h) (by decide)
  refine ⟨latexNum_none hm, latexNum_plus hm hde, ?_, latexNum_other hm hde ?_⟩
  · have := latexNum_other (m := m) (x := '-' :: ds) hm (by simp [hde]) (by simp)
    simpa using this
  · intro h
    cases ds with
    | nil => simp at h
    | cons d ds => simp at h; exact absurd (hd d (by simp)) (by rw [h]; decide)

/-- C66 fails for every logarithm: there is a closing brace too many. -/
theorem C66_log {K : Type} {showK : K → List Char} {a : Expr K} (h : Texable showK a) {s : List Char}
    (hs : (Expr.un .log a).latex showK = some s) : ¬ TexValid s := by
  rw [C66_wellformed_iff (.un h) hs]
  intro hok
  cases hok with
  | un ho _ => exact ho rfl

/-- C66 fails for every expression with a logarithm anywhere. -/
theorem C66_log_inside {K : Type} {showK : K → List Char} {e : Expr K} (h : Texable showK e) {s : List Char}
    (hs : e.latex showK = some s) (hl : e.logs ≠ 0) : ¬ TexValid s :=
  fun hv => hl (logs_of_valid h hs hv)

/-- C66 fails for every power of a power, of an exponential and of a number with an exponent: two superscripts. -/
theorem C66_double_superscript {K : Type} {showK : K → List Char} {a b c : Expr K} {k : K} {s : List Char}
    (ha : Texable showK a) (hb : Texable showK b) (hc : Texable showK c) {f : Bool} (hk : NumText (showK k) f)
    (hs : (Expr.bin .pow (.bin .pow a b) c).latex showK = some s ∨
      (Expr.bin .pow (.un .exp a) c).latex showK = some s ∨
      ('e' ∈ showK k ∧ (Expr.bin .pow (.const k) c).latex showK = some s)) : ¬ TexValid s := by
  rcases hs with hs | hs | ⟨he, hs⟩
  · rw [C66_wellformed_iff (.bin (.bin ha hb) hc) hs]
    intro hok
    cases hok with
    | bin h _ _ _ =>
      rcases h rfl with h | h
      · exact absurd (show false = true from h) (by simp)
      · revert h; simp [Expr.endsSup]
  · rw [C66_wellformed_iff (.bin (.un ha) hc) hs]
    intro hok
    cases hok with
    | bin h _ _ _ =>
      rcases h rfl with h | h
      · exact absurd (show false = true from h) (by simp)
      · revert h; simp [Expr.endsSup]
  · rw [C66_wellformed_iff (.bin (.const hk) hc) hs]
    intro hok
    cases hok with
    | bin h _ _ _ =>
      rcases h rfl with h | h
      · exact absurd (show false = true from h) (by simp)
      · revert h; simp [Expr.endsSup, he]

/-- C66 fails for every `a±x` with a variable `x`: the name is read as part of the control sequence. -/
theorem C66_pm_glued {K : Type} {showK : K → List Char} {a : Expr K} {n : List Char} (ha : Texable showK a)
    (hn : n ≠ []) (hn' : ∀ c ∈ n, isAlpha c = true) {s : List Char}
    (hs : (Expr.bin .uncert a (.var n)).latex showK = some s) : ¬ TexValid s := by
  rw [C66_wellformed_iff (.bin ha (.var hn hn')) hs]
  intro hok
  cases hok with
  | bin _ h _ _ =>
    rcases h rfl with h | h
    · exact absurd (show false = true from h) (by simp)
    · cases n with
      | nil => exact hn rfl
      | cons c n => exact h ⟨c, n, rfl, hn' c (by simp)⟩

/-- C66: as in the default output (C02), a negative constant as the base of a power is printed like the
negated power. -/
theorem C66_negative_base {K : Type} (showK : K → List Char) (k k' : K) (e : Expr K)
    (h : showK k = '-' :: showK k') (he : 'e' ∉ showK k') :
    (Expr.bin .pow (.const k) e).latex showK = (Expr.un .neg (.bin .pow (.const k') e)).latex showK := by
  have h1 : latexNum (showK k') = showK k' := latexNum_none he
  have h2 : latexNum (showK k) = '-' :: showK k' := by rw [h]; exact latexNum_none (by simp [he])
  have b1 : (Expr.const k).BP = some (intMax, intMax) := rfl
  have b2 : (Expr.const k').BP = some (intMax, intMax) := rfl
  have b3 : (Expr.bin .pow (Expr.const k') e).BP = some (BinOp.pow.lbp, BinOp.pow.rbp) := rfl
  simp only [Expr.latex, h1, h2, Option.bind_eq_bind, b1, b2, b3, Option.bind_some]
  cases e.BP with
  | none => rfl
  | some p =>
    cases e.latex showK with
    | none => rfl
    | some t =>
      simp only [Option.bind_some]
      rw [show decide (intMax < BinOp.pow.lbp) = false from rfl,
        show decide (BinOp.pow.lbp < UnOp.neg.bp) = false from rfl]
      simp [wrapL, BinOp.llatex, UnOp.llatex, UnOp.rlatex]

/-! ### Examples -/

/-- A number type with the texts themselves as numbers. -/
private abbrev T := List Char
private def x : Expr T := .var ['x']
private def y : Expr T := .var ['y']
private def k (s : List Char) : Expr T := .const s

-- (x+2)^y / sin(x)
example : (Expr.bin .div (.bin .pow (.bin .add x (k ['2'])) y) (.un .sin x)).latex id
    = some ['\\', 'f', 'r', 'a', 'c', '{', '\\', 'l', 'e', 'f', 't', '(', 'x', '+', '2', '\\', 'r', 'i', 'g', 'h', 't', ')', '^', '{', 'y', '}', '}', '{', '\\', 'l', 'e', 'f', 't', '(', '\\', 's', 'i', 'n', ' ', 'x', '\\', 'r', 'i', 'g', 'h', 't', ')', '}'] := by decide +kernel
example : TexValid ['\\', 'f', 'r', 'a', 'c', '{', '\\', 'l', 'e', 'f', 't', '(', 'x', '+', '2', '\\', 'r', 'i', 'g', 'h', 't', ')', '^', '{', 'y', '}', '}', '{', '\\', 'l', 'e', 'f', 't', '(', '\\', 's', 'i', 'n', ' ', 'x', '\\', 'r', 'i', 'g', 'h', 't', ')', '}'] := by decide +kernel
example : Texable id (Expr.bin .div (.bin .pow (.bin .add x (k ['2'])) y) (.un .sin x)) :=
  .bin (.bin (.bin (.var (by decide) (by decide)) (.const (b := false) ⟨['2'], [], rfl, by decide, by decide, rfl⟩))
    (.var (by decide) (by decide))) (.un (.var (by decide) (by decide)))
example : TexOk id (Expr.bin .div (.bin .pow (.bin .add x (k ['2'])) y) (.un .sin x)) :=
  .bin (by simp) (by simp) (.bin (fun _ => .inl rfl) (by simp) (.bin (by simp) (by simp) .var .const) .var)
    (.un (by simp) .var)
example : untex ['\\', 'f', 'r', 'a', 'c', '{', '\\', 'l', 'e', 'f', 't', '(', 'x', '+', '2', '\\', 'r', 'i', 'g', 'h', 't', ')', '^', '{', 'y', '}', '}', '{', '\\', 'l', 'e', 'f', 't', '(', '\\', 's', 'i', 'n', ' ', 'x', '\\', 'r', 'i', 'g', 'h', 't', ')', '}'] = ['(', 'x', '+', '2', ')', '^', 'y', '/', '(', 's', 'i', 'n', ' ', 'x', ')'] := by decide +kernel
-- ln(x): an extra brace
example : (Expr.un .log x).latex id = some ['\\', 'l', 'n', ' ', 'x', '}'] := rfl
example : ¬ TexValid ['\\', 'l', 'n', ' ', 'x', '}'] := by decide +kernel
-- (x^y)^x
example : (Expr.bin .pow (.bin .pow x y) x).latex id = some ['x', '^', '{', 'y', '}', '^', '{', 'x', '}'] := rfl
example : ¬ TexValid ['x', '^', '{', 'y', '}', '^', '{', 'x', '}'] := by decide +kernel
-- 1e20^x
example : (Expr.bin .pow (k ['1', 'e', '+', '2', '0']) x).latex id = some ['1', '\\', 't', 'i', 'm', 'e', 's', '1', '0', '^', '{', '2', '0', '}', '^', '{', 'x', '}'] := by decide +kernel
example : NumText ['1', 'e', '+', '2', '0'] true := ⟨['1'], ['e', '+', '2', '0'], rfl, by decide, by decide, ['+'], ['2', '0'], rfl, by decide, by unfold Digits; decide⟩
-- x±y
example : (Expr.bin .uncert x y).latex id = some ['x', '\\', 'p', 'm', 'y'] := rfl
example : ¬ TexValid ['x', '\\', 'p', 'm', 'y'] := by decide +kernel
example : TexValid ['x', '\\', 'p', 'm', '2'] := by decide +kernel
-- [x, {a:2}]
example : (Expr.arr [x, .dict [(['a'], k ['2'])]]).latex id = some ['\\', 'l', 'e', 'f', 't', '[', 'x', ',', ' ', '\\', 'l', 'e', 'f', 't', '\\', '{', 'a', ':', '2', '\\', 'r', 'i', 'g', 'h', 't', '\\', '}', '\\', 'r', 'i', 'g', 'h', 't', ']'] := by
  decide +kernel
example : TexValid ['\\', 'l', 'e', 'f', 't', '[', 'x', ',', ' ', '\\', 'l', 'e', 'f', 't', '\\', '{', 'a', ':', '2', '\\', 'r', 'i', 'g', 'h', 't', '\\', '}', '\\', 'r', 'i', 'g', 'h', 't', ']'] := by decide +kernel

end Stator
