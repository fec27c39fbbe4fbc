import Mathlib.Data.List.Infix
import Mathlib.Data.List.OfFn
import Mathlib.Data.List.Sort
import Mathlib.Data.List.Range
import Mathlib.Tactic.Linarith
import Verif.Ds.Outcome

/-!
# XML documents (C50)

Models `stator/xml.hpp`. RapidXML is not part of the repository; the members that are used
(`first_node`, `first_attribute`, `next_sibling`, `previous_sibling`, `append_node`, `append_attribute`, `value`)
are written out below from its documentation. A node is named by the way to it from the document: the list of
child positions.
-/

namespace Stator.Ds.Xml

open Stator.Ds (Out)

/-- Text. -/
abbrev Str := List Char

/-- A RapidXML node: name, value, attributes (name, value), children. `rest` are the characters that stand in
memory after the value, up to the first NUL: nothing for a string of its own, the rest of the file for a node
that was parsed (`parse_non_destructive` puts no NUL behind a value, xml.hpp:430). -/
inductive XNode
  | mk (name value rest : Str) (attrs : List (Str × Str)) (children : List XNode)

/-- Name of a node. -/
def XNode.name : XNode → Str | mk n _ _ _ _ => n
/-- Value of a node. -/
def XNode.value : XNode → Str | mk _ v _ _ _ => v
/-- What stands in memory behind the value. -/
def XNode.rest : XNode → Str | mk _ _ r _ _ => r
/-- Attributes of a node. -/
def XNode.attrs : XNode → List (Str × Str) | mk _ _ _ a _ => a
/-- Children of a node. -/
def XNode.children : XNode → List XNode | mk _ _ _ _ c => c

/-- The way from the document to a node. -/
abbrev Loc := List Nat

/-- The node at a location of the document. -/
def nodeAt : XNode → Loc → Option XNode
  | x, [] => some x
  | x, k :: l => match x.children[k]? with
    | none => none
    | some c => nodeAt c l

/-! ## Paths -/

/-- `previous_sibling(name)` of child `k`: the nearest earlier child with that name. -/
def prevSame (name : Str) (cs : List XNode) : Nat → Option Nat
  | 0 => none
  | j + 1 => match cs[j]? with
    | none => prevSame name cs j
    | some c => if c.name = name then some j else prevSame name cs j

/-- `first_node(name)` / `next_sibling(name)`: the first child with that name among the given ones, the first
of which is child `k`. -/
def findSame (name : Str) : Nat → List XNode → Option Nat
  | _, [] => none
  | k, c :: cs => if c.name = name then some k else findSame name (k + 1) cs

/-- `next_sibling(name)` of child `k`. -/
def nextSame (name : Str) (cs : List XNode) (k : Nat) : Option Nat := findSame name (k + 1) (cs.drop (k + 1))

/-- `while (sibling) { sibling = sibling->previous_sibling(); ++index; }` from child `j`.
models: xml.hpp:47. -/
def countBack : Nat → Int → Int
  | 0, index => index + 1
  | j + 1, index => countBack j (index + 1)

/-- The number `getPath` writes for child `k` of a node with children `cs` (it writes none if negative).
models: xml.hpp:42-51. -/
def sibIndex (cs : List XNode) (name : Str) (k : Nat) : Int :=
  let index := match prevSame name cs k with
    | none => 0
    | some j => countBack j 0
  if index = 0 ∧ (nextSame name cs k).isNone then -1 else index

/-- Decimal digits of a number. -/
def digits (n : Nat) : Str := (Nat.repr n).toList

/-- One step of a path. models: xml.hpp:62-65. -/
def segment (name : Str) (index : Int) : Str :=
  '/' :: name ++ (if index ≥ 0 then '[' :: digits index.toNat ++ [']'] else [])

/-- `getPath`: the steps from the document, which has no parent and so gets index 0, to the node.
models: xml.hpp:37-68. -/
def getPath (doc : XNode) (loc : Loc) : Str :=
  segment doc.name 0 ++ go doc loc
where
  /-- the steps below a node -/
  go : XNode → Loc → Str
    | _, [] => []
    | x, k :: l => match x.children[k]? with
      | none => []
      | some c => segment c.name (sibIndex x.children c.name k) ++ go c l

/-! ## Nodes and attributes -/

/-- A `Node`: the node, or nothing if it is not valid, and the parent. models: xml.hpp:350-351, 285. -/
structure H where
  node : Option Loc
  parent : Option Loc

/-- `findNode`. models: xml.hpp:187-193. -/
def findNode (doc : XNode) (h : H) (name : Str) : Out H :=
  match h.node with
  | none => .throw
  | some l => match nodeAt doc l with
    | none => .ub
    | some x => .ok ⟨(findSame name 0 x.children).map fun k => l ++ [k], some l⟩

/-- `getNode(const char*)`. models: xml.hpp:172-180. -/
def getNode (doc : XNode) (h : H) (name : Str) : Out H := do
  let child ← findNode doc h name
  if child.node.isNone then .throw else .ok child

/-- `getNode(std::string)`: it does not check. models: xml.hpp:363-370. -/
def getNodeString (doc : XNode) (h : H) (name : Str) : Out H := findNode doc h name

/-- `hasNode`. models: xml.hpp:207-214. -/
def hasNode (doc : XNode) (h : H) (name : Str) : Out Bool :=
  match h.node with
  | none => .throw
  | some l => match nodeAt doc l with
    | none => .ub
    | some x => .ok (findSame name 0 x.children).isSome

/-- `operator++`; on the document itself, which has no parent, RapidXML is undefined.
models: xml.hpp:244-250. -/
def inc (doc : XNode) (h : H) : Out H :=
  match h.node with
  | none => .throw
  | some l => match l.getLast? with
    | none => .ub
    | some k => match nodeAt doc l.dropLast, nodeAt doc l with
      | some p, some x => .ok { h with node := (nextSame x.name p.children k).map fun j => l.dropLast ++ [j] }
      | _, _ => .ub

/-- `for (Node n = ...; n.valid(); ++n)`: the nodes that are visited; `none` after too many rounds. -/
def visit (doc : XNode) : Nat → H → Option (Out (List Loc))
  | 0, _ => none
  | fuel + 1, h =>
    match h.node with
    | none => some (.ok [])
    | some l => match inc doc h with
      | .ok h' => match visit doc fuel h' with
        | none => none
        | some r => some (do let ls ← r; .ok (l :: ls))
      | .throw => some .throw
      | .ub => some .ub

/-- `first_attribute(name)`. -/
def firstAttr (name : Str) : List (Str × Str) → Option (Str × Str)
  | [] => none
  | a :: as => if a.1 = name then some a else firstAttr name as

/-- `getAttribute(const char*)`: the value of the attribute, or an exception. models: xml.hpp:153-166, 88-94. -/
def getAttribute (x : XNode) (name : Str) : Out Str :=
  match firstAttr name x.attrs with
  | none => .throw
  | some a => .ok a.2

/-- `getAttribute(std::string)`: an `Attribute` that may not be valid. models: xml.hpp:354-361. -/
def getAttributeString (x : XNode) (name : Str) : Out (Option (Str × Str)) := .ok (firstAttr name x.attrs)

/-- `Attribute::getValue`. models: xml.hpp:88-94. -/
def attrValue : Option (Str × Str) → Out Str
  | none => .throw
  | some a => .ok a.2

/-- `hasAttribute`. models: xml.hpp:220-226, 469-473. -/
def hasAttribute (x : XNode) (name : Str) : Bool := (firstAttr name x.attrs).isSome

/-- `add_attribute(name, value)`. models: xml.hpp:308-314. -/
def addAttribute (x : XNode) (name value : Str) : XNode :=
  match x with
  | .mk n v r as cs => .mk n v r (as ++ [(name, value)]) cs

/-- `add_attribute(name, val, vals)`: the first entry of the map (in the order of its keys) with that value.
models: xml.hpp:316-322. -/
def addMapped {T : Type} [DecidableEq T] (x : XNode) (name : Str) (val : T) : List (Str × T) → Out XNode
  | [] => .throw
  | v :: vals => if val = v.2 then .ok (addAttribute x name v.1) else addMapped x name val vals

/-- `Attribute::match`. models: xml.hpp:119-126. -/
def matchAttr {T : Type} (s : Str) : List (Str × T) → Out T
  | [] => .throw
  | v :: vals => if s = v.1 then .ok v.2 else matchAttr s vals

/-- `operator=`. models: xml.hpp:329-333. -/
def setValue (x : XNode) (v : Str) : XNode :=
  match x with
  | .mk n _ _ as cs => .mk n v [] as cs

/-- `operator+=`: `_node->value() + value` reads up to the NUL. models: xml.hpp:335-343. -/
def addValue (x : XNode) (v : Str) : XNode :=
  if x.value.length = 0 then setValue x v else setValue x (x.value ++ x.rest ++ v)

/-! ## Lemmas -/

theorem countBack_eq (j : Nat) (i : Int) : countBack j i = i + j + 1 := by
  induction j generalizing i with
  | zero => simp [countBack]
  | succ j ih => rw [countBack, ih]; push_cast; omega

theorem prevSame_some {name : Str} {cs : List XNode} {k j : Nat} (h : prevSame name cs k = some j) :
    j < k ∧ (∃ c, cs[j]? = some c ∧ c.name = name) ∧
      ∀ i, j < i → i < k → ∀ c, cs[i]? = some c → c.name ≠ name := by
  induction k with
  | zero => simp [prevSame] at h
  | succ k ih =>
    unfold prevSame at h
    split at h
    · rename_i hc
      obtain ⟨h1, h2, h3⟩ := ih h
      refine ⟨by omega, h2, fun i hi hik c hc' => ?_⟩
      rcases Nat.lt_succ_iff_lt_or_eq.1 hik with h' | rfl
      · exact h3 i hi h' c hc'
      · rw [hc] at hc'; cases hc'
    · rename_i c hc
      split at h
      · rename_i hn
        cases h
        exact ⟨by omega, ⟨c, hc, hn⟩, fun i hi hik => by omega⟩
      · rename_i hn
        obtain ⟨h1, h2, h3⟩ := ih h
        refine ⟨by omega, h2, fun i hi hik c' hc' => ?_⟩
        rcases Nat.lt_succ_iff_lt_or_eq.1 hik with h' | rfl
        · exact h3 i hi h' c' hc'
        · rw [hc] at hc'; cases hc'; exact hn

theorem prevSame_none {name : Str} {cs : List XNode} {k : Nat} (h : prevSame name cs k = none) :
    ∀ i, i < k → ∀ c, cs[i]? = some c → c.name ≠ name := by
  induction k with
  | zero => intro i hi; omega
  | succ k ih =>
    unfold prevSame at h
    intro i hik c' hc'
    split at h
    · rename_i hc
      rcases Nat.lt_succ_iff_lt_or_eq.1 hik with h' | rfl
      · exact ih h i h' c' hc'
      · rw [hc] at hc'; cases hc'
    · rename_i c hc
      split at h
      · cases h
      · rename_i hn
        rcases Nat.lt_succ_iff_lt_or_eq.1 hik with h' | rfl
        · exact ih h i h' c' hc'
        · rw [hc] at hc'; cases hc'; exact hn

theorem findSame_some {name : Str} {cs : List XNode} {k j : Nat} (h : findSame name k cs = some j) :
    k ≤ j ∧ (∃ c, cs[j - k]? = some c ∧ c.name = name) ∧
      ∀ i, i < j - k → ∀ c, cs[i]? = some c → c.name ≠ name := by
  induction cs generalizing k with
  | nil => simp [findSame] at h
  | cons c cs ih =>
    unfold findSame at h
    split at h
    · rename_i hn
      cases h
      exact ⟨Nat.le_refl _, ⟨c, by simp, hn⟩, fun i hi => by omega⟩
    · rename_i hn
      obtain ⟨h1, ⟨d, h2, h2'⟩, h3⟩ := ih h
      have e : j - k = (j - (k + 1)) + 1 := by omega
      refine ⟨by omega, ⟨d, by rw [e]; simpa using h2, h2'⟩, ?_⟩
      intro i hi c' hc'
      cases i with
      | zero => simp at hc'; subst hc'; exact hn
      | succ i => exact h3 i (by omega) c' (by simpa using hc')

theorem findSame_none {name : Str} {cs : List XNode} {k : Nat} :
    findSame name k cs = none ↔ ∀ c ∈ cs, c.name ≠ name := by
  induction cs generalizing k with
  | nil => simp [findSame]
  | cons c cs ih =>
    unfold findSame
    split
    · rename_i hn; simp [hn]
    · rename_i hn; simp [ih, hn]

/-- The indices written for children of the same name grow strictly. -/
theorem sibIndex_lt {cs : List XNode} {name : Str} {k₁ k₂ : Nat} (h : k₁ < k₂)
    (h1 : ∃ c, cs[k₁]? = some c ∧ c.name = name) :
    sibIndex cs name k₁ < sibIndex cs name k₂ := by
  obtain ⟨c, hc, hn⟩ := h1
  have h2 : (k₁ : Int) + 1 ≤ sibIndex cs name k₂ := by
    unfold sibIndex
    cases hp : prevSame name cs k₂ with
    | none => exact absurd hn (prevSame_none hp k₁ h c hc)
    | some j =>
      obtain ⟨-, -, h3⟩ := prevSame_some hp
      have : k₁ ≤ j := by
        by_contra hj
        exact h3 k₁ (by omega) h c hc hn
      simp only [countBack_eq]
      rw [if_neg (by omega)]
      omega
  have h3 : sibIndex cs name k₁ ≤ (k₁ : Int) := by
    unfold sibIndex
    cases hp : prevSame name cs k₁ with
    | none => simp only; split <;> omega
    | some j =>
      obtain ⟨h4, -, -⟩ := prevSame_some hp
      simp only [countBack_eq]
      split <;> omega
  omega

theorem digits_not_mem {c : Char} (hc : ¬ c.isDigit) (n : Nat) : c ∉ digits n := by
  intro h
  have : c ∈ Nat.toDigits 10 n := by simpa [digits, Nat.repr] using h
  exact hc (Nat.isDigit_of_mem_toDigits (by decide) (by decide) this)

theorem digits_inj {m n : Nat} (h : digits m = digits n) : m = n := by
  have h1 : Nat.toDigits 10 m = Nat.toDigits 10 n := by simpa [digits, Nat.repr] using h
  have := congrArg (Nat.ofDigitChars 10 · 0) h1
  simpa [Nat.ofDigitChars_toDigits] using this

/-- Two texts cut at the first `ch` are equal when the parts are. -/
theorem cut_eq {ch : Char} {a b r s : Str} (ha : ch ∉ a) (hb : ch ∉ b) (hr : ∀ c, r.head? = some c → c = ch)
    (hs : ∀ c, s.head? = some c → c = ch) (h : a ++ r = b ++ s) : a = b ∧ r = s := by
  induction a generalizing b with
  | nil =>
    cases b with
    | nil => exact ⟨rfl, h⟩
    | cons d b =>
      simp at h
      have := hr d (by rw [h]; rfl)
      subst this
      simp at hb
  | cons c a ih =>
    cases b with
    | nil =>
      simp at h
      have := hs c (by rw [← h]; rfl)
      subst this
      simp at ha
    | cons d b =>
      simp at h ha hb
      obtain ⟨rfl, h⟩ := h
      obtain ⟨rfl, rfl⟩ := ih ha.2 hb.2 h
      exact ⟨rfl, rfl⟩

theorem sibIndex_ge (cs : List XNode) (name : Str) (k : Nat) : -1 ≤ sibIndex cs name k := by
  unfold sibIndex
  cases prevSame name cs k with
  | none => simp only; split <;> omega
  | some j => simp only [countBack_eq]; split <;> omega

theorem segment_inj {n₁ n₂ : Str} {i₁ i₂ : Int} (h1 : '[' ∉ n₁) (h2 : '[' ∉ n₂) (hi₁ : -1 ≤ i₁) (hi₂ : -1 ≤ i₂)
    (h : segment n₁ i₁ = segment n₂ i₂) : n₁ = n₂ ∧ i₁ = i₂ := by
  unfold segment at h
  simp only [List.cons_append, List.cons.injEq, true_and] at h
  obtain ⟨rfl, h'⟩ := cut_eq h1 h2 (by intro c; split <;> simp [eq_comm]) (by intro c; split <;> simp [eq_comm]) h
  refine ⟨rfl, ?_⟩
  by_cases a : i₁ ≥ 0
  · by_cases b : i₂ ≥ 0
    · rw [if_pos a, if_pos b] at h'
      simp at h'
      have := digits_inj h'
      omega
    · rw [if_pos a, if_neg b] at h'; simp at h'
  · by_cases b : i₂ ≥ 0
    · rw [if_neg a, if_pos b] at h'; simp at h'
    · omega

theorem segment_slash {n : Str} {i : Int} (h : '/' ∉ n) : ∃ t, segment n i = '/' :: t ∧ '/' ∉ t := by
  refine ⟨n ++ (if i ≥ 0 then '[' :: digits i.toNat ++ [']'] else []), rfl, ?_⟩
  simp only [List.mem_append, not_or]
  refine ⟨h, ?_⟩
  split
  · simp only [List.cons_append, List.mem_cons, List.mem_append, not_or]
    exact ⟨by decide, digits_not_mem (by decide) _, by decide, by simp⟩
  · simp

/-- No name in the document contains a slash or an opening bracket (they cannot in XML). -/
def PlainNames (doc : XNode) : Prop :=
  ∀ l x, nodeAt doc l = some x → '/' ∉ x.name ∧ '[' ∉ x.name

theorem PlainNames.child {x c : XNode} {k : Nat} (h : PlainNames x) (hc : x.children[k]? = some c) :
    PlainNames c := by
  intro l y hy
  exact h (k :: l) y (by simp [nodeAt, hc, hy])

theorem go_head (x : XNode) (l : Loc) : ∀ c, (getPath.go x l).head? = some c → c = '/' := by
  intro c hc
  cases l with
  | nil => simp [getPath.go] at hc
  | cons k l =>
    unfold getPath.go at hc
    split at hc
    · simp at hc
    · simp [segment] at hc; exact hc.symm

theorem go_inj (l₁ : Loc) : ∀ (x : XNode) (l₂ : Loc) (y₁ y₂ : XNode), PlainNames x →
    nodeAt x l₁ = some y₁ → nodeAt x l₂ = some y₂ → getPath.go x l₁ = getPath.go x l₂ → l₁ = l₂ := by
  induction l₁ with
  | nil =>
    intro x l₂ y₁ y₂ hp h1 h2 h
    cases l₂ with
    | nil => rfl
    | cons k l =>
      cases hc : x.children[k]? with
      | none => simp [nodeAt, hc] at h2
      | some c => simp [getPath.go, hc, segment] at h
  | cons k₁ l₁ ih =>
    intro x l₂ y₁ y₂ hp h1 h2 h
    cases hc₁ : x.children[k₁]? with
    | none => simp [nodeAt, hc₁] at h1
    | some c₁ =>
      cases l₂ with
      | nil => simp [getPath.go, hc₁, segment] at h
      | cons k₂ l₂ =>
        cases hc₂ : x.children[k₂]? with
        | none => simp [nodeAt, hc₂] at h2
        | some c₂ =>
          simp only [getPath.go, hc₁, hc₂] at h
          have p₁ := hp.child hc₁ [] c₁ rfl
          have p₂ := hp.child hc₂ [] c₂ rfl
          obtain ⟨t₁, e₁, s₁⟩ := segment_slash (i := sibIndex x.children c₁.name k₁) p₁.1
          obtain ⟨t₂, e₂, s₂⟩ := segment_slash (i := sibIndex x.children c₂.name k₂) p₂.1
          rw [e₁, e₂, List.cons_append, List.cons_append, List.cons.injEq] at h
          obtain ⟨ht, hr⟩ := cut_eq s₁ s₂ (go_head _ _) (go_head _ _) h.2
          have hs := e₁.trans ((congrArg ('/' :: ·) ht).trans e₂.symm)
          obtain ⟨hn, hi⟩ := segment_inj p₁.2 p₂.2 (sibIndex_ge _ _ _) (sibIndex_ge _ _ _) hs
          have hk : k₁ = k₂ := by
            rcases Nat.lt_trichotomy k₁ k₂ with hlt | he | hlt
            · have := sibIndex_lt hlt ⟨c₁, hc₁, rfl⟩
              rw [hi, hn] at this; omega
            · exact he
            · have := sibIndex_lt hlt ⟨c₂, hc₂, rfl⟩
              rw [← hi, ← hn] at this; omega
          subst hk
          rw [hc₁] at hc₂
          cases hc₂
          simp only [nodeAt, hc₁] at h1 h2
          rw [ih c₁ l₂ y₁ y₂ (hp.child hc₁) h1 h2 hr]

theorem sibIndex_of_prev (cs : List XNode) (name : Str) (k j : Nat) (h : prevSame name cs k = some j) :
    sibIndex cs name k = j + 1 := by
  have e : countBack j 0 = (j : Int) + 1 := by rw [countBack_eq]; omega
  unfold sibIndex
  simp only [h, e]
  have h0 : (j : Int) + 1 ≠ 0 := by omega
  simp [h0]

/-! ## C50: paths -/

/-- C50: the path of a node names it: two different nodes of a document have different paths. -/
theorem C50_path_unique (doc : XNode) (hp : PlainNames doc) (l₁ l₂ : Loc) (x₁ x₂ : XNode)
    (h1 : nodeAt doc l₁ = some x₁) (h2 : nodeAt doc l₂ = some x₂) (h : getPath doc l₁ = getPath doc l₂) :
    l₁ = l₂ :=
  go_inj l₁ doc l₂ x₁ x₂ hp h1 h2 (List.append_cancel_left h)

/-- C50: a child that is alone with its name gets no index. -/
theorem C50_path_alone (cs : List XNode) (name : Str) (k : Nat)
    (h : ∀ i c, i ≠ k → cs[i]? = some c → c.name ≠ name) : sibIndex cs name k = -1 := by
  have h1 : prevSame name cs k = none := by
    cases hp : prevSame name cs k with
    | none => rfl
    | some j =>
      obtain ⟨hj, ⟨c, hc, hn⟩, -⟩ := prevSame_some hp
      exact absurd hn (h j c (by omega) hc)
  have h2 : nextSame name cs k = none := by
    unfold nextSame
    rw [findSame_none]
    intro c hc
    obtain ⟨i, hi⟩ := List.getElem?_of_mem hc
    rw [List.getElem?_drop] at hi
    exact h _ c (by omega) hi
  simp [sibIndex, h1, h2]

/-- C50: when the earlier siblings of a node all have its name (and it is not alone), the index in its path is
the number of them: nodes of one name are counted from 0. -/
theorem C50_path_index (cs : List XNode) (name : Str) (k : Nat) (hk : k < cs.length)
    (h : ∀ i c, i < k → cs[i]? = some c → c.name = name)
    (hs : ∃ i c, i ≠ k ∧ cs[i]? = some c ∧ c.name = name) : sibIndex cs name k = k := by
  unfold sibIndex
  cases k with
  | zero =>
    have h2 : (nextSame name cs 0).isNone = false := by
      cases hn : nextSame name cs 0 with
      | some _ => rfl
      | none =>
        obtain ⟨i, c, hi, hc, hcn⟩ := hs
        unfold nextSame at hn
        rw [findSame_none] at hn
        refine absurd hcn (hn c ?_)
        have : (cs.drop (0 + 1))[i - 1]? = some c := by
          rw [List.getElem?_drop]; rwa [show 0 + 1 + (i - 1) = i by omega]
        exact List.mem_of_getElem? this
    simp [prevSame, h2]
  | succ k =>
    have hc : cs[k]? = some cs[k] := List.getElem?_eq_getElem (by omega)
    have hn := h k _ (by omega) hc
    have : prevSame name cs (k + 1) = some k := by
      simp only [prevSame, hc, hn, if_true]
    have e := sibIndex_of_prev cs name (k + 1) k this
    unfold sibIndex at e
    rw [e]; push_cast; rfl

/-- C50 fails for the index in general: the index of a node with an earlier sibling of the same name is the
position of that sibling plus one among all children. So the third `<a>` of `<a/><b/><a/><a/>` is written
`a[3]`, not `a[2]`. -/
theorem C50_path_index_wrong :
    (∀ (cs : List XNode) (name : Str) (k j : Nat), prevSame name cs k = some j → sibIndex cs name k = j + 1) ∧
    getPath (.mk [] [] [] [] [.mk ['r'] [] [] [] [.mk ['a'] [] [] [] [], .mk ['b'] [] [] [] [],
      .mk ['a'] [] [] [] [], .mk ['a'] [] [] [] []]]) [0, 3] = "/[0]/r/a[3]".toList := by
  constructor
  · exact sibIndex_of_prev
  · decide

/-! ## C50: nodes -/

theorem nodeAt_append {x : XNode} {l m : Loc} :
    nodeAt x (l ++ m) = (nodeAt x l).bind fun y => nodeAt y m := by
  induction l generalizing x with
  | nil => rfl
  | cons k l ih =>
    simp only [List.cons_append, nodeAt]
    cases x.children[k]? with
    | none => rfl
    | some c => exact ih

/-- C50: `hasNode` tells whether there is a child with the name. -/
theorem C50_hasNode (doc : XNode) (h : H) (l : Loc) (x : XNode) (name : Str) (hn : h.node = some l)
    (hx : nodeAt doc l = some x) :
    ∃ b, hasNode doc h name = .ok b ∧ (b = true ↔ ∃ c ∈ x.children, c.name = name) := by
  refine ⟨(findSame name 0 x.children).isSome, by simp only [hasNode, hn, hx], ?_⟩
  rw [← not_iff_not, Bool.not_eq_true, Option.isSome_eq_false_iff, Option.isNone_iff_eq_none, findSame_none]
  push Not
  rfl

/-- C50: `getNode` gives the first child with the name, and throws when there is none. -/
theorem C50_getNode (doc : XNode) (h : H) (l : Loc) (x : XNode) (name : Str) (hn : h.node = some l)
    (hx : nodeAt doc l = some x) :
    (∃ k c, x.children[k]? = some c ∧ c.name = name ∧ (∀ i d, i < k → x.children[i]? = some d → d.name ≠ name) ∧
      getNode doc h name = .ok ⟨some (l ++ [k]), some l⟩) ∨
    ((∀ c ∈ x.children, c.name ≠ name) ∧ getNode doc h name = .throw) := by
  cases hf : findSame name 0 x.children with
  | none =>
    right
    refine ⟨findSame_none.1 hf, ?_⟩
    simp [getNode, findNode, hn, hx, hf]
  | some k =>
    left
    obtain ⟨-, ⟨c, hc, hcn⟩, h3⟩ := findSame_some hf
    refine ⟨k, c, by simpa using hc, hcn, fun i d hi hd => h3 i (by omega) d hd, ?_⟩
    simp [getNode, findNode, hn, hx, hf]

/-- C50: `getNode` of a `std::string` does not throw when there is no such child: it gives a node that is not
valid (where `getNode` of a `const char*` throws). -/
theorem C50_getNode_string_unchecked (doc : XNode) (h : H) (l : Loc) (x : XNode) (name : Str)
    (hn : h.node = some l) (hx : nodeAt doc l = some x) (hno : ∀ c ∈ x.children, c.name ≠ name) :
    getNodeString doc h name = .ok ⟨none, some l⟩ ∧ getNode doc h name = .throw := by
  have hf := findSame_none (k := 0) |>.2 hno
  constructor
  · simp [getNodeString, findNode, hn, hx, hf]
  · simp [getNode, findNode, hn, hx, hf]

/-- C50: everything on a node that is not valid throws. -/
theorem C50_invalid_throws (doc : XNode) (p : Option Loc) (name : Str) :
    findNode doc ⟨none, p⟩ name = .throw ∧ getNode doc ⟨none, p⟩ name = .throw ∧
    hasNode doc ⟨none, p⟩ name = .throw ∧ inc doc ⟨none, p⟩ = .throw := by
  refine ⟨rfl, rfl, rfl, rfl⟩

/-- Positions `k, k+1, ...` of the given children that have a name, in order. -/
def positions (name : Str) : Nat → List XNode → List Nat
  | _, [] => []
  | k, c :: cs => if c.name = name then k :: positions name (k + 1) cs else positions name (k + 1) cs

theorem positions_findSame (name : Str) (k : Nat) (cs : List XNode) :
    (findSame name k cs = none ∧ positions name k cs = []) ∨
    (∃ j, findSame name k cs = some j ∧ k ≤ j ∧ j - k < cs.length ∧
      positions name k cs = j :: positions name (j + 1) (cs.drop (j + 1 - k))) := by
  induction cs generalizing k with
  | nil => left; simp [findSame, positions]
  | cons c cs ih =>
    by_cases h : c.name = name
    · right
      refine ⟨k, by simp [findSame, h], by omega, by simp, ?_⟩
      rw [show k + 1 - k = 1 by omega]
      simp [positions, h]
    · rcases ih (k + 1) with ⟨h1, h2⟩ | ⟨j, h1, h2, h3, h4⟩
      · left; simp [findSame, positions, h, h1, h2]
      · right
        refine ⟨j, by simp [findSame, h, h1], by omega, by simp; omega, ?_⟩
        simp only [positions, h, if_false, h4]
        rw [show j + 1 - k = (j + 1 - (k + 1)) + 1 by omega, List.drop_succ_cons]

theorem visit_eq (doc : XNode) (l : Loc) (x : XNode) (hx : nodeAt doc l = some x) (name : Str) :
    ∀ (fuel k : Nat), x.children.length + 1 ≤ fuel + k →
    visit doc (fuel + 1) ⟨(findSame name k (x.children.drop k)).map fun k => l ++ [k], some l⟩
      = some (.ok ((positions name k (x.children.drop k)).map fun k => l ++ [k])) := by
  intro fuel
  induction fuel with
  | zero =>
    intro k hk
    have : x.children.drop k = [] := List.drop_eq_nil_of_le (by omega)
    simp [this, findSame, positions, visit]
  | succ fuel ih =>
    intro k hk
    rcases positions_findSame name k (x.children.drop k) with ⟨h1, h2⟩ | ⟨j, h1, h2, h3, h4⟩
    · simp [h1, h2, visit]
    · rw [h1, h4]
      have hj : j < x.children.length := by simp at h3; omega
      obtain ⟨-, ⟨c, hc, hcn⟩, -⟩ := findSame_some h1
      rw [List.getElem?_drop, show k + (j - k) = j by omega] at hc
      have hinc : inc doc ⟨some (l ++ [j]), some l⟩ =
          .ok ⟨(findSame name (j + 1) (x.children.drop (j + 1))).map fun k => l ++ [k], some l⟩ := by
        have hd : (l ++ [j]).dropLast = l := by simp
        have hl : (l ++ [j]).getLast? = some j := by simp
        have hn : nodeAt doc (l ++ [j]) = some c := by
          rw [nodeAt_append, hx]; simp [nodeAt, hc]
        simp only [inc, hl, hd, hx, hn, nextSame, hcn]
      have := ih (j + 1) (by omega)
      simp only [Option.map_some]
      unfold visit
      simp only [hinc, this]
      have e : (x.children.drop k).drop (j + 1 - k) = x.children.drop (j + 1) := by
        rw [List.drop_drop]; congr 1; omega
      rw [e]
      rfl

/-- Specification of `positions`: the positions of the children with the name, each once, in document order. -/
theorem positions_spec (name : Str) (cs : List XNode) :
    (∀ j, j ∈ positions name 0 cs ↔ ∃ c, cs[j]? = some c ∧ c.name = name) ∧
      (positions name 0 cs).Pairwise (· < ·) := by
  have key : ∀ k, (∀ j, j ∈ positions name k cs ↔ k ≤ j ∧ ∃ c, cs[j - k]? = some c ∧ c.name = name) ∧
      (positions name k cs).Pairwise (· < ·) := by
    induction cs with
    | nil => intro k; simp [positions]
    | cons c cs ih =>
      intro k
      obtain ⟨h1, h2⟩ := ih (k + 1)
      have step : ∀ j, (k + 1 ≤ j ∧ ∃ d, cs[j - (k + 1)]? = some d ∧ d.name = name) ↔
          (k < j ∧ ∃ d, (c :: cs)[j - k]? = some d ∧ d.name = name) := by
        intro j
        constructor
        · rintro ⟨hj, d, hd, hn⟩
          refine ⟨by omega, d, ?_, hn⟩
          rw [show j - k = (j - (k + 1)) + 1 by omega]; simpa using hd
        · rintro ⟨hj, d, hd, hn⟩
          refine ⟨by omega, d, ?_, hn⟩
          rw [show j - k = (j - (k + 1)) + 1 by omega] at hd; simpa using hd
      unfold positions
      split
      · rename_i hn
        constructor
        · intro j
          rw [List.mem_cons, h1, step]
          constructor
          · rintro (rfl | ⟨hj, d⟩)
            · exact ⟨by omega, c, by simp, hn⟩
            · exact ⟨by omega, d⟩
          · rintro ⟨hj, d⟩
            rcases Nat.eq_or_lt_of_le hj with rfl | hj
            · exact .inl rfl
            · exact .inr ⟨hj, d⟩
        · rw [List.pairwise_cons]
          refine ⟨fun j hj => ?_, h2⟩
          have := (h1 j).1 hj
          omega
      · rename_i hn
        refine ⟨fun j => ?_, h2⟩
        rw [h1, step]
        constructor
        · rintro ⟨hj, d⟩; exact ⟨by omega, d⟩
        · rintro ⟨hj, d, hd, hdn⟩
          rcases Nat.eq_or_lt_of_le hj with rfl | hj
          · simp at hd; subst hd; exact absurd hdn hn
          · exact ⟨hj, d, hd, hdn⟩
  have := key 0
  simpa using this

/-- C50: a loop `for (n = node.findNode(name); n.valid(); ++n)` visits the children with that name, all of
them, each once, in document order, and ends. -/
theorem C50_iteration (doc : XNode) (h : H) (l : Loc) (x : XNode) (name : Str) (hn : h.node = some l)
    (hx : nodeAt doc l = some x) :
    ∃ (first : H) (ks : List Nat), findNode doc h name = .ok first ∧
      (∀ fuel, x.children.length + 2 ≤ fuel → visit doc fuel first = some (.ok (ks.map fun k => l ++ [k]))) ∧
      (∀ k, k ∈ ks ↔ ∃ c, x.children[k]? = some c ∧ c.name = name) ∧ ks.Pairwise (· < ·) := by
  refine ⟨⟨(findSame name 0 x.children).map fun k => l ++ [k], some l⟩, positions name 0 x.children,
    by simp only [findNode, hn, hx], ?_, (positions_spec _ _).1,
    (positions_spec _ _).2⟩
  intro fuel hf
  obtain ⟨f, rfl⟩ : ∃ f, fuel = f + 1 := ⟨fuel - 1, by omega⟩
  simpa using visit_eq doc l x hx name f 0 (by omega)

/-! ## C50: attributes and values -/

/-- C50: `getAttribute` gives the value of the first attribute with the name, and throws exactly when
`hasAttribute` is false. -/
theorem C50_attribute (x : XNode) (name : Str) :
    (hasAttribute x name = true ↔ ∃ v, (name, v) ∈ x.attrs) ∧
    (hasAttribute x name = false → getAttribute x name = .throw) ∧
    (∀ pre v post, x.attrs = pre ++ (name, v) :: post → (∀ a ∈ pre, a.1 ≠ name) → getAttribute x name = .ok v) := by
  have key : ∀ as : List (Str × Str), ((firstAttr name as).isSome = true ↔ ∃ v, (name, v) ∈ as) := by
    intro as
    induction as with
    | nil => simp [firstAttr]
    | cons a as ih =>
      unfold firstAttr
      split
      · rename_i h
        obtain ⟨n, v⟩ := a
        simp at h; subst h
        exact ⟨fun _ => ⟨v, by simp⟩, fun _ => rfl⟩
      · rename_i h
        rw [ih]
        constructor
        · rintro ⟨v, hv⟩; exact ⟨v, by simp [hv]⟩
        · rintro ⟨v, hv⟩
          rcases List.mem_cons.1 hv with rfl | hv
          · simp at h
          · exact ⟨v, hv⟩
  refine ⟨key x.attrs, ?_, ?_⟩
  · intro h
    have : firstAttr name x.attrs = none := by simpa [hasAttribute] using h
    simp [getAttribute, this]
  · intro pre v post hx hpre
    have : firstAttr name (pre ++ (name, v) :: post) = some (name, v) := by
      clear hx
      induction pre with
      | nil => simp [firstAttr]
      | cons a pre ih =>
        have ha : a.1 ≠ name := hpre a (by simp)
        simp only [List.cons_append, firstAttr, if_neg ha]
        exact ih fun b hb => hpre b (by simp [hb])
    simp [getAttribute, hx, this]

/-- C50: `getAttribute` of a `std::string` does not throw, but using the value does. -/
theorem C50_attribute_string_unchecked (x : XNode) (name : Str) :
    ∃ a, getAttributeString x name = .ok a ∧ attrValue a = getAttribute x name := by
  refine ⟨_, rfl, ?_⟩
  unfold getAttribute
  cases firstAttr name x.attrs <;> rfl

/-- C50: a new attribute can be read back; other attributes keep their value. -/
theorem C50_add_attribute (x : XNode) (name value : Str) :
    (hasAttribute x name = false → getAttribute (addAttribute x name value) name = .ok value) ∧
    (∀ n, n ≠ name ∨ hasAttribute x n = true →
      getAttribute (addAttribute x name value) n = getAttribute x n) := by
  obtain ⟨xn, xv, xr, as, cs⟩ := x
  have happ : ∀ n, firstAttr n (as ++ [(name, value)]) =
      (match firstAttr n as with | some a => some a | none => if name = n then some (name, value) else none) := by
    intro n
    induction as with
    | nil => simp [firstAttr]
    | cons a as ih =>
      simp only [List.cons_append, firstAttr]
      split
      · rfl
      · exact ih
  constructor
  · intro h
    have : firstAttr name as = none := by simpa [hasAttribute, XNode.attrs] using h
    simp [getAttribute, addAttribute, XNode.attrs, happ, this]
  · intro n hn
    simp only [getAttribute, addAttribute, XNode.attrs, happ]
    cases hf : firstAttr n as with
    | some a => rfl
    | none =>
      rcases hn with hn | hn
      · simp [Ne.symm hn]
      · simp [hasAttribute, XNode.attrs, hf] at hn

/-- C50: a value written through a map of names (whose keys are distinct) is read back through it; a value that
is not in the map is rejected. -/
theorem C50_mapped_attribute {T : Type} [DecidableEq T] (x : XNode) (name : Str) (val : T)
    (vals : List (Str × T)) (hkeys : vals.Pairwise fun a b => a.1 ≠ b.1) (hnew : hasAttribute x name = false) :
    ((∃ s, (s, val) ∈ vals) → ∃ x' s, addMapped x name val vals = .ok x' ∧ getAttribute x' name = .ok s ∧
      matchAttr s vals = .ok val) ∧
    ((¬ ∃ s, (s, val) ∈ vals) → addMapped x name val vals = .throw) := by
  have hmatch : ∀ (vals : List (Str × T)), vals.Pairwise (fun a b => a.1 ≠ b.1) → ∀ s v, (s, v) ∈ vals →
      matchAttr s vals = .ok v := by
    intro vals
    induction vals with
    | nil => intro _ s v h; simp at h
    | cons a vals ih =>
      intro hp s v h
      rw [List.pairwise_cons] at hp
      rcases List.mem_cons.1 h with rfl | h
      · simp [matchAttr]
      · have : s ≠ a.1 := fun e => hp.1 _ h e.symm
        simp only [matchAttr, if_neg this]
        exact ih hp.2 s v h
  have hadd : ∀ (vals : List (Str × T)),
      (∃ s, (s, val) ∈ vals ∧ addMapped x name val vals = .ok (addAttribute x name s)) ∨
      ((¬ ∃ s, (s, val) ∈ vals) ∧ addMapped x name val vals = .throw) := by
    intro vals
    induction vals with
    | nil => right; simp [addMapped]
    | cons a vals ih =>
      obtain ⟨s, v⟩ := a
      by_cases h : val = v
      · left; subst h; exact ⟨s, by simp, by simp [addMapped]⟩
      · rcases ih with ⟨t, h1, h2⟩ | ⟨h1, h2⟩
        · left; exact ⟨t, by simp [h1], by simp [addMapped, h, h2]⟩
        · right
          refine ⟨?_, by simp [addMapped, h, h2]⟩
          rintro ⟨t, ht⟩
          rcases List.mem_cons.1 ht with e | e
          · cases e; exact h rfl
          · exact h1 ⟨t, e⟩
  rcases hadd vals with ⟨s, h1, h2⟩ | ⟨h1, h2⟩
  · refine ⟨fun _ => ⟨_, s, h2, (C50_add_attribute x name s).1 hnew, hmatch vals hkeys s val h1⟩, ?_⟩
    intro h; exact absurd ⟨s, h1⟩ h
  · exact ⟨fun h => absurd h h1, fun _ => h2⟩

/-- C50: `=` sets the value of a node and `+=` appends to it, in a document built in memory; the name, the
attributes and the children stay as they are (for `+=` in any document). -/
theorem C50_value (x : XNode) (v w : Str) :
    (setValue x v).value = v ∧ (addValue (setValue x v) w).value = v ++ w ∧
    (addValue (setValue x v) w).rest = [] ∧
    ∀ y, y = setValue x v ∨ y = addValue x v → y.name = x.name ∧ y.attrs = x.attrs ∧ y.children = x.children := by
  obtain ⟨n, xv, r, as, cs⟩ := x
  have h2 : ∀ y, y = setValue (.mk n xv r as cs) v ∨ y = addValue (.mk n xv r as cs) v →
      y.name = n ∧ y.attrs = as ∧ y.children = cs := by
    rintro y (rfl | rfl)
    · exact ⟨rfl, rfl, rfl⟩
    · unfold addValue
      split <;> exact ⟨rfl, rfl, rfl⟩
  refine ⟨rfl, ?_, ?_, h2⟩ <;> cases v <;> simp [setValue, addValue, XNode.value, XNode.rest]

/-- C50 fails for `+=` on a node of a parsed document that has a value: the value is not terminated in memory,
and everything that stands behind it in the file becomes part of the new value. -/
theorem C50_append_parsed_wrong (x : XNode) (w : Str) (hv : x.value ≠ []) :
    (addValue x w).value = x.value ++ x.rest ++ w ∧ (x.rest ≠ [] → (addValue x w).value ≠ x.value ++ w) := by
  obtain ⟨n, xv, r, as, cs⟩ := x
  have h : (addValue (.mk n xv r as cs) w).value = xv ++ r ++ w := by
    have : xv.length ≠ 0 := by simpa [XNode.value] using hv
    simp [addValue, XNode.value, XNode.rest, setValue, this]
  refine ⟨h, fun hr e => ?_⟩
  rw [h] at e
  simp only [XNode.value, XNode.rest] at e hr
  have := congrArg List.length e
  simp at this
  exact hr this

/-- The statements speak about documents with several nodes of a name. -/
example : getPath (.mk [] [] [] [] [.mk ['r'] [] [] [] [.mk ['a'] [] [] [] [], .mk ['a'] [] [] [] []]]) [0, 1]
    = "/[0]/r/a[1]".toList ∧
    hasAttribute (addAttribute (.mk ['a'] [] [] [] []) ['k'] ['v']) ['k'] = true := by
  decide

end Stator.Ds.Xml
