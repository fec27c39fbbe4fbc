import Verif.Ds.Xml

/-!
# Editing XML documents through handles (C80)

Models the rest of `stator/xml.hpp`: the members that change a document while other `Node`s point into it, the ways up
(`getParent`) and back (`--`), and the members that do not check whether the `Node` is valid.

A RapidXML node lives as long as the document and is never moved (`memory_pool`, RapidXML), and the API can only append
(`append_node`, `append_attribute`). So the way from the document to a node never changes, and a `Node` object is still
the same pair of locations (`H`) after an edit: that is why handles need not be updated by the operations below.
-/

namespace Stator.Ds.Xml

open Stator.Ds (Out)

/-! ## Model -/

/-- `allocate_string(s.c_str())`: the characters before the first NUL. models: xml.hpp:302, 309-310, 330, 340. -/
def cstr (s : Str) : Str := s.takeWhile (· ≠ Char.ofNat 0)

/-- The document after the node at a location was changed by `f`. -/
def modifyAt : XNode → Loc → (XNode → XNode) → Option XNode
  | x, [], f => some (f x)
  | .mk n v r as cs, k :: l, f =>
    match cs[k]? with
    | none => none
    | some c => match modifyAt c l f with
      | none => none
      | some c' => some (.mk n v r as (cs.set k c'))

/-- A node as `allocate_node(node_element, name)` makes it: no value, no attributes, no children.
models: xml.hpp:303, 416. -/
def freshNode (name : Str) : XNode := .mk name [] [] [] []

/-- `append_node`. models: xml.hpp:304, 417. -/
def appendChild (c : XNode) : XNode → XNode
  | .mk n v r as cs => .mk n v r as (cs ++ [c])

/-- `Node::add_node`; there is no check of validity. models: xml.hpp:301-306. -/
def addNode (doc : XNode) (h : H) (name : Str) : Out (XNode × H) :=
  match h.node with
  | none => .ub
  | some l => match nodeAt doc l, modifyAt doc l (appendChild (freshNode (cstr name))) with
    | some x, some doc' => .ok (doc', ⟨some (l ++ [x.children.length]), some l⟩)
    | _, _ => .ub

/-- An operation that changes one node, without a check of validity. -/
def change (doc : XNode) (h : H) (f : XNode → XNode) : Out XNode :=
  match h.node with
  | none => .ub
  | some l => match modifyAt doc l f with
    | some doc' => .ok doc'
    | none => .ub

/-- `Node::add_attribute(name, value)`. models: xml.hpp:308-314. -/
def addAttributeH (doc : XNode) (h : H) (name value : Str) : Out XNode :=
  change doc h fun x => addAttribute x (cstr name) (cstr value)

/-- `Node::operator=(std::string)`. models: xml.hpp:329-333. -/
def setValueH (doc : XNode) (h : H) (v : Str) : Out XNode := change doc h fun x => setValue x (cstr v)

/-- `Node::operator+=`; the sum of the texts is cut at its first NUL. models: xml.hpp:335-343. -/
def addValueH (doc : XNode) (h : H) (v : Str) : Out XNode := change doc h fun x =>
  if x.value.length = 0 then setValue x (cstr v) else setValue x (cstr (x.value ++ x.rest ++ v))

/-- The document as a node: it has no parent. models: xml.hpp:279, 408. -/
def docH : H := ⟨some [], none⟩

/-- `Document::getNode`. models: xml.hpp:406-412. -/
def docGetNode (doc : XNode) (name : Str) : Out H :=
  match findSame name 0 doc.children with
  | none => .throw
  | some k => .ok ⟨some [k], some []⟩

/-- `Document::add_node`. models: xml.hpp:414-419. -/
def docAddNode (doc : XNode) (name : Str) : Out (XNode × H) :=
  match modifyAt doc [] (appendChild (freshNode (cstr name))) with
  | some doc' => .ok (doc', ⟨some [doc.children.length], some []⟩)
  | none => .ub

/-- `Node::firstNode`. models: xml.hpp:195-201. -/
def firstNode (doc : XNode) (h : H) : Out H :=
  match h.node with
  | none => .throw
  | some l => match nodeAt doc l with
    | none => .ub
    | some x => .ok ⟨if x.children.length = 0 then none else some (l ++ [0]), some l⟩

/-- `Node::getName`, without a check. models: xml.hpp:299. -/
def getName (doc : XNode) (h : H) : Out Str :=
  match h.node with
  | none => .ub
  | some l => match nodeAt doc l with
    | none => .ub
    | some x => .ok x.name

/-- `Node::getValue`. models: xml.hpp:229-236. -/
def getValueH (doc : XNode) (h : H) : Out Str :=
  match h.node with
  | none => .throw
  | some l => match nodeAt doc l with
    | none => .ub
    | some x => .ok x.value

/-- `Node::getAttribute(const char*)` and then its value. models: xml.hpp:153-166. -/
def getAttributeH (doc : XNode) (h : H) (name : Str) : Out Str :=
  match h.node with
  | none => .throw
  | some l => match nodeAt doc l with
    | none => .ub
    | some x => getAttribute x name

/-- `Node::operator--`; on the document itself RapidXML is undefined. models: xml.hpp:267-273. -/
def dec (doc : XNode) (h : H) : Out H :=
  match h.node with
  | none => .throw
  | some l => match l.getLast? with
    | none => .ub
    | some k => match nodeAt doc l.dropLast, nodeAt doc l with
      | some p, some x => .ok { h with node := (prevSame x.name p.children k).map fun j => l.dropLast ++ [j] }
      | _, _ => .ub

/-- `xml_node::parent()`. -/
def parentOf : Loc → Option Loc
  | [] => none
  | k :: l => some (k :: l).dropLast

/-- `Node::getParent`: it does not look at the node itself. models: xml.hpp:276-282. -/
def getParent (h : H) : Out H :=
  match h.parent with
  | none => .throw
  | some p => .ok ⟨some p, parentOf p⟩

/-- The edits a program can make through a `Node`. -/
inductive Edit
  | node (name : Str)
  | attr (name value : Str)
  | set (value : Str)
  | append (value : Str)

/-- One edit. models: xml.hpp:301-343. -/
def Edit.run (doc : XNode) (h : H) : Edit → Out XNode
  | .node name => do let r ← addNode doc h name; .ok r.1
  | .attr name value => addAttributeH doc h name value
  | .set v => setValueH doc h v
  | .append v => addValueH doc h v

/-- Any edits through any handles, one after the other. -/
def runEdits (doc : XNode) : List (H × Edit) → Out XNode
  | [] => .ok doc
  | (h, e) :: es => do let doc' ← e.run doc h; runEdits doc' es

/-- Does the edit write a value? -/
def Edit.writesValue : Edit → Prop
  | .set _ | .append _ => True
  | _ => False

/-! ## Lemmas -/

theorem modifyAt_some {doc : XNode} {l : Loc} {x : XNode} (f : XNode → XNode) (h : nodeAt doc l = some x) :
    ∃ doc', modifyAt doc l f = some doc' ∧ nodeAt doc' l = some (f x) := by
  induction l generalizing doc with
  | nil => cases h; exact ⟨_, rfl, rfl⟩
  | cons k l ih =>
    obtain ⟨n, v, r, as, cs⟩ := doc
    simp only [nodeAt, XNode.children] at h
    cases hc : cs[k]? with
    | none => simp [hc] at h
    | some c =>
      rw [hc] at h
      obtain ⟨c', h1, h2⟩ := ih h
      have hk : k < cs.length := (List.getElem?_eq_some_iff.1 hc).1
      refine ⟨.mk n v r as (cs.set k c'), by simp only [modifyAt, hc, h1], ?_⟩
      simp [nodeAt, XNode.children, hk, h2]

theorem modifyAt_inv {doc doc' : XNode} {l : Loc} {f : XNode → XNode} (h : modifyAt doc l f = some doc') :
    ∃ x, nodeAt doc l = some x := by
  induction l generalizing doc doc' with
  | nil => exact ⟨_, rfl⟩
  | cons k l ih =>
    obtain ⟨n, v, r, as, cs⟩ := doc
    simp only [modifyAt] at h
    cases hc : cs[k]? with
    | none => simp [hc] at h
    | some c =>
      rw [hc] at h
      cases hm : modifyAt c l f with
      | none => simp [hm] at h
      | some c' =>
        obtain ⟨x, hx⟩ := ih hm
        exact ⟨x, by simp [nodeAt, XNode.children, hc, hx]⟩

/-- `y'` can be what became of the node `y`: nothing was taken away. -/
structure Later (y y' : XNode) : Prop where
  name : y'.name = y.name
  attrs : y.attrs <+: y'.attrs
  children : y.children.length ≤ y'.children.length

theorem Later.refl (y : XNode) : Later y y := ⟨rfl, List.prefix_refl _, Nat.le_refl _⟩

theorem Later.trans {x y z : XNode} (h : Later x y) (h' : Later y z) : Later x z :=
  ⟨h'.name.trans h.name, h.attrs.trans h'.attrs, Nat.le_trans h.children h'.children⟩

/-- What one change at `l` does to the node at `m`. -/
theorem modifyAt_later {doc doc' : XNode} {l m : Loc} {f : XNode → XNode} {y : XNode}
    (hf : ∀ x, (f x).name = x.name ∧ x.attrs <+: (f x).attrs ∧ x.children <+: (f x).children)
    (h : modifyAt doc l f = some doc') (hy : nodeAt doc m = some y) :
    ∃ y', nodeAt doc' m = some y' ∧ Later y y' ∧
      (m ≠ l → y'.value = y.value ∧ y'.attrs = y.attrs ∧ y'.children.length = y.children.length) ∧
      (m = l → y' = f y) := by
  induction l generalizing doc doc' m with
  | nil =>
    simp only [modifyAt, Option.some.injEq] at h
    subst h
    obtain ⟨h1, h2, h3⟩ := hf doc
    cases m with
    | nil =>
      simp only [nodeAt, Option.some.injEq] at hy
      subst hy
      exact ⟨_, rfl, ⟨h1, h2, h3.length_le⟩, fun h => absurd rfl h, fun _ => rfl⟩
    | cons k m =>
      refine ⟨y, ?_, Later.refl y, fun _ => ⟨rfl, rfl, rfl⟩, fun h => by simp at h⟩
      simp only [nodeAt] at hy ⊢
      cases hc : doc.children[k]? with
      | none => simp [hc] at hy
      | some c =>
        rw [hc] at hy
        obtain ⟨t, ht⟩ := h3
        have hk : k < doc.children.length := (List.getElem?_eq_some_iff.1 hc).1
        rw [← ht, List.getElem?_append_left hk, hc]
        exact hy
  | cons k l ih =>
    obtain ⟨n, v, r, as, cs⟩ := doc
    simp only [modifyAt] at h
    cases hc : cs[k]? with
    | none => simp [hc] at h
    | some c =>
      rw [hc] at h
      cases hm : modifyAt c l f with
      | none => simp [hm] at h
      | some c' =>
        simp only [hm, Option.some.injEq] at h
        subst h
        have hk : k < cs.length := (List.getElem?_eq_some_iff.1 hc).1
        cases m with
        | nil =>
          simp only [nodeAt, Option.some.injEq] at hy
          subst hy
          refine ⟨_, rfl, ⟨rfl, List.prefix_refl _, by simp [XNode.children]⟩,
            fun _ => ⟨rfl, rfl, by simp [XNode.children]⟩, fun h => by simp at h⟩
        | cons i m =>
          by_cases hi : i = k
          · subst hi
            simp only [nodeAt, XNode.children, hc] at hy
            obtain ⟨y', h1, h2, h3, h4⟩ := ih hm hy
            refine ⟨y', by simp [nodeAt, XNode.children, hk, h1], h2, fun hne => h3 ?_, fun he => h4 ?_⟩
            · intro e; exact hne (by rw [e])
            · simpa using he
          · refine ⟨y, ?_, Later.refl y, fun _ => ⟨rfl, rfl, rfl⟩, fun he => ?_⟩
            · simp only [nodeAt, XNode.children] at hy ⊢
              rw [List.getElem?_set_ne (Ne.symm hi)]
              exact hy
            · simp only [List.cons.injEq] at he
              exact absurd he.1 hi

theorem appendChild_keeps (c x : XNode) :
    (appendChild c x).name = x.name ∧ x.attrs <+: (appendChild c x).attrs ∧
      x.children <+: (appendChild c x).children := by
  obtain ⟨n, v, r, as, cs⟩ := x
  exact ⟨rfl, List.prefix_refl _, by simp [appendChild, XNode.children]⟩

theorem addAttribute_keeps (a v : Str) (x : XNode) :
    (addAttribute x a v).name = x.name ∧ x.attrs <+: (addAttribute x a v).attrs ∧
      x.children <+: (addAttribute x a v).children := by
  obtain ⟨n, v, r, as, cs⟩ := x
  exact ⟨rfl, by simp [addAttribute, XNode.attrs], List.prefix_refl _⟩

theorem setValue_keeps (v : Str) (x : XNode) :
    (setValue x v).name = x.name ∧ x.attrs <+: (setValue x v).attrs ∧
      x.children <+: (setValue x v).children := by
  obtain ⟨n, v, r, as, cs⟩ := x
  exact ⟨rfl, List.prefix_refl _, List.prefix_refl _⟩

/-- What an edit does to a node, as a function. -/
def Edit.fn : Edit → XNode → XNode
  | .node name => appendChild (freshNode (cstr name))
  | .attr name value => fun x => addAttribute x (cstr name) (cstr value)
  | .set v => fun x => setValue x (cstr v)
  | .append v => fun x =>
    if x.value.length = 0 then setValue x (cstr v) else setValue x (cstr (x.value ++ x.rest ++ v))

theorem Edit.fn_keeps (e : Edit) (x : XNode) :
    (e.fn x).name = x.name ∧ x.attrs <+: (e.fn x).attrs ∧ x.children <+: (e.fn x).children := by
  cases e with
  | node name => exact appendChild_keeps _ _
  | attr a v => exact addAttribute_keeps _ _ _
  | set v => exact setValue_keeps _ _
  | append v =>
    simp only [Edit.fn]
    split <;> exact setValue_keeps _ _

theorem Edit.run_inv {doc doc' : XNode} {h : H} {e : Edit} (hr : e.run doc h = .ok doc') :
    ∃ l x, h.node = some l ∧ nodeAt doc l = some x ∧ modifyAt doc l e.fn = some doc' := by
  have hch : ∀ f, change doc h f = .ok doc' →
      ∃ l x, h.node = some l ∧ nodeAt doc l = some x ∧ modifyAt doc l f = some doc' := by
    intro f hc
    unfold change at hc
    cases hn : h.node with
    | none => simp [hn] at hc
    | some l =>
      rw [hn] at hc
      cases hm : modifyAt doc l f with
      | none => simp [hm] at hc
      | some d =>
        simp only [hm, Out.ok.injEq] at hc
        subst hc
        obtain ⟨x, hx⟩ := modifyAt_inv hm
        exact ⟨l, x, rfl, hx, hm⟩
  cases e with
  | node name =>
    simp only [Edit.run, addNode] at hr
    cases hn : h.node with
    | none => simp [hn] at hr
    | some l =>
      rw [hn] at hr
      cases hx : nodeAt doc l with
      | none => simp [hx] at hr
      | some x =>
        cases hm : modifyAt doc l (appendChild (freshNode (cstr name))) with
        | none => simp [hx, hm] at hr
        | some d =>
          simp only [hx, hm, Out.ok_bind, Out.ok.injEq] at hr
          subst hr
          exact ⟨l, x, rfl, hx, hm⟩
  | attr a v => exact hch _ hr
  | set v => exact hch _ hr
  | append v => exact hch _ hr

theorem Edit.fn_value (e : Edit) (x : XNode) (h : ¬ e.writesValue) : (e.fn x).value = x.value := by
  obtain ⟨n, v, r, as, cs⟩ := x
  cases e with
  | node name => rfl
  | attr a v => rfl
  | set v => exact absurd trivial h
  | append v => exact absurd trivial h

/-! ## C80 -/

/-- C80: a `Node` stays good. Whatever edits are made through whatever handles, every node that was in the document is
still there, under the same way from the root, with its name, its old attributes (new ones come behind them) and at
least its old children; and its value has not changed unless a value was written through a handle to this very
node. -/
theorem C80_nodes_stay (doc doc' : XNode) (es : List (H × Edit)) (hr : runEdits doc es = .ok doc') (l : Loc) (x : XNode)
    (hx : nodeAt doc l = some x) :
    ∃ x', nodeAt doc' l = some x' ∧ x'.name = x.name ∧ x.attrs <+: x'.attrs ∧
      x.children.length ≤ x'.children.length ∧
      ((∀ p ∈ es, p.1.node = some l → ¬ p.2.writesValue) → x'.value = x.value) := by
  suffices h : ∃ x', nodeAt doc' l = some x' ∧ Later x x' ∧
      ((∀ p ∈ es, p.1.node = some l → ¬ p.2.writesValue) → x'.value = x.value) by
    obtain ⟨x', h1, h2, h3⟩ := h
    exact ⟨x', h1, h2.name, h2.attrs, h2.children, h3⟩
  induction es generalizing doc x with
  | nil =>
    simp only [runEdits, Out.ok.injEq] at hr
    subst hr
    exact ⟨x, hx, Later.refl x, fun _ => rfl⟩
  | cons p es ih =>
    obtain ⟨h, e⟩ := p
    simp only [runEdits] at hr
    cases he : e.run doc h with
    | throw => simp [he] at hr
    | ub => simp [he] at hr
    | ok d =>
      simp only [he, Out.ok_bind] at hr
      obtain ⟨m, y, hm, hy, hmod⟩ := Edit.run_inv he
      obtain ⟨x₁, h1, h2, h3, h4⟩ := modifyAt_later (Edit.fn_keeps e) hmod hx
      obtain ⟨x', h5, h6, h7⟩ := ih d hr x₁ h1
      refine ⟨x', h5, h2.trans h6, fun hw => ?_⟩
      rw [h7 fun p hp => hw p (by simp [hp])]
      by_cases hlm : l = m
      · subst hlm
        rw [h4 rfl]
        exact Edit.fn_value e x (hw (h, e) (by simp) hm)
      · exact (h3 hlm).1

theorem later_child {doc doc' : XNode} {es : List (H × Edit)} (hr : runEdits doc es = .ok doc') {l : Loc} {x x' : XNode}
    (hx : nodeAt doc l = some x) (hx' : nodeAt doc' l = some x') {k : Nat} {c : XNode} (hc : x.children[k]? = some c) :
    ∃ c', x'.children[k]? = some c' ∧ c'.name = c.name := by
  have h1 : nodeAt doc (l ++ [k]) = some c := by rw [nodeAt_append, hx]; simp [nodeAt, hc]
  obtain ⟨c', h2, h3, -⟩ := C80_nodes_stay doc doc' es hr _ c h1
  refine ⟨c', ?_, h3⟩
  rw [nodeAt_append, hx'] at h2
  simp only [Option.bind_some, nodeAt] at h2
  cases hd : x'.children[k]? with
  | none => simp [hd] at h2
  | some d => simpa [hd] using h2

theorem findSame_iff {name : Str} {cs : List XNode} {k : Nat} :
    findSame name 0 cs = some k ↔
      (∃ c, cs[k]? = some c ∧ c.name = name) ∧ ∀ i, i < k → ∀ c, cs[i]? = some c → c.name ≠ name := by
  constructor
  · intro h
    obtain ⟨-, h1, h2⟩ := findSame_some h
    exact ⟨by simpa using h1, by simpa using h2⟩
  · rintro ⟨⟨c, hc, hn⟩, h2⟩
    cases hf : findSame name 0 cs with
    | none => exact absurd hn (findSame_none.1 hf c (List.mem_of_getElem? hc))
    | some j =>
      obtain ⟨-, ⟨d, hd, hdn⟩, h3⟩ := findSame_some hf
      rcases Nat.lt_trichotomy j k with h | h | h
      · exact absurd hdn (h2 j h d (by simpa using hd))
      · rw [h]
      · exact absurd hn (h3 k (by simpa using h) c hc)

theorem nextSame_iff {name : Str} {cs : List XNode} {k j : Nat} :
    nextSame name cs k = some j ↔
      k < j ∧ (∃ c, cs[j]? = some c ∧ c.name = name) ∧ ∀ i, k < i → i < j → ∀ c, cs[i]? = some c → c.name ≠ name := by
  unfold nextSame
  constructor
  · intro h
    obtain ⟨h0, ⟨c, hc, hn⟩, h2⟩ := findSame_some h
    rw [List.getElem?_drop] at hc
    refine ⟨by omega, ⟨c, by rw [← hc]; congr 1; omega, hn⟩, fun i hi hij d hd => ?_⟩
    refine h2 (i - (k + 1)) (by omega) d ?_
    rw [List.getElem?_drop, ← hd]; congr 1; omega
  · rintro ⟨hkj, ⟨c, hc, hn⟩, h2⟩
    cases hf : findSame name (k + 1) (cs.drop (k + 1)) with
    | none =>
      refine absurd hn (findSame_none.1 hf c (List.mem_of_getElem? (i := j - (k + 1)) ?_))
      rw [List.getElem?_drop, ← hc]; congr 1; omega
    | some i =>
      obtain ⟨h0, ⟨d, hd, hdn⟩, h3⟩ := findSame_some hf
      rw [List.getElem?_drop, show k + 1 + (i - (k + 1)) = i by omega] at hd
      rcases Nat.lt_trichotomy i j with h | h | h
      · exact absurd hdn (h2 i (by omega) h d hd)
      · rw [h]
      · refine absurd hn (h3 (j - (k + 1)) (by omega) c ?_)
        rw [List.getElem?_drop, ← hc]; congr 1; omega

theorem prevSame_iff {name : Str} {cs : List XNode} {k j : Nat} :
    prevSame name cs k = some j ↔
      j < k ∧ (∃ c, cs[j]? = some c ∧ c.name = name) ∧ ∀ i, j < i → i < k → ∀ c, cs[i]? = some c → c.name ≠ name := by
  constructor
  · exact prevSame_some
  · rintro ⟨hkj, ⟨c, hc, hn⟩, h2⟩
    cases hf : prevSame name cs k with
    | none => exact absurd hn (prevSame_none hf j hkj c hc)
    | some i =>
      obtain ⟨h0, ⟨d, hd, hdn⟩, h3⟩ := prevSame_some hf
      rcases Nat.lt_trichotomy i j with h | h | h
      · exact absurd hn (h3 j h hkj c hc)
      · rw [h]
      · exact absurd hdn (h2 i h h0 d hd)

theorem firstAttr_prefix {name : Str} {as bs : List (Str × Str)} (h : as <+: bs) {a : Str × Str}
    (hf : firstAttr name as = some a) : firstAttr name bs = some a := by
  obtain ⟨t, rfl⟩ := h
  induction as with
  | nil => simp [firstAttr] at hf
  | cons b as ih =>
    simp only [List.cons_append, firstAttr] at hf ⊢
    split
    · rename_i hb; rw [if_pos hb] at hf; exact hf
    · rename_i hb; rw [if_neg hb] at hf; exact ih hf

/-- C80: what was found is found again. After any edits, `findNode`, `++` and `--` lead from a handle to the same node
as before (if they led to one), and `getAttribute` gives the value it gave before. -/
theorem C80_found_again (doc doc' : XNode) (es : List (H × Edit)) (hr : runEdits doc es = .ok doc') (h : H) (l : Loc)
    (p : Option Loc) (name v : Str) :
    (findNode doc h name = .ok ⟨some l, p⟩ → findNode doc' h name = .ok ⟨some l, p⟩) ∧
    (inc doc h = .ok ⟨some l, p⟩ → inc doc' h = .ok ⟨some l, p⟩) ∧
    (dec doc h = .ok ⟨some l, p⟩ → dec doc' h = .ok ⟨some l, p⟩) ∧
    (getAttributeH doc h name = .ok v → getAttributeH doc' h name = .ok v) := by
  cases hn : h.node with
  | none =>
    refine ⟨fun he => ?_, fun he => ?_, fun he => ?_, fun he => ?_⟩
    · simp [findNode, hn] at he
    · simp [inc, hn] at he
    · simp [dec, hn] at he
    · simp [getAttributeH, hn] at he
  | some m =>
    refine ⟨fun he => ?_, fun he => ?_, fun he => ?_, fun he => ?_⟩
    · simp only [findNode, hn] at he ⊢
      cases hx : nodeAt doc m with
      | none => simp [hx] at he
      | some x =>
        simp only [hx, Out.ok.injEq, H.mk.injEq, Option.map_eq_some_iff] at he
        obtain ⟨⟨k, hk, hkl⟩, hp⟩ := he
        obtain ⟨x', hx', -⟩ := C80_nodes_stay doc doc' es hr m x hx
        obtain ⟨⟨c, hc, hcn⟩, hlt⟩ := findSame_iff.1 hk
        have hk' : findSame name 0 x'.children = some k := by
          refine findSame_iff.2 ⟨?_, fun i hi c' hc' => ?_⟩
          · obtain ⟨c', h1, h2⟩ := later_child hr hx hx' hc
            exact ⟨c', h1, h2.trans hcn⟩
          · have hik : i < x.children.length := Nat.lt_trans hi (List.getElem?_eq_some_iff.1 hc).1
            obtain ⟨d, h1, h2⟩ := later_child hr hx hx' (List.getElem?_eq_getElem hik)
            rw [hc'] at h1
            cases h1
            rw [h2]
            exact hlt i hi _ (List.getElem?_eq_getElem hik)
        simp [hx', hk', hkl, hp]
    · simp only [inc, hn] at he ⊢
      cases hl : m.getLast? with
      | none => simp [hl] at he
      | some k =>
        simp only [hl] at he ⊢
        cases hq : nodeAt doc m.dropLast with
        | none => simp [hq] at he
        | some q =>
          cases hx : nodeAt doc m with
          | none => simp [hq, hx] at he
          | some x =>
            simp only [hq, hx, Out.ok.injEq, H.mk.injEq, Option.map_eq_some_iff] at he
            obtain ⟨⟨j, hj, hjl⟩, hp⟩ := he
            obtain ⟨q', hq', -⟩ := C80_nodes_stay doc doc' es hr _ q hq
            obtain ⟨x', hx', hxn, -⟩ := C80_nodes_stay doc doc' es hr _ x hx
            obtain ⟨hkj, ⟨c, hc, hcn⟩, hlt⟩ := nextSame_iff.1 hj
            have hj' : nextSame x'.name q'.children k = some j := by
              rw [hxn]
              refine nextSame_iff.2 ⟨hkj, ?_, fun i hi hij c' hc' => ?_⟩
              · obtain ⟨c', h1, h2⟩ := later_child hr hq hq' hc
                exact ⟨c', h1, h2.trans hcn⟩
              · have hik : i < q.children.length := Nat.lt_trans hij (List.getElem?_eq_some_iff.1 hc).1
                obtain ⟨d, h1, h2⟩ := later_child hr hq hq' (List.getElem?_eq_getElem hik)
                rw [hc'] at h1
                cases h1
                rw [h2]
                exact hlt i hi hij _ (List.getElem?_eq_getElem hik)
            simp [hq', hx', hj', hjl, hp]
    · simp only [dec, hn] at he ⊢
      cases hl : m.getLast? with
      | none => simp [hl] at he
      | some k =>
        simp only [hl] at he ⊢
        cases hq : nodeAt doc m.dropLast with
        | none => simp [hq] at he
        | some q =>
          cases hx : nodeAt doc m with
          | none => simp [hq, hx] at he
          | some x =>
            simp only [hq, hx, Out.ok.injEq, H.mk.injEq, Option.map_eq_some_iff] at he
            obtain ⟨⟨j, hj, hjl⟩, hp⟩ := he
            obtain ⟨q', hq', -⟩ := C80_nodes_stay doc doc' es hr _ q hq
            obtain ⟨x', hx', hxn, -⟩ := C80_nodes_stay doc doc' es hr _ x hx
            obtain ⟨hkj, ⟨c, hc, hcn⟩, hlt⟩ := prevSame_iff.1 hj
            have hkq : k < q.children.length := by
              have hm : m = m.dropLast ++ [k] := by
                rw [List.getLast?_eq_some_iff] at hl
                obtain ⟨ys, rfl⟩ := hl
                simp
              rw [hm, nodeAt_append, hq] at hx
              simp only [Option.bind_some, nodeAt] at hx
              cases hd : q.children[k]? with
              | none => simp [hd] at hx
              | some d => exact (List.getElem?_eq_some_iff.1 hd).1
            have hj' : prevSame x'.name q'.children k = some j := by
              rw [hxn]
              refine prevSame_iff.2 ⟨hkj, ?_, fun i hi hij c' hc' => ?_⟩
              · obtain ⟨c', h1, h2⟩ := later_child hr hq hq' hc
                exact ⟨c', h1, h2.trans hcn⟩
              · have hik : i < q.children.length := Nat.lt_trans hij hkq
                obtain ⟨d, h1, h2⟩ := later_child hr hq hq' (List.getElem?_eq_getElem hik)
                rw [hc'] at h1
                cases h1
                rw [h2]
                exact hlt i hi hij _ (List.getElem?_eq_getElem hik)
            simp [hq', hx', hj', hjl, hp]
    · simp only [getAttributeH, hn] at he ⊢
      cases hx : nodeAt doc m with
      | none => simp [hx] at he
      | some x =>
        obtain ⟨x', hx', -, ha, -⟩ := C80_nodes_stay doc doc' es hr m x hx
        simp only [hx] at he
        simp only [hx']
        unfold getAttribute at he ⊢
        cases hf : firstAttr name x.attrs with
        | none => simp [hf] at he
        | some a =>
          rw [firstAttr_prefix ha hf]
          simpa [hf] using he

/-- C80: what is not stable is the text of a path: when a second child of the same name is added, an index appears in the
path of the first one. -/
theorem C80_path_changes :
    ∃ doc doc' : XNode, Edit.run doc ⟨some [0], some []⟩ (.node ['a']) = .ok doc' ∧
      getPath doc [0, 0] = "/[0]/r/a".toList ∧ getPath doc' [0, 0] = "/[0]/r/a[0]".toList := by
  refine ⟨.mk [] [] [] [] [.mk ['r'] [] [] [] [.mk ['a'] [] [] [] []]], _, rfl, ?_, ?_⟩ <;> decide

/-! ### Adding -/

theorem cstr_eq {s : Str} (h : Char.ofNat 0 ∉ s) : cstr s = s := by
  unfold cstr
  induction s with
  | nil => rfl
  | cons a s ih =>
    rw [List.mem_cons, not_or] at h
    rw [List.takeWhile_cons, if_pos (by simpa using Ne.symm h.1), ih h.2]

/-- C80: `add_node` gives the handle of a new, last child of the node, with the name, without value, attributes and
children; its parent is the node. Through a handle that is not valid it is undefined. -/
theorem C80_add_node (doc : XNode) (h : H) (l : Loc) (x : XNode) (name : Str) (hn : h.node = some l)
    (hx : nodeAt doc l = some x) (h0 : Char.ofNat 0 ∉ name) :
    ∃ doc' x' new, addNode doc h name = .ok (doc', new) ∧ nodeAt doc' l = some x' ∧
      x'.children = x.children ++ [.mk name [] [] [] []] ∧ x'.name = x.name ∧ x'.value = x.value ∧ x'.attrs = x.attrs ∧
      new.node = some (l ++ [x.children.length]) ∧ getName doc' new = .ok name ∧ getValueH doc' new = .ok [] ∧
      getParent new = .ok ⟨some l, parentOf l⟩ := by
  obtain ⟨doc', h1, h2⟩ := modifyAt_some (appendChild (freshNode (cstr name))) hx
  rw [cstr_eq h0] at h1 h2
  have h3 : nodeAt doc' (l ++ [x.children.length]) = some (freshNode name) := by
    rw [nodeAt_append, h2]
    obtain ⟨n, v, r, as, cs⟩ := x
    simp [nodeAt, appendChild, XNode.children]
  refine ⟨doc', _, ⟨some (l ++ [x.children.length]), some l⟩, ?_, h2, ?_, ?_, ?_, ?_, rfl, ?_, ?_, rfl⟩
  · simp only [addNode, hn, hx, cstr_eq h0, h1]
  all_goals first
    | (obtain ⟨n, v, r, as, cs⟩ := x; rfl)
    | (simp only [getName, getValueH, h3]; rfl)

/-- C80: what is written through a handle is read through it, and through every other handle of the same node: `=` sets the
value, `+=` after it appends, a new attribute is found. -/
theorem C80_read_back (doc : XNode) (h g : H) (l : Loc) (x : XNode) (v w a : Str) (hn : h.node = some l)
    (hg : g.node = some l) (hx : nodeAt doc l = some x) (hv : Char.ofNat 0 ∉ v) (hw : Char.ofNat 0 ∉ w)
    (ha : Char.ofNat 0 ∉ a) :
    ∃ d₁ d₂, setValueH doc h v = .ok d₁ ∧ getValueH d₁ g = .ok v ∧
      addValueH d₁ h w = .ok d₂ ∧ getValueH d₂ g = .ok (v ++ w) ∧
      ∃ d₃, addAttributeH doc h a v = .ok d₃ ∧ getValueH d₃ g = .ok x.value ∧
        ((∀ u, (a, u) ∉ x.attrs) → getAttributeH d₃ g a = .ok v) := by
  obtain ⟨d₁, e₁, f₁⟩ := modifyAt_some (fun x => setValue x (cstr v)) hx
  obtain ⟨d₂, e₂, f₂⟩ := modifyAt_some (fun x =>
    if x.value.length = 0 then setValue x (cstr w) else setValue x (cstr (x.value ++ x.rest ++ w))) f₁
  obtain ⟨d₃, e₃, f₃⟩ := modifyAt_some (fun x => addAttribute x (cstr a) (cstr v)) hx
  rw [cstr_eq hv] at f₁
  rw [cstr_eq hv] at f₂
  rw [cstr_eq ha, cstr_eq hv] at f₃
  refine ⟨d₁, d₂, by simp only [setValueH, change, hn, e₁], ?_, by simp only [addValueH, change, hn, e₂], ?_, d₃,
    by simp only [addAttributeH, change, hn, e₃], ?_, fun hu => ?_⟩
  · simp only [getValueH, hg, f₁]
    obtain ⟨n, v', r, as, cs⟩ := x
    rfl
  · simp only [getValueH, hg, f₂]
    obtain ⟨n, v', r, as, cs⟩ := x
    cases v with
    | nil => simp [setValue, XNode.value, cstr_eq hw]
    | cons c v =>
      have : Char.ofNat 0 ∉ (c :: v) ++ w := by
        simp only [List.mem_append, not_or]; exact ⟨hv, hw⟩
      have e := cstr_eq this
      simp only [List.cons_append] at e
      simp [setValue, XNode.value, XNode.rest, e]
  · simp only [getValueH, hg, f₃]
    obtain ⟨n, v', r, as, cs⟩ := x
    rfl
  · simp only [getAttributeH, hg, f₃]
    refine (C50_add_attribute x a v).1 ?_
    rw [← Bool.not_eq_true, (C50_attribute x a).1]
    rintro ⟨u, h⟩
    exact hu u h

/-- C80: the members of a document do for its roots what those of a node do for its children: `Document::getNode` gives the
first root with the name, or throws; `Document::add_node` adds a last root; the parent of a root is the document. -/
theorem C80_document (doc : XNode) (name : Str) :
    docGetNode doc name = getNode doc docH name ∧ docAddNode doc name = addNode doc docH name ∧
    (∀ r, docGetNode doc name = .ok r → getParent r = .ok docH) ∧
    ∀ d r, docAddNode doc name = .ok (d, r) → getParent r = .ok docH := by
  refine ⟨?_, ?_, fun r h => ?_, fun d r h => ?_⟩
  · cases h : findSame name 0 doc.children <;> simp [docGetNode, getNode, findNode, docH, nodeAt, h]
  · simp [docAddNode, addNode, docH, nodeAt, modifyAt]
  · unfold docGetNode at h
    split at h
    · simp at h
    · cases h; rfl
  · simp only [docAddNode, modifyAt] at h
    cases h; rfl

/-- C80: through a handle that is not valid the members that read throw; `getName`, `add_node`, `add_attribute`, `=` and
`+=` do not check and are undefined. -/
theorem C80_unchecked (doc : XNode) (p : Option Loc) (name : Str) :
    getValueH doc ⟨none, p⟩ = .throw ∧ getAttributeH doc ⟨none, p⟩ name = .throw ∧ firstNode doc ⟨none, p⟩ = .throw ∧
    dec doc ⟨none, p⟩ = .throw ∧ getName doc ⟨none, p⟩ = .ub ∧ addNode doc ⟨none, p⟩ name = .ub ∧
    ∀ e : Edit, e.run doc ⟨none, p⟩ = .ub := by
  refine ⟨rfl, rfl, rfl, rfl, rfl, rfl, fun e => ?_⟩
  cases e <;> rfl

/-! ### Up, forth and back -/

/-- C80: `--` undoes `++` and `++` undoes `--`, as long as the step leads to a node; the parent stays the same. -/
theorem C80_forth_and_back (doc : XNode) (h h' : H) (l' : Loc) (hv : h'.node = some l') :
    (inc doc h = .ok h' → dec doc h' = .ok h) ∧ (dec doc h = .ok h' → inc doc h' = .ok h) := by
  obtain ⟨hnode, p⟩ := h
  have key : ∀ l k q x, l.getLast? = some k → nodeAt doc l.dropLast = some q → nodeAt doc l = some x →
      l = l.dropLast ++ [k] ∧ q.children[k]? = some x := by
    intro l k q x hl hq hx
    have hm : l = l.dropLast ++ [k] := by
      rw [List.getLast?_eq_some_iff] at hl
      obtain ⟨ys, rfl⟩ := hl
      simp
    refine ⟨hm, ?_⟩
    rw [hm, nodeAt_append, hq] at hx
    simp only [Option.bind_some, nodeAt] at hx
    cases hd : q.children[k]? with
    | none => simp [hd] at hx
    | some d => simpa [hd] using hx
  cases hnode with
  | none => constructor <;> intro he <;> simp [inc, dec] at he
  | some l =>
    constructor
    · intro he
      simp only [inc] at he
      cases hl : l.getLast? with
      | none => simp [hl] at he
      | some k =>
        cases hq : nodeAt doc l.dropLast with
        | none => simp [hl, hq] at he
        | some q =>
          cases hx : nodeAt doc l with
          | none => simp [hl, hq, hx] at he
          | some x =>
            simp only [hl, hq, hx, Out.ok.injEq] at he
            obtain ⟨hlk, hqk⟩ := key l k q x hl hq hx
            subst he
            simp only [Option.map_eq_some_iff] at hv
            obtain ⟨j, hj, rfl⟩ := hv
            obtain ⟨hkj, ⟨c, hc, hcn⟩, hlt⟩ := nextSame_iff.1 hj
            have hnode : nodeAt doc (l.dropLast ++ [j]) = some c := by
              rw [nodeAt_append, hq]; simp [nodeAt, hc]
            have hp : prevSame c.name q.children j = some k :=
              prevSame_iff.2 ⟨hkj, ⟨x, hqk, hcn.symm⟩, fun i h1 h2 d hd => by
                rw [hcn]; exact hlt i h1 h2 d hd⟩
            simp [dec, hj, hnode, hq, hp, ← hlk]
    · intro he
      simp only [dec] at he
      cases hl : l.getLast? with
      | none => simp [hl] at he
      | some k =>
        cases hq : nodeAt doc l.dropLast with
        | none => simp [hl, hq] at he
        | some q =>
          cases hx : nodeAt doc l with
          | none => simp [hl, hq, hx] at he
          | some x =>
            simp only [hl, hq, hx, Out.ok.injEq] at he
            obtain ⟨hlk, hqk⟩ := key l k q x hl hq hx
            subst he
            simp only [Option.map_eq_some_iff] at hv
            obtain ⟨j, hj, rfl⟩ := hv
            obtain ⟨hkj, ⟨c, hc, hcn⟩, hlt⟩ := prevSame_iff.1 hj
            have hnode : nodeAt doc (l.dropLast ++ [j]) = some c := by
              rw [nodeAt_append, hq]; simp [nodeAt, hc]
            have hp : nextSame c.name q.children j = some k :=
              nextSame_iff.2 ⟨hkj, ⟨x, hqk, hcn.symm⟩, fun i h1 h2 d hd => by
                rw [hcn]; exact hlt i h1 h2 d hd⟩
            simp [inc, hj, hnode, hq, hp, ← hlk]

/-- C80: `getParent` of what `findNode`, `firstNode`, `++` and `--` give is the node they searched, also when they found
nothing. -/
theorem C80_parent (doc : XNode) (h h' : H) (l : Loc) (hn : h.node = some l) :
    (∀ name, findNode doc h name = .ok h' → getParent h' = .ok ⟨some l, parentOf l⟩) ∧
    (firstNode doc h = .ok h' → getParent h' = .ok ⟨some l, parentOf l⟩) ∧
    (inc doc h = .ok h' → getParent h' = getParent h) ∧ (dec doc h = .ok h' → getParent h' = getParent h) := by
  refine ⟨fun name he => ?_, fun he => ?_, fun he => ?_, fun he => ?_⟩
  · simp only [findNode, hn] at he
    split at he
    · simp at he
    · cases he; rfl
  · simp only [firstNode, hn] at he
    split at he
    · simp at he
    · cases he; rfl
  · simp only [inc, hn] at he
    split at he
    · simp at he
    · split at he
      · cases he; rfl
      · simp at he
  · simp only [dec, hn] at he
    split at he
    · simp at he
    · split at he
      · cases he; rfl
      · simp at he

/-- `getParent`, several times. -/
def climb : Nat → H → Out H
  | 0, h => .ok h
  | n + 1, h => do let p ← getParent h; climb n p

/-- C80: from a node at depth `n` (the roots of the document have depth 1) `n` calls of `getParent` lead to the document,
and the next one throws. -/
theorem C80_climb (l : Loc) :
    climb l.length ⟨some l, parentOf l⟩ = .ok docH ∧ climb (l.length + 1) ⟨some l, parentOf l⟩ = .throw := by
  have key : ∀ (n : Nat) (l : Loc), l.length = n →
      climb n ⟨some l, parentOf l⟩ = .ok docH ∧ climb (n + 1) ⟨some l, parentOf l⟩ = .throw := by
    intro n
    induction n with
    | zero =>
      intro l hl
      have : l = [] := List.length_eq_zero_iff.1 hl
      subst this
      exact ⟨rfl, rfl⟩
    | succ n ih =>
      intro l hl
      cases l with
      | nil => simp at hl
      | cons k l =>
        have := ih (k :: l).dropLast (by simp at hl ⊢; exact hl)
        exact ⟨by rw [climb]; simpa [parentOf, getParent] using this.1,
          by rw [climb]; simpa [parentOf, getParent] using this.2⟩
  exact key _ l rfl

/-- C80: a loop `for (n = node.firstNode(); n.valid(); ++n)` does not go through all children: it visits those that are
named like the first one. -/
theorem C80_first_node_loop (doc : XNode) (h : H) (l : Loc) (x c : XNode) (hn : h.node = some l)
    (hx : nodeAt doc l = some x) (hc : x.children[0]? = some c) :
    ∃ (first : H) (ks : List Nat), firstNode doc h = .ok first ∧
      (∀ fuel, x.children.length + 2 ≤ fuel → visit doc fuel first = some (.ok (ks.map fun k => l ++ [k]))) ∧
      (∀ k, k ∈ ks ↔ ∃ d, x.children[k]? = some d ∧ d.name = c.name) ∧ ks.Pairwise (· < ·) := by
  have hlen : x.children.length ≠ 0 := by
    have := (List.getElem?_eq_some_iff.1 hc).1
    omega
  have hf : findSame c.name 0 x.children = some 0 :=
    findSame_iff.2 ⟨⟨c, hc, rfl⟩, fun i hi => by omega⟩
  refine ⟨⟨some (l ++ [0]), some l⟩, positions c.name 0 x.children, by simp [firstNode, hn, hx, hlen], ?_,
    (positions_spec _ _).1, (positions_spec _ _).2⟩
  intro fuel hfu
  obtain ⟨f, rfl⟩ : ∃ f, fuel = f + 1 := ⟨fuel - 1, by omega⟩
  simpa [hf] using visit_eq doc l x hx c.name f 0 (by omega)

/-! ### Growing while iterating -/

/-- `for (n = ...; n.valid(); ++n) node.add_node(name);`: `none` if it has not ended after so many rounds. -/
def growLoop (h : H) (name : Str) : Nat → XNode → H → Option (Out XNode)
  | 0, _, _ => none
  | fuel + 1, doc, n =>
    match n.node with
    | none => some (.ok doc)
    | some _ => match addNode doc h name with
      | .ok (doc', _) => match inc doc' n with
        | .ok n' => growLoop h name fuel doc' n'
        | .throw => some .throw
        | .ub => some .ub
      | .throw => some .throw
      | .ub => some .ub

/-- C80: a loop over the children of a name that adds a child of that name in each round never ends. -/
theorem C80_growing_loop (doc : XNode) (h : H) (l m : Loc) (x : XNode) (p : Option Loc) (name : Str)
    (hn : h.node = some l) (hx : nodeAt doc l = some x) (h0 : Char.ofNat 0 ∉ name)
    (hf : findNode doc h name = .ok ⟨some m, p⟩) (fuel : Nat) :
    growLoop h name fuel doc ⟨some m, p⟩ = none := by
  have key : ∀ (fuel : Nat) (doc : XNode) (k : Nat) (x c : XNode), nodeAt doc l = some x →
      x.children[k]? = some c → c.name = name → growLoop h name fuel doc ⟨some (l ++ [k]), p⟩ = none := by
    intro fuel
    induction fuel with
    | zero => intros; rfl
    | succ fuel ih =>
      intro doc k x c hx hc hcn
      obtain ⟨doc', x', new, h1, h2, h3, -⟩ := C80_add_node doc h l x name hn hx h0
      have hk : k < x.children.length := (List.getElem?_eq_some_iff.1 hc).1
      have hc' : x'.children[k]? = some c := by rw [h3, List.getElem?_append_left hk, hc]
      have hlast : x'.children[x.children.length]? = some (.mk name [] [] [] []) := by rw [h3]; simp
      have hnode : nodeAt doc' (l ++ [k]) = some c := by rw [nodeAt_append, h2]; simp [nodeAt, hc']
      have hnext : ∃ j d, nextSame name x'.children k = some j ∧ x'.children[j]? = some d ∧ d.name = name := by
        cases hj : nextSame name x'.children k with
        | some j =>
          obtain ⟨-, ⟨d, hd, hdn⟩, -⟩ := nextSame_iff.1 hj
          exact ⟨j, d, rfl, hd, hdn⟩
        | none =>
          unfold nextSame at hj
          refine absurd rfl (findSame_none.1 hj (.mk name [] [] [] [])
            (List.mem_of_getElem? (i := x.children.length - (k + 1)) ?_))
          rw [List.getElem?_drop, ← hlast]; congr 1; omega
      obtain ⟨j, d, hj, hd, hdn⟩ := hnext
      have hinc : inc doc' ⟨some (l ++ [k]), p⟩ = .ok ⟨some (l ++ [j]), p⟩ := by
        simp [inc, hnode, h2, hcn, hj]
      rw [growLoop]
      simp only [h1, hinc]
      exact ih doc' j x' d h2 hd hdn
  simp only [findNode, hn, hx, Out.ok.injEq, H.mk.injEq, Option.map_eq_some_iff] at hf
  obtain ⟨⟨k, hk, rfl⟩, -⟩ := hf
  obtain ⟨⟨c, hc, hcn⟩, -⟩ := findSame_iff.1 hk
  exact key fuel doc k x c hx hc hcn

/-! ### Writing a whole tree -/

/-- `for (a : attributes) n.add_attribute(a.first, a.second)`. -/
def writeAttrs (h : H) : List (Str × Str) → XNode → Out XNode
  | [], doc => .ok doc
  | a :: as, doc => do let doc' ← addAttributeH doc h a.1 a.2; writeAttrs h as doc'

mutual
/-- A program that writes a tree below a node: it adds a node, its attributes and its value, and then the trees of the
children below the new node. -/
def writeTree : XNode → XNode → H → Out XNode
  | .mk n v _ as cs, doc, h => do
    let r ← addNode doc h n
    let doc₂ ← writeAttrs r.2 as r.1
    let doc₃ ← setValueH doc₂ r.2 v
    writeTrees cs doc₃ r.2
/-- The children, in order. -/
def writeTrees : List XNode → XNode → H → Out XNode
  | [], doc, _ => .ok doc
  | c :: cs, doc, h => do let doc' ← writeTree c doc h; writeTrees cs doc' h
end

mutual
/-- A tree that is in memory only, and whose texts contain no NUL. -/
def Clean : XNode → Prop
  | .mk n v r as cs => Char.ofNat 0 ∉ n ∧ Char.ofNat 0 ∉ v ∧ r = [] ∧
    (∀ a ∈ as, Char.ofNat 0 ∉ a.1 ∧ Char.ofNat 0 ∉ a.2) ∧ CleanAll cs
/-- All trees are. -/
def CleanAll : List XNode → Prop
  | [] => True
  | c :: cs => Clean c ∧ CleanAll cs
end

theorem modify_last {doc d : XNode} {l : Loc} {x t : XNode} (g : XNode → XNode) (hx : nodeAt doc l = some x)
    (hd : modifyAt doc l (appendChild t) = some d) :
    modifyAt d (l ++ [x.children.length]) g = modifyAt doc l (appendChild (g t)) := by
  induction l generalizing doc d with
  | nil =>
    simp only [nodeAt, Option.some.injEq] at hx
    subst hx
    cases hd
    obtain ⟨n, v, r, as, cs⟩ := doc
    simp [appendChild, modifyAt, XNode.children]
  | cons k l ih =>
    obtain ⟨n, v, r, as, cs⟩ := doc
    simp only [nodeAt, XNode.children] at hx
    simp only [modifyAt] at hd
    cases hc : cs[k]? with
    | none => simp [hc] at hx
    | some c =>
      rw [hc] at hx hd
      cases hm : modifyAt c l (appendChild t) with
      | none => simp [hm] at hd
      | some c' =>
        simp only [hm, Option.some.injEq] at hd
        subst hd
        have hk : k < cs.length := (List.getElem?_eq_some_iff.1 hc).1
        have := ih hx hm
        simp only [List.cons_append, modifyAt, hc, List.getElem?_set_self hk, this]
        cases modifyAt c l (appendChild (g t)) with
        | none => rfl
        | some e => simp

theorem change_last {doc d : XNode} {l : Loc} {x t : XNode} (g : XNode → XNode) (hx : nodeAt doc l = some x)
    (hd : modifyAt doc l (appendChild t) = some d) (p : Option Loc) :
    ∃ d', change d ⟨some (l ++ [x.children.length]), p⟩ g = .ok d' ∧ modifyAt doc l (appendChild (g t)) = some d' := by
  obtain ⟨d', h1, -⟩ := modifyAt_some (appendChild (g t)) hx
  refine ⟨d', ?_, h1⟩
  simp only [change, modify_last g hx hd, h1]

theorem writeAttrs_spec {doc d : XNode} {l : Loc} {x : XNode} (hx : nodeAt doc l = some x) (p : Option Loc)
    (n v r : Str) (as₀ as : List (Str × Str)) (cs : List XNode)
    (ha : ∀ a ∈ as, Char.ofNat 0 ∉ a.1 ∧ Char.ofNat 0 ∉ a.2)
    (hd : modifyAt doc l (appendChild (.mk n v r as₀ cs)) = some d) :
    ∃ d', writeAttrs ⟨some (l ++ [x.children.length]), p⟩ as d = .ok d' ∧
      modifyAt doc l (appendChild (.mk n v r (as₀ ++ as) cs)) = some d' := by
  induction as generalizing d as₀ with
  | nil => exact ⟨d, rfl, by simpa using hd⟩
  | cons a as ih =>
    obtain ⟨h1, h2⟩ := ha a (by simp)
    obtain ⟨d', h3, h4⟩ := change_last (fun x => addAttribute x (cstr a.1) (cstr a.2)) hx hd p
    rw [cstr_eq h1, cstr_eq h2] at h3 h4
    obtain ⟨d'', h5, h6⟩ := ih (as₀ ++ [a]) (fun b hb => ha b (by simp [hb])) h4
    refine ⟨d'', ?_, by simpa using h6⟩
    simp only [writeAttrs, addAttributeH, cstr_eq h1, cstr_eq h2, h3, Out.ok_bind, h5]

mutual
theorem writeTree_spec : ∀ (t : XNode), Clean t → ∀ (doc : XNode) (l : Loc) (x : XNode) (p : Option Loc),
    nodeAt doc l = some x →
    ∃ d', writeTree t doc ⟨some l, p⟩ = .ok d' ∧ modifyAt doc l (appendChild t) = some d'
  | .mk n v r as cs, hc, doc, l, x, p, hx => by
    rw [Clean] at hc
    obtain ⟨h1, h2, rfl, h3, h4⟩ := hc
    obtain ⟨d₁, e₁, -⟩ := modifyAt_some (appendChild (freshNode (cstr n))) hx
    have hadd : addNode doc ⟨some l, p⟩ n = .ok (d₁, ⟨some (l ++ [x.children.length]), some l⟩) := by
      simp only [addNode, hx, e₁]
    rw [cstr_eq h1] at e₁
    obtain ⟨d₂, e₂, e₃⟩ := writeAttrs_spec hx (some l) n [] [] [] as [] h3 e₁
    obtain ⟨d₃, e₄, e₅⟩ := change_last (fun x => setValue x (cstr v)) hx e₃ (some l)
    have e₆ : setValueH d₂ ⟨some (l ++ [x.children.length]), some l⟩ v = .ok d₃ := e₄
    rw [cstr_eq h2] at e₅
    obtain ⟨d₄, e₇, e₈⟩ := writeTrees_spec cs h4 doc d₃ l x (some l) n v [] as [] hx (by simpa [setValue] using e₅)
    refine ⟨d₄, ?_, by simpa using e₈⟩
    rw [writeTree]
    simp only [hadd, Out.ok_bind, e₂, e₆, e₇]
theorem writeTrees_spec : ∀ (cs : List XNode), CleanAll cs → ∀ (doc d : XNode) (l : Loc) (x : XNode) (p : Option Loc)
    (n v r : Str) (as : List (Str × Str)) (cs₀ : List XNode), nodeAt doc l = some x →
    modifyAt doc l (appendChild (.mk n v r as cs₀)) = some d →
    ∃ d', writeTrees cs d ⟨some (l ++ [x.children.length]), p⟩ = .ok d' ∧
      modifyAt doc l (appendChild (.mk n v r as (cs₀ ++ cs))) = some d'
  | [], _, doc, d, l, x, p, n, v, r, as, cs₀, hx, hd => ⟨d, by rw [writeTrees], by simpa using hd⟩
  | c :: cs, hc, doc, d, l, x, p, n, v, r, as, cs₀, hx, hd => by
    rw [CleanAll] at hc
    obtain ⟨y, hy, hyc⟩ : ∃ y, nodeAt d l = some y ∧ y = appendChild (.mk n v r as cs₀) x := by
      obtain ⟨d₀, h1, h2⟩ := modifyAt_some (appendChild (.mk n v r as cs₀)) hx
      rw [hd] at h1
      cases h1
      exact ⟨_, h2, rfl⟩
    have hchild : nodeAt d (l ++ [x.children.length]) = some (.mk n v r as cs₀) := by
      rw [nodeAt_append, hy, hyc]
      obtain ⟨n', v', r', as', cs'⟩ := x
      simp [nodeAt, appendChild, XNode.children]
    obtain ⟨d₁, e₁, e₂⟩ := writeTree_spec c hc.1 d (l ++ [x.children.length]) _ p hchild
    rw [modify_last (appendChild c) hx hd] at e₂
    obtain ⟨d₂, e₃, e₄⟩ := writeTrees_spec cs hc.2 doc d₁ l x p n v r as (cs₀ ++ [c]) hx e₂
    refine ⟨d₂, ?_, by simpa using e₄⟩
    rw [writeTrees]
    simp only [e₁, Out.ok_bind, e₃]
end

/-- C80: every tree (of texts without NUL) can be written through the API, and what is then in the document is exactly this
tree: below the node a last child has been added, which is the tree; and every other node of the document, that is every
one that is neither the node itself nor below the new child, has its value, its attributes and its number of children. -/
theorem C80_write_tree (t doc : XNode) (h : H) (l : Loc) (x : XNode) (ht : Clean t) (hn : h.node = some l)
    (hx : nodeAt doc l = some x) :
    ∃ doc', writeTree t doc h = .ok doc' ∧ nodeAt doc' (l ++ [x.children.length]) = some t ∧
      (∃ x', nodeAt doc' l = some x' ∧ x'.children = x.children ++ [t] ∧ x'.name = x.name ∧ x'.value = x.value ∧
        x'.attrs = x.attrs) ∧
      ∀ m y, nodeAt doc m = some y → m ≠ l → ∃ y', nodeAt doc' m = some y' ∧ y'.name = y.name ∧ y'.value = y.value ∧
        y'.attrs = y.attrs ∧ y'.children.length = y.children.length := by
  obtain ⟨hnode, p⟩ := h
  cases hn
  obtain ⟨d, h1, h2⟩ := writeTree_spec t ht doc l x p hx
  obtain ⟨d', h3, h4⟩ := modifyAt_some (appendChild t) hx
  rw [h2] at h3
  cases h3
  refine ⟨d, h1, ?_, ⟨_, h4, ?_⟩, ?_⟩
  · rw [nodeAt_append, h4]
    obtain ⟨n, v, r, as, cs⟩ := x
    simp [nodeAt, appendChild, XNode.children]
  · obtain ⟨n, v, r, as, cs⟩ := x
    exact ⟨rfl, rfl, rfl, rfl⟩
  · intro m y hy hm
    obtain ⟨y', e1, e2, e3, -⟩ := modifyAt_later (appendChild_keeps t) h2 hy
    exact ⟨y', e1, e2.name, e3 hm⟩

/-- The statements speak about real documents: two roots are added to an empty document, `<r k="v">w<a/><b/></r>` is written
below the first. -/
example : ∃ d h d₂, docAddNode (.mk [] [] [] [] []) ['s'] = .ok (d, h) ∧
    writeTree (.mk ['r'] ['w'] [] [(['k'], ['v'])] [.mk ['a'] [] [] [] [], .mk ['b'] [] [] [] []]) d h = .ok d₂ ∧
    findNode d₂ h ['r'] = .ok ⟨some [0, 0], some [0]⟩ ∧ getAttributeH d₂ ⟨some [0, 0], some [0]⟩ ['k'] = .ok ['v'] ∧
    inc d₂ ⟨some [0, 0, 0], some [0, 0]⟩ = .ok ⟨none, some [0, 0]⟩ ∧
    docGetNode d₂ ['s'] = .ok h ∧ docGetNode d₂ ['t'] = .throw := by
  refine ⟨_, _, _, rfl, rfl, ?_, ?_, ?_, ?_, ?_⟩ <;> rfl

end Stator.Ds.Xml
