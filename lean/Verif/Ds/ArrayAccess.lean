import Verif.Ds.ArrayProps
import Verif.Rt.Print

/-!
# C77: arrays of fixed rank, their text, element-wise functions and conversion to expressions
-/

namespace Stator.Ds

/-! ## Model -/

/-- `ArrayAccessor<Dim, Array>`: the coordinates (not initialised at first) and `Dim`, the number of indices still to come.
models: array.hpp:257-288. -/
structure FixedAcc where
  coords : List Nat
  left : Nat

/-- `operator[](idx)`: sets a coordinate. For `Dim = 1` the element is accessed next. models: array.hpp:267-271, 283-287. -/
def FixedAcc.index (c : FixedAcc) (i : Nat) : Out FixedAcc := do
  let cs ← wr c.coords (c.coords.length - c.left) i
  .ok { coords := cs, left := c.left - 1 }

/-- Several indices. models: array.hpp:267-287. -/
def fixedChain : FixedAcc → List Nat → Out FixedAcc
  | c, [] => .ok c
  | c, i :: is => do
    let c' ← c.index i
    fixedChain c' is

/-- `T x = a[i1]…[iD];` for an array of fixed rank `D` (the type of the expression requires `D` indices). `junk` is the initial
content of the coordinates. models: array.hpp:283-287, 344-352. -/
def readFixed {α : Type} (W : Nat) (a : Arr α) (junk is : List Nat) : Out α := do
  let c ← fixedChain { coords := junk, left := junk.length } is
  a.get W c.coords

/-- `a[i1]…[iD] = v;`. models: array.hpp:283-287, 344-352. -/
def writeFixed {α : Type} (W : Nat) (a : Arr α) (junk is : List Nat) (v : α) : Out (Arr α) := do
  let c ← fixedChain { coords := junk, left := junk.length } is
  a.set W c.coords v

/-- `out.substr(0, out.size() - 2)`; for a text shorter than two characters the count wraps around and everything is kept.
models: array.hpp:393. -/
def cutTwo (s : List Char) : List Char := if s.length < 2 then s else s.take (s.length - 2)

/-- The text of an array with the elements `xs` in its store; `empty` is `f.empty()`. models: array.hpp:382-394. -/
def textOf {α : Type} (showT : α → List Char) (empty : Bool) (xs : List α) : List Char :=
  if empty then ['[', ']']
  else cutTwo (xs.foldl (fun out x => out ++ (showT x ++ [',', ' '])) ['[']) ++ [']']

/-- `repr` of an array with linear addressing. models: array.hpp:114-117, 151, 382-394. -/
def Lin.text {α : Type} (showT : α → List Char) (a : Lin α) : List Char := textOf showT (a.dim == 0) a.store

/-- `repr` of a row-major array. models: array.hpp:176-179, 225, 382-394. -/
def Arr.text {α : Type} (W : Nat) (showT : α → List Char) (a : Arr α) : List Char :=
  textOf showT (storeSize W a.dims == 0) a.store

/-- The loop of `derivative` and `simplify` for linear addressing: over the store of the result, which has the capacity of the
argument. `f` may throw or be undefined. models: array.hpp:396-412, 555-571 (and 119-132 for `resize`). -/
def Lin.mapLoop {α β : Type} (cap : Option Nat) (f : α → Out β) (a : Lin α) : Out (Lin β) :=
  match cap with
  | none => do
    let s ← elemLoop (fun i => do let x ← rd a.store i; f x) a.dim 0
    .ok { dim := a.dim, store := s }
  | some S =>
    if a.dim > S then .throw
    else do
      let s ← elemLoop (fun i => do let x ← rd a.store i; f x) S 0
      .ok { dim := a.dim, store := s }

/-- `Expr(array)`: a runtime array with the dimension of `a`, filled from the begin of `a`. (Row-major arrays cannot be converted:
their dimensions are no `size_t`.) models: runtime.hpp:488-504. -/
def Lin.toExpr {α K : Type} (conv : α → Expr K) (a : Lin α) : Out (Expr K) := do
  let s ← elemLoop (fun i => do let x ← rd a.store i; .ok (conv x)) a.dim 0
  .ok (.arr s)

/-! ## Fixed rank -/

theorem fixedChain_eq : ∀ (is done junk : List Nat), junk.length = is.length →
    fixedChain { coords := done ++ junk, left := junk.length } is = .ok { coords := done ++ is, left := 0 }
  | [], done, junk, h => by
    have : junk = [] := List.length_eq_zero_iff.1 (by simpa using h)
    subst this
    simp [fixedChain]
  | i :: is, done, [], h => by simp at h
  | i :: is, done, j :: junk, h => by
    have h' : junk.length = is.length := by simpa using h
    have hi : ({ coords := done ++ j :: junk, left := (j :: junk).length } : FixedAcc).index i
        = .ok { coords := (done ++ [i]) ++ junk, left := junk.length } := by
      simp [FixedAcc.index, wr]
    rw [fixedChain, hi, Out.ok_bind, fixedChain_eq is (done ++ [i]) junk h']
    simp

/-- **C77**. For an array of fixed rank, `a[i1]…[iD]` is the element with the coordinates `i1, …, iD`, for reading and writing,
whatever was in the memory of the accessor. -/
theorem C77_fixed_rank {α : Type} (W : Nat) (a : Arr α) (junk is : List Nat) (v : α) (h : junk.length = is.length) :
    readFixed W a junk is = a.get W is ∧ writeFixed W a junk is v = a.set W is v := by
  have := fixedChain_eq is [] junk h
  simp only [List.nil_append] at this
  simp [readFixed, writeFixed, this]

/-- **C77**. An element of a fixed-rank array has the value last written to it, and no other element changes. -/
theorem C77_fixed_read_write {α : Type} (W : Nat) (a : Arr α) (h : a.WF W) (junk junk' is js : List Nat) (v : α)
    (hj : junk.length = a.dims.length) (hj' : junk'.length = a.dims.length) (hi : InRange a.dims is)
    (hjs : InRange a.dims js) :
    ∃ a' w, writeFixed W a junk is v = .ok a' ∧ readFixed W a junk' js = .ok w ∧
      readFixed W a' junk' js = .ok (if js = is then v else w) := by
  have li : is.length = a.dims.length := (List.Forall₂.length_eq hi).symm
  have lj : js.length = a.dims.length := (List.Forall₂.length_eq hjs).symm
  obtain ⟨a', h1, -, -, h4⟩ := C45_read_write W a h is v hi
  obtain ⟨w, h5, h6⟩ := h4 js hjs
  refine ⟨a', w, ?_, ?_, ?_⟩
  · rw [(C77_fixed_rank W a junk is v (hj.trans li.symm)).2, h1]
  · rw [(C77_fixed_rank W a junk' js v (hj'.trans lj.symm)).1, h5]
  · rw [(C77_fixed_rank W a' junk' js v (hj'.trans lj.symm)).1, h6]

/-! ## Text -/

/-- The elements, separated by a comma and a blank. -/
def commaList : List (List Char) → List Char
  | [] => []
  | [t] => t
  | t :: ts => t ++ [',', ' '] ++ commaList ts

theorem foldl_text {α : Type} (showT : α → List Char) : ∀ (xs : List α) (x : α) (out : List Char),
    (x :: xs).foldl (fun out x => out ++ (showT x ++ [',', ' '])) out
      = out ++ commaList ((x :: xs).map showT) ++ [',', ' ']
  | [], x, out => by simp [commaList]
  | y :: xs, x, out => by
    rw [List.foldl_cons, foldl_text showT xs y]
    simp [commaList]

/-- **C77**. The text of a nonempty array is the texts of all elements in its store, in their order, between brackets. -/
theorem C77_text {α : Type} (showT : α → List Char) (xs : List α) (h : xs ≠ []) :
    textOf showT false xs = ['['] ++ commaList (xs.map showT) ++ [']'] := by
  cases xs with
  | nil => exact absurd rfl h
  | cons x xs =>
    unfold textOf cutTwo
    rw [if_neg (by simp), foldl_text, if_neg (by simp)]
    have hlen : (['['] ++ commaList ((x :: xs).map showT) ++ [',', ' ']).length - 2
        = (['['] ++ commaList ((x :: xs).map showT)).length := by simp
    rw [hlen, List.take_left]

/-- **C77**. For dynamic storage the text has exactly the elements of the array. -/
theorem C77_text_dynamic {α : Type} (showT : α → List Char) (a : Lin α) (h : a.store.length = a.dim) :
    a.text showT = ['['] ++ commaList (a.store.map showT) ++ [']'] := by
  unfold Lin.text
  cases hs : a.store with
  | nil =>
    rw [hs] at h
    simp [← h, textOf, commaList]
  | cons x xs =>
    rw [hs] at h
    rw [show (a.dim == 0) = false by rw [← h]; rfl]
    exact C77_text showT (x :: xs) (by simp)

/-- **C77**, fixed storage: the elements that are not in use are written too. -/
theorem C77_text_fixed_fails {α : Type} (showT : α → List Char) (a : Lin α) (h : 0 < a.dim) (hs : a.dim ≤ a.store.length) :
    a.text showT = ['['] ++ commaList (a.store.map showT) ++ [']'] := by
  unfold Lin.text
  rw [show (a.dim == 0) = false by rw [beq_eq_false_iff_ne]; omega]
  exact C77_text showT a.store (by intro h'; rw [h'] at hs; simp at hs; omega)

/-- One element of two is in use; both are written. -/
example : Lin.text (fun c => [c]) { dim := 1, store := ['x', 'y'] } = ['[', 'x', ',', ' ', 'y', ']'] := by decide

/-- **C77**, the shape is not written: two different arrays with the same text. -/
theorem C77_text_shape_fails {α : Type} [DecidableEq α] (W : Nat) (hW : 4 < W) (showT : α → List Char) (w x y z : α) :
    Arr.text W showT { dims := [2, 2], store := [w, x, y, z] } = Arr.text W showT { dims := [1, 4], store := [w, x, y, z] } ∧
    Arr.eq { dims := [2, 2], store := [w, x, y, z] } { dims := [1, 4], store := [w, x, y, z] } = false := by
  constructor
  · have h1 : storeSize W [2, 2] = 4 := by
      rw [C45_size W _ (by simp)]; exact Nat.mod_eq_of_lt hW
    have h2 : storeSize W [1, 4] = 4 := by
      rw [C45_size W _ (by simp)]; exact Nat.mod_eq_of_lt hW
    unfold Arr.text
    rw [h1, h2]
  · simp [Arr.eq]

/-! ## Element-wise functions -/

theorem elemLoop_list {α β : Type} (f : α → Out β) (g : α → β) (xs : List α) : ∀ (k i : Nat), i + k ≤ xs.length →
    (∀ x ∈ (xs.drop i).take k, f x = .ok (g x)) →
    elemLoop (fun i => do let x ← rd xs i; f x) k i = .ok (((xs.drop i).take k).map g)
  | 0, i, _, _ => by simp [elemLoop]
  | k + 1, i, h, hf => by
    have hi : i < xs.length := by omega
    have hd : (xs.drop i).take (k + 1) = xs[i] :: (xs.drop (i + 1)).take k := by
      rw [List.drop_eq_getElem_cons hi, List.take_succ_cons]
    rw [hd] at hf ⊢
    rw [elemLoop, elemLoop_list f g xs k (i + 1) (by omega) (fun x hx => hf x (by simp [hx]))]
    rw [rd_ok hi, Out.ok_bind, hf _ (by simp)]
    simp

/-- **C77**. `derivative` and `simplify` of an array apply the function to every element and keep the size: of the elements of the
array for dynamic storage, of all elements of the store for fixed storage. -/
theorem C77_map {α β : Type} (f : α → Out β) (g : α → β) (a : Lin α) :
    (a.dim ≤ a.store.length → (∀ x ∈ a.store.take a.dim, f x = .ok (g x)) →
      a.mapLoop none f = .ok { dim := a.dim, store := (a.store.take a.dim).map g }) ∧
    (∀ S, a.store.length = S → a.dim ≤ S → (∀ x ∈ a.store, f x = .ok (g x)) →
      a.mapLoop (some S) f = .ok { dim := a.dim, store := a.store.map g }) := by
  constructor
  · intro h hf
    have := elemLoop_list f g a.store a.dim 0 (by omega) (by simpa using hf)
    simp only [List.drop_zero] at this
    simp [Lin.mapLoop, this]
  · intro S hS hd hf
    have := elemLoop_list f g a.store S 0 (by omega) (by
      rw [List.drop_zero, ← hS, List.take_length]; exact hf)
    rw [List.drop_zero] at this
    rw [← hS, List.take_length] at this
    simp only [Lin.mapLoop]
    rw [if_neg (by omega), ← hS, this, Out.ok_bind]

/-- **C77**, fixed storage: the function is also applied to the elements that are not in use; if it is undefined for them (as for the
null pointers in an array of expressions), so is the whole. -/
theorem C77_map_unused_fails {α β : Type} (f : α → Out β) (x y : α) (gx : β) (hx : f x = .ok gx) (hy : f y = .ub) :
    Lin.mapLoop (some 2) f { dim := 1, store := [x, y] } = .ub ∧
    Lin.mapLoop none f { dim := 1, store := [x] } = .ok { dim := 1, store := [gx] } := by
  constructor
  · simp [Lin.mapLoop, elemLoop, rd, hx, hy]
  · simp [Lin.mapLoop, elemLoop, rd, hx]

/-! ## Conversion -/

/-- **C77**. `Expr(array)` is the runtime array of the converted elements, and of those in use only. -/
theorem C77_to_expr {α K : Type} (conv : α → Expr K) (a : Lin α) (h : a.dim ≤ a.store.length) :
    a.toExpr conv = .ok (.arr ((a.store.take a.dim).map conv)) := by
  have := elemLoop_list (fun x => .ok (conv x)) conv a.store a.dim 0 (by omega) (fun _ _ => rfl)
  simp only [List.drop_zero] at this
  simp [Lin.toExpr, this]

/-- Reading more elements than there are is undefined: an array whose dimension was given too large for its list of elements. -/
theorem C77_to_expr_short {α K : Type} (conv : α → Expr K) (a : Lin α) (h : a.store.length < a.dim) :
    a.toExpr conv = .ub := by
  have : elemLoop (fun i => do let x ← rd a.store i; Out.ok (conv x)) a.dim 0 = .ub := by
    obtain ⟨g, hg⟩ : ∃ g : Nat → Expr K, ∀ j, j < a.store.length → (do let x ← rd a.store j; Out.ok (conv x)) = .ok (g j) := by
      refine ⟨fun j => if h : j < a.store.length then conv a.store[j] else .arr [], fun j hj => ?_⟩
      simp [rd_ok hj, hj]
    exact elemLoop_ub _ a.dim 0 a.store.length (by omega) (by omega) (fun j _ hj => ⟨g j, hg j hj⟩)
      (by simp [rd_ub (le_refl _)])
  simp [Lin.toExpr, this]

theorem reprTerms_eq {α K : Type} (showK : K → List Char) (showT : α → List Char) (conv : α → Expr K)
    (hc : ∀ x, (conv x).repr showK = some (showT x)) : ∀ (xs : List α) (x : α),
    reprTerms showK ((x :: xs).map conv) = some (commaList ((x :: xs).map showT) ++ [',', ' '])
  | [], x => by simp [reprTerms, hc, commaList]
  | y :: xs, x => by
    have ih := reprTerms_eq showK showT conv hc xs y
    rw [List.map_cons, reprTerms, hc, ih]
    simp [commaList]

/-- **C77**. A dynamic array and the expression made of it have the same text. -/
theorem C77_same_text {α K : Type} (showK : K → List Char) (showT : α → List Char) (conv : α → Expr K)
    (hc : ∀ x, (conv x).repr showK = some (showT x)) (a : Lin α) (h : a.store.length = a.dim) :
    ∃ e, a.toExpr conv = .ok e ∧ e.repr showK = some (a.text showT) := by
  refine ⟨_, C77_to_expr conv a (by omega), ?_⟩
  rw [C77_text_dynamic showT a h, ← h, List.take_length]
  cases hs : a.store with
  | nil => simp [Expr.repr, commaList]
  | cons x xs =>
    have := reprTerms_eq showK showT conv hc xs x
    rw [List.map_cons] at this ⊢
    rw [Expr.repr, this]
    have hd : ∀ l : List Char, ('[' :: (l ++ [',', ' '])).dropLast.dropLast = '[' :: l := fun l => by
      rw [show '[' :: (l ++ [',', ' ']) = ('[' :: l ++ [',']) ++ [' '] by simp, List.dropLast_concat, List.dropLast_concat]
    simp [dropTwo, hd]

/-! ## The hypotheses are met -/

/-- A 2 × 3 array, and the element (1, 2). -/
example : readFixed (2 ^ 16) { dims := [2, 3], store := [0, 1, 2, 3, 4, 5] } [7, 7] [1, 2] = .ok 5 := by decide

example : Arr.WF (2 ^ 16) { dims := [2, 3], store := [0, 1, 2, 3, 4, 5] } ∧ InRange [2, 3] [1, 2] :=
  ⟨⟨by simp, by decide, by decide⟩, .cons (by simp) (.cons (by simp) .nil)⟩

example : Lin.toExpr (K := Nat) (fun n => .const n) { dim := 2, store := [5, 6, 7] } = .ok (.arr [.const 5, .const 6]) := rfl

end Stator.Ds
