import Mathlib.Data.List.Basic

/-!
# Compile-time lists (C42)

Models the metafunctions of `stator/orphan/static_list.hpp` as functions on lists; `none` is a failing `static_assert` (or no matching specialisation).
-/

namespace Stator.Ds

/-- `static_list_helper`. models: static_list.hpp:37-51. -/
def makeHelper {α : Type} : List α → List α → List α
  | acc, [] => acc
  | acc, h :: t => makeHelper (acc ++ [h]) t

/-- `make_static_list`. models: static_list.hpp:151-157. -/
def slMake {α : Type} (xs : List α) : List α := makeHelper [] xs

/-- `get_static_list_item_helper` (for the empty list it is -1, here `none`).
models: static_list.hpp:53-65. -/
def getHelper {α : Type} (index : Nat) : Nat → List α → Option α
  | _, [] => none
  | i, h :: t => if index = i then some h else getHelper index (i + 1) t

/-- `get_static_list_item`. models: static_list.hpp:159-170. -/
def slGet {α : Type} (xs : List α) (index : Nat) : Option α :=
  if index < xs.length then getHelper index 0 xs else none

/-- `reverse_static_list_helper`. models: static_list.hpp:67-83. -/
def reverseHelper {α : Type} : List α → List α → List α
  | rev, [] => rev
  | rev, h :: t => reverseHelper (h :: rev) t

/-- `reverse_static_list`. models: static_list.hpp:172-181. -/
def slReverse {α : Type} (xs : List α) : List α := reverseHelper [] xs

/-- `replace_static_list_item_helper`. models: static_list.hpp:85-105. -/
def replaceHelper {α : Type} (index : Nat) (v : α) : Nat → List α → List α → Option (List α)
  | _, _, [] => none
  | i, new, h :: t =>
    if index = i then some (new ++ [v] ++ t) else replaceHelper index v (i + 1) (new ++ [h]) t

/-- `replace_static_list_item`; the empty list has its own specialisation without a check.
models: static_list.hpp:183-202. -/
def slReplace {α : Type} (xs : List α) (index : Nat) (v : α) : Option (List α) :=
  match xs with
  | [] => some []
  | xs => if index < xs.length then replaceHelper index v 0 [] xs else none

/-- `append_static_list_item`. models: static_list.hpp:204-212. -/
def slAppend {α : Type} (xs : List α) (v : α) : List α := xs ++ [v]

/-- `prepend_static_list_item`. models: static_list.hpp:214-222. -/
def slPrepend {α : Type} (xs : List α) (v : α) : List α := v :: xs

/-- `merge_static_lists`. models: static_list.hpp:234-244. -/
def slMerge {α : Type} (xs ys : List α) : List α := xs ++ ys

/-- `split_static_list_helper`, with the flag `Split`. There is no specialisation for a non-empty second
list with `Split = false`. models: static_list.hpp:107-147. -/
def splitHelper {α : Type} (index : Nat) : Nat → List α → List α → List α → Bool →
    Option (List α × List α)
  | _, first, second, [], _ => some (first, second)
  | i, first, second, h :: t, false =>
    if second.isEmpty then splitHelper index (i + 1) (first ++ [h]) [] t (decide (i + 1 ≥ index)) else none
  | i, first, second, h :: t, true =>
    splitHelper index (i + 1) first (second ++ [h]) t (decide (i + 1 ≥ index))

/-- `split_static_list`. models: static_list.hpp:246-266. -/
def slSplit {α : Type} (xs : List α) (index : Nat) : Option (List α × List α) :=
  match xs with
  | [] => some ([], [])
  | xs => splitHelper index 0 [] [] xs (decide (index = 0))

/-- `static_list_size`. models: static_list.hpp:224-232. -/
def slSize {α : Type} (xs : List α) : Nat := xs.length

/-- `static_foreach_helper`: the functor is taken by value, applied, and the copy that was applied is handed
on; `σ` is the state inside the functor, `β` what one call does outside. `End` is reached when `Index = End`;
`fuel` counts the instantiations left. models: static_list.hpp:270-290. -/
def foreachHelper {α σ β : Type} (f : σ → α → σ × β) (xs : List α) (stop : Nat) :
    Nat → Nat → σ → Option (List β)
  | 0, index, _ => if index = stop then some [] else none
  | fuel + 1, index, s =>
    if index = stop then some [] else
      match slGet xs index with
      | none => none
      | some x =>
        let (s', b) := f s x
        match foreachHelper f xs stop fuel (index + 1) s' with
        | none => none
        | some bs => some (b :: bs)

/-- `static_foreach`. models: static_list.hpp:294-308. -/
def slForeach {α σ β : Type} (f : σ → α → σ × β) (s : σ) (xs : List α) : Option (List β) :=
  foreachHelper f xs (slSize xs) (slSize xs) 0 s

/-! ## Specification: what calling a functor on each item in order means -/

/-- Calling a stateful functor on the items from first to last: what each call did, in order. -/
def callsInOrder {α σ β : Type} (f : σ → α → σ × β) : σ → List α → List β
  | _, [] => []
  | s, x :: xs => (f s x).2 :: callsInOrder f (f s x).1 xs

/-! ## Lemmas -/

theorem makeHelper_eq {α : Type} (xs acc : List α) : makeHelper acc xs = acc ++ xs := by
  induction xs generalizing acc with
  | nil => simp [makeHelper]
  | cons h t ih => simp [makeHelper, ih]

theorem getHelper_eq {α : Type} (xs : List α) (index i : Nat) (h : i ≤ index) :
    getHelper index i xs = xs[index - i]? := by
  induction xs generalizing i with
  | nil => simp [getHelper]
  | cons x t ih =>
    unfold getHelper
    split
    · subst_vars; simp
    · rw [ih (i + 1) (by omega)]
      have : index - i = (index - (i + 1)) + 1 := by omega
      rw [this, List.getElem?_cons_succ]

theorem reverseHelper_eq {α : Type} (xs rev : List α) : reverseHelper rev xs = xs.reverse ++ rev := by
  induction xs generalizing rev with
  | nil => simp [reverseHelper]
  | cons h t ih => simp [reverseHelper, ih]

theorem replaceHelper_eq {α : Type} (xs new : List α) (index i : Nat) (v : α) (h : i ≤ index)
    (h' : index - i < xs.length) :
    replaceHelper index v i new xs = some (new ++ xs.set (index - i) v) := by
  induction xs generalizing i new with
  | nil => simp at h'
  | cons x t ih =>
    unfold replaceHelper
    split
    · subst_vars; simp
    · have e : index - i = (index - (i + 1)) + 1 := by omega
      rw [ih _ (i + 1) (by omega) (by simp at h'; omega), e, List.set_cons_succ]
      simp

theorem splitHelper_true {α : Type} (xs first second : List α) (index i : Nat) (h : index ≤ i) :
    splitHelper index i first second xs true = some (first, second ++ xs) := by
  induction xs generalizing i second with
  | nil => simp [splitHelper]
  | cons x t ih =>
    unfold splitHelper
    rw [show decide (i + 1 ≥ index) = true by simp; omega, ih _ _ (by omega)]
    simp

theorem splitHelper_eq {α : Type} (xs first : List α) (index i : Nat) :
    splitHelper index i first [] xs (decide (i ≥ index)) =
      some (first ++ xs.take (index - i), xs.drop (index - i)) := by
  induction xs generalizing i first with
  | nil => simp [splitHelper]
  | cons x t ih =>
    by_cases hi : i ≥ index
    · rw [decide_eq_true hi, splitHelper_true _ _ _ _ _ hi]
      have : index - i = 0 := by omega
      simp [this]
    · rw [decide_eq_false hi]
      unfold splitHelper
      have e : index - i = (index - (i + 1)) + 1 := by omega
      rw [if_pos (by simp), ih, e]
      simp

theorem slGet_eq {α : Type} (xs : List α) (index : Nat) : slGet xs index = xs[index]? := by
  unfold slGet
  split
  · rw [getHelper_eq _ _ _ (by omega)]; simp
  · symm; simp; omega

theorem foreachHelper_eq {α σ β : Type} (f : σ → α → σ × β) (xs : List α) (fuel index : Nat) (s : σ)
    (h : index + fuel = xs.length) :
    foreachHelper f xs xs.length fuel index s = some (callsInOrder f s (xs.drop index)) := by
  induction fuel generalizing index s with
  | zero =>
    have : index = xs.length := by omega
    subst this
    simp [foreachHelper, callsInOrder]
  | succ n ih =>
    have hi : index < xs.length := by omega
    unfold foreachHelper
    rw [if_neg (by omega), slGet_eq, List.getElem?_eq_getElem hi]
    simp only
    rw [ih _ _ (by omega)]
    rw [List.drop_eq_getElem_cons hi]
    rfl

/-! ## C42 -/

/-- C42: making a list keeps the items and their order. -/
theorem C42_make {α : Type} (xs : List α) : slMake xs = xs := by simp [slMake, makeHelper_eq]

/-- C42: item access gives the item at that position, and an index that is not a position is rejected. -/
theorem C42_get {α : Type} (xs : List α) (index : Nat) (v : α) :
    slGet xs index = some v ↔ ∃ h : index < xs.length, xs[index] = v := by
  rw [slGet_eq, List.getElem?_eq_some_iff]

/-- C42: item `i` of the reverse is item `n - 1 - i`, and the size is kept. -/
theorem C42_reverse {α : Type} (xs : List α) :
    slSize (slReverse xs) = slSize xs ∧
      ∀ i j, i + j + 1 = slSize xs → slGet (slReverse xs) i = slGet xs j := by
  have : slReverse xs = xs.reverse := by simp [slReverse, reverseHelper_eq]
  refine ⟨by simp [this, slSize], fun i j h => ?_⟩
  simp only [slSize] at h
  rw [slGet_eq, slGet_eq, this, List.getElem?_reverse (by omega)]
  congr 1; omega

/-- C42: reversing twice gives the list back. -/
theorem C42_reverse_reverse {α : Type} (xs : List α) : slReverse (slReverse xs) = xs := by
  simp [slReverse, reverseHelper_eq]

/-- C42: replacing changes the named item and no other, keeps the size, and is rejected when there is no
such item in a non-empty list. -/
theorem C42_replace {α : Type} (xs : List α) (index : Nat) (v : α) :
    (index < xs.length → ∃ ys, slReplace xs index v = some ys ∧ slSize ys = slSize xs ∧
      ∀ i, slGet ys i = if i = index then some v else slGet xs i) ∧
    (xs.length ≤ index → xs ≠ [] → slReplace xs index v = none) := by
  constructor
  · intro h
    cases xs with
    | nil => simp at h
    | cons x t =>
      refine ⟨(x :: t).set index v, ?_, by simp [slSize], fun i => ?_⟩
      · simp only [slReplace]
        rw [if_pos h, replaceHelper_eq _ _ _ _ _ (by omega) (by simpa using h)]
        simp
      · rw [slGet_eq, slGet_eq, List.getElem?_set]
        by_cases hi : i = index
        · subst hi; simpa using h
        · rw [if_neg hi, if_neg (fun h => hi h.symm)]
  · intro h hne
    cases xs with
    | nil => exact absurd rfl hne
    | cons x t => simp only [slReplace]; rw [if_neg (by omega)]

/-- C42: replacing in the empty list is not rejected: it gives the empty list for every index. -/
theorem C42_replace_empty {α : Type} (index : Nat) (v : α) : slReplace ([] : List α) index v = some [] := rfl

/-- C42: append, prepend and merge put the items where they say. -/
theorem C42_concat {α : Type} (xs ys : List α) (v : α) :
    (∀ i, slGet (slMerge xs ys) i = if i < slSize xs then slGet xs i else slGet ys (i - slSize xs)) ∧
    slAppend xs v = slMerge xs [v] ∧ slPrepend xs v = slMerge [v] xs ∧
    slSize (slMerge xs ys) = slSize xs + slSize ys := by
  refine ⟨fun i => ?_, rfl, rfl, by simp [slMerge, slSize]⟩
  simp only [slGet_eq, slMerge, slSize, List.getElem?_append]

/-- C42: splitting at an index gives two lists that merge to the given one, the first with `index` items (or
all, when there are fewer). -/
theorem C42_split {α : Type} (xs : List α) (index : Nat) :
    ∃ a b, slSplit xs index = some (a, b) ∧ slMerge a b = xs ∧ slSize a = min index (slSize xs) := by
  refine ⟨xs.take index, xs.drop index, ?_, by simp [slMerge], by simp [slSize]⟩
  cases xs with
  | nil => simp [slSplit]
  | cons x t =>
    simp only [slSplit]
    have := splitHelper_eq (x :: t) [] index 0
    simpa [eq_comm] using this

/-- C42: `static_foreach` calls the functor on every item once, from first to last, the state of the functor
carried from one call to the next. -/
theorem C42_foreach {α σ β : Type} (f : σ → α → σ × β) (s : σ) (xs : List α) :
    slForeach f s xs = some (callsInOrder f s xs) := by
  simp only [slForeach, slSize]
  rw [foreachHelper_eq f xs _ 0 s (by omega)]
  simp

/-- The statements speak about lists with several items. -/
example : slSplit [1, 2, 3] 2 = some ([1, 2], [3]) ∧ slReplace [1, 2, 3] 1 9 = some [1, 9, 3] ∧
    slReverse [1, 2, 3] = [3, 2, 1] ∧ slReplace [1, 2, 3] 3 9 = none ∧
    slForeach (fun s x => (s + x, s * x)) 1 [2, 3, 4] = some [2, 9, 24] := by decide

end Stator.Ds
