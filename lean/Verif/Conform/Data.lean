import Verif.Ds.ArrayAccess
import Verif.Ds.StackVector
import Verif.Ds.StaticList

/-!
# The container models on the inputs of the project's tests

Replays `tests/stack_vector_test.cpp`, `tests/orphan_static_list_test.cpp` and `tests/symbolic_array_test.cpp`.
Tests of the models; no property rests on them.
-/

namespace Stator.Conform

open Stator.Ds

/-! stack_vector_test.cpp:27-40 (values 1 and 2) -/

def pushed (vs : List Nat) : Out (Nat × List Nat) := do
  let s ← (SV.new 3 0).pushAll false vs
  .ok (s.size, s.toList)

example : pushed [] = .ok (0, []) := by decide +kernel
example : pushed [1] = .ok (1, [1]) := by decide +kernel
example : pushed [1, 2] = .ok (2, [1, 2]) := by decide +kernel

/-! stack_vector_test.cpp:42-66 (the values in units of 1/1000) -/

def initialised (vs : List Nat) : Out (Nat × List Nat) := do
  let s ← SV.ofList true 3 0 vs
  .ok (s.size, s.toList)

example : initialised [] = .ok (0, []) := by decide +kernel
example : initialised [500, 250] = .ok (2, [500, 250]) := by decide +kernel
example : initialised [500, 250, 125] = .ok (3, [500, 250, 125]) := by decide +kernel
example : initialised [500, 250, 125, 100] = .ok (3, [500, 250, 125]) := by decide +kernel

/-! orphan_static_list_test.cpp:34-99 -/

def ten : List Int := [0, 1, 2, 3, 4, 5, 6, 7, 8, 9]

example : slSize ten = 10 := by decide +kernel
example : slGet ten 2 = some 2 := by decide +kernel
example : (slReplace ten 0 (-1)).bind (slGet · 0) = some (-1) := by decide +kernel
example : (slReplace ten 9 0).bind (slGet · 9) = some 0 := by decide +kernel
example : (slSplit ten 4).map (fun p => (slSize p.1, slSize p.2)) = some (4, 6) := by decide +kernel
example : (slSplit ten 4).map (fun p => (slGet p.1 3, slGet p.2 0)) = some (some 3, some 4) := by decide +kernel
example : (slSplit ten 4).map (fun p => slSize (slMerge p.2 p.1)) = some 10 := by decide +kernel
example : (slSplit ten 4).map (fun p => slMerge p.1 p.2) = some ten := by decide +kernel
example : slGet (slReverse (slMake ['a', 'b', 'c'])) 2 = some 'a' := by decide +kernel
example : slGet (slPrepend (slMake ['a', 'b', 'c']) '0') 3 = some 'c' := by decide +kernel
example : slGet (slAppend (slMake ['a', 'b', 'c']) 'd') 3 = some 'd' := by decide +kernel
/-- lines 93-98: the functor prints the items that 3 does not divide. -/
example : (slForeach (fun (_ : Unit) (i : Int) => ((), if i % 3 ≠ 0 then [i] else [])) () ten).map List.flatten = some [1, 2, 4, 5, 7, 8] := by
  decide +kernel

/-! symbolic_array_test.cpp:28-42, 44-105: arrays of rank 2; `cap` is the capacity, `none` for dynamic storage -/

def W : Nat := 2 ^ 64

/-- An array just created. models: array.hpp:43-62, 159-168. -/
def created (cap : Option Nat) : Arr Int := { dims := [0, 0], store := List.replicate (cap.getD 0) 0 }

/-- `initArray` of lines 28-42; `junk` is what the uninitialised coordinates contain. -/
def initArray (cap : Option Nat) (junk : List Nat) : Out (Arr Int) := do
  let a := ((created cap).resize W cap 0 [2, 3]).1
  let a ← writeFixed W a junk [0, 0] 1
  let a ← writeFixed W a junk [1, 0] 2
  let a ← writeFixed W a junk [0, 1] 3
  let a ← writeFixed W a junk [1, 1] 4
  let a ← writeFixed W a junk [0, 2] 5
  writeFixed W a junk [1, 2] 6

/-- The six elements, in the order the tests read them. -/
def six (junk : List Nat) (a : Arr Int) : Out (List Int) := do
  let v0 ← readFixed W a junk [0, 0]
  let v1 ← readFixed W a junk [1, 0]
  let v2 ← readFixed W a junk [0, 1]
  let v3 ← readFixed W a junk [1, 1]
  let v4 ← readFixed W a junk [0, 2]
  let v5 ← readFixed W a junk [1, 2]
  .ok [v0, v1, v2, v3, v4, v5]

example : ∀ cap ∈ [none, some 9], storeSize W (created cap).dims = 0 := by decide +kernel
example : ((created (some 9)).resize W (some 9) 0 [2, 3]).2 = false := by decide +kernel
example : ∀ cap ∈ [none, some 9], ∀ junk ∈ [[0, 0], [77, 12345678901234567890]], (initArray cap junk).bind (six junk) = .ok [1, 2, 3, 4, 5, 6] := by
  decide +kernel
example : ((initArray none [5, 5]).bind fun a => .ok (storeSize W a.dims, a.store.length)) = .ok (6, 6) := by decide +kernel
example : ((initArray (some 9) [5, 5]).bind fun a => .ok (storeSize W a.dims, a.store.length)) = .ok (6, 9) := by decide +kernel
/-- `A + A`, lines 84-91. -/
example : ∀ cap ∈ [none, some 9],
    ((initArray cap [5, 5]).bind fun a => (elementwiseLR W cap (· + ·) a a).bind (six [5, 5])) = .ok [2, 4, 6, 8, 10, 12] := by decide +kernel
/-- `A + A - A`, lines 93-102. -/
example : ∀ cap ∈ [none, some 9],
    ((initArray cap [5, 5]).bind fun a => (elementwiseLR W cap (· + ·) a a).bind fun b =>
      (elementwiseLR W cap (· - ·) b a).bind (six [5, 5])) = .ok [1, 2, 3, 4, 5, 6] := by decide +kernel

end Stator.Conform
