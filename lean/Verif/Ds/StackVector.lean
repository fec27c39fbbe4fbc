import Verif.Ds.Outcome
import Mathlib.Data.List.Basic
import Mathlib.Logic.Function.Basic

/-!
# `StackVector` (C41)

Models `stator/orphan/stack_vector.hpp`. `debug` says whether `STATOR_DEBUG` is defined.
-/

namespace Stator.Ds

/-- `StackVector<T, Nmax>`: the whole `std::array<T, Nmax>` and the number of elements stored.
models: stack_vector.hpp:44-46, 141-143. -/
structure SV (α : Type) where
  store : List α
  size : Nat

/-- The default constructor (`Base()` value-initialises). models: stack_vector.hpp:57. -/
def SV.new {α : Type} (Nmax : Nat) (dflt : α) : SV α := { store := List.replicate Nmax dflt, size := 0 }

/-- `push_back`. models: stack_vector.hpp:115-122 (the array has `Nmax` elements). -/
def SV.pushBack {α : Type} (debug : Bool) (s : SV α) (v : α) : Out (SV α) :=
  if debug && decide (s.size + 1 > s.store.length) then .throw
  else do
    let st ← wr s.store s.size v
    .ok { store := st, size := s.size + 1 }

/-- `pop_back`: the vector and the value. Popping from an empty vector decrements the unsigned size to
a huge index, which is outside of the array. models: stack_vector.hpp:125-131. -/
def SV.popBack {α : Type} (debug : Bool) (s : SV α) : Out (SV α × α) :=
  if s.size = 0 then (if debug then .throw else .ub)
  else do
    let v ← rd s.store (s.size - 1)
    .ok ({ s with size := s.size - 1 }, v)

/-- The elements between `begin()` and `end()`. models: stack_vector.hpp:75-82. -/
def SV.toList {α : Type} (s : SV α) : List α := s.store.take s.size

/-- `push_back` of each of a sequence of values (the loop of `extend` and of the constructor).
models: stack_vector.hpp:135-139. -/
def SV.pushAll {α : Type} (debug : Bool) (s : SV α) : List α → Out (SV α)
  | [] => .ok s
  | v :: vs => do
    let s' ← s.pushBack debug v
    SV.pushAll debug s' vs

/-- `extend(ovec)`. models: stack_vector.hpp:135-139. -/
def SV.extend {α : Type} (debug : Bool) (s o : SV α) : Out (SV α) := s.pushAll debug o.toList

/-- The constructor from an initializer list, which stops at `Nmax` values.
models: stack_vector.hpp:60-67. -/
def SV.ofList {α : Type} (debug : Bool) (Nmax : Nat) (dflt : α) (vs : List α) : Out (SV α) :=
  (SV.new Nmax dflt).pushAll debug (vs.take Nmax)

/-- The constructor from a vector with smaller or equal capacity; `junk` is the uninitialised array.
models: stack_vector.hpp:50-54. -/
def SV.copyFrom {α : Type} (junk : List α) (o : SV α) : SV α :=
  { store := o.toList ++ junk.drop o.size, size := o.size }

/-- `back()`: of an empty vector, the element one past the end (which exists unless `Nmax` is 0).
models: stack_vector.hpp:109-112. -/
def SV.back {α : Type} (s : SV α) : Out α := rd s.store (if s.size = 0 then 0 else s.size - 1)

/-- `rbegin()` to `rend()`. models: stack_vector.hpp:85-106. -/
def SV.toListRev {α : Type} (s : SV α) : List α := (s.store.take s.size).reverse

/-- `==` is the operator of `std::array`: all `Nmax` elements are compared, and the sizes are not.
models: stack_vector.hpp:44 (public inheritance from `std::array`). -/
def SV.eq {α : Type} [DecidableEq α] (s t : SV α) : Bool := s.store == t.store

/-- The operations a client can call. -/
inductive SVOp (α : Type) where
  | push (v : α)
  | pop
  | extend (vs : List α)

/-- Running a history of operations; the result also contains the popped values, in order.
(`extend vs` stands for `extend` with a vector that holds `vs`.) -/
def SV.run {α : Type} (debug : Bool) : SV α → List (SVOp α) → Out (SV α × List α)
  | s, [] => .ok (s, [])
  | s, .push v :: ops => do
    let s' ← s.pushBack debug v
    SV.run debug s' ops
  | s, .pop :: ops => do
    let (s', v) ← s.popBack debug
    let (s'', out) ← SV.run debug s' ops
    .ok (s'', v :: out)
  | s, .extend vs :: ops => do
    let s' ← s.pushAll debug vs
    SV.run debug s' ops

/-! ## Specification: an unbounded sequence -/

/-- The same history on a list; `none` if it pops an empty list or ever holds more than `Nmax` values. -/
def listRun {α : Type} (Nmax : Nat) : List α → List (SVOp α) → Option (List α × List α)
  | l, [] => some (l, [])
  | l, .push v :: ops => if l.length + 1 ≤ Nmax then listRun Nmax (l ++ [v]) ops else none
  | l, .pop :: ops =>
    match l.getLast? with
    | none => none
    | some v => (listRun Nmax l.dropLast ops).map fun r => (r.1, v :: r.2)
  | l, .extend vs :: ops => if l.length + vs.length ≤ Nmax then listRun Nmax (l ++ vs) ops else none

/-- A vector of capacity `Nmax` that holds the list `l`. -/
def SV.Holds {α : Type} (Nmax : Nat) (s : SV α) (l : List α) : Prop :=
  s.store.length = Nmax ∧ s.size = l.length ∧ s.toList = l

theorem SV.Holds.le {α : Type} {Nmax : Nat} {s : SV α} {l : List α} (h : s.Holds Nmax l) :
    l.length ≤ Nmax := by
  obtain ⟨h1, h2, h3⟩ := h
  rw [← h3, SV.toList, List.length_take, h1]
  exact Nat.min_le_right _ _

theorem pushBack_holds {α : Type} (debug : Bool) {Nmax : Nat} {s : SV α} {l : List α}
    (h : s.Holds Nmax l) (v : α) :
    if l.length + 1 ≤ Nmax then ∃ s', s.pushBack debug v = .ok s' ∧ s'.Holds Nmax (l ++ [v])
    else s.pushBack debug v = if debug then .throw else .ub := by
  obtain ⟨h1, h2, h3⟩ := h
  split
  · rename_i hle
    refine ⟨⟨s.store.set s.size v, s.size + 1⟩, ?_, ?_⟩
    · simp only [SV.pushBack]
      rw [if_neg (by simp; omega)]
      simp [wr, show s.size < s.store.length by omega]
    · refine ⟨by simpa using h1, by simp [h2], ?_⟩
      simp only [SV.toList]
      rw [List.take_add_one]
      simp only [List.take_set_of_le (Nat.le_refl _)]
      simp only [SV.toList] at h3
      rw [h3]
      simp [show s.size < s.store.length by omega]
  · rename_i hle
    have hl : l.length ≤ Nmax := SV.Holds.le ⟨h1, h2, h3⟩
    simp only [SV.pushBack]
    cases debug
    · simp [wr, show ¬ s.size < s.store.length by omega]
    · simp; omega

theorem pushAll_holds {α : Type} (debug : Bool) {Nmax : Nat} (vs : List α) :
    ∀ {s : SV α} {l : List α}, s.Holds Nmax l →
    if l.length + vs.length ≤ Nmax then ∃ s', s.pushAll debug vs = .ok s' ∧ s'.Holds Nmax (l ++ vs)
    else s.pushAll debug vs = if debug then .throw else .ub := by
  induction vs with
  | nil =>
    intro s l h
    have := h.le
    simp [SV.pushAll, h, this]
  | cons v vs ih =>
    intro s l h
    have h1 := pushBack_holds debug h v
    by_cases hle : l.length + 1 ≤ Nmax
    · rw [if_pos hle] at h1
      obtain ⟨s', h2, h3⟩ := h1
      have h4 := ih h3
      simp only [List.length_append, List.length_cons, List.length_nil, Nat.zero_add,
        List.append_assoc, List.cons_append, List.nil_append] at h4
      simp only [SV.pushAll, h2, Out.ok_bind, List.length_cons]
      have e : l.length + (vs.length + 1) = l.length + 1 + vs.length := by omega
      rw [e]
      exact h4
    · rw [if_neg hle] at h1
      rw [if_neg (by simp; omega)]
      simp only [SV.pushAll, h1]
      cases debug <;> rfl

theorem popBack_holds {α : Type} (debug : Bool) {Nmax : Nat} {s : SV α} {l : List α}
    (h : s.Holds Nmax l) :
    match l.getLast? with
    | none => s.popBack debug = if debug then .throw else .ub
    | some v => ∃ s', s.popBack debug = .ok (s', v) ∧ s'.Holds Nmax l.dropLast := by
  obtain ⟨h1, h2, h3⟩ := h
  rcases List.eq_nil_or_concat l with rfl | ⟨l', v, rfl⟩
  · simp [SV.popBack, h2]
  · simp only [List.concat_eq_append] at *
    simp only [List.getLast?_append, List.getLast?_singleton, Option.some_or, List.dropLast_concat]
    have hs : s.size = l'.length + 1 := by simpa using h2
    have hlen : s.size ≤ s.store.length := by
      have := congrArg List.length h3
      simp [SV.toList] at this
      omega
    have hv : s.store[s.size - 1]? = some v := by
      have : (s.toList)[s.size - 1]? = some v := by rw [h3]; simp [hs]
      rw [SV.toList, List.getElem?_take] at this
      simpa [hs] using this
    refine ⟨{ s with size := s.size - 1 }, ?_, h1, by simp [hs], ?_⟩
    · simp [SV.popBack, show s.size ≠ 0 by omega, rd, hv]
    · have : (s.toList).take (s.size - 1) = l' := by rw [h3]; simp [hs]
      simp only [SV.toList] at this ⊢
      rw [List.take_take] at this
      rw [Nat.min_eq_left (by omega)] at this
      exact this

/-- **C41**. Any history of operations behaves as on an unbounded sequence as long as the capacity is
never exceeded and no empty vector is popped: same contents, same popped values. The first operation that
breaks the condition throws in a debug build and is undefined behaviour otherwise. -/
theorem C41_history {α : Type} (debug : Bool) (Nmax : Nat) (dflt : α) (ops : List (SVOp α)) :
    match listRun Nmax [] ops with
    | some (l, out) => ∃ s, (SV.new Nmax dflt).run debug ops = .ok (s, out) ∧ s.toList = l ∧
        s.size = l.length
    | none => (SV.new Nmax dflt).run debug ops = if debug then .throw else .ub := by
  have key : ∀ (ops : List (SVOp α)) (s : SV α) (l : List α), s.Holds Nmax l →
      match listRun Nmax l ops with
      | some (l', out) => ∃ s', s.run debug ops = .ok (s', out) ∧ s'.Holds Nmax l'
      | none => s.run debug ops = if debug then .throw else .ub := by
    intro ops
    induction ops with
    | nil => intro s l h; exact ⟨s, rfl, h⟩
    | cons op ops ih =>
      intro s l h
      cases op with
      | push v =>
        have h1 := pushBack_holds debug h v
        simp only [listRun, SV.run]
        split at h1
        · rename_i hle
          rw [if_pos hle]
          obtain ⟨s', h2, h3⟩ := h1
          rw [h2]
          exact ih s' _ h3
        · rename_i hle
          rw [if_neg hle, h1]
          cases debug <;> rfl
      | extend vs =>
        have h1 := pushAll_holds debug vs h
        simp only [listRun, SV.run]
        split at h1
        · rename_i hle
          rw [if_pos hle]
          obtain ⟨s', h2, h3⟩ := h1
          rw [h2]
          exact ih s' _ h3
        · rename_i hle
          rw [if_neg hle, h1]
          cases debug <;> rfl
      | pop =>
        have h1 := popBack_holds debug h
        simp only [listRun, SV.run]
        cases hl : l.getLast? with
        | none =>
          rw [hl] at h1
          simp only at h1 ⊢
          rw [h1]
          cases debug <;> rfl
        | some v =>
          rw [hl] at h1
          simp only at h1 ⊢
          obtain ⟨s', h2, h3⟩ := h1
          have h4 := ih s' _ h3
          rw [h2]
          cases hr : listRun Nmax l.dropLast ops with
          | none =>
            rw [hr] at h4
            simp only [Option.map_none, Out.ok_bind] at h4 ⊢
            rw [h4]
            cases debug <;> rfl
          | some r =>
            obtain ⟨l', out⟩ := r
            rw [hr] at h4
            simp only [Option.map_some, Out.ok_bind] at h4 ⊢
            obtain ⟨s'', h5, h6⟩ := h4
            exact ⟨s'', by rw [h5]; rfl, h6⟩
  have h0 : (SV.new Nmax dflt).Holds Nmax [] := ⟨by simp [SV.new], rfl, by simp [SV.toList, SV.new]⟩
  have h1 := key ops _ _ h0
  split at h1
  · obtain ⟨s, h2, h3⟩ := h1
    exact ⟨s, h2, h3.2.2, h3.2.1⟩
  · exact h1

example : listRun 2 [] [.push 1, .pop, .extend [3, 4]] = some ([3, 4], [1]) := by decide
example : listRun 2 [] [.push 1, .extend [3, 4]] = none := by decide

/-- **C41**. The initializer-list constructor keeps the first `Nmax` values and silently drops the rest. -/
theorem C41_initializer_list {α : Type} (debug : Bool) (Nmax : Nat) (dflt : α) (vs : List α) :
    ∃ s, SV.ofList debug Nmax dflt vs = .ok s ∧ s.toList = vs.take Nmax ∧ s.size = min Nmax vs.length := by
  have h0 : (SV.new Nmax dflt).Holds Nmax [] := ⟨by simp [SV.new], rfl, by simp [SV.toList, SV.new]⟩
  have h1 := pushAll_holds debug (vs.take Nmax) h0
  rw [if_pos (by simp; omega)] at h1
  obtain ⟨s, h2, h3⟩ := h1
  exact ⟨s, h2, by simpa using h3.2.2, by simpa using h3.2.1⟩

/-- **C41**. Copying into a vector of the same or larger capacity keeps the contents. -/
theorem C41_copy {α : Type} (N1 N2 : Nat) (o : SV α) (l : List α) (h : o.Holds N1 l) (hN : N1 ≤ N2)
    (junk : List α) (hj : junk.length = N2) : (SV.copyFrom junk o).Holds N2 l := by
  have hle := h.le
  obtain ⟨h1, h2, h3⟩ := h
  refine ⟨?_, h2, ?_⟩
  · simp [SV.copyFrom, h3, h2, hj]; omega
  · simp [SV.copyFrom, SV.toList, h2]
    simp only [SV.toList, h2] at h3
    rw [h3]
    simp

/-- **C41**. `back()` is the last element, and reverse iteration gives the reversed contents. -/
theorem C41_back {α : Type} (Nmax : Nat) (s : SV α) (l : List α) (v : α) (h : s.Holds Nmax (l ++ [v])) :
    s.back = .ok v ∧ s.toListRev = v :: l.reverse := by
  have h1 := popBack_holds true h
  simp only [List.getLast?_append, List.getLast?_singleton, Option.some_or] at h1
  obtain ⟨s', h2, -⟩ := h1
  have hs : s.size ≠ 0 := by have := h.2.1; simp at this; omega
  constructor
  · simp only [SV.popBack, hs, if_false] at h2
    simp only [SV.back, hs, if_false]
    cases hr : rd s.store (s.size - 1) with
    | ok w => rw [hr] at h2; simp at h2; rw [h2.2]
    | throw => rw [hr] at h2; simp at h2
    | ub => rw [hr] at h2; simp at h2
  · have := h.2.2
    simp only [SV.toList] at this
    simp [SV.toListRev, this]

/-- **C41**, the failing half: `==` compares the storage, not the contents. A vector from which a value
was popped differs from a vector with the same contents, and vectors of different size compare equal. -/
theorem C41_equality_fails :
    (∃ s t : SV Nat, SV.run false (SV.new 2 0) [.push 1, .push 2, .pop] = .ok (s, [2]) ∧
      SV.run false (SV.new 2 0) [.push 1] = .ok (t, []) ∧ s.toList = t.toList ∧ s.eq t = false) ∧
    (∃ s t : SV Nat, SV.run false (SV.new 2 0) [.push 0] = .ok (s, []) ∧
      SV.run false (SV.new 2 0) [] = .ok (t, []) ∧ s.toList ≠ t.toList ∧ s.eq t = true) :=
  ⟨⟨⟨[1, 2], 1⟩, ⟨[1, 0], 1⟩, rfl, rfl, rfl, rfl⟩, ⟨⟨[0, 0], 1⟩, ⟨[0, 0], 0⟩, rfl, rfl, by decide, rfl⟩⟩

/-! ## Several vectors

A program with any number of vectors, each with a capacity of its own, which are extended with each other
and with themselves, copied and constructed anew. -/

/-- `extend` with the vector itself: the loop reads the elements at the positions `k`, `k + 1`, ... of the
vector that is growing, and the number of passes `m` is fixed when the loop starts (`end()` is evaluated
once). models: stack_vector.hpp:135-139 with `ovec` an alias of `*this`. -/
def SV.extendSelf {α : Type} (debug : Bool) : Nat → Nat → SV α → Out (SV α)
  | _, 0, s => .ok s
  | k, m + 1, s => do
    let v ← rd s.store k
    let s' ← s.pushBack debug v
    SV.extendSelf debug (k + 1) m s'

/-- The operations of a program with several vectors. -/
inductive SVCmd (α : Type) where
  /-- `v_i.push_back(x)` -/
  | push (i : Nat) (x : α)
  /-- `v_i.pop_back()` -/
  | pop (i : Nat)
  /-- `v_i.extend(v_j)` -/
  | extend (i j : Nat)
  /-- `v_i` becomes a copy of `v_j`; `junk` is the memory of the new object -/
  | copy (i j : Nat) (junk : List α)
  /-- `v_i` becomes `{x, y, ...}` -/
  | init (i : Nat) (vs : List α)

/-- What the compiler checks: a copy is made only into a vector of the same or a larger capacity.
models: stack_vector.hpp:50-51 (`enable_if`). -/
def SVCmd.typed {α : Type} (cap : Nat → Nat) : SVCmd α → Prop
  | .copy i j junk => cap j ≤ cap i ∧ junk.length = cap i
  | _ => True

/-- One operation; `out` are the values popped. For vectors of the same type the copy is the implicit copy
constructor, which copies the whole array. models: stack_vector.hpp:50-67, 115-139. -/
def SVCmd.exec {α : Type} (debug : Bool) (cap : Nat → Nat) (dflt : α) (V : Nat → SV α) :
    SVCmd α → Out ((Nat → SV α) × List α)
  | .push i x => do
    let s ← (V i).pushBack debug x
    .ok (Function.update V i s, [])
  | .pop i => do
    let (s, x) ← (V i).popBack debug
    .ok (Function.update V i s, [x])
  | .extend i j =>
    (if i = j then (V i).extendSelf debug 0 (V i).size else (V i).extend debug (V j)) >>= fun s =>
      .ok (Function.update V i s, [])
  | .copy i j junk =>
    .ok (Function.update V i (if cap i = cap j then V j else SV.copyFrom junk (V j)), [])
  | .init i vs => do
    let s ← SV.ofList debug (cap i) dflt vs
    .ok (Function.update V i s, [])

/-- A program. -/
def SVCmd.execAll {α : Type} (debug : Bool) (cap : Nat → Nat) (dflt : α) :
    (Nat → SV α) → List (SVCmd α) → Out ((Nat → SV α) × List α)
  | V, [] => .ok (V, [])
  | V, c :: cs => do
    let (V', out) ← c.exec debug cap dflt V
    let (V'', outs) ← SVCmd.execAll debug cap dflt V' cs
    .ok (V'', out ++ outs)

/-- Specification: one operation on unbounded sequences; `none` if a sequence becomes longer than its
capacity or an empty one is popped. Initial values beyond the capacity are dropped. -/
def SVCmd.meaning {α : Type} (cap : Nat → Nat) (L : Nat → List α) :
    SVCmd α → Option ((Nat → List α) × List α)
  | .push i x => if (L i ++ [x]).length ≤ cap i then some (Function.update L i (L i ++ [x]), []) else none
  | .pop i =>
    match (L i).getLast? with
    | none => none
    | some x => some (Function.update L i (L i).dropLast, [x])
  | .extend i j =>
    if (L i ++ L j).length ≤ cap i then some (Function.update L i (L i ++ L j), []) else none
  | .copy i j _ => some (Function.update L i (L j), [])
  | .init i vs => some (Function.update L i (vs.take (cap i)), [])

/-- Specification: a program on unbounded sequences. -/
def SVCmd.meaningAll {α : Type} (cap : Nat → Nat) :
    (Nat → List α) → List (SVCmd α) → Option ((Nat → List α) × List α)
  | L, [] => some (L, [])
  | L, c :: cs =>
    match c.meaning cap L with
    | none => none
    | some (L', out) => (SVCmd.meaningAll cap L' cs).map fun r => (r.1, out ++ r.2)

/-- The position `k` of a vector that holds a list. -/
theorem SV.Holds.rd {α : Type} {Nmax : Nat} {s : SV α} {l : List α} (h : s.Holds Nmax l) {k : Nat} {v : α}
    (hk : l[k]? = some v) : rd s.store k = .ok v := by
  have hlt : k < s.size := by
    rw [h.2.1]
    exact (List.getElem?_eq_some_iff.mp hk).1
  have : s.toList[k]? = some v := by rw [h.2.2]; exact hk
  rw [SV.toList, List.getElem?_take, if_pos hlt] at this
  simp [Ds.rd, this]

theorem extendSelf_holds {α : Type} (debug : Bool) {Nmax : Nat} (b : List α) :
    ∀ {s : SV α} {a c : List α}, s.Holds Nmax (a ++ b ++ c) →
    if (a ++ b ++ c).length + b.length ≤ Nmax then
      ∃ s', s.extendSelf debug a.length b.length = .ok s' ∧ s'.Holds Nmax (a ++ b ++ c ++ b)
    else s.extendSelf debug a.length b.length = if debug then .throw else .ub := by
  induction b with
  | nil =>
    intro s a c h
    have := h.le
    rw [if_pos (by simpa using this)]
    exact ⟨s, rfl, by simpa using h⟩
  | cons v b ih =>
    intro s a c h
    have h0 : Ds.rd s.store a.length = .ok v := h.rd (by simp)
    have h1 := pushBack_holds debug h v
    simp only [List.length_cons, SV.extendSelf, h0, Out.ok_bind]
    by_cases hle : (a ++ v :: b ++ c).length + 1 ≤ Nmax
    · rw [if_pos hle] at h1
      obtain ⟨s', h2, h3⟩ := h1
      have h4 := ih (s := s') (a := a ++ [v]) (c := c ++ [v]) (by simpa using h3)
      simp only [h2, Out.ok_bind]
      have e1 : (a ++ [v]).length = a.length + 1 := by simp
      have e2 : (a ++ [v] ++ b ++ (c ++ [v])).length + b.length = (a ++ v :: b ++ c).length + (b.length + 1) := by
        simp; omega
      rw [e1, e2] at h4
      simpa using h4
    · rw [if_neg hle] at h1
      rw [if_neg (by omega), h1]
      cases debug <;> rfl

theorem copyFrom_holds {α : Type} {N1 N2 : Nat} {o : SV α} {l : List α} (h : o.Holds N1 l) (hN : N1 ≤ N2)
    {junk : List α} (hj : junk.length = N2) : (SV.copyFrom junk o).Holds N2 l := by
  have hle := h.le
  obtain ⟨h1, h2, h3⟩ := h
  refine ⟨?_, h2, ?_⟩
  · simp [SV.copyFrom, h3, h2, hj]; omega
  · simp [SV.copyFrom, SV.toList, h2]
    simp only [SV.toList, h2] at h3
    rw [h3]
    simp

theorem exec_holds {α : Type} (debug : Bool) {cap : Nat → Nat} (dflt : α) {V : Nat → SV α}
    {L : Nat → List α} (h : ∀ i, (V i).Holds (cap i) (L i)) (c : SVCmd α) (hc : c.typed cap) :
    match c.meaning cap L with
    | some (L', out) => ∃ V', c.exec debug cap dflt V = .ok (V', out) ∧ ∀ i, (V' i).Holds (cap i) (L' i)
    | none => c.exec debug cap dflt V = if debug then .throw else .ub := by
  have upd : ∀ {i : Nat} {s : SV α} {l : List α}, s.Holds (cap i) l →
      ∀ j, (Function.update V i s j).Holds (cap j) (Function.update L i l j) := by
    intro i s l hs j
    by_cases e : j = i
    · subst e; simpa using hs
    · simpa [Function.update_of_ne e] using h j
  cases c with
  | push i x =>
    have h1 := pushBack_holds debug (h i) x
    simp only [SVCmd.meaning, SVCmd.exec, List.length_append, List.length_cons, List.length_nil,
      Nat.zero_add]
    by_cases hle : (L i).length + 1 ≤ cap i
    · rw [if_pos hle] at h1 ⊢
      obtain ⟨s, h2, h3⟩ := h1
      exact ⟨_, by rw [h2]; rfl, upd h3⟩
    · rw [if_neg hle] at h1 ⊢
      simp only [h1]
      cases debug <;> rfl
  | pop i =>
    have h1 := popBack_holds debug (h i)
    simp only [SVCmd.meaning, SVCmd.exec]
    cases hl : (L i).getLast? with
    | none =>
      rw [hl] at h1
      simp only at h1 ⊢
      rw [h1]
      cases debug <;> rfl
    | some x =>
      rw [hl] at h1
      simp only at h1 ⊢
      obtain ⟨s, h2, h3⟩ := h1
      exact ⟨_, by rw [h2]; rfl, upd h3⟩
  | extend i j =>
    have key : if (L i ++ L j).length ≤ cap i then
        ∃ s, (if i = j then (V i).extendSelf debug 0 (V i).size else (V i).extend debug (V j)) = .ok s ∧
          s.Holds (cap i) (L i ++ L j)
        else (if i = j then (V i).extendSelf debug 0 (V i).size else (V i).extend debug (V j)) =
          if debug then .throw else .ub := by
      by_cases e : i = j
      · subst e
        have h1 := extendSelf_holds debug (L i) (s := V i) (a := []) (c := []) (by simpa using h i)
        simpa [(h i).2.1] using h1
      · have h1 := pushAll_holds debug (L j) (h i)
        simpa [e, SV.extend, (h j).2.2] using h1
    simp only [SVCmd.meaning, SVCmd.exec]
    by_cases hle : (L i ++ L j).length ≤ cap i
    · rw [if_pos hle] at key ⊢
      obtain ⟨s, h2, h3⟩ := key
      exact ⟨_, by rw [h2]; rfl, upd h3⟩
    · rw [if_neg hle] at key ⊢
      simp only [key]
      cases debug <;> rfl
  | copy i j junk =>
    obtain ⟨hN, hj⟩ := hc
    refine ⟨_, rfl, upd ?_⟩
    split
    · rename_i e; rw [e]; exact h j
    · exact copyFrom_holds (h j) hN hj
  | init i vs =>
    have h0 : (SV.new (cap i) dflt).Holds (cap i) [] := ⟨by simp [SV.new], rfl, by simp [SV.toList, SV.new]⟩
    have h1 := pushAll_holds debug (vs.take (cap i)) h0
    rw [if_pos (by simp; omega)] at h1
    obtain ⟨s, h2, h3⟩ := h1
    exact ⟨_, by simp only [SVCmd.exec, SV.ofList, h2]; rfl, upd (by simpa using h3)⟩

/-- **C41**, for a program with any number of vectors of any capacities, which starts with empty ones: as
long as no vector outgrows its capacity and no empty one is popped, the program does what it does with
unbounded sequences: the same values are popped, and every vector ends with the same contents, size, last
element and reversed contents. This includes extending a vector with itself and copies between vectors of
different types: operations on one vector never change another. The first operation that breaks the
condition throws in a debug build and is undefined behaviour otherwise. -/
theorem C41_programs {α : Type} (debug : Bool) (cap : Nat → Nat) (dflt : α) (cs : List (SVCmd α))
    (hcs : ∀ c ∈ cs, c.typed cap) :
    match SVCmd.meaningAll cap (fun _ => []) cs with
    | some (L, out) => ∃ V, SVCmd.execAll debug cap dflt (fun i => SV.new (cap i) dflt) cs = .ok (V, out) ∧
        ∀ i, (V i).toList = L i ∧ (V i).size = (L i).length ∧ (V i).toListRev = (L i).reverse ∧
          ∀ x, (L i).getLast? = some x → (V i).back = .ok x
    | none => SVCmd.execAll debug cap dflt (fun i => SV.new (cap i) dflt) cs =
        if debug then .throw else .ub := by
  have key : ∀ (cs : List (SVCmd α)) (V : Nat → SV α) (L : Nat → List α), (∀ c ∈ cs, c.typed cap) →
      (∀ i, (V i).Holds (cap i) (L i)) →
      match SVCmd.meaningAll cap L cs with
      | some (L', out) => ∃ V', SVCmd.execAll debug cap dflt V cs = .ok (V', out) ∧
          ∀ i, (V' i).Holds (cap i) (L' i)
      | none => SVCmd.execAll debug cap dflt V cs = if debug then .throw else .ub := by
    intro cs
    induction cs with
    | nil => intro V L _ h; exact ⟨V, rfl, h⟩
    | cons c cs ih =>
      intro V L ht h
      have h1 := exec_holds debug dflt h c (ht c (by simp))
      simp only [SVCmd.meaningAll, SVCmd.execAll]
      cases hm : c.meaning cap L with
      | none =>
        rw [hm] at h1
        simp only at h1 ⊢
        rw [h1]
        cases debug <;> rfl
      | some r =>
        obtain ⟨L', out⟩ := r
        rw [hm] at h1
        simp only at h1 ⊢
        obtain ⟨V', h2, h3⟩ := h1
        have h4 := ih V' L' (fun c hc => ht c (by simp [hc])) h3
        rw [h2]
        cases hr : SVCmd.meaningAll cap L' cs with
        | none =>
          rw [hr] at h4
          simp only [Option.map_none, Out.ok_bind] at h4 ⊢
          rw [h4]
          cases debug <;> rfl
        | some r =>
          obtain ⟨L'', outs⟩ := r
          rw [hr] at h4
          simp only [Option.map_some, Out.ok_bind] at h4 ⊢
          obtain ⟨V'', h5, h6⟩ := h4
          exact ⟨V'', by rw [h5]; rfl, h6⟩
  have h1 := key cs (fun i => SV.new (cap i) dflt) (fun _ => []) hcs
    (fun i => ⟨by simp [SV.new], rfl, by simp [SV.toList, SV.new]⟩)
  split at h1
  · obtain ⟨V, h2, h3⟩ := h1
    refine ⟨V, h2, fun i => ⟨(h3 i).2.2, (h3 i).2.1, ?_, ?_⟩⟩
    · have := (h3 i).2.2
      simp only [SV.toList] at this
      simp [SV.toListRev, this]
    · intro x hx
      rename_i L _ _
      obtain ⟨l, hl⟩ := List.getLast?_eq_some_iff.mp hx
      have h4 := h3 i
      rw [hl] at h4
      have hs : (V i).size ≠ 0 := by have := h4.2.1; simp at this; omega
      simp only [SV.back, hs, if_false]
      exact h4.rd (by have := h4.2.1; simp at this; simp [this])
  · exact h1

/-- A vector of capacity 4 is extended with itself and copied into a larger one, which is then extended
with the first one; a further extension would be too long. -/
example : ((SVCmd.meaningAll (fun i => if i = 0 then 4 else 6) (fun _ => [])
    [.init 0 [1, 2], .extend 0 0, .copy 1 0 [9, 9, 9, 9, 9, 9], .pop 0, .pop 0, .extend 1 0]).map
      fun r => (r.1 0, r.1 1, r.2)) = some ([1, 2], [1, 2, 1, 2, 1, 2], [2, 1]) := by decide
example : (SVCmd.meaningAll (fun i => if i = 0 then 4 else 6) (fun _ => [])
    [.init 0 [1, 2], .extend 0 0, .extend 0 0]).isNone = true := by decide
example : ∀ c ∈ ([.init 0 [1, 2], .extend 0 0, .copy 1 0 [9, 9, 9, 9, 9, 9], .pop 0, .pop 0, .extend 1 0] :
    List (SVCmd Nat)), c.typed (fun i => if i = 0 then 4 else 6) := by
  simp [SVCmd.typed]

end Stator.Ds
