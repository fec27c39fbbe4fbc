import Verif.Ds.Outcome

/-!
# Compile-time arrays: storage and addressing

Models `stator/symbolic/array.hpp`. `W` is the number of values of `size_t`; all index
arithmetic is done modulo `W`. `cap = none` is the dynamic storage (`std::vector`, `StoreSize = -1u`),
`cap = some S` the fixed one (`std::array<T, S>`). `dflt` is the value-initialised element.
-/

namespace Stator.Ds

/-- `Addressing<T, RowMajorAddressing<StoreSize, D>>`: the dimensions and the store.
models: array.hpp:159-168 (and 43-62 for the store). -/
structure Arr (α : Type) where
  dims : List Nat
  store : List α
  deriving DecidableEq, Repr

/-- The loop of `coords_to_index`, with the address so far. models: array.hpp:183-192 (`d[i]` on a
coordinate vector that is too short is out of bounds). -/
def coordsLoop (W : Nat) : Nat → List Nat → List Nat → Out Nat
  | a, [], _ => .ok a
  | _, _ :: _, [] => .ub
  | a, n :: dims, d :: ds => coordsLoop W ((a * n % W + d) % W) dims ds

/-- `coords_to_index(d)`. models: array.hpp:183-192. -/
def coordsToIndex (W : Nat) (dims d : List Nat) : Out Nat := coordsLoop W 0 dims d

/-- `store_size()`: 0 for an array without dimensions, the product of the dimensions otherwise.
models: array.hpp:227-233. -/
def storeSize (W : Nat) (dims : List Nat) : Nat :=
  dims.foldl (fun s n => s * n % W) (if dims.length > 0 then 1 else 0)

/-- `vector::resize(n)`. -/
def vecResize {α : Type} (dflt : α) (xs : List α) (n : Nat) : List α :=
  xs.take n ++ List.replicate (n - xs.length) dflt

/-- `resize(d)`: the new array, and whether it throws (the dimensions are assigned before the check).
models: array.hpp:209-218. -/
def Arr.resize {α : Type} (W : Nat) (cap : Option Nat) (dflt : α) (a : Arr α) (d : List Nat) :
    Arr α × Bool :=
  match cap with
  | none => ({ dims := d, store := vecResize dflt a.store (storeSize W d) }, false)
  | some S => ({ a with dims := d }, decide (storeSize W d > S))

/-- `operator[](Coords) const`. models: array.hpp:194-197. -/
def Arr.get {α : Type} (W : Nat) (a : Arr α) (d : List Nat) : Out α := do
  let i ← coordsToIndex W a.dims d
  rd a.store i

/-- Assignment through `operator[](Coords)`. models: array.hpp:198-201. -/
def Arr.set {α : Type} (W : Nat) (a : Arr α) (d : List Nat) (v : α) : Out (Arr α) := do
  let i ← coordsToIndex W a.dims d
  let s ← wr a.store i v
  .ok { a with store := s }

/-- `push_back(val)` for an array whose rank is not fixed (`D = -1u`).
models: array.hpp:235-255. -/
def Arr.pushBack {α : Type} (W : Nat) (cap : Option Nat) (a : Arr α) (v : α) : Out (Arr α) :=
  let dims := if a.dims.length = 0 then [0] else a.dims
  match dims with
  | [n] =>
    match cap with
    | none => .ok { dims := [(n + 1) % W], store := a.store ++ [v] }
    | some _ =>
      if (n + 1) % W > a.store.length then .throw
      else do
        let s ← wr a.store n v
        .ok { dims := [(n + 1) % W], store := s }
  | _ => .throw

/-- `ArrayAccessor<-1u, Array>`: the coordinates and the number of indices given so far.
models: array.hpp:290-301. -/
structure Accessor where
  coords : List Nat
  idx : Nat

/-- The constructor of the accessor. models: array.hpp:297-301. -/
def Accessor.new {α : Type} (a : Arr α) : Accessor :=
  { coords := List.replicate a.dims.length 0, idx := 0 }

/-- `operator[](size_t v)` of the accessor. models: array.hpp:331-338. -/
def Accessor.index (c : Accessor) (v : Nat) : Out Accessor :=
  if c.idx = c.coords.length then .throw
  else do
    let cs ← wr c.coords c.idx v
    .ok { coords := cs, idx := c.idx + 1 }

/-- `a[i1][i2]…[ik]`, an accessor. models: array.hpp:344-352. -/
def accessChain : Accessor → List Nat → Out Accessor
  | c, [] => .ok c
  | c, i :: is => do
    let c' ← c.index i
    accessChain c' is

/-- Reading the element an accessor designates (conversion to a reference).
models: array.hpp:321-329. -/
def Accessor.read {α : Type} (W : Nat) (a : Arr α) (c : Accessor) : Out α :=
  if c.idx = c.coords.length then a.get W c.coords else .throw

/-- Assigning to the element an accessor designates. models: array.hpp:303-310. -/
def Accessor.write {α : Type} (W : Nat) (a : Arr α) (c : Accessor) (v : α) : Out (Arr α) :=
  if c.idx = c.coords.length then a.set W c.coords v else .throw

/-- `T x = a[i1]…[ik];` -/
def readChain {α : Type} (W : Nat) (a : Arr α) (is : List Nat) : Out α := do
  let c ← accessChain (Accessor.new a) is
  c.read W a

/-- `a[i1]…[ik] = v;` -/
def writeChain {α : Type} (W : Nat) (a : Arr α) (is : List Nat) (v : α) : Out (Arr α) := do
  let c ← accessChain (Accessor.new a) is
  c.write W a v

/-- The loop over the output store of an element-wise operation: `k` elements from position `i` on.
models: array.hpp:427-436. -/
def elemLoop {α : Type} (f : Nat → Out α) : Nat → Nat → Out (List α)
  | 0, _ => .ok []
  | k + 1, i => do
    let z ← f i
    let zs ← elemLoop f k (i + 1)
    .ok (z :: zs)

/-- The number of elements of the store of a new array with dimensions `d` (`create()` and `resize(d)`).
models: array.hpp:422-425, 209-218. -/
def outSize (W : Nat) (cap : Option Nat) (d : List Nat) : Nat :=
  match cap with
  | none => storeSize W d
  | some S => S

/-- Resizing a new array of the type of the result: the check for fixed storage.
models: array.hpp:209-218. -/
def outCheck (W : Nat) (cap : Option Nat) (d : List Nat) : Out Unit :=
  match cap with
  | none => .ok ()
  | some S => if storeSize W d > S then .throw else .ok ()

/-- `elementwiseopLR(l, r, op)`; the result has the addressing (here: the capacity `cap`) of `l`.
models: array.hpp:416-438. -/
def elementwiseLR {α β γ : Type} (W : Nat) (cap : Option Nat) (op : α → β → γ) (l : Arr α) (r : Arr β) :
    Out (Arr γ) :=
  if l.dims ≠ r.dims then .throw
  else do
    outCheck W cap l.dims
    let s ← elemLoop (fun i => do
      let x ← rd l.store i
      let y ← rd r.store i
      .ok (op x y)) (outSize W cap l.dims) 0
    .ok { dims := l.dims, store := s }

/-- `elementwiseopL(l, r, op)`, and with `op := fun x _ => f x` the loops of `derivative` and
`simplify`. models: array.hpp:440-457, 396-412, 555-571. -/
def elementwiseL {α β γ : Type} (W : Nat) (cap : Option Nat) (op : α → β → γ) (l : Arr α) (r : β) :
    Out (Arr γ) := do
  outCheck W cap l.dims
  let s ← elemLoop (fun i => do
    let x ← rd l.store i
    .ok (op x r)) (outSize W cap l.dims) 0
  .ok { dims := l.dims, store := s }

/-- `elementwiseopR(l, r, op)`. models: array.hpp:459-476. -/
def elementwiseR {α β γ : Type} (W : Nat) (cap : Option Nat) (op : α → β → γ) (l : α) (r : Arr β) :
    Out (Arr γ) := do
  outCheck W cap r.dims
  let s ← elemLoop (fun i => do
    let y ← rd r.store i
    .ok (op l y)) (outSize W cap r.dims) 0
  .ok { dims := r.dims, store := s }

/-- `operator==`: dimensions and the whole store. models: array.hpp:203-207. -/
def Arr.eq {α : Type} [DecidableEq α] (a b : Arr α) : Bool := a.dims == b.dims && a.store == b.store

/-! ## `LinearAddressing` -/

/-- `Addressing<T, LinearAddressing<StoreSize>>`. models: array.hpp:72-88. -/
structure Lin (α : Type) where
  dim : Nat
  store : List α

/-- `resize(d)`: throws before anything is changed. models: array.hpp:119-132. -/
def Lin.resize {α : Type} (cap : Option Nat) (dflt : α) (a : Lin α) (d : Nat) : Out (Lin α) :=
  match cap with
  | none => .ok { dim := d, store := vecResize dflt a.store d }
  | some _ => if d > a.store.length then .throw else .ok { a with dim := d }

/-- `push_back(val)`. models: array.hpp:134-148. -/
def Lin.pushBack {α : Type} (W : Nat) (cap : Option Nat) (a : Lin α) (v : α) : Out (Lin α) :=
  match cap with
  | none => .ok { dim := (a.dim + 1) % W, store := a.store ++ [v] }
  | some _ =>
    if (a.dim + 1) % W > a.store.length then .throw
    else do
      let s ← wr a.store a.dim v
      .ok { dim := (a.dim + 1) % W, store := s }

end Stator.Ds
