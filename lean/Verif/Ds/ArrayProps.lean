import Verif.Ds.Array
import Mathlib.Algebra.BigOperators.Group.List.Basic
import Mathlib.Data.List.Forall2
import Mathlib.Data.List.GetD
import Mathlib.Tactic.Ring
import Mathlib.Tactic.Linarith

/-!
# Arrays: addressing is a bijection (C45), operations are element-wise (C46)
-/

namespace Stator.Ds

/-- The coordinates of an element: one per dimension, each smaller than the dimension. -/
def InRange (dims d : List Nat) : Prop := List.Forall₂ (fun n i => i < n) dims d

/-- Position of an element when the last coordinate varies fastest. -/
def rowMajor : List Nat → List Nat → Nat
  | _ :: ns, i :: is => i * ns.prod + rowMajor ns is
  | _, _ => 0

theorem rowMajor_lt {dims d : List Nat} (h : InRange dims d) : rowMajor dims d < dims.prod := by
  induction h with
  | nil => simp [rowMajor]
  | @cons n i ns is h _ ih =>
    simp only [rowMajor, List.prod_cons]
    have : (i + 1) * ns.prod ≤ n * ns.prod := Nat.mul_le_mul_right _ h
    rw [Nat.add_mul] at this
    omega

theorem inRange_prod_pos {dims d : List Nat} (h : InRange dims d) : 0 < dims.prod := by
  have := rowMajor_lt h; omega

theorem coordsLoop_eq (W : Nat) {dims d : List Nat} (h : InRange dims d) (a : Nat)
    (hW : a * dims.prod + rowMajor dims d < W) :
    coordsLoop W a dims d = .ok (a * dims.prod + rowMajor dims d) := by
  induction h generalizing a with
  | nil => simp [coordsLoop, rowMajor]
  | @cons n i ns is hi hr ih =>
    have hp := inRange_prod_pos hr
    have e : (a * n + i) * ns.prod + rowMajor ns is =
        a * (n :: ns).prod + rowMajor (n :: ns) (i :: is) := by
      simp only [List.prod_cons, rowMajor]; ring
    rw [← e] at hW ⊢
    have h1 : a * n + i ≤ (a * n + i) * ns.prod := Nat.le_mul_of_pos_right _ hp
    have h2 : (a * n % W + i) % W = a * n + i := by
      rw [Nat.mod_eq_of_lt (a := a * n) (by omega), Nat.mod_eq_of_lt (by omega)]
    rw [coordsLoop, h2]
    exact ih _ hW

/-- **C45**. `coords_to_index` of in-range coordinates is their row-major position, and no `size_t`
arithmetic wraps around on the way, if the number of elements is a `size_t`. -/
theorem C45_row_major (W : Nat) (dims d : List Nat) (h : InRange dims d) (hW : dims.prod < W) :
    coordsToIndex W dims d = .ok (rowMajor dims d) ∧ rowMajor dims d < dims.prod := by
  have h1 := rowMajor_lt h
  refine ⟨?_, h1⟩
  have := coordsLoop_eq W h 0 (by omega)
  simpa [coordsToIndex] using this

theorem rowMajor_surj : ∀ (dims : List Nat) (i : Nat), i < dims.prod →
    ∃ d, InRange dims d ∧ rowMajor dims d = i
  | [], i, h => ⟨[], .nil, by simp at h; simp [rowMajor, h]⟩
  | n :: ns, i, h => by
    have hp : 0 < ns.prod := by
      rcases Nat.eq_zero_or_pos ns.prod with h0 | h0
      · simp [h0] at h
      · exact h0
    obtain ⟨d, h1, h2⟩ := rowMajor_surj ns (i % ns.prod) (Nat.mod_lt _ hp)
    refine ⟨i / ns.prod :: d, .cons ?_ h1, ?_⟩
    · rw [List.prod_cons] at h
      exact Nat.div_lt_of_lt_mul (by rw [Nat.mul_comm]; exact h)
    · rw [rowMajor, h2, Nat.mul_comm]; exact Nat.div_add_mod _ _

theorem rowMajor_inj {dims d d' : List Nat} (h : InRange dims d) (h' : InRange dims d')
    (he : rowMajor dims d = rowMajor dims d') : d = d' := by
  induction h generalizing d' with
  | nil => cases h'; rfl
  | @cons n i ns is hi hr ih =>
    cases h' with
    | @cons _ j _ js hj hr' =>
      simp only [rowMajor] at he
      have h1 := rowMajor_lt hr
      have h2 := rowMajor_lt hr'
      have hp := inRange_prod_pos hr
      have hij : i = j := by
        have a1 : (rowMajor ns is + i * ns.prod) / ns.prod = i := by
          rw [Nat.add_mul_div_right _ _ hp, Nat.div_eq_of_lt h1]; simp
        have a2 : (rowMajor ns js + j * ns.prod) / ns.prod = j := by
          rw [Nat.add_mul_div_right _ _ hp, Nat.div_eq_of_lt h2]; simp
        rw [← a1, ← a2]
        congr 1; omega
      subst hij
      rw [ih hr' (by omega)]

/-- **C45**. Addressing is a bijection: every position below the number of elements belongs to exactly
one tuple of in-range coordinates. (That an in-range tuple has such a position is `C45_row_major`.) -/
theorem C45_bijection (W : Nat) (dims : List Nat) (hW : dims.prod < W) (i : Nat) (hi : i < dims.prod) :
    ∃! d, InRange dims d ∧ coordsToIndex W dims d = .ok i := by
  obtain ⟨d, h1, h2⟩ := rowMajor_surj dims i hi
  refine ⟨d, ⟨h1, by rw [(C45_row_major W dims d h1 hW).1, h2]⟩, ?_⟩
  rintro d' ⟨h3, h4⟩
  rw [(C45_row_major W dims d' h3 hW).1] at h4
  simp at h4
  exact rowMajor_inj h3 h1 (h4.trans h2.symm)

/-- The element (1, 2) of a 2 × 3 array is the last one. -/
example : InRange [2, 3] [1, 2] ∧ coordsToIndex (2 ^ 16) [2, 3] [1, 2] = .ok 5 := by
  refine ⟨.cons (by simp) (.cons (by simp) .nil), by decide⟩

/-- **C45**. The number of elements is the product of the dimensions, modulo the range of `size_t`
(so the check for the size of the store is only meaningful if the product is a `size_t`). -/
theorem C45_size (W : Nat) (dims : List Nat) (h : dims ≠ []) : storeSize W dims = dims.prod % W := by
  have key : ∀ (ds : List Nat) (s : Nat), ds ≠ [] →
      ds.foldl (fun s n => s * n % W) s = (s * ds.prod) % W := by
    intro ds
    induction ds with
    | nil => intro s h; exact absurd rfl h
    | cons n ds ih =>
      intro s _
      by_cases hd : ds = []
      · subst hd; simp
      · rw [List.foldl_cons, ih _ hd, List.prod_cons, ← Nat.mul_assoc]
        rw [Nat.mul_mod (s * n % W), Nat.mod_mod, ← Nat.mul_mod]
  unfold storeSize
  have : dims.length > 0 := List.length_pos_iff.2 h
  rw [if_pos this, key dims 1 h, Nat.one_mul]

/-- An array whose dimensions fit its store. -/
def Arr.WF {α : Type} (W : Nat) (a : Arr α) : Prop :=
  a.dims ≠ [] ∧ a.dims.prod < W ∧ a.dims.prod ≤ a.store.length

theorem Arr.WF.size {α : Type} {W : Nat} {a : Arr α} (h : a.WF W) : storeSize W a.dims = a.dims.prod := by
  rw [C45_size W _ h.1, Nat.mod_eq_of_lt h.2.1]

theorem Arr.WF.get {α : Type} {W : Nat} {a : Arr α} (h : a.WF W) {d : List Nat} (hd : InRange a.dims d) :
    ∃ hlt : rowMajor a.dims d < a.store.length, a.get W d = .ok (a.store[rowMajor a.dims d]) := by
  obtain ⟨h1, h2⟩ := C45_row_major W a.dims d hd h.2.1
  have h3 := h.2.2
  refine ⟨by omega, ?_⟩
  simp [Arr.get, h1, rd_ok (show rowMajor a.dims d < a.store.length by omega)]

/-- **C45**. Reads and writes of in-range elements are defined, and an element has the value last
written to it: writing one element changes that element only. -/
theorem C45_read_write {α : Type} (W : Nat) (a : Arr α) (h : a.WF W) (d : List Nat) (v : α)
    (hd : InRange a.dims d) :
    ∃ a', a.set W d v = .ok a' ∧ a'.WF W ∧ a'.dims = a.dims ∧
      ∀ d', InRange a.dims d' → ∃ w, a.get W d' = .ok w ∧ a'.get W d' = .ok (if d' = d then v else w) := by
  obtain ⟨h1, h2⟩ := C45_row_major W a.dims d hd h.2.1
  have h3 := h.2.2
  refine ⟨{ a with store := a.store.set (rowMajor a.dims d) v }, ?_, ⟨h.1, h.2.1, by simpa using h3⟩,
    rfl, ?_⟩
  · simp [Arr.set, h1, wr, show rowMajor a.dims d < a.store.length by omega]
  · intro d' hd'
    obtain ⟨h4, h5⟩ := h.get hd'
    have hwf : ({ a with store := a.store.set (rowMajor a.dims d) v } : Arr α).WF W :=
      ⟨h.1, h.2.1, by simpa using h3⟩
    obtain ⟨h6, h7⟩ := hwf.get hd'
    refine ⟨_, h5, ?_⟩
    rw [h7]
    congr 1
    simp only [List.getElem_set]
    by_cases he : d' = d
    · subst he; simp
    · rw [if_neg, if_neg he]
      intro hr
      exact he (rowMajor_inj hd' hd hr.symm)

/-- **C45**, no range check: a coordinate that is out of range silently designates another element. -/
theorem C45_out_of_range_alias {α : Type} (W : Nat) (a : Arr α) (m n : Nat) (hd : a.dims = [m, n])
    (hW : n < W) : a.get W [0, n] = a.get W [1, 0] := by
  simp [Arr.get, coordsToIndex, coordsLoop, hd, Nat.mod_eq_of_lt hW]

example : ([0, 3] : List Nat) ≠ [1, 0] ∧ ¬ InRange [2, 3] [0, 3] := by
  refine ⟨by decide, ?_⟩
  intro h
  cases h with
  | cons _ h => cases h with
    | cons h _ => omega

theorem wr_ok {α : Type} {xs : List α} {i : Nat} {v : α} (h : i < xs.length) :
    wr xs i v = .ok (xs.set i v) := by simp [wr, h]

theorem accessChain_eq (rank : Nat) : ∀ (is done : List Nat) (c : Accessor),
    c.coords = done ++ List.replicate (rank - done.length) 0 → done.length ≤ rank → c.idx = done.length →
    accessChain c is = if done.length + is.length ≤ rank then
      .ok { coords := done ++ is ++ List.replicate (rank - done.length - is.length) 0,
            idx := done.length + is.length } else .throw
  | [], done, c, h1, h2, h3 => by
    obtain ⟨cs, ix⟩ := c
    simp only at h1 h3
    subst h1 h3
    simp [accessChain, h2]
  | i :: is, done, c, h1, h2, h3 => by
    have hl : c.coords.length = rank := by rw [h1]; simp; omega
    rw [accessChain, Accessor.index]
    by_cases hr : done.length = rank
    · rw [if_pos (by omega)]
      simp [hr]
    · rw [if_neg (by omega), wr_ok (by omega)]
      simp only [Out.ok_bind]
      have h4 : c.coords.set c.idx i = (done ++ [i]) ++ List.replicate (rank - (done ++ [i]).length) 0 := by
        have e : rank - done.length = (rank - done.length - 1) + 1 := by omega
        rw [h1, h3, e, List.replicate_succ]
        simp
        omega
      rw [accessChain_eq rank is (done ++ [i]) _ h4 (by simp; omega) (by simp [h3])]
      have e1 : (done ++ [i]).length + is.length = done.length + (i :: is).length := by simp; omega
      have e2 : rank - (done ++ [i]).length - is.length = rank - done.length - (i :: is).length := by
        simp; omega
      rw [e1, e2]
      simp

/-- **C45**. `a[i1]…[ik]` on an array whose rank is only known at run time designates the element with
these coordinates if `k` is the rank, and throws if there are too few or too many indices; both for
reading and for assigning. -/
theorem C45_accessor {α : Type} (W : Nat) (a : Arr α) (is : List Nat) (v : α) :
    readChain W a is = (if is.length = a.dims.length then a.get W is else .throw) ∧
    writeChain W a is v = (if is.length = a.dims.length then a.set W is v else .throw) := by
  have h := accessChain_eq a.dims.length is [] (Accessor.new a) (by simp [Accessor.new]) (by simp)
    (by simp [Accessor.new])
  simp only [List.length_nil, Nat.zero_add, List.nil_append, Nat.sub_zero] at h
  unfold readChain writeChain
  rw [h]
  rcases Nat.lt_trichotomy is.length a.dims.length with hlt | heq | hgt
  · rw [if_pos (by omega), if_neg (by omega), if_neg (by omega)]
    simp [Accessor.read, Accessor.write]
    omega
  · rw [if_pos (by omega), if_pos heq, if_pos heq]
    simp [Accessor.read, Accessor.write, heq]
  · rw [if_neg (by omega), if_neg (by omega), if_neg (by omega)]
    simp

/-- Consecutive `push_back`s. -/
def pushAll {α : Type} (W : Nat) (cap : Option Nat) (a : Arr α) : List α → Out (Arr α)
  | [] => .ok a
  | v :: vs => do
    let a' ← a.pushBack W cap v
    pushAll W cap a' vs

/-- **C45**. Any number of `push_back`s to a default constructed dynamic array gives the
one-dimensional array of the values, in order. -/
theorem C45_push_back {α : Type} (W : Nat) (vs : List α) (hne : vs ≠ []) (hW : vs.length < W) :
    ∃ a, pushAll W none { dims := [], store := [] } vs = .ok a ∧ a.dims = [vs.length] ∧
      ∀ i (h : i < vs.length), readChain W a [i] = .ok vs[i] := by
  have key : ∀ (vs pre : List α), pre.length + vs.length < W →
      pushAll W none { dims := [pre.length], store := pre } vs =
        .ok { dims := [pre.length + vs.length], store := pre ++ vs } := by
    intro vs
    induction vs with
    | nil => intro pre _; simp [pushAll]
    | cons v vs ih =>
      intro pre h
      simp only [List.length_cons] at h
      have h1 := ih (pre ++ [v]) (by simp; omega)
      simp only [pushAll, Arr.pushBack, List.length_cons, List.length_nil]
      simp only [Nat.zero_add, Nat.one_ne_zero, if_false, Out.ok_bind,
        Nat.mod_eq_of_lt (show pre.length + 1 < W by omega)]
      simp only [List.length_append, List.length_cons, List.length_nil, Nat.zero_add,
        List.append_assoc, List.cons_append, List.nil_append] at h1
      rw [h1]
      have e : pre.length + (vs.length + 1) = pre.length + 1 + vs.length := by omega
      rw [e]
  have h1 : pushAll W none { dims := [], store := [] } vs =
      pushAll W none { dims := [([] : List α).length], store := [] } vs := by
    obtain ⟨v, vs, rfl⟩ := List.exists_cons_of_ne_nil hne
    simp [pushAll, Arr.pushBack]
  refine ⟨_, h1.trans (key vs [] (by simpa using hW)), by simp, fun i hi => ?_⟩
  rw [(C45_accessor W _ _ vs[i]).1]
  simp [Arr.get, coordsToIndex, coordsLoop, Nat.mod_eq_of_lt (show i < W by omega), rd_ok hi]

/-- **C45**. With fixed storage of `S` elements, `push_back`s are stored in order as long as there is
room, and the first one too many throws. -/
theorem C45_push_back_fixed {α : Type} (W S : Nat) (s : List α) (hs : s.length = S) (hW : S + 1 < W)
    (vs : List α) :
    (vs.length ≤ S → ∃ a, pushAll W (some S) { dims := [0], store := s } vs = .ok a ∧
      a.dims = [vs.length] ∧ ∀ i (h : i < vs.length), readChain W a [i] = .ok vs[i]) ∧
    (S < vs.length → pushAll W (some S) { dims := [0], store := s } vs = .throw) := by
  have key : ∀ (vs pre tail : List α), pre.length + tail.length = S →
      pushAll W (some S) { dims := [pre.length], store := pre ++ tail } vs =
        if vs.length ≤ tail.length then
          .ok { dims := [pre.length + vs.length], store := pre ++ vs ++ tail.drop vs.length }
        else .throw := by
    intro vs
    induction vs with
    | nil => intro pre tail _; simp [pushAll]
    | cons v vs ih =>
      intro pre tail h
      simp only [pushAll, Arr.pushBack, List.length_cons, List.length_nil, Nat.zero_add,
        Nat.one_ne_zero, if_false, Nat.mod_eq_of_lt (show pre.length + 1 < W by omega)]
      cases tail with
      | nil => simp
      | cons t tail =>
        simp only [List.length_cons] at h
        rw [if_neg (by simp), wr_ok (by simp)]
        have h1 := ih (pre ++ [v]) tail (by simp; omega)
        simp only [List.length_append, List.length_cons, List.length_nil, Nat.zero_add,
          List.append_assoc, List.cons_append, List.nil_append] at h1
        simp only [Out.ok_bind, List.set_append_right _ _ (Nat.le_refl pre.length), Nat.sub_self,
          List.set_cons_zero, h1]
        simp only [List.length_cons, Nat.add_le_add_iff_right, List.drop_succ_cons, List.append_assoc,
          List.cons_append]
        have e : pre.length + (vs.length + 1) = pre.length + 1 + vs.length := by omega
        rw [e]
  have h0 := key vs [] s (by simpa using hs)
  simp only [List.length_nil, List.nil_append, Nat.zero_add, hs] at h0
  constructor
  · intro h
    rw [if_pos h] at h0
    refine ⟨_, h0, rfl, fun i hi => ?_⟩
    rw [(C45_accessor W _ _ vs[i]).1]
    simp [Arr.get, coordsToIndex, coordsLoop, Nat.mod_eq_of_lt (show i < W by omega)]
    rw [rd_ok (by simp; omega)]
    simp [hi]
  · intro h
    rw [h0, if_neg (by omega)]

/-- **C45**. `push_back` to an array with two or more dimensions throws. -/
theorem C45_push_back_rank {α : Type} (W : Nat) (cap : Option Nat) (a : Arr α) (v : α)
    (h : 2 ≤ a.dims.length) : a.pushBack W cap v = .throw := by
  obtain ⟨m, n, ds, hd⟩ : ∃ m n ds, a.dims = m :: n :: ds := by
    match hd : a.dims with
    | [] => simp [hd] at h
    | [_] => simp [hd] at h
    | m :: n :: ds => exact ⟨m, n, ds, rfl⟩
  simp [Arr.pushBack, hd]

/-- **C45**. Resizing a dynamic array keeps the *positions*: the element that is at position `i` of the
new array is the one that was at position `i` of the old one, and a value-initialised one beyond. -/
theorem C45_resize {α : Type} (W : Nat) (dflt : α) (a : Arr α) (d : List Nat) (hne : d ≠ [])
    (hW : d.prod < W) :
    ∃ a', a.resize W none dflt d = (a', false) ∧ a'.WF W ∧ a'.dims = d ∧
      ∀ c, InRange d c → a'.get W c = .ok (a.store.getD (rowMajor d c) dflt) := by
  have hs : storeSize W d = d.prod := by rw [C45_size W d hne, Nat.mod_eq_of_lt hW]
  have hl : (vecResize dflt a.store d.prod).length = d.prod := by
    simp [vecResize]; omega
  have hwf : ({ dims := d, store := vecResize dflt a.store (storeSize W d) } : Arr α).WF W :=
    ⟨hne, hW, by simp only [hs]; omega⟩
  refine ⟨_, rfl, hwf, rfl, fun c hc => ?_⟩
  obtain ⟨h1, h2⟩ := hwf.get hc
  rw [h2]
  congr 1
  simp only [hs]
  have h3 := rowMajor_lt hc
  generalize rowMajor d c = i at *
  unfold vecResize
  by_cases hi : i < a.store.length
  · rw [List.getElem_append_left (by simp; omega)]
    simp [hi]
  · rw [List.getElem_append_right (by simp; omega)]
    simp [List.getD, hi]

/-- For one dimension this keeps the elements; for more it does not: the element (1, 0) of a 2 × 2
array is found at (0, 2) after resizing to 2 × 3. -/
theorem C45_resize_moves {α : Type} (W : Nat) (hW : 6 < W) (dflt w x y z : α) :
    ∃ a', (⟨[2, 2], [w, x, y, z]⟩ : Arr α).resize W none dflt [2, 3] = (a', false) ∧
      (⟨[2, 2], [w, x, y, z]⟩ : Arr α).get W [1, 0] = .ok y ∧
      a'.get W [1, 0] = .ok z ∧ a'.get W [0, 2] = .ok y := by
  have h1 : 1 % W = 1 := Nat.mod_eq_of_lt (by omega)
  have h2 : 2 % W = 2 := Nat.mod_eq_of_lt (by omega)
  have h3 : 3 % W = 3 := Nat.mod_eq_of_lt (by omega)
  have h6 : 6 % W = 6 := Nat.mod_eq_of_lt (by omega)
  refine ⟨_, rfl, ?_, ?_, ?_⟩ <;>
    simp [Arr.get, coordsToIndex, coordsLoop, h1, h2, h3, h6, rd, vecResize, storeSize]

/-- **C45**, the failing half: for fixed storage, `resize` to dimensions that do not fit throws, but the
new dimensions stay: the array then has in-range elements that are outside of the store. -/
theorem C45_resize_throws_too_late {α : Type} (W S : Nat) (dflt : α) (a : Arr α) (hs : a.store.length = S)
    (n : Nat) (hn : S < n) (hW : n < W) :
    ∃ a', a.resize W (some S) dflt [n] = (a', true) ∧ a'.dims = [n] ∧ InRange a'.dims [S] ∧
      a'.get W [S] = .ub := by
  refine ⟨{ a with dims := [n] }, ?_, rfl, .cons hn .nil, ?_⟩
  · simp [Arr.resize, storeSize, Nat.mod_eq_of_lt hW, hn]
  · simp [Arr.get, coordsToIndex, coordsLoop, Nat.mod_eq_of_lt (show S < W by omega), rd, hs]

/-- **C45**. The constructor from dimensions and a list of values does not compare their sizes (it
assigns the store after resizing): elements can be outside of the store. -/
theorem C45_initializer_unchecked {α : Type} (W : Nat) (hW : 1 < W) (x : α) :
    InRange [2] [1] ∧ (⟨[2], [x]⟩ : Arr α).get W [1] = .ub := by
  refine ⟨.cons (by simp) .nil, ?_⟩
  simp [Arr.get, coordsToIndex, coordsLoop, Nat.mod_eq_of_lt hW, rd]

/-- **C45**. Equality of dynamic arrays is equality of dimensions and of all elements. -/
theorem C45_equality {α : Type} [DecidableEq α] (W : Nat) (a b : Arr α) (ha : a.WF W) (hb : b.WF W)
    (hla : a.store.length = a.dims.prod) (hlb : b.store.length = b.dims.prod) :
    a.eq b = true ↔ a.dims = b.dims ∧ ∀ d, InRange a.dims d → a.get W d = b.get W d := by
  simp only [Arr.eq, Bool.and_eq_true, beq_iff_eq]
  constructor
  · rintro ⟨h1, h2⟩
    exact ⟨h1, fun d _ => by simp [Arr.get, h1, h2]⟩
  · rintro ⟨h1, h2⟩
    refine ⟨h1, ?_⟩
    apply List.ext_getElem
    · rw [hla, hlb, h1]
    · intro i hi1 hi2
      obtain ⟨d, hd, hr⟩ := rowMajor_surj a.dims i (by omega)
      have h3 := h2 d hd
      obtain ⟨_, h4⟩ := ha.get hd
      obtain ⟨_, h5⟩ := hb.get (h1 ▸ hd)
      rw [h4, h5] at h3
      simp only [← h1, hr] at h3
      simpa using h3

/-- For fixed storage it is not: the unused part of the store is compared as well. -/
theorem C45_equality_fixed_fails (W : Nat) (hW : 1 < W) :
    ∃ a b : Arr Nat, a.WF W ∧ b.WF W ∧ a.dims = b.dims ∧
      (∀ d, InRange a.dims d → a.get W d = b.get W d) ∧ a.eq b = false := by
  refine ⟨⟨[1], [7, 0]⟩, ⟨[1], [7, 1]⟩, ⟨by simp, by simpa using hW, by simp⟩,
    ⟨by simp, by simpa using hW, by simp⟩, rfl, ?_, by decide⟩
  intro d hd
  cases hd with
  | cons h1 h2 =>
    cases h2
    simp at h1
    subst h1
    simp [Arr.get, coordsToIndex, coordsLoop, rd]

/-! ## Element-wise operations -/

theorem elemLoop_ok {α : Type} (f : Nat → Out α) (g : Nat → α) : ∀ (k i : Nat),
    (∀ j, i ≤ j → j < i + k → f j = .ok (g j)) →
    elemLoop f k i = .ok ((List.range' i k).map g)
  | 0, i, _ => rfl
  | k + 1, i, h => by
    rw [elemLoop, h i (Nat.le_refl _) (by omega)]
    simp only [Out.ok_bind]
    rw [elemLoop_ok f g k (i + 1) (fun j h1 h2 => h j (by omega) (by omega))]
    simp [List.range'_succ]

theorem elemLoop_ub {α : Type} (f : Nat → Out α) : ∀ (k i j : Nat), i ≤ j → j < i + k →
    (∀ m, i ≤ m → m < j → ∃ z, f m = .ok z) → f j = .ub → elemLoop f k i = .ub
  | 0, i, j, h1, h2, _, _ => by omega
  | k + 1, i, j, h1, h2, h3, h4 => by
    rw [elemLoop]
    by_cases hij : i = j
    · subst hij; rw [h4]; rfl
    · obtain ⟨z, hz⟩ := h3 i (Nat.le_refl _) (by omega)
      rw [hz, Out.ok_bind, elemLoop_ub f k (i + 1) j (by omega) (by omega)
        (fun m a b => h3 m (by omega) b) h4]
      rfl

/-- The store of an array has the size its type prescribes. -/
def Arr.Sized {α : Type} (W : Nat) (cap : Option Nat) (a : Arr α) : Prop :=
  a.WF W ∧ a.store.length = outSize W cap a.dims

theorem outCheck_ok {α : Type} {W : Nat} {cap : Option Nat} {a : Arr α} (h : a.Sized W cap) :
    outCheck W cap a.dims = .ok () := by
  cases cap with
  | none => rfl
  | some S =>
    have h1 := h.1.2.2
    have h2 := h.2
    simp only [outSize] at h2
    simp only [outCheck, h.1.size]
    rw [if_neg (by omega)]

theorem get_map {γ : Type} (W : Nat) (dims : List Nat) (g : Nat → γ) (k : Nat) (hW : dims.prod < W)
    (hk : dims.prod ≤ k) {d : List Nat} (hd : InRange dims d) :
    (⟨dims, (List.range' 0 k).map g⟩ : Arr γ).get W d = .ok (g (rowMajor dims d)) := by
  obtain ⟨h1, h2⟩ := C45_row_major W dims d hd hW
  simp only [Arr.get, h1, Out.ok_bind]
  rw [rd_ok (by simp; omega)]
  simp

/-- **C46**. An operation on two arrays of the same type and dimensions gives the array of the results
on the elements. -/
theorem C46_elementwise {α β γ : Type} (W : Nat) (cap : Option Nat) (op : α → β → γ) (l : Arr α)
    (r : Arr β) (hl : l.Sized W cap) (hr : r.Sized W cap) (hd : l.dims = r.dims) :
    ∃ a, elementwiseLR W cap op l r = .ok a ∧ a.Sized W cap ∧ a.dims = l.dims ∧
      ∀ d, InRange l.dims d → ∃ x y, l.get W d = .ok x ∧ r.get W d = .ok y ∧ a.get W d = .ok (op x y) := by
  have hlen : l.store.length = r.store.length := by rw [hl.2, hr.2, hd]
  by_cases h0 : l.store.length = 0
  · -- no elements at all
    have hz : outSize W cap l.dims = 0 := by rw [← hl.2]; exact h0
    refine ⟨⟨l.dims, []⟩, ?_, ?_, rfl, ?_⟩
    · simp [elementwiseLR, hd]
      rw [← hd, outCheck_ok hl, hz]
      rfl
    · exact ⟨⟨hl.1.1, hl.1.2.1, by have := hl.1.2.2; simpa [h0] using this⟩, by simpa using hz.symm⟩
    · intro d hdr
      have := rowMajor_lt hdr
      have := hl.1.2.2
      omega
  · obtain ⟨x0, hx0⟩ : ∃ x0, x0 ∈ l.store := List.exists_mem_of_length_pos (by omega)
    obtain ⟨y0, hy0⟩ : ∃ y0, y0 ∈ r.store := List.exists_mem_of_length_pos (by omega)
    have hloop := elemLoop_ok (fun i => do
      let x ← rd l.store i
      let y ← rd r.store i
      .ok (op x y)) (fun i => op (l.store.getD i x0) (r.store.getD i y0)) (outSize W cap l.dims) 0
      (by
        intro j _ hj
        rw [← hl.2] at hj
        simp only [Nat.zero_add] at hj
        rw [rd_ok hj, rd_ok (show j < r.store.length by omega)]
        simp [hj, show j < r.store.length by omega])
    refine ⟨⟨l.dims, (List.range' 0 (outSize W cap l.dims)).map
      fun i => op (l.store.getD i x0) (r.store.getD i y0)⟩, ?_, ?_, rfl, ?_⟩
    · simp only [elementwiseLR, hd, ne_eq, not_true_eq_false, if_false]
      rw [← hd, outCheck_ok hl]
      simp only [Out.ok_bind]
      rw [hloop]
      rfl
    · refine ⟨⟨hl.1.1, hl.1.2.1, ?_⟩, ?_⟩
      · have := hl.1.2.2
        simp [← hl.2, this]
      · simp
    · intro d hdr
      obtain ⟨h1, h2⟩ := hl.1.get hdr
      obtain ⟨h3, h4⟩ := hr.1.get (hd ▸ hdr)
      refine ⟨_, _, h2, h4, ?_⟩
      rw [get_map W _ _ _ hl.1.2.1 (by have := hl.1.2.2; rw [← hl.2]; exact this) hdr]
      simp only [← hd] at h3 ⊢
      simp [h1, h3]

/-- **C46**. Arrays of different dimensions: an exception. -/
theorem C46_elementwise_mismatch {α β γ : Type} (W : Nat) (cap : Option Nat) (op : α → β → γ) (l : Arr α)
    (r : Arr β) (hd : l.dims ≠ r.dims) : elementwiseLR W cap op l r = .throw := by
  simp [elementwiseLR, hd]

/-- **C46**. An operation on an array and a scalar (also `derivative(a, x)` and `simplify(a)`, where the
second operand is ignored by the element function) is applied to every element. -/
theorem C46_scalar_right {α β γ : Type} (W : Nat) (cap : Option Nat) (op : α → β → γ) (l : Arr α)
    (r : β) (hl : l.Sized W cap) :
    ∃ a, elementwiseL W cap op l r = .ok a ∧ a.Sized W cap ∧ a.dims = l.dims ∧
      ∀ d, InRange l.dims d → ∃ x, l.get W d = .ok x ∧ a.get W d = .ok (op x r) := by
  obtain ⟨dims, store⟩ := l
  have hloop : elemLoop (fun i => do
      let x ← rd store i
      .ok (op x r)) store.length 0 = .ok (store.map fun x => op x r) := by
    cases store with
    | nil => rfl
    | cons x0 s =>
      rw [elemLoop_ok _ (fun i => op ((x0 :: s).getD i x0) r) _ 0 (by
        intro j _ hj
        simp only [Nat.zero_add] at hj
        rw [rd_ok hj, List.getD_eq_getElem _ _ hj]; rfl)]
      congr 1
      apply List.ext_getElem
      · simp
      · intro i h1 h2
        simp only [List.getElem_map, List.getElem_range', Nat.zero_add, Nat.one_mul]
        simp only [List.length_map] at h2
        rw [List.getD_eq_getElem _ _ h2]
  refine ⟨⟨dims, store.map fun x => op x r⟩, ?_, ⟨⟨hl.1.1, hl.1.2.1, by simpa using hl.1.2.2⟩,
    by simpa using hl.2⟩, rfl, ?_⟩
  · have h2 := hl.2
    simp only at h2
    simp only [elementwiseL, outCheck_ok hl, Out.ok_bind, ← h2, hloop]
  · intro d hdr
    obtain ⟨h1, h2⟩ := hl.1.get hdr
    refine ⟨_, h2, ?_⟩
    obtain ⟨h3, h4⟩ := C45_row_major W dims d hdr hl.1.2.1
    simp only [Arr.get, h3, Out.ok_bind]
    rw [rd_ok (by simpa using h1)]
    simp

/-- **C46**. A scalar and an array (only multiplication has this form in practice). -/
theorem C46_scalar_left {α β γ : Type} (W : Nat) (cap : Option Nat) (op : α → β → γ) (l : α)
    (r : Arr β) (hr : r.Sized W cap) :
    ∃ a, elementwiseR W cap op l r = .ok a ∧ a.Sized W cap ∧ a.dims = r.dims ∧
      ∀ d, InRange r.dims d → ∃ y, r.get W d = .ok y ∧ a.get W d = .ok (op l y) :=
  C46_scalar_right W cap (fun y x => op x y) r l hr

/-- **C46**, the failing half: the loop runs over the whole store of the *left* type, and nothing
compares the sizes of the stores. If the left array has fixed storage that is larger than the store of
the right one, elements outside of the right store are read. -/
theorem C46_mixed_storage_ub {α β γ : Type} (W S : Nat) (op : α → β → γ) (l : Arr α) (r : Arr β)
    (hl : l.Sized W (some S)) (hr : r.Sized W none) (hd : l.dims = r.dims) (hlt : l.dims.prod < S) :
    elementwiseLR W (some S) op l r = .ub := by
  have hrl : r.store.length = l.dims.prod := by rw [hr.2, outSize, hr.1.size, hd]
  have hll : l.store.length = S := hl.2
  simp only [elementwiseLR, hd, ne_eq, not_true_eq_false, if_false]
  rw [← hd, outCheck_ok hl]
  simp only [Out.ok_bind, outSize]
  rw [elemLoop_ub _ S 0 r.store.length (by omega) (by omega)]
  · rfl
  · intro m _ hm
    rw [rd_ok (show m < l.store.length by omega), rd_ok hm]
    exact ⟨_, rfl⟩
  · rw [rd_ok (show r.store.length < l.store.length by omega), rd_ub (Nat.le_refl _)]
    rfl

/-- Arrays as they come out of `resize` are well-sized. -/
theorem resize_sized {α : Type} (W : Nat) (dflt : α) (a : Arr α) (d : List Nat) (hne : d ≠ [])
    (hW : d.prod < W) : (a.resize W none dflt d).1.Sized W none := by
  obtain ⟨a', h1, h2, h3, -⟩ := C45_resize W dflt a d hne hW
  rw [h1]
  refine ⟨h2, ?_⟩
  have : a' = { dims := d, store := vecResize dflt a.store (storeSize W d) } := by
    have := h1; simp [Arr.resize] at this; exact this.symm
  subst this
  simp [outSize, vecResize]; omega

/-- A 2 × 2 array plus its double. -/
example : elementwiseLR (2 ^ 16) none (· + ·) (⟨[2, 2], [1, 2, 3, 4]⟩ : Arr Nat) ⟨[2, 2], [2, 4, 6, 8]⟩
    = .ok ⟨[2, 2], [3, 6, 9, 12]⟩ := by decide

example : (⟨[2, 2], [1, 2, 3, 4]⟩ : Arr Nat).Sized (2 ^ 16) none :=
  ⟨⟨by simp, by decide, by decide⟩, by decide⟩

/-- Two visible elements in a store of three, plus a dynamic array of two. -/
example : elementwiseLR (2 ^ 16) (some 3) (· + ·) (⟨[2], [1, 2, 0]⟩ : Arr Nat) ⟨[2], [5, 6]⟩ = .ub := by
  decide

/-! ## C45 for `LinearAddressing` -/

/-- Consecutive `push_back`s. -/
def Lin.pushAll {α : Type} (W : Nat) (cap : Option Nat) (a : Lin α) : List α → Out (Lin α)
  | [] => .ok a
  | v :: vs => do
    let a' ← a.pushBack W cap v
    Lin.pushAll W cap a' vs

/-- **C45**. `push_back`s to an empty dynamic linear array give the array of the values, in order; with
fixed storage the same holds as long as there is room, and the first one too many throws. -/
theorem C45_linear_push_back {α : Type} (W S : Nat) (s vs : List α) (hs : s.length = S) :
    (vs.length < W → ∃ a, Lin.pushAll W none { dim := 0, store := [] } vs = .ok a ∧ a.dim = vs.length ∧
      a.store = vs) ∧
    (S + 1 < W → vs.length ≤ S → ∃ a, Lin.pushAll W (some S) { dim := 0, store := s } vs = .ok a ∧
      a.dim = vs.length ∧ a.store.take vs.length = vs ∧ a.store.drop vs.length = s.drop vs.length) ∧
    (S + 1 < W → S < vs.length → Lin.pushAll W (some S) { dim := 0, store := s } vs = .throw) := by
  have dyn : ∀ (vs pre : List α), pre.length + vs.length < W →
      Lin.pushAll W none { dim := pre.length, store := pre } vs =
        .ok { dim := pre.length + vs.length, store := pre ++ vs } := by
    intro vs
    induction vs with
    | nil => intro pre _; simp [Lin.pushAll]
    | cons v vs ih =>
      intro pre h
      simp only [List.length_cons] at h
      have h1 := ih (pre ++ [v]) (by simp; omega)
      simp only [Lin.pushAll, Lin.pushBack, Out.ok_bind, Nat.mod_eq_of_lt (show pre.length + 1 < W by omega)]
      simp only [List.length_append, List.length_cons, List.length_nil, Nat.zero_add, List.append_assoc,
        List.cons_append, List.nil_append] at h1
      rw [h1]
      have e : pre.length + (vs.length + 1) = pre.length + 1 + vs.length := by omega
      simp [e]
  have fix : S + 1 < W → ∀ (vs pre tail : List α), pre.length + tail.length = S →
      Lin.pushAll W (some S) { dim := pre.length, store := pre ++ tail } vs =
        if vs.length ≤ tail.length then
          .ok { dim := pre.length + vs.length, store := pre ++ vs ++ tail.drop vs.length }
        else .throw := by
    intro hW vs
    induction vs with
    | nil => intro pre tail _; simp [Lin.pushAll]
    | cons v vs ih =>
      intro pre tail h
      simp only [Lin.pushAll, Lin.pushBack, Nat.mod_eq_of_lt (show pre.length + 1 < W by omega)]
      cases tail with
      | nil => simp
      | cons t tail =>
        simp only [List.length_cons] at h
        rw [if_neg (by simp), wr_ok (by simp)]
        have h1 := ih (pre ++ [v]) tail (by simp; omega)
        simp only [List.length_append, List.length_cons, List.length_nil, Nat.zero_add,
          List.append_assoc, List.cons_append, List.nil_append] at h1
        simp only [Out.ok_bind, List.set_append_right _ _ (Nat.le_refl pre.length), Nat.sub_self,
          List.set_cons_zero, h1]
        simp only [List.length_cons, Nat.add_le_add_iff_right, List.drop_succ_cons, List.append_assoc,
          List.cons_append]
        have e : pre.length + (vs.length + 1) = pre.length + 1 + vs.length := by omega
        rw [e]
  refine ⟨fun h => ?_, fun hW h => ?_, fun hW h => ?_⟩
  · have := dyn vs [] (by simpa using h)
    exact ⟨_, this, by simp, by simp⟩
  · have h0 := fix hW vs [] s (by simpa using hs)
    simp only [List.length_nil, List.nil_append, Nat.zero_add, hs] at h0
    rw [if_pos h] at h0
    exact ⟨_, h0, rfl, by simp, by simp⟩
  · have h0 := fix hW vs [] s (by simpa using hs)
    simp only [List.length_nil, List.nil_append, Nat.zero_add, hs] at h0
    rw [h0, if_neg (by omega)]

/-- **C45**. Resizing a linear array: with dynamic storage the first `d` elements are kept and new ones are
value-initialised; with fixed storage it succeeds exactly when `d` elements fit, changes nothing but the
size, and otherwise throws (before any change, unlike the arrays of several dimensions). -/
theorem C45_linear_resize {α : Type} (S : Nat) (dflt : α) (a : Lin α) (d : Nat) :
    (∃ a', a.resize none dflt d = .ok a' ∧ a'.dim = d ∧ a'.store.length = d ∧
      ∀ i, i < d → a'.store[i]? = some (a.store.getD i dflt)) ∧
    (a.store.length = S → d ≤ S → a.resize (some S) dflt d = .ok { dim := d, store := a.store }) ∧
    (a.store.length = S → S < d → a.resize (some S) dflt d = .throw) := by
  refine ⟨⟨_, rfl, rfl, by simp [vecResize]; omega, fun i hi => ?_⟩, fun h h' => ?_, fun h h' => ?_⟩
  · simp only [vecResize]
    by_cases hl : i < a.store.length
    · rw [List.getElem?_append_left (by simp; omega)]
      simp [hi, List.getD, hl]
    · rw [List.getElem?_append_right (by simp; omega)]
      rw [List.length_take, List.getElem?_replicate, if_pos (by omega)]
      simp [List.getD, hl]
  · simp [Lin.resize]; omega
  · simp [Lin.resize]; omega

/-- Four elements of room, three values. -/
example : Lin.pushAll 100 (some 4) { dim := 0, store := [0, 0, 0, 0] } [7, 8, 9] =
    .ok { dim := 3, store := [7, 8, 9, 0] } := rfl

end Stator.Ds
