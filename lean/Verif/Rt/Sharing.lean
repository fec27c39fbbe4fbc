import Verif.Rt.CompareProps

/-!
# C78: expressions are values although they share memory

`Expr` is a reference-counted pointer to a node; nodes point to other nodes through `Expr`s, and expressions share
sub-expressions. The heap and the counts are modelled here. Specification: a machine in which every `Expr` holds its own tree.
-/

namespace Stator.Sh

variable {L : Type}

/-! ## Model -/

/-- A node: what it is, its sub-expressions (`_arg`; `_l`, `_r`; the elements of an array; the values of a dictionary), and its
reference count. models: unary_ops_rt.hpp:47, binary_ops_rt.hpp:50-51, array_rt.hpp:27, dict.hpp:25, constants_rt.hpp:45,
variable_rt.hpp:64; runtime.hpp:105 (`enable_shared_from_this`). -/
structure Obj (L : Type) where
  lbl : L
  cs : List (Option Nat)
  cnt : Nat

/-- The memory: the node at every address. -/
abbrev Heap (L : Type) := List (Option (Obj L))

/-- The node at an address. -/
def get (h : Heap L) (p : Nat) : Option (Obj L) := (h[p]?).join

/-- Changes the memory at an address. -/
def put : Heap L → Nat → Option (Obj L) → Heap L
  | [], 0, o => [o]
  | [], n + 1, o => none :: put [] n o
  | _ :: h, 0, o => o :: h
  | x :: h, n + 1, o => x :: put h n o

/-- Copying an `Expr` adds one to the count; a null pointer has none. `none`: the node does not exist any more.
models: runtime.hpp:141-158. -/
def retain (h : Heap L) : Option Nat → Option (Heap L)
  | none => some h
  | some p => do
    let o ← get h p
    some (put h p (some { o with cnt := o.cnt + 1 }))

/-- Copies of several `Expr`s. -/
def retainAll (h : Heap L) : List (Option Nat) → Option (Heap L)
  | [] => some h
  | p :: ps => do
    let h' ← retain h p
    retainAll h' ps

/-- The number of pointers in the nodes. -/
def fields : Heap L → Nat
  | [] => 0
  | none :: h => fields h
  | some o :: h => o.cs.length + fields h

theorem fields_put : ∀ (h : Heap L) (p : Nat) (o : Obj L) (x : Option (Obj L)), get h p = some o →
    fields (put h p x) + o.cs.length = fields h + (match x with | none => 0 | some o' => o'.cs.length)
  | [], p, o, x, hg => by simp [get] at hg
  | y :: h, 0, o, x, hg => by
    have : y = some o := by simpa [get] using hg
    subst this
    cases x <;> simp [put, fields] <;> omega
  | y :: h, n + 1, o, x, hg => by
    have hg' : get h n = some o := by simpa [get] using hg
    have := fields_put h n o x hg'
    cases y <;> simp [put, fields] <;> omega

/-- Destroying `Expr`s: the count drops by one; at zero the node is destroyed and with it the `Expr`s in it. `none`: a node that
does not exist any more is accessed. models: runtime.hpp:141-158 (`~shared_ptr`, `virtual ~RTBase`: runtime.hpp:110). -/
def release (h : Heap L) : List (Option Nat) → Option (Heap L)
  | [] => some h
  | none :: ps => release h ps
  | some p :: ps =>
    match hg : get h p with
    | none => none
    | some o =>
      if o.cnt ≤ 1 then release (put h p none) (o.cs ++ ps)
      else release (put h p (some { o with cnt := o.cnt - 1 })) ps
termination_by ps => fields h + ps.length
decreasing_by
  · simp
  · have := fields_put h p o none hg
    simp at *; omega
  · have := fields_put h p o (some { o with cnt := o.cnt - 1 }) hg
    simp at *; omega

/-- A state of the program: the memory and the `Expr` variables. -/
structure St (L : Type) where
  heap : Heap L
  vars : List (Option Nat)

/-- What a program does with `Expr`s; variables are numbered. -/
inductive Cmd (L : Type) where
  /-- `Expr e;` -/
  | declare
  /-- The variable declared last goes out of scope. -/
  | leave
  /-- `e = Expr();` -/
  | reset (d : Nat)
  /-- `d = s;` -/
  | assign (d s : Nat)
  /-- `d = Node::create(s1, …);`, and so every operator and function. -/
  | create (d : Nat) (l : L) (ss : List Nat)
  /-- `d = s.getArg();`, `getLHS()`, an element, … -/
  | child (d s i : Nat)
  /-- `a[i] = s;` for an array or dictionary under construction (`*Array::create()`). -/
  | setElem (d i s : Nat)
  /-- `a.push_back(s);`, or a new key of a dictionary under construction; the label may change with it. -/
  | append (d : Nat) (l : L) (s : Nat)

/-- Assigns a pointer that is already counted to variable `d`; the old value is destroyed afterwards.
models: runtime.hpp:147-152, 203-208. -/
def store (h : Heap L) (vars : List (Option Nat)) (d : Nat) (p : Option Nat) : Option (St L) := do
  let old ← vars[d]?
  let h' ← release h [old]
  some { heap := h', vars := vars.set d p }

/-- One step. `a` is the address that `new` returns. `none`: undefined behaviour, or a variable or element that does not exist.
models: runtime.hpp:141-158, 203-208, 470-523; unary_ops_rt.hpp:34-45; binary_ops_rt.hpp:33-48; constants_rt.hpp:28-30;
variable_rt.hpp:39-47; array_rt.hpp:38-47; array.hpp:103-106, 134-148; dict.hpp:46. -/
def exec (a : Nat) (s : St L) : Cmd L → Option (St L)
  | .declare => some { s with vars := s.vars ++ [none] }
  | .leave => do
    let p ← s.vars.getLast?
    let h ← release s.heap [p]
    some { heap := h, vars := s.vars.dropLast }
  | .reset d => store s.heap s.vars d none
  | .assign d j => do
    let p ← s.vars[j]?
    let h ← retain s.heap p
    store h s.vars d p
  | .create d l ss => do
    let ps ← ss.mapM (fun j => s.vars[j]?)
    let h ← retainAll s.heap ps
    store (put h a (some { lbl := l, cs := ps, cnt := 1 })) s.vars d (some a)
  | .child d j i => do
    let p ← (s.vars[j]?).join
    let o ← get s.heap p
    let c ← o.cs[i]?
    let h ← retain s.heap c
    store h s.vars d c
  | .setElem d i j => do
    let p ← (s.vars[d]?).join
    let c ← s.vars[j]?
    let h ← retain s.heap c
    let o ← get h p
    let old ← o.cs[i]?
    let h' ← release (put h p (some { o with cs := o.cs.set i c })) [old]
    some { s with heap := h' }
  | .append d l j => do
    let p ← (s.vars[d]?).join
    let c ← s.vars[j]?
    let h ← retain s.heap c
    let o ← get h p
    some { s with heap := put h p (some { o with lbl := l, cs := o.cs ++ [c] }) }

/-! ## Specification -/

/-- A tree; `null` is the empty `Expr()`. -/
inductive T (L : Type) where
  | null
  | node (l : L) (ts : List (T L))

/-- The same program when every variable holds a tree of its own. -/
def step (vs : List (T L)) : Cmd L → Option (List (T L))
  | .declare => some (vs ++ [.null])
  | .leave => if vs = [] then none else some vs.dropLast
  | .reset d => if d < vs.length then some (vs.set d .null) else none
  | .assign d j => do
    let t ← vs[j]?
    if d < vs.length then some (vs.set d t) else none
  | .create d l ss => do
    let ts ← ss.mapM (fun j => vs[j]?)
    if d < vs.length then some (vs.set d (.node l ts)) else none
  | .child d j i =>
    match vs[j]? with
    | some (.node _ ts) => do
      let t ← ts[i]?
      if d < vs.length then some (vs.set d t) else none
    | _ => none
  | .setElem d i j =>
    match vs[d]? with
    | some (.node l ts) => do
      let t ← vs[j]?
      if i < ts.length then some (vs.set d (.node l (ts.set i t))) else none
    | _ => none
  | .append d l j =>
    match vs[d]? with
    | some (.node _ ts) => do
      let t ← vs[j]?
      some (vs.set d (.node l (ts ++ [t])))
    | _ => none

/-! ## The memory is consistent -/

/-- The number of pointers to `p` in the nodes. -/
def refs (p : Nat) : Heap L → Nat
  | [] => 0
  | none :: h => refs p h
  | some o :: h => o.cs.count (some p) + refs p h

/-- The pointers to `q` in a node. -/
def refsOf (q : Nat) : Option (Obj L) → Nat
  | none => 0
  | some o => o.cs.count (some q)

theorem get_put : ∀ (h : Heap L) (p q : Nat) (o : Option (Obj L)),
    get (put h p o) q = if q = p then o else get h q
  | [], 0, q, o => by cases q <;> simp [put, get]
  | [], n + 1, 0, o => by simp [put, get]
  | [], n + 1, q + 1, o => by
    have := get_put ([] : Heap L) n q o
    simp only [put, get, List.getElem?_cons_succ] at this ⊢
    rw [this]; simp
  | x :: h, 0, q, o => by cases q <;> simp [put, get]
  | x :: h, n + 1, 0, o => by simp [put, get]
  | x :: h, n + 1, q + 1, o => by
    have := get_put h n q o
    simp only [put, get, List.getElem?_cons_succ] at this ⊢
    rw [this]; simp

theorem refs_cons (q : Nat) (x : Option (Obj L)) (h : Heap L) : refs q (x :: h) = refsOf q x + refs q h := by
  cases x <;> simp [refs, refsOf]

theorem refs_put (q : Nat) : ∀ (h : Heap L) (p : Nat) (o : Option (Obj L)),
    refs q (put h p o) + refsOf q (get h p) = refs q h + refsOf q o
  | [], 0, o => by simp [put, get, refs_cons, refsOf, refs]
  | [], n + 1, o => by
    have := refs_put q ([] : Heap L) n o
    simp [put, get, refs_cons, refsOf, refs] at this ⊢
    exact this
  | x :: h, 0, o => by simp [put, get, refs_cons]; omega
  | x :: h, n + 1, o => by
    have := refs_put q h n o
    simp [put, get, refs_cons] at this ⊢
    omega

/-- Every node is counted right, and nothing points to what is not there. `roots` are the pointers outside the memory. -/
def Consistent (h : Heap L) (roots : List (Option Nat)) : Prop :=
  ∀ p, match get h p with
    | some o => o.cnt = roots.count (some p) + refs p h ∧ 0 < o.cnt
    | none => roots.count (some p) + refs p h = 0

theorem Consistent.live {h : Heap L} {roots : List (Option Nat)} (hc : Consistent h roots) {p : Nat}
    (hp : 0 < roots.count (some p) + refs p h) :
    ∃ o, get h p = some o ∧ o.cnt = roots.count (some p) + refs p h := by
  have := hc p
  cases hg : get h p with
  | none => rw [hg] at this; simp only at this; omega
  | some o => rw [hg] at this; exact ⟨o, rfl, this.1⟩

theorem Consistent.of_mem {h : Heap L} {roots : List (Option Nat)} (hc : Consistent h roots) {p : Nat}
    (hp : some p ∈ roots) : ∃ o, get h p = some o ∧ o.cnt = roots.count (some p) + refs p h :=
  hc.live (by have := List.count_pos_iff.2 hp; omega)

theorem refs_pos {h : Heap L} {q : Nat} {o : Obj L} {p : Nat} (hg : get h q = some o) (hp : some p ∈ o.cs) : 0 < refs p h := by
  have h1 := refs_put p h q none
  rw [hg] at h1
  simp only [refsOf] at h1
  have := List.count_pos_iff.2 hp
  omega

theorem Consistent.child {h : Heap L} {roots : List (Option Nat)} (hc : Consistent h roots) {q p : Nat} {o : Obj L}
    (hg : get h q = some o) (hp : some p ∈ o.cs) : ∃ o', get h p = some o' ∧ o'.cnt = roots.count (some p) + refs p h :=
  hc.live (by have := refs_pos hg hp; omega)

theorem Consistent.congr {h : Heap L} {r r' : List (Option Nat)} (hc : Consistent h r)
    (hr : ∀ p, r.count (some p) = r'.count (some p)) : Consistent h r' := by
  intro p
  have := hc p
  rw [hr p] at this
  exact this

/-- Two memories have the same nodes up to counts wherever the second has one. -/
def Sub (h h' : Heap L) : Prop :=
  ∀ p o', get h' p = some o' → ∃ o, get h p = some o ∧ o.lbl = o'.lbl ∧ o.cs = o'.cs

theorem Sub.refl (h : Heap L) : Sub h h := fun _ o ho => ⟨o, ho, rfl, rfl⟩

theorem Sub.trans {h1 h2 h3 : Heap L} (h12 : Sub h1 h2) (h23 : Sub h2 h3) : Sub h1 h3 := by
  intro p o3 ho3
  obtain ⟨o2, ho2, a, b⟩ := h23 p o3 ho3
  obtain ⟨o1, ho1, c, d⟩ := h12 p o2 ho2
  exact ⟨o1, ho1, c.trans a, d.trans b⟩

theorem retain_ok {h : Heap L} {roots : List (Option Nat)} (hc : Consistent h roots) (q : Option Nat)
    (hq : ∀ p, q = some p → 0 < roots.count (some p) + refs p h) :
    ∃ h', retain h q = some h' ∧ Consistent h' (q :: roots) ∧ Sub h h' ∧ Sub h' h ∧ (∀ p, refs p h' = refs p h) := by
  cases q with
  | none =>
    refine ⟨h, rfl, hc.congr (fun p => by simp), Sub.refl h, Sub.refl h, fun _ => rfl⟩
  | some p =>
    obtain ⟨o, hg, hcnt⟩ := hc.live (hq p rfl)
    have hrefs : ∀ q, refs q (put h p (some { o with cnt := o.cnt + 1 })) = refs q h := by
      intro q
      have := refs_put q h p (some { o with cnt := o.cnt + 1 })
      rw [hg] at this
      simp only [refsOf] at this
      omega
    refine ⟨_, by rw [retain, hg]; rfl, ?_, ?_, ?_, hrefs⟩
    · intro q
      rw [get_put, hrefs q]
      by_cases hqp : q = p
      · subst hqp
        simp [hcnt]; omega
      · have := hc q
        rw [if_neg hqp, List.count_cons_of_ne (by simpa using fun h => hqp h.symm)]
        exact this
    · intro q o' ho'
      rw [get_put] at ho'
      by_cases hqp : q = p
      · rw [if_pos hqp] at ho'
        simp only [Option.some.injEq] at ho'
        subst ho'
        exact ⟨o, hqp ▸ hg, rfl, rfl⟩
      · rw [if_neg hqp] at ho'
        exact ⟨o', ho', rfl, rfl⟩
    · intro q o' ho'
      rw [get_put]
      by_cases hqp : q = p
      · rw [if_pos hqp]
        rw [hqp, hg] at ho'
        simp only [Option.some.injEq] at ho'
        subst ho'
        exact ⟨_, rfl, rfl, rfl⟩
      · rw [if_neg hqp]
        exact ⟨o', ho', rfl, rfl⟩

theorem retainAll_ok {roots : List (Option Nat)} : ∀ (ps : List (Option Nat)) {h : Heap L} (done : List (Option Nat)),
    Consistent h (done ++ roots) → (∀ p, some p ∈ ps → some p ∈ roots) →
    ∃ h', retainAll h ps = some h' ∧ Consistent h' (ps ++ done ++ roots) ∧ Sub h h' ∧ Sub h' h
  | [], h, done, hc, _ => ⟨h, rfl, by simpa using hc, Sub.refl h, Sub.refl h⟩
  | q :: ps, h, done, hc, hm => by
    obtain ⟨h1, e1, c1, s1, s1', -⟩ := retain_ok hc q (fun p hp => by
      have : some p ∈ done ++ roots := List.mem_append_right _ (hm p (by simp [hp]))
      have := List.count_pos_iff.2 this
      omega)
    obtain ⟨h2, e2, c2, s2, s2'⟩ := retainAll_ok ps (q :: done) (by simpa using c1) (fun p hp => hm p (by simp [hp]))
    refine ⟨h2, by rw [retainAll, e1]; exact e2, c2.congr (fun p => ?_), s1.trans s2, s2'.trans s1'⟩
    simp only [List.count_append, List.count_cons, List.cons_append]
    omega

/-- Destroying pointers never touches a node that is gone, leaves a consistent memory, and changes no node that stays. -/
theorem release_ok {vars : List (Option Nat)} (h : Heap L) (ps : List (Option Nat)) (hc : Consistent h (ps ++ vars)) :
    ∃ h', release h ps = some h' ∧ Consistent h' vars ∧ Sub h h' := by
  fun_induction release h ps with
  | case1 h => exact ⟨h, rfl, hc, Sub.refl h⟩
  | case2 h ps ih =>
    exact ih (hc.congr (fun p => by simp))
  | case3 h p ps hg =>
    obtain ⟨o, ho, -⟩ := hc.of_mem (p := p) (by simp)
    rw [hg] at ho
    cases ho
  | case4 h p ps o hg hle ih =>
    have hp := hc p
    rw [hg] at hp
    simp only [List.cons_append, List.count_cons_self] at hp
    obtain ⟨h', e, c, s⟩ := ih (by
      intro q
      have h1 := refs_put q h p none
      rw [hg] at h1
      simp only [refsOf] at h1
      rw [get_put]
      by_cases hqp : q = p
      · subst hqp
        rw [if_pos rfl]
        simp only [List.count_append] at hp ⊢
        omega
      · rw [if_neg hqp]
        have hq := hc q
        rw [List.cons_append, List.count_cons_of_ne (by simpa using fun h => hqp h.symm)] at hq
        simp only [List.count_append] at hq ⊢
        cases hgq : get h q with
        | none => rw [hgq] at hq; simp only at hq ⊢; omega
        | some o' => rw [hgq] at hq; simp only at hq ⊢; omega)
    refine ⟨h', e, c, Sub.trans ?_ s⟩
    intro q o' ho'
    rw [get_put] at ho'
    by_cases hqp : q = p
    · rw [if_pos hqp] at ho'; cases ho'
    · rw [if_neg hqp] at ho'; exact ⟨o', ho', rfl, rfl⟩
  | case5 h p ps o hg hle ih =>
    have hp := hc p
    rw [hg] at hp
    simp only [List.cons_append, List.count_cons_self] at hp
    have hrefs : ∀ q, refs q (put h p (some { o with cnt := o.cnt - 1 })) = refs q h := by
      intro q
      have := refs_put q h p (some { o with cnt := o.cnt - 1 })
      rw [hg] at this
      simp only [refsOf] at this
      omega
    obtain ⟨h', e, c, s⟩ := ih (by
      intro q
      rw [get_put, hrefs q]
      by_cases hqp : q = p
      · subst hqp
        rw [if_pos rfl]
        simp only
        omega
      · rw [if_neg hqp]
        have hq := hc q
        rw [List.cons_append, List.count_cons_of_ne (by simpa using fun h => hqp h.symm)] at hq
        exact hq)
    refine ⟨h', e, c, Sub.trans ?_ s⟩
    intro q o' ho'
    rw [get_put] at ho'
    by_cases hqp : q = p
    · rw [if_pos hqp] at ho'
      simp only [Option.some.injEq] at ho'
      subst ho'
      exact ⟨o, hqp ▸ hg, rfl, rfl⟩
    · rw [if_neg hqp] at ho'; exact ⟨o', ho', rfl, rfl⟩

/-! ## Steps and consistency -/

theorem count_set (x y : Option Nat) : ∀ (l : List (Option Nat)) (d : Nat) (old : Option Nat), l[d]? = some old →
    (l.set d x).count y + (if old = y then 1 else 0) = l.count y + (if x = y then 1 else 0)
  | [], d, old, h => by simp at h
  | z :: l, 0, old, h => by
    have : z = old := by simpa using h
    subst this
    simp only [List.set_cons_zero, List.count_cons, beq_iff_eq]
    omega
  | z :: l, d + 1, old, h => by
    have := count_set x y l d old (by simpa using h)
    simp only [List.set_cons_succ, List.count_cons]
    omega

theorem store_ok {h : Heap L} {vars : List (Option Nat)} {p : Option Nat} (hc : Consistent h (p :: vars)) {d : Nat}
    (hd : d < vars.length) :
    ∃ h', store h vars d p = some { heap := h', vars := vars.set d p } ∧ Consistent h' (vars.set d p) ∧ Sub h h' := by
  have hold : vars[d]? = some vars[d] := List.getElem?_eq_getElem hd
  obtain ⟨h', e, c, s⟩ := release_ok (vars := vars.set d p) h [vars[d]] (hc.congr (fun q => by
    have := count_set p (some q) vars d _ hold
    simp only [List.count_cons, List.cons_append, List.nil_append, beq_iff_eq] at this ⊢
    omega))
  exact ⟨h', by rw [store, hold]; simp [e], c, s⟩

/-- The variables and elements that a command names exist. -/
def Valid (s : St L) : Cmd L → Prop
  | .declare => True
  | .leave => s.vars ≠ []
  | .reset d => d < s.vars.length
  | .assign d j => d < s.vars.length ∧ j < s.vars.length
  | .create d _ ss => d < s.vars.length ∧ ∀ j ∈ ss, j < s.vars.length
  | .child d j i => d < s.vars.length ∧ ∃ p o, s.vars[j]? = some (some p) ∧ get s.heap p = some o ∧ i < o.cs.length
  | .setElem d i j => j < s.vars.length ∧ ∃ p o, s.vars[d]? = some (some p) ∧ get s.heap p = some o ∧ i < o.cs.length
  | .append d _ j => j < s.vars.length ∧ ∃ p, s.vars[d]? = some (some p)

/-- `new` returns an address that is not in use. -/
def Fresh (a : Nat) (s : St L) : Cmd L → Prop
  | .create _ _ _ => get s.heap a = none
  | _ => True

theorem mapM_vars {α : Type} (l : List α) : ∀ (ss : List Nat), (∀ j ∈ ss, j < l.length) →
    ∃ ps, ss.mapM (fun j => l[j]?) = some ps ∧ (∀ p ∈ ps, p ∈ l)
  | [], _ => ⟨[], rfl, by simp⟩
  | j :: ss, h => by
    obtain ⟨ps, e, hm⟩ := mapM_vars l ss (fun i hi => h i (by simp [hi]))
    have hj := h j (by simp)
    refine ⟨l[j] :: ps, ?_, ?_⟩
    · rw [List.mapM_cons, e, List.getElem?_eq_getElem hj]; rfl
    · intro p hp
      rcases List.mem_cons.1 hp with rfl | hp
      · exact List.getElem_mem hj
      · exact hm p hp

theorem put_new_ok {h : Heap L} {vars ps : List (Option Nat)} {a : Nat} (l : L) (hc : Consistent h (ps ++ vars))
    (ha : get h a = none) : Consistent (put h a (some { lbl := l, cs := ps, cnt := 1 })) (some a :: vars) := by
  have h0 := hc a
  rw [ha] at h0
  simp only [List.count_append] at h0
  intro q
  have h1 := refs_put q h a (some { lbl := l, cs := ps, cnt := 1 })
  rw [ha] at h1
  simp only [refsOf] at h1
  rw [get_put]
  by_cases hq : q = a
  · subst hq
    simp only [if_pos, List.count_cons_self]
    omega
  · rw [if_neg hq, List.count_cons_of_ne (by simpa using fun h => hq h.symm)]
    have := hc q
    simp only [List.count_append] at this
    cases hg : get h q with
    | none => rw [hg] at this; simp only at this ⊢; omega
    | some o => rw [hg] at this; simp only at this ⊢; omega

/-- Writing a counted pointer into a node. -/
theorem put_elem_ok {h : Heap L} {vars : List (Option Nat)} {c old : Option Nat} {p i : Nat} {o : Obj L}
    (hc : Consistent h (c :: vars)) (hg : get h p = some o) (hi : o.cs[i]? = some old) :
    Consistent (put h p (some { o with cs := o.cs.set i c })) ([old] ++ vars) := by
  intro q
  have h1 := refs_put q h p (some { o with cs := o.cs.set i c })
  rw [hg] at h1
  simp only [refsOf] at h1
  have h2 := count_set c (some q) o.cs i old hi
  have h3 := hc q
  rw [get_put]
  simp only [List.count_cons, List.cons_append, List.nil_append, beq_iff_eq] at h3 ⊢
  by_cases hq : q = p
  · subst hq
    rw [hg] at h3
    simp only [if_pos] at h3 ⊢
    omega
  · rw [if_neg hq]
    cases hgq : get h q with
    | none => rw [hgq] at h3; simp only at h3 ⊢; omega
    | some o' => rw [hgq] at h3; simp only at h3 ⊢; omega

theorem put_append_ok {h : Heap L} {vars : List (Option Nat)} {c : Option Nat} {p : Nat} {o : Obj L} (l : L)
    (hc : Consistent h (c :: vars)) (hg : get h p = some o) :
    Consistent (put h p (some { o with lbl := l, cs := o.cs ++ [c] })) vars := by
  intro q
  have h1 := refs_put q h p (some { o with lbl := l, cs := o.cs ++ [c] })
  rw [hg] at h1
  simp only [refsOf, List.count_append, List.count_cons, List.count_nil, beq_iff_eq] at h1
  have h3 := hc q
  rw [get_put]
  simp only [List.count_cons, beq_iff_eq] at h3
  by_cases hq : q = p
  · subst hq
    rw [hg] at h3
    simp only [if_pos] at h3 ⊢
    omega
  · rw [if_neg hq]
    cases hgq : get h q with
    | none => rw [hgq] at h3; simp only at h3 ⊢; omega
    | some o' => rw [hgq] at h3; simp only at h3 ⊢; omega

theorem retain_var {s : St L} (hc : Consistent s.heap s.vars) {j : Nat} (hj : j < s.vars.length) :
    ∃ h', retain s.heap s.vars[j] = some h' ∧ Consistent h' (s.vars[j] :: s.vars) ∧ Sub s.heap h' ∧ Sub h' s.heap ∧
      (∀ p, refs p h' = refs p s.heap) :=
  retain_ok hc _ (fun p hp => by
    have := List.count_pos_iff.2 (hp ▸ List.getElem_mem hj)
    omega)

/-- What a step does to the memory, in terms of the operations above. -/
theorem exec_ok (a : Nat) (s : St L) (c : Cmd L) (hc : Consistent s.heap s.vars) (hf : Fresh a s c) (hv : Valid s c) :
    ∃ s', exec a s c = some s' ∧ Consistent s'.heap s'.vars := by
  cases c with
  | declare => exact ⟨_, rfl, hc.congr (fun p => by simp)⟩
  | leave =>
    have hne : s.vars ≠ [] := hv
    obtain ⟨h', e, c, -⟩ := release_ok (vars := s.vars.dropLast) s.heap [s.vars.getLast hne] (hc.congr (fun p => by
      conv_lhs => rw [← List.dropLast_concat_getLast hne]
      simp only [List.count_append]
      omega))
    exact ⟨_, by simp [exec, List.getLast?_eq_some_getLast hne, e]; rfl, c⟩
  | reset d =>
    obtain ⟨h', e, c, -⟩ := store_ok (p := none) (hc.congr (fun p => by simp)) hv
    exact ⟨_, e, c⟩
  | assign d j =>
    obtain ⟨hd, hj⟩ := hv
    obtain ⟨h1, e1, c1, -⟩ := retain_var hc hj
    obtain ⟨h2, e2, c2, -⟩ := store_ok c1 hd
    exact ⟨_, by simp [exec, List.getElem?_eq_getElem hj, e1, e2]; rfl, c2⟩
  | create d l ss =>
    obtain ⟨hd, hs⟩ := hv
    obtain ⟨ps, e0, hm⟩ := mapM_vars s.vars ss hs
    obtain ⟨h1, e1, c1, s1, -⟩ := retainAll_ok ps [] (by simpa using hc) (fun p hp => hm _ hp)
    have ha : get h1 a = none := by
      cases hg : get h1 a with
      | none => rfl
      | some o' =>
        obtain ⟨o, ho, -⟩ := s1 a o' hg
        rw [show get s.heap a = none from hf] at ho; cases ho
    obtain ⟨h2, e2, c2, -⟩ := store_ok (put_new_ok l (by simpa using c1) ha) hd
    exact ⟨_, by simp [exec, e0, e1, e2]; rfl, c2⟩
  | child d j i =>
    obtain ⟨hd, p, o, hj, hg, hi⟩ := hv
    obtain ⟨h1, e1, c1, -⟩ := retain_ok hc o.cs[i] (fun q hq => by
      have := refs_pos hg (hq ▸ List.getElem_mem hi)
      omega)
    obtain ⟨h2, e2, c2, -⟩ := store_ok c1 hd
    exact ⟨_, by simp [exec, hj, hg, List.getElem?_eq_getElem hi, e1, e2]; rfl, c2⟩
  | setElem d i j =>
    obtain ⟨hj, p, o, hd, hg, hi⟩ := hv
    obtain ⟨h1, e1, c1, s1, s1', -⟩ := retain_var hc hj
    obtain ⟨o1, g1, hl, hcs⟩ := s1' p o hg
    have hi1 : o1.cs[i]? = some o.cs[i] := by rw [hcs, List.getElem?_eq_getElem hi]
    obtain ⟨h2, e2, c2, -⟩ := release_ok _ _ (put_elem_ok c1 g1 hi1)
    exact ⟨{ s with heap := h2 }, by simp [exec, hd, List.getElem?_eq_getElem hj, e1, g1, hi1, e2], c2⟩
  | append d l j =>
    obtain ⟨hj, p, hd⟩ := hv
    obtain ⟨h1, e1, c1, s1, s1', -⟩ := retain_var hc hj
    obtain ⟨o, hg, -⟩ := hc.of_mem (p := p) (List.mem_of_getElem? hd)
    obtain ⟨o1, g1, hl, hcs⟩ := s1' p o hg
    exact ⟨_, by simp [exec, hd, List.getElem?_eq_getElem hj, e1, g1]; rfl, put_append_ok l c1 g1⟩

/-! ## Values -/

mutual
/-- The tree that a pointer stands for. -/
inductive Den (h : Heap L) : Option Nat → T L → Prop
  | null : Den h none .null
  | node {p : Nat} {o : Obj L} {ts : List (T L)} : get h p = some o → DenL h o.cs ts → Den h (some p) (.node o.lbl ts)
/-- The trees of several pointers. -/
inductive DenL (h : Heap L) : List (Option Nat) → List (T L) → Prop
  | nil : DenL h [] []
  | cons {p : Option Nat} {ps : List (Option Nat)} {t : T L} {ts : List (T L)} :
    Den h p t → DenL h ps ts → DenL h (p :: ps) (t :: ts)
end

theorem DenL.length {h : Heap L} : ∀ {ps : List (Option Nat)} {ts : List (T L)}, DenL h ps ts → ps.length = ts.length
  | _, _, .nil => rfl
  | _, _, .cons _ hs => by simp [DenL.length hs]

theorem DenL.get {h : Heap L} : ∀ {ps : List (Option Nat)} {ts : List (T L)}, DenL h ps ts →
    ∀ {i : Nat} {p : Option Nat}, ps[i]? = some p → ∃ t, ts[i]? = some t ∧ Den h p t
  | _, _, .nil, i, p, hp => by simp at hp
  | _, _, .cons (t := t) hd hs, 0, p, hp => by
    simp only [List.getElem?_cons_zero, Option.some.injEq] at hp
    subst hp
    exact ⟨t, by simp, hd⟩
  | _, _, .cons hd hs, i + 1, p, hp => by
    obtain ⟨t, ht, hd'⟩ := hs.get (i := i) (by simpa using hp)
    exact ⟨t, by simpa using ht, hd'⟩

theorem DenL.get' {h : Heap L} {ps : List (Option Nat)} {ts : List (T L)} (hd : DenL h ps ts) {i : Nat} {t : T L}
    (ht : ts[i]? = some t) : ∃ p, ps[i]? = some p ∧ Den h p t := by
  have hi : i < ts.length := (List.getElem?_eq_some_iff.1 ht).1
  have hi' : i < ps.length := by rw [hd.length]; exact hi
  obtain ⟨t', ht', hd'⟩ := hd.get (List.getElem?_eq_getElem hi')
  rw [ht] at ht'
  cases ht'
  exact ⟨_, List.getElem?_eq_getElem hi', hd'⟩

theorem DenL.set {h : Heap L} {p : Option Nat} {t : T L} (hp : Den h p t) : ∀ {ps : List (Option Nat)} {ts : List (T L)},
    DenL h ps ts → ∀ (i : Nat), DenL h (ps.set i p) (ts.set i t)
  | _, _, .nil, i => by simpa using DenL.nil
  | _, _, .cons hd hs, 0 => .cons hp hs
  | _, _, .cons hd hs, i + 1 => .cons hd (hs.set hp i)

theorem DenL.concat {h : Heap L} {p : Option Nat} {t : T L} (hp : Den h p t) : ∀ {ps : List (Option Nat)} {ts : List (T L)},
    DenL h ps ts → DenL h (ps ++ [p]) (ts ++ [t])
  | _, _, .nil => .cons hp .nil
  | _, _, .cons hd hs => .cons hd (hs.concat hp)

theorem DenL.dropLast {h : Heap L} : ∀ {ps : List (Option Nat)} {ts : List (T L)},
    DenL h ps ts → DenL h ps.dropLast ts.dropLast
  | _, _, .nil => .nil
  | _, _, .cons _ .nil => .nil
  | _, _, .cons hd (.cons hd' hs) => by
    have := (DenL.cons hd' hs).dropLast
    simpa using DenL.cons hd this

mutual
/-- A pointer stands for one tree only. -/
theorem Den.unique {h : Heap L} : ∀ {p : Option Nat} {t u : T L}, Den h p t → Den h p u → t = u
  | _, _, _, .null, .null => rfl
  | _, _, _, .node hg hs, .node hg' hs' => by
    rw [hg] at hg'
    cases hg'
    rw [hs.unique hs']
theorem DenL.unique {h : Heap L} : ∀ {p : List (Option Nat)} {t u : List (T L)}, DenL h p t → DenL h p u → t = u
  | _, _, _, .nil, .nil => rfl
  | _, _, _, .cons hd hs, .cons hd' hs' => by rw [hd.unique hd', hs.unique hs']
end

/-- Every pointer in a node leads to a node. -/
def Closed (h : Heap L) : Prop := ∀ q o p, get h q = some o → some p ∈ o.cs → ∃ o', get h p = some o'

theorem Consistent.closed {h : Heap L} {roots : List (Option Nat)} (hc : Consistent h roots) : Closed h :=
  fun _ _ _ hg hp => (hc.child hg hp).imp fun _ h => h.1

mutual
theorem Den.shrink {h h' : Heap L} (hs : Sub h h') (hc : Closed h') : ∀ {p : Option Nat} {t : T L}, Den h p t →
    (∀ q, p = some q → ∃ o, Sh.get h' q = some o) → Den h' p t
  | _, _, .null, _ => .null
  | _, _, .node (p := p) (o := o) hg hd, hl => by
    obtain ⟨o', ho'⟩ := hl p rfl
    obtain ⟨o2, ho2, hlbl, hcs⟩ := hs p o' ho'
    rw [hg] at ho2
    cases ho2
    rw [hlbl]
    exact .node ho' (hcs ▸ hd.shrink hs hc (fun q hq => hc p o' q ho' (hcs ▸ hq)))
theorem DenL.shrink {h h' : Heap L} (hs : Sub h h') (hc : Closed h') : ∀ {ps : List (Option Nat)} {ts : List (T L)},
    DenL h ps ts → (∀ q, some q ∈ ps → ∃ o, Sh.get h' q = some o) → DenL h' ps ts
  | _, _, .nil, _ => .nil
  | _, _, .cons hd hds, hl => .cons (hd.shrink hs hc (fun q hq => hl q (by simp [hq])))
      (hds.shrink hs hc (fun q hq => hl q (by simp [hq])))
end

mutual
/-- Changing a node that no node points to does not change the other trees. -/
theorem Den.frame {h : Heap L} {a : Nat} (ha : refs a h = 0) (x : Option (Obj L)) : ∀ {p : Option Nat} {t : T L}, Den h p t →
    p ≠ some a → Den (put h a x) p t
  | _, _, .null, _ => .null
  | _, _, .node (p := p) (o := o) hg hd, hne => by
    have hpa : p ≠ a := fun h => hne (by rw [h])
    refine .node (by rw [get_put, if_neg hpa]; exact hg) (hd.frame ha x ?_)
    intro hm
    have := refs_pos hg hm
    omega
theorem DenL.frame {h : Heap L} {a : Nat} (ha : refs a h = 0) (x : Option (Obj L)) : ∀ {ps : List (Option Nat)}
    {ts : List (T L)}, DenL h ps ts → some a ∉ ps → DenL (put h a x) ps ts
  | _, _, .nil, _ => .nil
  | _, _, .cons hd hds, hl => .cons (hd.frame ha x (fun h => hl (by simp [h]))) (hds.frame ha x (fun h => hl (by simp [h])))
end

/-- The state `s` represents the trees `vs`: the counts are right, the variables stand for the trees, and every node in memory
stands for a tree (there is no cycle). -/
structure Rep (s : St L) (vs : List (T L)) : Prop where
  counts : Consistent s.heap s.vars
  vars : DenL s.heap s.vars vs
  acyclic : ∀ p o, get s.heap p = some o → ∃ t, Den s.heap (some p) t

/-- An array or dictionary is only changed while it is under construction: nothing else points to it, and it is not put into itself. -/
def Exclusive (s : St L) : Cmd L → Prop
  | .setElem d _ j => d ≠ j ∧ ∀ p o, s.vars[d]? = some (some p) → get s.heap p = some o → o.cnt = 1
  | .append d _ j => d ≠ j ∧ ∀ p o, s.vars[d]? = some (some p) → get s.heap p = some o → o.cnt = 1
  | _ => True

theorem all_shrink {h h' : Heap L} (hs : Sub h h') (hc : Closed h')
    (ha : ∀ p o, get h p = some o → ∃ t, Den h (some p) t) : ∀ p o, get h' p = some o → ∃ t, Den h' (some p) t := by
  intro p o' ho'
  obtain ⟨o, ho, -, -⟩ := hs p o' ho'
  obtain ⟨t, ht⟩ := ha p o ho
  exact ⟨t, ht.shrink hs hc (fun q hq => by cases hq; exact ⟨o', ho'⟩)⟩

/-- After a store: from the memory `h` before it, in which `p` is counted once more. -/
theorem store_rep {h : Heap L} {vars : List (Option Nat)} {p : Option Nat} {vs : List (T L)} {t : T L}
    (hc : Consistent h (p :: vars)) (hv : DenL h vars vs) (hp : Den h p t)
    (ha : ∀ p o, get h p = some o → ∃ t, Den h (some p) t) {d : Nat} (hd : d < vars.length) :
    ∃ s', store h vars d p = some s' ∧ Rep s' (vs.set d t) := by
  obtain ⟨h', e, c, s⟩ := store_ok hc hd
  refine ⟨_, e, c, ?_, all_shrink s c.closed ha⟩
  exact (hv.set hp d).shrink s c.closed (fun q hq => (c.of_mem hq).imp fun _ h => h.1)

theorem mapM_den {h : Heap L} {vars : List (Option Nat)} {vs : List (T L)} (hv : DenL h vars vs) : ∀ (ss : List Nat)
    (ts : List (T L)), ss.mapM (fun j => vs[j]?) = some ts → ∃ ps, ss.mapM (fun j => vars[j]?) = some ps ∧ DenL h ps ts ∧
      (∀ p ∈ ps, p ∈ vars)
  | [], ts, h => by
    have : ts = [] := by simpa using h.symm
    subst this
    exact ⟨[], rfl, .nil, by simp⟩
  | j :: ss, ts, h => by
    rw [List.mapM_cons] at h
    cases hj : vs[j]? with
    | none => rw [hj] at h; cases h
    | some t =>
      cases hs : ss.mapM (fun j => vs[j]?) with
      | none => rw [hj, hs] at h; cases h
      | some ts' =>
        rw [hj, hs] at h
        have : ts = t :: ts' := by simpa using h.symm
        subst this
        obtain ⟨ps, e, hd, hm⟩ := mapM_den hv ss ts' hs
        obtain ⟨p, hp, hd'⟩ := hv.get' hj
        refine ⟨p :: ps, by rw [List.mapM_cons, hp, e]; rfl, .cons hd' hd, ?_⟩
        intro q hq
        rcases List.mem_cons.1 hq with rfl | hq
        · exact List.mem_of_getElem? hp
        · exact hm q hq

theorem mapM_none {α β : Type} (vars : List α) (vs : List β) (hl : vars.length = vs.length) : ∀ (ss : List Nat),
    ss.mapM (fun j => vs[j]?) = none → ss.mapM (fun j => vars[j]?) = none
  | [], h => by simp at h
  | j :: ss, h => by
    rw [List.mapM_cons] at h ⊢
    cases hj : vs[j]? with
    | none =>
      have : vars[j]? = none := by rw [List.getElem?_eq_none_iff] at hj ⊢; omega
      rw [this]; rfl
    | some t =>
      rw [hj] at h
      have hj' := (List.getElem?_eq_some_iff.1 hj).1
      cases hs : ss.mapM (fun j => vs[j]?) with
      | none =>
        rw [mapM_none vars vs hl ss hs, List.getElem?_eq_getElem (by omega)]; rfl
      | some ts' => rw [hs] at h; cases h

theorem only_at {l : List (Option Nat)} {a d : Nat} (hc : l.count (some a) ≤ 1) (hd : l[d]? = some (some a)) {i : Nat}
    (hi : l[i]? = some (some a)) : i = d := by
  by_contra hne
  have h1 := count_set none (some a) l d _ hd
  have h2 : (l.set d none)[i]? = some (some a) := by rw [List.getElem?_set_ne (fun h => hne h.symm)]; exact hi
  have := List.count_pos_iff.2 (List.mem_of_getElem? h2)
  simp at h1
  omega

theorem DenL.frameAt {h : Heap L} {a : Nat} (ha : refs a h = 0) (x : Option (Obj L)) {t' : T L}
    (ht : Den (put h a x) (some a) t') : ∀ {ps : List (Option Nat)} {ts : List (T L)} {d : Nat}, DenL h ps ts →
    ps[d]? = some (some a) → (∀ i, ps[i]? = some (some a) → i = d) → DenL (put h a x) ps (ts.set d t')
  | _, _, d, .nil, hd, _ => by simp at hd
  | _, _, 0, .cons (p := p) hd hds, h0, hu => by
    have hp : p = some a := by simpa using h0
    subst hp
    refine .cons ht (hds.frame ha x ?_)
    intro hm
    obtain ⟨i, hi⟩ := List.mem_iff_getElem?.1 hm
    have := hu (i + 1) (by simpa using hi)
    omega
  | _, _, d + 1, .cons (p := p) hd hds, h0, hu => by
    refine .cons (hd.frame ha x ?_) (hds.frameAt ha x ht (by simpa using h0) ?_)
    · intro hp
      have := hu 0 (by simp [hp])
      omega
    · intro i hi
      have := hu (i + 1) (by simpa using hi)
      omega

theorem rep_retain {s : St L} {vs : List (T L)} (hr : Rep s vs) {h1 : Heap L} {roots : List (Option Nat)}
    (hs : Sub s.heap h1) (hs' : Sub h1 s.heap) (hc : Consistent h1 roots) :
    DenL h1 s.vars vs ∧ (∀ p o, get h1 p = some o → ∃ t, Den h1 (some p) t) := by
  refine ⟨hr.vars.shrink hs hc.closed (fun q hq => ?_), all_shrink hs hc.closed hr.acyclic⟩
  obtain ⟨o, ho, -⟩ := hr.counts.of_mem hq
  obtain ⟨o', ho', -⟩ := hs' q o ho
  exact ⟨o', ho'⟩

theorem live_of {h h' : Heap L} (hs : Sub h' h) {t : T L} {p : Option Nat} (hd : Den h p t) :
    ∀ q, p = some q → ∃ o, get h' q = some o := by
  intro q hq
  cases hd with
  | null => cases hq
  | node hg hds =>
    cases hq
    obtain ⟨o', ho', -⟩ := hs q _ hg
    exact ⟨o', ho'⟩

/-- The facts about the node that `setElem` and `append` change. -/
theorem exclusive_facts {s : St L} {vs : List (T L)} (hr : Rep s vs) {d j p : Nat} {l : L} {ts : List (T L)}
    (hne : d ≠ j) (hex : ∀ p o, s.vars[d]? = some (some p) → get s.heap p = some o → o.cnt = 1)
    (hd : s.vars[d]? = some (some p)) (hden : Den s.heap (some p) (.node l ts)) {t : T L} (hj : vs[j]? = some t) :
    ∃ o h1 c, s.vars[j]? = some c ∧ retain s.heap c = some h1 ∧ get h1 p = some o ∧ o.lbl = l ∧ DenL h1 o.cs ts ∧
      Consistent h1 (c :: s.vars) ∧ DenL h1 s.vars vs ∧ (∀ q o, get h1 q = some o → ∃ t, Den h1 (some q) t) ∧
      refs p h1 = 0 ∧ (∀ i, s.vars[i]? = some (some p) → i = d) ∧ c ≠ some p ∧ Den h1 c t := by
  obtain ⟨c, hc, hdc⟩ := hr.vars.get' hj
  have hjl := (List.getElem?_eq_some_iff.1 hc).1
  have hcj : s.vars[j] = c := (List.getElem?_eq_some_iff.1 hc).2
  obtain ⟨h1, e1, c1, s1, s1', hrefs⟩ := retain_var hr.counts hjl
  rw [hcj] at e1 c1
  obtain ⟨hv1, ha1⟩ := rep_retain hr s1 s1' c1
  cases hden with
  | @node _ o _ hg hds =>
    have h1cnt := hex p o hd hg
    have hcnt := hr.counts p
    rw [hg] at hcnt
    simp only at hcnt
    have hpos := List.count_pos_iff.2 (List.mem_of_getElem? hd)
    have hr0 : refs p s.heap = 0 := by omega
    have hu : ∀ i, s.vars[i]? = some (some p) → i = d := fun i hi => only_at (by omega) hd hi
    obtain ⟨o1, g1, hl1, hcs1⟩ := s1' p o hg
    refine ⟨o1, h1, c, hc, e1, g1, hl1, ?_, c1, hv1, ha1, by rw [hrefs]; exact hr0, hu, ?_, ?_⟩
    · rw [hcs1]
      refine hds.shrink s1 c1.closed (fun q hq => ?_)
      obtain ⟨o', ho', -⟩ := c1.child g1 (hcs1 ▸ hq)
      exact ⟨o', ho'⟩
    · intro h
      exact hne (hu j (by rw [hc, h])).symm
    · exact hdc.shrink s1 c1.closed (live_of s1' hdc)

theorem acyclic_put {h1 : Heap L} {p : Nat} (h0 : refs p h1 = 0) (x : Obj L) {t' : T L}
    (ht : Den (put h1 p (some x)) (some p) t') (ha1 : ∀ q o, get h1 q = some o → ∃ t, Den h1 (some q) t) :
    ∀ q o, get (put h1 p (some x)) q = some o → ∃ t, Den (put h1 p (some x)) (some q) t := by
  intro q o hq
  by_cases hqp : q = p
  · exact ⟨t', hqp ▸ ht⟩
  · rw [get_put, if_neg hqp] at hq
    obtain ⟨t, hd⟩ := ha1 q o hq
    exact ⟨t, hd.frame h0 _ (by simpa using hqp)⟩

/-- One step on shared memory is one step on trees. -/
theorem step_rep (a : Nat) (s : St L) (vs : List (T L)) (c : Cmd L) (hr : Rep s vs) (hf : Fresh a s c) (hx : Exclusive s c) :
    match step vs c with
    | some vs' => ∃ s', exec a s c = some s' ∧ Rep s' vs'
    | none => exec a s c = none := by
  have hlen : s.vars.length = vs.length := hr.vars.length
  cases c with
  | declare =>
    simp only [step]
    exact ⟨_, rfl, hr.counts.congr (fun p => by simp), hr.vars.concat .null, hr.acyclic⟩
  | leave =>
    simp only [step]
    split
    · rename_i vs' h
      split at h
      · cases h
      · rename_i hne
        simp only [Option.some.injEq] at h
        subst h
        have hne' : s.vars ≠ [] := by
          intro h0; rw [h0] at hlen; exact hne (List.length_eq_zero_iff.1 hlen.symm)
        obtain ⟨h', e, c, s'⟩ := release_ok (vars := s.vars.dropLast) s.heap [s.vars.getLast hne'] (hr.counts.congr (fun p => by
          conv_lhs => rw [← List.dropLast_concat_getLast hne']
          simp only [List.count_append]
          omega))
        refine ⟨_, by simp [exec, List.getLast?_eq_some_getLast hne', e]; rfl, c, ?_, all_shrink s' c.closed hr.acyclic⟩
        exact hr.vars.dropLast.shrink s' c.closed (fun q hq => (c.of_mem hq).imp fun _ h => h.1)
    · rename_i h
      split at h
      · rename_i h0
        rw [h0] at hlen
        have : s.vars = [] := List.length_eq_zero_iff.1 (by simpa using hlen)
        simp [exec, this]
      · cases h
  | reset d =>
    simp only [step]
    by_cases hd : d < vs.length
    · rw [if_pos hd]
      exact store_rep (hr.counts.congr (fun p => by simp)) hr.vars .null hr.acyclic (by omega)
    · rw [if_neg hd]
      simp only [exec, store]
      rw [List.getElem?_eq_none (by omega)]; rfl
  | assign d j =>
    simp only [step]
    cases hj : vs[j]? with
    | none =>
      have : s.vars[j]? = none := by rw [List.getElem?_eq_none_iff] at hj ⊢; omega
      simp [exec, this]
    | some t =>
      obtain ⟨p, hp, hdp⟩ := hr.vars.get' hj
      obtain ⟨hjl, hpj⟩ := List.getElem?_eq_some_iff.1 hp
      obtain ⟨h1, e1, c1, s1, s1', -⟩ := retain_var hr.counts hjl
      rw [hpj] at e1 c1
      obtain ⟨hv1, ha1⟩ := rep_retain hr s1 s1' c1
      by_cases hd : d < vs.length
      · obtain ⟨s', e, hr'⟩ := store_rep c1 hv1 (hdp.shrink s1 c1.closed (live_of s1' hdp)) ha1 (d := d) (by omega)
        simp only [Option.bind_eq_bind, Option.bind_some, if_pos hd]
        exact ⟨s', by simp [exec, hp, e1, e], hr'⟩
      · simp only [Option.bind_eq_bind, Option.bind_some, if_neg hd]
        simp only [exec, store, hp, e1, Option.bind_eq_bind, Option.bind_some]
        rw [List.getElem?_eq_none (by omega)]; rfl
  | create d l ss =>
    simp only [step]
    cases hts : ss.mapM (fun j => vs[j]?) with
    | none =>
      have := mapM_none s.vars vs hlen ss hts
      simp [exec, this]
    | some ts =>
      obtain ⟨ps, e0, hds, hm⟩ := mapM_den hr.vars ss ts hts
      obtain ⟨h1, e1, c1, s1, s1'⟩ := retainAll_ok ps [] (by simpa using hr.counts) (fun p hp => hm _ hp)
      have ha : get h1 a = none := by
        cases hg : get h1 a with
        | none => rfl
        | some o' =>
          obtain ⟨o, ho, -⟩ := s1 a o' hg
          rw [show get s.heap a = none from hf] at ho; cases ho
      obtain ⟨hv1, ha1⟩ := rep_retain hr s1 s1' c1
      have h0 := c1 a
      rw [ha] at h0
      simp only [List.count_append] at h0
      have hr0 : refs a h1 = 0 := by omega
      have hvar : some a ∉ s.vars := fun hm => by have := List.count_pos_iff.2 hm; omega
      have hps : some a ∉ ps := fun hm => by have := List.count_pos_iff.2 hm; omega
      have hds1 : DenL h1 ps ts := hds.shrink s1 c1.closed (fun q hq => by
        obtain ⟨o, ho, -⟩ := c1.of_mem (p := q) (by simp [hq]); exact ⟨o, ho⟩)
      have hnew : Den (put h1 a (some { lbl := l, cs := ps, cnt := 1 })) (some a) (.node l ts) :=
        Den.node (o := { lbl := l, cs := ps, cnt := 1 }) (by rw [get_put, if_pos rfl]) (hds1.frame hr0 _ hps)
      by_cases hd : d < vs.length
      · obtain ⟨s', e, hr'⟩ := store_rep (put_new_ok l (by simpa using c1) ha) (hv1.frame hr0 _ hvar) hnew
          (acyclic_put hr0 _ hnew ha1) (d := d) (by omega)
        simp only [Option.bind_eq_bind, Option.bind_some, if_pos hd]
        exact ⟨s', by simp [exec, e0, e1, e], hr'⟩
      · simp only [Option.bind_eq_bind, Option.bind_some, if_neg hd]
        simp only [exec, store, e0, e1, Option.bind_eq_bind, Option.bind_some]
        rw [List.getElem?_eq_none (by omega)]; rfl
  | child d j i =>
    simp only [step]
    cases hj : vs[j]? with
    | none =>
      have : s.vars[j]? = none := by rw [List.getElem?_eq_none_iff] at hj ⊢; omega
      simp [exec, this]
    | some t =>
      obtain ⟨p, hp, hdp⟩ := hr.vars.get' hj
      cases hdp with
      | null => simp [exec, hp]
      | @node p o ts hg hds =>
        simp only
        cases hi : ts[i]? with
        | none =>
          have : o.cs[i]? = none := by
            have := hds.length
            rw [List.getElem?_eq_none_iff] at hi ⊢; omega
          simp [exec, hp, hg, this]
        | some t =>
          obtain ⟨c, hc, hdc⟩ := hds.get' hi
          obtain ⟨h1, e1, c1, s1, s1', -⟩ := retain_ok hr.counts c (fun q hq => by
            have := refs_pos hg (hq ▸ List.mem_of_getElem? hc)
            omega)
          obtain ⟨hv1, ha1⟩ := rep_retain hr s1 s1' c1
          by_cases hd : d < vs.length
          · obtain ⟨s', e, hr'⟩ := store_rep c1 hv1 (hdc.shrink s1 c1.closed (live_of s1' hdc)) ha1 (d := d) (by omega)
            simp only [Option.bind_eq_bind, Option.bind_some, if_pos hd]
            exact ⟨s', by simp [exec, hp, hg, hc, e1, e], hr'⟩
          · simp only [Option.bind_eq_bind, Option.bind_some, if_neg hd]
            simp only [exec, store, hp, hg, hc, e1, Option.bind_eq_bind, Option.bind_some, Option.join_some]
            rw [List.getElem?_eq_none (by omega)]; rfl
  | setElem d i j =>
    obtain ⟨hne, hex⟩ := hx
    simp only [step]
    cases hd : vs[d]? with
    | none =>
      have : s.vars[d]? = none := by rw [List.getElem?_eq_none_iff] at hd ⊢; omega
      simp [exec, this]
    | some t0 =>
      obtain ⟨p, hp, hdp⟩ := hr.vars.get' hd
      cases t0 with
      | null =>
        cases hdp
        simp [exec, hp]
      | node l ts =>
        obtain ⟨p, rfl⟩ : ∃ q, p = some q := by cases hdp; exact ⟨_, rfl⟩
        simp only
        cases hj : vs[j]? with
        | none =>
          have : s.vars[j]? = none := by rw [List.getElem?_eq_none_iff] at hj ⊢; omega
          simp [exec, hp, this]
        | some t =>
          obtain ⟨o, h1, c, hc, e1, g1, hl1, hds1, c1, hv1, ha1, hr0, hu, hcp, hdc⟩ := exclusive_facts hr hne hex hp hdp hj
          simp only [Option.bind_eq_bind, Option.bind_some]
          by_cases hi : i < ts.length
          · rw [if_pos hi]
            have hi' : i < o.cs.length := by rw [hds1.length]; exact hi
            have hold := List.getElem?_eq_getElem hi'
            have hmem : some p ∉ o.cs.set i c := by
              intro hm
              rcases List.mem_or_eq_of_mem_set hm with hm | hm
              · have := refs_pos g1 hm; omega
              · exact hcp hm.symm
            have hnew : Den (put h1 p (some { o with cs := o.cs.set i c })) (some p) (.node l (ts.set i t)) := by
              rw [← hl1]
              exact Den.node (o := { o with cs := o.cs.set i c }) (by rw [get_put, if_pos rfl])
                ((hds1.set hdc i).frame hr0 _ hmem)
            obtain ⟨h2, e2, c2, s2⟩ := release_ok _ _ (put_elem_ok c1 g1 hold)
            refine ⟨{ s with heap := h2 }, by simp [exec, hp, hc, e1, g1, hold, e2], c2, ?_,
              all_shrink s2 c2.closed (acyclic_put hr0 _ hnew ha1)⟩
            exact (hv1.frameAt hr0 _ hnew hp hu).shrink s2 c2.closed (fun q hq => (c2.of_mem hq).imp fun _ h => h.1)
          · rw [if_neg hi]
            have : o.cs[i]? = none := List.getElem?_eq_none (by rw [hds1.length]; omega)
            simp [exec, hp, hc, e1, g1, this]
  | append d l' j =>
    obtain ⟨hne, hex⟩ := hx
    simp only [step]
    cases hd : vs[d]? with
    | none =>
      have : s.vars[d]? = none := by rw [List.getElem?_eq_none_iff] at hd ⊢; omega
      simp [exec, this]
    | some t0 =>
      obtain ⟨p, hp, hdp⟩ := hr.vars.get' hd
      cases t0 with
      | null =>
        cases hdp
        simp [exec, hp]
      | node l ts =>
        obtain ⟨p, rfl⟩ : ∃ q, p = some q := by cases hdp; exact ⟨_, rfl⟩
        simp only
        cases hj : vs[j]? with
        | none =>
          have : s.vars[j]? = none := by rw [List.getElem?_eq_none_iff] at hj ⊢; omega
          simp [exec, hp, this]
        | some t =>
          obtain ⟨o, h1, c, hc, e1, g1, hl1, hds1, c1, hv1, ha1, hr0, hu, hcp, hdc⟩ := exclusive_facts hr hne hex hp hdp hj
          simp only [Option.bind_eq_bind, Option.bind_some]
          have hmem : some p ∉ o.cs ++ [c] := by
            intro hm
            rcases List.mem_append.1 hm with hm | hm
            · have := refs_pos g1 hm; omega
            · exact hcp (List.mem_singleton.1 hm).symm
          have hnew : Den (put h1 p (some { o with lbl := l', cs := o.cs ++ [c] })) (some p) (.node l' (ts ++ [t])) :=
            Den.node (o := { o with lbl := l', cs := o.cs ++ [c] }) (by rw [get_put, if_pos rfl])
              ((hds1.concat hdc).frame hr0 _ hmem)
          exact ⟨_, by simp [exec, hp, hc, e1, g1]; rfl, put_append_ok l' c1 g1, hv1.frameAt hr0 _ hnew hp hu,
            acyclic_put hr0 _ hnew ha1⟩

/-! ## Histories -/

/-- A history: the commands, each with the address that `new` returns in it. -/
def run : List (Nat × Cmd L) → St L → Option (St L)
  | [], s => some s
  | (a, c) :: cs, s => do
    let s' ← exec a s c
    run cs s'

/-- The same on trees. -/
def steps : List (Nat × Cmd L) → List (T L) → Option (List (T L))
  | [], vs => some vs
  | (_, c) :: cs, vs => do
    let vs' ← step vs c
    steps cs vs'

/-- `new` returns free memory, and arrays and dictionaries are changed only while they are under construction. -/
def Legal : List (Nat × Cmd L) → St L → Prop
  | [], _ => True
  | (a, c) :: cs, s => Fresh a s c ∧ Exclusive s c ∧ ∀ s', exec a s c = some s' → Legal cs s'

/-- The start: no variables, nothing in memory. -/
def start : St L := { heap := [], vars := [] }

theorem start_rep : Rep (start : St L) [] := by
  refine ⟨fun p => by simp [start, get, refs], .nil, ?_⟩
  intro p o hp
  simp [start, get] at hp

theorem run_rep : ∀ (cs : List (Nat × Cmd L)) (s : St L) (vs : List (T L)), Rep s vs → Legal cs s →
    match steps cs vs with
    | some vs' => ∃ s', run cs s = some s' ∧ Rep s' vs'
    | none => run cs s = none
  | [], s, vs, hr, _ => ⟨s, rfl, hr⟩
  | (a, c) :: cs, s, vs, hr, hl => by
    obtain ⟨hf, hx, hnext⟩ := hl
    have h1 := step_rep a s vs c hr hf hx
    rw [steps, run]
    cases hs : step vs c with
    | none => rw [hs] at h1; simp only at h1; simp [h1]
    | some vs' =>
      rw [hs] at h1
      obtain ⟨s', e, hr'⟩ := h1
      have := run_rep cs s' vs' hr' (hnext s' e)
      simpa [e] using this

/-- **C78**. Expressions are values: whatever a program does, every variable stands for the tree it would hold if every variable
and every node had copies of its own; and the program fails exactly if that one does (no node is used after it was destroyed). -/
theorem C78_values (cs : List (Nat × Cmd L)) (hl : Legal cs start) :
    match steps cs [] with
    | some vs => ∃ s, run cs start = some s ∧ DenL s.heap s.vars vs
    | none => run cs start = none := by
  have := run_rep cs start [] start_rep hl
  split
  · rename_i vs h
    rw [h] at this
    obtain ⟨s, e, hr⟩ := this
    exact ⟨s, e, hr.vars⟩
  · rename_i h
    rw [h] at this
    exact this

/-- The variable a command changes. -/
def Cmd.target : Cmd L → Option Nat
  | .declare => none
  | .leave => none
  | .reset d => some d
  | .assign d _ => some d
  | .create d _ _ => some d
  | .child d _ _ => some d
  | .setElem d _ _ => some d
  | .append d _ _ => some d

theorem step_other {vs vs' : List (T L)} {c : Cmd L} (h : step vs c = some vs') {k : Nat} {t : T L} (hk : vs[k]? = some t)
    (hleave : c ≠ .leave) (ht : c.target ≠ some k) : vs'[k]? = some t := by
  have hset : ∀ d (x : T L), d ≠ k → (vs.set d x)[k]? = some t := fun d x hd => by rw [List.getElem?_set_ne hd]; exact hk
  have hkl := (List.getElem?_eq_some_iff.1 hk).1
  cases c with
  | declare =>
    simp only [step, Option.some.injEq] at h
    subst h
    rw [List.getElem?_append_left hkl]; exact hk
  | leave => exact absurd rfl hleave
  | reset d =>
    simp only [step] at h
    split at h
    · cases h; exact hset _ _ (by simpa [Cmd.target] using ht)
    · cases h
  | assign d j =>
    simp only [step, Option.bind_eq_bind, Option.bind_eq_some_iff] at h
    obtain ⟨t', -, h⟩ := h
    split at h
    · cases h; exact hset _ _ (by simpa [Cmd.target] using ht)
    · cases h
  | create d l ss =>
    simp only [step, Option.bind_eq_bind, Option.bind_eq_some_iff] at h
    obtain ⟨t', -, h⟩ := h
    split at h
    · cases h; exact hset _ _ (by simpa [Cmd.target] using ht)
    · cases h
  | child d j i =>
    simp only [step] at h
    split at h
    · simp only [Option.bind_eq_bind, Option.bind_eq_some_iff] at h
      obtain ⟨t', -, h⟩ := h
      split at h
      · cases h; exact hset _ _ (by simpa [Cmd.target] using ht)
      · cases h
    · cases h
  | setElem d i j =>
    simp only [step] at h
    split at h
    · simp only [Option.bind_eq_bind, Option.bind_eq_some_iff] at h
      obtain ⟨t', -, h⟩ := h
      split at h
      · cases h; exact hset _ _ (by simpa [Cmd.target] using ht)
      · cases h
    · cases h
  | append d l j =>
    simp only [step] at h
    split at h
    · simp only [Option.bind_eq_bind, Option.bind_eq_some_iff] at h
      obtain ⟨t', -, h⟩ := h
      cases h
      exact hset _ _ (by simpa [Cmd.target] using ht)
    · cases h

/-- **C78**. An expression does not change while its variable is not assigned to, whatever is done with expressions that share
parts with it. -/
theorem C78_immutable (a : Nat) (s s' : St L) (vs : List (T L)) (c : Cmd L) (hr : Rep s vs) (hf : Fresh a s c)
    (hx : Exclusive s c) (he : exec a s c = some s') (k : Nat) (p : Option Nat) (t : T L) (hk : s.vars[k]? = some p)
    (ht : Den s.heap p t) (hleave : c ≠ .leave) (hc : c.target ≠ some k) :
    ∃ p', s'.vars[k]? = some p' ∧ Den s'.heap p' t := by
  obtain ⟨t', ht', hd'⟩ := hr.vars.get hk
  rw [ht.unique hd']
  have h1 := step_rep a s vs c hr hf hx
  cases hs : step vs c with
  | none => rw [hs] at h1; simp only at h1; rw [h1] at he; cases he
  | some vs' =>
    rw [hs] at h1
    obtain ⟨s2, e, hr'⟩ := h1
    rw [he] at e
    cases e
    exact hr'.vars.get' (step_other hs ht' hleave hc)

/-- **C78**. Every state that a program reaches represents trees (the hypothesis of C78_immutable). -/
theorem C78_reached (cs : List (Nat × Cmd L)) (hl : Legal cs start) (s : St L) (hs : run cs start = some s) :
    ∃ vs, steps cs [] = some vs ∧ Rep s vs := by
  have := run_rep cs start [] start_rep hl
  cases h : steps cs [] with
  | none => rw [h] at this; simp only at this; rw [this] at hs; cases hs
  | some vs =>
    rw [h] at this
    obtain ⟨s', e, hr⟩ := this
    rw [hs] at e
    cases e
    exact ⟨vs, rfl, hr⟩

/-! ## Memory -/

/-- What can be reached from the variables. -/
inductive Reach (s : St L) : Nat → Prop
  | var {p : Nat} : some p ∈ s.vars → Reach s p
  | child {p q : Nat} {o : Obj L} : Reach s q → get s.heap q = some o → some p ∈ o.cs → Reach s p

mutual
/-- The number of nodes of a tree. -/
def T.size : T L → Nat
  | .null => 0
  | .node _ ts => 1 + sizeList ts
def sizeList : List (T L) → Nat
  | [] => 0
  | t :: ts => t.size + sizeList ts
end

theorem size_le {t : T L} : ∀ {ts : List (T L)}, t ∈ ts → t.size ≤ sizeList ts
  | [], h => by simp at h
  | u :: ts, h => by
    rcases List.mem_cons.1 h with rfl | h
    · simp [sizeList]
    · have := size_le h
      simp [sizeList]; omega

theorem refs_src : ∀ (h : Heap L) (p : Nat), 0 < refs p h → ∃ q o, get h q = some o ∧ some p ∈ o.cs
  | [], p, h => by simp [refs] at h
  | none :: h, p, hp => by
    obtain ⟨q, o, hq, hm⟩ := refs_src h p (by simpa [refs] using hp)
    exact ⟨q + 1, o, by simpa [get] using hq, hm⟩
  | some o :: h, p, hp => by
    by_cases hm : some p ∈ o.cs
    · exact ⟨0, o, by simp [get], hm⟩
    · have : o.cs.count (some p) = 0 := List.count_eq_zero.2 hm
      obtain ⟨q, o', hq, hm'⟩ := refs_src h p (by simp only [refs] at hp; omega)
      exact ⟨q + 1, o', by simpa [get] using hq, hm'⟩

theorem size_bound (h : Heap L) : ∃ N, ∀ p t, Den h (some p) t → t.size ≤ N := by
  have : ∀ n, ∃ N, ∀ p < n, ∀ t, Den h (some p) t → t.size ≤ N := by
    intro n
    induction n with
    | zero => exact ⟨0, by omega⟩
    | succ n ih =>
      obtain ⟨N, hN⟩ := ih
      by_cases hd : ∃ t, Den h (some n) t
      · obtain ⟨t, ht⟩ := hd
        refine ⟨max N t.size, fun p hp u hu => ?_⟩
        by_cases hpn : p = n
        · subst hpn
          rw [hu.unique ht]; exact Nat.le_max_right _ _
        · exact Nat.le_trans (hN p (by omega) u hu) (Nat.le_max_left _ _)
      · refine ⟨N, fun p hp u hu => ?_⟩
        by_cases hpn : p = n
        · subst hpn; exact absurd ⟨u, hu⟩ hd
        · exact hN p (by omega) u hu
  obtain ⟨N, hN⟩ := this h.length
  refine ⟨N, fun p t ht => hN p ?_ t ht⟩
  cases ht with
  | node hg _ =>
    by_contra hp
    simp [get, List.getElem?_eq_none (Nat.not_lt.1 hp)] at hg

/-- **C78**. Nothing is leaked: every node in memory can be reached from a variable. -/
theorem C78_no_leak (s : St L) (vs : List (T L)) (hr : Rep s vs) (p : Nat) (o : Obj L) (hp : get s.heap p = some o) :
    Reach s p := by
  obtain ⟨N, hN⟩ := size_bound s.heap
  have key : ∀ n p o t, get s.heap p = some o → Den s.heap (some p) t → N - t.size = n → Reach s p := by
    intro n
    induction n using Nat.strongRecOn with
    | _ n ih =>
      intro p o t hp ht hn
      have hc := hr.counts p
      rw [hp] at hc
      simp only at hc
      by_cases hv : some p ∈ s.vars
      · exact .var hv
      · have h0 : s.vars.count (some p) = 0 := List.count_eq_zero.2 hv
        obtain ⟨q, oq, hq, hm⟩ := refs_src s.heap p (by omega)
        obtain ⟨u, hu⟩ := hr.acyclic q oq hq
        have hlt : t.size < u.size := by
          cases hu with
          | @node _ o' ts hg hds =>
            rw [hq] at hg
            cases hg
            obtain ⟨i, hi⟩ := List.mem_iff_getElem?.1 hm
            obtain ⟨t', ht', hd'⟩ := hds.get hi
            rw [ht.unique hd']
            have := size_le (List.mem_of_getElem? ht')
            simp only [T.size]
            omega
        have hle := hN q u hu
        exact .child (ih (N - u.size) (by omega) q oq u hq hu rfl) hq hm
  obtain ⟨t, ht⟩ := hr.acyclic p o hp
  exact key _ p o t hp ht rfl

/-- **C78**. When all variables are gone or empty, all memory is freed. -/
theorem C78_all_freed (cs : List (Nat × Cmd L)) (hl : Legal cs start) (s : St L) (hs : run cs start = some s)
    (hv : ∀ p, some p ∉ s.vars) (p : Nat) : get s.heap p = none := by
  obtain ⟨vs, -, hr⟩ := C78_reached cs hl s hs
  cases hp : get s.heap p with
  | none => rfl
  | some o =>
    have := C78_no_leak s vs hr p o hp
    exfalso
    clear hp o
    induction this with
    | var h => exact hv _ h
    | child _ _ _ ih => exact ih

/-- **C78**. The counts are right and nothing is used after it was destroyed even if arrays are changed while they are shared:
a command whose variables and elements exist succeeds. -/
theorem C78_counts (a : Nat) (s : St L) (c : Cmd L) (hc : Consistent s.heap s.vars) (hf : Fresh a s c) (hv : Valid s c) :
    ∃ s', exec a s c = some s' ∧ Consistent s'.heap s'.vars :=
  exec_ok a s c hc hf hv

/-- **C78** needs `Exclusive`: changing an array that is shared changes the other expressions too. -/
theorem C78_shared_array_fails (arr : L) :
    ∃ s, run [(0, .declare), (0, .declare), (0, .declare), (0, .create 0 arr []), (0, .assign 1 0), (0, .append 0 arr 2)]
        start = some s ∧
      s.vars[1]? = some (some 0) ∧ Den s.heap (some 0) (.node arr [.null]) ∧
      steps [(0, .declare), (0, .declare), (0, .declare), (0, .create 0 arr []), (0, .assign 1 0), (0, .append 0 arr 2)]
        ([] : List (T L)) = some [.node arr [.null], .node arr [], .null] := by
  refine ⟨{ heap := [some { lbl := arr, cs := [none], cnt := 2 }], vars := [some 0, some 0, none] }, ?_, rfl, ?_, ?_⟩
  · simp [run, exec, store, release, retain, retainAll, get, put, start]
  · exact Den.node (o := { lbl := arr, cs := [none], cnt := 2 }) rfl (.cons .null .nil)
  · simp [steps, step]

theorem release_live (h : Heap L) (p : Nat) (ps : List (Option Nat)) (o : Obj L) (hg : get h p = some o) :
    release h (some p :: ps) = if o.cnt ≤ 1 then release (put h p none) (o.cs ++ ps)
      else release (put h p (some { o with cnt := o.cnt - 1 })) ps := by
  rw [release]
  split
  · rename_i h'; rw [hg] at h'; cases h'
  · rename_i o' h'; rw [hg] at h'; cases h'; rfl

/-- **C78** needs `Exclusive`: an array that contains itself is never freed. -/
theorem C78_cycle_fails (arr : L) :
    run [(0, .declare), (0, .create 0 arr []), (0, .append 0 arr 0), (0, .leave)] start
      = some { heap := [some { lbl := arr, cs := [some 0], cnt := 1 }], vars := [] } := by
  have h : release [some { lbl := arr, cs := [some 0], cnt := 2 }] [some 0] = some [some { lbl := arr, cs := [some 0], cnt := 1 }] := by
    rw [release_live _ 0 _ _ rfl]
    simp [release, put]
  simp [run, exec, store, retain, retainAll, get, put, start, h, release]

/-! ## Comparison -/

/-- What a node is. -/
inductive Lbl (K : Type) where
  | const (k : K)
  | var (name : List Char)
  | un (op : UnOp)
  | bin (op : BinOp)
  | arr
  | dict (keys : List (List Char))

mutual
/-- An expression as a tree. -/
def tree {K : Type} : Expr K → T (Lbl K)
  | .const k => .node (.const k) []
  | .var n => .node (.var n) []
  | .un o a => .node (.un o) [tree a]
  | .bin o l r => .node (.bin o) [tree l, tree r]
  | .arr xs => .node .arr (treeList xs)
  | .dict kvs => .node (.dict (keyList kvs)) (treeDict kvs)
def treeList {K : Type} : List (Expr K) → List (T (Lbl K))
  | [] => []
  | x :: xs => tree x :: treeList xs
def treeDict {K : Type} : List (List Char × Expr K) → List (T (Lbl K))
  | [] => []
  | (_, v) :: xs => tree v :: treeDict xs
def keyList {K : Type} : List (List Char × Expr K) → List (List Char)
  | [] => []
  | (k, _) :: xs => k :: keyList xs
end

mutual
theorem tree_inj {K : Type} : ∀ (a b : Expr K), tree a = tree b → a = b
  | .const k, b, h => by cases b <;> simp [tree] at h; simp [h]
  | .var n, b, h => by cases b <;> simp [tree] at h; simp [h]
  | .un o a, b, h => by
    cases b <;> simp [tree] at h
    rw [h.1, tree_inj a _ h.2]
  | .bin o l r, b, h => by
    cases b <;> simp [tree] at h
    rw [h.1, tree_inj l _ h.2.1, tree_inj r _ h.2.2]
  | .arr xs, b, h => by
    cases b <;> simp [tree] at h
    rw [treeList_inj xs _ h]
  | .dict xs, b, h => by
    cases b <;> simp [tree] at h
    rw [treeDict_inj xs _ h.1 h.2]
theorem treeList_inj {K : Type} : ∀ (a b : List (Expr K)), treeList a = treeList b → a = b
  | [], b, h => by cases b <;> simp [treeList] at h; rfl
  | x :: xs, b, h => by
    cases b <;> simp [treeList] at h
    rw [tree_inj x _ h.1, treeList_inj xs _ h.2]
theorem treeDict_inj {K : Type} : ∀ (a b : List (List Char × Expr K)), keyList a = keyList b → treeDict a = treeDict b → a = b
  | [], b, hk, h => by rcases b with _ | ⟨⟨k, v⟩, b⟩ <;> simp [treeDict] at h; rfl
  | (k, v) :: xs, b, hk, h => by
    rcases b with _ | ⟨⟨k', v'⟩, b⟩ <;> simp [treeDict, keyList] at h hk
    rw [hk.1, tree_inj v _ h.1, treeDict_inj xs _ hk.2 h.2]
end

/-- What the node of an expression in memory is. -/
def lblOf {K : Type} : HExpr K → Lbl K
  | .const _ k => .const k
  | .var _ n => .var n
  | .un _ o _ => .un o
  | .bin _ o _ _ => .bin o
  | .arr _ _ => .arr
  | .dict _ kvs => .dict (kvs.map (·.1))

/-- Its sub-expressions. -/
def childrenOf {K : Type} : HExpr K → List (HExpr K)
  | .const _ _ => []
  | .var _ _ => []
  | .un _ _ x => [x]
  | .bin _ _ l r => [l, r]
  | .arr _ xs => xs
  | .dict _ kvs => kvs.map (·.2)

/-- The memory contains the expression `a` with its addresses. -/
def Lies {K : Type} (h : Heap (Lbl K)) (a : HExpr K) : Prop :=
  ∀ x ∈ a.nodes, ∃ o, get h x.addr = some o ∧ o.lbl = lblOf x ∧ o.cs = (childrenOf x).map (fun y => some y.addr)

theorem treeList_eq {K : Type} (xs : List (Expr K)) : treeList xs = xs.map tree := by
  induction xs with
  | nil => rfl
  | cons x xs ih => simp [treeList, ih]

theorem treeDict_eq {K : Type} (xs : List (List Char × Expr K)) : treeDict xs = xs.map (fun p => tree p.2) := by
  induction xs with
  | nil => rfl
  | cons x xs ih => simp [treeDict, ih]

theorem keyList_eq {K : Type} (xs : List (List Char × Expr K)) : keyList xs = xs.map (·.1) := by
  induction xs with
  | nil => rfl
  | cons x xs ih => simp [keyList, ih]

theorem tree_erase {K : Type} (a : HExpr K) : tree a.erase = .node (lblOf a) ((childrenOf a).map (fun x => tree x.erase)) := by
  cases a <;> simp [HExpr.erase, tree, lblOf, childrenOf, treeList_eq, treeDict_eq, keyList_eq, eraseList_eq, eraseDict_eq,
    Function.comp_def]

theorem mem_nodes {K : Type} (a x : HExpr K) : x ∈ a.nodes ↔ x = a ∨ ∃ c ∈ childrenOf a, x ∈ c.nodes := by
  cases a <;> simp [HExpr.nodes, childrenOf, mem_nodesList, mem_nodesDict]
  exact or_congr Iff.rfl ⟨fun ⟨k, v, h, hx⟩ => ⟨v, ⟨k, h⟩, hx⟩, fun ⟨v, ⟨k, h⟩, hx⟩ => ⟨k, v, h, hx⟩⟩

theorem HExpr.children_ind {K : Type} {P : HExpr K → Prop} (h : ∀ a, (∀ c ∈ childrenOf a, P c) → P a) (a : HExpr K) : P a := by
  induction a using HExpr.ind with
  | const a k => exact h _ (by simp [childrenOf])
  | var a n => exact h _ (by simp [childrenOf])
  | un i o a ih => exact h _ (by simpa [childrenOf] using ih)
  | bin i o l r ih1 ih2 => exact h _ (by simpa [childrenOf] using ⟨ih1, ih2⟩)
  | arr i xs ih => exact h _ (by simpa [childrenOf] using ih)
  | dict i kvs ih =>
    refine h _ (fun c hc => ?_)
    obtain ⟨p, hp, rfl⟩ := List.mem_map.1 hc
    exact ih p hp

theorem nodes_trans {K : Type} (a : HExpr K) : ∀ x ∈ a.nodes, ∀ y ∈ x.nodes, y ∈ a.nodes := by
  induction a using HExpr.children_ind with
  | _ a ih =>
    intro x hx y hy
    rcases (mem_nodes a x).1 hx with rfl | ⟨c, hc, hx⟩
    · exact hy
    · exact (mem_nodes a y).2 (.inr ⟨c, hc, ih c hc x hx y hy⟩)

theorem denL_map {K : Type} {h : Heap (Lbl K)} : ∀ (xs : List (HExpr K)), (∀ x ∈ xs, Den h (some x.addr) (tree x.erase)) →
    DenL h (xs.map (fun y => some y.addr)) (xs.map (fun x => tree x.erase))
  | [], _ => .nil
  | x :: xs, hx => .cons (hx x (by simp)) (denL_map xs (fun y hy => hx y (by simp [hy])))

/-- An expression that lies in memory is what its address stands for. -/
theorem Lies.den {K : Type} {h : Heap (Lbl K)} (a : HExpr K) (hl : Lies h a) : Den h (some a.addr) (tree a.erase) := by
  induction a using HExpr.children_ind with
  | _ a ih =>
    obtain ⟨o, hg, h1, h2⟩ := hl a (self_mem_nodes a)
    rw [tree_erase, ← h1]
    refine .node hg ?_
    rw [h2]
    exact denL_map _ (fun c hc => ih c hc (fun x hx => hl x ((mem_nodes a x).2 (.inr ⟨c, hc, hx⟩))))

/-- Any two expressions in one memory are coherent: the hypothesis of C07 and C08 is met by everything a program can reach. -/
theorem Lies.coherent {K : Type} {h : Heap (Lbl K)} {a b : HExpr K} (ha : Lies h a) (hb : Lies h b) : Coherent a b := by
  intro x hx y hy he
  have h1 : Den h (some x.addr) (tree x.erase) := Lies.den x (fun z hz => ha z (nodes_trans a x hx z hz))
  have h2 : Den h (some y.addr) (tree y.erase) := Lies.den y (fun z hz => hb z (nodes_trans b y hy z hz))
  rw [he] at h1
  exact tree_inj _ _ (h1.unique h2)

theorem lies_mk {K : Type} {h : Heap (Lbl K)} (a : HExpr K) {o : Obj (Lbl K)} (hg : get h a.addr = some o)
    (h1 : o.lbl = lblOf a) (h2 : o.cs = (childrenOf a).map (fun y => some y.addr)) (hc : ∀ c ∈ childrenOf a, Lies h c) :
    Lies h a := by
  intro x hx
  rcases (mem_nodes a x).1 hx with rfl | ⟨c, hcm, hx⟩
  · exact ⟨o, hg, h1, h2⟩
  · exact hc c hcm x hx

mutual
/-- What stands for an expression lies in memory as that expression. -/
theorem lies_of_den {K : Type} {h : Heap (Lbl K)} : ∀ (e : Expr K) (p : Option Nat), Den h p (tree e) →
    ∃ a, p = some a.addr ∧ a.erase = e ∧ Lies h a
  | .const k, _, hd => by
    rw [tree] at hd
    generalize hl : (Lbl.const k : Lbl K) = l at hd
    cases hd with
    | @node p o ts hg hds =>
      cases hds' : o.cs with
      | nil => exact ⟨.const p k, rfl, rfl, lies_mk _ hg (by simp [lblOf, hl]) (by simp [childrenOf, hds']) (by simp [childrenOf])⟩
      | cons c cs => rw [hds'] at hds; cases hds
  | .var n, _, hd => by
    rw [tree] at hd
    generalize hl : (Lbl.var n : Lbl K) = l at hd
    cases hd with
    | @node p o ts hg hds =>
      cases hds' : o.cs with
      | nil => exact ⟨.var p n, rfl, rfl, lies_mk _ hg (by simp [lblOf, hl]) (by simp [childrenOf, hds']) (by simp [childrenOf])⟩
      | cons c cs => rw [hds'] at hds; cases hds
  | .un u a, _, hd => by
    rw [tree] at hd
    generalize hl : (Lbl.un u : Lbl K) = l at hd
    cases hd with
    | @node p o ts hg hds =>
      generalize hcs : o.cs = cs at hds
      cases hds with
      | cons hda hn =>
        cases hn
        obtain ⟨a', rfl, rfl, hla⟩ := lies_of_den a _ hda
        exact ⟨.un p u a', rfl, rfl, lies_mk _ hg (by simp [lblOf, hl]) (by simp [childrenOf, hcs]) (by simpa [childrenOf] using hla)⟩
  | .bin b l r, _, hd => by
    rw [tree] at hd
    generalize hl : (Lbl.bin b : Lbl K) = lb at hd
    cases hd with
    | @node p o ts hg hds =>
      generalize hcs : o.cs = cs at hds
      cases hds with
      | cons hda hn =>
        cases hn with
        | cons hdb hn =>
          cases hn
          obtain ⟨a', rfl, rfl, hla⟩ := lies_of_den l _ hda
          obtain ⟨b', rfl, rfl, hlb⟩ := lies_of_den r _ hdb
          exact ⟨.bin p b a' b', rfl, rfl, lies_mk _ hg (by simp [lblOf, hl]) (by simp [childrenOf, hcs])
            (by simpa [childrenOf] using ⟨hla, hlb⟩)⟩
  | .arr xs, _, hd => by
    rw [tree] at hd
    generalize hl : (Lbl.arr : Lbl K) = lb at hd
    cases hd with
    | @node p o ts hg hds =>
      obtain ⟨as, h1, h2, h3⟩ := lies_of_denL xs _ hds
      exact ⟨.arr p as, rfl, by simp [HExpr.erase, eraseList_eq, h2], lies_mk _ hg (by simp [lblOf, hl])
        (by simp [childrenOf, h1]) (by simpa [childrenOf] using h3)⟩
  | .dict kvs, _, hd => by
    rw [tree] at hd
    generalize hl : (Lbl.dict (keyList kvs) : Lbl K) = lb at hd
    cases hd with
    | @node p o ts hg hds =>
      obtain ⟨as, h1, h2, h3⟩ := lies_of_denD kvs _ hds
      have hk : as.map (·.1) = keyList kvs := by
        rw [keyList_eq, ← h2]; simp [Function.comp_def]
      exact ⟨.dict p as, rfl, by simp [HExpr.erase, eraseDict_eq, h2], lies_mk _ hg (by simp [lblOf, hk, hl])
        (by simp [childrenOf, h1, Function.comp_def]) (by
          intro c hc
          obtain ⟨x, hx, rfl⟩ := List.mem_map.1 hc
          exact h3 x hx)⟩
theorem lies_of_denL {K : Type} {h : Heap (Lbl K)} : ∀ (xs : List (Expr K)) (ps : List (Option Nat)), DenL h ps (treeList xs) →
    ∃ as : List (HExpr K), ps = as.map (fun y => some y.addr) ∧ as.map HExpr.erase = xs ∧ ∀ a ∈ as, Lies h a
  | [], ps, hd => by cases hd; exact ⟨[], rfl, rfl, by simp⟩
  | x :: xs, ps, hd => by
    cases hd with
    | cons hx hxs =>
      obtain ⟨a, rfl, rfl, ha⟩ := lies_of_den x _ hx
      obtain ⟨as, rfl, rfl, has⟩ := lies_of_denL xs _ hxs
      exact ⟨a :: as, rfl, rfl, by simpa using ⟨ha, has⟩⟩
theorem lies_of_denD {K : Type} {h : Heap (Lbl K)} : ∀ (xs : List (List Char × Expr K)) (ps : List (Option Nat)),
    DenL h ps (treeDict xs) →
    ∃ as : List (List Char × HExpr K), ps = as.map (fun y => some y.2.addr) ∧ as.map (fun p => (p.1, p.2.erase)) = xs ∧
      ∀ a ∈ as, Lies h a.2
  | [], ps, hd => by cases hd; exact ⟨[], rfl, rfl, by simp⟩
  | (k, x) :: xs, ps, hd => by
    cases hd with
    | cons hx hxs =>
      obtain ⟨a, rfl, rfl, ha⟩ := lies_of_den x _ hx
      obtain ⟨as, rfl, rfl, has⟩ := lies_of_denD xs _ hxs
      exact ⟨(k, a) :: as, rfl, rfl, by simpa using ⟨ha, fun a b hb => has (a, b) hb⟩⟩
end

/-- **C78**. In every state that a program reaches, if two variables stand for the expressions `e` and `f` without NaN, then `==`
between them, with its pointer shortcuts, says whether `e` and `f` are the same tree; which parts they share does not matter. -/
theorem C78_equality {K : Type} (eqK : K → K → Bool) (cs : List (Nat × Cmd (Lbl K))) (hl : Legal cs start) (s : St (Lbl K))
    (hs : run cs start = some s) (vs : List (T (Lbl K))) (hvs : steps cs [] = some vs) (i j : Nat) (e f : Expr K)
    (hi : vs[i]? = some (tree e)) (hj : vs[j]? = some (tree f))
    (he : e.allConst (fun k => eqK k k = true) ∧ e.mapsOk) (hf : f.allConst (fun k => eqK k k = true) ∧ f.mapsOk) :
    ∃ a b : HExpr K, s.vars[i]? = some (some a.addr) ∧ s.vars[j]? = some (some b.addr) ∧ Lies s.heap a ∧ Lies s.heap b ∧
      (a.cmp eqK b = true ↔ SameTree (fun x y => eqK x y = true) e f) := by
  obtain ⟨vs', h1, hr⟩ := C78_reached cs hl s hs
  rw [hvs] at h1
  cases h1
  obtain ⟨p, hp, hdp⟩ := hr.vars.get' hi
  obtain ⟨q, hq, hdq⟩ := hr.vars.get' hj
  obtain ⟨a, rfl, rfl, ha⟩ := lies_of_den e p hdp
  obtain ⟨b, rfl, rfl, hb⟩ := lies_of_den f q hdq
  exact ⟨a, b, hp, hq, ha, hb, C07_structural eqK a b (ha.coherent hb) he hf⟩

/-! ## The hypotheses are met -/

/-- `Expr x = Var("x"); Expr e = x + x; x = Expr();` with the address of `x`'s node kept in use by `e`. -/
example : Legal [(0, .declare), (0, .create 0 (.var ['x']) []), (0, .declare), (1, .create 1 (.bin .add) [0, 0]), (0, .reset 0)]
    (start : St (Lbl Nat)) := by
  simp [Legal, Fresh, Exclusive, exec, store, release, retain, retainAll, get, put, start]

example : ∃ s, run [(0, .declare), (0, .create 0 (.var ['x']) []), (0, .declare), (1, .create 1 (.bin .add) [0, 0])]
    (start : St (Lbl Nat)) = some s ∧ s.vars = [some 0, some 1] := by
  simp [run, exec, store, release, retain, retainAll, get, put, start]

example : steps [(0, .declare), (0, .create 0 (.var ['x']) []), (0, .declare), (1, .create 1 (.bin .add) [0, 0])]
    ([] : List (T (Lbl Nat))) = some [tree (.var ['x']), tree (.bin .add (.var ['x']) (.var ['x']))] := by
  simp [steps, step, tree]

/-- An array of one element is built by `push_back`, then shared: `A = *ArrayRT::create(); A.push_back(c); B = A;`. -/
example : Legal [(0, .declare), (0, .create 0 .arr []), (0, .declare), (1, .create 1 (.const 5) []), (0, .append 0 .arr 1),
    (0, .declare), (0, .assign 2 0)] (start : St (Lbl Nat)) := by
  simp [Legal, Fresh, Exclusive, exec, store, release, retain, retainAll, get, put, start]
  rintro p o rfl h
  simp only [List.getElem?_cons_zero, Option.join_some, Option.some.injEq] at h
  rw [← h]

end Stator.Sh
