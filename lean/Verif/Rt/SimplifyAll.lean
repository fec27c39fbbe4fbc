import Verif.Rt.SimplifyProps

/-!
# C10 for every expression: `simplify` ends unless it comes across a power of two arrays

Arrays, dictionaries, units and any mixture of them.
-/

namespace Stator

variable {K : Type}

/-! ## Specification -/

/-- In the course of `simplify(e)` a power has to be simplified whose two sides have become arrays: the power is (a part of) `e`, or
part of a sum, difference, product or quotient of elements of two arrays. -/
inductive Meets [DecidableEq K] (N : NumOps K) : Expr K → Prop
  | pow {l r xs ys} : Simplifies N l (.arr xs) → Simplifies N r (.arr ys) → Meets N (.bin .pow l r)
  | un {o a} : Meets N a → Meets N (.un o a)
  | left {o l r} : Meets N l → Meets N (.bin o l r)
  | right {o l r} : Meets N r → Meets N (.bin o l r)
  | elem {xs x} : x ∈ xs → Meets N x → Meets N (.arr xs)
  | value {kvs k v} : (k, v) ∈ kvs → Meets N v → Meets N (.dict kvs)
  | pair {o l r xs ys z} : (o = .add ∨ o = .sub ∨ o = .mul ∨ o = .div) → Simplifies N l (.arr xs) → Simplifies N r (.arr ys) →
      z ∈ List.zipWith (Expr.bin o) xs ys → Meets N z → Meets N (.bin o l r)

mutual
/-- A bound on the recursion depth of `simplify`: nodes are added up, except that elements of an array, values of a dictionary, and
a number and its unit are worked on side by side. -/
def Expr.work : Expr K → Nat
  | .const _ => 1
  | .var _ => 1
  | .un _ a => a.work + 1
  | .bin o l r => if o = .units then max l.work r.work + 1 else l.work + r.work + 1
  | .arr xs => workList xs + 1
  | .dict kvs => workDict kvs + 1
def workList : List (Expr K) → Nat
  | [] => 0
  | x :: xs => max x.work (workList xs)
def workDict : List (List Char × Expr K) → Nat
  | [] => 0
  | (_, v) :: kvs => max v.work (workDict kvs)
end

/-- Expressions that may be simplified to an array. -/
def Expr.mayArr : Expr K → Bool
  | .arr _ => true
  | .bin .add l r => l.mayArr || r.mayArr
  | .bin .mul l r => l.mayArr || r.mayArr
  | .bin .sub l _ => l.mayArr
  | .bin .div l _ => l.mayArr
  | .bin .pow l _ => l.mayArr
  | .bin .units l _ => l.mayArr
  | .bin .uncert l _ => l.mayArr
  | _ => false

mutual
/-- No power has two sides that may be simplified to arrays. -/
def Expr.calm : Expr K → Bool
  | .const _ => true
  | .var _ => true
  | .un _ a => a.calm
  | .bin o l r => l.calm && r.calm && (o != .pow || !l.mayArr || !r.mayArr)
  | .arr xs => calmList xs
  | .dict kvs => calmDict kvs
def calmList : List (Expr K) → Bool
  | [] => true
  | x :: xs => x.calm && calmList xs
def calmDict : List (List Char × Expr K) → Bool
  | [] => true
  | (_, v) :: kvs => v.calm && calmDict kvs
end

/-! ## The measure -/

theorem workList_le (b : Nat) : ∀ xs : List (Expr K), workList xs ≤ b ↔ ∀ x ∈ xs, x.work ≤ b
  | [] => by simp [workList]
  | x :: xs => by simp [workList, workList_le b xs]

theorem workDict_le (b : Nat) : ∀ xs : List (List Char × Expr K), workDict xs ≤ b ↔ ∀ x ∈ xs, x.2.work ≤ b
  | [] => by simp [workDict]
  | (k, v) :: xs => by simp [workDict, workDict_le b xs]

theorem work_pos (e : Expr K) : 0 < e.work := by
  cases e <;> simp [Expr.work]
  split <;> omega

theorem work_bin_le (o : BinOp) (l r : Expr K) : (Expr.bin o l r).work ≤ l.work + r.work + 1 := by
  simp only [Expr.work]; split <;> omega

theorem work_bin_ge (o : BinOp) (l r : Expr K) : l.work < (Expr.bin o l r).work ∧ r.work < (Expr.bin o l r).work := by
  simp only [Expr.work]; split <;> omega

theorem work_bin {o : BinOp} (h : o ≠ .units) (l r : Expr K) : (Expr.bin o l r).work = l.work + r.work + 1 := by
  simp [Expr.work, h]

theorem work_units (l r : Expr K) : (Expr.bin .units l r).work = max l.work r.work + 1 := by
  simp [Expr.work]

theorem work_map (xs : List (Expr K)) (f : Expr K → Expr K) (c : Nat) (h : ∀ x ∈ xs, (f x).work ≤ x.work + c) :
    workList (xs.map f) ≤ workList xs + c := by
  rw [workList_le]
  intro z hz
  obtain ⟨x, hx, rfl⟩ := List.mem_map.1 hz
  have := h x hx
  have := (workList_le _ xs).1 le_rfl x hx
  omega

theorem mulTyped_work (t c : Expr K) (b : Bool) : (mulTyped t c b).work ≤ t.work + c.work + 1 := by
  unfold mulTyped
  split
  · rename_i xs
    have := work_map xs (fun x => if b then .bin .mul x c else .bin .mul c x) (c.work + 1) (by
      intro x _
      cases b <;> simp [Expr.work] <;> omega)
    simp only [Expr.work]; omega
  · cases b <;> simp [Expr.work] <;> omega

theorem mulUnits_work {l r e : Expr K} (h : mulUnits l r = some e) : e.work ≤ l.work + r.work + 1 := by
  unfold mulUnits at h
  split at h
  · simp at h; subst h
    simp only [work_units, work_bin (show BinOp.mul ≠ .units by simp)]; omega
  · simp at h; subst h
    rename_i a b _
    have := mulTyped_work r a false
    simp only [work_units]; omega
  · simp at h; subst h
    rename_i c d _
    have := mulTyped_work l c true
    simp only [work_units]; omega
  · simp at h

/-! ## A power of two arrays never returns -/

theorem simp_arr_inv [DecidableEq K] (N : NumOps K) {n : Nat} {xs : List (Expr K)} {e : Expr K}
    (h : simp N n (.arr xs) = .ok e) : ∃ ys, e = .arr ys := by
  cases n with
  | zero => simp [simp] at h
  | succ n =>
    simp only [simp, Res.bind_eq_ok] at h
    obtain ⟨ys, _, h⟩ := h
    simp at h
    exact ⟨ys, h.symm⟩

theorem pow_arrays_not_ok [DecidableEq K] (N : NumOps K) : ∀ (n : Nat) (xs ys : List (Expr K)) (e : Expr K),
    simp N n (.bin .pow (.arr xs) (.arr ys)) ≠ .ok e
  | 0, xs, ys, e => by simp [simp]
  | n + 1, xs, ys, e => by
    intro h
    simp only [simp, Res.bind_eq_ok] at h
    obtain ⟨l, h1, r, h2, h3⟩ := h
    obtain ⟨xs', rfl⟩ := simp_arr_inv N h1
    obtain ⟨ys', rfl⟩ := simp_arr_inv N h2
    simp only [simpBin, isConst, ddVisit] at h3
    exact pow_arrays_not_ok N n xs' ys' e h3

/-! ## The main induction -/

/-- What `simplify` with fuel `n` guarantees for one expression. -/
def Ends [DecidableEq K] (N : NumOps K) (n : Nat) (e : Expr K) : Prop :=
  (simp N n e = .diverge → Meets N e) ∧ ∀ e', simp N n e = .ok e' → e'.work ≤ e.work

/-- The outcome of an operator on simplified operands: `M` holds if it diverges. -/
def EndsBin (M : Prop) (b : Nat) (x : Res (Expr K)) : Prop :=
  (x = .diverge → M) ∧ ∀ e, x = .ok e → e.work ≤ b

theorem endsBin_ok {M : Prop} {b : Nat} {e : Expr K} (h : e.work ≤ b) : EndsBin M b (.ok e) :=
  ⟨by simp, by intro e' he; simp at he; subst he; exact h⟩

theorem endsBin_throw {M : Prop} {b : Nat} : EndsBin M b (.throw : Res (Expr K)) :=
  ⟨by simp, by simp⟩

theorem mapRes_diverge {α β : Type} {f : α → Res β} : ∀ {xs : List α}, mapRes f xs = .diverge → ∃ x ∈ xs, f x = .diverge
  | [], h => by simp [mapRes] at h
  | x :: xs, h => by
    simp only [mapRes] at h
    cases hx : f x with
    | diverge => exact ⟨x, by simp, hx⟩
    | throw => rw [hx] at h; simp at h
    | ok y =>
      rw [hx] at h
      simp only [Res.ok_bind] at h
      cases hxs : mapRes f xs with
      | diverge =>
        obtain ⟨z, hz, h'⟩ := mapRes_diverge hxs
        exact ⟨z, by simp [hz], h'⟩
      | throw => rw [hxs] at h; simp at h
      | ok ys => rw [hxs] at h; simp at h

theorem Res.bind_diverge {α β : Type} {x : Res α} {f : α → Res β} (h : (x >>= f) = .diverge) :
    x = .diverge ∨ ∃ a, x = .ok a ∧ f a = .diverge := by
  cases x with
  | ok a => exact .inr ⟨a, rfl, h⟩
  | throw => simp at h
  | diverge => exact .inl rfl

theorem endsBin_pairs [DecidableEq K] {N : NumOps K} {n : Nat} {xs ys : List (Expr K)} {o : BinOp} {M : Prop}
    (ih : ∀ e : Expr K, e.work ≤ n → Ends N n e) (ho : o ≠ .units)
    (hw : (Expr.arr xs).work + (Expr.arr ys).work ≤ n)
    (hM : ∀ z ∈ List.zipWith (Expr.bin o) xs ys, Meets N z → M) :
    EndsBin M ((Expr.arr xs).work + (Expr.arr ys).work + 1)
      (do let zs ← mapRes (simp N n) (List.zipWith (elemOp o) xs ys); .ok (Expr.arr zs)) := by
  simp only [Expr.work] at hw ⊢
  have hx : ∀ x ∈ xs, x.work ≤ workList xs := (workList_le _ xs).1 le_rfl
  have hy : ∀ x ∈ ys, x.work ≤ workList ys := (workList_le _ ys).1 le_rfl
  have hz : ∀ z ∈ List.zipWith (elemOp o) xs ys, z.work ≤ workList xs + workList ys + 1 := by
    intro z hz
    obtain ⟨x, hx', y, hy', rfl⟩ := mem_zipWith hz
    have := hx x hx'
    have := hy y hy'
    rw [elemOp, work_bin ho]; omega
  constructor
  · intro h
    rcases Res.bind_diverge h with h | ⟨_, _, h⟩
    · obtain ⟨z, h1, h2⟩ := mapRes_diverge h
      exact hM z h1 ((ih z (by have := hz z h1; omega)).1 h2)
    · simp at h
  · intro e he
    rw [Res.bind_eq_ok] at he
    obtain ⟨zs, h1, h2⟩ := he
    simp at h2; subst h2
    have h3 : workList zs ≤ workList xs + workList ys + 1 := by
      rw [workList_le]
      intro z hzz
      obtain ⟨y, hy', h4⟩ := (mapRes_ok h1).exists_left z hzz
      have h5 := hz y hy'
      have h6 := (ih y (by omega)).2 z h4
      omega
    simp only [Expr.work]; omega

theorem endsBin_spread {M : Prop} {xs : List (Expr K)} {r : Expr K} {o : BinOp} (ho : o ≠ .units) :
    EndsBin M ((Expr.arr xs).work + r.work + 1) (.ok (.arr (xs.map fun x => elemOp o x r))) ∧
    EndsBin M (r.work + (Expr.arr xs).work + 1) (.ok (.arr (xs.map fun x => elemOp o r x))) := by
  constructor
  · have := work_map xs (fun x => elemOp o x r) (r.work + 1) (by
      intro x _; rw [elemOp, work_bin ho]; omega)
    exact endsBin_ok (by simp only [Expr.work]; omega)
  · have := work_map xs (fun x => elemOp o r x) (r.work + 1) (by
      intro x _; rw [elemOp, work_bin ho]; omega)
    exact endsBin_ok (by simp only [Expr.work]; omega)

theorem ddVisit_ends [DecidableEq K] {N : NumOps K} {n : Nat} {o : BinOp} {l r : Expr K} {M : Prop}
    (ih : ∀ e : Expr K, e.work ≤ n → Ends N n e) (ho : o ≠ .units) (hw : l.work + r.work ≤ n)
    (hM : ∀ xs ys, l = .arr xs → r = .arr ys → (o = .add ∨ o = .sub ∨ o = .mul ∨ o = .div) →
      ∀ z ∈ List.zipWith (Expr.bin o) xs ys, Meets N z → M)
    (hP : ∀ xs ys, l = .arr xs → r = .arr ys → o = .pow → M) :
    EndsBin M (l.work + r.work + 1) (ddVisit N (simp N n) o l r) := by
  have mc : ∀ (k : K) (a b u : Expr K), u.work = a.work + b.work + 3 →
      (mulConst N k a b u).work ≤ a.work + b.work + 3 := by
    intro k a b u hw
    unfold mulConst
    split
    · simp [Expr.work]
    · simp [Expr.work]; omega
    · omega
  have same : EndsBin M (l.work + r.work + 1) (.ok (.bin o l r)) := endsBin_ok (work_bin_le o l r)
  have hl := work_pos l
  have hr := work_pos r
  cases o <;> simp only [ddVisit]
  case units => exact absurd rfl ho
  case add =>
    split
    · split
      · exact endsBin_pairs ih (by simp) hw (hM _ _ rfl rfl (by simp))
      · exact endsBin_throw
    · exact (endsBin_spread (by simp)).1
    · exact endsBin_ok (by simp [foldBin, Expr.work])
    · exact same
  case sub =>
    split
    · split
      · exact endsBin_pairs ih (by simp) hw (hM _ _ rfl rfl (by simp))
      · exact endsBin_throw
    · exact (endsBin_spread (by simp)).1
    · split <;> exact endsBin_ok (by simp [foldBin, Expr.work])
    · split
      · exact endsBin_ok (by simp [Expr.work])
      · exact same
    · exact same
  case mul =>
    split
    · rename_i e he
      exact endsBin_ok (mulUnits_work he)
    · split
      · split
        · exact endsBin_pairs ih (by simp) hw (hM _ _ rfl rfl (by simp))
        · exact endsBin_throw
      · exact (endsBin_spread (by simp)).1
      · exact (endsBin_spread (by simp)).2
      · exact endsBin_ok (by simp [foldBin, Expr.work])
      · rename_i k a b _
        have := mc k a b (.bin .mul (.const k) (.bin .mul a b)) (by simp [Expr.work]; omega)
        exact endsBin_ok (by simp [Expr.work] at *; omega)
      · rename_i a b k _
        have := mc k a b (.bin .mul (.bin .mul a b) (.const k)) (by simp [Expr.work])
        exact endsBin_ok (by simp [Expr.work] at *; omega)
      · exact same
  case div =>
    split
    · rename_i a b c d
      exact endsBin_ok (by
        simp only [work_units, work_bin (show BinOp.div ≠ .units by simp)]; omega)
    · split
      · exact endsBin_pairs ih (by simp) hw (hM _ _ rfl rfl (by simp))
      · exact endsBin_throw
    · exact (endsBin_spread (by simp)).1
    · exact endsBin_ok (by simp [foldBin, Expr.work])
    · exact same
  case pow =>
    split
    · rename_i xs ys
      exact ⟨fun _ => hP xs ys rfl rfl rfl, fun e he => absurd he (pow_arrays_not_ok N n xs ys e)⟩
    · exact endsBin_ok (by simp [foldBin, Expr.work])
    · exact same
  case access =>
    split
    · exact same
    · exact endsBin_throw
  all_goals exact same

theorem simp_ends [DecidableEq K] (N : NumOps K) : ∀ (n : Nat) (e : Expr K), e.work ≤ n → Ends N n e
  | 0, e, h => by have := work_pos e; omega
  | n + 1, .const _, _ => ⟨by simp [simp], by intro e' h; simp [simp] at h; subst h; exact le_rfl⟩
  | n + 1, .var _, _ => ⟨by simp [simp], by intro e' h; simp [simp] at h; subst h; exact le_rfl⟩
  | n + 1, .un o a, hw => by
    simp only [Expr.work] at hw
    have ih := simp_ends N n a (by omega)
    constructor
    · intro h
      rw [simp] at h
      rcases Res.bind_diverge h with h | ⟨_, _, h⟩
      · exact .un (ih.1 h)
      · simp at h
    · intro e' he
      simp only [simp, Res.bind_eq_ok] at he
      obtain ⟨a', h1, h2⟩ := he
      simp at h2; subst h2
      have h3 := ih.2 a' h1
      have := work_pos a
      unfold foldUn
      split
      · cases o <;> simp [Expr.work] <;> omega
      · simp only [Expr.work]; omega
  | n + 1, .bin o l r, hw => by
    have hb := work_bin_ge o l r
    have ih1 := simp_ends N n l (by omega)
    have ih2 := simp_ends N n r (by omega)
    have key : ∀ l' r', simp N n l = .ok l' → simp N n r = .ok r' →
        EndsBin (Meets N (.bin o l r)) (Expr.bin o l r).work (simpBin N (simp N n) o l' r') := by
      intro l' r' h1 h2
      have h3 := ih1.2 l' h1
      have h4 := ih2.2 r' h2
      unfold simpBin
      split
      · exact endsBin_ok (by omega)
      split
      · exact endsBin_ok (by omega)
      split
      · exact endsBin_ok (by omega)
      split
      · exact endsBin_ok (by omega)
      by_cases ho : o = .units
      · subst ho
        simp only [ddVisit]
        exact endsBin_ok (by simp only [work_units]; omega)
      · rw [work_bin ho] at hw ⊢
        have := ddVisit_ends (N := N) (n := n) (o := o) (l := l') (r := r') (M := Meets N (.bin o l r))
          (fun e => simp_ends N n e) ho (by omega)
          (fun xs ys hl hr hop z hz hm => .pair hop ⟨n, hl ▸ h1⟩ ⟨n, hr ▸ h2⟩ hz hm)
          (fun xs ys hl hr hop => hop ▸ .pow ⟨n, hl ▸ h1⟩ ⟨n, hr ▸ h2⟩)
        exact ⟨this.1, fun e he => by have := this.2 e he; omega⟩
    constructor
    · intro h
      rw [simp] at h
      rcases Res.bind_diverge h with h | ⟨l', h1, h⟩
      · exact .left (ih1.1 h)
      rcases Res.bind_diverge h with h | ⟨r', h2, h⟩
      · exact .right (ih2.1 h)
      exact (key l' r' h1 h2).1 h
    · intro e' he
      simp only [simp, Res.bind_eq_ok] at he
      obtain ⟨l', h1, r', h2, h3⟩ := he
      exact (key l' r' h1 h2).2 e' h3
  | n + 1, .arr xs, hw => by
    simp only [Expr.work] at hw
    have hx : ∀ x ∈ xs, x.work ≤ workList xs := (workList_le _ xs).1 le_rfl
    have ih : ∀ x ∈ xs, Ends N n x := fun x h => simp_ends N n x (by have := hx x h; omega)
    constructor
    · intro h
      rw [simp] at h
      rcases Res.bind_diverge h with h | ⟨_, _, h⟩
      · obtain ⟨x, h1, h2⟩ := mapRes_diverge h
        exact .elem h1 ((ih x h1).1 h2)
      · simp at h
    · intro e' he
      simp only [simp, Res.bind_eq_ok] at he
      obtain ⟨ys, h1, h2⟩ := he
      simp at h2; subst h2
      have : workList ys ≤ workList xs := by
        rw [workList_le]
        intro y hy
        obtain ⟨x, hxx, h4⟩ := (mapRes_ok h1).exists_left y hy
        have := (ih x hxx).2 y h4
        have := hx x hxx
        omega
      simp only [Expr.work]; omega
  | n + 1, .dict xs, hw => by
    simp only [Expr.work] at hw
    have hx : ∀ x ∈ xs, x.2.work ≤ workDict xs := (workDict_le _ xs).1 le_rfl
    have ih : ∀ x ∈ xs, Ends N n x.2 := fun x h => simp_ends N n x.2 (by have := hx x h; omega)
    constructor
    · intro h
      rw [simp] at h
      rcases Res.bind_diverge h with h | ⟨_, _, h⟩
      · obtain ⟨x, h1, h2⟩ := mapRes_diverge h
        rcases Res.bind_diverge h2 with h2 | ⟨_, _, h2⟩
        · exact .value (k := x.1) h1 ((ih x h1).1 h2)
        · simp at h2
      · simp at h
    · intro e' he
      simp only [simp, Res.bind_eq_ok] at he
      obtain ⟨ys, h1, h2⟩ := he
      simp at h2; subst h2
      have : workDict ys ≤ workDict xs := by
        rw [workDict_le]
        intro y hy
        obtain ⟨x, hxx, h4⟩ := (mapRes_ok h1).exists_left y hy
        rw [Res.bind_eq_ok] at h4
        obtain ⟨v, h5, h6⟩ := h4
        simp at h6; subst h6
        have := (ih x hxx).2 v h5
        have := hx x hxx
        show v.work ≤ _
        omega
      simp only [Expr.work]; omega

/-- **C10**. For every expression, with arrays, dictionaries, units and whatever else: unless `simplify` comes across a power of two
arrays, it ends, with an expression or an exception, within a recursion depth given by `work`. -/
theorem C10_terminates [DecidableEq K] (N : NumOps K) (e : Expr K) (h : ¬ Meets N e) :
    ∃ r : Res (Expr K), r ≠ .diverge ∧ ∀ n, e.work ≤ n → simp N n e = r := by
  have h1 : simp N e.work e ≠ .diverge := fun hd => h ((simp_ends N e.work e le_rfl).1 hd)
  exact ⟨_, h1, fun n hn => simp_mono_le N e hn h1⟩

/-- **C10**, and if it does come across one, `simplify` returns nothing. -/
theorem C10_meets [DecidableEq K] (N : NumOps K) (e : Expr K) (h : Meets N e) (n : Nat) (e' : Expr K) :
    simp N n e ≠ .ok e' := by
  have same : ∀ {n : Nat} {e a b : Expr K}, Simplifies N e a → simp N n e = .ok b → b = a :=
    fun h1 h2 => simplifies_det ⟨_, h2⟩ h1
  induction h generalizing n e' with
  | @pow l r xs ys h1 h2 =>
    cases n with
    | zero => simp [simp]
    | succ n =>
      intro h
      simp only [simp, Res.bind_eq_ok] at h
      obtain ⟨l', h3, r', h4, h5⟩ := h
      have := same h1 h3; subst this
      have := same h2 h4; subst this
      simp only [simpBin, isConst, ddVisit] at h5
      exact pow_arrays_not_ok N n xs ys e' h5
  | un h ih =>
    cases n with
    | zero => simp [simp]
    | succ n =>
      intro h
      simp only [simp, Res.bind_eq_ok] at h
      obtain ⟨a, h, _⟩ := h
      exact ih n a h
  | left h ih =>
    cases n with
    | zero => simp [simp]
    | succ n =>
      intro h
      simp only [simp, Res.bind_eq_ok] at h
      obtain ⟨a, h, _⟩ := h
      exact ih n a h
  | right h ih =>
    cases n with
    | zero => simp [simp]
    | succ n =>
      intro h
      simp only [simp, Res.bind_eq_ok] at h
      obtain ⟨_, _, a, h, _⟩ := h
      exact ih n a h
  | @elem xs x hx h ih =>
    cases n with
    | zero => simp [simp]
    | succ n =>
      intro h
      simp only [simp, Res.bind_eq_ok] at h
      obtain ⟨ys, h, _⟩ := h
      obtain ⟨y, h⟩ := mapRes_mem h x hx
      exact ih n y h
  | @value kvs k v hx h ih =>
    cases n with
    | zero => simp [simp]
    | succ n =>
      intro h
      simp only [simp, Res.bind_eq_ok] at h
      obtain ⟨ys, h, _⟩ := h
      obtain ⟨y, h⟩ := mapRes_mem h _ hx
      rw [Res.bind_eq_ok] at h
      obtain ⟨y, h, _⟩ := h
      exact ih n y h
  | @pair o l r xs ys z ho h1 h2 hz h ih =>
    cases n with
    | zero => simp [simp]
    | succ n =>
      intro h
      simp only [simp, Res.bind_eq_ok] at h
      obtain ⟨l', h3, r', h4, h5⟩ := h
      have := same h1 h3; subst this
      have := same h2 h4; subst this
      have key : (do let zs ← mapRes (simp N n) (List.zipWith (elemOp o) xs ys); .ok (Expr.arr zs)) ≠ .ok e' := by
        intro h
        rw [Res.bind_eq_ok] at h
        obtain ⟨zs, h, _⟩ := h
        obtain ⟨y, h⟩ := mapRes_mem h z hz
        exact ih n y h
      rcases ho with rfl | rfl | rfl | rfl <;>
        (simp only [simpBin, isConst, ddVisit, mulUnits] at h5
         simp only [Bool.false_eq_true, if_false] at h5
         split at h5
         · exact key h5
         · simp at h5)
where
  mapRes_mem {α β : Type} {f : α → Res β} : ∀ {xs : List α} {ys : List β}, mapRes f xs = .ok ys → ∀ x ∈ xs, ∃ y, f x = .ok y := by
    intro xs ys h x hx
    induction xs generalizing ys with
    | nil => simp at hx
    | cons a xs ih =>
      simp only [mapRes, Res.bind_eq_ok] at h
      obtain ⟨y, h1, ys', h2, h3⟩ := h
      rcases List.mem_cons.1 hx with rfl | hx
      · exact ⟨y, h1⟩
      · exact ih h2 hx


/-! ## A condition that can be read off -/

theorem calmList_iff : ∀ xs : List (Expr K), calmList xs = true ↔ ∀ x ∈ xs, x.calm = true
  | [] => by simp [calmList]
  | x :: xs => by simp [calmList, calmList_iff xs]

theorem calmDict_iff : ∀ xs : List (List Char × Expr K), calmDict xs = true ↔ ∀ x ∈ xs, x.2.calm = true
  | [] => by simp [calmDict]
  | (k, v) :: xs => by simp [calmDict, calmDict_iff xs]

/-- `b` may be an array or contain bad powers only if `a` may. -/
def Calmer (a b : Expr K) : Prop := (b.mayArr = true → a.mayArr = true) ∧ (a.calm = true → b.calm = true)

theorem mulTyped_calmer (t c : Expr K) (b : Bool) :
    ((mulTyped t c b).mayArr = true → t.mayArr = true ∨ c.mayArr = true) ∧
    (t.calm = true → c.calm = true → (mulTyped t c b).calm = true) := by
  unfold mulTyped
  split
  · refine ⟨fun _ => .inl rfl, fun h1 h2 => ?_⟩
    simp only [Expr.calm, calmList_iff] at h1 ⊢
    intro z hz
    obtain ⟨x, hx, rfl⟩ := List.mem_map.1 hz
    cases b <;> simp [Expr.calm, h1 x hx, h2]
  · cases b <;> simp [Expr.mayArr, Expr.calm] <;> tauto

theorem mulUnits_calmer {l r e : Expr K} (h : mulUnits l r = some e) : Calmer (.bin .mul l r) e := by
  unfold mulUnits at h
  split at h
  · simp at h; subst h
    simp [Calmer, Expr.mayArr, Expr.calm]; tauto
  · simp at h; subst h
    rename_i a b _
    have := mulTyped_calmer r a false
    simp [Calmer, Expr.mayArr, Expr.calm]; tauto
  · simp at h; subst h
    rename_i c d _
    have := mulTyped_calmer l c true
    simp [Calmer, Expr.mayArr, Expr.calm]; tauto
  · simp at h

theorem spread_calmer {xs : List (Expr K)} {r : Expr K} {o : BinOp} (ho : o = .add ∨ o = .sub ∨ o = .mul ∨ o = .div) :
    Calmer (.bin o (.arr xs) r) (.arr (xs.map fun x => elemOp o x r)) := by
  have hp : o ≠ .pow := by rcases ho with rfl | rfl | rfl | rfl <;> simp
  refine ⟨fun _ => by rcases ho with rfl | rfl | rfl | rfl <;> simp [Expr.mayArr], fun h => ?_⟩
  simp only [Expr.calm, calmList_iff, Bool.and_eq_true] at h ⊢
  intro z hz
  obtain ⟨x, hx, rfl⟩ := List.mem_map.1 hz
  simp [elemOp, Expr.calm, h.1.1 x hx, h.1.2, hp]

theorem pairs_calmer [DecidableEq K] {N : NumOps K} {n : Nat} {xs ys : List (Expr K)} {o : BinOp} {e : Expr K}
    (ho : o = .add ∨ o = .sub ∨ o = .mul ∨ o = .div)
    (ih : ∀ e e' : Expr K, simp N n e = .ok e' → Calmer e e')
    (h : (do let zs ← mapRes (simp N n) (List.zipWith (elemOp o) xs ys); .ok (Expr.arr zs)) = .ok e) :
    Calmer (.bin o (.arr xs) (.arr ys)) e := by
  have hp : o ≠ .pow := by rcases ho with rfl | rfl | rfl | rfl <;> simp
  rw [Res.bind_eq_ok] at h
  obtain ⟨zs, h1, h2⟩ := h
  simp at h2; subst h2
  refine ⟨fun _ => by rcases ho with rfl | rfl | rfl | rfl <;> simp [Expr.mayArr], fun h => ?_⟩
  simp only [Expr.calm, calmList_iff, Bool.and_eq_true] at h ⊢
  intro z hz
  obtain ⟨y, hy, h3⟩ := (mapRes_ok h1).exists_left z hz
  refine (ih y z h3).2 ?_
  obtain ⟨a, ha, b, hb, rfl⟩ := mem_zipWith hy
  simp [elemOp, Expr.calm, h.1.1 a ha, h.1.2 b hb, hp]

theorem ddVisit_calmer [DecidableEq K] {N : NumOps K} {n : Nat} {o : BinOp} {l r e : Expr K}
    (ih : ∀ e e' : Expr K, simp N n e = .ok e' → Calmer e e') (h : ddVisit N (simp N n) o l r = .ok e) :
    Calmer (.bin o l r) e := by
  have same : Calmer (.bin o l r) (.bin o l r) := ⟨id, id⟩
  have okc : ∀ {x : Expr K}, Calmer (.bin o l r) x → Res.ok x = Res.ok e → Calmer (.bin o l r) e := by
    intro x hx he; simp at he; subst he; exact hx
  have cst : ∀ k, Calmer (.bin o l r) (.const k) := fun k => ⟨by simp [Expr.mayArr], fun _ => by simp [Expr.calm]⟩
  have mc : ∀ (k : K) (a b u : Expr K),
      ((mulConst N k a b u).mayArr = true → a.mayArr = true ∨ b.mayArr = true ∨ u.mayArr = true) ∧
      (a.calm = true → b.calm = true → u.calm = true → (mulConst N k a b u).calm = true) := by
    intro k a b u
    unfold mulConst
    split
    · simp [Expr.mayArr, Expr.calm]; tauto
    · simp [Expr.mayArr, Expr.calm]; tauto
    · tauto
  cases o <;> simp only [ddVisit] at h
  case add =>
    split at h
    · split at h
      · exact pairs_calmer (by simp) ih h
      · simp at h
    · exact okc (spread_calmer (by simp)) h
    · exact okc (cst _) h
    · exact okc same h
  case sub =>
    split at h
    · split at h
      · exact pairs_calmer (by simp) ih h
      · simp at h
    · exact okc (spread_calmer (by simp)) h
    · split at h
      · exact okc (cst _) h
      · exact okc (cst _) h
    · split at h
      · exact okc ⟨by simp [Expr.mayArr], by simp [Expr.calm]⟩ h
      · exact okc same h
    · exact okc same h
  case mul =>
    split at h
    · rename_i e' he
      exact okc (mulUnits_calmer he) h
    · split at h
      · split at h
        · exact pairs_calmer (by simp) ih h
        · simp at h
      · exact okc (spread_calmer (by simp)) h
      · rename_i ys _ _
        refine okc ⟨fun _ => by simp [Expr.mayArr], fun h => ?_⟩ h
        simp only [Expr.calm, calmList_iff, Bool.and_eq_true] at h ⊢
        intro z hz
        obtain ⟨x, hx, rfl⟩ := List.mem_map.1 hz
        simp [elemOp, Expr.calm, h.1.2 x hx, h.1.1]
      · exact okc (cst _) h
      · rename_i k a b _
        have := mc k a b (.bin .mul (.const k) (.bin .mul a b))
        refine okc ⟨fun h => ?_, fun h => ?_⟩ h
        · have := this.1 h; simp [Expr.mayArr] at this ⊢; tauto
        · simp [Expr.calm] at h this; exact this.2 h.1 h.2 h.1 h.2
      · rename_i a b k _
        have := mc k a b (.bin .mul (.bin .mul a b) (.const k))
        refine okc ⟨fun h => ?_, fun h => ?_⟩ h
        · have := this.1 h; simp [Expr.mayArr] at this ⊢; tauto
        · simp [Expr.calm] at h this; exact this.2 h.1 h.2 h.1 h.2
      · exact okc same h
  case div =>
    split at h
    · exact okc (by simp [Calmer, Expr.mayArr, Expr.calm]; tauto) h
    · split at h
      · exact pairs_calmer (by simp) ih h
      · simp at h
    · exact okc (spread_calmer (by simp)) h
    · exact okc (cst _) h
    · exact okc same h
  case pow =>
    split at h
    · exact absurd h (pow_arrays_not_ok N n _ _ e)
    · exact okc (cst _) h
    · exact okc same h
  case access =>
    split at h
    · exact okc same h
    · simp at h
  all_goals exact okc same h

theorem simp_calmer [DecidableEq K] (N : NumOps K) : ∀ (n : Nat) (e e' : Expr K), simp N n e = .ok e' → Calmer e e'
  | 0, e, e', h => by simp [simp] at h
  | n + 1, .const _, e', h => by simp [simp] at h; subst h; exact ⟨id, id⟩
  | n + 1, .var _, e', h => by simp [simp] at h; subst h; exact ⟨id, id⟩
  | n + 1, .un o a, e', h => by
    simp only [simp, Res.bind_eq_ok] at h
    obtain ⟨a', h1, h2⟩ := h
    simp at h2; subst h2
    have h3 := simp_calmer N n a a' h1
    unfold foldUn
    split
    · cases o <;> simp [Calmer, Expr.mayArr, Expr.calm]
    · simpa [Calmer, Expr.mayArr, Expr.calm] using h3.2
  | n + 1, .bin o l r, e', h => by
    simp only [simp, Res.bind_eq_ok] at h
    obtain ⟨l', h1, r', h2, h3⟩ := h
    have h4 := simp_calmer N n l l' h1
    have h5 := simp_calmer N n r r' h2
    have hb : Calmer (.bin o l r) (.bin o l' r') := by
      obtain ⟨a1, a2⟩ := h4
      obtain ⟨b1, b2⟩ := h5
      constructor
      · cases o <;> simp [Expr.mayArr] <;> tauto
      · simp only [Expr.calm, Bool.and_eq_true, Bool.or_eq_true, bne_iff_ne, ne_eq, Bool.not_eq_true']
        rintro ⟨⟨c1, c2⟩, c3⟩
        refine ⟨⟨a2 c1, b2 c2⟩, ?_⟩
        rcases c3 with (c3 | c3) | c3
        · exact .inl (.inl c3)
        · exact .inl (.inr (by by_contra hc; simp at hc; rw [a1 hc] at c3; simp at c3))
        · exact .inr (by by_contra hc; simp at hc; rw [b1 hc] at c3; simp at c3)
    refine ⟨fun h => hb.1 ?_, fun h => ?_⟩ <;> revert h
    all_goals
      have hd := fun hdd => ddVisit_calmer (o := o) (l := l') (r := r') (e := e') (fun a b => simp_calmer N n a b) hdd
      unfold simpBin at h3
      split at h3
      · rename_i hc
        obtain ⟨k, rfl, _⟩ := (isConst_iff _ _).1 hc
        simp at h3; subst h3
        simp [Expr.mayArr, Expr.calm]
      split at h3
      · rename_i hc
        simp at h3; subst h3
        first
        | (intro h; cases o <;> simp [BinOp.leftId, isConst] at hc <;> simp [Expr.mayArr, h])
        | (intro h; have := hb.2 h; simp [Expr.calm] at this; tauto)
      split at h3
      · rename_i hc
        obtain ⟨k, rfl, _⟩ := (isConst_iff _ _).1 hc
        simp at h3; subst h3
        simp [Expr.mayArr, Expr.calm]
      split at h3
      · rename_i hc
        simp at h3; subst h3
        first
        | (intro h; cases o <;> simp [BinOp.rightId, isConst] at hc <;> simp [Expr.mayArr, h])
        | (intro h; have := hb.2 h; simp [Expr.calm] at this; tauto)
      first
      | exact (hd h3).1
      | exact fun h => (hd h3).2 (hb.2 h)
  | n + 1, .arr xs, e', h => by
    simp only [simp, Res.bind_eq_ok] at h
    obtain ⟨ys, h1, h2⟩ := h
    simp at h2; subst h2
    refine ⟨fun _ => rfl, fun h => ?_⟩
    simp only [Expr.calm, calmList_iff] at h ⊢
    intro y hy
    obtain ⟨x, hx, h3⟩ := (mapRes_ok h1).exists_left y hy
    exact (simp_calmer N n x y h3).2 (h x hx)
  | n + 1, .dict xs, e', h => by
    simp only [simp, Res.bind_eq_ok] at h
    obtain ⟨ys, h1, h2⟩ := h
    simp at h2; subst h2
    refine ⟨by simp [Expr.mayArr], fun h => ?_⟩
    simp only [Expr.calm, calmDict_iff] at h ⊢
    intro y hy
    obtain ⟨x, hx, h3⟩ := (mapRes_ok h1).exists_left y hy
    rw [Res.bind_eq_ok] at h3
    obtain ⟨v, h4, h5⟩ := h3
    simp at h5; subst h5
    exact (simp_calmer N n x.2 v h4).2 (h x hx)

theorem calm_not_meets [DecidableEq K] (N : NumOps K) {e : Expr K} (hm : Meets N e) : e.calm = false := by
  by_contra hc
  rw [Bool.not_eq_false] at hc
  induction hm with
  | pow h1 h2 =>
    obtain ⟨_, h1⟩ := h1
    obtain ⟨_, h2⟩ := h2
    have h3 := (simp_calmer N _ _ _ h1).1 rfl
    have h4 := (simp_calmer N _ _ _ h2).1 rfl
    simp [Expr.calm, h3, h4] at hc
  | un _ ih => exact ih (by simpa [Expr.calm] using hc)
  | left _ ih => simp only [Expr.calm, Bool.and_eq_true] at hc; exact ih hc.1.1
  | right _ ih => simp only [Expr.calm, Bool.and_eq_true] at hc; exact ih hc.1.2
  | elem hx _ ih => simp only [Expr.calm, calmList_iff] at hc; exact ih (hc _ hx)
  | value hx _ ih => simp only [Expr.calm, calmDict_iff] at hc; exact ih (hc _ hx)
  | @pair o l r xs ys z ho h1 h2 hz _ ih =>
    obtain ⟨_, h1⟩ := h1
    obtain ⟨_, h2⟩ := h2
    simp only [Expr.calm, Bool.and_eq_true] at hc
    have h3 := (simp_calmer N _ _ _ h1).2 hc.1.1
    have h4 := (simp_calmer N _ _ _ h2).2 hc.1.2
    simp only [Expr.calm, calmList_iff] at h3 h4
    obtain ⟨x, hx, y, hy, rfl⟩ := mem_zipWith hz
    refine ih ?_
    rcases ho with rfl | rfl | rfl | rfl <;> simp [Expr.calm, h3 x hx, h4 y hy]

/-- **C10**, for a class of expressions that can be read off: no power has two sides that contain arrays in places from which an
array can come out. -/
theorem C10_calm_terminates [DecidableEq K] (N : NumOps K) (e : Expr K) (h : e.calm = true) :
    ∃ r : Res (Expr K), r ≠ .diverge ∧ ∀ n, e.work ≤ n → simp N n e = r :=
  C10_terminates N e fun hm => by rw [calm_not_meets N hm] at h; simp at h

/-- `([x, 2]{m}) * [y, {k: 3{s}}] ^ sin([1])` -/
example : (Expr.bin .mul (.bin .units (.arr [.var ['x'], .const 2]) (.var ['m']))
    (.bin .pow (.arr [.var ['y'], .dict [(['k'], .bin .units (.const 3) (.var ['s']))]]) (.un .sin (.arr [.const 1])))
      : Expr Nat).calm = true := by
  simp [Expr.calm, calmList, calmDict, Expr.mayArr]

/-- `sin([x] ^ [2])` comes across a power of two arrays -/
example (N : NumOps Nat) : Meets N (.un .sin (.bin .pow (.arr [.var ['x']]) (.arr [.const 2]))) :=
  .un (.pow ⟨2, by simp [simp, mapRes]; rfl⟩ ⟨2, by simp [simp, mapRes]; rfl⟩)

end Stator
