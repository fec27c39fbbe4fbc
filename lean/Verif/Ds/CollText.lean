import Verif.Ds.Outcome

/-!
# C94: the texts of vectors and matrices

`repr` of an Eigen matrix and `<<` of a `StackVector`, as functions of the texts of the elements.
-/

namespace Stator.Ds.Coll

open Stator.Ds

abbrev Str := List Char

/-- An Eigen matrix: the elements column by column. -/
structure Mat (α : Type) where
  rows : Nat
  cols : Nat
  data : List α
  size : data.length = rows * cols

/-- `val(i, j)`: element in row `i` and column `j`; undefined outside of the matrix (Eigen asserts `row >= 0 && row < rows() && ...`). -/
def Mat.get {α : Type} (m : Mat α) (i j : Nat) : Out α :=
  if i < m.rows ∧ j < m.cols then rd m.data (j * m.rows + i) else .ub

/-- `os << a; os << b; …` for `i = 0, …, n-1`. -/
def loop (body : Nat → Out Str) : Nat → Out Str
  | 0 => .ok []
  | n + 1 => do
    let a ← loop body n
    let b ← body n
    return a ++ b

/-- models: stator/symbolic/runtime.hpp:1136-1162 `repr` of an Eigen matrix; `shw` is `repr` of an element. -/
def matText {α : Type} (shw : α → Str) (m : Mat α) : Out Str :=
  if m.cols = 1 ∧ m.rows = 1 then do
    let x ← m.get 0 0
    return shw x
  else if m.cols = 1 then do
    let s ← loop (fun i => do
      let x ← m.get i 0
      return shw x ++ [' ']) m.rows
    return ['{', ' '] ++ s ++ ['}', '^', 'T']
  else do
    let s ← loop (fun i => do
      let r ← loop (fun j => do
        let x ← m.get i j
        return shw x ++ [' ']) m.rows
      return ['{', ' '] ++ r ++ ['}', ' ']) m.cols
    return ['{', ' '] ++ s ++ ['}']

/-- models: stator/orphan/stack_vector.hpp:145-152 `operator<<`; `shw` is `<<` of an element. -/
def vecText {α : Type} (shw : α → Str) (xs : List α) : Str :=
  "StackVector{ ".toList ++ xs.flatMap (fun x => shw x ++ [' ']) ++ ['}']

/-- models: stator/orphan/stack_vector.hpp:155-162 `operator<<` for pairs. -/
def pairsText {α β : Type} (sa : α → Str) (sb : β → Str) (xs : List (α × β)) : Str :=
  "StackVector{ ".toList ++ xs.flatMap (fun x => ['['] ++ sa x.1 ++ [',', ' '] ++ sb x.2 ++ [']', ' ']) ++ ['}']

/-- models: stator/orphan/stack_vector.hpp:164-194 `operator<<` for tuples and `tuple_print`. The texts of the entries of a tuple are
given (the entries have different types). -/
def tuplesText (xs : List (List Str)) : Str :=
  "StackVector{ ".toList ++ xs.flatMap (fun x => ['['] ++ x.flatMap (fun s => s ++ [' ']) ++ [']', ' ']) ++ ['}']

/-! ## Specification -/

/-- The element in row `i` and column `j` is `x`. -/
def Mat.Has {α : Type} (m : Mat α) (i j : Nat) (x : α) : Prop := i < m.rows ∧ j < m.cols ∧ m.data[j * m.rows + i]? = some x

/-- `x` is the list of the elements of row `i`. -/
def Mat.IsRow {α : Type} (m : Mat α) (i : Nat) (x : List α) : Prop := x.length = m.cols ∧ ∀ (j : Nat) (a : α), x[j]? = some a → m.Has i j a

/-- `x` is the list of the rows. -/
def Mat.IsRows {α : Type} (m : Mat α) (x : List (List α)) : Prop := x.length = m.rows ∧ ∀ (i : Nat) (r : List α), x[i]? = some r → m.IsRow i r

/-- The words, separated by blanks, in braces. -/
def braces (ws : List Str) : Str := ['{', ' '] ++ ws.flatMap (fun w => w ++ [' ']) ++ ['}']

/-- A text without blanks and braces. -/
def Plain (w : Str) : Prop := ' ' ∉ w ∧ '{' ∉ w ∧ '}' ∉ w

/-! ## Loops -/

theorem loop_ok {body : Nat → Out Str} {f : Nat → Str} : ∀ n, (∀ i, i < n → body i = .ok (f i)) →
    loop body n = .ok ((List.range n).flatMap f)
  | 0, _ => rfl
  | n + 1, h => by
    rw [loop, loop_ok n fun i hi => h i (Nat.lt_succ_of_lt hi), Out.ok_bind, h n (Nat.lt_succ_self n), Out.ok_bind]
    simp [List.range_succ]

theorem loop_exists {b : Nat → Out Str} (n : Nat) (h : ∀ i, i < n → ∃ s, b i = .ok s) : ∃ s, loop b n = .ok s :=
  ⟨_, loop_ok (f := fun i => if h' : i < n then (h i h').choose else []) n fun i hi => by
    simp only [hi, dif_pos]; exact (h i hi).choose_spec⟩

theorem loop_ub {body : Nat → Out Str} {k : Nat} (hk : body k = .ub) (hb : ∀ i, i < k → ∃ s, body i = .ok s) : ∀ n, k < n →
    loop body n = .ub
  | n + 1, h => by
    rw [loop]
    by_cases e : k = n
    · subst e
      rw [loop_ok (f := fun i => if h : i < k then (hb i h).choose else []) k fun i hi => by
        simp only [hi, dif_pos]; exact (hb i hi).choose_spec]
      simp [hk]
    · rw [loop_ub hk hb n (by omega)]
      rfl

theorem Mat.get_ok {α : Type} (m : Mat α) {i j : Nat} (hi : i < m.rows) (hj : j < m.cols) : ∃ x, m.get i j = .ok x ∧ m.Has i j x := by
  have h : j * m.rows + i < m.data.length := by
    rw [m.size]
    calc j * m.rows + i < j * m.rows + m.rows := by omega
      _ = (j + 1) * m.rows := by rw [Nat.add_mul, Nat.one_mul]
      _ ≤ m.cols * m.rows := Nat.mul_le_mul_right _ hj
      _ = m.rows * m.cols := Nat.mul_comm _ _
  exact ⟨m.data[j * m.rows + i], by rw [Mat.get, if_pos ⟨hi, hj⟩, rd_ok h], hi, hj, by simp [h]⟩

theorem Mat.get_has {α : Type} (m : Mat α) {i j : Nat} {x : α} (h : m.Has i j x) : m.get i j = .ok x := by
  rw [Mat.get, if_pos ⟨h.1, h.2.1⟩, rd, h.2.2]

theorem Mat.get_ub {α : Type} (m : Mat α) {i j : Nat} (h : m.rows ≤ i ∨ m.cols ≤ j) : m.get i j = .ub := by
  rw [Mat.get, if_neg (by omega)]

/-- The loop over the elements `x`. -/
theorem loop_list {α : Type} (shw : α → Str) (g : Nat → Out α) (x : List α) (h : ∀ (j : Nat) (a : α), x[j]? = some a → g j = .ok a) :
    loop (fun j => do
        let x ← g j
        return shw x ++ [' ']) x.length = .ok (x.flatMap fun a => shw a ++ [' ']) := by
  rw [loop_ok (f := fun j => match x[j]? with | some a => shw a ++ [' '] | none => [])]
  · congr 1
    clear h g
    induction x with
    | nil => rfl
    | cons a x ih => rw [List.length_cons, List.range_succ_eq_map]; simp only [List.flatMap_cons, List.flatMap_map]; simpa using ih
  · intro j hj
    simp only [List.getElem?_eq_getElem hj, h j _ (List.getElem?_eq_getElem hj), Out.ok_bind, Out.pure_eq]

/-! ## C94: what the text is -/

/-- **C94**: the text of a square matrix: the rows, each a list of its elements. -/
theorem C94_square {α : Type} (shw : α → Str) (m : Mat α) (x : List (List α)) (hx : m.IsRows x) (h1 : m.rows = m.cols) (h2 : m.cols ≠ 1) :
    matText shw m = .ok (braces (x.map fun r => braces (r.map shw))) := by
  unfold matText
  rw [if_neg (fun h => h2 h.1), if_neg h2, ← h1, ← hx.1]
  rw [loop_ok (f := fun i => match x[i]? with | some r => braces (r.map shw) ++ [' '] | none => [])]
  · simp only [Out.ok_bind, Out.pure_eq, braces, List.flatMap_map]
    congr 3
    have : ∀ y : List (List α), List.flatMap (fun i => match y[i]? with
        | some r => braces (r.map shw) ++ [' '] | none => []) (List.range y.length) = y.flatMap fun r => braces (r.map shw) ++ [' '] := by
      intro y
      induction y with
      | nil => rfl
      | cons a y ih => rw [List.length_cons, List.range_succ_eq_map]; simp only [List.flatMap_cons, List.flatMap_map]; simpa using ih
    simpa [braces, List.flatMap_map] using this x
  · intro i hi
    have hr := hx.2 i _ (List.getElem?_eq_getElem hi)
    have e : x.length = (x[i]).length := by rw [hx.1, hr.1, h1]
    rw [e, loop_list shw _ x[i] fun j a ha => m.get_has (hr.2 j a ha)]
    simp [List.getElem?_eq_getElem hi, braces, List.flatMap_map]

/-- **C94**: the text of a column. -/
theorem C94_column {α : Type} (shw : α → Str) (m : Mat α) (h1 : m.cols = 1) (h2 : m.rows ≠ 1) :
    matText shw m = .ok (braces (m.data.map shw) ++ ['^', 'T']) := by
  unfold matText
  rw [if_neg (fun h => h2 h.2), if_pos h1]
  have e : m.rows = m.data.length := by rw [m.size, h1, Nat.mul_one]
  rw [e, loop_list shw _ m.data fun j a ha => m.get_has ⟨by rw [e]; exact (List.getElem?_eq_some_iff.1 ha).1, by omega, by simpa using ha⟩]
  simp [braces, List.flatMap_map]

/-- **C94**: the text of a matrix with one element. -/
theorem C94_single {α : Type} (shw : α → Str) (m : Mat α) (x : α) (h : m.data = [x]) (h1 : m.cols = 1) : matText shw m = .ok (shw x) := by
  have h2 : m.rows = 1 := by have := m.size; rw [h, h1] at this; simpa using this.symm
  unfold matText
  rw [if_pos ⟨h1, h2⟩, m.get_has (i := 0) (j := 0) (x := x) ⟨by omega, by omega, by simp [h]⟩]
  rfl

/-- **C94**: which matrices have a text. For all others elements outside of the matrix are read. -/
theorem C94_defined {α : Type} (shw : α → Str) (m : Mat α) :
    (∃ s, matText shw m = .ok s) ↔ (m.rows = m.cols ∨ m.cols = 1 ∨ m.rows = 0 ∨ m.cols = 0) := by
  unfold matText
  by_cases c1 : m.cols = 1
  · refine iff_of_true ?_ (.inr (.inl c1))
    by_cases r1 : m.rows = 1
    · obtain ⟨x, e, -⟩ := m.get_ok (i := 0) (j := 0) (by omega) (by omega)
      rw [if_pos ⟨c1, r1⟩, e]; exact ⟨_, rfl⟩
    · rw [if_neg (fun h => r1 h.2), if_pos c1]
      obtain ⟨s, e⟩ := loop_exists (b := fun i => do
        let x ← m.get i 0
        return shw x ++ [' ']) m.rows fun i hi => by
          obtain ⟨x, e, -⟩ := m.get_ok (j := 0) hi (by omega)
          exact ⟨_, by rw [e]; rfl⟩
      rw [e]; exact ⟨_, rfl⟩
  · rw [if_neg (fun h => c1 h.1), if_neg c1]
    have inner : ∀ i, i < m.rows → ∀ n, n ≤ m.cols → ∃ s, loop (fun j => do
        let x ← m.get i j
        return shw x ++ [' ']) n = .ok s := by
      intro i hi n hn
      refine loop_exists n fun j hj => ?_
      obtain ⟨x, e, -⟩ := m.get_ok hi (show j < m.cols by omega)
      exact ⟨_, by rw [e]; rfl⟩
    by_cases c0 : m.cols = 0
    · refine iff_of_true ?_ (by omega)
      rw [c0]; exact ⟨_, rfl⟩
    by_cases r0 : m.rows = 0
    · refine iff_of_true ?_ (by omega)
      obtain ⟨s, e⟩ := loop_exists (b := fun i => do
        let r ← loop (fun j => do
          let x ← m.get i j
          return shw x ++ [' ']) m.rows
        return ['{', ' '] ++ r ++ ['}', ' ']) m.cols fun i _ => by rw [r0]; exact ⟨_, rfl⟩
      rw [e]; exact ⟨_, rfl⟩
    by_cases sq : m.rows = m.cols
    · refine iff_of_true ?_ (.inl sq)
      obtain ⟨s, e⟩ := loop_exists (b := fun i => do
        let r ← loop (fun j => do
          let x ← m.get i j
          return shw x ++ [' ']) m.rows
        return ['{', ' '] ++ r ++ ['}', ' ']) m.cols fun i hi => by
          obtain ⟨s, e⟩ := inner i (by omega) m.rows (by omega)
          exact ⟨_, by rw [e]; rfl⟩
      rw [e]; exact ⟨_, rfl⟩
    refine iff_of_false ?_ (by omega)
    rintro ⟨s, h⟩
    by_cases lt : m.rows < m.cols
    · rw [loop_ub (k := m.rows) ?_ ?_ m.cols lt] at h
      · cases h
      · rw [loop_ub (k := 0) (by rw [m.get_ub (.inl (Nat.le_refl _))]; rfl) (fun i h => absurd h (Nat.not_lt_zero _)) m.rows (by omega)]
        rfl
      · intro i hi
        obtain ⟨s, e⟩ := inner i hi m.rows (by omega)
        exact ⟨_, by rw [e]; rfl⟩
    · rw [loop_ub (k := 0) ?_ (fun i h => absurd h (Nat.not_lt_zero _)) m.cols (by omega)] at h
      · cases h
      · rw [loop_ub (k := m.cols) (by rw [m.get_ub (.inr (Nat.le_refl _))]; rfl) ?_ m.rows (by omega)]
        · rfl
        · intro j hj
          obtain ⟨x, e, -⟩ := m.get_ok (i := 0) (j := j) (by omega) hj
          exact ⟨_, by rw [e]; rfl⟩

/-! ## The text determines the elements -/

/-- Words without blanks, each followed by a blank, and a last one. -/
theorem words_inj : ∀ {ws ws' : List Str} {t t' : Str}, (∀ w ∈ ws, ' ' ∉ w) → (∀ w ∈ ws', ' ' ∉ w) → ' ' ∉ t → ' ' ∉ t' →
    ws.flatMap (fun w => w ++ [' ']) ++ t = ws'.flatMap (fun w => w ++ [' ']) ++ t' → ws = ws' ∧ t = t'
  | [], [], _, _, _, _, _, _, h => ⟨rfl, by simpa using h⟩
  | [], w :: ws, t, _, _, _, ht, _, h => absurd (show ' ' ∈ t by
      simp only [List.flatMap_nil, List.nil_append] at h
      rw [h]; simp) ht
  | w :: ws, [], _, t', _, _, _, ht, h => absurd (show ' ' ∈ t' by
      simp only [List.flatMap_nil, List.nil_append] at h
      rw [← h]; simp) ht
  | w :: ws, w' :: ws', t, t', h1, h2, ht, ht', h => by
    have key : ∀ {a b : Str} {x y : Str}, ' ' ∉ a → ' ' ∉ b → a ++ ' ' :: x = b ++ ' ' :: y → a = b ∧ x = y := by
      intro a
      induction a with
      | nil =>
        intro b x y _ hb e
        cases b with
        | nil => exact ⟨rfl, by simpa using e⟩
        | cons c b => exact absurd (show ' ' ∈ c :: b by rw [← (List.cons.inj e).1]; exact List.mem_cons_self) hb
      | cons d a ih =>
        intro b x y ha hb e
        cases b with
        | nil => exact absurd (show ' ' ∈ d :: a by rw [(List.cons.inj e).1]; exact List.mem_cons_self) ha
        | cons c b =>
          obtain ⟨e1, e2⟩ := List.cons.inj e
          obtain ⟨e3, e4⟩ := ih (fun h => ha (List.mem_cons_of_mem _ h)) (fun h => hb (List.mem_cons_of_mem _ h)) e2
          exact ⟨by rw [e1, e3], e4⟩
    simp only [List.flatMap_cons, List.append_assoc, List.cons_append, List.nil_append] at h
    obtain ⟨e1, e2⟩ := key (h1 w (by simp)) (h2 w' (by simp)) h
    obtain ⟨e3, e4⟩ := words_inj (fun w hw => h1 w (by simp [hw])) (fun w hw => h2 w (by simp [hw])) ht ht' e2
    exact ⟨by rw [e1, e3], e4⟩

/-- Groups of words, each between two brackets. -/
theorem groups_inj {a b : Str} : ∀ {x y : List (List Str)}, (∀ g ∈ x, b ∉ g) → (∀ g ∈ y, b ∉ g) →
    x.flatMap (fun g => a :: g ++ [b]) = y.flatMap (fun g => a :: g ++ [b]) → x = y
  | [], [], _, _, _ => rfl
  | [], _ :: _, _, _, h => by simp at h
  | _ :: _, [], _, _, h => by simp at h
  | g :: x, g' :: y, h1, h2, h => by
    have key : ∀ {p q u v : List Str}, b ∉ p → b ∉ q → p ++ b :: u = q ++ b :: v → p = q ∧ u = v := by
      intro p
      induction p with
      | nil =>
        intro q u v _ hq e
        cases q with
        | nil => exact ⟨rfl, by simpa using e⟩
        | cons c q => exact absurd (show b ∈ c :: q by rw [← (List.cons.inj e).1]; exact List.mem_cons_self) hq
      | cons d p ih =>
        intro q u v hp hq e
        cases q with
        | nil => exact absurd (show b ∈ d :: p by rw [(List.cons.inj e).1]; exact List.mem_cons_self) hp
        | cons c q =>
          obtain ⟨e1, e2⟩ := List.cons.inj e
          obtain ⟨e3, e4⟩ := ih (fun h => hp (List.mem_cons_of_mem _ h)) (fun h => hq (List.mem_cons_of_mem _ h)) e2
          exact ⟨by rw [e1, e3], e4⟩
    simp only [List.flatMap_cons, List.cons_append, List.append_assoc, List.cons.injEq, List.nil_append, true_and] at h
    obtain ⟨e1, e2⟩ := key (h1 g (by simp)) (h2 g' (by simp)) h
    rw [e1, groups_inj (fun g hg => h1 g (by simp [hg])) (fun g hg => h2 g (by simp [hg])) e2]

theorem map_inj {α β : Type} {f : α → β} (hf : ∀ x y, f x = f y → x = y) {a b : List α} (h : a.map f = b.map f) : a = b := by
  induction a generalizing b with
  | nil => simpa using h
  | cons x a ih =>
    cases b with
    | nil => simp at h
    | cons y b =>
      simp only [List.map_cons, List.cons.injEq] at h
      rw [hf _ _ h.1, ih h.2]

/-- The list of rows. -/
theorem Mat.rows_exist {α : Type} (m : Mat α) : ∃ x, m.IsRows x := by
  have row : ∀ i, i < m.rows → ∀ n, n ≤ m.cols → ∃ x : List α, x.length = n ∧ ∀ (j : Nat) a, x[j]? = some a → m.Has i j a := by
    intro i hi n
    induction n with
    | zero => exact fun _ => ⟨[], rfl, by simp⟩
    | succ n ih =>
      intro hn
      obtain ⟨x, l, h⟩ := ih (by omega)
      obtain ⟨a, -, ha⟩ := m.get_ok hi (show n < m.cols by omega)
      refine ⟨x ++ [a], by simp [l], fun j b hj => ?_⟩
      rcases Nat.lt_trichotomy j n with h1 | h1 | h1
      · exact h j b (by rwa [List.getElem?_append_left (by omega)] at hj)
      · subst h1
        rw [List.getElem?_append_right (by omega)] at hj
        simp [l] at hj
        subst hj; exact ha
      · rw [List.getElem?_eq_none (by simp; omega)] at hj; cases hj
  have : ∀ n, n ≤ m.rows → ∃ x : List (List α), x.length = n ∧ ∀ (i : Nat) r, x[i]? = some r → m.IsRow i r := by
    intro n
    induction n with
    | zero => exact fun _ => ⟨[], rfl, by simp⟩
    | succ n ih =>
      intro hn
      obtain ⟨x, l, h⟩ := ih (by omega)
      obtain ⟨a, l', ha⟩ := row n (by omega) m.cols (Nat.le_refl _)
      refine ⟨x ++ [a], by simp [l], fun j b hj => ?_⟩
      rcases Nat.lt_trichotomy j n with h1 | h1 | h1
      · exact h j b (by rwa [List.getElem?_append_left (by omega)] at hj)
      · subst h1
        rw [List.getElem?_append_right (by omega)] at hj
        simp [l] at hj
        subst hj; exact ⟨l', ha⟩
      · rw [List.getElem?_eq_none (by simp; omega)] at hj; cases hj
  exact this _ (Nat.le_refl _)

theorem Mat.rows_data {α : Type} {m m' : Mat α} {x : List (List α)} (h : m.IsRows x) (h' : m'.IsRows x) (hc : m.cols = m'.cols) :
    m.rows = m'.rows ∧ m.data = m'.data := by
  have hr : m.rows = m'.rows := h.1.symm.trans h'.1
  refine ⟨hr, List.ext_getElem? fun k => ?_⟩
  by_cases hk : k < m.rows * m.cols
  · have r0 : 0 < m.rows := Nat.pos_of_ne_zero fun e => by rw [e, Nat.zero_mul] at hk; omega
    have hi : k % m.rows < x.length := by rw [h.1]; exact Nat.mod_lt _ r0
    have hj : k / m.rows < m.cols := Nat.div_lt_of_lt_mul hk
    have e1 := h.2 _ _ (List.getElem?_eq_getElem hi)
    have e2 := h'.2 _ _ (List.getElem?_eq_getElem hi)
    have hl : k / m.rows < x[k % m.rows].length := by rw [e1.1]; exact hj
    have a1 := (e1.2 _ _ (List.getElem?_eq_getElem hl)).2.2
    have a2 := (e2.2 _ _ (List.getElem?_eq_getElem hl)).2.2
    rw [← hr] at a2
    rw [Nat.mul_comm, Nat.div_add_mod] at a1 a2
    rw [a1, a2]
  · rw [List.getElem?_eq_none (by rw [m.size]; omega), List.getElem?_eq_none (by rw [m'.size, ← hr, ← hc]; omega)]

/-- The text of a square matrix as words. -/
theorem square_words (x : List (List Str)) : braces (x.map braces) =
    (['{'] :: x.flatMap fun g => ['{'] :: g ++ [['}']]).flatMap (fun w => w ++ [' ']) ++ ['}'] := by
  have : ∀ x : List (List Str), (x.map braces).flatMap (fun w => w ++ [' ']) =
      (x.flatMap fun g => ['{'] :: g ++ [['}']]).flatMap (fun w => w ++ [' ']) := by
    intro x
    induction x with
    | nil => rfl
    | cons g x ih =>
      rw [List.map_cons, List.flatMap_cons, ih, List.flatMap_cons, List.flatMap_append]
      simp [braces]
  rw [braces, this]
  simp

theorem column_words (x : List Str) : braces x ++ ['^', 'T'] = (['{'] :: x).flatMap (fun w => w ++ [' ']) ++ ['}', '^', 'T'] := by
  simp [braces]

/-- **C94**: nonempty matrices of different shapes or with different elements have different texts, if different elements have different
texts, without blanks and braces. -/
theorem C94_injective {α : Type} (shw : α → Str) (hp : ∀ x, Plain (shw x)) (hs : ∀ x y, shw x = shw y → x = y) (m m' : Mat α) (s : Str)
    (h1 : matText shw m = .ok s) (h2 : matText shw m' = .ok s) (n1 : m.data ≠ []) (n2 : m'.data ≠ []) :
    m.rows = m'.rows ∧ m.cols = m'.cols ∧ m.data = m'.data := by
  -- the three forms of a text
  have form : ∀ m : Mat α, matText shw m = .ok s → m.data ≠ [] →
      (m.cols = 1 ∧ ∃ x, m.data = [x] ∧ s = shw x) ∨ (m.cols = 1 ∧ s = braces (m.data.map shw) ++ ['^', 'T']) ∨
      (m.rows = m.cols ∧ ∃ x, m.IsRows x ∧ s = braces ((x.map fun r => r.map shw).map braces)) := by
    intro m h n
    have n1 : m.rows ≠ 0 := fun e => n (List.eq_nil_of_length_eq_zero (by rw [m.size, e, Nat.zero_mul]))
    have n2 : m.cols ≠ 0 := fun e => n (List.eq_nil_of_length_eq_zero (by rw [m.size, e, Nat.mul_zero]))
    have d := (C94_defined shw m).1 ⟨s, h⟩
    by_cases c1 : m.cols = 1
    · by_cases r1 : m.rows = 1
      · obtain ⟨x, e⟩ := List.length_eq_one_iff.1 (show m.data.length = 1 by rw [m.size, c1, r1])
        rw [C94_single shw m x e c1] at h
        exact .inl ⟨c1, x, e, (Out.ok.inj h).symm⟩
      · rw [C94_column shw m c1 r1] at h
        exact .inr (.inl ⟨c1, (Out.ok.inj h).symm⟩)
    · have sq : m.rows = m.cols := by omega
      obtain ⟨x, hx⟩ := m.rows_exist
      rw [C94_square shw m x hx sq c1] at h
      exact .inr (.inr ⟨sq, x, hx, by rw [← Out.ok.inj h, List.map_map]; rfl⟩)
  have size : ∀ m : Mat α, m.cols = 1 → m.rows = m.data.length := fun m h => by rw [m.size, h, Nat.mul_one]
  have nb : ∀ x, ' ' ∉ shw x := fun x => (hp x).1
  have first : ∀ (x : α) (t : Str), shw x = '{' :: t → False := fun x t e => (hp x).2.1 (by rw [e]; exact List.mem_cons_self)
  have wb : ∀ x : List α, ∀ w ∈ ['{'] :: x.map shw, ' ' ∉ w := by
    intro x w hw
    rcases List.mem_cons.1 hw with rfl | hw
    · decide
    · obtain ⟨a, -, rfl⟩ := List.mem_map.1 hw
      exact nb a
  have wr : ∀ x : List (List α), ∀ w ∈ ['{'] :: (x.map fun r => r.map shw).flatMap (fun g => ['{'] :: g ++ [['}']]), ' ' ∉ w := by
    intro x w hw
    rcases List.mem_cons.1 hw with rfl | hw
    · decide
    · obtain ⟨g, hg, hw⟩ := List.mem_flatMap.1 hw
      obtain ⟨r, -, rfl⟩ := List.mem_map.1 hg
      rw [List.mem_append] at hw
      rcases hw with hw | hw
      · exact wb r w hw
      · rw [List.mem_singleton.1 hw]; decide
  have gb : ∀ x : List (List α), ∀ g ∈ x.map fun r => r.map shw, ['}'] ∉ g := by
    intro x g hg h
    obtain ⟨r, -, rfl⟩ := List.mem_map.1 hg
    obtain ⟨a, -, e⟩ := List.mem_map.1 h
    exact (hp a).2.2 (by rw [e]; exact List.mem_cons_self)
  rcases form m h1 n1 with ⟨c, x, e, hx⟩ | ⟨c, e⟩ | ⟨q, x, hx, e⟩ <;>
    rcases form m' h2 n2 with ⟨c', x', e', hx'⟩ | ⟨c', e'⟩ | ⟨q', x', hx', e'⟩
  · have := hs _ _ (hx.symm.trans hx')
    subst this
    exact ⟨by rw [size m c, size m' c', e, e'], by rw [c, c'], by rw [e, e']⟩
  · exact (first x _ (hx.symm.trans e')).elim
  · exact (first x _ (hx.symm.trans e')).elim
  · exact (first x' _ (hx'.symm.trans e)).elim
  · have := e.symm.trans e'
    rw [column_words, column_words] at this
    have := (List.cons.inj (words_inj (wb _) (wb _) (by decide) (by decide) this).1).2
    have := map_inj hs this
    exact ⟨by rw [size m c, size m' c', this], by rw [c, c'], this⟩
  · have := e.symm.trans e'
    rw [column_words, square_words] at this
    exact absurd (words_inj (wb _) (wr _) (by decide) (by decide) this).2 (by decide)
  · exact (first x' _ (hx'.symm.trans e)).elim
  · have := e.symm.trans e'
    rw [column_words, square_words] at this
    exact absurd (words_inj (wr _) (wb _) (by decide) (by decide) this).2 (by decide)
  · have := e.symm.trans e'
    rw [square_words, square_words] at this
    have := (List.cons.inj (words_inj (wr _) (wr _) (by decide) (by decide) this).1).2
    have := map_inj (fun a b h => map_inj hs h) (groups_inj (gb x) (gb x') this)
    subst this
    have hc : m.cols = m'.cols := by rw [← q, ← q', ← hx.1, ← hx'.1]
    obtain ⟨a, b⟩ := Mat.rows_data hx hx' hc
    exact ⟨a, hc, b⟩

/-- **C94**: the text of a `StackVector` determines its elements, if different elements have different texts, without blanks. -/
theorem C94_vector {α : Type} (shw : α → Str) (hb : ∀ x, ' ' ∉ shw x) (hs : ∀ x y, shw x = shw y → x = y) (a b : List α)
    (h : vecText shw a = vecText shw b) : a = b := by
  have w : ∀ x : List α, x.flatMap (fun x => shw x ++ [' ']) = (x.map shw).flatMap fun w => w ++ [' '] := fun x => by
    rw [List.flatMap_map]
  unfold vecText at h
  rw [List.append_assoc, List.append_assoc, List.append_cancel_left_eq, w, w] at h
  have nb : ∀ x : List α, ∀ w ∈ x.map shw, ' ' ∉ w := by
    intro x w hw
    obtain ⟨a, -, rfl⟩ := List.mem_map.1 hw
    exact hb a
  exact map_inj hs (words_inj (nb a) (nb b) (by decide) (by decide) h).1

/-- **C94**, a `StackVector` of pairs. -/
theorem C94_pairs {α β : Type} (sa : α → Str) (sb : β → Str) (ha : ∀ x, ' ' ∉ sa x) (hb : ∀ x, ' ' ∉ sb x)
    (ia : ∀ x y, sa x = sa y → x = y) (ib : ∀ x y, sb x = sb y → x = y) (a b : List (α × β))
    (h : pairsText sa sb a = pairsText sa sb b) : a = b := by
  have w : ∀ x : List (α × β), x.flatMap (fun x => ['['] ++ sa x.1 ++ [',', ' '] ++ sb x.2 ++ [']', ' ']) =
      (x.flatMap fun x => ['[' :: sa x.1 ++ [','], sb x.2 ++ [']']]).flatMap fun w => w ++ [' '] := by
    intro x
    induction x with
    | nil => rfl
    | cons p x ih => rw [List.flatMap_cons, ih]; simp
  unfold pairsText at h
  rw [List.append_assoc, List.append_assoc, List.append_cancel_left_eq, w, w] at h
  have nb : ∀ x : List (α × β), ∀ w ∈ x.flatMap (fun x => ['[' :: sa x.1 ++ [','], sb x.2 ++ [']']]), ' ' ∉ w := by
    intro x w hw
    obtain ⟨p, -, hw⟩ := List.mem_flatMap.1 hw
    have := ha p.1
    have := hb p.2
    simp only [List.mem_cons, List.not_mem_nil, or_false] at hw
    rcases hw with rfl | rfl <;> simp_all
  have := (words_inj (nb a) (nb b) (by decide) (by decide) h).1
  clear h w nb
  induction a generalizing b with
  | nil => cases b with
    | nil => rfl
    | cons p b => simp at this
  | cons p a ih => cases b with
    | nil => simp at this
    | cons q b =>
      simp only [List.flatMap_cons, List.cons_append, List.nil_append, List.cons.injEq, true_and] at this
      obtain ⟨e1, e2, e3⟩ := this
      rw [ih b e3, Prod.ext (ia _ _ (List.append_cancel_right e1)) (ib _ _ (List.append_cancel_right e2))]

/-- **C94**, a `StackVector` of tuples, given the texts of their entries (at least one; all tuples have the same number of entries, `n + 1`). -/
theorem C94_tuples (n : Nat) (a b : List (List Str)) (ha : ∀ t ∈ a, t.length = n + 1 ∧ ∀ s ∈ t, ' ' ∉ s)
    (hb : ∀ t ∈ b, t.length = n + 1 ∧ ∀ s ∈ t, ' ' ∉ s) (h : tuplesText a = tuplesText b) : a = b := by
  have w : ∀ x : List (List Str), (∀ t ∈ x, t.length = n + 1 ∧ ∀ s ∈ t, ' ' ∉ s) →
      ∃ y : List (List Str), (∀ t ∈ y, t.length = n + 2 ∧ ∀ s ∈ t, ' ' ∉ s) ∧
        y = x.map (fun t => ('[' :: t.headD []) :: t.tail ++ [[']']]) ∧
        x.flatMap (fun x => ['['] ++ x.flatMap (fun s => s ++ [' ']) ++ [']', ' ']) =
          y.flatten.flatMap fun w => w ++ [' '] := by
    intro x hx
    refine ⟨_, ?_, rfl, ?_⟩
    · intro t ht
      obtain ⟨u, hu, rfl⟩ := List.mem_map.1 ht
      obtain ⟨l, q⟩ := hx u hu
      cases u with
      | nil => simp at l
      | cons c u =>
        refine ⟨by simpa using l, fun s hs => ?_⟩
        simp only [List.headD_cons, List.tail_cons, List.cons_append, List.mem_cons, List.mem_append, List.not_mem_nil, or_false] at hs
        rcases hs with rfl | hs | rfl
        · have := q c (by simp)
          simpa using this
        · exact q s (by simp [hs])
        · decide
    · induction x with
      | nil => rfl
      | cons u x ih =>
        obtain ⟨l, q⟩ := hx u (by simp)
        cases u with
        | nil => simp at l
        | cons c u =>
          rw [List.flatMap_cons, ih fun t ht => hx t (by simp [ht]), List.map_cons, List.flatten_cons, List.flatMap_append]
          simp
  obtain ⟨y, hy, ey, e⟩ := w a ha
  obtain ⟨y', hy', ey', e'⟩ := w b hb
  unfold tuplesText at h
  rw [List.append_assoc, List.append_assoc, List.append_cancel_left_eq, e, e'] at h
  have nb : ∀ y : List (List Str), (∀ t ∈ y, t.length = n + 2 ∧ ∀ s ∈ t, ' ' ∉ s) → ∀ w ∈ y.flatten, ' ' ∉ w := by
    intro y hy w hw
    obtain ⟨t, ht, hw⟩ := List.mem_flatten.1 hw
    exact (hy t ht).2 w hw
  have f := (words_inj (nb y hy) (nb y' hy') (by decide) (by decide) h).1
  have flat : ∀ {y y' : List (List Str)}, (∀ t ∈ y, t.length = n + 2) → (∀ t ∈ y', t.length = n + 2) → y.flatten = y'.flatten → y = y' := by
    intro y
    induction y with
    | nil =>
      intro y' _ h' e
      cases y' with
      | nil => rfl
      | cons t y' =>
        have := h' t (by simp)
        have e := congrArg List.length e
        simp at e
        omega
    | cons t y ih =>
      intro y' h1 h' e
      cases y' with
      | nil =>
        have := h1 t (by simp)
        have e := congrArg List.length e
        simp at e
        rw [e.1] at this; simp at this
      | cons t' y' =>
        rw [List.flatten_cons, List.flatten_cons] at e
        obtain ⟨e1, e2⟩ := List.append_inj e (by rw [h1 t (by simp), h' t' (by simp)])
        rw [e1, ih (fun t ht => h1 t (by simp [ht])) (fun t ht => h' t (by simp [ht])) e2]
  have g := flat (fun t ht => (hy t ht).1) (fun t ht => (hy' t ht).1) f
  rw [ey, ey'] at g
  clear ey ey' e e' hy hy' f h w nb flat y y'
  induction a generalizing b with
  | nil => cases b with
    | nil => rfl
    | cons p b => simp at g
  | cons u a ih => cases b with
    | nil => simp at g
    | cons v b =>
      simp only [List.map_cons, List.cons.injEq] at g
      have hu := (ha u (by simp)).1
      have hv := (hb v (by simp)).1
      have : u = v := by
        cases u with
        | nil => simp at hu
        | cons c u =>
          cases v with
          | nil => simp at hv
          | cons d v =>
            have g := g.1
            simp only [List.headD_cons, List.tail_cons, List.cons_append, List.cons.injEq, true_and] at g
            rw [g.1, List.append_cancel_right g.2]
      rw [this, ih b (fun t ht => ha t (by simp [ht])) (fun t ht => hb t (by simp [ht])) g.2]

/-! ## Examples -/

/-- The matrix with rows `1 2` and `3 4`. -/
def two : Mat Nat := ⟨2, 2, [1, 3, 2, 4], rfl⟩

example : matText (fun n => (toString n).toList) two = .ok "{ { 1 2 } { 3 4 } }".toList := by decide +kernel
example : matText (fun n => (toString n).toList) (⟨3, 1, [1, 2, 3], rfl⟩ : Mat Nat) = .ok "{ 1 2 3 }^T".toList := by decide +kernel
/-- A row vector, and any other matrix that is not square, is read outside of its bounds. -/
example : matText (fun n => (toString n).toList) (⟨1, 3, [1, 2, 3], rfl⟩ : Mat Nat) = .ub := by decide +kernel
example : ¬ ∃ s, matText (fun n => (toString n).toList) (⟨3, 2, [1, 2, 3, 4, 5, 6], rfl⟩ : Mat Nat) = .ok s := by
  rw [C94_defined]; decide
example : two.IsRows [[1, 2], [3, 4]] := by
  refine ⟨rfl, fun i r h => ?_⟩
  match i, h with
  | 0, h =>
    cases Option.some.inj h
    refine ⟨rfl, fun j a h => ?_⟩
    match j, h with
    | 0, h => cases Option.some.inj h; exact ⟨by decide, by decide, rfl⟩
    | 1, h => cases Option.some.inj h; exact ⟨by decide, by decide, rfl⟩
    | j + 2, h => simp at h
  | 1, h =>
    cases Option.some.inj h
    refine ⟨rfl, fun j a h => ?_⟩
    match j, h with
    | 0, h => cases Option.some.inj h; exact ⟨by decide, by decide, rfl⟩
    | 1, h => cases Option.some.inj h; exact ⟨by decide, by decide, rfl⟩
    | j + 2, h => simp at h
  | i + 2, h => simp at h
example : vecText (fun n => (toString n).toList) [1, 2, 3] = "StackVector{ 1 2 3 }".toList := by decide +kernel
example : pairsText (fun n => (toString n).toList) (fun n => (toString n).toList) [(1, 2), (3, 4)] =
    "StackVector{ [1, 2] [3, 4] }".toList := by decide +kernel
example : tuplesText [["1".toList, "a".toList], ["2".toList, "b".toList]] = "StackVector{ [1 a ] [2 b ] }".toList := by decide +kernel
/-- The lines `x`, `xx`, … as texts of numbers. -/
example : ∀ x : Nat, Plain (List.replicate x 'x') := fun x => by
  refine ⟨?_, ?_, ?_⟩ <;> simp [List.mem_replicate]
/-- With blanks in the texts of the elements the text of a vector is ambiguous. -/
example : vecText (id : Str → Str) ["1 2".toList] = vecText id ["1".toList, "2".toList] := by decide +kernel

end Stator.Ds.Coll
