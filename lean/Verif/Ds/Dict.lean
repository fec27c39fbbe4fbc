import Verif.Rt.CompareProps
import Mathlib.Data.List.Perm.Subperm
import Mathlib.Data.List.Nodup

/-!
# Dictionaries keyed by expressions (stator/symbolic/dict.hpp:22-66)

`DictBase<Key, Value>` is a `std::unordered_map<Key, Value>` with `std::hash<Key>` and `==`. The table is modelled with its
buckets: a lookup only looks at the bucket of the hash of the key it is given, so that whether it works depends on the hash and on
the comparison. The number of buckets after an insertion is left open (any positive number).
-/

namespace Stator.Ds.Dict

/-- `std::unordered_map<Key, Value>`: `n` buckets, each a chain of entries. -/
structure Tab (κ ν : Type) where
  n : ℕ
  bk : ℕ → List (κ × ν)

/-- The `==` and the `std::hash` of the keys. -/
structure Key (κ : Type) where
  eq : κ → κ → Bool
  hash : κ → ℕ

variable {κ ν : Type} (K : Key κ)

/-- models: stator/symbolic/dict.hpp:27 `DictBase()`. -/
def empty : Tab κ ν := ⟨1, fun _ => []⟩

/-- All entries, as `begin()` to `end()` visit them (the order is unspecified; here bucket by bucket).
models: stator/symbolic/dict.hpp:34-39. -/
def Tab.entries (t : Tab κ ν) : List (κ × ν) := (List.range t.n).flatMap t.bk

/-- models: stator/symbolic/dict.hpp:48. -/
def Tab.size (t : Tab κ ν) : ℕ := t.entries.length

/-- The bucket of a key. -/
def Tab.slot (t : Tab κ ν) (k : κ) : ℕ := K.hash k % t.n

/-- models: stator/symbolic/dict.hpp:41-42 `find`: the first entry of the bucket whose key compares equal. -/
def Tab.find (t : Tab κ ν) (k : κ) : Option ν := ((t.bk (t.slot K k)).find? fun e => K.eq k e.1).map (·.2)

/-- A new entry at the front of its bucket. -/
def Tab.push (t : Tab κ ν) (k : κ) (v : ν) : Tab κ ν :=
  ⟨t.n, fun i => if i = t.slot K k then (k, v) :: t.bk i else t.bk i⟩

/-- All entries into `n` buckets (`rehash`). -/
def Tab.rehash (t : Tab κ ν) (n : ℕ) : Tab κ ν := t.entries.foldl (fun u e => u.push K e.1 e.2) ⟨n, fun _ => []⟩

/-- Insertion of an entry for a key that has none; `grow` is the new number of buckets if the table is rebuilt. -/
def Tab.add (t : Tab κ ν) (grow : Option ℕ) (k : κ) (v : ν) : Tab κ ν :=
  (match grow with
    | some n => t.rehash K n
    | none => t).push K k v

/-- models: stator/symbolic/dict.hpp:59-65 `insert`: nothing happens if there is an entry. -/
def Tab.insert (t : Tab κ ν) (grow : Option ℕ) (k : κ) (v : ν) : Tab κ ν :=
  match t.find K k with
  | some _ => t
  | none => t.add K grow k v

/-- The value of the entry found for `k` is overwritten. -/
def Tab.overwrite (t : Tab κ ν) (k : κ) (v : ν) : Tab κ ν :=
  ⟨t.n, fun i => if i = t.slot K k then
    (t.bk i).replaceF fun e => if K.eq k e.1 then some (e.1, v) else none else t.bk i⟩

/-- models: stator/symbolic/dict.hpp:44 `d[k] = v`: `operator[]` inserts an entry if there is none; then the value is assigned. -/
def Tab.set (t : Tab κ ν) (grow : Option ℕ) (k : κ) (v : ν) : Tab κ ν :=
  match t.find K k with
  | some _ => t.overwrite K k v
  | none => t.add K grow k v

/-- models: stator/symbolic/dict.hpp:44 `d[k]` as a value: a missing entry is inserted with the default value `Value()` (for `Expr`:
the null pointer). -/
def Tab.read (dflt : ν) (t : Tab κ ν) (grow : Option ℕ) (k : κ) : Tab κ ν × ν :=
  match t.find K k with
  | some v => (t, v)
  | none => (t.add K grow k dflt, dflt)

/-- models: stator/symbolic/dict.hpp:45-46 `at`: `none` is the exception `std::out_of_range`. -/
def Tab.at (t : Tab κ ν) (k : κ) : Option ν := t.find K k

/-- models: stator/symbolic/dict.hpp:52-56 `operator==` of two different objects: equal sizes, and for every entry of the first an
equal entry of the second is found. -/
def Tab.eq (eqV : ν → ν → Bool) (t u : Tab κ ν) : Bool :=
  t.size == u.size && t.entries.all fun e =>
    match u.find K e.1 with
    | some w => eqV e.2 w
    | none => false

/-! ## Which dictionaries there are -/

/-- On the keys in `P`, `==` is an equivalence and respects the hash. -/
structure Laws (P : κ → Prop) : Prop where
  refl : ∀ a, P a → K.eq a a = true
  symm : ∀ a b, P a → P b → K.eq a b = true → K.eq b a = true
  trans : ∀ a b c, P a → P b → P c → K.eq a b = true → K.eq b c = true → K.eq a c = true
  hash : ∀ a b, P a → P b → K.eq a b = true → K.hash a = K.hash b

/-- A dictionary that a program can have, if it only uses keys in `P`. -/
inductive Reach (P : κ → Prop) : Tab κ ν → Prop
  | empty : Reach P empty
  | set {t} (h : Reach P t) (grow) (hg : ∀ n, grow = some n → 0 < n) (k v) (hk : P k) : Reach P (t.set K grow k v)
  | insert {t} (h : Reach P t) (grow) (hg : ∀ n, grow = some n → 0 < n) (k v) (hk : P k) : Reach P (t.insert K grow k v)
  | read {t} (h : Reach P t) (dflt) (grow) (hg : ∀ n, grow = some n → 0 < n) (k) (hk : P k) : Reach P (t.read K dflt grow k).1

/-! ## Invariant -/

/-- Every entry is in its bucket, and there is one entry per key. -/
structure Inv (P : κ → Prop) (t : Tab κ ν) : Prop where
  pos : 0 < t.n
  slot : ∀ i, ∀ e ∈ t.bk i, t.slot K e.1 = i
  key : ∀ i, ∀ e ∈ t.bk i, P e.1
  one : ∀ i, (t.bk i).Pairwise fun e e' => K.eq e.1 e'.1 = false

theorem slot_lt {t : Tab κ ν} (h : 0 < t.n) (k : κ) : t.slot K k < t.n := Nat.mod_lt _ h

theorem mem_entries {P : κ → Prop} {t : Tab κ ν} (h : Inv K P t) {e : κ × ν} :
    e ∈ t.entries ↔ e ∈ t.bk (t.slot K e.1) := by
  unfold Tab.entries
  rw [List.mem_flatMap]
  constructor
  · rintro ⟨i, -, hi⟩
    rwa [h.slot i e hi]
  · intro he
    exact ⟨_, List.mem_range.2 (slot_lt K h.pos _), he⟩

/-- Two entries with equal keys are the same entry. -/
theorem unique {P : κ → Prop} (hL : Laws K P) {t : Tab κ ν} (h : Inv K P t) {e e' : κ × ν} (he : e ∈ t.entries)
    (he' : e' ∈ t.entries) (hk : K.eq e.1 e'.1 = true) : e = e' := by
  rw [mem_entries K h] at he he'
  have hs : t.slot K e.1 = t.slot K e'.1 := by
    unfold Tab.slot; rw [hL.hash _ _ (h.key _ _ he) (h.key _ _ he') hk]
  rw [← hs] at he'
  by_contra hne
  have hp := h.one (t.slot K e.1)
  obtain ⟨l1, l2, hl⟩ := List.append_of_mem he
  rw [hl] at hp he'
  rw [List.pairwise_append, List.pairwise_cons] at hp
  rcases List.mem_append.1 he' with hm | hm
  · have h1 := hp.2.2 e' hm e (by simp)
    have h2 := hL.symm _ _ (h.key _ _ he) (h.key (t.slot K e.1) e' (by rw [hl]; exact he')) hk
    rw [h1] at h2
    exact absurd h2 (by simp)
  · rcases List.mem_cons.1 hm with hm | hm
    · exact hne hm.symm
    · have := hp.2.1.1 e' hm
      rw [hk] at this
      exact absurd this (by simp)

theorem find_some {P : κ → Prop} (hL : Laws K P) {t : Tab κ ν} (h : Inv K P t) {k : κ} (hk : P k) {v : ν} :
    t.find K k = some v ↔ ∃ k', (k', v) ∈ t.entries ∧ K.eq k k' = true := by
  unfold Tab.find
  rw [Option.map_eq_some_iff]
  constructor
  · rintro ⟨⟨k', v'⟩, hf, rfl⟩
    have hm := List.mem_of_find?_eq_some hf
    have he := List.find?_some hf
    exact ⟨k', (mem_entries K h).2 (by rw [h.slot _ _ hm]; exact hm), he⟩
  · rintro ⟨k', hm, he⟩
    have hm' := (mem_entries K h).1 hm
    have hs : t.slot K k = t.slot K k' := by
      unfold Tab.slot; rw [hL.hash _ _ hk (h.key _ _ hm') he]
    rw [hs]
    have hex : ((t.bk (t.slot K k')).find? fun e => K.eq k e.1).isSome := by
      rw [List.find?_isSome]
      exact ⟨_, hm', he⟩
    obtain ⟨e, hf⟩ := Option.isSome_iff_exists.1 hex
    refine ⟨e, hf, ?_⟩
    have hm2 := List.mem_of_find?_eq_some hf
    have he2 := List.find?_some hf
    have hm3 : e ∈ t.entries := (mem_entries K h).2 (by rw [h.slot _ _ hm2]; exact hm2)
    have hP := h.key _ _ hm'
    have hP2 := h.key _ _ hm2
    have := unique K hL h hm3 hm (hL.trans _ _ _ hP2 hk hP (hL.symm _ _ hk hP2 he2) he)
    rw [this]

theorem find_none {P : κ → Prop} (hL : Laws K P) {t : Tab κ ν} (h : Inv K P t) {k : κ} (hk : P k) :
    t.find K k = none ↔ ∀ e ∈ t.entries, K.eq k e.1 = false := by
  constructor
  · intro hn e he
    by_contra hc
    have := (find_some K hL h hk).2 ⟨e.1, he, by simpa using hc⟩
    rw [hn] at this
    cases this
  · intro hall
    cases hf : t.find K k with
    | none => rfl
    | some v =>
      obtain ⟨k', hm, he⟩ := (find_some K hL h hk).1 hf
      rw [hall _ hm] at he
      cases he

/-! ### Insertion -/

theorem push_inv {P : κ → Prop} (_hL : Laws K P) {t : Tab κ ν} (h : Inv K P t) {k : κ} (hk : P k) (v : ν)
    (hn : ∀ e ∈ t.entries, K.eq k e.1 = false) : Inv K P (t.push K k v) := by
  refine ⟨h.pos, ?_, ?_, ?_⟩
  · intro i e he
    unfold Tab.push at he
    dsimp only at he
    split at he
    · rename_i hi
      rcases List.mem_cons.1 he with rfl | he
      · exact hi.symm
      · exact h.slot i e he
    · exact h.slot i e he
  · intro i e he
    unfold Tab.push at he
    dsimp only at he
    split at he
    · rcases List.mem_cons.1 he with rfl | he
      · exact hk
      · exact h.key i e he
    · exact h.key i e he
  · intro i
    unfold Tab.push
    dsimp only
    split
    · rename_i hi
      refine List.pairwise_cons.2 ⟨fun e he => ?_, h.one i⟩
      exact hn e ((mem_entries K h).2 (by rw [h.slot i e he]; exact he))
    · exact h.one i

theorem flatMap_push (b b' : ℕ → List (κ × ν)) (x : κ × ν) (j : ℕ) (hb : ∀ i, b' i = if i = j then x :: b i else b i) :
    ∀ (l : List ℕ), l.Nodup → j ∈ l → (l.flatMap b').Perm (x :: l.flatMap b)
  | [], _, h => by simp at h
  | a :: l, hd, h => by
    rw [List.nodup_cons] at hd
    rw [List.flatMap_cons, List.flatMap_cons]
    by_cases ha : a = j
    · have hl : l.flatMap b' = l.flatMap b := List.flatMap_congr fun i hi => by
        rw [hb, if_neg]
        rintro rfl
        exact hd.1 (ha ▸ hi)
      rw [hb, if_pos ha, hl]
      exact List.Perm.refl _
    · have ih := flatMap_push b b' x j hb l hd.2 (by simpa [Ne.symm ha] using h)
      rw [hb, if_neg ha]
      exact (ih.append_left _).trans List.perm_middle

theorem push_entries {t : Tab κ ν} (h : 0 < t.n) (k : κ) (v : ν) : ((t.push K k v).entries).Perm ((k, v) :: t.entries) :=
  flatMap_push t.bk _ (k, v) (t.slot K k) (fun _ => rfl) _ List.nodup_range (List.mem_range.2 (slot_lt K h k))

theorem rehash_spec {P : κ → Prop} (hL : Laws K P) : ∀ (l : List (κ × ν)) (u : Tab κ ν), Inv K P u →
    (∀ e ∈ l, P e.1) → l.Pairwise (fun e e' => K.eq e.1 e'.1 = false) →
    (∀ e ∈ l, ∀ e' ∈ u.entries, K.eq e.1 e'.1 = false) →
    Inv K P (l.foldl (fun u e => u.push K e.1 e.2) u) ∧
      (l.foldl (fun u e => u.push K e.1 e.2) u).entries.Perm (l ++ u.entries)
  | [], u, hu, _, _, _ => ⟨hu, List.Perm.refl _⟩
  | e :: l, u, hu, hP, hp, hx => by
    rw [List.pairwise_cons] at hp
    have h1 := push_inv K hL hu (hP e (by simp)) e.2 (hx e (by simp))
    have h2 := push_entries K hu.pos e.1 e.2
    obtain ⟨h3, h4⟩ := rehash_spec hL l (u.push K e.1 e.2) h1 (fun x hm => hP x (by simp [hm])) hp.2 (by
      intro x hm y hy
      rcases List.mem_cons.1 (h2.subset hy) with rfl | hy
      · have := hp.1 x hm
        by_contra hc
        rw [hL.symm _ _ (hP x (by simp [hm])) (hP e (by simp)) (by simpa using hc)] at this
        cases this
      · exact hx x (by simp [hm]) y hy)
    refine ⟨h3, h4.trans ?_⟩
    exact ((h2.append_left l).trans List.perm_middle)

theorem entries_pairwise {P : κ → Prop} (hL : Laws K P) {t : Tab κ ν} (h : Inv K P t) :
    t.entries.Pairwise fun e e' => K.eq e.1 e'.1 = false := by
  unfold Tab.entries
  rw [List.pairwise_flatMap]
  refine ⟨fun i _ => h.one i, ?_⟩
  refine List.Pairwise.imp_of_mem ?_ List.nodup_range
  intro i j hi hj hij x hx y hy
  by_contra hc
  apply hij
  have := hL.hash _ _ (h.key _ _ hx) (h.key _ _ hy) (by simpa using hc)
  rw [← h.slot i x hx, ← h.slot j y hy]
  unfold Tab.slot
  rw [this]

theorem add_spec {P : κ → Prop} (hL : Laws K P) {t : Tab κ ν} (h : Inv K P t) (grow : Option ℕ)
    (hg : ∀ n, grow = some n → 0 < n) {k : κ} (hk : P k) (v : ν) (hn : ∀ e ∈ t.entries, K.eq k e.1 = false) :
    Inv K P (t.add K grow k v) ∧ (t.add K grow k v).entries.Perm ((k, v) :: t.entries) := by
  cases grow with
  | none => exact ⟨push_inv K hL h hk v hn, push_entries K h.pos k v⟩
  | some n =>
    have h0 : Inv K P (⟨n, fun _ => []⟩ : Tab κ ν) := ⟨hg n rfl, by simp, by simp, by simp⟩
    have he : (⟨n, fun _ => []⟩ : Tab κ ν).entries = [] := by simp [Tab.entries]
    obtain ⟨h1, h2⟩ := rehash_spec K hL t.entries _ h0 (fun e hm => h.key _ _ ((mem_entries K h).1 hm)) (entries_pairwise K hL h)
      (by rw [he]; simp)
    rw [he, List.append_nil] at h2
    refine ⟨push_inv K hL h1 hk v fun e hm => hn e (h2.subset hm), ?_⟩
    exact (push_entries K h1.pos k v).trans (h2.cons _)

/-! ### Overwriting -/

theorem replace_mem (f : κ × ν → Option (κ × ν)) : ∀ (l : List (κ × ν)) (e : κ × ν), e ∈ l.replaceF f →
    e ∈ l ∨ ∃ e' ∈ l, f e' = some e
  | [], e, h => by simp at h
  | a :: l, e, h => by
    rw [List.replaceF] at h
    cases hf : f a with
    | none =>
      rw [hf] at h
      rcases List.mem_cons.1 h with rfl | h
      · exact .inl (by simp)
      · rcases replace_mem f l e h with h | ⟨e', h, h2⟩
        · exact .inl (by simp [h])
        · exact .inr ⟨e', by simp [h], h2⟩
    | some b =>
      rw [hf] at h
      rcases List.mem_cons.1 h with rfl | h
      · exact .inr ⟨a, by simp, hf⟩
      · exact .inl (by simp [h])

theorem replace_keys (k : κ) (v : ν) : ∀ (l : List (κ × ν)),
    (l.replaceF fun e => if K.eq k e.1 then some (e.1, v) else none).map (·.1) = l.map (·.1)
  | [] => rfl
  | a :: l => by
    rw [List.replaceF]
    by_cases h : K.eq k a.1
    · simp [h]
    · simp only [h]
      simp [replace_keys k v l]

theorem overwrite_spec {P : κ → Prop} {t : Tab κ ν} (h : Inv K P t) (k : κ) (v : ν) :
    Inv K P (t.overwrite K k v) ∧ (t.overwrite K k v).entries.map (·.1) = t.entries.map (·.1) := by
  have keys : ∀ i, ((t.overwrite K k v).bk i).map (·.1) = (t.bk i).map (·.1) := by
    intro i
    unfold Tab.overwrite
    dsimp only
    split
    · exact replace_keys K k v _
    · rfl
  have mem : ∀ i, ∀ e ∈ (t.overwrite K k v).bk i, ∃ e' ∈ t.bk i, e'.1 = e.1 := by
    intro i e he
    have : e.1 ∈ (t.bk i).map (·.1) := by rw [← keys]; exact List.mem_map_of_mem he
    obtain ⟨e', h1, h2⟩ := List.mem_map.1 this
    exact ⟨e', h1, h2⟩
  refine ⟨⟨h.pos, ?_, ?_, ?_⟩, ?_⟩
  · intro i e he
    obtain ⟨e', h1, h2⟩ := mem i e he
    rw [← h2]
    exact h.slot i e' h1
  · intro i e he
    obtain ⟨e', h1, h2⟩ := mem i e he
    rw [← h2]
    exact h.key i e' h1
  · intro i
    have := h.one i
    have e1 := List.pairwise_map (f := fun e : κ × ν => e.1) (R := fun a b => K.eq a b = false) (l := t.bk i)
    have e2 := List.pairwise_map (f := fun e : κ × ν => e.1) (R := fun a b => K.eq a b = false) (l := (t.overwrite K k v).bk i)
    rw [← e2, keys, e1]
    exact this
  · unfold Tab.entries
    rw [List.map_flatMap, List.map_flatMap]
    exact List.flatMap_congr fun i _ => keys i

theorem replace_first (k : κ) (v : ν) : ∀ (l : List (κ × ν)) (k' : κ), k' ∈ l.map (·.1) → K.eq k k' = true →
    l.Pairwise (fun e e' => ¬ (K.eq k e.1 = true ∧ K.eq k e'.1 = true)) →
    (k', v) ∈ l.replaceF fun e => if K.eq k e.1 then some (e.1, v) else none
  | [], k', h, _, _ => by simp at h
  | a :: l, k', h, hk, hp => by
    rw [List.pairwise_cons] at hp
    rw [List.replaceF]
    by_cases ha : K.eq k a.1 = true
    · simp only [ha, if_true]
      rw [List.map_cons, List.mem_cons] at h
      rcases h with rfl | h
      · simp
      · obtain ⟨e, he, rfl⟩ := List.mem_map.1 h
        exact absurd ⟨ha, hk⟩ (hp.1 e he)
    · simp only [ha]
      rw [List.map_cons, List.mem_cons] at h
      rcases h with rfl | h
      · exact absurd hk ha
      · exact List.mem_cons_of_mem _ (replace_first k v l k' h hk hp.2)

theorem replace_other (k : κ) (v : ν) : ∀ (l : List (κ × ν)) (e : κ × ν), K.eq k e.1 = false →
    (e ∈ (l.replaceF fun e => if K.eq k e.1 then some (e.1, v) else none) ↔ e ∈ l)
  | [], e, _ => by simp
  | a :: l, e, he => by
    rw [List.replaceF]
    by_cases ha : K.eq k a.1 = true
    · simp only [ha, if_true, List.mem_cons]
      constructor
      · rintro (rfl | h)
        · rw [ha] at he; cases he
        · exact .inr h
      · rintro (rfl | h)
        · rw [ha] at he; cases he
        · exact .inr h
    · simp only [ha]
      rw [List.mem_cons]
      simp only [Bool.false_eq_true, if_false, List.mem_cons, replace_other k v l e he]

theorem overwrite_find {P : κ → Prop} (hL : Laws K P) {t : Tab κ ν} (h : Inv K P t) {k : κ} (hk : P k) (v : ν)
    (hf : (t.find K k).isSome) {k' : κ} (hk' : P k') :
    (t.overwrite K k v).find K k' = if K.eq k' k then some v else t.find K k' := by
  obtain ⟨h1, -⟩ := overwrite_spec K h k v
  obtain ⟨w, hw⟩ := Option.isSome_iff_exists.1 hf
  obtain ⟨k0, hm0, e0⟩ := (find_some K hL h hk).1 hw
  have P0 := h.key _ _ ((mem_entries K h).1 hm0)
  have s0 : t.slot K k = t.slot K k0 := by unfold Tab.slot; rw [hL.hash _ _ hk P0 e0]
  have hov : ∀ e : κ × ν, P e.1 → K.eq k e.1 = false → (e ∈ (t.overwrite K k v).entries ↔ e ∈ t.entries) := by
    intro e hPe he
    rw [mem_entries K h1, mem_entries K h]
    show e ∈ (if t.slot K e.1 = t.slot K k then _ else _) ↔ _
    split
    · exact replace_other K k v _ e he
    · exact Iff.rfl
  have hin : (k0, v) ∈ (t.overwrite K k v).entries := by
    rw [mem_entries K h1]
    show (k0, v) ∈ (if t.slot K k0 = t.slot K k then _ else _)
    rw [if_pos s0.symm]
    refine replace_first K k v _ k0 (List.mem_map_of_mem ((mem_entries K h).1 hm0)) e0 ?_
    refine (h.one _).imp_of_mem ?_
    rintro a b ha hb hab ⟨q1, q2⟩
    have := hL.trans _ _ _ (h.key _ _ ha) hk (h.key _ _ hb) (hL.symm _ _ hk (h.key _ _ ha) q1) q2
    rw [hab] at this
    cases this
  split
  · rename_i he
    exact (find_some K hL h1 hk').2 ⟨k0, hin, hL.trans _ _ _ hk' hk P0 he e0⟩
  · rename_i he
    have he' : K.eq k' k = false := by simpa using he
    have key : ∀ u, (t.overwrite K k v).find K k' = some u ↔ t.find K k' = some u := by
      intro u
      rw [find_some K hL h1 hk', find_some K hL h hk']
      have ne : ∀ k2, P k2 → K.eq k' k2 = true → K.eq k k2 = false := by
        intro k2 hP2 h2
        by_contra hc
        have := hL.trans _ _ _ hk' hP2 hk h2 (hL.symm _ _ hk hP2 (by simpa using hc))
        rw [he'] at this
        cases this
      constructor
      · rintro ⟨k2, hm, h2⟩
        have hP2 : P k2 := h1.key _ _ ((mem_entries K h1).1 hm)
        exact ⟨k2, (hov (k2, u) hP2 (ne k2 hP2 h2)).1 hm, h2⟩
      · rintro ⟨k2, hm, h2⟩
        have hP2 : P k2 := h.key _ _ ((mem_entries K h).1 hm)
        exact ⟨k2, (hov (k2, u) hP2 (ne k2 hP2 h2)).2 hm, h2⟩
    exact Option.ext key

theorem add_find {P : κ → Prop} (hL : Laws K P) {t : Tab κ ν} (h : Inv K P t) (grow : Option ℕ)
    (hg : ∀ n, grow = some n → 0 < n) {k : κ} (hk : P k) (v : ν) (hn : t.find K k = none) {k' : κ} (hk' : P k') :
    (t.add K grow k v).find K k' = if K.eq k' k then some v else t.find K k' := by
  obtain ⟨h1, h2⟩ := add_spec K hL h grow hg hk v ((find_none K hL h hk).1 hn)
  split
  · rename_i he
    exact (find_some K hL h1 hk').2 ⟨k, h2.symm.subset (by simp), he⟩
  · rename_i he
    refine Option.ext fun u => ?_
    rw [find_some K hL h1 hk', find_some K hL h hk']
    constructor
    · rintro ⟨k2, hm, e2⟩
      rcases List.mem_cons.1 (h2.subset hm) with hm | hm
      · cases hm; exact absurd e2 he
      · exact ⟨k2, hm, e2⟩
    · rintro ⟨k2, hm, e2⟩
      exact ⟨k2, h2.symm.subset (by simp [hm]), e2⟩

theorem reach_inv {P : κ → Prop} (hL : Laws K P) {t : Tab κ ν} (h : Reach K P t) : Inv K P t := by
  induction h with
  | empty => exact ⟨Nat.one_pos, by simp [Ds.Dict.empty], by simp [Ds.Dict.empty], by simp [Ds.Dict.empty]⟩
  | @set t _ grow hg k v hk ih =>
    unfold Tab.set
    cases hf : t.find K k with
    | some _ => exact (overwrite_spec K ih k v).1
    | none => exact (add_spec K hL ih grow hg hk v ((find_none K hL ih hk).1 hf)).1
  | @insert t _ grow hg k v hk ih =>
    unfold Tab.insert
    cases hf : t.find K k with
    | some _ => exact ih
    | none => exact (add_spec K hL ih grow hg hk v ((find_none K hL ih hk).1 hf)).1
  | @read t _ dflt grow hg k hk ih =>
    unfold Tab.read
    cases hf : t.find K k with
    | some _ => exact ih
    | none => exact (add_spec K hL ih grow hg hk dflt ((find_none K hL ih hk).1 hf)).1

/-! ## C83 -/

/-- **C83**: nothing is found in an empty dictionary. -/
theorem C83_empty (k : κ) : (empty : Tab κ ν).find K k = none ∧ (empty : Tab κ ν).size = 0 := ⟨rfl, rfl⟩

/-- **C83**: after `d[k] = v` a lookup of a key that is equal to `k` finds `v`, every other lookup gives what it gave before, and
the size grows by one exactly if there was no entry for `k`. -/
theorem C83_set {P : κ → Prop} (hL : Laws K P) {t : Tab κ ν} (h : Reach K P t) (grow : Option ℕ)
    (hg : ∀ n, grow = some n → 0 < n) (k : κ) (hk : P k) (v : ν) :
    (∀ k', P k' → (t.set K grow k v).find K k' = if K.eq k' k then some v else t.find K k') ∧
    (t.set K grow k v).size = if (t.find K k).isSome then t.size else t.size + 1 := by
  have hi := reach_inv K hL h
  unfold Tab.set
  cases hf : t.find K k with
  | some w =>
    refine ⟨fun k' hk' => overwrite_find K hL hi hk v (by rw [hf]; rfl) hk', ?_⟩
    have := congrArg List.length (overwrite_spec K hi k v).2
    simpa [Tab.size] using this
  | none =>
    refine ⟨fun k' hk' => add_find K hL hi grow hg hk v hf hk', ?_⟩
    have := (add_spec K hL hi grow hg hk v ((find_none K hL hi hk).1 hf)).2.length_eq
    simpa [Tab.size] using this

/-- **C83**: `insert` does nothing if there is an entry for an equal key, and otherwise the same as `d[k] = v`. -/
theorem C83_insert {t : Tab κ ν} (grow : Option ℕ) (k : κ) (v : ν) :
    t.insert K grow k v = if (t.find K k).isSome then t else t.set K grow k v := by
  unfold Tab.insert Tab.set
  cases t.find K k <;> rfl

/-- **C83**: `d[k]` gives the value if there is one. If not, it gives the default value and leaves an entry with it behind: reading
changes the dictionary. -/
theorem C83_read (dflt : ν) {t : Tab κ ν} (grow : Option ℕ) (k : κ) :
    t.read K dflt grow k = match t.find K k with
      | some v => (t, v)
      | none => (t.set K grow k dflt, dflt) := by
  unfold Tab.read Tab.set
  cases t.find K k <;> rfl

/-- **C83**: `at` throws exactly if nothing is found; iteration visits exactly one entry for every key that is found. -/
theorem C83_entries {P : κ → Prop} (hL : Laws K P) {t : Tab κ ν} (h : Reach K P t) :
    t.entries.Pairwise (fun e e' => K.eq e.1 e'.1 = false) ∧ t.entries.length = t.size ∧
    (∀ k, P k → ∀ v, t.find K k = some v ↔ ∃ e ∈ t.entries, K.eq k e.1 = true ∧ e.2 = v) ∧ ∀ k, t.at K k = t.find K k := by
  have hi := reach_inv K hL h
  refine ⟨entries_pairwise K hL hi, rfl, fun k hk v => ?_, fun k => rfl⟩
  rw [find_some K hL hi hk]
  constructor
  · rintro ⟨k', h1, h2⟩; exact ⟨(k', v), h1, h2, rfl⟩
  · rintro ⟨⟨k', v'⟩, h1, h2, rfl⟩; exact ⟨k', h1, h2⟩

/-- **C83**: two dictionaries are equal exactly if they find equal values for the same keys, whatever their histories and whatever
the number of their buckets. -/
theorem C83_equal {P : κ → Prop} (hL : Laws K P) (eqV : ν → ν → Bool) {t u : Tab κ ν} (ht : Reach K P t) (hu : Reach K P u) :
    t.eq K eqV u = true ↔ ∀ k, P k →
      (t.find K k = none ∧ u.find K k = none ∨ ∃ v w, t.find K k = some v ∧ u.find K k = some w ∧ eqV v w = true) := by
  have it := reach_inv K hL ht
  have iu := reach_inv K hL hu
  have nodup : ∀ {t : Tab κ ν}, Inv K P t → (t.entries.map (·.1)).Nodup := by
    intro t hi
    rw [List.Nodup, List.pairwise_map]
    refine (entries_pairwise K hL hi).imp_of_mem ?_
    intro a b ha _ hab he
    rw [← he, hL.refl _ (hi.key _ _ ((mem_entries K hi).1 ha))] at hab
    cases hab
  have hsub : ∀ {t u : Tab κ ν}, Inv K P t → Inv K P u → (∀ e ∈ t.entries, ∃ w, u.find K e.1 = some w) →
      t.size ≤ u.size ∧ (u.size ≤ t.size → ∀ e ∈ u.entries, ∃ w, t.find K e.1 = some w) := by
    intro t u it iu hall
    have hPt : ∀ e ∈ t.entries, P e.1 := fun e he => it.key _ _ ((mem_entries K it).1 he)
    have hPu : ∀ e ∈ u.entries, P e.1 := fun e he => iu.key _ _ ((mem_entries K iu).1 he)
    have hex : ∀ e : κ × ν, ∃ e' : κ × ν, e ∈ t.entries → e' ∈ u.entries ∧ K.eq e.1 e'.1 = true := by
      intro e
      by_cases he : e ∈ t.entries
      · obtain ⟨w, hw⟩ := hall e he
        obtain ⟨k', h1, h2⟩ := (find_some K hL iu (hPt e he)).1 hw
        exact ⟨(k', w), fun _ => ⟨h1, h2⟩⟩
      · exact ⟨e, fun h => absurd h he⟩
    choose g hg using hex
    have hnd : (t.entries.map g).Nodup := by
      rw [List.Nodup, List.pairwise_map]
      refine (entries_pairwise K hL it).imp_of_mem ?_
      intro a b ha hb hab he
      obtain ⟨g1, g2⟩ := hg a ha
      obtain ⟨g3, g4⟩ := hg b hb
      rw [he] at g2
      have := hL.trans _ _ _ (hPt a ha) (hPu _ g3) (hPt b hb) g2 (hL.symm _ _ (hPt b hb) (hPu _ g3) g4)
      rw [hab] at this
      cases this
    have hss : (t.entries.map g).Subperm u.entries := List.subperm_of_subset hnd (by
      intro x hx
      obtain ⟨e, he, rfl⟩ := List.mem_map.1 hx
      exact (hg e he).1)
    refine ⟨by simpa [Tab.size] using hss.length_le, fun hle e he => ?_⟩
    have hp := hss.perm_of_length_le (by simpa [Tab.size] using hle)
    obtain ⟨e0, h0, rfl⟩ := List.mem_map.1 (hp.symm.subset he)
    obtain ⟨g1, g2⟩ := hg e0 h0
    exact ⟨e0.2, (find_some K hL it (hPu _ g1)).2 ⟨e0.1, h0, hL.symm _ _ (hPt e0 h0) (hPu _ g1) g2⟩⟩
  have self : ∀ {t : Tab κ ν}, Inv K P t → ∀ e ∈ t.entries, t.find K e.1 = some e.2 := by
    intro t hi e he
    have hP := hi.key _ _ ((mem_entries K hi).1 he)
    exact (find_some K hL hi hP).2 ⟨e.1, he, hL.refl _ hP⟩
  have congr : ∀ {t : Tab κ ν}, Inv K P t → ∀ k k', P k → P k' → K.eq k k' = true → t.find K k = t.find K k' := by
    intro t hi k k' hk hk' he
    refine Option.ext fun v => ?_
    rw [find_some K hL hi hk, find_some K hL hi hk']
    have hP : ∀ k2 v, (k2, v) ∈ t.entries → P k2 := fun k2 v hm => hi.key _ _ ((mem_entries K hi).1 hm)
    constructor
    · rintro ⟨k2, h1, h2⟩
      exact ⟨k2, h1, hL.trans _ _ _ hk' hk (hP _ _ h1) (hL.symm _ _ hk hk' he) h2⟩
    · rintro ⟨k2, h1, h2⟩
      exact ⟨k2, h1, hL.trans _ _ _ hk hk' (hP _ _ h1) he h2⟩
  unfold Tab.eq
  rw [Bool.and_eq_true, beq_iff_eq, List.all_eq_true]
  constructor
  · rintro ⟨hsz, hall⟩
    have hall' : ∀ e ∈ t.entries, ∃ w, u.find K e.1 = some w ∧ eqV e.2 w = true := by
      intro e he
      have := hall e he
      cases hw : u.find K e.1 with
      | none => rw [hw] at this; cases this
      | some w => rw [hw] at this; exact ⟨w, rfl, this⟩
    obtain ⟨-, hback⟩ := hsub it iu fun e he => ⟨_, (hall' e he).choose_spec.1⟩
    intro k hk
    cases hf : t.find K k with
    | some v =>
      obtain ⟨k', h1, h2⟩ := (find_some K hL it hk).1 hf
      obtain ⟨w, h3, h4⟩ := hall' _ h1
      refine .inr ⟨v, w, rfl, ?_, h4⟩
      rw [congr iu k k' hk (it.key _ _ ((mem_entries K it).1 h1)) h2]
      exact h3
    | none =>
      refine .inl ⟨rfl, (find_none K hL iu hk).2 fun e he => ?_⟩
      by_contra hc
      obtain ⟨w, hw⟩ := hback (by omega) e he
      rw [congr it k e.1 hk (iu.key _ _ ((mem_entries K iu).1 he)) (by simpa using hc), hw] at hf
      cases hf
  · intro H
    have h1 : ∀ e ∈ t.entries, ∃ w, u.find K e.1 = some w ∧ eqV e.2 w = true := by
      intro e he
      rcases H e.1 (it.key _ _ ((mem_entries K it).1 he)) with ⟨h, -⟩ | ⟨v, w, h1, h2, h3⟩
      · rw [self it e he] at h; cases h
      · rw [self it e he] at h1; cases h1; exact ⟨w, h2, h3⟩
    have h2 : ∀ e ∈ u.entries, ∃ v, t.find K e.1 = some v := by
      intro e he
      rcases H e.1 (iu.key _ _ ((mem_entries K iu).1 he)) with ⟨-, h⟩ | ⟨v, w, h1, h2, h3⟩
      · rw [self iu e he] at h; cases h
      · exact ⟨v, h1⟩
    refine ⟨Nat.le_antisymm (hsub it iu fun e he => ⟨_, (h1 e he).choose_spec.1⟩).1 (hsub iu it h2).1, fun e he => ?_⟩
    obtain ⟨w, hw, hv⟩ := h1 e he
    rw [hw]
    exact hv


/-! ## Keys that are expressions -/

/-- `==` and `std::hash` of expressions: `a == b` of runtime.hpp and the hash of the tree.
models: stator/symbolic/runtime.hpp:112-126, 191 (`operator==`), 431-460 (`std::hash<sym::Expr>`); see `Rt/Compare.lean`. -/
def exprKey {C : Type} (eqK : C → C → Bool) (hK : C → UInt64) (hS : List Char → UInt64) : Key (HExpr C) :=
  ⟨fun a b => a.cmp eqK b, fun a => (a.erase.hash hK hS).toNat⟩

/-- Expressions that all live in one memory, without NaN, and with no dictionary of two or more entries inside. -/
def GoodKeys {C : Type} (eqK : C → C → Bool) (P : HExpr C → Prop) : Prop :=
  (∀ a b, P a → P b → Coherent a b) ∧ ∀ a, P a → Proper eqK a ∧ a.erase.smallDicts = true

/-- **C83**: expressions can be keys. The equality of numbers has to be an equivalence apart from NaN, and to respect the hash of
numbers. -/
theorem C83_expressions {C : Type} (eqK : C → C → Bool) (hK : C → UInt64) (hS : List Char → UInt64)
    (hs : ∀ x y, eqK x y = true → eqK y x = true) (ht : ∀ x y z, eqK x y = true → eqK y z = true → eqK x z = true)
    (hR : ∀ x y, eqK x y = true → hK x = hK y) (P : HExpr C → Prop) (hP : GoodKeys eqK P) :
    Laws (exprKey eqK hK hS) P where
  refl a ha := C07_refl eqK a a (hP.1 a a ha ha) (hP.2 a ha).1 rfl
  symm a b ha hb h := C07_symm eqK hs a b (hP.1 a b ha hb) (hP.2 a ha).1 (hP.2 b hb).1 h
  trans a b c ha hb hc h1 h2 := C07_trans eqK ht a b c (hP.1 a b ha hb) (hP.1 b c hb hc) (hP.1 a c ha hc)
    (hP.2 a ha).1 (hP.2 b hb).1 (hP.2 c hc).1 h1 h2
  hash a b ha hb h := congrArg UInt64.toNat (C08_equal_hash_small eqK hK hS hR a b (hP.1 a b ha hb) (hP.2 a ha).1 (hP.2 b hb).1
    (hP.2 a ha).2 (hP.2 b hb).2 h)

/-- **C83**: so after `d[k] = v` the entry is found with every expression that is the same tree as `k`, wherever it was built. -/
theorem C83_same_tree {C ν : Type} (eqK : C → C → Bool) (hK : C → UInt64) (hS : List Char → UInt64)
    (hs : ∀ x y, eqK x y = true → eqK y x = true) (ht : ∀ x y z, eqK x y = true → eqK y z = true → eqK x z = true)
    (hR : ∀ x y, eqK x y = true → hK x = hK y) (P : HExpr C → Prop) (hP : GoodKeys eqK P) {t : Tab (HExpr C) ν}
    (h : Reach (exprKey eqK hK hS) P t) (grow : Option ℕ) (hg : ∀ n, grow = some n → 0 < n) (k k' : HExpr C) (hk : P k)
    (hk' : P k') (he : k'.erase = k.erase) (v : ν) :
    (t.set (exprKey eqK hK hS) grow k v).find (exprKey eqK hK hS) k' = some v := by
  rw [(C83_set _ (C83_expressions eqK hK hS hs ht hR P hP) h grow hg k hk v).1 k' hk', if_pos]
  exact C07_refl eqK k' k (hP.1 k' k hk' hk) (hP.2 k' hk').1 he

/-- Two copies of `x` at different addresses, and `sin(x)`. -/
example : GoodKeys (C := ℕ) (· == ·) (fun a => a = .var 1 ['x'] ∨ a = .var 2 ['x'] ∨ a = .un 3 .sin (.var 1 ['x'])) := by
  constructor
  · rintro a b (rfl | rfl | rfl) (rfl | rfl | rfl) <;>
      (intro x hx y hy; simp [HExpr.nodes] at hx hy;
       first
         | (subst hx; subst hy; simp [HExpr.addr, HExpr.erase])
         | (rcases hx with rfl | rfl <;> rcases hy with rfl | rfl <;> simp [HExpr.addr, HExpr.erase]))
  · rintro a (rfl | rfl | rfl) <;>
      simp [Proper, HExpr.erase, Expr.allConst, Expr.mapsOk, Expr.smallDicts]

/-- Numbers as keys, with a hash that puts all even numbers together. -/
example : Laws (κ := ℕ) ⟨(· == ·), (· % 2)⟩ (fun _ => True) where
  refl := by simp
  symm := by simp +contextual
  trans := by simp +contextual
  hash := by simp +contextual

/-- `d[2] = 5; d[4] = 6; d[2] = 7` with a rebuilt table in between. -/
example : ∃ t : Tab ℕ ℕ, Reach ⟨(· == ·), (· % 2)⟩ (fun _ => True) t ∧ t.size = 2 ∧
    t.find ⟨(· == ·), (· % 2)⟩ 2 = some 7 ∧ t.find ⟨(· == ·), (· % 2)⟩ 4 = some 6 ∧ t.find ⟨(· == ·), (· % 2)⟩ 6 = none :=
  ⟨_, .set (.set (.set .empty none (by simp) 2 5 trivial) (some 3) (by simp) 4 6 trivial) none (by simp) 2 7 trivial,
    by decide, by decide, by decide, by decide⟩

/-! ## Keys for which it fails -/

/-- `{x: 1, y: 2}` and `{y: 2, x: 1}`. -/
def dictXY : HExpr ℕ := .dict 1 [(['x'], .const 2 1), (['y'], .const 3 2)]
@[inherit_doc dictXY] def dictYX : HExpr ℕ := .dict 4 [(['y'], .const 5 2), (['x'], .const 6 1)]

/-- **C83**, why there is a condition on the keys: a dictionary is an unusable key. `d[{x:1, y:2}] = 7` is stored under the hash of
that iteration order; the equal dictionary `{y:2, x:1}` is then not found, and `d[{y:2, x:1}] = 8` makes a second entry for an
equal key. -/
theorem C83_dictionary_key_fails :
    ∃ (hK : ℕ → UInt64) (hS : List Char → UInt64) (grow : Option ℕ), (∀ n, grow = some n → 0 < n) ∧
      dictYX.cmp (· == ·) dictXY = true ∧
      let K := exprKey (· == ·) hK hS
      let t : Tab (HExpr ℕ) ℕ := empty.set K grow dictXY 7
      t.find K dictYX = none ∧ (t.set K none dictYX 8).size = 2 := by
  exact ⟨fun k => k.toUInt64, fun s => if s = ['x'] then 1 else 2, some 7, by simp, by decide, by decide +kernel⟩

/-- **C83**, the other condition: with a NaN key `d[NaN] = 1; d[NaN] = 2` makes two entries, and neither is ever found. -/
theorem C83_nan_key_fails {C : Type} (eqK : C → C → Bool) (hK : C → UInt64) (hS : List Char → UInt64) (nan : C)
    (hn : eqK nan nan = false) (g : Option ℕ) (hg : ∀ n, g = some n → 0 < n) :
    let K := exprKey eqK hK hS
    let t : Tab (HExpr C) ℕ := (empty.set K none (.const 1 nan) 1).set K g (.const 1 nan) 2
    t.size = 2 ∧ t.find K (.const 1 nan) = none := by
  have hne : (exprKey eqK hK hS).eq (.const 1 nan) (.const 1 nan) = false := hn
  have hf : (empty.set (exprKey eqK hK hS) none (.const 1 nan) 1 : Tab (HExpr C) ℕ).find (exprKey eqK hK hS) (.const 1 nan) = none := by
    simp [Tab.find, Tab.set, Tab.add, Tab.push, empty, Tab.slot, hne, Nat.mod_one]
  have hr : ∀ n, 0 < n → ((empty.set (exprKey eqK hK hS) none (.const 1 nan) 1 : Tab (HExpr C) ℕ).rehash (exprKey eqK hK hS) n) =
      (⟨n, fun _ => []⟩ : Tab (HExpr C) ℕ).push (exprKey eqK hK hS) (.const 1 nan) 1 := by
    intro n _
    have : (empty.set (exprKey eqK hK hS) none (.const 1 nan) 1 : Tab (HExpr C) ℕ).entries = [(.const 1 nan, 1)] := by
      simp [Tab.entries, Tab.find, Tab.set, Tab.add, Tab.push, empty, Tab.slot, Nat.mod_one]
    simp [Tab.rehash, this]
  intro K t
  have ht : ∃ m, 0 < m ∧ t = ((⟨m, fun _ => []⟩ : Tab (HExpr C) ℕ).push K (.const 1 nan) 1).push K (.const 1 nan) 2 := by
    have e : t = (empty.set (exprKey eqK hK hS) none (.const 1 nan) 1 : Tab (HExpr C) ℕ).add K g (.const 1 nan) 2 := by
      show Tab.set _ _ _ _ _ = _
      rw [Tab.set, show Tab.find K _ _ = none from hf]
    rw [e]
    unfold Tab.add
    cases g with
    | none => exact ⟨1, Nat.one_pos, rfl⟩
    | some n => exact ⟨n, hg n rfl, congrArg (fun u : Tab (HExpr C) ℕ => u.push K (.const 1 nan) 2) (hr n (hg n rfl))⟩
  obtain ⟨m, hm, ht⟩ := ht
  rw [ht]
  constructor
  · have e1 := (push_entries K (t := (⟨m, fun _ => []⟩ : Tab (HExpr C) ℕ)) hm (.const 1 nan) 1).length_eq
    have e2 := (push_entries K (t := (⟨m, fun _ => []⟩ : Tab (HExpr C) ℕ).push K (.const 1 nan) 1) hm (.const 1 nan) 2).length_eq
    have e0 : (⟨m, fun _ => []⟩ : Tab (HExpr C) ℕ).entries = [] := by simp [Tab.entries]
    simp only [List.length_cons, e0, List.length_nil] at e1 e2
    unfold Tab.size
    omega
  · simp [Tab.find, Tab.push, Tab.slot, hne, K]


end Stator.Ds.Dict
