import Verif.Rt.ParserFacts
import Verif.Rt.RoundTripLemmas
import Verif.Rt.SubstProps
import Verif.Rt.DerivProps
import Verif.Rt.SimplifyProps
import Verif.Rt.Print

/-!
# C89: how large results can get

Reading a text, printing, differentiating and substituting: bounds for the size of the result in terms of the size of the input.
-/

namespace Stator

variable {K : Type}

/-! ## Specification -/

mutual
/-- The number of nodes of an expression, all of them: elements of arrays, keys and values of dictionaries. -/
def Expr.size : Expr K → Nat
  | .const _ => 1
  | .var _ => 1
  | .un _ a => a.size + 1
  | .bin _ l r => l.size + r.size + 1
  | .arr xs => sizeList xs + 1
  | .dict kvs => sizeDict kvs + 1
def sizeList : List (Expr K) → Nat
  | [] => 0
  | x :: xs => x.size + sizeList xs
def sizeDict : List (List Char × Expr K) → Nat
  | [] => 0
  | (_, v) :: kvs => 1 + v.size + sizeDict kvs
end

mutual
/-- The longest path from the root to a leaf, in nodes. -/
def Expr.levels : Expr K → Nat
  | .const _ => 1
  | .var _ => 1
  | .un _ a => a.levels + 1
  | .bin _ l r => max l.levels r.levels + 1
  | .arr xs => levelsList xs + 1
  | .dict kvs => levelsDict kvs + 1
def levelsList : List (Expr K) → Nat
  | [] => 0
  | x :: xs => max x.levels (levelsList xs)
def levelsDict : List (List Char × Expr K) → Nat
  | [] => 0
  | (_, v) :: kvs => max v.levels (levelsDict kvs)
end

mutual
/-- The characters of all names and numbers. -/
def Expr.letters (showK : K → List Char) : Expr K → Nat
  | .const k => (showK k).length
  | .var n => n.length
  | .un _ a => a.letters showK
  | .bin _ l r => l.letters showK + r.letters showK
  | .arr xs => lettersList showK xs
  | .dict kvs => lettersDict showK kvs
def lettersList (showK : K → List Char) : List (Expr K) → Nat
  | [] => 0
  | x :: xs => x.letters showK + lettersList showK xs
def lettersDict (showK : K → List Char) : List (List Char × Expr K) → Nat
  | [] => 0
  | (k, v) :: kvs => k.length + v.letters showK + lettersDict showK kvs
end

mutual
/-- How often `x` occurs outside dictionaries. -/
def Expr.count (x : List Char) : Expr K → Nat
  | .const _ => 0
  | .var n => if n = x then 1 else 0
  | .un _ a => a.count x
  | .bin _ l r => l.count x + r.count x
  | .arr xs => countList x xs
  | .dict _ => 0
def countList (x : List Char) : List (Expr K) → Nat
  | [] => 0
  | e :: es => e.count x + countList x es
end

/-! ## Reading -/

theorem size_pos (e : Expr K) : 0 < e.size := by cases e <;> simp [Expr.size]

theorem levels_pos (e : Expr K) : 0 < e.levels := by cases e <;> simp [Expr.levels]

theorem sizeList_append : ∀ xs ys : List (Expr K), sizeList (xs ++ ys) = sizeList xs + sizeList ys
  | [], ys => by simp [sizeList]
  | x :: xs, ys => by simp [sizeList, sizeList_append xs ys, Nat.add_assoc]

theorem sizeDict_append : ∀ xs ys : List (List Char × Expr K), sizeDict (xs ++ ys) = sizeDict xs + sizeDict ys
  | [], ys => by simp [sizeDict]
  | (k, v) :: xs, ys => by simp [sizeDict, sizeDict_append xs ys, Nat.add_assoc]

/-- With distinct keys an assignment adds at most a key and its value. -/
theorem sizeDict_set (k : List Char) (v : Expr K) : ∀ kvs : List (List Char × Expr K), (kvs.map (·.1)).Nodup →
    sizeDict (kvs.map fun p => if p.1 = k then (k, v) else p) ≤ sizeDict kvs + 1 + v.size
  | [], _ => by simp [sizeDict]
  | (k', v') :: kvs, h => by
    simp only [List.map_cons, List.nodup_cons] at h
    by_cases hk : k' = k
    · have : (kvs.map fun p => if p.1 = k then (k, v) else p) = kvs := by
        conv_rhs => rw [← List.map_id kvs]
        refine List.map_congr_left fun p hp => ?_
        rw [if_neg]
        · rfl
        · intro hpk
          exact h.1 (by rw [hk, ← hpk]; exact List.mem_map_of_mem hp)
      simp only [List.map_cons, if_pos hk, this, sizeDict]
      omega
    · have := sizeDict_set k v kvs h.2
      simp only [List.map_cons, if_neg hk, sizeDict]
      omega

theorem sizeDict_dictSet (k : List Char) (v : Expr K) (kvs : List (List Char × Expr K)) (h : (kvs.map (·.1)).Nodup) :
    sizeDict (dictSet kvs k v) ≤ sizeDict kvs + 1 + v.size := by
  unfold dictSet
  split
  · exact sizeDict_set k v kvs h
  · rw [sizeDict_append]; simp [sizeDict]; omega

theorem keys_dictSet (k : List Char) (v : Expr K) (kvs : List (List Char × Expr K)) (h : (kvs.map (·.1)).Nodup) :
    ((dictSet kvs k v).map (·.1)).Nodup := by
  unfold dictSet
  split
  · rw [List.map_map]
    have : ((fun p : List Char × Expr K => p.1) ∘ fun p => if p.1 = k then (k, v) else p) = fun p => p.1 := by
      funext p; simp only [Function.comp]; split
      · rename_i h; exact h.symm
      · rfl
    rw [this]; exact h
  · rename_i hn
    rw [List.map_append, List.nodup_append]
    refine ⟨h, by simp, fun a ha b hb => ?_⟩
    simp at hb; subst hb
    rintro rfl
    simp only [List.any_eq_true, not_exists, not_and, beq_iff_eq] at hn
    obtain ⟨p, hp, rfl⟩ := List.mem_map.1 ha
    exact hn p hp rfl

theorem size_negate (L : NumLex K) (e : Expr K) : (negate L e).size ≤ e.size + 1 := by
  cases e <;> simp [negate, Expr.size]

/-- What the parser holds already. -/
def Cat.held : Cat K → Nat
  | .loop _ _ t => t.size
  | .arr xs => sizeList xs
  | .dict kvs => sizeDict kvs
  | _ => 0

/-- The keys of the dictionary the parser is building are distinct. -/
def Cat.distinct : Cat K → Prop
  | .dict kvs => (kvs.map (·.1)).Nodup
  | _ => True

/-- Every token makes at most one node. -/
theorem D_size (L : NumLex K) {c : Cat K} {ts rest : List Tok} {e : Expr K} (h : D L c ts e rest) :
    c.distinct → e.size + rest.length ≤ c.held + ts.length + (match c with | .arr _ => 1 | .dict _ => 1 | _ => 0) := by
  induction h with
  | expr _ _ ih1 ih2 =>
    intro _
    have h1 := ih1 trivial
    have h2 := ih2 trivial
    simp only [Cat.held] at *
    omega
  | loopEnd => intro _; simp [Cat.held]
  | loopStop => intro _; simp [Cat.held]
  | loopWrap _ _ _ _ _ _ _ _ ih1 ih2 =>
    intro _
    have h1 := ih1 trivial
    have h2 := ih2 trivial
    simp only [Cat.held, Expr.size, List.length_cons] at *
    omega
  | loopBin _ _ _ _ _ _ _ ih1 ih2 =>
    intro _
    have h1 := ih1 trivial
    have h2 := ih2 trivial
    simp only [Cat.held, Expr.size, List.length_cons] at *
    omega
  | num => intro _; simp [Cat.held, Expr.size]; omega
  | var => intro _; simp [Cat.held, Expr.size]; omega
  | skip _ _ _ ih =>
    intro _
    have h1 := ih trivial
    simp only [Cat.held, List.length_cons] at *
    omega
  | minus _ _ _ ih =>
    intro _
    have h1 := ih trivial
    simp only [Cat.held, List.length_cons] at *
    have := size_negate L ‹_›
    omega
  | paren _ _ _ _ ih =>
    intro _
    have h1 := ih trivial
    simp only [Cat.held, List.length_cons] at *
    omega
  | arr0 => intro _; simp [Cat.held, Expr.size, sizeList]; omega
  | arr _ _ _ _ ih =>
    intro _
    have h1 := ih trivial
    simp only [Cat.held, sizeList, List.length_cons] at *
    omega
  | dict0 => intro _; simp [Cat.held, Expr.size, sizeDict]; omega
  | dict _ _ _ _ ih =>
    intro _
    have h1 := ih (by simp [Cat.distinct])
    simp only [Cat.held, sizeDict, List.length_cons] at *
    omega
  | fn _ _ _ ih =>
    intro _
    have h1 := ih trivial
    simp only [Cat.held, Expr.size, List.length_cons] at *
    omega
  | arrLast _ _ ih =>
    intro _
    have h1 := ih trivial
    simp only [Cat.held, Expr.size, sizeList, sizeList_append, List.length_cons] at *
    omega
  | arrMore _ _ _ ih1 ih2 =>
    intro _
    have h1 := ih1 trivial
    have h2 := ih2 trivial
    simp only [Cat.held, sizeList, sizeList_append, List.length_cons] at *
    omega
  | dictLast _ _ _ _ ih1 ih2 =>
    intro hd
    have h1 := ih1 trivial
    have h2 := ih2 trivial
    have := sizeDict_dictSet ‹_› ‹_› _ hd
    simp only [Cat.held, Expr.size, List.length_cons] at *
    omega
  | @dictMore acc ts k ts1 v ts2 e rest _ _ _ _ _ ih1 ih2 ih3 =>
    intro hd
    have h1 := ih1 trivial
    have h2 := ih2 trivial
    have h3 := ih3 (keys_dictSet _ _ _ hd)
    have := sizeDict_dictSet k v _ hd
    simp only [Cat.held, Expr.size, List.length_cons] at *
    omega

/-- **C89**: an expression read from a text has at most as many nodes as the text has characters. -/
theorem C89_read (L : NumLex K) (s : List Char) (e : Expr K) (h : parse L s = .ok e) : e.size ≤ s.length := by
  have h1 := D_size L ((parse_ok_iff L s e).1 h).2 trivial
  have := lex_length s
  simp only [Cat.held, List.length_nil] at h1
  omega

/-- The text `x+x*x` is read, and its expression has as many nodes as the text has characters. -/
example (L : NumLex K) : ∃ e, parse L ['x', '+', 'x', '*', 'x'] = .ok e ∧ e.size = 5 :=
  ⟨.bin .add (.var ['x']) (.bin .mul (.var ['x']) (.var ['x'])), by rw [parse_eq_fuel]; rfl, rfl⟩

/-- `[x, sin 2]` has 4 nodes. -/
example : (Expr.arr [.var ['x'], .un .sin (.const 2)] : Expr Nat).size = 4 := by simp [Expr.size, sizeList]

/-! ## Printing -/

theorem wrapIf_length (b : Bool) (s : List Char) : (wrapIf b s).length ≤ s.length + 2 := by
  unfold wrapIf; split <;> simp

theorem dropTwo_length (s : List Char) : (dropTwo s).length = s.length - 2 := by
  simp [dropTwo]; omega

/-- **C89**: the text of an expression is at most as long as its names and numbers together, and 8 characters for each node. -/
theorem C89_print (showK : K → List Char) (e : Expr K) : ∀ t, e.repr showK = some t →
    t.length + 2 ≤ e.letters showK + 8 * e.size := by
  induction e using Expr.ind with
  | const k => intro t h; simp only [Expr.repr, Option.some.injEq] at h; subst h; simp [Expr.letters, Expr.size]
  | var n => intro t h; simp only [Expr.repr, Option.some.injEq] at h; subst h; simp [Expr.letters, Expr.size]
  | un o a ih =>
    intro t h
    simp only [Expr.repr, Option.bind_eq_bind, Option.bind_eq_some_iff, Option.some.injEq] at h
    obtain ⟨s, h1, bp, -, rfl⟩ := h
    have h2 := ih s h1
    have h3 := wrapIf_length (decide (bp.1 < o.bp)) s
    have h4 : o.ltext.length + o.rtext.length ≤ 6 := by cases o <;> simp [UnOp.ltext, UnOp.rtext, pmSign]
    simp only [List.length_append, Expr.letters, Expr.size]
    omega
  | bin o l r ih1 ih2 =>
    intro t h
    simp only [Expr.repr, Option.bind_eq_bind, Option.bind_eq_some_iff, Option.some.injEq] at h
    obtain ⟨lb, -, rb, -, ls, h1, rs, h2, rfl⟩ := h
    have h3 := ih1 ls h1
    have h4 := ih2 rs h2
    have h5 := wrapIf_length (decide (lb.2 < o.lbp)) ls
    have h6 := wrapIf_length (decide (o.rbp > rb.1) && !o.wrapped) rs
    have h7 : o.text.length + o.rtext.length ≤ 2 := by cases o <;> simp [BinOp.text, BinOp.rtext, pmSign]
    simp only [List.length_append, Expr.letters, Expr.size]
    omega
  | arr xs ih =>
    intro t h
    have key : ∀ ys : List (Expr K), (∀ y ∈ ys, ∀ t, y.repr showK = some t → t.length + 2 ≤ y.letters showK + 8 * y.size) →
        ∀ t, reprTerms showK ys = some t → t.length ≤ lettersList showK ys + 8 * sizeList ys := by
      intro ys
      induction ys with
      | nil => intro _ t h; simp [reprTerms] at h; subst h; simp
      | cons y ys ihl =>
        intro hy t h
        simp only [reprTerms, Option.bind_eq_bind, Option.bind_eq_some_iff, Option.some.injEq] at h
        obtain ⟨s, h1, ss, h2, rfl⟩ := h
        have h3 := hy y (by simp) s h1
        have h4 := ihl (fun z hz => hy z (by simp [hz])) ss h2
        simp only [List.length_append, List.length_cons, List.length_nil, lettersList, sizeList]
        omega
    cases xs with
    | nil => simp only [Expr.repr, Option.some.injEq] at h; subst h; simp [Expr.letters, Expr.size]; omega
    | cons x xs =>
      simp only [Expr.repr, Option.bind_eq_bind, Option.bind_eq_some_iff, Option.some.injEq] at h
      obtain ⟨s, h1, rfl⟩ := h
      have h2 := key (x :: xs) ih s h1
      simp only [List.length_append, dropTwo_length, List.length_cons, List.length_nil, Expr.letters, Expr.size]
      omega
  | dict kvs ih =>
    intro t h
    have key : ∀ ys : List (List Char × Expr K),
        (∀ y ∈ ys, ∀ t, y.2.repr showK = some t → t.length + 2 ≤ y.2.letters showK + 8 * y.2.size) →
        ∀ t, reprEntries showK ys = some t → t.length ≤ lettersDict showK ys + 8 * sizeDict ys := by
      intro ys
      induction ys with
      | nil => intro _ t h; simp [reprEntries] at h; subst h; simp
      | cons y ys ihl =>
        obtain ⟨k, v⟩ := y
        intro hy t h
        simp only [reprEntries, Option.bind_eq_bind, Option.bind_eq_some_iff, Option.some.injEq] at h
        obtain ⟨s, h1, ss, h2, rfl⟩ := h
        have h3 := hy (k, v) (by simp) s h1
        have h4 := ihl (fun z hz => hy z (by simp [hz])) ss h2
        dsimp only at h3
        simp only [List.length_append, List.length_cons, List.length_nil, lettersDict, sizeDict]
        omega
    cases kvs with
    | nil => simp only [Expr.repr, Option.some.injEq] at h; subst h; simp [Expr.letters, Expr.size]; omega
    | cons x xs =>
      simp only [Expr.repr, Option.bind_eq_bind, Option.bind_eq_some_iff, Option.some.injEq] at h
      obtain ⟨s, h1, rfl⟩ := h
      have h2 := key (x :: xs) ih s h1
      simp only [List.length_append, dropTwo_length, List.length_cons, List.length_nil, Expr.letters, Expr.size]
      omega

/-- `x+2` is printed as three characters, its names and numbers have two. -/
example : ∃ t, (Expr.bin .add (.var ['x']) (.const 2) : Expr Nat).repr (fun k => (toString k).toList) = some t ∧ t.length = 3 := by
  exact ⟨['x', '+', '2'], by simp [Expr.repr, Expr.BP, wrapIf, BinOp.text, BinOp.rtext, BinOp.lbp, BinOp.rbp, BinOp.wrapped]; decide, rfl⟩

/-! ## Substitution -/

/-- **C89**: substituting `g` for `x` adds `g.size - 1` nodes for every occurrence of `x`. -/
theorem C89_sub (f : Expr K) (x : List Char) (g : Expr K) :
    (subVar f x g).size + f.count x = f.size + f.count x * g.size := by
  induction f using Expr.ind with
  | const k => simp [subVar, substRT, Expr.count]
  | var n =>
    rw [subVar_var]
    by_cases h : n = x
    · simp [h, Expr.count, Expr.size]; omega
    · simp [h, Expr.count]
  | un o a ih => rw [subVar_un]; simp only [Expr.size, Expr.count]; omega
  | bin o l r ih1 ih2 =>
    rw [subVar_bin]
    simp only [Expr.size, Expr.count, Nat.add_mul]
    omega
  | arr xs ih =>
    rw [subVar_arr]
    simp only [Expr.size, Expr.count]
    have : ∀ ys : List (Expr K), (∀ y ∈ ys, (subVar y x g).size + y.count x = y.size + y.count x * g.size) →
        sizeList (ys.map fun e => subVar e x g) + countList x ys = sizeList ys + countList x ys * g.size := by
      intro ys
      induction ys with
      | nil => intro _; simp [sizeList, countList]
      | cons y ys ihl =>
        intro hy
        have h1 := hy y (by simp)
        have h2 := ihl fun z hz => hy z (by simp [hz])
        simp only [List.map_cons, sizeList, countList, Nat.add_mul]
        omega
    have := this xs ih
    omega
  | dict kvs => simp [subVar, substRT, Expr.count]

theorem count_le_size (x : List Char) (f : Expr K) : f.count x ≤ f.size := by
  induction f using Expr.ind with
  | const k => simp [Expr.count]
  | var n => simp only [Expr.count, Expr.size]; split <;> omega
  | un o a ih => simp only [Expr.count, Expr.size]; omega
  | bin o l r ih1 ih2 => simp only [Expr.count, Expr.size]; omega
  | arr xs ih =>
    simp only [Expr.count, Expr.size]
    have : ∀ ys : List (Expr K), (∀ y ∈ ys, y.count x ≤ y.size) → countList x ys ≤ sizeList ys := by
      intro ys
      induction ys with
      | nil => simp [countList]
      | cons y ys ihl =>
        intro hy
        have h1 := hy y (by simp)
        have h2 := ihl fun z hz => hy z (by simp [hz])
        simp only [sizeList, countList]
        omega
    have := this xs ih
    omega
  | dict kvs => simp [Expr.count]

/-- So the result has at most `f.size * g.size` nodes. -/
theorem C89_sub_bound (f : Expr K) (x : List Char) (g : Expr K) : (subVar f x g).size ≤ f.size * g.size := by
  have h1 := C89_sub f x g
  have h2 := count_le_size x f
  have h3 := size_pos g
  obtain ⟨d, hd⟩ := Nat.exists_eq_add_of_le h2
  obtain ⟨g', hg⟩ := Nat.exists_eq_add_of_le h3
  rw [hd, hg] at h1 ⊢
  generalize f.count x = c at *
  have e : (c + d) * (0 + 1 + g') = c + d + (c * g' + d * g') := by ring
  have e' : c * (0 + 1 + g') = c + c * g' := by ring
  rw [e]
  rw [e'] at h1
  have := Nat.zero_le (d * g')
  omega

/-- `sub(x * x, x = y + 1)` has 7 nodes. -/
example : (subVar (.bin .mul (.var ['x']) (.var ['x'])) ['x'] (.bin .add (.var ['y']) (.const 1)) : Expr Nat).size = 7 := by
  have := C89_sub (.bin .mul (.var ['x']) (.var ['x'])) ['x'] (.bin .add (.var ['y']) (.const (1 : Nat)))
  simp [Expr.size, Expr.count] at this
  omega

/-! ## Derivatives -/

theorem levels_le_size (f : Expr K) : f.levels ≤ f.size := by
  induction f using Expr.ind with
  | const k => simp [Expr.levels, Expr.size]
  | var n => simp [Expr.levels, Expr.size]
  | un o a ih => simp only [Expr.levels, Expr.size]; omega
  | bin o l r ih1 ih2 => simp only [Expr.levels, Expr.size]; omega
  | arr xs ih =>
    simp only [Expr.levels, Expr.size]
    have : ∀ ys : List (Expr K), (∀ y ∈ ys, y.levels ≤ y.size) → levelsList ys ≤ sizeList ys := by
      intro ys
      induction ys with
      | nil => simp [levelsList]
      | cons y ys ihl =>
        intro hy
        have h1 := hy y (by simp)
        have h2 := ihl fun z hz => hy z (by simp [hz])
        simp only [sizeList, levelsList]
        omega
    have := this xs ih
    omega
  | dict kvs ih =>
    simp only [Expr.levels, Expr.size]
    have : ∀ ys : List (List Char × Expr K), (∀ y ∈ ys, y.2.levels ≤ y.2.size) → levelsDict ys ≤ sizeDict ys := by
      intro ys
      induction ys with
      | nil => simp [levelsDict]
      | cons y ys ihl =>
        obtain ⟨k, v⟩ := y
        intro hy
        have h1 := hy (k, v) (by simp)
        have h2 := ihl fun z hz => hy z (by simp [hz])
        dsimp only at h1
        simp only [sizeDict, levelsDict]
        omega
    have := this kvs ih
    omega

/-- Size and depth of a derivative, together. -/
def Tame (f f' : Expr K) : Prop := f'.size ≤ (3 * f.levels + 7) * f.size ∧ f'.levels ≤ 3 * f.levels + 2

theorem tame_step {h k s d : Nat} (hk : k + 1 ≤ h) (hd : d ≤ (3 * k + 7) * s) : d + 3 * s + 10 ≤ (3 * h + 7) * (s + 1) := by
  have : (3 * k + 7) * s ≤ (3 * h + 4) * s := Nat.mul_le_mul_right _ (by omega)
  have e : (3 * h + 7) * (s + 1) = (3 * h + 4) * s + 3 * s + (3 * h + 7) := by ring
  omega

theorem deriv_tame (N : NumOps K) (x : List Char) (f : Expr K) : ∀ f', deriv N x f = .ok f' → Tame f f' := by
  induction f using Expr.ind with
  | const k => intro f' h; simp [deriv] at h; subst h; simp [Tame, Expr.size, Expr.levels]
  | var n => intro f' h; simp [deriv] at h; subst h; simp [Tame, Expr.size, Expr.levels]
  | un o a ih =>
    intro f' h
    rw [deriv] at h
    simp only [Res.bind_eq_ok] at h
    obtain ⟨a', h1, h2⟩ := h
    obtain ⟨i1, i2⟩ := ih a' h1
    have := levels_pos a
    have st := tame_step (h := a.levels + 1) le_rfl i1
    cases o <;> simp at h2 <;> subst h2 <;> refine ⟨?_, ?_⟩ <;> simp only [Expr.size, Expr.levels] <;> omega
  | bin o l r ih1 ih2 =>
    intro f' h
    have p1 := levels_pos l
    have p2 := levels_pos r
    have both : ∀ l' r', deriv N x l = .ok l' → deriv N x r = .ok r' →
        l'.size + r'.size + 3 * (l.size + r.size) + 10 ≤ (3 * (max l.levels r.levels + 1) + 7) * (l.size + r.size + 1) ∧
        l'.levels ≤ 3 * l.levels + 2 ∧ r'.levels ≤ 3 * r.levels + 2 := by
      intro l' r' hl hr
      obtain ⟨a1, a2⟩ := ih1 l' hl
      obtain ⟨b1, b2⟩ := ih2 r' hr
      refine ⟨tame_step (k := max l.levels r.levels) le_rfl ?_, a2, b2⟩
      have c1 : (3 * l.levels + 7) * l.size ≤ (3 * max l.levels r.levels + 7) * l.size := Nat.mul_le_mul_right _ (by omega)
      have c2 : (3 * r.levels + 7) * r.size ≤ (3 * max l.levels r.levels + 7) * r.size := Nat.mul_le_mul_right _ (by omega)
      rw [Nat.mul_add]
      omega
    cases o
    case access => simp [deriv] at h; subst h; refine ⟨Nat.le_mul_of_pos_left _ (by omega), by omega⟩
    case units => simp [deriv] at h
    case uncert => simp [deriv] at h
    all_goals
      rw [deriv] at h
      simp only [Res.bind_eq_ok] at h
      obtain ⟨l', h1, r', h2, h3⟩ := h
      obtain ⟨b1, b2, b3⟩ := both l' r' h1 h2
      simp at h3; subst h3
      refine ⟨?_, ?_⟩ <;> simp only [Expr.size, Expr.levels] <;> omega
  | arr xs ih =>
    intro f' h
    have key : ∀ ys : List (Expr K), (∀ y ∈ ys, ∀ f', deriv N x y = .ok f' → Tame y f') → ∀ ds, derivs N x ys = .ok ds →
        sizeList ds ≤ (3 * levelsList ys + 7) * sizeList ys ∧ levelsList ds ≤ 3 * levelsList ys + 2 := by
      intro ys
      induction ys with
      | nil => intro _ ds h; simp [derivs] at h; subst h; simp [sizeList, levelsList]
      | cons y ys ihl =>
        intro hy ds h
        simp only [derivs, Res.bind_eq_ok] at h
        obtain ⟨d, h1, ds', h2, h3⟩ := h
        simp at h3; subst h3
        obtain ⟨a1, a2⟩ := hy y (by simp) d h1
        obtain ⟨b1, b2⟩ := ihl (fun z hz => hy z (by simp [hz])) ds' h2
        simp only [sizeList, levelsList]
        have c1 : (3 * y.levels + 7) * y.size ≤ (3 * max y.levels (levelsList ys) + 7) * y.size :=
          Nat.mul_le_mul_right _ (by omega)
        have c2 : (3 * levelsList ys + 7) * sizeList ys ≤ (3 * max y.levels (levelsList ys) + 7) * sizeList ys :=
          Nat.mul_le_mul_right _ (by omega)
        rw [Nat.mul_add]
        exact ⟨by omega, by omega⟩
    simp only [deriv, Res.bind_eq_ok] at h
    obtain ⟨ds, h1, h2⟩ := h
    simp at h2; subst h2
    obtain ⟨a1, a2⟩ := key xs ih ds h1
    have st := tame_step (h := levelsList xs + 1) le_rfl a1
    refine ⟨?_, ?_⟩ <;> simp only [Expr.size, Expr.levels] <;> omega
  | dict kvs => intro f' h; simp [deriv] at h

/-- **C89**: a derivative has at most `3 h + 7` times as many nodes as the expression, where `h` is the number of levels of the
expression. -/
theorem C89_derivative (N : NumOps K) (x : List Char) (f f' : Expr K) (h : deriv N x f = .ok f') :
    f'.size ≤ (3 * f.levels + 7) * f.size := (deriv_tame N x f f' h).1

/-- The derivative of the derivative of the ..., without `simplify` in between. -/
inductive Derivs (N : NumOps K) (x : List Char) : Nat → Expr K → Expr K → Prop
  | zero {f} : Derivs N x 0 f f
  | succ {n f g h} : Derivs N x n f g → deriv N x g = .ok h → Derivs N x (n + 1) f h

/-- **C89**: the size of the `n`-th derivative, without `simplify` in between: a constant to the power of `n`², times a power of the
number of levels, times the size. -/
theorem C89_higher (N : NumOps K) (x : List Char) {n : Nat} {f g : Expr K} (h : Derivs N x n f g) :
    g.size ≤ (3 ^ (n + 1) * (f.levels + 1)) ^ n * f.size ∧ g.levels + 1 ≤ 3 ^ n * (f.levels + 1) := by
  induction h with
  | zero => simp
  | @succ n f g h' _ hd ih =>
    obtain ⟨i1, i2⟩ := ih
    obtain ⟨j1, j2⟩ := deriv_tame N x g h' hd
    refine ⟨?_, ?_⟩
    · have hp := levels_pos f
      have hn : 1 ≤ 3 ^ n := Nat.one_le_pow _ _ (by omega)
      have h3 : 3 * g.levels + 7 ≤ 3 ^ (n + 2) * (f.levels + 1) := by
        have e : 3 ^ (n + 2) * (f.levels + 1) = 9 * (3 ^ n * (f.levels + 1)) := by ring
        have : 1 * 2 ≤ 3 ^ n * (f.levels + 1) := Nat.mul_le_mul hn (by omega)
        omega
      calc h'.size ≤ (3 * g.levels + 7) * g.size := j1
        _ ≤ (3 ^ (n + 2) * (f.levels + 1)) * ((3 ^ (n + 1) * (f.levels + 1)) ^ n * f.size) := Nat.mul_le_mul h3 i1
        _ ≤ (3 ^ (n + 2) * (f.levels + 1)) * ((3 ^ (n + 2) * (f.levels + 1)) ^ n * f.size) := by
            refine Nat.mul_le_mul_left _ (Nat.mul_le_mul_right _ (Nat.pow_le_pow_left (Nat.mul_le_mul_right _ ?_) _))
            exact Nat.pow_le_pow_right (by omega) (by omega)
        _ = (3 ^ (n + 1 + 1) * (f.levels + 1)) ^ (n + 1) * f.size := by ring
    · have e : 3 ^ (n + 1) * (f.levels + 1) = 3 * (3 ^ n * (f.levels + 1)) := by ring
      omega

/-- **C89**: the derivative of an expression read from a text of `n` characters has at most `3 n² + 7 n` nodes. -/
theorem C89_text (L : NumLex K) (N : NumOps K) (x s : List Char) (f f' : Expr K) (h : parse L s = .ok f)
    (hd : deriv N x f = .ok f') : f'.size ≤ 3 * s.length ^ 2 + 7 * s.length := by
  have h1 := C89_read L s f h
  have h2 := levels_le_size f
  have h3 := C89_derivative N x f f' hd
  calc f'.size ≤ (3 * f.levels + 7) * f.size := h3
    _ ≤ (3 * s.length + 7) * s.length := Nat.mul_le_mul (by omega) h1
    _ = 3 * s.length ^ 2 + 7 * s.length := by ring

/-- The derivative of `x ^ x`: 3 nodes on 2 levels become 18 nodes (the bound is 39). -/
example (N : NumOps K) : ∃ f', deriv N ['x'] (.bin .pow (.var ['x']) (.var ['x'])) = .ok f' ∧ f'.size = 18 := by
  refine ⟨_, (deriv_bin_eq_ok (by rfl) (by rfl)).2.2.2.2, ?_⟩
  simp [Expr.size]

/-! ## Simplification -/

theorem unitless_size : ∀ e : Expr K, e.unitless = true → e.size = e.nodes
  | .const _, _ => rfl
  | .var _, _ => rfl
  | .un _ a, h => by
    simp only [Expr.unitless] at h
    simp [Expr.size, Expr.nodes, unitless_size a h]
  | .bin _ l r, h => by
    simp only [Expr.unitless, Bool.and_eq_true] at h
    simp [Expr.size, Expr.nodes, unitless_size l h.1.2, unitless_size r h.2]
  | .arr _, h => by simp [Expr.unitless] at h
  | .dict _, h => by simp [Expr.unitless] at h

/-- **C89**: `simplify` never makes a scalar expression without units larger. -/
theorem C89_simplify [DecidableEq K] (N : NumOps K) (e e' : Expr K) (hu : e.unitless = true) (h : Simplifies N e e') :
    e'.size ≤ e.size := by
  obtain ⟨h1, h2⟩ := C51_change_shrinks N e e' hu h
  rw [unitless_size e hu, unitless_size e' h2]
  rcases h1 with rfl | h1
  · exact le_rfl
  · omega

/-- A function of a product of an array and a function of a product of ... -/
def nested (K : Type) : Nat → Expr K
  | 0 => .var ['x']
  | n + 1 => .un .sin (.bin .mul (.arr [.var ['x'], .var ['x']]) (nested K n))

/-- **C89**: with arrays inside functions, however, `simplify` can make an expression exponentially larger: `5 n + 1` nodes become at
least `2 ^ n`. -/
theorem C89_simplify_grows [DecidableEq K] (N : NumOps K) (n : Nat) :
    (nested K n).size = 5 * n + 1 ∧ ∃ e', Simplifies N (nested K n) e' ∧ 2 ^ n ≤ e'.size := by
  refine ⟨?_, ?_⟩
  · induction n with
    | zero => rfl
    | succ n ih => simp only [nested, Expr.size, sizeList, ih]; omega
  · have key : ∃ m e', (∀ k, m ≤ k → simp N k (nested K n) = .ok e') ∧ 2 ^ n ≤ e'.size ∧
        (e' = .var ['x'] ∨ ∃ a, e' = .un .sin (.arr a)) := by
      induction n with
      | zero =>
        refine ⟨1, .var ['x'], fun k hk => ?_, by simp [Expr.size], .inl rfl⟩
        obtain ⟨k, rfl⟩ := Nat.exists_eq_add_of_le' hk
        rfl
      | succ n ih =>
        obtain ⟨m, e', h1, h2, h3⟩ := ih
        refine ⟨m + 4, .un .sin (.arr [.bin .mul (.var ['x']) e', .bin .mul (.var ['x']) e']), fun k hk => ?_, ?_, .inr ⟨_, rfl⟩⟩
        · obtain ⟨k, rfl⟩ := Nat.exists_eq_add_of_le' (show 4 ≤ k by omega)
          have h4 : simp N (k + 2) (nested K n) = .ok e' := h1 _ (by omega)
          rw [nested, simp, simp, h4]
          rcases h3 with rfl | ⟨a, rfl⟩ <;>
            simp [simp, mapRes, simpBin, isConst, BinOp.leftZero, BinOp.leftId, BinOp.rightZero, BinOp.rightId, ddVisit, mulUnits,
              elemOp, foldUn]
        · simp only [Expr.size, sizeList, Nat.pow_succ]; omega
    obtain ⟨m, e', h1, h2, -⟩ := key
    exact ⟨e', ⟨m, h1 m le_rfl⟩, h2⟩

end Stator
