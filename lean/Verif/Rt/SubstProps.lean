import Verif.Rt.Subst
import Verif.Rt.SimplifyProps

/-!
# Properties C12-C15: substitution
-/

namespace Stator

/-! ## Helper lemmas -/

theorem interpList_eq {K V : Type} (A : Algebra K V) (ρ : List Char → V) (xs : List (Expr K)) :
    interpList A ρ xs = xs.map (·.interp A ρ) := by
  induction xs with
  | nil => simp [interpList]
  | cons x xs ih => simp [interpList, ih]

theorem noDictList_iff {K : Type} (xs : List (Expr K)) :
    noDictList xs = true ↔ ∀ x ∈ xs, x.noDict = true := by
  induction xs with
  | nil => simp [noDictList]
  | cons x xs ih => simp [noDictList, ih]

/-- The array loop replaces element by element. -/
theorem substRTs_eq {K : Type} (x : List Char) (g : Expr K) (es : List (Expr K)) :
    ∀ skipped out, (substRTs x g es skipped out).getD (skipped ++ es) =
      (out.getD skipped) ++ es.map (fun e => (substRT x g e).getD e) := by
  induction es with
  | nil => intro s out; cases out <;> simp [substRTs]
  | cons e es ih =>
    intro s out
    rw [substRTs]
    have h := ih (s ++ [e])
      ((if (substRT x g e).isSome && out.isNone then some s else out).map fun o => o ++ [(substRT x g e).getD e])
    simp only [List.append_assoc, List.cons_append, List.nil_append] at h
    rw [h]
    cases out <;> cases hs : substRT x g e <;> simp [hs]

theorem substDicts_eq {K : Type} (d : List (List Char × Expr K)) (es : List (Expr K)) :
    ∀ skipped out, (substDicts d es skipped out).getD (skipped ++ es) =
      (out.getD skipped) ++ es.map (fun e => (substDict d e).getD e) := by
  induction es with
  | nil => intro s out; cases out <;> simp [substDicts]
  | cons e es ih =>
    intro s out
    rw [substDicts]
    have h := ih (s ++ [e])
      ((if (substDict d e).isSome && out.isNone then some s else out).map fun o => o ++ [(substDict d e).getD e])
    simp only [List.append_assoc, List.cons_append, List.nil_append] at h
    rw [h]
    cases out <;> cases hs : substDict d e <;> simp [hs]

theorem subVar_un {K : Type} (x : List Char) (g : Expr K) (o : UnOp) (a : Expr K) :
    subVar (.un o a) x g = .un o (subVar a x g) := by
  simp only [subVar, substRT]
  cases substRT x g a <;> rfl

theorem subVar_bin {K : Type} (x : List Char) (g : Expr K) (o : BinOp) (l r : Expr K) :
    subVar (.bin o l r) x g = .bin o (subVar l x g) (subVar r x g) := by
  simp only [subVar, substRT]
  cases substRT x g l <;> cases substRT x g r <;> rfl

theorem subVar_arr {K : Type} (x : List Char) (g : Expr K) (xs : List (Expr K)) :
    subVar (.arr xs) x g = .arr (xs.map fun e => subVar e x g) := by
  simp only [subVar, substRT]
  have := substRTs_eq x g xs [] none
  simp only [List.nil_append, Option.getD_none] at this
  rw [← this]
  cases substRTs x g xs [] none <;> rfl

theorem subVar_var {K : Type} (x : List Char) (g : Expr K) (n : List Char) :
    subVar (.var n) x g = if n = x then g else .var n := by
  simp only [subVar, substRT]
  split <;> rfl

theorem subDict_un {K : Type} (d : List (List Char × Expr K)) (o : UnOp) (a : Expr K) :
    subDict (.un o a) d = .un o (subDict a d) := by
  simp only [subDict, substDict]
  cases substDict d a <;> rfl

theorem subDict_bin {K : Type} (d : List (List Char × Expr K)) (o : BinOp) (l r : Expr K) :
    subDict (.bin o l r) d = .bin o (subDict l d) (subDict r d) := by
  simp only [subDict, substDict]
  cases substDict d l <;> cases substDict d r <;> rfl

theorem subDict_arr {K : Type} (d : List (List Char × Expr K)) (xs : List (Expr K)) :
    subDict (.arr xs) d = .arr (xs.map fun e => subDict e d) := by
  simp only [subDict, substDict]
  have := substDicts_eq d xs [] none
  simp only [List.nil_append, Option.getD_none] at this
  rw [← this]
  cases substDicts d xs [] none <;> rfl

theorem subDict_var {K : Type} (d : List (List Char × Expr K)) (n : List Char) :
    subDict (.var n) d = ((d.find? fun p => p.1 = n).map (·.2)).getD (.var n) := rfl

/-! ## C13 -/

/-- **C13**. In every compositional interpretation of expressions, the meaning of `sub(f, x = g)`
is the meaning of `f` under the assignment updated at `x` by the meaning of `g`. (For `f` without
dictionaries, into which the code does not substitute.) -/
theorem C13_substitution {K V : Type} (A : Algebra K V) (ρ : List Char → V) (f : Expr K)
    (x : List Char) (g : Expr K) (h : f.noDict = true) :
    (subVar f x g).interp A ρ = f.interp A (Function.update ρ x (g.interp A ρ)) := by
  induction f using Expr.ind with
  | const k => simp [subVar, substRT, Expr.interp]
  | var n =>
    rw [subVar_var]
    split
    · subst n; simp [Expr.interp]
    · simp [Expr.interp, Function.update_of_ne, *]
  | un o a ih =>
    simp only [Expr.noDict] at h
    simp [subVar_un, Expr.interp, ih h]
  | bin o l r ih1 ih2 =>
    simp [Expr.noDict] at h
    simp [subVar_bin, Expr.interp, ih1 h.1, ih2 h.2]
  | arr xs ih =>
    simp only [Expr.noDict, noDictList_iff] at h
    simp only [subVar_arr, Expr.interp, interpList_eq, List.map_map]
    congr 1
    apply List.map_congr_left
    intro e he
    exact ih e he (h e he)
  | dict => simp [Expr.noDict] at h

/-- `[x, sin(x + y)]` has no dictionary -/
example : (Expr.arr [.var ['x'], .un .sin (.bin .add (.var ['x']) (.var ['y']))] : Expr Nat).noDict
    = true := by simp [Expr.noDict, noDictList]

theorem eval_update (ρ : List Char → ℝ) (f : Expr ℝ) (x : List Char) (g : Expr ℝ) (y : ℝ)
    (hg : g.eval ρ = some y) :
    (subVar f x g).eval ρ = f.eval (Function.update ρ x y) := by
  induction f using Expr.ind with
  | const k => simp [subVar, substRT, Expr.eval]
  | var n =>
    rw [subVar_var]
    split
    · subst n; simp [Expr.eval, hg]
    · simp [Expr.eval, Function.update_of_ne, *]
  | un o a ih => simp [subVar_un, Expr.eval, ih]
  | bin o l r ih1 ih2 => simp [subVar_bin, Expr.eval, ih1, ih2]
  | arr xs ih => simp [subVar_arr, Expr.eval]
  | dict => simp [subVar, substRT, Expr.eval]

/-- **C13** for real values: if `g` has the value `y`, then `sub(f, x = g)` has a value exactly when
`f` has one at `x := y`, and they agree. -/
theorem C13_value (ρ : List Char → ℝ) (f : Expr ℝ) (x : List Char) (g : Expr ℝ) (y : ℝ)
    (hg : g.eval ρ = some y) :
    sub f (.bin .eq (.var x) g) = .ok (subVar f x g) ∧
    (subVar f x g).eval ρ = f.eval (Function.update ρ x y) :=
  ⟨rfl, eval_update ρ f x g y hg⟩

example : (Expr.bin .mul (.const 2) (.var ['y']) : Expr ℝ).eval (fun _ => 3) = some 6 := by
  simp [Expr.eval, binVal]; norm_num

/-- **C13**, interface: only an equation with a variable on its left or a dictionary is accepted. -/
theorem C13_rejects {K : Type} (f rep : Expr K) :
    (∃ r, sub f rep = .ok r) ↔ (∃ d, rep = .dict d) ∨ ∃ x g, rep = .bin .eq (.var x) g := by
  constructor
  · rintro ⟨r, h⟩
    unfold sub at h
    split at h
    · exact .inl ⟨_, rfl⟩
    · exact .inr ⟨_, _, rfl⟩
    · simp at h
  · rintro (⟨d, rfl⟩ | ⟨x, g, rfl⟩)
    · exact ⟨_, rfl⟩
    · exact ⟨_, rfl⟩

/-- **C13**, the failing half: variables inside a dictionary are not substituted. -/
theorem C13_dict_untouched {K : Type} (d : List (List Char × Expr K)) (x : List Char) (g : Expr K) :
    subVar (.dict d) x g = .dict d := by simp [subVar, substRT]

/-! ## C14 -/

/-- **C14**. The meaning of `sub(f, {x1:g1, x2:g2, ...})` is the meaning of `f` under the assignment
that gives every `xi` the meaning of `gi` under the *original* assignment. -/
theorem C14_simultaneous {K V : Type} (A : Algebra K V) (ρ : List Char → V) (f : Expr K)
    (d : List (List Char × Expr K)) (h : f.noDict = true) :
    (subDict f d).interp A ρ =
      f.interp A (fun n => match d.find? (fun p => p.1 = n) with
        | some p => p.2.interp A ρ
        | none => ρ n) := by
  induction f using Expr.ind with
  | const k => simp [subDict, substDict, Expr.interp]
  | var n =>
    rw [subDict_var]
    simp only [Expr.interp]
    cases d.find? (fun p => p.1 = n) <;> simp [Expr.interp]
  | un o a ih =>
    simp only [Expr.noDict] at h
    simp [subDict_un, Expr.interp, ih h]
  | bin o l r ih1 ih2 =>
    simp [Expr.noDict] at h
    simp [subDict_bin, Expr.interp, ih1 h.1, ih2 h.2]
  | arr xs ih =>
    simp only [Expr.noDict, noDictList_iff] at h
    simp only [subDict_arr, Expr.interp, interpList_eq, List.map_map]
    congr 1
    apply List.map_congr_left
    intro e he
    exact ih e he (h e he)
  | dict => simp [Expr.noDict] at h

theorem find?_perm {K : Type} {d d' : List (List Char × Expr K)} (hp : d.Perm d')
    (hk : (d.map (·.1)).Nodup) (n : List Char) :
    (d.find? fun p => p.1 = n) = d'.find? fun p => p.1 = n := by
  have key : ∀ {d : List (List Char × Expr K)}, (d.map (·.1)).Nodup → ∀ p,
      (d.find? fun p => p.1 = n) = some p ↔ p ∈ d ∧ p.1 = n := by
    intro d hd p
    induction d with
    | nil => simp
    | cons q d ih =>
      simp only [List.map_cons, List.nodup_cons] at hd
      rw [List.find?_cons]
      by_cases hq : q.1 = n
      · simp only [hq, decide_true]
        constructor
        · intro h; simp at h; subst h; simp [hq]
        · rintro ⟨h1, h2⟩
          simp at h1
          rcases h1 with rfl | h1
          · rfl
          · exact absurd (List.mem_map.2 ⟨p, h1, by rw [h2, hq]⟩) hd.1
      · simp only [hq, decide_false]
        rw [ih hd.2]
        constructor
        · rintro ⟨h1, h2⟩; simp [h1, h2]
        · rintro ⟨h1, h2⟩
          simp at h1
          rcases h1 with rfl | h1
          · exact absurd h2 hq
          · exact ⟨h1, h2⟩
  have hk' : (d'.map (·.1)).Nodup := (hp.map _).nodup_iff.1 hk
  apply Option.ext
  intro p
  rw [key hk, key hk', hp.mem_iff]

/-- **C14**. The result does not depend on the order in which the dictionary holds its entries (for
all expressions `f`). -/
theorem C14_order {K : Type} (f : Expr K) (d d' : List (List Char × Expr K)) (hp : d.Perm d')
    (hk : (d.map (·.1)).Nodup) : subDict f d = subDict f d' := by
  induction f using Expr.ind with
  | const k => simp [subDict, substDict]
  | var n => rw [subDict_var, subDict_var, find?_perm hp hk]
  | un o a ih => rw [subDict_un, subDict_un, ih]
  | bin o l r ih1 ih2 => rw [subDict_bin, subDict_bin, ih1, ih2]
  | arr xs ih => rw [subDict_arr, subDict_arr, List.map_congr_left ih]
  | dict => simp [subDict, substDict]

/-- Swapping two variables at once. -/
example : subDict (.bin .sub (.var ['x']) (.var ['y']) : Expr Nat)
    [(['x'], .var ['y']), (['y'], .var ['x'])] = .bin .sub (.var ['y']) (.var ['x']) := by
  simp [subDict_bin, subDict_var]

example : ([(['x'], .var ['y']), (['y'], .var ['x'])] : List (List Char × Expr Nat)).Perm
    [(['y'], .var ['x']), (['x'], .var ['y'])] := List.Perm.swap ..

/-- **C14**: a dictionary with one entry acts as the equation. -/
theorem C14_single {K : Type} (f : Expr K) (x : List Char) (g : Expr K) :
    subDict f [(x, g)] = subVar f x g := by
  induction f using Expr.ind with
  | const k => simp [subDict, substDict, subVar, substRT]
  | var n =>
    rw [subDict_var, subVar_var]
    by_cases h : n = x
    · simp [h]
    · simp [h, Ne.symm h]
  | un o a ih => rw [subDict_un, subVar_un, ih]
  | bin o l r ih1 ih2 => rw [subDict_bin, subVar_bin, ih1, ih2]
  | arr xs ih => rw [subDict_arr, subVar_arr, List.map_congr_left ih]
  | dict => simp [subDict, substDict, subVar, substRT]

/-! ## C15 -/

/-- **C15**. Substituting for a variable that does not occur changes nothing. -/
theorem C15_absent {K : Type} (f : Expr K) (x : List Char) (g : Expr K) (h : x ∉ f.vars) :
    subVar f x g = f := by
  induction f using Expr.ind with
  | const k => simp [subVar, substRT]
  | var n =>
    rw [subVar_var]
    simp [Expr.vars] at h
    simp [Ne.symm h]
  | un o a ih => rw [subVar_un, ih h]
  | bin o l r ih1 ih2 =>
    simp [Expr.vars] at h
    rw [subVar_bin, ih1 h.1, ih2 h.2]
  | arr xs ih =>
    simp only [Expr.vars, mem_varsList, not_exists, not_and] at h
    rw [subVar_arr]
    congr 1
    conv => rhs; rw [← List.map_id xs]
    exact List.map_congr_left fun e he => ih e he (h e he)
  | dict => simp [subVar, substRT]

/-- **C15** for dictionaries: if no key occurs, nothing changes. -/
theorem C15_absent_dict {K : Type} (f : Expr K) (d : List (List Char × Expr K))
    (h : ∀ p ∈ d, p.1 ∉ f.vars) : subDict f d = f := by
  induction f using Expr.ind with
  | const k => simp [subDict, substDict]
  | var n =>
    rw [subDict_var]
    have : (d.find? fun p => p.1 = n) = none := by
      rw [List.find?_eq_none]
      intro p hp
      have := h p hp
      simp [Expr.vars] at this
      simp [this]
    simp [this]
  | un o a ih => rw [subDict_un, ih h]
  | bin o l r ih1 ih2 =>
    simp [Expr.vars] at h
    rw [subDict_bin, ih1 fun p hp => (h p.1 p.2 hp).1, ih2 fun p hp => (h p.1 p.2 hp).2]
  | arr xs ih =>
    simp only [Expr.vars, mem_varsList, not_exists, not_and] at h
    rw [subDict_arr]
    congr 1
    conv => rhs; rw [← List.map_id xs]
    exact List.map_congr_left fun e he => ih e he fun p hp => h p hp e he
  | dict => simp [subDict, substDict]

example : ['z'] ∉ (Expr.un .sin (.bin .add (.var ['x']) (.var ['y'])) : Expr Nat).vars := by
  decide

/-! ## C12 for substitution -/

/-- **C12** (sub). A variable of `sub(f, x = g)` is a variable of `g`, or a variable of `f` other than
`x` (`x` itself can only survive inside a dictionary, excluded here). -/
theorem C12_sub {K : Type} (f : Expr K) (x : List Char) (g : Expr K) (hf : f.noDict = true) :
    ∀ n ∈ (subVar f x g).vars, n ∈ g.vars ∨ (n ∈ f.vars ∧ n ≠ x) := by
  induction f using Expr.ind with
  | const k => simp [subVar, substRT, Expr.vars]
  | var m =>
    rw [subVar_var]
    split
    · intro n hn; exact .inl hn
    · intro n hn; simp [Expr.vars] at hn; subst hn; right; simp [Expr.vars, *]
  | un o a ih => rw [subVar_un]; exact ih hf
  | bin o l r ih1 ih2 =>
    simp [Expr.noDict] at hf
    rw [subVar_bin]
    intro n hn
    simp [Expr.vars] at hn ⊢
    rcases hn with hn | hn
    · have := ih1 hf.1 n hn; tauto
    · have := ih2 hf.2 n hn; tauto
  | arr xs ih =>
    simp only [Expr.noDict, noDictList_iff] at hf
    rw [subVar_arr]
    intro n hn
    simp only [Expr.vars, mem_varsList, List.mem_map] at hn ⊢
    obtain ⟨_, ⟨e, he, rfl⟩, hn⟩ := hn
    rcases ih e he (hf e he) n hn with h | h
    · exact .inl h
    · exact .inr ⟨⟨e, he, h.1⟩, h.2⟩
  | dict => simp [Expr.noDict] at hf

/-- **C12** (sub, dictionary). A variable of `sub(f, d)` is a variable of a replacement, or a variable
of `f`. -/
theorem C12_sub_dict {K : Type} (f : Expr K) (d : List (List Char × Expr K)) :
    ∀ n ∈ (subDict f d).vars, (∃ p ∈ d, n ∈ p.2.vars) ∨ n ∈ f.vars := by
  induction f using Expr.ind with
  | const k => simp [subDict, substDict, Expr.vars]
  | var m =>
    rw [subDict_var]
    intro n hn
    cases h : d.find? (fun p => p.1 = m) with
    | none => rw [h] at hn; exact .inr hn
    | some p =>
      rw [h] at hn
      exact .inl ⟨p, List.mem_of_find?_eq_some h, hn⟩
  | un o a ih => rw [subDict_un]; exact ih
  | bin o l r ih1 ih2 =>
    rw [subDict_bin]
    intro n hn
    simp only [Expr.vars, List.mem_append] at hn ⊢
    rcases hn with hn | hn
    · rcases ih1 n hn with h | h
      · exact .inl h
      · exact .inr (.inl h)
    · rcases ih2 n hn with h | h
      · exact .inl h
      · exact .inr (.inr h)
  | arr xs ih =>
    rw [subDict_arr]
    intro n hn
    simp only [Expr.vars, mem_varsList, List.mem_map] at hn ⊢
    obtain ⟨_, ⟨e, he, rfl⟩, hn⟩ := hn
    rcases ih e he n hn with h | h
    · exact .inl h
    · exact .inr ⟨e, he, h⟩
  | dict => intro n hn; exact .inr (by simpa [subDict, substDict] using hn)

/-- **C12** (sub), for all expressions `f`: a variable of `sub(f, x = g)` is a variable of `g` or of `f`. -/
theorem C12_sub_all {K : Type} (f : Expr K) (x : List Char) (g : Expr K) :
    ∀ n ∈ (subVar f x g).vars, n ∈ g.vars ∨ n ∈ f.vars := by
  intro n hn
  rw [← C14_single] at hn
  rcases C12_sub_dict f [(x, g)] n hn with ⟨p, hp, h⟩ | h
  · simp only [List.mem_singleton] at hp
    subst hp
    exact .inl h
  · exact .inr h

/-- `sub({a: x}, x = y)` still has the variable `x`: inside a dictionary it survives. -/
example : (subVar (.dict [(['a'], .var ['x'])]) ['x'] (.var ['y']) : Expr Nat).vars = [['x']] := by
  simp [subVar, substRT, Expr.vars, varsDict]

end Stator
