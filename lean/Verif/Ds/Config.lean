import Mathlib.Data.List.Basic

/-!
# Option lists of template arguments (C60)

Models the metafunctions of `stator/orphan/template_config.hpp`: an option is a type with a `type_id` and a
`value` (a constant, a type or a template; the three look-ups have the same shape). Reading a member an option
does not have (`basic_conf_t` has no `value`) does not compile: `none`.
-/

namespace Stator.Ds

/-- An option. `ID` are the identities of types compared with `std::is_same`.
models: template_config.hpp:20-37. -/
structure Conf (ID V : Type) where
  typeId : ID
  value : Option V

/-- `get_value`, `get_type` and `get_template_type`. models: template_config.hpp:40-108. -/
def getValue {ID V : Type} [DecidableEq ID] (d : Conf ID V) : List (Conf ID V) → Option V
  | [] => d.value
  | t :: args => if d.typeId = t.typeId then t.value else getValue d args

/-- `is_present`. models: template_config.hpp:110-117. -/
def isPresent {T : Type} [DecidableEq T] (t1 : T) : List T → Bool
  | [] => false
  | t2 :: args => decide (t1 = t2) || isPresent t1 args

/-- `tmp_list::contains`. models: template_config.hpp:120-124. -/
def tmpContains {ID V : Type} [DecidableEq ID] (valid : List ID) (t : Conf ID V) : Bool :=
  isPresent t.typeId valid

/-- `is_valid`. models: template_config.hpp:126-133. -/
def isValid {ID V : Type} [DecidableEq ID] (valid : List ID) : List (Conf ID V) → Bool
  | [] => true
  | t :: args => tmpContains valid t && isValid valid args

/-! ## C60 -/

/-- C60: the value of an option is that of the first argument with its identity. -/
theorem C60_first_argument_wins {ID V : Type} [DecidableEq ID] (d t : Conf ID V) (pre post : List (Conf ID V))
    (hpre : ∀ a ∈ pre, a.typeId ≠ d.typeId) (ht : t.typeId = d.typeId) :
    getValue d (pre ++ t :: post) = t.value := by
  induction pre with
  | nil => simp [getValue, ht]
  | cons a p ih =>
    have ha : d.typeId ≠ a.typeId := fun h => hpre a (by simp) h.symm
    simp only [List.cons_append, getValue, if_neg ha]
    exact ih fun b hb => hpre b (by simp [hb])

/-- C60: when no argument has its identity the value is the default's. -/
theorem C60_default {ID V : Type} [DecidableEq ID] (d : Conf ID V) (args : List (Conf ID V))
    (h : ∀ a ∈ args, a.typeId ≠ d.typeId) : getValue d args = d.value := by
  induction args with
  | nil => rfl
  | cons a p ih =>
    have ha : d.typeId ≠ a.typeId := fun e => h a (by simp) e.symm
    simp only [getValue, if_neg ha]
    exact ih fun b hb => h b (by simp [hb])

/-- C60: arguments of other options, wherever they stand, do not change the value: two argument lists that
agree on the arguments of this option give the same value. -/
theorem C60_order_of_others {ID V : Type} [DecidableEq ID] (d : Conf ID V) (as bs : List (Conf ID V))
    (h : as.filter (fun a => a.typeId = d.typeId) = bs.filter (fun a => a.typeId = d.typeId)) :
    getValue d as = getValue d bs := by
  have key : ∀ xs : List (Conf ID V),
      getValue d xs = getValue d (xs.filter (fun a => a.typeId = d.typeId)) := by
    intro xs
    induction xs with
    | nil => rfl
    | cons a p ih =>
      by_cases ha : a.typeId = d.typeId
      · simp [getValue, ha]
      · have ha' : d.typeId ≠ a.typeId := fun e => ha e.symm
        simp [getValue, ha, ha', ih]
  rw [key as, key bs, h]

/-- C60: `is_present` is membership. -/
theorem C60_present {T : Type} [DecidableEq T] (t : T) (args : List T) :
    isPresent t args = true ↔ t ∈ args := by
  induction args with
  | nil => simp [isPresent]
  | cons a p ih => simp [isPresent, ih]

/-- C60: an argument list is valid exactly when the identity of each argument is in the valid list. -/
theorem C60_valid {ID V : Type} [DecidableEq ID] (valid : List ID) (args : List (Conf ID V)) :
    isValid valid args = true ↔ ∀ a ∈ args, a.typeId ∈ valid := by
  induction args with
  | nil => simp [isValid]
  | cons a p ih => simp [isValid, tmpContains, C60_present, ih]

/-- The statements speak about real option lists: an earlier argument wins, the default is used, an unknown
option is invalid. -/
example :
    getValue (⟨"x", some 0⟩ : Conf String Nat) [⟨"y", some 1⟩, ⟨"x", some 2⟩, ⟨"x", some 3⟩] = some 2 ∧
    getValue (⟨"z", some 7⟩ : Conf String Nat) [⟨"y", some 1⟩] = some 7 ∧
    isValid ["x", "y"] [(⟨"x", some 2⟩ : Conf String Nat), ⟨"z", none⟩] = false := by decide

end Stator.Ds
