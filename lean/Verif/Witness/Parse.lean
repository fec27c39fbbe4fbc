import Verif.Rt.RoundTripProps
import Verif.Rt.ForceParens
import Verif.Rt.Reparse
import Verif.Rt.SubstProps
import Verif.Rt.Latex

/-!
# The theorems on parsing, printing and substitution, applied

Every `example` applies a theorem to a concrete case; its arguments show that the hypotheses are met there.
-/

namespace Stator.Witness

/-- `C02_repr_injective` for `x*-2` -/
example := C02_repr_injective signNum signShow (.bin .mul (.var ['x']) (.const (true, ['2'])))
  (.bin .mul (.var ['x']) (.const (true, ['2']))) (.bin rfl rfl (by simp) (by simp) (.var isName_x) (.negc negConst_2))
  (.bin rfl rfl (by simp) (by simp) (.var isName_x) (.negc negConst_2)) rfl

/-- `C02_no_other_defect` for `(x^y)^x` -/
example : ¬ Printable textNum id true (.bin .pow (.bin .pow (.var ['x']) (.var ['y'])) (.var ['x'])) := by
  obtain ⟨s, h1, h2⟩ := C02_power_fails textNum id (.var ['x']) (.var ['x']) ['y'] (.var isName_x) (.var isName_x) isName_y rfl rfl rfl
  refine C02_no_other_defect textNum id _ s (.bin (.bin (.var isName_x) (.var isName_y)) (.var isName_x)) h1 ?_
  rw [h2]
  intro h
  cases h

/-- `C02_equation_fails` for `(x=y)=x` -/
example := C02_equation_fails textNum id (.var ['x']) (.var ['x']) ['y'] (.var isName_x) (.var isName_x) isName_y rfl rfl rfl

/-- `C02_negative_base_fails` for `(-2)^x` -/
example := C02_negative_base_fails signNum signShow (true, ['2']) (false, ['2']) ['x'] isName_x rfl posConst_2.1 rfl

/-- `C02_negated_constant_fails` for `-(2)` -/
example := C02_negated_constant_fails textNum id ['2'] posConst_2.1 rfl

/-- `C02_abs_fails` for `abs(x)` -/
example := C02_abs_fails textNum id (.var ['x']) ['|', 'x', '|'] (.inl rfl)

/-- `C03_parens` for `(x)` -/
example := C03_parens textNum ['x'] ['(', 'x', ')'] (.var ['x']) (by rw [parse_eq_fuel]; rfl) 
  (by rw [lex_eq_fuel 3 _ (by simp), lex_eq_fuel 1 _ (by simp)]; rfl)

/-- `C06_literal` for `1.5e3+x` -/
example := (C06_literal '1' ['.', '5', 'e', '3', '+', 'x'] ['1', '.', '5', 'e', '3'] ['+', 'x'] rfl).1 rfl

/-- `C06_literal_or_error` for `2e` -/
example := C06_literal_or_error '2' ['e'] rfl

/-- `C04_whole_text` for `x + 2` -/
example := C04_whole_text textNum ['x', ' ', '+', ' ', '2'] (.bin .add (.var ['x']) (.const ['2'])) (by rw [parse_eq_fuel]; rfl)

/-- `C56_keys_distinct` for `{x:2,x:3}` -/
example := C56_keys_distinct textNum ['{', 'x', ':', '2', ',', 'y', ':', '3', '}']
  (.dict [(['x'], .const ['2']), (['y'], .const ['3'])]) (by rw [parse_eq_fuel]; rfl)

theorem minus : Writable textNum id (.bin .sub (.var ['x']) (.const ['2'])) := .bin (.var isName_x) (.const (.inl posConst_2))
theorem minusPlain : Plain (.bin .sub (.var ['x']) (.const ['2']) : Expr (List Char)) := .bin rfl rfl .var .const

/-- `C65_reads` for `x-2` -/
example := C65_reads textNum id _ minus minusPlain

/-- `C65_accepted` for `x-2` -/
example : ∃ s, (Expr.bin .sub (.var ['x']) (.const ['2'])).reprF id = some s ∧ Plain (.bin .sub (.var ['x']) (.const ['2'])) := by
  obtain ⟨s, h1, h2⟩ := C65_reads textNum id _ minus minusPlain
  exact ⟨s, h1, (C65_accepted textNum id _ _ s minus h1 h2).1⟩

/-- `C65_extends_default` for `x*-2` -/
example := C65_extends_default signNum signShow (.bin .mul (.var ['x']) (.const (true, ['2'])))
  (.bin rfl rfl (by simp) (by simp) (.var isName_x) (.negc negConst_2))

/-- `C65_injective` for `x-2` -/
example := C65_injective textNum id _ _ minus minus minusPlain minusPlain rfl

/-- `C65_negated_constant` for `-2` -/
example := C65_negated_constant textNum id ['2'] posConst_2

/-- `C65_abs_rejected` for `abs(x)` -/
example := C65_abs_rejected textNum id (.var ['x']) (.var ['x']) .abs (.inl rfl) (.var isName_x) _ rfl

/-- `C12_sub` for `x + y` with `x = z` -/
example := C12_sub (.bin .add (.var ['x']) (.var ['y']) : Expr Nat) ['x'] (.var ['z']) rfl

/-- `C14_simultaneous` for exchanging `x` and `y` in `x - y` -/
example (A : Algebra ℝ ℝ) (ρ : List Char → ℝ) := C14_simultaneous A ρ (.bin .sub (.var ['x']) (.var ['y']))
  [(['x'], .var ['y']), (['y'], .var ['x'])] rfl

/-- `C15_absent` for `z` in `x + y` -/
example := C15_absent (.bin .add (.var ['x']) (.var ['y']) : Expr Nat) ['z'] (.const 1) (by decide)

/-- `C76_parsed` for `x-2` -/
example := C76_parsed textNum (fun _ => True) (fun _ _ => trivial) (fun _ _ => trivial) ['x', '-', '2'] (.bin .sub (.var ['x']) (.const ['2']))
  (by rw [parse_eq_fuel]; rfl)

/-- `C76_stable` for `x-2` -/
example := C76_stable signNum signShow faithful_sign ['x', '-', '2'] (.bin .sub (.var ['x']) (.const (false, ['2']))) (by rw [parse_eq_fuel]; rfl)

/-- `C76_default` for `x-2` -/
example := C76_default signNum signShow faithful_sign ['x', '-', '2'] (.bin .sub (.var ['x']) (.const (false, ['2']))) (by rw [parse_eq_fuel]; rfl)

end Stator.Witness
