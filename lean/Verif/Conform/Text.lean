import Verif.Conform.Basic

/-!
# The tests of texts, replayed

Written by `tools/conform.py`. Each example names the test in `/repo/tests` it comes from.
-/

namespace Stator.Conform

/-- symbolic_parser_test.cpp:33: the tokens of `` -/
example : lexFuel 40 [] = [] := by decide +kernel

/-- symbolic_parser_test.cpp:34: the tokens of `  ` -/
example : lexFuel 40 [' ', ' '] = [] := by decide +kernel

/-- symbolic_parser_test.cpp:35: the tokens of `23 ` -/
example : lexFuel 40 ['2', '3', ' '] = [.num ['2', '3']] := by decide +kernel

/-- symbolic_parser_test.cpp:36: the tokens of `1.11 ` -/
example : lexFuel 40 ['1', '.', '1', '1', ' '] = [.num ['1', '.', '1', '1']] := by decide +kernel

/-- symbolic_parser_test.cpp:37: the tokens of `   1.11e12 ` -/
example : lexFuel 40 [' ', ' ', ' ', '1', '.', '1', '1', 'e', '1', '2', ' '] = [.num ['1', '.', '1', '1', 'e', '1', '2']] := by decide +kernel

/-- symbolic_parser_test.cpp:38: the tokens of ` 1.23*12 ` -/
example : lexFuel 40 [' ', '1', '.', '2', '3', '*', '1', '2', ' '] = [.num ['1', '.', '2', '3'], .sym ['*'], .num ['1', '2']] := by decide +kernel

/-- symbolic_parser_test.cpp:43: the tokens of ` 1.23* (12 + 4 )*exp(T)` -/
example : lexFuel 40 [' ', '1', '.', '2', '3', '*', ' ', '(', '1', '2', ' ', '+', ' ', '4', ' ', ')', '*', 'e', 'x', 'p', '(', 'T', ')'] = [.num ['1', '.', '2', '3'], .sym ['*'], .sym ['('], .num ['1', '2'], .sym ['+'], .num ['4'], .sym [')'], .sym ['*'], .word ['e', 'x', 'p'], .sym ['('], .word ['T'], .sym [')']] := by decide +kernel

/-- symbolic_parser_test.cpp:104: `simplify` of `1.23` is (some (.q (123 / 100))) -/
example : value (expr ['1', '.', '2', '3']) = (some (.q (123 / 100))) := by decide +kernel

/-- symbolic_parser_test.cpp:111: `simplify` of `1.23+2.3` is (some (.q (353 / 100))) -/
example : value (expr ['1', '.', '2', '3', '+', '2', '.', '3']) = (some (.q (353 / 100))) := by decide +kernel

/-- symbolic_parser_test.cpp:118: `simplify` of `  2*3 * 4 ` is (some (.q (24))) -/
example : value (expr [' ', ' ', '2', '*', '3', ' ', '*', ' ', '4', ' ']) = (some (.q (24))) := by decide +kernel

/-- symbolic_parser_test.cpp:125: `simplify` of `2*3+4` is (some (.q (10))) -/
example : value (expr ['2', '*', '3', '+', '4']) = (some (.q (10))) := by decide +kernel

/-- symbolic_parser_test.cpp:130: `simplify` of `4+2*3` is (some (.q (10))) -/
example : value (expr ['4', '+', '2', '*', '3']) = (some (.q (10))) := by decide +kernel

/-- symbolic_parser_test.cpp:137: `simplify` of `2^3^4` is (some (.q (2417851639229258349412352))) -/
example : value (expr ['2', '^', '3', '^', '4']) = (some (.q (2417851639229258349412352))) := by decide +kernel

/-- symbolic_parser_test.cpp:144: `simplify` of `(2 + 2 )^3` is (some (.q (64))) -/
example : value (expr ['(', '2', ' ', '+', ' ', '2', ' ', ')', '^', '3']) = (some (.q (64))) := by decide +kernel

/-- symbolic_parser_test.cpp:151: `simplify` of `2*sin1` is (some (.bin .mul (.q 2) (.un .sin (.q 1)))) -/
example : value (expr ['2', '*', 's', 'i', 'n', '1']) = (some (.bin .mul (.q 2) (.un .sin (.q 1)))) := by decide +kernel

/-- symbolic_parser_test.cpp:158: `simplify` of `sin1*2` is (some (.bin .mul (.un .sin (.q 1)) (.q 2))) -/
example : value (expr ['s', 'i', 'n', '1', '*', '2']) = (some (.bin .mul (.un .sin (.q 1)) (.q 2))) := by decide +kernel

/-- symbolic_parser_test.cpp:165: `simplify` of `cos sin 1` is (some (.un .cos (.un .sin (.q 1)))) -/
example : value (expr ['c', 'o', 's', ' ', 's', 'i', 'n', ' ', '1']) = (some (.un .cos (.un .sin (.q 1)))) := by decide +kernel

/-- symbolic_parser_test.cpp:172: `simplify` of `2.0/3.0*4.0` is (some (.q (8 / 3))) -/
example : value (expr ['2', '.', '0', '/', '3', '.', '0', '*', '4', '.', '0']) = (some (.q (8 / 3))) := by decide +kernel

/-- symbolic_parser_test.cpp:179: `simplify` of `+---+-+1` is (some (.q (1))) -/
example : value (expr ['+', '-', '-', '-', '+', '-', '+', '1']) = (some (.q (1))) := by decide +kernel

/-- symbolic_parser_test.cpp:206: `x*-123.2` is printed as it was read -/
example : text (expr ['x', '*', '-', '1', '2', '3', '.', '2']) = some ['x', '*', '-', '1', '2', '3', '.', '2'] := by decide +kernel

/-- symbolic_parser_test.cpp:207: `1-x*-123.2` is printed as it was read -/
example : text (expr ['1', '-', 'x', '*', '-', '1', '2', '3', '.', '2']) = some ['1', '-', 'x', '*', '-', '1', '2', '3', '.', '2'] := by decide +kernel

/-- symbolic_parser_test.cpp:205: `80*T*(1-(ln T))+-318862-T*-410.30773724552921` is printed as it was read -/
example : text (expr ['8', '0', '*', 'T', '*', '(', '1', '-', '(', 'l', 'n', ' ', 'T', ')', ')', '+', '-', '3', '1', '8', '8', '6', '2', '-', 'T', '*', '-', '4', '1', '0', '.', '3', '0', '7', '7', '3', '7', '2', '4', '5', '5', '2', '9', '2', '1']) = some ['8', '0', '*', 'T', '*', '(', '1', '-', '(', 'l', 'n', ' ', 'T', ')', ')', '+', '-', '3', '1', '8', '8', '6', '2', '-', 'T', '*', '-', '4', '1', '0', '.', '3', '0', '7', '7', '3', '7', '2', '4', '5', '5', '2', '9', '2', '1'] := by decide +kernel

/-- symbolic_parser_test.cpp:208: `x+(sin x)` is printed as it was read -/
example : text (expr ['x', '+', '(', 's', 'i', 'n', ' ', 'x', ')']) = some ['x', '+', '(', 's', 'i', 'n', ' ', 'x', ')'] := by decide +kernel

/-- symbolic_parser_test.cpp:209: `x*x*x+x+x*(sin x)` is printed as it was read -/
example : text (expr ['x', '*', 'x', '*', 'x', '+', 'x', '+', 'x', '*', '(', 's', 'i', 'n', ' ', 'x', ')']) = some ['x', '*', 'x', '*', 'x', '+', 'x', '+', 'x', '*', '(', 's', 'i', 'n', ' ', 'x', ')'] := by decide +kernel

/-- symbolic_parser_test.cpp:210: `2*x/2*x` is printed as it was read -/
example : text (expr ['2', '*', 'x', '/', '2', '*', 'x']) = some ['2', '*', 'x', '/', '2', '*', 'x'] := by decide +kernel

/-- symbolic_parser_test.cpp:211: `x*(x*x)` is printed as it was read -/
example : text (expr ['x', '*', '(', 'x', '*', 'x', ')']) = some ['x', '*', '(', 'x', '*', 'x', ')'] := by decide +kernel

/-- symbolic_parser_test.cpp:239: `[1, 2, 3]` is printed as it was read -/
example : text (expr ['[', '1', ',', ' ', '2', ',', ' ', '3', ']']) = some ['[', '1', ',', ' ', '2', ',', ' ', '3', ']'] := by decide +kernel

/-- symbolic_parser_test.cpp:217: `` is rejected -/
example : throws (expr []) = true := by decide +kernel

/-- symbolic_parser_test.cpp:223: `T-2)` is rejected -/
example : throws (expr ['T', '-', '2', ')']) = true := by decide +kernel

/-- symbolic_parser_test.cpp:229: `((T-2)*2` is rejected -/
example : throws (expr ['(', '(', 'T', '-', '2', ')', '*', '2']) = true := by decide +kernel

/-- symbolic_runtime_test.cpp:67: `0*2` is `0` -/
example : text (expr ['0', '*', '2']) = text (expr ['0']) ∧ text (expr ['0', '*', '2']) ≠ none := by decide +kernel

/-- symbolic_runtime_test.cpp:77: `simplify` of `1.0+2.0` is (some (.q (3))) -/
example : value (expr ['1', '.', '0', '+', '2', '.', '0']) = (some (.q (3))) := by decide +kernel

/-- symbolic_runtime_test.cpp:81: `simplify` of `1.0-2.0` is (some (.q (-1))) -/
example : value (expr ['1', '.', '0', '-', '2', '.', '0']) = (some (.q (-1))) := by decide +kernel

/-- symbolic_runtime_test.cpp:85: `simplify` of `2.0*3.0` is (some (.q (6))) -/
example : value (expr ['2', '.', '0', '*', '3', '.', '0']) = (some (.q (6))) := by decide +kernel

/-- symbolic_runtime_test.cpp:89: `simplify` of `2.0/3.0` is (some (.q (2 / 3))) -/
example : value (expr ['2', '.', '0', '/', '3', '.', '0']) = (some (.q (2 / 3))) := by decide +kernel

/-- symbolic_runtime_test.cpp:93: `simplify` of `2.0^3.0` is (some (.q (8))) -/
example : value (expr ['2', '.', '0', '^', '3', '.', '0']) = (some (.q (8))) := by decide +kernel

/-- symbolic_runtime_test.cpp:130: sub(x*x, x=y) -/
example : text (((expr ['x', '*', 'x']).bind fun f => (expr ['x', '=', 'y']).bind fun r => sub f r)) = text (expr ['y', '*', 'y']) ∧ text (((expr ['x', '*', 'x']).bind fun f => (expr ['x', '=', 'y']).bind fun r => sub f r)) ≠ none := by decide +kernel

/-- symbolic_runtime_test.cpp:133: sub(y*y, y=3) -/
example : value (((expr ['y', '*', 'y']).bind fun f => (expr ['y', '=', '3', '.', '0']).bind fun r => sub f r).bind simplify) = (some (.q (9))) := by decide +kernel

/-- symbolic_runtime_test.cpp:163: the derivative of `sin(x)` -/
example : text (((expr ['s', 'i', 'n', '(', 'x', ')']).bind (deriv ops ['x'])).bind simplify) = text (expr ['c', 'o', 's', '(', 'x', ')']) ∧ text (((expr ['s', 'i', 'n', '(', 'x', ')']).bind (deriv ops ['x'])).bind simplify) ≠ none := by decide +kernel

/-- symbolic_runtime_test.cpp:170: the derivative of `exp(x)` -/
example : text (((expr ['e', 'x', 'p', '(', 'x', ')']).bind (deriv ops ['x'])).bind simplify) = text (expr ['e', 'x', 'p', '(', 'x', ')']) ∧ text (((expr ['e', 'x', 'p', '(', 'x', ')']).bind (deriv ops ['x'])).bind simplify) ≠ none := by decide +kernel

/-- symbolic_runtime_test.cpp:190: the derivative of `ln(x)` -/
example : text (((expr ['l', 'n', '(', 'x', ')']).bind (deriv ops ['x'])).bind simplify) = text (expr ['1', '/', 'x']) ∧ text (((expr ['l', 'n', '(', 'x', ')']).bind (deriv ops ['x'])).bind simplify) ≠ none := by decide +kernel

/-- symbolic_runtime_test.cpp:180: the derivative of `cos(x)` -/
example : text (((expr ['c', 'o', 's', '(', 'x', ')']).bind (deriv ops ['x'])).bind simplify) = some ['-', '1', '*', '(', 's', 'i', 'n', ' ', 'x', ')'] := by decide +kernel

/-- symbolic_runtime_test.cpp:203: `x+x*x` at 2 -/
example : value (((expr ['x', '+', 'x', '*', 'x']).bind fun f => (expr ['x', '=', '2']).bind fun r => sub f r).bind simplify) = (some (.q (6))) := by decide +kernel

/-- symbolic_runtime_test.cpp:210: the derivative of `2.2` -/
example : text (((expr ['2', '.', '2']).bind (deriv ops ['x'])).bind simplify) = text (expr ['0']) ∧ text (((expr ['2', '.', '2']).bind (deriv ops ['x'])).bind simplify) ≠ none := by decide +kernel

/-- symbolic_runtime_test.cpp:212: the derivative of `2*x` -/
example : text (((expr ['2', '*', 'x']).bind (deriv ops ['x'])).bind simplify) = text (expr ['2']) ∧ text (((expr ['2', '*', 'x']).bind (deriv ops ['x'])).bind simplify) ≠ none := by decide +kernel

/-- symbolic_runtime_test.cpp:213: the derivative of `x*x` -/
example : text (((expr ['x', '*', 'x']).bind (deriv ops ['x'])).bind simplify) = text (expr ['x', '+', 'x']) ∧ text (((expr ['x', '*', 'x']).bind (deriv ops ['x'])).bind simplify) ≠ none := by decide +kernel

/-- symbolic_runtime_test.cpp:214: the derivative of `x+x` -/
example : text (((expr ['x', '+', 'x']).bind (deriv ops ['x'])).bind simplify) = text (expr ['2']) ∧ text (((expr ['x', '+', 'x']).bind (deriv ops ['x'])).bind simplify) ≠ none := by decide +kernel

/-- symbolic_runtime_test.cpp:215: the derivative of `ln(x)` -/
example : text (((expr ['l', 'n', '(', 'x', ')']).bind (deriv ops ['x'])).bind simplify) = text (expr ['1', '/', 'x']) ∧ text (((expr ['l', 'n', '(', 'x', ')']).bind (deriv ops ['x'])).bind simplify) ≠ none := by decide +kernel

/-- symbolic_runtime_test.cpp:216: the derivative of `exp(x)` -/
example : text (((expr ['e', 'x', 'p', '(', 'x', ')']).bind (deriv ops ['x'])).bind simplify) = text (expr ['e', 'x', 'p', '(', 'x', ')']) ∧ text (((expr ['e', 'x', 'p', '(', 'x', ')']).bind (deriv ops ['x'])).bind simplify) ≠ none := by decide +kernel

/-- symbolic_runtime_test.cpp:217: the derivative of `x*exp(x)` -/
example : text (((expr ['x', '*', 'e', 'x', 'p', '(', 'x', ')']).bind (deriv ops ['x'])).bind simplify) = text (expr ['e', 'x', 'p', '(', 'x', ')', '+', 'x', '*', 'e', 'x', 'p', '(', 'x', ')']) ∧ text (((expr ['x', '*', 'e', 'x', 'p', '(', 'x', ')']).bind (deriv ops ['x'])).bind simplify) ≠ none := by decide +kernel

/-- symbolic_runtime_test.cpp:232: `x` under {x:2, y:3} -/
example : text (((expr ['x']).bind fun f => (expr ['{', 'x', ':', '2', ',', ' ', 'y', ':', '3', '}']).bind fun r => sub f r)) = text (expr ['2']) ∧ text (((expr ['x']).bind fun f => (expr ['{', 'x', ':', '2', ',', ' ', 'y', ':', '3', '}']).bind fun r => sub f r)) ≠ none := by decide +kernel

/-- symbolic_runtime_test.cpp:233: `y` under {x:2, y:3} -/
example : text (((expr ['y']).bind fun f => (expr ['{', 'x', ':', '2', ',', ' ', 'y', ':', '3', '}']).bind fun r => sub f r)) = text (expr ['3']) ∧ text (((expr ['y']).bind fun f => (expr ['{', 'x', ':', '2', ',', ' ', 'y', ':', '3', '}']).bind fun r => sub f r)) ≠ none := by decide +kernel

/-- symbolic_runtime_test.cpp:252: `x` with x=2 -/
example : text (((expr ['x']).bind fun f => (expr ['x', '=', '2']).bind fun r => sub f r)) = text (expr ['2']) ∧ text (((expr ['x']).bind fun f => (expr ['x', '=', '2']).bind fun r => sub f r)) ≠ none := by decide +kernel

/-- symbolic_units_test.cpp:39: `1.2{m^2/s}` is printed as it was read -/
example : text (expr ['1', '.', '2', '{', 'm', '^', '2', '/', 's', '}']) = some ['1', '.', '2', '{', 'm', '^', '2', '/', 's', '}'] := by decide +kernel

/-- symbolic_units_test.cpp:43: a product of quantities -/
example : text ((expr ['2', '{', 'm', '^', '2', '/', 's', '}', '*', '4', '{', 'k', 'g', '}']).bind simplify) = some ['8', '{', 'm', '^', '2', '/', 's', '*', 'k', 'g', '}'] := by decide +kernel

/-- symbolic_uncertainty_test.cpp:32: `1.2±3` is printed as it was read -/
example : text (expr ['1', '.', '2', '\u00c2', '\u00b1', '3']) = some ['1', '.', '2', '\u00c2', '\u00b1', '3'] := by decide +kernel

/-- stator_test.py:9: the derivative of `2*x^2` -/
example : text (((expr ['2', '*', 'x', '^', '2']).bind (deriv ops ['x'])).bind simplify) = some ['4', '*', 'x'] := by decide +kernel

/-- stator_test.py:12: `1+1` -/
example : text (expr ['1', '+', '1']) = some ['2'] := by decide +kernel

/-- stator_test.py:13: `1=1` is printed as it was read -/
example : text (expr ['1', '=', '1']) = some ['1', '=', '1'] := by decide +kernel

/-- stator_test.py:17: `[]` is printed as it was read -/
example : text (expr ['[', ']']) = some ['[', ']'] := by decide +kernel

/-- stator_test.py:18: `[1]` is printed as it was read -/
example : text (expr ['[', '1', ']']) = some ['[', '1', ']'] := by decide +kernel

/-- stator_test.py:19: `[1, 2]` is printed as it was read -/
example : text (expr ['[', '1', ',', ' ', '2', ']']) = some ['[', '1', ',', ' ', '2', ']'] := by decide +kernel

/-- stator_test.py:23: the derivative of a list -/
example : text (((expr ['[', '1', ',', ' ', 'x', ',', ' ', '2', '*', 'x', '^', '2', ']']).bind (deriv ops ['x'])).bind simplify) = some ['[', '0', ',', ' ', '1', ',', ' ', '4', '*', 'x', ']'] := by decide +kernel

/-- stator_test.py:24: the derivative of a list at 2 -/
example : text (((((expr ['[', '1', ',', ' ', 'x', ',', ' ', '2', '*', 'x', '^', '2', ']']).bind (deriv ops ['x'])).bind simplify).bind fun f => (expr ['x', '=', '2']).bind fun r => sub f r).bind simplify) = some ['[', '0', ',', ' ', '1', ',', ' ', '8', ']'] := by decide +kernel

/-- stator_test.py:25: lists, `+` -/
example : text (expr ['[', '1', ',', '2', ',', '3', ',', '4', ']', '+', '[', '0', ',', '1', ',', '2', ',', '3', ']']) = some ['[', '1', ',', ' ', '3', ',', ' ', '5', ',', ' ', '7', ']'] := by decide +kernel

/-- stator_test.py:26: lists, `-` -/
example : text (expr ['[', '1', ',', '2', ',', '3', ',', '4', ']', '-', '[', '0', ',', '1', ',', '2', ',', '3', ']']) = some ['[', '1', ',', ' ', '1', ',', ' ', '1', ',', ' ', '1', ']'] := by decide +kernel

/-- stator_test.py:27: lists, `*` -/
example : text (expr ['[', '1', ',', '2', ',', '3', ',', '4', ']', '*', '[', '0', ',', '1', ',', '2', ',', '3', ']']) = some ['[', '0', ',', ' ', '2', ',', ' ', '6', ',', ' ', '1', '2', ']'] := by decide +kernel

/-- stator_test.py:28: lists, `/` -/
example : text (expr ['[', '1', ',', '2', ',', '3', ',', '4', ']', '/', '[', '1', ',', '2', ',', '3', ',', '2', ']']) = some ['[', '1', ',', ' ', '1', ',', ' ', '1', ',', ' ', '2', ']'] := by decide +kernel

/-- stator_test.py:39: `x` under {x:2} -/
example : text (((expr ['x']).bind fun f => (expr ['{', 'x', ':', '2', '}']).bind fun r => sub f r).bind simplify) = some ['2'] := by decide +kernel

/-- stator_test.py:42: `simplify` of `2+2` is (some (.q (4))) -/
example : value (expr ['2', '+', '2']) = (some (.q (4))) := by decide +kernel

/-- stator_example_test.py:15: f(2) for f = x*x+2 -/
example : value (((expr ['x', '*', 'x', '+', '2']).bind fun f => (expr ['{', 'x', ':', '2', '}']).bind fun r => sub f r).bind simplify) = (some (.q (6))) := by decide +kernel

/-- stator_example_test.py:23: the derivative of a list of functions -/
example : text (((expr ['[', '1', ',', ' ', 'x', ',', ' ', 'x', '^', '2', '/', '2', ',', ' ', 'x', '^', '3', '/', '6', ',', ' ', 's', 'i', 'n', '(', 'x', ')', ',', ' ', 's', 'i', 'n', '(', 'y', ')', ']']).bind (deriv ops ['x'])).bind simplify) = some ['[', '0', ',', ' ', '1', ',', ' ', '4', '*', 'x', '/', '4', ',', ' ', '1', '8', '*', 'x', '^', '2', '/', '3', '6', ',', ' ', 'c', 'o', 's', ' ', 'x', ',', ' ', '0', ']'] := by decide +kernel

end Stator.Conform
