# Design: a Lean 4 model of toastedcrumpets/stator

All models live in `lean/Verif/`. Every definition that models code carries a
comment `-- models: <file>:<lines>`. Each area `X` is split into

* `Verif/X.lean` (or `X/Model.lean`) : the executable model of the code,
* `Verif/X/Spec.lean`  : an independent specification (when one is needed),
* `Verif/X/Lemmas.lean`: helper lemmas,
* `Verif/X/Props.lean` : the property theorems, each with a non-vacuity `example`.

## Trusted base

* Lean 4.33.0's kernel; Mathlib's definitions (reals, polynomials, derivatives, measures).
* Axioms: at most `propext`, `Classical.choice`, `Quot.sound` (checked with `#print axioms`).
* The reading of the C++ source: the model is hand written.
* Numbers. `double` is modelled by an exact field: an arbitrary (linearly ordered) field,
  or `ℝ` when analysis is involved. The theorems in `Fp/` are about rounded arithmetic: every operation gives a
  representable number nearest to the exact result (any rule for ties, gradual underflow), `Fp/Format.lean`; `binary64` is an
  instance. Overflow, signed zeros, infinities and NaN are modelled in `Fp/Ieee*.lean` (C91, C93, C95-C97, part of C68) and nowhere else, except
  where the code branches on NaN or infinity and we say so. `int` and `size_t` do not overflow, except where we say so.
* Resources: memory and the call stack are unlimited (the parser and the visitors are recursive; the depth is bounded by the text or the
  expression).
* Compile-time template dispatch is modelled by pattern matching on the operand kinds; overload
  resolution by the compiler is trusted to be as read.
* `std::` facilities (`std::string::find`, `std::sort`, `unordered_map`, `shared_ptr`, `strtod`, `ostream <<`)
  are modelled by their documented behaviour, or are parameters. The same holds for RapidXML (xml.hpp) and for
  Python's operator dispatch through pybind11 (pysrc/stator/core.cpp), which are not in the repository.
* Fixed-width integers: `size_t` arithmetic is modulo a parameter (`S`, `W`) where wrap-around matters (deflation,
  array addressing, string positions); elsewhere sizes are natural numbers. `1 << k` on an `int` is `2^k`.

## What is modelled

| area | code | model |
|------|------|-------|
| runtime expressions: tokenizer, Pratt parser, printer | symbolic/parser.hpp, runtime.hpp, repr.hpp, symbolic/*_ops.hpp (binding powers) | `Rt/Lex, Parse, Print`, grammar in `Rt/Grammar` |
| runtime simplify, substitution, derivative, equality, hash | runtime.hpp, units.hpp, symbolic/array.hpp (runtime arrays) | `Rt/Simplify, Subst, Deriv, Compare`; values in `Rt/Eval` |
| Python bindings | pysrc/stator/core.cpp | `Rt/PythonProps` |
| polynomials: arithmetic, division, shifts, deflation, evaluation | polynomial.hpp, simplify.hpp (polynomial overloads) | `Poly/Ops` on bounds-checked arrays (`Poly/Mem`) |
| text of polynomials | polynomial.hpp 1905-1929 | `Poly/Repr` |
| root counting, bounds, isolation, solvers of order 0-3 and general | polynomial.hpp 758-1892 | `Poly/Roots, Cubic, Sturm, Isolate, Solve` |
| Newton, Halley, Schroeder, bisection | numeric.hpp | `Num/RootFind` |
| automatic differentiation | ad.hpp | `Ad/Model`, `Ad/AnyArith` (any arithmetic) |
| compile-time constants and expressions | constants.hpp, binary_ops.hpp, unary_ops.hpp, sub.hpp, simplify.hpp, taylor.hpp, integrate.hpp; conversion to runtime expressions (runtime.hpp 470-484) and text | `Ct/Const, Expr, Simplify, Convert` |
| expansion into polynomials | simplify.hpp 60-116, 138-441 with `expand_to_Polynomial` and `expand_Constants`, with the rules for reordering sums and products (247-269) | `Ct/Expand` |
| substitution into and derivatives of compile-time expressions with polynomials and numbers | sub.hpp 35-57, variable.hpp 56-71, binary_ops.hpp 361-424, unary_ops.hpp 178-183, polynomial.hpp 190-310, 423-444 | `Ct/PolyCalculus` |
| `simplify`, `N` and `expand`: the three configurations | simplify.hpp 52-59, 68-133, 137-449 | `Ct/Configs` |
| Taylor series of compile-time expressions with polynomials | taylor.hpp 26-58, constants.hpp 161-163 | `Ct/TaylorPoly` |
| arrays, StackVector, static lists, options, strings | symbolic/array.hpp, orphan/*.hpp, string.hpp | `Ds/Array, StackVector, StaticList, Config, Strings` |
| XML wrapper, its error reports, exceptions | xml.hpp, exception.hpp | `Ds/Xml, XmlEdit, XmlError` |
| boxes, balls, indicators | geometry/*.hpp | `Geo/Shapes` |
| rounded arithmetic: simplify, fast substitution, bisection, Horner; precision estimates | runtime.hpp, numeric.hpp, polynomial.hpp 221-264, precision.hpp | `Fp/Format` (specification), `Fp/Simplify, FastSub, Bisect, Horner, Precision` |
| text of numbers | repr.hpp 54-73, parser.hpp 494-499 | `Fp/Decimal` |
| quadratic solver in `double` arithmetic | polynomial.hpp 768-823, simplify.hpp 404-414 | `Fp/Quadratic`, `Fp/QuadraticProps` |
| arrays: fixed rank, text, conversion | symbolic/array.hpp 258-286, 382-411, 555-571, runtime.hpp 490-505 | `Ds/ArrayAccess` |
| sharing and lifetime of nodes | runtime.hpp 60-200, 486-532, *_rt.hpp, array.hpp 102-145, dict.hpp 46 | `Rt/Sharing` |
| expressions in several threads | runtime.hpp 110, 141-158, 203-208, 470-523, *_rt.hpp | `Rt/Threads` |
| dispatch on the class of a node | runtime.hpp 108, 241-350, 395, 509-560, 1078-1125, `Type_index` | `Rt/Dispatch` |
| unit-test harness | unit_test.hpp | `Misc/UnitTest` |
| dictionaries as hash tables | dict.hpp 22-66 | `Ds/Dict` |
| accuracy of computed numbers | parser.hpp 460, 494-497; constants_rt.hpp 28-50; the arithmetic of `Fp/Simplify` | `Fp/Accuracy`, `Rt/ParseLike` |
| polynomial arithmetic with every result rounded | simplify.hpp 369-402, polynomial.hpp 423-433, 703-727 | `Fp/PolyOps` |
| `newton_raphson`, `halleys_method` and their steps, every operation rounded | numeric.hpp 24-272 | `Fp/Newton`, `Fp/NewtonResidual` (equal to the exact models when the rounding is the identity: `newtonR_id`, `halleyR_id`) |
| `simplify` with the `==` of double, and the data type of IEEE 754 | runtime.hpp 592-692 | `Fp/SimplifyEq` (equal to `simp` for ordinary equality: `simpE_decide`), `Fp/SimplifyMachine`, `Fp/Ieee` (from the standard) |
| intervals as values of variables | interval.hpp 20-33, sub.hpp 35-57, binary_ops.hpp 236-308, 421-424 | `Ct/Interval` |
| the root finders on the data type of IEEE 754 | numeric.hpp 33-330 | `Fp/IeeeBisect`, `Fp/IeeeNewton` |
| texts of vectors and matrices | stack_vector.hpp 145-194, runtime.hpp 1136-1162 | `Ds/CollText` |
| the quadratic solver on the data type of IEEE 754 | polynomial.hpp 768-823 | `Fp/IeeeQuadratic` |
| evaluation of polynomials on IEEE doubles | polynomial.hpp 221-264, 319-338 | `Fp/IeeeHorner`, `Fp/EvalDeriv`, `Fp/IeeeEvalDeriv`, `Fp/IeeeNewtonPoly` |
| what the parser returns | parser.hpp | `Rt/Reparse` |

Not modelled: rounding of `double` outside of `Fp/`; (the values computed by precision.hpp are a parameter of the deflation
model: its theorems hold for every choice); context.hpp (not valid C++);
string_format; RapidXML and pybind11 internals; C++ overload resolution (read by hand; for the compile-time `simplify`
over-approximated by a relation that may use any rule anywhere).

Loops and recursions that may not end carry a fuel argument, and running out of fuel is an outcome of its own
(`diverge`, `more`, `none`); the theorems say for which inputs some fuel suffices, and with what result.
Array accesses out of bounds are `none`/`ub`, so every theorem with a successful result also says that no access was
out of bounds.

`Verif/Conform/*` replays, on the models and by evaluation in the kernel, what the project's own tests expect (`tests/*.cpp`,
`tests/*.py`; `Conform/Text.lean` is written by `tools/conform.py`). These are tests of the models: no property rests on them.

`Verif/Witness/*` applies theorems to concrete cases (in addition to the `example`s beside the theorems); it defines nothing.

## Plan per property

| id | model | proof method |
|----|-------|--------------|
| C01 | tokenizer + Pratt parser with explicit fuel, `diverge` a separate outcome | fuel = linear in the input length suffices, by strong induction on remaining input; a copy of the parser that counts its calls, proved to have the same outcome, makes at most three calls a character and two |
| C02 | printer with the BP comparison rules; parser | exact characterisation. If: induction on the tree, generalised over minimum binding power and continuation. Only if: from a parse of the printed text, the position of every bracket and leaf in the token list fixes the tree (`RoundTripInv`). Negative theorems name what each excluded case reads back as |
| C03 | same | grouping theorem for every pair of operators and arbitrary atom operands |
| C04 | same | soundness of the parser with respect to a declarative token grammar |
| C05 | tokenizer | tokens of the padded string equal tokens of the string |
| C06 | `consumeFloat` | characterisation by an inductive literal grammar + maximality |
| C07 | expression trees with node identities (addresses) and pointer shortcut | induction |
| C08 | `hash` on `UInt64`; dictionaries as lists in iteration order | induction on the equality of trees; counterexample for dictionaries with different iteration orders |
| C09-C12 | `SimplifyRT` over an arbitrary field / ℝ with partial evaluation | induction on trees; termination (C10) by a measure `work` in which elements of arrays and a number and its unit count side by side, which no rule increases |
| C13-C15 | `SubstituteRT`, `SubstituteDictRT` | induction |
| C16-C17 | derivative rules, real semantics with `HasDerivAt` | induction |
| C18 | units overloads | algebra; counterexample for scalar*quantity |
| C19-C33 | coefficient lists over a field; link to Mathlib `Polynomial` | induction, Mathlib |
| C34-C35 | numeric steps over an ordered field, fuelled loops | invariants |
| C36-C37 | truncated power series recurrences | `PowerSeries` identities |
| C38 | integrate grammar | induction, `HasDerivAt`; definite integrals (`Ct/Definite.lean`) by the fundamental theorem of calculus |
| C39-C40 | ratio arithmetic | algebra; negative theorem |
| C41-C44 | containers and strings as lists; C41 also for programs with several vectors, extended with themselves and copied | refinement |
| C45-C46 | arrays as flat lists + dims | induction on rank |
| C47-C48 | closed forms | Mathlib measure of boxes and balls |
| C49 | binding table | negative theorem |
| C50 | sibling list | negative theorem + partial |
| C51-C52 | `SimplifyRT`, substitution | C51: every change of a unitless scalar loses a node (induction over `SimpS`), hence a fixed point after fewer calls than nodes, and a counterexample for one call; for every expression a weight (`Expr.mass`) that each change lowers although an element-wise operation adds nodes [C51_settles, C51_no_cycle]; C52: composition of C11, C13 |
| C53 | closed-form cubic solver with its polishing step | factorisation of the depressed cubic, trigonometric identity |
| C32 (VCA end) | Bernstein-type coefficients of the moved polynomials | continuity in the interval ends and compactness: ends iff every multiple positive root is a dyadic fraction of the upper bound |
| C32 (VAS end) | chain of recursive calls | no infinite chain: runs of scalings by 2 are bounded (pigeonhole on dominating terms), shifts alone go to infinity (one sign), each inversion shrinks the interval by a fixed factor, compactness: ends iff every positive root is simple |
| C54 | Sturm loop, bisection of VAS/VCA intervals, both signs | invariant of the work list (regions partition the remaining roots), measure for termination; multiple roots with the division points as a closed set; for the arbitrary polynomial a weight (results + roots attributed to the regions) that never grows and regions that shrink by 3/4 |
| C55 | the two ratios | Mathlib's bounds of π and e |
| C56 | array and dictionary literals | soundness and completeness with respect to the token grammar |
| C57 | rules of compile-time `simplify` as a relation | induction on the derivation, set-valued semantics because of ± |
| C58-C59 | compile-time `derivative`, `sub` | induction, `HasDerivAt` |
| C60 | option lists | induction |
| C61 | indicator formulas | Euclidean geometry in Mathlib |
| C62-C63 | error report arithmetic, string stream with put position | list algebra |
| C64 | LinBairstowSolve in exact arithmetic over an ordered field, on the long division of C13 | algebra of the Newton step; induction on the rounds and on the order |
| C65 | printer with `Force_parenthesis` | what the text reads back as, for every writable tree, by induction with `D`; the rest by the tokens that no derivation contains |
| C66 | printer with `Latex_output`, the number text (`search_replace`); a small specification of TeX mathematics: tokens and a stack machine for groups, superscripts and delimiters | induction over the expression in every context of the machine; the count of braces for logarithms |
| C67 | `SimplifyRT` over a machine arithmetic of which only x+0, x*1, ... are known | induction on trees; three-bit counterexample for collected factors |
| C68 | `bisection` with rounding after every operation | the midpoint is strictly between unless the ends are adjacent; the number of representable numbers, or 3/4 of the length, decreases; on the IEEE data type (`Fp/IeeeBisect.lean`) the midpoint is a number as long as the ends are at most half the largest number |
| C69 | Horner loop with rounding | loop invariant with the error bound |
| C70 | printed texts with any further subexpressions in parentheses | derivation in the grammar, by induction over the marked tree |
| C71 | `Expr(f)` of a compile-time expression, `repr(f)` | induction over the tree; derivative and substitution by C16, C58, C13, C59; text by C70 |
| C72 | `repr` of a polynomial | loop invariant: the text of the terms so far is read as their sum |
| C73 | `subtraction_precision`, `addition_precision` with `frexp` as the binary logarithm | bounds on the quotient of the operands |
| C74 | the visitor `FastSubRT` with its one number of memory | induction over the tree, C67 for the comparison with `simplify` |
| C75 | `repr(double)` (`%.*g` as ISO C describes it) and reading a literal (`stringstream >> double`) as rounding to nearest | value of the text; the gaps of decimal and binary numbers (Matula) |
| C76 | the parser after the printer with forced parentheses, for an arbitrary text | induction over the grammar (C04), then C65; doubles by C75 |
| C77 | accessor of fixed rank, text, element-wise functions and conversion of arrays | induction over indices and elements |
| C78 | the reference-counted heap of expression nodes, commands on `Expr` variables, address reuse | refinement of a machine on trees; counting invariant; acyclicity through finite trees |
| C79 | `simplify<ExpandConfig>` as a function with a bound on the template depth, following the priorities of the overloads; integer and `double` coefficients | every operand settles to a number, a polynomial or a power of the variable; one lemma per operator; induction on the expression |
| C80 | a document as a tree changed at a location; a `Node` as the pair of locations it holds; programs as lists of edits through handles | one edit changes one node and only appends, induction on the list of edits; `++`/`--` by characterising the nearest sibling of a name; writing a tree by mutual induction on trees and lists of trees |
| C81 | the solver of orders 1 and 2 with a rounding after every operation of any binary format | every rounding as a factor `1 + δ` (sums never underflow, halving is exact); a negative constant: all intermediate results are sums of terms of one sign, so the factors multiply; a positive constant: the returned values as roots of a perturbed polynomial |
| C82 | every operation on `Expr` variables as a sequence of small steps (atomic increments and decrements, allocation, destruction of one node), any number of threads, an arbitrary schedule | an invariant over all threads: counts are held references plus stored references, a node with count 0 is in exactly one list of nodes to destroy, and every thread is on its way to the result of its program on trees; a potential that every step lowers |
| C83 | a table of buckets with an arbitrary growth policy, a hash and a comparison of keys as parameters; the instance for expressions | invariant: every entry is in the bucket of its hash and no two keys compare equal; the laws of C07 and C08 for expressions |
| C84 | a test as the list of results of its checks and its end; the counter on `UInt64`; `check_close` on real numbers with infinities and NaN, and on integers | induction on the list of tests; case analysis |
| C85 | objects of the 20 classes, the index in the object, the `switch` with its casts | the label of each class is the first with its index; compared with the constructors of the model |
| C86 | chains of `derivative` and `simplify` on runtime expressions (`Rt/Higher`); automatic differentiation of C36 | `simplify` keeps the computed value also where parts have none; induction on the order with C16; a class of expressions closed under differentiation and simplification |
| C87 | a text read with exact and with rounded literals (the parser's result has the same shape: induction on its derivations); numbers inserted and simplified in rounded arithmetic | C67 (`simplify` computes one machine operation per node) and a forward error analysis by induction on the expression; per-operation perturbation lemmas for `+ - * / ^`, `exp`, `log`, `sin`, `cos` |
| C88 | sums, products, derivatives and deflation with every result rounded (the exact models of `Poly/Ops` are the instance without rounding) | loop invariants with the error bound of each partial sum; for deflation an invariant about the residual coefficients of `a - (x - root) b` that both recurrences keep |
| C89 | (the models of parser, printer, substitution, derivative and simplifier) | induction on parser derivations (every token makes at most one node) and on expressions; the exponential family by induction |
| C90 | `Fp/Newton.lean`, `Fp/NewtonResidual.lean`: the steps and loops of `newton_raphson` and `halleys_method` with every operation rounded | invariant of the loop; the measure `2 * numbers in the bracket + (1 if x is an end)` falls in every step; sign changes are kept for monotone functions |
| C91 | `Fp/Ieee.lean`: finite numbers with a largest one, two zeros, two infinities, one NaN; operations, `==` and the sign rules from IEEE 754; `simplify` with that `==` | a simulation up to the sign of zero: each rule of `simplify` keeps the value computed by a harmless operation; for accuracy, each operation with its result in range agrees with the unbounded arithmetic of C87; the data type itself is checked against the extended real numbers (`Fp/IeeeSpec.lean`) |
| C92 | `Ct/Interval.lean`: `sub` with an interval as value: which operator is called for which operand types; the interval operations of Boost are a parameter with the inclusion property | induction over the expression: each operator keeps the values; an interval type with outward rounding satisfies the hypotheses. `Ct/IntervalExact.lean`: exactness for a variable that occurs once, by induction on sets of values (images); `Ct/IntervalMany.lean`: `sub` on expressions that contain intervals |
| C93 | `Fp/IeeeNewton.lean`, `Fp/IeeeHalley.lean`: `newton_raphson` and `halleys_method` on the data type of C91; the function is arbitrary on that type | an invariant of the loop (x between the bounds, or NaN/infinite with no way back); for bounded brackets a simulation with the model of C90 |
| C94 | `Ds/CollText.lean`: the loops of `repr` and `<<` over the elements; the texts of the elements are a parameter | the loops against lists of rows; a text splits at its blanks in one way only |
| C95 | `Fp/IeeeQuadratic.lean`: the solver on the data type of C91, with `sqrt`, `copysign`, `min`, `max` from IEEE 754 and C++ | under bounds on the coefficients every operation stays in range, so that the model of C81 is simulated; the failures by running the model on symbolic numbers |
| C96 | `Fp/IeeeHorner.lean`: numeric `sub` and `eval_derivatives` on the data type of C91, with the case of infinite arguments | a bound for the partial sums by induction over the loop, so that the model of C69 is simulated; invariants of the loops for NaN; the bisection with C68 |
| C97 | `Fp/EvalDeriv.lean`, `Fp/IeeeEvalDeriv.lean`, `Fp/IeeeNewtonPoly.lean`: `eval_derivatives` in rounded arithmetic and on the data type of C91, also as the objective function of `newton_raphson` and `halleys_method` | the two loops give a table of numbers; its distance from the exact table by induction over rows; then C93 and C90 |
| C98 | `Ct/ExpandMany.lean`, `Ct/ExpandSums.lean`, `Ct/ExpandCollect.lean`: the rules for reordering added to the model of C79, two rules of the same priority that both fit being an ambiguous call | value and variables: induction on the depth of the recursion; exactly one result: a weight of the expression that every rule lowers; collected: a term is added to a sum of polynomials in different variables by induction on the number of terms |
| C99 | `Ct/PolyCalculus.lean`: `sub` and `derivative` on the expressions of C79, using the operators there | induction on the expression; that a `double` gives a number and that derivatives of every order exist follows from an invariant: the tree is one the operators leave as it is, no divisor is a constant `C<..>`, none vanishes |
| C100 | `Ct/Configs.lean`, `Ct/Orderly.lean`, `Ct/Numbers.lean`, `Ct/SameExpand.lean`, `Ct/Total.lean`: the model of C79 and C98 with the two flags of the configuration as a parameter; for `expand` the two models agree on every expression the operators build | a weight of expressions that no operator raises and every rule lowers bounds the depth; value, variables and constants by induction on the depth, with an invariant that substitutes operands of products and powers |
| C101 | `Ct/TaylorPoly.lean`: the worker on the expressions of C79, with `derivative` and `sub` of C99 and `try_simplify` of C100 | induction on the order, the derivatives agreeing with those of the function in a neighbourhood (C99); the worker only builds sums and products of numbers and `x - a`, so that `simplify` compiles (C100) and `expand` gives a polynomial (C79) |
| C102 | the models of C37 and C101 | smooth points have derivatives of all orders (`Ct/Definite.lean`, `Ct/TaylorPoly.lean`); Lagrange's form of the remainder from Mathlib |
| C103 | the printer and parser of C01/C02, values as in C11 | a token derivation for another tree with the same value, by induction on the places negative constants may be in (`Rt/KeepsValue.lean`); the numbers of C75 and the rounded arithmetic of C67 (`Fp/KeepsDouble.lean`) |
| C104 | `ad.hpp` as in C36 over any type of numbers and its operations (`Ad/AnyArith.lean`; with the real numbers it is the model of C36 [`Ad.C104_real`]) | loop invariants: the array after `k` rounds holds the first `k` entries of a series defined by recursion on the entry; induction on the expression; running error analysis of the sums of products (`Fp/AdAccuracy.lean`) |

## Disagreements between code and properties

Each of these is a theorem (name in brackets, prefix `Stator.`), or is stated as a modelling decision where the code
does not compile.

Runtime expressions
* the lexer gives bytes above 127 (as in UTF-8) to `isalpha` and `isdigit` as negative ints where `char` is signed
  (parser.hpp:185, 192, 194, 261, 272, 492, 512), which the C standard leaves undefined; the model takes the "C" locale,
  in which they are neither letters nor digits (not a theorem);
* printing and parsing again changes left-nested `^` and `=`, negative constants as operands, `abs`, dictionaries as
  operands [C02_power_ambiguous, C02_power_fails, C02_equation_fails, C02_negative_base_fails,
  C02_negative_divisor_fails, C02_negated_constant_fails, C02_abs_fails, C02_dict_operand_fails];
* the LaTeX text of every logarithm has a brace too many, powers of powers, of exponentials and of numbers with an
  exponent have two superscripts, `±` is glued to a following name [C66_log, C66_double_superscript, C66_pm_glued];
* `check_close(0, 1e-9, 1e-6)` passes and `check_close(1e-9, 0, 1e-6)` fails, two equal infinities are not close, and between
  integers the relative difference is an integer division [Misc.C84_close_order, Misc.C84_close_finite, Misc.C84_close_integers];
* an `Expr` made from a `ConstantRT<float>` is read as a `ConstantRT<double>` [Disp.C85_other_constants_fail];
* equal dictionaries may hash differently [C08_dict_fails], so a dictionary used as a key of another is not found and can be
  entered twice, as can NaN [Ds.Dict.C83_dictionary_key_fails, Ds.Dict.C83_nan_key_fails];
* `0*[a,b]` loses its shape [C09_array_shape_lost]; a power of two arrays never finishes simplifying
  [C10_array_power_diverges]; `simplify` is not idempotent [C51_not_idempotent];
* `[a,b]*(-[c,d])` and `[a,b]*(1+[c,d])` give an array of arrays [C46_symbolic_operand_fails];
* collecting numeric factors changes computed bits [Fp.C67_regroup_fails];
* scalar times quantity takes the wrong unit, units.hpp:103 [C18_scalar_times_quantity_fails];
* derivative through an array access [C16_access_fails];
* Python: `number - expr` and `number / expr` are computed with swapped operands [C49_reflected_sub_swapped,
  C49_reflected_div_swapped];
* an array that is changed while it is shared changes every expression it is in, and an array put into itself is never
  freed [Sh.C78_shared_array_fails, Sh.C78_cycle_fails]; the library itself changes arrays and dictionaries only right after
  creating them (parser.hpp:359-414, runtime.hpp:749-790, 841-880, array.hpp:396-571, core.cpp:52-70);
* `expand(x / 2)` is the polynomial 0, because a variable becomes a polynomial with `int` coefficients [Ct.Expand.C79_half_fails];
  `expand(x * y)` is `x^2`, because the product of polynomials does not compare their variables (simplify.hpp:390-402)
  [Ct.Expand.C79_product_fails];
* `fast_sub` and the symbolic `sub` of a polynomial cannot be instantiated (runtime.hpp:1073 and polynomial.hpp:309 use
  members `_var`, `_val` an equation does not have; the model takes `_r` for `_val`); its visitor gives NaN where
  `simplify` gives 0 [C74_nan_differs].

Polynomials and root finding
* the text of a polynomial is not accepted by the parser [Pol.C72_not_parsed];
* a larger `subtraction_precision` is not always better [Fp.C73_larger_not_better];
* the value at -infinity uses the parity of the declared, not of the effective order [Pol.C20_neg_infinity_fails], which
  makes Sturm counts on (-infinity, infinity) wrong [Pol.C28_infinite_fails];
* a Sturm count is wrong if an end is a multiple root [Pol.C28_multiple_root_end_fails];
* deflation of order 1 reads out of bounds [Pol.C26_order_one_fails];
* the overflow branches of the quadratic and cubic solver return numbers that are not roots [Pol.C27_overflow,
  Pol.C53_range_fails];
* VCA loses roots at bisection points [Pol.C32_vca_loses_root]; VAS and VCA do not end on multiple positive roots
  [Pol.C32_vas_multiple_root, Pol.C32_vca_multiple_root]; this is exact [Pol.C32_vas_terminates_iff, Pol.C32_vca_terminates_iff];
* `solve_real_roots` of order ≥ 4 drops the root 0 [Pol.C54_zero_root_lost]; if it divides an interval exactly at a multiple root,
  the Sturm chain counts nothing there and other roots can be lost [Pol.C54_multiple_root_lost]; its recursive calls ignore the chosen bounder
  (polynomial.hpp:1873, 1878: modelled as written);
* `bisection` ignores the precision because its `x` is never updated [Num.C34_precision_ignored]; Newton and Halley
  report success at points that are no roots [Num.C35_false_success, Num.C35_halley_false_success]; the Schroeder formula
  is wrong [Num.C35_schroeder_wrong].

Automatic differentiation and compile-time expressions
* `x^p` at 0 gives NaN [Ad.C36_power_at_zero]; negation, abs and ± recurse forever [Ad.C36_negation_diverges];
* `cos(kπ) = 1` and `sin(π/2 + kπ) = 1` for every k [Ct.C.C40_result]; `sub(cos(x), x = pi())` is 1 [Ct.C59_pi_fails];
* `Expr(pi())` is about 36 units in the last place away from the double nearest to π [Ct.C71_pi]; the text of
  `pow(C<-2>(), x)` is read as `-(2^x)` [Ct.C71_negative_base_fails];
* the documented remainders of the rational π and e are not right [Ct.C.C55_accuracy];
* `integrate(x, x)` and `x^-1` do not compile [Ct.C38_gaps]; the derivative of `x/C<n>` does not compile
  [Ct.C58_constant_denominator];
* `pow(x, C<1,3>())*x` simplifies to something undefined for negative x [Ct.C57_cube_root_fails]; `pow(x*±y, 2)` gets a
  spurious sign [Ct.C57_spurious_sign].

Containers, strings, XML, geometry
* StackVector `==` compares the whole storage [Ds.C41_equality_fails]; too long initialiser lists are cut
  [Ds.C41_initializer_list]; replacing in the empty static list is not rejected [Ds.C42_replace_empty];
* `search_replace` with an empty pattern does not end [Ds.C44_empty_pattern_diverges];
* arrays: no range check, so indices alias [Ds.C45_out_of_range_alias]; `resize` throws after changing the dimensions
  [Ds.C45_resize_throws_too_late]; initialiser lists are not checked [Ds.C45_initializer_unchecked]; fixed stores compare
  unused slots [Ds.C45_equality_fixed_fails]; mixed storage is read out of bounds [Ds.C46_mixed_storage_ub]; the
  unused elements of fixed storage are printed [Ds.C77_text_fixed_fails] and simplified or differentiated
  [Ds.C77_map_unused_fails]; the shape is not printed [Ds.C77_text_shape_fails];
* XML: wrong index in paths [Ds.Xml.C50_path_index_wrong], `getNode(std::string)` and `getAttribute(std::string)` do not
  check [Ds.Xml.C50_getNode_string_unchecked, Ds.Xml.C50_attribute_string_unchecked], `+=` on a parsed document appends the rest of
  the file [Ds.Xml.C50_append_parsed_wrong]; a parse error at a newline gives `length_error`
  [Ds.Err.C62_newline_no_report]; the column is off by one after an empty first line [Ds.Err.C62_empty_first_line];
* XML: `getName` and the writing members do not check for an invalid node [Ds.Xml.C80_unchecked]; `firstNode` with `++` does not
  visit all children [Ds.Xml.C80_first_node_loop]; the path of a node changes when a sibling is added [Ds.Xml.C80_path_changes];
* text streamed into a caught exception overwrites its beginning [Ds.Err.C63_stream_after_catch];
* the area of a box is right only in three dimensions [Geo.C47_area_only_3d];
* geometry/indicator.hpp does not compile (namespace `stator::symbolic`, `pow<2>`, `dot`), `Plane::thickness` has the wrong
  return type; the formulas are modelled as written.
* `simplify` of `sin([x,x]*sin([x,x]*...))` doubles its size with every level, because a product with an array copies the other factor
  into every element [`C89_simplify_grows`].
* `newton_raphson` and `halleys_method` can give up at the number nearest to the root: at `x = 0` (or where `precision * x` underflows) a
  step that underflows is not recognised as convergence, both bounds are set to `x`, and the next step fails [`C90_zero_trap`].
* in IEEE arithmetic `simplify` does not keep every value: `0*x` becomes 0 although it is NaN at an infinite `x` [`C91_nan_lost`]; `0+x`
  becomes `x`, which differs at `-0` in the sign of `1/(0+x)` [`C91_sign_lost`]; collecting factors can overflow: `2^600*(2^600*x)`
  becomes `inf*x` [`C91_collect_overflows`].
* `pow` of an interval calls Boost's `pow(interval, int)` with the exponent converted to `int`, so the square root of every interval
  is `[1,1]` [`Ct.C92_fraction_power_fails`]; after an interval has been inserted for one variable, nothing can be inserted
  for another: `sub` has no overload for an interval, as `IsConstant` does not hold for it [`Ct.C92_second_variable_fails`].
* `bisection` computes the midpoint as `(low_bound + high_bound) / 2` (numeric.hpp:297). If the sum overflows (say between `2^1023` and the largest double) the midpoint is infinite, becomes an end of the interval, and the next midpoint equals it: the function returns true with `x = inf` (`C68_overflow`, for every function and precision).
* `newton_raphson` and `halleys_method` compare with `>=`, `<=`, `<` and `>` only (numeric.hpp:33-80), which are false for NaN: a step to a point where the function is
  NaN is accepted, and the loop goes on with NaN to the iteration limit (2^64-1 by default); `log` from 3 is such a case [`C93_nan_trap`,
  `C93_log`].
* `repr` of an Eigen matrix exchanges rows and columns in its loop bounds (runtime.hpp:1151-1157): every matrix that is not square and
  not a column is read outside of its bounds [`Ds.Coll.C94_defined`].
* the quadratic solver avoids the overflow of `f[1]*f[1]` (polynomial.hpp:797-805) by assuming that the roots are then `-f[1]` and
  `-f[0]/f[1]`; `x^2 + 3*2^511 x + 7*2^1021` has no real root, and two are returned [`Fp.C95_false_roots`]. `4 * f[0]` can overflow too:
  `x^2 - 2^1022` gives `-inf` and 0 [`Fp.C95_overflow`].
* `eval_derivatives` (polynomial.hpp:319-338) has no case for infinite arguments, unlike `sub`: it multiplies the zeros it starts with by
  the argument, and all derivatives are NaN, as is the value if the coefficient of the highest power is zero
  [`Fp.C96_derivatives_infinity`]. A step that overflows can give `sub` the wrong sign [`Fp.C96_wrong_sign`].
* the rules for reordering (simplify.hpp:247-269) come in pairs of the same priority; where both of a pair fit, the call is ambiguous and
  the sum is left as it is: `expand((x + y) + (x + y))` has four terms [`Ct.Expand.C98_ambiguous`, `Ct.Expand.C98_sum_of_sums`], while
  `x + y + x + y` has two [`Ct.Expand.C98_collects`]. (C++ also instantiates the overloads that lose; the model does not look at them,
  so an expression that does not compile because of them is not noticed.)
* `sub((x + 1) / 2, x = 2)` with an `int` on the right is 1, since `(2 + 1) / 2` is an integer division [`Ct.Expand.C99_integer_fails`],
  and `sub(p / 2, x = Null())` is 0 for `p = x + 1` with `int` coefficients, whose value at 0 is 1/2 [`Ct.Expand.C99_null_fails`]. With a
  `double` on the right both are right [`Ct.Expand.C99_number`].
* `derivative(x / C<2>(), x)` does not compile: it needs `pow(C<2>(), C<2>())` [`Ct.Expand.C99_constant_divisor`].
* `N(x / x)` is `Unity`, not a number of type `double` [`Ct.Expand.C100_quotient`].
* `simplify(pow(x + y, C<2>()))` does not compile: `simplify` of a `PowerOp` has a deduced return type, and its body cannot be
  instantiated when neither the base nor the product can be simplified [`Ct.Expand.C100_power_fails`].
* a negative constant prints without parentheses wherever it stands: `exp(k)*y` prints as `exp -2*y` and is read as `exp(-(2*y))`,
  `(x^k)*y` as `x^(-(2*y))`, `(x/k)*y` as `x/(-(2*y))` [`C103_what_is_read`], all with other values [`C103_conditions_needed`]. In products
  the value survives [`C103_plain`], though `(x*k)*y` is regrouped to `x*(-(2*y))`, which rounds differently [`Fp.C103_regroup_fails`].

## Seeded bugs

`seeded/LOG.jsonl` lists edits of the model and the theorems that then fail to check. The edits are applied one at a time in a
scratch copy and the whole project is rebuilt. An edit named "the corrected code" turns a bug of the code into the
intended behaviour: it is the `_fails` theorem that must then break.
