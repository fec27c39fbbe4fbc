s=open('/verif/DESIGN.md').read()
head=s.split('## Plan per property')[0]
head=head.replace('''* `std::` facilities (`std::string::find`, `std::sort`, `unordered_map`, `shared_ptr`, `strtod`, `ostream <<`)
  are modelled by their documented behaviour, or are parameters.
''','''* `std::` facilities (`std::string::find`, `std::sort`, `unordered_map`, `shared_ptr`, `strtod`, `ostream <<`)
  are modelled by their documented behaviour, or are parameters. The same holds for RapidXML (xml.hpp) and for
  Python's operator dispatch through pybind11 (pysrc/stator/core.cpp), which are not in the repository.
* Fixed-width integers: `size_t` arithmetic is modulo a parameter (`S`, `W`) where wrap-around matters (deflation,
  array addressing, string positions); elsewhere sizes are natural numbers. `1 << k` on an `int` is `2^k`.
''')
if '## What is modelled' not in head:
    head+='''## What is modelled

| area | code | model |
|------|------|-------|
| runtime expressions: tokenizer, Pratt parser, printer | symbolic/parser.hpp, runtime.hpp, repr.hpp, symbolic/*_ops.hpp (binding powers) | `Rt/Lex, Parse, Print`, grammar in `Rt/Grammar` |
| runtime simplify, substitution, derivative, equality, hash | runtime.hpp, units.hpp, symbolic/array.hpp (runtime arrays) | `Rt/Simplify, Subst, Deriv, Compare`; values in `Rt/Eval` |
| Python bindings | pysrc/stator/core.cpp | `Rt/PythonProps` |
| polynomials: arithmetic, division, shifts, deflation, evaluation | polynomial.hpp, simplify.hpp (polynomial overloads) | `Poly/Ops` on bounds-checked arrays (`Poly/Mem`) |
| root counting, bounds, isolation, solvers of order 0-3 and general | polynomial.hpp 758-1892 | `Poly/Roots, Cubic, Sturm, Isolate, Solve` |
| Newton, Halley, Schroeder, bisection | numeric.hpp | `Num/RootFind` |
| automatic differentiation | ad.hpp | `Ad/Model` |
| compile-time constants and expressions | constants.hpp, binary_ops.hpp, unary_ops.hpp, sub.hpp, simplify.hpp, taylor.hpp, integrate.hpp | `Ct/Const, Expr, Simplify` |
| arrays, StackVector, static lists, options, strings | symbolic/array.hpp, orphan/*.hpp, string.hpp | `Ds/Array, StackVector, StaticList, Config, Strings` |
| XML wrapper, its error reports, exceptions | xml.hpp, exception.hpp | `Ds/Xml, XmlError` |
| boxes, balls, indicators | geometry/*.hpp | `Geo/Shapes` |

Not modelled: rounding of `double`; the values computed by precision.hpp (they are a parameter of the deflation
model: the theorems hold for every choice); interval.hpp; unit_test.hpp; context.hpp (not valid C++); LaTeX output;
string_format; RapidXML and pybind11 internals; C++ overload resolution (read by hand; for the compile-time `simplify`
over-approximated by a relation that may use any rule anywhere).

Loops and recursions that may not end carry a fuel argument, and running out of fuel is an outcome of its own
(`diverge`, `more`, `none`); the theorems say for which inputs some fuel suffices, and with what result.
Array accesses out of bounds are `none`/`ub`, so every theorem with a successful result also says that no access was
out of bounds.

'''
plan='## Plan per property'+s.split('## Plan per property')[1].split('## Disagreements')[0].rstrip()+'\n'
rows='''| C51-C52 | `SimplifyRT`, substitution | counterexample by evaluation; composition of C11, C13 |
| C53 | closed-form cubic solver with its polishing step | factorisation of the depressed cubic, trigonometric identity |
| C54 | Sturm loop, bisection of VAS/VCA intervals, both signs | invariant of the work list (regions partition the remaining roots), measure for termination |
| C55 | the two ratios | Mathlib's bounds of π and e |
| C56 | array and dictionary literals | soundness and completeness with respect to the token grammar |
| C57 | rules of compile-time `simplify` as a relation | induction on the derivation, set-valued semantics because of ± |
| C58-C59 | compile-time `derivative`, `sub` | induction, `HasDerivAt` |
| C60 | option lists | induction |
| C61 | indicator formulas | Euclidean geometry in Mathlib |
| C62-C63 | error report arithmetic, string stream with put position | list algebra |
'''
if '| C63' not in plan and 'C62-C63' not in plan: plan=plan+rows
dis='''
## Disagreements between code and properties

Each of these is a theorem (name in brackets, prefix `Stator.`), or is stated as a modelling decision where the code
does not compile.

Runtime expressions
* printing and parsing again changes left-nested `^` and `=`, negative constants as operands, `abs`, dictionaries as
  operands [C02_power_ambiguous, C02_power_fails, C02_equation_fails, C02_negative_base_fails,
  C02_negative_divisor_fails, C02_negated_constant_fails, C02_abs_fails, C02_dict_operand_fails];
* equal dictionaries may hash differently [C08_dict_fails];
* `0*[a,b]` loses its shape [C09_array_shape_lost]; a power of two arrays never finishes simplifying
  [C10_array_power_diverges]; `simplify` is not idempotent [C51_not_idempotent];
* `[a,b]*(-[c,d])` and `[a,b]*(1+[c,d])` give an array of arrays [C46_symbolic_operand_fails];
* scalar times quantity takes the wrong unit, units.hpp:103 [C18_scalar_times_quantity_fails];
* derivative through an array access [C16_access_fails];
* Python: `number - expr` and `number / expr` are computed with swapped operands [C49_reflected_sub_swapped,
  C49_reflected_div_swapped].

Polynomials and root finding
* the value at -infinity uses the parity of the declared, not of the effective order [Pol.C20_neg_infinity_fails], which
  makes Sturm counts on (-infinity, infinity) wrong [Pol.C28_infinite_fails];
* a Sturm count is wrong if an end is a multiple root [Pol.C28_multiple_root_end_fails];
* deflation of order 1 reads out of bounds [Pol.C26_order_one_fails];
* the overflow branches of the quadratic and cubic solver return numbers that are not roots [Pol.C27_overflow,
  Pol.C53_range_fails];
* VCA loses roots at bisection points [Pol.C32_vca_loses_root]; VAS and VCA do not end on multiple positive roots
  [Pol.C32_vas_multiple_root, Pol.C32_vca_multiple_root];
* `solve_real_roots` of order ≥ 4 drops the root 0 [Pol.C54_zero_root_lost]; its recursive calls ignore the chosen bounder
  (polynomial.hpp:1873, 1878: modelled as written);
* `bisection` ignores the precision because its `x` is never updated [Num.C34_precision_ignored]; Newton and Halley
  report success at points that are no roots [Num.C35_false_success, Num.C35_halley_false_success]; the Schroeder formula
  is wrong [Num.C35_schroeder_wrong].

Automatic differentiation and compile-time expressions
* `x^p` at 0 gives NaN [Ad.C36_power_at_zero]; negation, abs and ± recurse forever [Ad.C36_negation_diverges];
* `cos(kπ) = 1` and `sin(π/2 + kπ) = 1` for every k [Ct.C.C40_result]; `sub(cos(x), x = pi())` is 1 [Ct.C59_pi_fails];
* the documented remainders of the rational π and e are not right [Ct.C.C55_accuracy];
* `integrate(x, x)` and `x^-1` do not compile [Ct.C38_gaps]; the derivative of `x/C<n>` does not compile
  [Ct.C58_constant_denominator];
* `pow(x, C<1,3>())*x` simplifies to something undefined for negative x [Ct.C57_cube_root_fails]; `pow(x*±y, 2)` gets a
  spurious sign [Ct.C57_spurious_sign].

Containers, strings, XML, geometry
* StackVector `==` compares the whole storage [Ds.C41_equality_fails]; too long initialiser lists are cut
  [Ds.C41_initializer_list]; replacing in the empty static list is not rejected [Ds.C42_replace_empty];
* `search_replace` with an empty pattern does not end [Ds.C44_empty_pattern_diverges];
* arrays: no range check, so indices alias [Ds.C45_out_of_range_alias]; `resize` throws after changing the dimensions
  [Ds.C45_resize_throws_too_late]; initialiser lists are not checked [Ds.C45_initializer_unchecked]; fixed stores compare
  unused slots [Ds.C45_equality_fixed_fails]; mixed storage is read out of bounds [Ds.C46_mixed_storage_ub];
* XML: wrong index in paths [Ds.Xml.C50_path_index_wrong], `getNode(std::string)` and `getAttribute(std::string)` do not
  check [Ds.Xml.C50_getNode_string_unchecked, Ds.Xml.C50_attribute_string_unchecked], `+=` on a parsed document appends the rest of
  the file [Ds.Xml.C50_append_parsed_wrong]; a parse error at a newline gives `length_error`
  [Ds.Err.C62_newline_no_report]; the column is off by one after an empty first line [Ds.Err.C62_empty_first_line];
* text streamed into a caught exception overwrites its beginning [Ds.Err.C63_stream_after_catch];
* the area of a box is right only in three dimensions [Geo.C47_area_only_3d];
* geometry/indicator.hpp does not compile (namespace `stator::symbolic`, `pow<2>`, `dot`), `Plane::thickness` has the wrong
  return type; the formulas are modelled as written.

## Seeded bugs

`seeded/LOG.jsonl` lists edits of the model and the theorems that then fail to check. The edits are applied one at a time in a
scratch copy and the whole project is rebuilt. An edit named "the corrected code" turns a bug of the code into the
intended behaviour: it is the `_fails` theorem that must then break.
'''
open('/verif/DESIGN.md','w').write(head+plan+dis)
