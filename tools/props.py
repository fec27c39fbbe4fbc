import json
P=[]
def p(id,title,statement,quantifier,why,anchors):
    P.append(dict(id=id,title=title,statement=statement,quantifier=quantifier,why_tests_cant=why,anchors=anchors))
RT="stator/symbolic/runtime.hpp"; BO="stator/symbolic/binary_ops.hpp"; UO="stator/symbolic/unary_ops.hpp"; PA="stator/symbolic/parser.hpp"; PO="stator/symbolic/polynomial.hpp"
p("C01","Parsing always terminates","Constructing an Expr from a string always ends, either with an expression or with an exception: no input string makes the tokenizer or the operator-precedence loop run forever, and the work is bounded by the length of the string.","every byte string","a test can only show that particular strings parse; a hang on an untested malformed string would go unseen",[PA+": ExprTokenizer, parseExpression, parseToken, consume",RT+": Expr(std::string)"])
p("C02","Print/parse round trip","Printing a runtime expression with repr and parsing the text again gives back the same expression tree exactly when the expression has no power whose base is a power, no equation whose left side is an equation, no abs or arbsign, no negation of a constant, no dictionary as an operand, and a negative constant only where what follows it in the text is the end, a closing bracket, a separator or an operator binding weaker than the unary minus (+, -, =). Any other expression with finite constants and readable names comes back as another tree or is rejected.","every expression tree of any depth built from numeric constants, variables, the binary operators, unary functions, arrays, units and dictionaries","there are infinitely many trees and the parenthesisation decision depends on pairs of nested operators at every depth",[RT+": repr, BP",BO+": repr, BP",UO+": repr",PA+": parseExpression"])
p("C03","Operator precedence and associativity","For all operands a, b, c and all pairs of binary operators, 'a op1 b op2 c' groups to the operator with the higher binding power; for equal binding power + - * / group to the left, ^ and = to the right; parentheses override both.","every operand text that lexes as an atom or bracketed expression, and every pair of operators","the number of operand shapes is unbounded; tests only sample a few operator pairs",[PA+": parseExpression, right_operators",BO+": leftBindingPower, RBP, NBP"])
p("C04","No trailing input is ignored","If constructing an Expr from a string succeeds, then every non-space character of the string was consumed as part of a token of the expression; in particular unbalanced or stray brackets, commas and colons are rejected.","every string","acceptance of garbage suffixes has to be excluded for all strings, not only those listed in a test",[PA+": Expr(std::string) / ExprTokenizer::empty, expect"])
p("C05","Spaces between tokens are irrelevant","Adding any number of spaces before the first token, after the last token or between two tokens does not change the result of parsing.","every string, every token boundary and every number of inserted spaces","quantifies over all strings and insertion points",[PA+": consumeWhitespace, consume"])
p("C06","Numeric literal lexing","At a digit, the tokenizer consumes exactly the longest prefix of the form digits[.digits*][(e|E)[+-]digits+]; a second decimal point, or an exponent without digits, raises an error rather than yielding a wrong number.","every character sequence starting with a digit","all literals of all lengths",[PA+": consumeFloat"])
p("C07","Structural equality is an equivalence","Comparing runtime expressions with == is reflexive, symmetric and transitive whenever no constant is NaN, holds exactly when the two trees are the same operator by operator, and is not affected by sharing of subtrees (the pointer shortcut).","every pair / triple of expression trees and every sharing pattern","infinitely many trees and sharing patterns",[RT+": Expr::operator==, RTBase compare",BO,UO])
p("C08","Equal expressions hash equally","If two runtime expressions compare equal and the dictionaries in them iterate over their keys in the same order (in particular if there is no dictionary of two or more entries), their hashes are equal, so they can be keys of an unordered_map. Dictionaries that are equal but iterate in different orders (which depends on their history) can hash differently.","every pair of equal expression trees","hash/equality coherence is a statement about all pairs of trees",[RT+": hash","stator/hash.hpp: hash_combine",BO,UO,"stator/symbolic/dict.hpp: hash"])
p("C09","simplify preserves the value of an expression","Whenever an expression has a value (no division by zero, logarithm of a non-positive number etc.) under an assignment of its variables, simplify() of it has the same value under the same assignment; for scalars and for element-wise array arithmetic. (0 times an array becomes the number 0 and loses its shape.)","every scalar or array expression tree and every assignment of reals to variables","rewrites fire at any depth and on any combination of operators",[RT+": SimplifyRT, Expr::simplify",BO+": simplify identities"])
p("C10","simplify always terminates","Calling simplify() on any expression - scalars, arrays, dictionaries, units and any mixture - ends with an expression or an exception, within a recursion depth bounded by the size of the expression, unless it comes across a power whose two sides have become arrays; then it never returns an expression. (A power of two arrays of scalars diverges: simplify re-creates the same node forever.)","every expression tree","a non-terminating rewrite may only be reachable from untested trees",[RT+": SimplifyRT","stator/symbolic/array.hpp: dd_visit","stator/symbolic/units.hpp: operator*"])
p("C11","simplify folds ground expressions completely","Simplifying an expression without variables, built of constants with + - * / ^ negation and the elementary functions, always gives a single constant, so it can be converted to a number.","every variable-free scalar expression","all tree shapes and depths",[RT+": SimplifyRT, Expr::as<double>"])
p("C12","simplify never invents variables","Every variable in simplify(e) (and in sub(e, x=g)) already occurs in e (or in g).","every expression","all trees",[RT+": SimplifyRT, SubstituteRT"])
p("C13","Substitution means evaluation in an updated environment","The value of sub(f, x = g) under an assignment is the value of f under the assignment in which x is given the value of g; variables other than x are unaffected. (For f without dictionaries: the code does not substitute inside a dictionary.)","every f, x, g and assignment","substitution recursion has to be right at all depths and for all shadowing patterns",[RT+": SubstituteRT","stator/symbolic/sub.hpp"])
p("C14","Dictionary substitution is simultaneous","Substituting a dictionary {x:g, y:h, ...} replaces all variables at once: a variable introduced by one replacement is never rewritten by another, and the result does not depend on the order of the entries. (Inside a dictionary the code does not substitute.)","every expression and every finite map","order independence quantifies over all maps and orders",[RT+": SubstituteDictRT","stator/symbolic/dict.hpp"])
p("C15","Substituting an absent variable changes nothing","If x does not occur in f then sub(f, x = g) is structurally equal to f.","every f, x, g","all trees",[RT+": SubstituteRT"])
p("C16","Symbolic derivative is the calculus derivative","derivative(f, x), evaluated under any assignment at which f and its subexpressions are differentiable in x, is the derivative of the value of f with respect to the value of x.","every expression and every assignment meeting the differentiability side conditions","quantifies over all expressions and all real points",[BO+": derivative",UO+": derivative","stator/symbolic/variable_rt.hpp: derivative"])
p("C17","Derivative with respect to an absent variable is zero","If x does not occur in a scalar expression f, then derivative(f, x) evaluates to 0 wherever f's subexpressions are defined.","every f not containing x","all trees",[BO+": derivative",UO+": derivative"])
p("C18","Products and quotients of quantities with units keep value and unit","Simplifying a product, quotient or power of quantities with units multiplies, divides the numeric values and the units consistently. (False for scalar * quantity: the unit of the result is replaced by the value.)","every pair of values and units","all operand shapes",["stator/symbolic/units.hpp: simplify overloads"])
p("C19","Polynomial evaluation is exact Horner","Substituting a number for the variable of a polynomial gives the sum of a_i x^i.","every order, coefficients and argument (exact arithmetic)","all orders and coefficient vectors",[PO+": sub(Polynomial)"])
p("C20","Evaluation at infinity has the right sign","Substituting +-infinity in a polynomial gives the limit of its values: the sign of the leading non-zero coefficient times the parity of its degree. (False at -infinity when leading coefficients are zero and the parity differs.)","every coefficient vector","all orders and zero patterns",[PO+": sub(Polynomial) infinite branch"])
p("C21","eval_derivatives gives all derivatives","eval_derivatives<D>(f, x) returns f(x), f'(x), ..., f^(D)(x).","every order, D, coefficients, x","all orders",[PO+": eval_derivatives"])
p("C22","Polynomial ring operations are correct","Sum, difference, negation, product of polynomials, product/quotient with a constant and the product with the variable evaluate to the sum, difference, ... of the values at every point; the result order is max / sum of the orders.","every pair of orders, coefficient vectors and points","all orders",["stator/symbolic/simplify.hpp: Polynomial operators",PO])
p("C23","Polynomial derivative","derivative(f, x) has coefficient (i+1) a_{i+1} at i and is the calculus derivative.","every order and coefficient vector","all orders",[PO+": derivative"])
p("C24","Polynomial Euclidean division","gcd(f, g) returns (q, r) with f = q g + r and order of r below the effective order of g whenever g is not the zero polynomial, also when leading coefficients of g are zero.","every pair of orders and coefficient vectors with g != 0","all orders and zero patterns",[PO+": gcd"])
p("C25","Polynomial shifts, reflection, scaling and inversion","shift_function(f,t)(x)=f(x+t); reflect_poly(f)(x)=f(-x); scale_poly(f,s)(x)=f(s x); invert_taylor_shift(f)(x)=(1+x)^n f(1/(1+x)).","every order, coefficient vector, parameter and point","all orders",[PO+": shift_function, reflect_poly, scale_poly, invert_taylor_shift"])
p("C26","Deflation divides out a root","deflate_polynomial(f, r) for a root r of f returns q with f(x) = (x - r) q(x), whichever of the forward/backward recurrences is chosen at each step. (For order 1 and r != 0 the code indexes out of bounds.)","every order >= 2, coefficient vector, root and choice sequence","all orders and all data-dependent choice sequences",[PO+": deflate_polynomial"])
p("C27","Linear and quadratic solvers are sound and complete","solve_real_roots for orders 0, 1, 2 returns only roots and all real roots of the polynomial, in ascending order; (as coded a double root at zero is listed twice while any other double root is listed once.)","every coefficient vector in exact arithmetic without overflow","all real coefficients",[PO+": solve_real_roots orders 0-2"])
p("C28","Sturm chain counts real roots","For a non-zero polynomial and a<=b that are not multiple roots of it, sturm_chain(f).roots(a,b) is the number of distinct real roots in (a,b], whatever leading coefficients are zero and however many multiple roots lie inside. sturm_chain(f).get(i) is the i-th member of f, f', -rem(f, f'), ..., and zero after its end.","every order, coefficients and interval (exact arithmetic)","all polynomials and intervals",[PO+": SturmChain, mrem, sturm_chain"])
p("C29","Descartes rule of signs bound","descartes_rule_of_signs(f) is at least the number of positive real roots of f counted with multiplicity; 0 means no positive root and 1 means exactly one.","every order and coefficient vector","all polynomials",[PO+": descartes_rule_of_signs"])
p("C30","LMQ bounds enclose the positive roots","LMQ_upper_bound(f) is at least every positive root of f and LMQ_lower_bound(f) at most every positive root, also when it reports 0/infinity.","every order and coefficient vector with non-zero leading (constant) coefficient","all polynomials",[PO+": LMQ_upper_bound, LMQ_lower_bound"])
p("C31","Budan 0-1 and Alesina-Galuzzi tests bound roots in an interval","budan_01_test(f)=0 implies no root in (0,1), =1 implies exactly one; alesina_galuzzi_test(f,a,b) likewise for (a,b).","every polynomial and interval","all polynomials",[PO+": budan_01_test, alesina_galuzzi_test"])
p("C32","Root bracketing loses no root","VCA/VAS_real_root_bounds return disjoint intervals, each with exactly one root inside, that together contain every positive root of a polynomial; VAS terminates exactly when every positive root is simple (for a tolerance constant small enough for the order), VCA exactly when every multiple positive root is one of its bisection points, in particular for simple roots. (The covering is false for the VCA routine when a root coincides with a bisection midpoint, and solve_real_roots for order >= 4 drops the root 0.)","every polynomial","all polynomials; the failing ones are a measure-zero set random tests miss",[PO+": VCA_real_root_bounds_worker, VAS_real_root_bounds_worker, solve_real_roots"])
p("C33","Order change preserves the polynomial","change_order to a higher order, or to a lower order when the dropped coefficients are zero, preserves the value at every point; truncation keeps exactly the low-order terms.","every order pair and coefficient vector","all orders",[PO+": change_order, Polynomial(const Polynomial<N2>&)"])
p("C34","Bisection keeps the root bracketed","bisection(f, a, b) called with f(a) f(b) < 0 keeps, in every iteration, a sub-interval of [a,b] with a sign change, halves it each time, terminates, and returns a point of [a,b].","every function, interval, tolerance and iteration limit","arbitrary functions and unbounded iteration counts",["stator/symbolic/numeric.hpp: bisection, bisection_step"])
p("C35","Newton/Halley iterations stay in bounds and do not report false success","newton_raphson and halleys_method only ever return success after a step that met the convergence criterion, never leave the supplied bounds, and stop after at most the given number of iterations. On a finite bracket with a sign change, for a strictly monotone function with a correct sign of the derivative, they keep the root bracketed and only fail because the iteration limit is reached. (The criterion itself can be met at a point that is no root: both report success at such points, see the _false_success theorems.)","every function, start, bounds, iteration limit","arbitrary functions",["stator/symbolic/numeric.hpp: process_iterative_step, newton_raphson, halleys_method"])
p("C36","Automatic differentiation returns Taylor coefficients","ad<N>(f, x = a)[k] is f^(k)(a)/k! for every k <= N, for expressions built from constants, the variable, + - * / exp log sin cos and powers.","every expression, order N, and expansion point in the domain","all orders and expressions",["stator/symbolic/ad.hpp"])
p("C37","Taylor expansion","taylor_series<N>(f, x, a) is the polynomial sum_k f^(k)(a)/k! (x-a)^k and reproduces a polynomial of order <= N exactly.","every order, function and expansion point","all orders",["stator/symbolic/taylor.hpp"])
p("C38","Symbolic integration inverts differentiation","derivative(integrate(f, x), x) equals f for every f that integrate accepts; and for numbers a and b, sub(F, x = b) - sub(F, x = a) with F = integrate(f, x) is the integral of f from a to b, if f is smooth in between.","every expression of the integrable grammar","all trees",["stator/symbolic/integrate.hpp"])
p("C39","Compile-time rational constants are exact","C<n,d> arithmetic (+ - * / abs comparisons, Null and Unity identities, factorials and inverse factorials) agrees with the rational numbers.","every numerator/denominator","all rationals",["stator/symbolic/constants.hpp"])
p("C40","Compile-time sin and cos of multiples of pi","sin and cos of compile-time rational multiples of pi that simplify to constants have the mathematically correct value. (False: cos(k pi) is 1 for every integer k and sin(pi/2 + k pi) is 1 for every k.)","every rational multiple of pi","all rationals",["stator/symbolic/constants.hpp: sin, cos overloads"])
p("C41","StackVector behaves as a bounded vector","Any sequence of push_back, pop_back, extend, copies and constructions that never exceeds the capacity nor pops an empty vector behaves as on an unbounded sequence; exceeding the capacity is an error in debug builds and out of bounds otherwise. This holds for programs with any number of vectors, which may be extended with themselves, and operations on one vector never change another.","every history of operations","all operation histories",["stator/orphan/stack_vector.hpp"])
p("C42","Static list operations","make, get, reverse, append, prepend, replace, merge, split and foreach on compile-time lists do what their names say, at every index, and an index that is not a position is rejected at compile time. (Replacing in the empty list is not rejected.)","every list, index and functor","all lengths",["stator/orphan/static_list.hpp"])
p("C43","strip removes exactly the surrounding characters","strip(s, w) is the unique substring of s such that s = pre + result + post with pre, post over w and the result not starting or ending with a character of w.","every string and whitespace set","all strings",["stator/string.hpp: strip"])
p("C44","search_replace replaces every non-overlapping occurrence","search_replace(in, from, to) replaces the non-overlapping occurrences of from found left to right, never rescanning replaced text, and returns their number; (it does not terminate for an empty from and non-empty in).","every triple of strings","all strings, including to containing from",["stator/string.hpp: search_replace"])
p("C45","Compile-time arrays behave as shaped storage","Row-major addressing maps the in-range coordinates one-to-one onto 0..size-1; reads see the last write; push_back and resize keep the elements; two arrays compare equal exactly when they have the same dimensions and elements. (Several of these fail: coordinates are not range checked, resize of a fixed store changes the dimensions before it throws, an initializer list is not checked against the dimensions, and arrays in fixed storage compare unused slots.)","every rank, dimensions, coordinates and history of operations","all ranks and dimensions",["stator/symbolic/array.hpp: RowMajorAddressing, Array"])
p("C46","Array operations are element-wise","Adding/subtracting/... two arrays of the same dimensions or an array and a scalar gives the array of element results; mismatched dimensions raise an error; derivative and simplify act element-wise.","every array and operator","all sizes",["stator/symbolic/array.hpp","stator/symbolic/array_rt.hpp"])
p("C47","Box volume and surface area","Volume and area of an axis-aligned box are the measures of the box. (Area is right only in three dimensions.)","every dimension and extents","all dimensions",["stator/geometry/box.hpp"])
p("C48","Ball volume and surface area","Volume and area of a D-dimensional ball agree with the Lebesgue measure and its radial derivative.","every dimension and radius","all dimensions",["stator/geometry/sphere.hpp"])
p("C49","Python operators","Evaluating a + b, a - b, a * b, a / b in Python, where at least one operand is an expression, gives a number, expression or list with the value of the operation; a list put into an expression comes out with the same items. (False for - and / with a number on the left: the operands are swapped.)","every number, expression and assignment","all operands",["pysrc/stator/core.cpp"])
p("C50","XML documents are read and written faithfully","The path of a node names it uniquely; getNode, hasNode, getAttribute and hasAttribute find the first match or throw; iterating with ++ visits exactly the children of a name in order; attributes and values that are written are read back. (The index in a path is not the position among same-named siblings when siblings of other names stand between; += on a node of a parsed file appends to the rest of the file.)","every document tree, node, name and value","all documents",["stator/xml.hpp"])
p("C51","Repeated simplify settles","On a scalar expression without units each call of simplify either returns the expression unchanged or one with strictly fewer nodes, so calling it again and again reaches, in fewer calls than the expression has nodes, an expression that simplify leaves alone and that has the value of the original. (A single call is not enough: 0.5*(2*x) simplifies to 1*x and only a second call gives x.) For every expression whatever, with arrays, dictionaries and units, the calls end as well, at an expression that simplify leaves alone or for which it returns nothing (it throws, or meets a power of two arrays), and they never cycle.","every expression (the bound and the value for scalar ones without units), every arithmetic","one has to look at all trees to know that the calls reach a fixed point, and when",[RT+": SimplifyRT"])
p("C52","Inserting numbers for every variable and simplifying gives the value","Substituting a dictionary of numbers for all variables of a scalar expression and simplifying yields the numeric value of the expression at these numbers.","every scalar expression and every numeric dictionary covering its variables","all trees and all values",[RT+": SubstituteDictRT, SimplifyRT, Expr::as<double>"])
p("C53","The cubic solver is sound and complete","solve_real_roots for order 3 returns, in ascending order, exactly the real roots of the polynomial, as long as the coefficients divided by the leading one are not so large that the overflow branches are taken. (In those branches it can return a number that is not a root at all.)","every cubic with real coefficients, exact arithmetic","all real coefficient vectors; the branches meet at measure-zero sets random tests miss",[PO+": solve_real_roots order 3, deflate_and_solve_polynomial"])
p("C54","The general real root solver finds every real root","For a polynomial of degree at least 4, not zero at 0 and with simple real roots, solve_real_roots(f) terminates without overflowing its fixed-capacity vectors and returns, in order, exactly one approximation (relative error at most the larger of the two tolerances) for each real root. Multiple roots are found as well, as long as the points at which the solver divides its intervals (repeated halving between its LMQ bounds) avoid them. (If it hits one a root can be lost: for (x-1)^2*(x+2)*(2*x^2-3) the root sqrt(3/2) is never returned.) For every polynomial whatsoever the solver returns: a sorted list, not longer than the order, and with non-zero first and last coefficients not longer than the number of distinct real roots.","every order, every coefficient vector with the stated conditions, zero leading coefficients allowed","all polynomials; the loop invariant over all bisection histories",[PO+": solve_real_roots, solve_real_positive_roots_poly, solve_real_positive_roots_poly_sturm"])
p("C55","Accuracy of the compile-time pi and e","The rational constants pi and e of the library are within 1.61e-14 and 6.17e-16 of the real numbers (the remainders stated in the documentation, 1.5987e-14 and +8.88e-16, are not the exact ones).","the two constants against the exact real numbers","a double-precision test cannot see errors below its own rounding",["stator/symbolic/constants.hpp: pi, e"])
p("C57","Compile-time simplification keeps the value","Whatever rules simplify, try_simplify and N apply, every value of the expression is a value of the result, and an expression without arbitrary signs keeps exactly its value wherever it had one. (It fails for cube roots of negative numbers: pow(x,C<1,3>())*x at x=-8.)","every expression tree, every sequence of rewriting rules, every assignment","all trees and all orders of rule application",["stator/symbolic/simplify.hpp: simplify, try_simplify, N"])
p("C58","Compile-time symbolic derivative","derivative(f, x) evaluates to the derivative of f with respect to x at every point where f is smooth.","every expression, variable and smooth point","all trees and all real points",["stator/symbolic/binary_ops.hpp: derivative","stator/symbolic/unary_ops.hpp: derivative","stator/symbolic/variable.hpp: derivative"])
p("C59","Compile-time substitution evaluates","sub(f, x = a) has the value of f at the point where x has the value of a. (It fails for compile-time multiples of pi inside sin and cos: sub(cos(x), x = pi()) is 1.)","every expression, variable, inserted expression and assignment","all trees and all values",["stator/symbolic/sub.hpp","stator/symbolic/binary_ops.hpp: sub","stator/symbolic/unary_ops.hpp: sub"])
p("C56","Array and dictionary literals","[e1, ..., en] parses to the array of the parsed elements in order; {k1:e1, ...} to the dictionary in which every written key has the value of its last entry, each key once.","every sequence of element texts and every sequence of entries","unbounded numbers of elements, nested to any depth",[PA+": parseToken",RT+": DictRT"])
p("C60","Option lists of template arguments","The value of an option is that of the first template argument with its identity, else its default, whatever other options stand around it; a list of options is valid exactly when each identity is in the list of valid ones.","every list of options","all lengths and orders",["stator/orphan/template_config.hpp"])
p("C61","Intersection tests of shapes","The indicator functions of ball-ball, ball-point, point-ball, ball-half-space and half-space-ball are negative exactly when the first shape, moved by the given displacement, intersects the second. (The header does not compile at this commit; the formulas are modelled as written.)","every dimension, shape, displacement","all real positions and radii",["stator/geometry/indicator.hpp"])
p("C62","XML parse errors are reported where they are","The report of a parse error names the line and the position in the line of the error and marks the character in the quoted text. (Fails for an error at a newline, where no report is produced, and in the second line of a file that begins with an empty line.)","every file content and error position","all files",["stator/xml.hpp: Document::parseData"])
p("C63","Exceptions carry the whole message","what() of a caught exception is the place of the throw followed by everything that was streamed in at the throw, in order, also after copying. (Text streamed in after the catch overwrites the beginning.)","every sequence of streamed pieces","all sequences",["stator/exception.hpp"])
p("C64","LinBairstowSolve returns a quadratic factor","The search always ends with a polynomial or its exception; a returned polynomial divides the argument up to a remainder of second order in the tolerance (exactly, for tolerance 0 or for order at most 2). Started at a quadratic factor it returns it if it is coprime to the cofactor and throws otherwise. A zero leading coefficient makes it ignore the guess.","every polynomial, tolerance and guess","all polynomials and guesses",["stator/symbolic/polynomial.hpp: LinBairstowSolve"])
p("C65","Round trip with forced parentheses","Printing an expression with Force_parenthesis and parsing the text gives the same tree exactly if no dictionary is an operand, there is no absolute value and no constant is directly negated; whenever the text is accepted, it has the value of the expression.","every expression with finite constants and proper names","all trees",["stator/repr.hpp: Force_parenthesis","stator/symbolic/binary_ops.hpp: repr","stator/symbolic/unary_ops.hpp: repr",PA])
p("C66","LaTeX output","The LaTeX text of an expression is well-formed TeX mathematics (balanced groups and delimiters, one superscript per atom, known control sequences), without the markup it is the default text of the expression, and numbers with an exponent are written as a power of ten. (False in the code: logarithms, powers of powers, and a name after the plus-minus sign; the theorem says for exactly which expressions it holds.)","every expression with proper names, whatever texts of numbers printf makes","all trees",["stator/repr.hpp: repr","stator/symbolic/binary_ops.hpp: l_latex_repr, latex_repr, r_latex_repr, paren_wrap","stator/symbolic/unary_ops.hpp: l_latex_repr, r_latex_repr","stator/symbolic/array.hpp: repr","stator/symbolic/dict.hpp: repr","pysrc/stator/core.cpp: latex"])
p("C67","simplify does not change computed values","Simplifying an expression that collects no numeric factors leaves the value computed in double arithmetic unchanged bit for bit, whatever the rounding and the mathematical library; inserting numbers for all variables and simplifying computes the same bits as evaluating the expression as written. (Collecting factors, 3*(5*x) to 15*x, can change the last bits; both are within two roundings of the exact product.)","every expression, every numbers inserted, every binary format and rounding to nearest","all trees and all bit patterns",[RT+": SimplifyRT"])
p("C68","Bisection in double arithmetic","On an interval with representable ends between which the computed function changes its sign, bisection ends successfully within a number of iterations logarithmic in the interval, and with precision 0 it returns a zero of the computed function or one of two adjacent numbers between which the computed sign changes, for every function, continuous or not. In IEEE arithmetic the same holds, whatever the function returns (NaN, infinities, negative zeros), if the ends are at most half the largest number; if the sum of the ends overflows, bisection reports success with the root infinity.","every function, interval, binary format; NaN, infinities and signed zeros included","all functions and intervals; the midpoint of large or adjacent numbers is a rare case",["stator/symbolic/numeric.hpp: bisection"])
p("C69","Rounding errors of polynomial evaluation","Evaluating a polynomial of order n with double coefficients differs from its value by at most ((1+u)^(2n)-1) times the sum of |a_i||x|^i (plus an underflow term); outside the bound the computed sign is right; integer polynomials are computed exactly as long as that sum is at most 2^53.","every order, coefficients, point, binary format","all coefficients and points",[PO+": sub(Polynomial, x == number)"])
p("C70","Redundant parentheses do not matter","Putting any subexpressions of a printed scalar expression in (further) parentheses gives a text that parses to the same tree; parentheses around an operand remove the ambiguities of the default output.","every scalar expression and every set of subexpressions put in parentheses, any number of times","all trees, all placements of parentheses",[PA+": parseToken, parseExpression"])
p("C71","Compile-time expressions as runtime expressions and as text","Expr(f) of a compile-time expression has the values of f; converting can be exchanged with differentiating and with inserting; fractions with numerator and denominator up to 2^53 become the nearest double; the text of f is accepted by the parser and what it reads has the values of f. (Expr(pi()) is not the double nearest to pi; the text of pow(C<-2>(), x) is read as -(2^x).)","every compile-time expression and every assignment","all trees and all values",[RT+": Expr constructors","stator/symbolic/constants.hpp: repr","stator/symbolic/binary_ops.hpp: repr","stator/symbolic/unary_ops.hpp: repr"])
p("C72","The text of a polynomial","What repr(polynomial) writes inside P(...) is accepted by the parser and read as an expression with the values of the polynomial, so two polynomials with the same text are equal. (The whole text P(...) is never accepted.)","every order and coefficients","all coefficient vectors: zero, negative and leading zero coefficients in every position",[PO+": repr"])
p("C73","Precision estimate of subtraction","subtraction_precision returns the maximum exactly if nothing can cancel; a result k guarantees that at least 1-2^(1-k) of the larger operand is left, which bounds the amplification of relative errors for k at least 2. (Larger is not always better: with 1 everything can cancel, while with 0 a third can be left.)","every pair of numbers","all pairs; the worst cases are next to powers of two",["stator/symbolic/precision.hpp: subtraction_precision, addition_precision"])
p("C74","Fast numeric substitution","The evaluation visitor behind fast_sub succeeds exactly on arithmetic expressions of the one variable, independent of the initial content of its memory, and gives the value of the expression, with the same bits as inserting the number and simplifying. (Where an operation gives NaN they can differ: 0*log(-1).)","every expression, variable, number, arithmetic","all trees and all numbers",[RT+": FastSubRT"])
p("C75","Printed numbers read back","With the default configuration (17 digits) every finite double is read back from its text exactly, so different doubles have different texts and the round trip of an expression (C02, C65) never fails because of a number; the text is within half a unit of its last digit. A literal with at most 15 significant digits that is not subnormal survives reading and printing with Rounding_digits<2>. (With Rounding_digits<1> two doubles can have the same text.)","every finite double, every literal of at most 15 digits, any rule for ties","2^64 doubles and infinitely many literals",["stator/repr.hpp: repr(Float), Rounding_digits",PA+": parseToken"])
p("C76","Reading is stable","Whatever the text, the expression it is read as has distinct valid keys and names and no constant directly under a negation; if it can be printed with Force_parenthesis (that is, unless a dictionary is an operand), the printed text is read as the same expression.","every text the parser accepts","all texts",[PA+": ExprTokenizer",RT+": repr"])
p("C77","Arrays: fixed rank, text, element-wise functions, conversion","For an array of fixed rank a[i1]...[iD] is the element with these coordinates, whatever the memory of the accessor held; a write is seen by later reads of the same coordinates and of no others. The text of a dynamic array lists its elements in order and is the text of the expression made from it; derivative and simplify apply to each element and keep the size; conversion to an expression takes exactly the elements in use. (For fixed storage unused elements are printed and passed to the function, which is undefined for unset expressions; the shape is not printed.)","all ranks, sizes, elements and element functions","unbounded ranks and sizes, uninitialised memory",["stator/symbolic/array.hpp: ArrayAccessor, repr, derivative, simplify",RT+": Expr(Array)"])
p("C78","Expressions are values","Expressions share nodes through counted pointers, but no program can tell: after any history of declaring, copying, assigning, combining, taking apart and dropping Expr variables, every variable stands for the tree it would hold with copies everywhere; an expression changes only by assignment to its variable; no node is used after it was destroyed; every node in memory is reachable from a variable, and all memory is freed when the variables are gone; == between any two variables (without NaN) compares the trees. Arrays and dictionaries may be filled while nothing else points to them. (If an array is changed while it is shared, the others change too; put into itself it is never freed.)","all histories of commands, any number of variables and nodes, any addresses returned by new, including reused ones","unbounded histories and sharing patterns, allocator choices",[RT+": Expr, RTBase","stator/symbolic/array_rt.hpp, dict_rt.hpp, unary_ops_rt.hpp, binary_ops_rt.hpp, constants_rt.hpp, variable_rt.hpp"])
p("C79","Expansion into polynomials keeps the value","expand / try_expand of an expression in one variable - numbers, compile-time constants, the variable, polynomials in it, sums, differences, products, natural powers and quotients by a double or a constant other than zero - always has exactly one result: a number, a polynomial in the variable or a power of it (which a second expand turns into a polynomial). It has the value of the expression at every point, and its coefficients are those of the expression multiplied out. (Divided by an int, a polynomial whose coefficients are integers, such as the variable itself, is truncated: expand(x/2) is 0. The product of polynomials in different variables is computed as if both were in the first: expand(x*y) is x^2.)","all expressions of this kind, of any size, degree and nesting, all coefficients, all points","expression types are unbounded; overload resolution picks among many rules at every node",["stator/symbolic/simplify.hpp: expand, try_expand, simplify","stator/symbolic/polynomial.hpp: Polynomial","stator/symbolic/binary_ops.hpp: PowerOpSub"])
p("C80","Editing an XML document through several handles","Whatever nodes, attributes and values are added or written through whatever Node objects, every other Node object still refers to the same node, with its name, its old attributes and children, and its value unless that was written; what findNode, ++, -- and getAttribute found before they find again (only the index in the text of a path may appear later). -- undoes ++, getParent leads to the node that was searched and after as many steps as the node is deep to the document, then throws; any tree written node by node is exactly what is in the document afterwards. (Members that write, and getName, are undefined on an invalid Node where those that read throw; a loop from firstNode with ++ visits only the children named like the first; a loop that adds a child of the name it iterates over never ends.)","every document, every sequence of edits through any handles, every tree","all edit histories and all documents",["stator/xml.hpp: Node::add_node, add_attribute, operator=, operator+=, operator--, getParent, firstNode, Document::getNode, Document::add_node"])
p("C81","Quadratic solver in floating point","solve_real_roots of a quadratic with double coefficients, away from underflow and overflow: if constant and leading coefficient have opposite signs it returns one value on each side of 0 in ascending order, each within a relative error of 7 unit roundoffs of a root, whatever the linear coefficient (no cancellation); if they have the same sign the values returned - two, one or none, in ascending order - are exactly the real roots of a polynomial whose linear coefficient is changed by at most 6 and whose constant by at most 3 unit roundoffs, so the number of values is right unless the discriminant is that close to 0. Without constant, or without leading coefficient, the values are the roots with one rounding.","all coefficients, all binary formats with at least 6 bits","all floating-point inputs",["stator/symbolic/polynomial.hpp: solve_real_roots (orders 1 and 2)","stator/symbolic/simplify.hpp: quotient by a constant polynomial"])
p("C82","Expressions in several threads","Several threads, each with Expr variables of its own, may build, copy, take apart and drop expressions that share nodes with those of other threads, without locks: however their steps are interleaved, nothing is used after it was freed or freed twice, every thread ends with exactly the values it would have computed alone, while a thread does not run no node it can reach is moved, freed or changed by the others, every thread finishes after a bounded number of steps, and when all are finished the counts are exact again and nothing is leaked. (Relied on: the counts of std::shared_ptr are atomic.)","any number of threads, all programs that do not change a node in place, all schedules, all addresses the allocator may return","all interleavings",["stator/symbolic/runtime.hpp: Expr (shared_ptr), RTBase","stator/symbolic/unary_ops_rt.hpp, binary_ops_rt.hpp: factories"])
p("C83","Dictionaries with expressions as keys","After any history of d[k] = v, insert and reads, d finds for k the value last assigned to an expression that is the same tree as k, wherever either was built; at throws exactly if there is none; iteration visits one entry per key; size() counts the distinct keys; two dictionaries compare equal exactly if they find equal values for the same keys, whatever their histories and internal layout. insert leaves an existing entry as it is. Reading d[k] for a missing key leaves an entry without a value behind. (Keys that are themselves dictionaries with two entries, or NaN, can be entered several times and not be found.)","all histories, all keys without NaN and without dictionaries of two or more entries, all hash functions of numbers and strings, all growth policies of the table","unbounded histories; hash collisions and rehashing happen at unforeseeable points",["stator/symbolic/dict.hpp: DictBase","stator/symbolic/runtime.hpp: std::hash<Expr>, operator=="])
p("C84","A passing test program means that all checks passed","A program built on the unit-test harness exits with code 0 exactly if every registered test ran to its end and every check passed (fewer than 2^64 errors); an exception makes its test the last one run and the exit code nonzero. check_close of two finite numbers passes exactly if both relative differences are within the tolerance, or the first number is 0 and the second is within the tolerance; NaN and infinities never pass. (The order of arguments matters when one is 0; for integers the differences are truncated and 0 is undefined.)","all sequences of tests and checks, all numbers and tolerances","the harness is what decides about tests; all outcomes of all tests",["stator/unit_test.hpp: UnitTests"])
p("C85","Every node is treated as what it is","Every operation on an expression reaches the code for the class of the node, with the contents of the node, and a binary rule is chosen by the classes of both operands; as<T>() gives the node if it is a T and throws otherwise. (A ConstantRT of another type than double put into an Expr is misread.)","all classes of nodes, all contents, all visitors","undefined behaviour of a wrong cast need not show in a test",["stator/symbolic/runtime.hpp: RTBase::visit, VisitorHelper, DoubleDispatch1, DoubleDispatch2, Expr::as"])
p("C86","Higher derivatives","Calling derivative n times, with or without simplify in between, gives an expression whose value (after inserting numbers for the variables) is the n-th derivative of the function given by the first expression, at every point near which the expressions in between are defined and smooth - for every order if the denominators, the arguments of logarithms and absolute values and the bases of powers are positive there. It agrees with the Taylor coefficients of ad: the k-th derivative is the k-th coefficient times k factorial.","all expressions, orders, choices where to simplify, and points","all trees and orders",["stator/symbolic/runtime.hpp: derivative, simplify","stator/symbolic/ad.hpp: ad"])
p("C87","Accuracy of computed numbers","Reading a text, inserting floating-point numbers for its variables and simplifying gives a number whose distance from the true value (decimal literals taken exactly, true values of the variables) is at most a bound computed along the expression from the errors of the inserted numbers, the unit roundoff and the accuracy of the mathematical library; in sums, differences and products without underflow the error is at most (1+u)^k-1 times the sum of the magnitudes; and where all intermediate values are representable - for double: integers up to 2^53 - the number is exact","every text and arithmetic expression, every rounding to nearest, every values and errors of the variables for which the bound exists","rounding errors depend on every digit of every operand; tests compare a few numbers with a tolerance and cannot bound the error for all of them",["stator/symbolic/parser.hpp: ExprTokenizer","stator/symbolic/runtime.hpp: sub, simplify","stator/symbolic/binary_ops.hpp: apply"])
p("C88","Polynomials in rounded arithmetic","Sums, differences, products, derivatives and deflations of polynomials with floating-point coefficients never fail and are close to the exact results: each coefficient of a sum, difference or derivative is the exact one rounded once; a coefficient of a product of K terms differs by at most ((1+u)^K-1) times the sum of the magnitudes of its terms, plus underflow; products with integer coefficients below 2^53 are exact; and (x - root) times a deflated polynomial agrees with the polynomial in every coefficient but one up to about two roundings, whatever order the two recurrences were run in, the exception being governed by the value of the polynomial at the given root","every order, every representable (for products and deflation: every) coefficients, every root, every rounding to nearest, every choice the precision comparison can make","the error bounds hold for every bit pattern and every degree; tests compare a few results against a tolerance",["stator/symbolic/simplify.hpp: operator+/-/* on Polynomial","stator/symbolic/polynomial.hpp: derivative, deflate_polynomial"])
p("C89","Results stay small","An expression read from a text has at most as many nodes as the text has characters; its printed text is at most as long as its names and numbers plus 8 characters per node; substituting g for x adds exactly size(g)-1 nodes per occurrence; a derivative has at most (3h+7) times the nodes, h the number of levels (so at most 3n^2+7n for a text of n characters), and the n-th derivative grows polynomially for every n; simplify never enlarges a scalar expression without units. (With arrays inside functions simplify can enlarge an expression exponentially.)","every text, every expression including arrays and dictionaries, every order of differentiation","a bound on sizes is a statement about all expressions; tests use small ones",["stator/symbolic/parser.hpp: ExprTokenizer","stator/symbolic/runtime.hpp: derivative, sub, simplify, repr","stator/symbolic/binary_ops.hpp: derivative, repr"])
p("C90","Newton and Halley in floating point stop, stay in bounds and find the root of monotone functions","In rounded arithmetic newton_raphson and halleys_method return a representable number inside the bounds and report success only where the computed function is zero, at one of two adjacent numbers with a change of sign, or after a step shorter than the precision. On a finite bracket they stop, whatever the function is: a larger iteration limit than twice the representable numbers of the bracket plus four never changes the answer. On a bracket with a change of sign, for a computed function that never turns back and has a first derivative of the right sign, they succeed, except that they may give up at a number whose product with the precision underflows to zero (which does happen: see C90_zero_trap). Where the computed function has no change of sign at all, a failing call never leaves x at a number with a larger value than it started from.","every computed function, start, bounds, precision, iteration limit and binary format with gradual underflow","arbitrary functions, and any number of iterations",["stator/symbolic/numeric.hpp: process_iterative_step, newton_raphson_step, halley_step, bisection_step, newton_raphson, halleys_method"])
p("C91","IEEE arithmetic: overflow, infinities, NaN and signed zeros","In full IEEE arithmetic, if an expression as written can be computed node by node without a NaN, a division by zero or a negative power of zero - infinities and overflow included -, then simplifying it (unless products with numbers are regrouped), or inserting numbers for its variables and simplifying, gives the same value up to the sign of a zero. If the values of all parts with their error bounds lie in the range of the type, reading a text, inserting numbers and simplifying gives a finite number within the error bound of C87. (Not so otherwise: 0*x becomes 0 though it is NaN at infinity; 1/(0+x) becomes 1/x, which has the other sign at -0; 2^600*(2^600*x) is simplified to infinity*x.)","every expression or text, every floating-point type with rounding to nearest, every value of the variables including infinities and both zeros, every mathematical library that sees the sign of zero as C's Annex F does","special values at every node of every expression",["stator/symbolic/runtime.hpp: SimplifyRT","stator/symbolic/binary_ops.hpp: apply, left_identity, right_identity, left_zero, right_zero","stator/symbolic/parser.hpp: ExprTokenizer"])
p("C92","Intervals for variables","sub(f, x = interval) of a compile-time expression contains the value of f for every number of the interval (for powers with integer exponents); for sums, differences and products of numbers and x it is always an interval; without rounding it is exactly the range if x occurs once, and a smaller interval gives a smaller result; numbers can be inserted for other variables first; different intervals of doubles have different texts. (After an interval has been inserted nothing can be inserted for another variable: such a sub does not compile. The result can be wider than the range: x*x-2*x+1 on [0,2] gives [-3,5]. A fractional exponent is truncated: pow(x, C<1,2>()) or pow(x, 0.5) of any interval is [1,1].)","all compile-time expressions the operators build, all intervals, all numbers in them, every interval library with the inclusion property","uncountably many points of every interval",["stator/symbolic/interval.hpp: interval, repr","stator/symbolic/sub.hpp: sub","stator/symbolic/constants.hpp: IsConstant","stator/symbolic/binary_ops.hpp: sub, pow, operators"])
p("C93","Newton-Raphson and Halley on IEEE doubles","In full IEEE arithmetic, whatever the function returns (NaN and infinities included, as long as it is not zero at NaN), from a start inside the bounds, newton_raphson and halleys_method report success only at a number inside the bounds where the computed function is zero, at one of two adjacent numbers with a change of sign, or after a step shorter than the precision (or at an infinity where the function is zero). With finite bounds at most half the largest number and a function that returns numbers between them, newton_raphson computes what it would with exponents without a bound (C90), so it succeeds on monotone functions with a change of sign; the same holds for halleys_method if three times the square of the largest value or derivative does not overflow. (If a step lands where the function is NaN, the method does not notice: it goes on to the iteration limit - for newton_raphson of log from 3 with the default limit 2^64-1 iterations - and leaves NaN in x.)","every function on the type double, every start, bounds, precision, iteration limit; every sign bit of NaN","special values at every step of every function",["stator/symbolic/numeric.hpp: process_iterative_step, newton_raphson_step, halley_step, bisection_step, newton_raphson, halleys_method"])
p("C94","Texts of vectors and matrices","repr of a square Eigen matrix lists its rows, repr of a column its elements; repr of every other nonempty matrix (row vectors included) reads elements outside of the matrix. Nonempty matrices, StackVectors, and StackVectors of pairs or tuples have the same text only if they are equal (different elements having different texts without blanks, for matrices also without braces).","all shapes, elements and texts of elements","all shapes; reading out of bounds need not show in a test",["stator/symbolic/runtime.hpp: repr(Eigen)","stator/orphan/stack_vector.hpp: operator<<, tuple_print"])
p("C95","Quadratics on IEEE doubles","solve_real_roots of a polynomial of order 2 with double coefficients, the linear one at most 2^510 and the constant at most 2^1020 times the leading one: no operation overflows, all results are numbers, and they are those of C81 - if constant and leading coefficient have opposite signs, both roots with a relative error of at most 7*2^-53. If the leading coefficient is zero, the root of the linear polynomial, rounded, or none. A NaN among the coefficients shows in the result. (Outside of these bounds it goes wrong: for x^2+Px+Q with |P| > 2^512 two numbers are returned even if there is no real root; with Q <= -2^1022 the roots are lost, an infinity and a zero are returned, as for a polynomial where dividing the linear coefficient by the leading one overflows.)","all coefficients, including NaN, infinities and subnormal numbers","overflow depends on the magnitude of every intermediate result",["stator/symbolic/polynomial.hpp: solve_real_roots","stator/symbolic/simplify.hpp: quotient of polynomials"])
p("C96","Polynomial evaluation on IEEE doubles","sub(f, x == value) with double coefficients and argument: if the polynomial of the absolute values, at max(1, |x|), is far enough from the largest number, nothing overflows and the value has the error bound of C69 (for double: order up to 2^40, coefficients up to C >= 1, |x| up to B >= 1, (n+1) C B^n <= 2^1022). With finite coefficients and argument the result is never NaN, with a NaN among them it is NaN. At an infinite argument the result is the infinity with the sign of the last coefficient that is not zero, times that of x if the template order is odd; or the first coefficient, if all others are zero. A bisection of such a polynomial, with precision 0, ends at a number next to a root, or one with a value within the evaluation error. (Overflow of a step is final: c x^2 + c x - c at 1/2, for the largest double c, is +inf although the value is negative. eval_derivatives has no case for infinite arguments: all derivatives up to the order are NaN there.)","all coefficients and arguments, including NaN, infinities and subnormal numbers; all orders","overflow depends on the magnitude of every intermediate result",["stator/symbolic/polynomial.hpp: sub, eval_derivatives","stator/symbolic/numeric.hpp: bisection"])
p("C97","Derivatives of polynomials at a point, in double arithmetic","eval_derivatives<D> with double coefficients and argument: the value and the first derivative differ from those of the polynomial by at most ((1+u)^(2n)-1) times the same derivative of the polynomial of the absolute values, u = 2^-53, plus what underflow can do; the higher ones, up to the 22nd, have one more rounding. If that polynomial is far enough from the largest number (order up to 2^40, coefficients up to C >= 1, |x| up to B >= 1, (n+1)^(D+1) C B^n <= 2^1022) nothing overflows and all results are numbers. newton_raphson and halleys_method of such a polynomial, between bounds where nothing overflows: a success is at a number between the bounds where the polynomial is zero within the evaluation error, or next to a root (or one of the two neighbours is a zero within the evaluation error), or the last step was shorter than the precision - impossible for precision 0.","all coefficients, orders, arguments, bounds, iteration limits","rounding errors of nested loops accumulate with the order; no set of polynomials is enough",["stator/symbolic/polynomial.hpp: eval_derivatives","stator/symbolic/numeric.hpp: newton_raphson, halleys_method"])

p("C98","Expansion of sums in several variables","expand / try_expand of an expression in any number of variables in which the factors of every product have at most one variable between them (or one factor is a number), as do powers, and nothing is divided by an int, never changes its value, at any values of the variables, and brings in no new variables. Sums, differences and negations, nested in any way, of expressions with one variable each always have exactly one result. Written without parentheses, t1 + t2 + ... + tn is collected: the result is a sum of polynomials in pairwise different variables. (With parentheses it need not be: two reordering rules fit (x+y)+(x+y) equally well, so none is used and four terms remain.)","all expressions of this kind, of any size, depth and number of variables, all coefficients, all values of the variables","expression types are unbounded; the reordering rules call each other recursively",["stator/symbolic/simplify.hpp: expand, try_expand, simplify_BinaryOp (choice 6 and 7)","stator/symbolic/polynomial.hpp: Polynomial operators"])
p("C99","Substitution and derivatives with polynomials","For compile-time expressions made of variables, polynomials, constants, ints and doubles with +, -, *, /, unary minus and whole powers: sub(e, x = a) has the value e has when x has the value of a, and depends on no other variables than those of a and those of e without x, provided no divisor is an int; when a is a double, divisors may be ints, too, and if x is the only variable the result is a number, unless a divisor becomes zero. derivative(e, x) is the derivative wherever no divisor is zero; unless a divisor is a constant C<..>, derivatives of every order exist and are right. So expanding an expression in x, taking the derivative and putting in a double gives, in every case, the slope of the expression there.","all expressions of this kind, of any size and number of variables, all coefficients and exponents, all values, every order of derivative","the trees are unbounded, and the operators rewrite them while they are built",["stator/symbolic/sub.hpp: sub","stator/symbolic/variable.hpp, binary_ops.hpp, unary_ops.hpp: derivative, sub","stator/symbolic/polynomial.hpp: sub, derivative"])

p("C100","simplify, N and expand","For every compile-time expression made of variables, polynomials, constants, ints and doubles with +, -, *, /, unary minus and whole powers, the template recursion of simplify, N and expand comes to an end, at a depth given by a bound computed from the expression. The expression they return has the value of the one they get, for all values of the variables, and depends on no other variables, provided that no divisor is written with ints or variables, and that the polynomials in the two factors of a product, or the base of a power, are all in the same variable (for expand, the variables count as polynomials). simplify and N put no variable into a polynomial. In an expression without divisions, N and expand replace every constant C<..> by a double. All three compile for every expression without divisions whose powers are of variables, and what they return is an expression the operators build, which can be simplified again.","every expression of the types listed, every configuration","the recursion depends on the nesting of the whole expression; tests simplify a few literals",["stator/symbolic/simplify.hpp: simplify, N, expand, try_simplify, try_N, try_expand","stator/symbolic/binary_ops.hpp","stator/symbolic/polynomial.hpp"])

p("C101","Taylor series with polynomials","For a compile-time expression f made of variables, polynomials, constants, ints and doubles with +, -, *, /, unary minus and whole powers, whose only variable is x, in which no divisor is a constant C<..> and none vanishes at the double a: taylor_series<n>(f, a, x) exists and has the value of sum_{k<=n} f^(k)(a)/k! (x-a)^k for every value of x; expand(taylor_series<n>(f, a, x)) is a polynomial, a number, or a power of x with that value; and if the values of f are those of a polynomial of order at most n, so are those of the series.","every such expression, every centre, every order, every value of x","the order and the expression are arbitrary; the tests of taylor_series are commented out",["stator/symbolic/taylor.hpp: taylor_series, TaylorSeriesWorker","stator/symbolic/simplify.hpp: expand, try_simplify","stator/symbolic/constants.hpp: InvFactorial"])

p("C102","Error of the Taylor series","If f is smooth for all values of x between the centre a and the actual value y, taylor_series<n>(f, a, x) differs there from f by f^(n+1)(xi)/(n+1)! (y-a)^(n+1) for some xi between a and y; with |f^(n+1)| <= M between them the error is at most M |y-a|^(n+1)/(n+1)!. This holds for expressions of sin, cos, exp, log, abs and powers (C37) and for expressions with polynomials (C101).","every expression, centre, order and value of x","the order, the expression and the point are arbitrary",["stator/symbolic/taylor.hpp: taylor_series, TaylorSeriesWorker"])
p("C103","The printed text keeps the value","An expression of constants that can be read back, variables, functions, unary minus and + - * / ^ in which no divisor, base, exponent or argument of a function is a negative constant and no base is a power prints as a text that is accepted, and what is read from it has the same value for every assignment of the variables (the same number, or no value in both), although the tree may be another: (-2)*x is read as -(2*x). Each of the conditions is needed: for every negative constant k, what is read from the printed text of (x^k)*y, (x/k)*y, exp(k)*y, k^x, and from that of (x^y)^z, has another value somewhere. Where nothing that binds as strongly follows, a negative divisor, exponent or argument does no harm. This holds for doubles printed with 17 digits; if moreover no second factor of a product is a negative constant, the value computed with rounding is the same as well, and without that it may not be.","every such expression, of any size, and every assignment of the variables","expressions are unbounded; negative constants appear as soon as something is simplified",["stator/symbolic/ast/binary_ops.hpp: repr","stator/symbolic/ast/unary_ops.hpp: repr","stator/symbolic/runtime.hpp: repr, ConstantRT","stator/symbolic/parser.hpp: sym::Expr(string), parseExpression, parseToken","stator/repr.hpp: repr(double)"])
p("C104","Automatic differentiation in any arithmetic","For an expression of numbers, one variable, + - * / ^ exp log sin cos (and only for such), and whatever the arithmetic (rounded, with infinities and NaN), ad<N>(f, x = a) returns the first N+1 entries of one series that does not depend on N: asking for more derivatives changes none of those already there. Its first entry is the number that evaluating f at x = a with the same operations (fast_sub) gives. No access is out of bounds. In floating-point arithmetic, for sums, differences and products, if no product underflows, the k-th entry differs from f^(k)(a)/k! by at most ((1+u)^m - 1) times what that coefficient would be with all minus signs removed, where m counts the roundings in a row (N+1 for a product, one for a sum); with integers up to 2^53 double arithmetic gives f^(k)(a)/k! exactly.","every such expression, every number, every order N, every arithmetic (for the error bound: every binary format)","expressions, orders and numbers are unbounded, and rounding differs at every number",["stator/symbolic/ad.hpp: sym::ad, sym::detail::ad_pow, sym::detail::ADRT_visitor","stator/symbolic/runtime.hpp: detail::FastSubRT"])
with open('/verif/properties.jsonl','w') as f:
    for q in P: f.write(json.dumps(q)+"\n")
print(len(P))
