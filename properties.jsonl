{"id": "C01", "title": "Addition keeps the value", "statement": "If a and b have a value under an assignment of reals to the symbols (positive symbols get non-negative reals), then a + b has a value under it, namely the sum of both. The same holds for a sum of any number of operands built in one go, for a - b and for -a.", "quantifier": "all expressions a, b, all operand lists, all assignments under which the operands are defined", "why_tests_cant": "A test fixes a handful of expressions and numeric points. The claim is about every expression tree and every real assignment, and the rewriting rules interact, so no finite sample covers it.", "anchors": ["src/sum.cpp:Sum::create", "src/sumsimpl.cpp:simplifySum", "src/var.cpp:Var::operator+=", "src/var.cpp:Var::operator-="]}
{"id": "C02", "title": "Multiplication keeps the value", "statement": "If a and b have a value under an assignment, then a*b has a value under it, namely the product of both. The same holds for products of any number of operands.", "quantifier": "all expressions, all operand lists, all assignments under which the operands are defined", "why_tests_cant": "A test fixes a handful of expressions and numeric points. The claim is about every expression tree and every real assignment, and the rewriting rules interact, so no finite sample covers it.", "anchors": ["src/product.cpp:Product::create", "src/productsimpl.cpp:simplifyProduct", "src/var.cpp:Var::operator*="]}
{"id": "C03", "title": "Division keeps the value", "statement": "If a and b have values x and y under an assignment and y is not zero, a/b has the value x/y under it. If b is the number zero, a/b is UNDEFINED.", "quantifier": "all expressions a, b, all assignments", "why_tests_cant": "A test fixes a handful of expressions and numeric points. The claim is about every expression tree and every real assignment, and the rewriting rules interact, so no finite sample covers it.", "anchors": ["src/var.cpp:Var::operator/=", "src/power.cpp:Power::oneOver", "src/powersimpl.cpp:simplifyPower"]}
{"id": "C04", "title": "Powers and square roots keep the value", "statement": "If b and e have the values x and y under an assignment and the real power x^y exists (x > 0; or x = 0 and y > 0; or x < 0 and y an integer), then pow(b, e) has the value x^y under it; sqrt(b) has the value of the real root.", "quantifier": "all expressions b, e, all assignments for which the real power exists", "why_tests_cant": "A test fixes a handful of expressions and numeric points. The claim is about every expression tree and every real assignment, and the rewriting rules interact, so no finite sample covers it.", "anchors": ["src/functions.cpp:pow", "src/functions.cpp:sqrt", "src/power.cpp:Power::create", "src/powersimpl.cpp:simplifyPower", "src/numpowersimpl.cpp:NumPowerSimpl::compute"]}
{"id": "C05", "title": "Logarithm keeps the value", "statement": "If a has a positive value x under an assignment, log(a) has the value ln(x) under it.", "quantifier": "all expressions a, all assignments under which a is positive", "why_tests_cant": "A test fixes a handful of expressions and numeric points. The claim is about every expression tree and every real assignment, and the rewriting rules interact, so no finite sample covers it.", "anchors": ["src/functions.cpp:log", "src/logarithm.cpp:Logarithm::create"]}
{"id": "C06", "title": "Trigonometric functions keep the value", "statement": "If a has a value x under an assignment and the function exists at x, then sin(a), cos(a), tan(a), asin(a), acos(a), atan(a) have the value of the real function at x (principal branch for the inverse functions).", "quantifier": "all expressions a, all assignments for which the function exists", "why_tests_cant": "A test fixes a handful of expressions and numeric points. The claim is about every expression tree and every real assignment, and the rewriting rules interact, so no finite sample covers it.", "anchors": ["src/trigonometric.cpp:Trigonometric::create", "src/numtrigosimpl.cpp:NumTrigoSimpl::compute"]}
{"id": "C07", "title": "atan2 is the angle of the point", "statement": "For numbers y and x that are not both zero, atan2(y, x) is an angle whose sine and cosine are y/r and x/r with r = sqrt(x^2 + y^2).", "quantifier": "all pairs of numbers, not both zero", "why_tests_cant": "Which of several branches is taken depends on signs and on whether the quotient is in a table; a few tabulated angles do not show what happens for all other quotients.", "anchors": ["src/functions.cpp:atan2", "src/trigonometric.cpp:Trigonometric::createAtan2", "src/numtrigosimpl.cpp:NumTrigoSimpl"]}
{"id": "C08", "title": "expand keeps the value", "statement": "If a has a value under an assignment, expand(a) has the same value under it.", "quantifier": "all expressions, all assignments under which the expression is defined", "why_tests_cant": "A test fixes a handful of expressions and numeric points. The claim is about every expression tree and every real assignment, and the rewriting rules interact, so no finite sample covers it.", "anchors": ["src/functions.cpp:expand", "src/sum.cpp:Sum::expand", "src/product.cpp:Product::expand", "src/power.cpp:Power::expand", "src/baseptrlistfct.cpp:expandAsProduct"]}
{"id": "C09", "title": "normal and simplify keep the value", "statement": "If a has a value under an assignment, normal(a) and simplify(a) have the same value under it, up to the points where a cancelled common divisor vanishes.", "quantifier": "all expressions, all assignments under which the expression is defined", "why_tests_cant": "A test fixes a handful of expressions and numeric points. The claim is about every expression tree and every real assignment, and the rewriting rules interact, so no finite sample covers it.", "anchors": ["src/functions.cpp:normal", "src/functions.cpp:simplify", "src/base.cpp:Base::normal", "src/fraction.cpp:Fraction", "src/poly.cpp:divide", "src/gcd.cpp:gcd"]}
{"id": "C10", "title": "subst is evaluation at the substituted value", "statement": "If t has the value v under an assignment s, and a has the value y under s changed to give symbol x the value v, then subst(a, x, t) has the value y under s.", "quantifier": "all expressions a, t, all symbols x, all assignments", "why_tests_cant": "A test fixes a handful of expressions and numeric points. The claim is about every expression tree and every real assignment, and the rewriting rules interact, so no finite sample covers it.", "anchors": ["src/functions.cpp:subst", "src/base.cpp:Base::subst", "src/sum.cpp:Sum::subst", "src/product.cpp:Product::subst", "src/power.cpp:Power::subst"]}
{"id": "C11", "title": "subst removes the symbol", "statement": "If t does not contain the symbol x, the result of subst(a, x, t) does not contain x.", "quantifier": "all expressions a, t, all symbols x", "why_tests_cant": "The claim ranges over all trees and over everything the automatic simplification does while rebuilding them.", "anchors": ["src/functions.cpp:subst", "src/functions.cpp:has"]}
{"id": "C12", "title": "diff is the derivative", "statement": "If diff(a, x) has a value d under an assignment and a is defined in a neighbourhood of the point in direction x, then d is the derivative of the real function of x that a denotes.", "quantifier": "all expressions a, all symbols x, all assignments", "why_tests_cant": "Tests compare a few derivatives with hand-written results; the claim is analytic, for every tree and every point.", "anchors": ["src/functions.cpp:diff", "src/sum.cpp:Sum::diffWrtSymbol", "src/product.cpp:Product::diffWrtSymbol", "src/power.cpp:Power::diffWrtSymbol", "src/logarithm.cpp:Logarithm::diffWrtSymbol", "src/trigonometric.cpp:Trigonometric::diffWrtSymbol"]}
{"id": "C13", "title": "diff by an absent symbol is zero", "statement": "If a does not contain the symbol x, is not UNDEFINED and diff(a, x) returns a defined result, that result is the number zero.", "quantifier": "all expressions a, all symbols x not occurring in a", "why_tests_cant": "Needs induction over every tree shape; each constructor re-simplifies the partial results.", "anchors": ["src/functions.cpp:diff", "src/base.cpp:Base::diff"]}
{"id": "C14", "title": "No symbols appear from nowhere", "statement": "Every symbol in the result of +, -, *, /, pow, log, the trigonometric functions, expand, subst, diff, normal and simplify occurs in one of the arguments. Temporary symbols used inside never leak.", "quantifier": "all expressions and all operations", "why_tests_cant": "Internal rewriting introduces temporary symbols and replaces them back; a leak would depend on nesting depth and on the shape of the argument.", "anchors": ["src/productsimpl.cpp:contractTrigFctPowers", "src/symbolmap.cpp:SymbolMap", "src/base.cpp:Base::normal", "src/functions.cpp:collectSymbols"]}
{"id": "C15", "title": "Undefined is contagious", "statement": "An arithmetic operation or function call with an UNDEFINED operand gives UNDEFINED.", "quantifier": "all expressions as the other operands, in every operand position", "why_tests_cant": "There are shortcuts (factor zero, exponent zero, base one) that must not swallow an undefined operand for any other operand.", "anchors": ["src/sum.cpp:Sum::create", "src/product.cpp:Product::create", "src/power.cpp:Power::create", "src/logarithm.cpp:Logarithm::create", "src/trigonometric.cpp:Trigonometric::create", "src/baseptrlistfct.cpp:hasUndefinedElements"]}
{"id": "C16", "title": "Shape of sums, products and powers", "statement": "A SUM has at least two operands, none of them a SUM, the number zero or UNDEFINED. A PRODUCT has at least two operands, none of them a PRODUCT, the number zero or one, or UNDEFINED. A POWER has no exponent zero or one, and no base zero or one.", "quantifier": "all expressions that can be built through the interface", "why_tests_cant": "It is an invariant over all histories of operations; tests look at the results of particular ones.", "anchors": ["src/functions.cpp:operands", "src/sum.cpp:Sum::create", "src/product.cpp:Product::create", "src/power.cpp:Power::create"]}
{"id": "C17", "title": "Sign queries are sound", "statement": "If isPositive(a) is true, the value of a is not negative under any assignment that respects the positive symbols; if isNegative(a) is true, it is not positive. Both are never true together unless the value is zero.", "quantifier": "all expressions, all assignments", "why_tests_cant": "A sign claim is about all real assignments.", "anchors": ["src/functions.cpp:isPositive", "src/functions.cpp:isNegative", "src/sum.cpp:Sum::sign", "src/product.cpp:Product::sign", "src/power.cpp:Power::isPositive", "src/logarithm.cpp:Logarithm::isPositive"]}
{"id": "C18", "title": "isPositive means greater than zero", "statement": "If isPositive(a) is true, the value of a is strictly greater than zero wherever a is defined.", "quantifier": "all expressions, all assignments with positive symbols mapped to positive reals", "why_tests_cant": "A single missed zero of an even power falsifies it; tests do not look for points.", "anchors": ["src/functions.cpp:isPositive", "src/power.cpp:Power::isPositive"]}
{"id": "C19", "title": "Rational powers of rationals are exact", "statement": "pow(b, e) for rational b > 0 and e has exactly the value b^e: the pre-factor, base and exponent extracted by prime factorisation multiply out to the same number.", "quantifier": "all rationals b > 0 and e, all settings of the prime resolution limit", "why_tests_cant": "Prime multiplicities can be arbitrary. The collection of equal multiplicities fails only for special patterns.", "anchors": ["src/numpowersimpl.cpp:NumPowerSimpl::compute", "src/primefac.cpp:PrimeFac::collectToNewExp", "src/primefac.cpp:PrimeFac::extract"]}
{"id": "C20", "title": "Prime factorisation is correct", "statement": "The factors found for a positive integer are primes in ascending order whose product is that integer.", "quantifier": "all positive integers", "why_tests_cant": "Trial division with a floating point limit fixed at the start is a claim about all integers.", "anchors": ["src/simpleprimepolicy.h:SimplePrimePolicy::computeAndStore", "src/primefac.cpp:PrimeFac"]}
{"id": "C21", "title": "Rational arithmetic is exact and normalised", "statement": "+, -, *, / and integer powers of integers and fractions of any size give the exact rational number; a/0 and 0 to a negative power are reported, never computed.", "quantifier": "all integers and rationals of any size", "why_tests_cant": "Sizes are unbounded (big integers).", "anchors": ["src/number.cpp:Number::operator+=", "src/number.cpp:Number::operator*=", "src/number.cpp:Number::operator/=", "src/number.cpp:Number::toThe", "src/var.cpp:Var::Var"]}
{"id": "C22", "title": "Exact roots are exact", "statement": "If Number power of a rational base and exponent returns a rational, it is the exact power, however inaccurate the floating point guess of the root was.", "quantifier": "all rational bases and exponents, all results of the floating point root", "why_tests_cant": "Floating point guesses depend on the library; the claim must hold for any guess.", "anchors": ["src/number.cpp:Number::toThe", "src/number.cpp:Number::tryGetBase"]}
{"id": "C23", "title": "Linear systems are solved", "statement": "If solve(A, b, x, dim) returns without UNDEFINED entries, A x = b. If A is invertible it does return, with the unique solution. If A is singular it throws std::invalid_argument.", "quantifier": "all dimensions, all coefficient matrices and right hand sides over a field", "why_tests_cant": "Pivot choice and row swaps depend on the entries, for any dimension.", "anchors": ["include/tsym/solve.h:solve", "src/solve.cpp:solve", "src/directsolve.cpp"]}
{"id": "C24", "title": "Determinant is the determinant", "statement": "determinant(A, dim) is the determinant of A whenever it returns a defined value; it is defined for each invertible A.", "quantifier": "all dimensions and matrices over a field, both pivot rules", "why_tests_cant": "Needs the sign of the row permutation and elimination invariants for any dimension.", "anchors": ["include/tsym/solve.h:determinant", "src/solve.cpp:determinant", "src/directsolve.cpp:eliminateGauss"]}
{"id": "C25", "title": "Inversion gives the inverse", "statement": "After invert(A, dim) returns, A holds the inverse of the original matrix; for a singular matrix it throws and does not write.", "quantifier": "all dimensions and matrices over a field", "why_tests_cant": "As for solve, for any dimension and any pivoting.", "anchors": ["include/tsym/solve.h:invert", "src/solve.cpp:invert"]}
{"id": "C26", "title": "Singular matrices are always reported", "statement": "For a singular matrix solve, invert and determinant throw std::invalid_argument (README).", "quantifier": "all singular matrices of all dimensions, both pivot rules", "why_tests_cant": "Singularity shows up in different columns; each place has its own code path.", "anchors": ["README.md", "src/directsolve.cpp:firstNonZeroPivot", "src/directsolve.cpp:leastComplexityPivot", "src/solve.cpp:determinant"]}
{"id": "C27", "title": "Skip fields select the sub-problem", "statement": "With a skip field, solve, determinant and invert work on the rows and columns whose entry is false and neither read nor write any other entry of matrix or vectors.", "quantifier": "all dimensions, skip fields, matrices and vectors", "why_tests_cant": "Index translation must be right for all masks.", "anchors": ["include/tsym/solve.h"]}
{"id": "C28", "title": "Equality is an equivalence that respects values", "statement": "On expressions without UNDEFINED and without floating point numbers, == is reflexive, symmetric and transitive, and equal expressions have equal values under all assignments. UNDEFINED is not equal to anything, itself included.", "quantifier": "all expressions, all assignments", "why_tests_cant": "Equivalence relations quantify over all pairs and triples.", "anchors": ["src/var.cpp:operator==", "src/base.cpp:Base::isEqual", "src/number.cpp:Number::equal"]}
{"id": "C29", "title": "Equal keys have equal hashes", "statement": "If a == b then std::hash gives the same value for both (needed for the documented use as keys of unordered maps).", "quantifier": "all pairs of expressions, whatever the hash combination function", "why_tests_cant": "A counterexample needs two different representations that compare equal; random tests will not find it.", "anchors": ["src/var.cpp:std::hash<tsym::Var>::operator()", "src/base.cpp:Base::hash", "src/number.cpp:Number::hash", "src/baseptr.cpp"]}
{"id": "C30", "title": "The operand order is a strict order", "statement": "The order that sorts operands never puts two operands before each other both ways, two different operands are always ordered one way, and the order is transitive, so that there is only one way to order given operands.", "quantifier": "all expressions", "why_tests_cant": "A missed case in a ten-way type dispatch shows only for particular pairs.", "anchors": ["src/order.cpp:doPermute"]}
{"id": "C31", "title": "Addition and multiplication commute", "statement": "a + b == b + a and a*b == b*a.", "quantifier": "all pairs of expressions", "why_tests_cant": "Depends on the order being total for all pairs.", "anchors": ["src/sum.cpp:Sum::create", "src/product.cpp:Product::create", "src/order.cpp:doPermute"]}
{"id": "C32", "title": "has, collectSymbols and operands agree", "statement": "collectSymbols(a) contains each symbol that occurs in a exactly once and nothing else; has(a, x) is true exactly for those symbols.", "quantifier": "all expressions and symbols", "why_tests_cant": "Claims about all trees.", "anchors": ["src/functions.cpp:collectSymbols", "src/functions.cpp:has", "src/functions.cpp:operands", "src/base.cpp:Base::has"]}
{"id": "C33", "title": "The parser accepts exactly the documented language and computes its value", "statement": "parse(s) returns a value only if all of s matches the expression grammar, and then the value is the one of the parse tree: sums and products are left associative, '^' binds tighter and is right associative, a minus sign applies to the whole factor. No stale partial results get into it.", "quantifier": "all strings", "why_tests_cant": "Backtracking with side effects on a stack goes wrong only on particular inputs.", "anchors": ["src/parser.cpp", "src/functions.cpp:parse"]}
{"id": "C34", "title": "The parser never underflows its stack", "statement": "No input makes the parser take an operand from an empty stack.", "quantifier": "all strings", "why_tests_cant": "Memory safety for all inputs.", "anchors": ["src/parser.cpp"]}
{"id": "C35", "title": "Symbol names round-trip", "statement": "Constructing a Var from a legal symbol name (letter, then letters or digits, optional subscript) gives a symbol, and name() of it is that name with the canonical subscript braces; different names give different symbols and different printed texts.", "quantifier": "all names permitted by the documentation", "why_tests_cant": "All strings; literals with special meaning share prefixes with legal names.", "anchors": ["src/var.cpp:Var::Var", "src/parser.cpp", "src/name.cpp", "src/namefct.cpp:concat", "src/namefct.cpp:unicode"]}
{"id": "C36", "title": "Printed text denotes the printed expression", "statement": "Reading the ASCII text that is printed for an expression with the usual precedence rules gives an expression with the same value under all assignments.", "quantifier": "all expressions, all assignments", "why_tests_cant": "Bracket placement and fraction layout depend on nesting of arbitrary depth.", "anchors": ["src/printer.cpp", "src/plaintextprintengine.cpp", "src/functions.cpp:print"]}
{"id": "C37", "title": "Caches are invisible", "statement": "Whatever was computed before, and whether or not the caches were cleared in between, each cached operation gives the result it gives without a cache.", "quantifier": "all histories of calls, with all settings", "why_tests_cant": "A history property: a stale or wrongly keyed entry shows only after particular earlier calls.", "anchors": ["src/cache.h:RegisteredCache", "src/cache.cpp:clearRegisteredCaches", "src/sumsimpl.cpp", "src/productsimpl.cpp", "src/poly.cpp", "src/gcd.cpp"]}
{"id": "C38", "title": "Live temporary symbols are different", "statement": "A new temporary symbol differs from all temporary symbols that are still in use.", "quantifier": "all histories of creations and destructions", "why_tests_cant": "A history property; the identifier is a counter that also goes down.", "anchors": ["src/symbol.cpp:Symbol::createTmpSymbol", "src/symbol.cpp:Symbol::~Symbol"]}
{"id": "C39", "title": "One object per symbol name", "statement": "Creating a symbol twice with the same name and the same sign gives the same symbol; the positive and the plain symbol with one name are different.", "quantifier": "all histories of symbol creations", "why_tests_cant": "A history property of the symbol pool.", "anchors": ["src/symbol.cpp:Symbol::create"]}
{"id": "C40", "title": "Conversion to int is exact or throws", "statement": "(int)a returns n only if a is an integer whose value is n, throws std::domain_error for non-integers and std::overflow_error if it does not fit.", "quantifier": "all expressions", "why_tests_cant": "Boundaries of the int range, and integers in disguise.", "anchors": ["src/var.cpp:Var::operator int"]}
{"id": "C41", "title": "Polynomial division identity", "statement": "Polynomial long division of u by v gives q and r with u = q*v + r under all assignments, and pseudo-division gives lcoeff(v)^k u = q v + r.", "quantifier": "all polynomials u, v and variables", "why_tests_cant": "The loop runs any number of times on any polynomials.", "anchors": ["src/poly.cpp:divide", "src/poly.cpp:pseudoDivide"]}
{"id": "C42", "title": "Integer gcd and content divide", "statement": "The gcd of two integers used during normalisation divides both and is the greatest; integer content of a polynomial divides all its integer coefficients.", "quantifier": "all integers and all polynomials with integer coefficients", "why_tests_cant": "All sizes.", "anchors": ["src/gcd.cpp", "src/poly.cpp:integerContent"]}
{"id": "C43", "title": "numerator over denominator is the expression", "statement": "If numerator(a) and denominator(a) have values n and d under an assignment where a is defined, a has the value n/d.", "quantifier": "all expressions, all assignments", "why_tests_cant": "A test fixes a handful of expressions and numeric points. The claim is about every expression tree and every real assignment, and the rewriting rules interact, so no finite sample covers it.", "anchors": ["src/functions.cpp:numerator", "src/functions.cpp:denominator", "src/fraction.cpp", "src/base.cpp:Base::normal"]}
{"id": "C44", "title": "simplify picks the less complex form", "statement": "simplify(a) is either the normalised or the expanded form, and its complexity is not greater than that of the other.", "quantifier": "all expressions", "why_tests_cant": "All trees.", "anchors": ["src/functions.cpp:simplify", "src/functions.cpp:complexity"]}
{"id": "C45", "title": "Numbers in disguise evaluate soundly", "statement": "Whenever an expression without symbols is evaluated to a number (conversion to double, comparisons, sign tests, integer tests), that number is the value of the expression, up to the rounding of the floating point operations.", "quantifier": "all constant expressions, with exact real arithmetic in place of the floating point unit", "why_tests_cant": "Arbitrary nesting of roots, logarithms and trigonometric functions.", "anchors": ["src/base.cpp:Base::numericEval", "src/sum.cpp:Sum::numericEval", "src/power.cpp:Power::numericEval", "src/var.cpp:Var::operator double"]}
{"id": "C46", "title": "One outcome for each call", "statement": "A library call has at most one outcome: whenever the recursion of the model is given enough depth for the call to end, any greater depth gives the same result with the same recorded conditions. The depth bound of the model is not part of the result.", "quantifier": "all library calls, all expressions, all floating point units, all depths", "why_tests_cant": "Unbounded recursion depth; a test sees one depth only.", "anchors": ["src/sumsimpl.cpp", "src/productsimpl.cpp", "src/powersimpl.cpp", "src/poly.cpp"]}
{"id": "C47", "title": "Polynomial arithmetic is total and exact", "statement": "An expression built from rational numbers, symbols and powers of symbols with natural exponents by +, - and * always has a result; no assertion fails, nothing is undefined, the recursion ends, and for all values of the symbols the result has the value of the expression. A sum obtained like this can be raised to any power from two on, and the power and its expansion have the right value.", "quantifier": "all expression trees of any size, all rational numbers, all named symbols, all assignments, all orders of the hash maps; floating point comparison of fractions exact", "why_tests_cant": "Termination and value over all trees and all assignments.", "anchors": ["src/sum.cpp:Sum::create", "src/sumsimpl.cpp", "src/product.cpp:Product::create", "src/productsimpl.cpp", "src/power.cpp:Power::create", "src/var.cpp"]}
{"id": "C48", "title": "expand decides polynomial identities", "statement": "expand of a polynomial expression always gives a result: a number, a power of a symbol, a product of these, or a sum of such monomials. Two polynomial expressions have equal expansions if and only if they have the same value for all values of the symbols; the expansion of their difference is zero in exactly these cases. Expanding again changes nothing.", "quantifier": "all pairs of polynomial expressions of any size, all assignments that respect the sign of positive symbols", "why_tests_cant": "Completeness of a normal form: all pairs of expressions.", "anchors": ["src/functions.cpp:expand", "src/sum.cpp:Sum::expand", "src/baseptrlistfct.cpp", "src/power.cpp:Power::expand", "src/order.cpp"]}
{"id": "C49", "title": "Addition of expanded polynomials is commutative and closed", "statement": "The sum of two expanded polynomials does not depend on their order and is the expansion of the sum, without calling expand again.", "quantifier": "all polynomial expressions", "why_tests_cant": "All pairs of expressions.", "anchors": ["src/sum.cpp:Sum::create", "src/sumsimpl.cpp:merge", "src/order.cpp:order::doPermute"]}
{"id": "C50", "title": "Degree and coefficients of expanded polynomials", "statement": "For an expanded polynomial and a symbol, degree is the degree of the polynomial in that symbol if this is less than the greatest int. coeff always returns, without conditions; each coefficient is an expanded polynomial that does not contain the symbol, coefficients above the degree are zero, and the polynomial is the sum of the coefficients times the powers of the symbol.", "quantifier": "all polynomial expressions of any size, all symbols, all exponents, all assignments", "why_tests_cant": "All polynomials, all degrees, all assignments.", "anchors": ["src/base.cpp:Base::coeff", "src/sum.cpp:Sum::degree", "src/sum.cpp:Sum::coeff", "src/product.cpp:Product::degree", "src/product.cpp:Product::coeff", "src/power.cpp:Power::degree", "src/power.cpp:Power::coeff"]}
{"id": "C51", "title": "Differentiation of expanded polynomials is total and exact", "statement": "The derivative of an expanded polynomial with respect to a symbol always exists, no condition is recorded on the way (the product rule of the library divides by the factors and takes their logarithm), the result is an expanded polynomial, and its value is the derivative for all values of the symbols, also where factors are zero. Derivatives with respect to two symbols can be exchanged.", "quantifier": "all polynomial expressions of any size, all symbols, all assignments", "why_tests_cant": "All polynomials and all assignments; termination.", "anchors": ["src/functions.cpp:diff", "src/sum.cpp:Sum::diffWrtSymbol", "src/product.cpp:Product::diffWrtSymbol", "src/power.cpp:Power::diffWrtSymbol"]}
{"id": "C52", "title": "Powers and quotients in polynomial arithmetic are total and exact", "statement": "An expression built from rational numbers and symbols with +, -, *, division by numbers other than zero, and powers of any subexpression with natural exponents below 2^29 always gives a result, with the right value for all values of the symbols and all subexpressions in canonical shape; expand gives a sum of monomials, and two such expressions have equal expansions if and only if they have the same value everywhere. The prime resolution limit must be less than 324 (for division: or the divisor has no fourth power of a prime in it).", "quantifier": "all expression trees of any size, all exponents below 2^29, all assignments", "why_tests_cant": "Unbounded trees, all numbers; with the default limit the claim is false for numbers like 324.", "anchors": ["src/powersimpl.cpp:simplifyPower", "src/powersimpl.cpp:simplifyProductBase", "src/numpowersimpl.cpp:NumPowerSimpl::compute", "src/primefac.cpp:PrimeFac::collectToNewExp"]}
{"id": "C53", "title": "Pseudo-division of expanded polynomials is total and exact", "statement": "For expanded polynomials u and v != 0 with degrees below 2^28 and any symbol x, pseudoDivide and pseudoRemainder always return, under no conditions on the symbols. With l the leading coefficient of v in x and e = max(deg u - deg v + 1, 0): l^e*u = q*v + r, or l^(e+1)*u = q*v if the remainder is zero; q and r are expanded polynomials, the degree of r in x is less than that of v, and r is zero if and only if v divides l^j*u for some j. The coefficients of v must not be divisible by fourth powers of primes, or the limit for primes is less than 324.", "quantifier": "all pairs of polynomials (any number of symbols and terms), all symbols x, all assignments", "why_tests_cant": "Termination and divisibility for polynomials of any size.", "anchors": ["src/poly.cpp:tsym::poly::pseudoDivide", "src/poly.cpp:pseudoDivideChecked", "src/poly.cpp:tsym::poly::pseudoRemainder"]}
{"id": "C54", "title": "Division of expanded polynomials is total and decides divisibility", "statement": "For expanded polynomials u and v != 0 in k symbols with degrees up to d, (d+2)^(k+1) < 2^31, poly::divide always returns a quotient q and a remainder r, both expanded polynomials, with u = q*v + r; r is zero if and only if v divides u in Q[x1,...,xk]. The coefficients of v must not be divisible by fourth powers of primes, or the limit for primes is less than 324.", "quantifier": "all pairs of polynomials, all assignments", "why_tests_cant": "Termination of a nested recursion over symbols and degrees, and divisibility, for polynomials of any size.", "anchors": ["src/poly.cpp:tsym::poly::divide", "src/poly.cpp:divideNonEmpty", "src/poly.cpp:divideEmptyList", "src/polyinfo.cpp:tsym::poly::listOfSymbols"]}
{"id": "C55", "title": "Greatest common divisors of polynomials in any number of symbols", "statement": "For expanded polynomials u and v, not both zero, in k symbols with degrees up to d, (2^k*d + 2)^3 < 2^30, and a limit for primes less than 324, poly::gcd (subresultant algorithm) always returns an expanded polynomial that is a greatest common divisor of u and v in Q[x1,...,xk]: it divides both, and every common divisor divides it; it is a number if and only if u and v are coprime. poly::content always returns the content with respect to a symbol. The greatest common divisor of 0 and 0 is Undefined.", "quantifier": "all pairs of polynomials, any number of symbols and terms, all symbols", "why_tests_cant": "Termination of a recursion over symbols with a loop inside, exactness of all divisions by the subresultant factors, and maximality of the result, for polynomials of any size. With the default limit the gcd of 324*a and a never ends.", "anchors": ["src/subresultantgcd.cpp:SubresultantGcd::gcd", "src/subresultantgcd.cpp:SubresultantGcd::gcdAlgo", "src/gcd.cpp:Gcd::compute", "src/gcd.cpp:Gcd::gcdViaAlgo", "src/gcd.cpp:Gcd::normalize", "src/poly.cpp:tsym::poly::gcd", "src/poly.cpp:tsym::poly::content"]}
{"id": "C56", "title": "Which expressions are taken for polynomials", "statement": "An expression whose powers have numeric exponents is accepted as input of the polynomial operations if and only if it is put together from symbols and rational numbers by sums, products and powers with exponents 1, ..., 2^31-1; the check never fails. Whatever is accepted has the values of a polynomial with rational coefficients. If one of the two arguments is not accepted, or both are zero, then division, pseudo-division, pseudo-remainder and gcd return Undefined.", "quantifier": "all expressions with numeric exponents (any depth and number of operands), all assignments", "why_tests_cant": "Characterises the accepted set exactly, over expression trees of any depth; a test can only show some accepted and some rejected trees.", "anchors": ["src/polyinfo.cpp:hasValidType", "src/polyinfo.cpp:isValidPower", "src/polyinfo.cpp:tsym::poly::isInputValid", "src/poly.cpp:tsym::poly::divide", "src/poly.cpp:tsym::poly::gcd"]}
{"id": "C57", "title": "Normal form, numerator and denominator of polynomials", "statement": "For every expanded polynomial with rational coefficients (degrees less than 2^31-1, denominators of the coefficients without fourth powers of primes, or the limit for primes less than 324) numerator() and denominator() always return: the denominator is a positive integer d, the numerator an expanded polynomial with integer coefficients, the quotient is the polynomial at all assignments, and no integer but 1 and -1 divides both. normal() returns the polynomial itself, and simplify() leaves it as it is.", "quantifier": "all polynomials in any number of symbols, of any size, all assignments", "why_tests_cant": "Termination of the loop of common denominators and cancellations, and lowest terms, for any number of monomials and any coefficients. With the default limit the normal form of a/324 is a/36.", "anchors": ["src/base.cpp:tsym::Base::normal", "src/sum.cpp:tsym::Sum::normal", "src/product.cpp:tsym::Product::normal", "src/fraction.cpp", "src/functions.cpp:tsym::numerator", "src/functions.cpp:tsym::denominator", "src/functions.cpp:tsym::simplify"]}
{"id": "C58", "title": "Arithmetic of rational functions", "statement": "For every expression tree of rational numbers, symbols, the operators + - * / and powers with integer exponents that has a value under some assignment, the calls of the library return a result, and at every assignment at which the tree has a value the result has this value.", "quantifier": "all trees of any size, all assignments", "why_tests_cant": "Unbounded trees; the failures need a product whose first two factors collapse in the expansion, hidden in a sum that is negated.", "anchors": ["src/var.cpp", "src/sum.cpp:tsym::Sum::create", "src/product.cpp:tsym::Product::create", "src/power.cpp:tsym::Power::create", "src/baseptrlistfct.cpp:tsym::expandAsProduct"]}
{"id": "C59", "title": "Sums and products of fractions do not depend on the order", "statement": "For all sums of fractions t, u, v (fractions are products and quotients of Laurent polynomials with rational coefficients; each has a value under some assignment; limit for primes less than 324) t + u and u + t return the same expression, (t + u) + v and t + (u + v) return the same expression, t + 0 returns t; for all fractions t*u and u*t return the same expression. The same means identical trees, not only equal values.", "quantifier": "all trees of operations of any size, in any number of symbols", "why_tests_cant": "Unbounded trees; the cached sums are merged, sorted and contracted in different orders, and each order must end in the same canonical list.", "anchors": ["src/sum.cpp:tsym::Sum::create", "src/sumsimpl.cpp", "src/productsimpl.cpp", "src/order.cpp", "src/product.cpp:tsym::Product::create"]}
{"id": "C60", "title": "The expansion decides identities of Laurent polynomials", "statement": "For every tree of sums, differences, products, natural powers and quotients by monomials, of rational numbers and symbols, that has a value under some assignment (limit for primes less than 324), expand() of the result always returns a sum of monomials with integer exponents, with the value of the tree wherever it has one. The expansions of two such trees are equal if and only if the trees have the same values wherever both have values, the expansion of their difference is zero if and only if they have, and expand() leaves an expansion as it is.", "quantifier": "all trees of any size in any number of symbols, all assignments", "why_tests_cant": "Equality of values at all assignments cannot be sampled; the direction from equal values to identical expansions needs uniqueness of the canonical form for any number of monomials.", "anchors": ["src/base.cpp:tsym::Base::expand", "src/sum.cpp:tsym::Sum::expand", "src/product.cpp:tsym::Product::expand", "src/power.cpp:tsym::Power::expand", "src/baseptrlistfct.cpp:tsym::expandAsProduct"]}
{"id": "C61", "title": "Quotients of polynomials in lowest terms", "statement": "For all expanded polynomials P and Q with rational coefficients, Q not zero (with k symbols and degrees up to d, (2^k*d+2)^3 < 2^30; limit for primes less than 324), numerator() and denominator() of P/Q always return, and give expanded polynomials N and W with N*Q = P*W that have no common divisor but units; W divides Q and N divides P. normal() always returns, and gives what operator/ gives for N and W; if Q divides P it gives the expanded polynomial P/Q.", "quantifier": "all polynomials of any shape in any number of symbols within the stated degrees", "why_tests_cant": "Lowest terms is a statement about all common divisors, and the functions must end on every pair of polynomials.", "anchors": ["src/fraction.cpp:tsym::cancel", "src/product.cpp:tsym::Product::normal", "src/powernormal.cpp", "src/base.cpp:tsym::Base::normal", "src/functions.cpp:tsym::numerator", "src/functions.cpp:tsym::denominator", "src/poly.cpp:tsym::poly::gcd", "src/poly.cpp:tsym::poly::divide"]}
{"id": "C62", "title": "Linear systems over expressions, with the library's own arithmetic", "statement": "Whenever solve, determinant or invert, run with the operators of the library on matrices of expressions, return a result, then under every assignment that gives all entries a value and satisfies the conditions recorded by the rules used (no pivot has the value zero, among others), the values of the result are the unique solution, the determinant, or the inverse of the matrix of the values; entries that are skipped keep their contents.", "quantifier": "all dimensions, matrices and right hand sides of expressions, skip fields, both pivot rules, all assignments", "why_tests_cant": "The values are real numbers under any assignment; pivot choice depends on the forms of the expressions.", "anchors": ["include/tsym/solve.h:solve", "include/tsym/solve.h:determinant", "include/tsym/solve.h:invert", "src/solve.cpp", "src/directsolve.cpp"]}
{"id": "C63", "title": "Linear systems with rational entries are solved exactly", "statement": "For rational matrices and right hand sides of any size (limit for primes less than 324), solve, determinant and invert, run with the operators of the library, always end. For an invertible matrix they give exactly the unique solution, the determinant and the inverse as rational numbers, and skipped entries keep their contents. For a singular matrix solve and invert throw std::invalid_argument; determinant gives zero, Undefined (default pivot rule) or the exception (first non-zero pivot).", "quantifier": "all dimensions, rational matrices and right hand sides, skip fields, both pivot rules", "why_tests_cant": "Any size and any entries; the functions must end and be exact in each of them.", "anchors": ["include/tsym/solve.h:solve", "include/tsym/solve.h:determinant", "include/tsym/solve.h:invert", "src/solve.cpp", "src/directsolve.cpp", "src/functions.cpp:tsym::simplify"]}
{"id": "C64", "title": "The primitive algorithm computes greatest common divisors", "statement": "For two expanded polynomials with rational coefficients that are not both zero (limit for primes less than 324, degrees bounded as in the theorem), PrimitiveGcd::compute always ends and gives an expanded polynomial that divides both and is divided by every common divisor; it is a number exactly if the polynomials are coprime. The content of a polynomial computed with it is a content. The result agrees with that of the default algorithm up to a rational factor other than zero. The factor is not always one.", "quantifier": "all expanded polynomials in any number of symbols within the degree bound", "why_tests_cant": "Any number of symbols, any coefficients; that the remainder loop ends and that the contents divide must hold for all of them.", "anchors": ["src/primitivegcd.cpp:tsym::PrimitiveGcd::gcdAlgo", "src/gcd.cpp:tsym::Gcd::compute", "src/poly.cpp:tsym::poly::content"]}
{"id": "C65", "title": "LU decomposition without pivots", "statement": "If no leading minor with fewer than dim rows is zero, LUDecomposition::factorize leaves in the matrix a lower triangular factor with ones on the diagonal and an upper triangular factor whose product is the matrix. For a matrix that holds such factors and any right hand side, computeSolution gives the unique solution and keeps the values of the factors, and throws std::invalid_argument if an entry on the diagonal is zero. Together: the unique solution if no leading minor is zero, otherwise the exception, also for regular matrices. This holds for entries of any field, for rational entries with the operators of the library (limit for primes less than 324; the calls always end), and for the values of expressions where the recorded conditions hold.", "quantifier": "all dimensions, matrices and right hand sides", "why_tests_cant": "Any size and any entries; that the factors multiply to the matrix is an invariant of the nested loops.", "anchors": ["src/ludecomp.h:factorize", "src/ludecomp.h:computeSolution"]}
{"id": "C66", "title": "Substitution in polynomial expressions is total and exact", "statement": "Let e and r be built from numbers and symbols by the four operators (division by numbers only) and natural powers. Then subst(e, x, r) always returns, records no condition, and has the value of e when x has the value of r, for all values of the symbols. Its expansion is the very expression that the expansion gives for the same operations done with r in the places of x. If x is the only symbol of e and r a number, the result is that number which is the exact value of the polynomial. (Limit for primes less than 324, exponents less than 2^29.)", "quantifier": "all expression trees, symbols and replacements", "why_tests_cant": "Any size of trees and any replacement; Sum::create, Product::create and Power::create are called with operands that have not been put in order for each other.", "anchors": ["src/base.cpp:subst", "src/sum.cpp:subst", "src/product.cpp:subst", "src/power.cpp:subst", "src/baseptrlistfct.cpp:subst", "src/functions.cpp:subst"]}
{"id": "C67", "title": "Square roots of rational numbers are exact and in lowest form", "statement": "sqrt of a rational number that is not negative always returns, records no condition, and its value is the real square root. If numerator and denominator are not greater than the limit for primes, the largest squares are taken out of both: for q = (a^2*b)/(c^2*d) with b and d squarefree the result is a/c times the root of b/d; otherwise the number stays below the root. sqrt(q^2) = |q|. For squarefree p, q: r*sqrt(q) and r*sqrt(q) + r'*sqrt(q) are the multiples of roots in lowest form with the right value and sign, opposite multiples cancel, sqrt(p)*sqrt(q) is the root of p*q in lowest form, sqrt(q)*sqrt(q) = q. Two multiples of roots are the same expression exactly if they are the same real number. A negative number to a rational power that is no integer is Undefined.", "quantifier": "all rational numbers and all limits for primes", "why_tests_cant": "Infinitely many numbers below the root, and the result depends on their prime factors; the tests have a few small integers.", "anchors": ["src/numpowersimpl.cpp:compute", "src/primefac.cpp:extract", "src/powersimpl.cpp:simplifyPower", "src/productsimpl.cpp:simplTwoConst", "src/sumsimpl.cpp:simplEqualNonNumericTerms", "src/functions.cpp:sqrt"]}
{"id": "C68", "title": "Expanded polynomials survive printing and parsing unchanged", "statement": "An expanded polynomial with rational coefficients, whose symbols have plain names and no sign, is always printed, no parentheses are missing, and the parser accepts the text and makes exactly the same expression of it. The same holds for the debug text. Two such polynomials have the same text if and only if they have the same value for all values of the symbols. (The limit for primes is less than 324, or no denominator of a coefficient is divisible by a fourth power.)", "quantifier": "all polynomials of any degree in any number of symbols, all names", "why_tests_cant": "The text, the parse and the calls that rebuild the expression depend on every coefficient, exponent, name and on the order of the summands; the printer tests compare a few texts and do not parse them.", "anchors": ["src/printer.cpp:toplevel", "src/printer.cpp:sum", "src/printer.cpp:product", "src/printer.cpp:power", "src/plaintextprintengine.cpp", "src/parser.cpp", "src/functions.cpp:parse"]}
{"id": "C69", "title": "Sign queries of polynomials", "statement": "For an expanded polynomial with rational coefficients isPositive and isNegative always answer. isPositive answers yes if and only if the polynomial is not zero, all coefficients are positive, and in each monomial each symbol is marked as positive or has an even exponent; isNegative answers yes if and only if this is so for the negated polynomial. The logarithm of such a polynomial with two or more monomials is Undefined if isNegative answers yes, and otherwise the logarithm of the unchanged expression.", "quantifier": "all polynomials of any degree in any number of symbols, with any symbols marked as positive", "why_tests_cant": "The answer depends on every coefficient, exponent and mark, and an early exit in a loop over the summands can lose one; tests look at a few sums.", "anchors": ["src/sum.cpp:sign", "src/sum.cpp:signOfNumericParts", "src/sum.cpp:signOfSymbolicParts", "src/product.cpp:sign", "src/power.cpp:isPositive", "src/logarithm.cpp:isInvalidArg", "src/functions.cpp:isPositive"]}
{"id": "C70", "title": "Functions of polynomials", "statement": "A trigonometric function or inverse of an expanded polynomial that is not a number is that function of the unchanged expression, unless all coefficients are negative; then the sign is taken out by the symmetry of the function. If all coefficients have the same sign, f(-r) and -f(r) are the same expression for sin, tan, asin and atan, and cos(-r) and cos(r) are. sin(asin(r)) and tan(atan(r)) are r; cos(acos(r)) is r unless all coefficients are negative. The squares of sin(r) and cos(r) add up to one. The logarithm of e^r is r, and e^log(r) is r for a polynomial of two or more monomials if isNegative does not answer yes.", "quantifier": "all polynomials of any degree in any number of symbols that are not numbers", "why_tests_cant": "The choice depends on the signs of all coefficients, and each identity runs through several simplifications (symmetry, expansion, squares of products, sums of squares); tests use single symbols.", "anchors": ["src/trigonometric.cpp:create", "src/trigonometric.cpp:doesSymmetryApply", "src/trigonometric.cpp:haveAllNegativePrefactors", "src/trigonometric.cpp:createBySymmetry", "src/trigonometric.cpp:createFromTrigo", "src/trigonometric.cpp:isOtherTheInverse", "src/sumsimpl.cpp:haveContractableSinCos", "src/logarithm.cpp:createFromPower", "src/powersimpl.cpp:simplifyConstantBase"]}
{"id": "C71", "title": "Sine and cosine of rational multiples of pi", "statement": "The sine and the cosine of x*pi always return, for every rational x. If x*pi is a multiple of 15 or of 22.5 degrees, the result is an expression without functions: the entry of an explicit table for the angle in the first quadrant, with the sign of the quadrant, after any number of turns in either direction; its value is the sine. For every other x the function stays, its argument made positive: sin(-y*pi) is -sin(y*pi), cos(-y*pi) is cos(y*pi). (The limit for primes is at least 6.)", "quantifier": "all rational numbers x", "why_tests_cant": "The argument is shifted by two loops to one turn, then to the first quadrant, and each entry of the table is built by simplifications of roots; the tests use some angles of the table and few turns.", "anchors": ["src/numtrigosimpl.cpp:simplify", "src/numtrigosimpl.cpp:getSineTable", "src/numtrigosimpl.cpp:adjustArgRange", "src/numtrigosimpl.cpp:getQuadrant", "src/numtrigosimpl.cpp:shiftToFirstQuadrant", "src/numtrigosimpl.cpp:getValue", "src/numtrigosimpl.cpp:sin", "src/numtrigosimpl.cpp:cos", "src/trigonometric.cpp:createNumerically"]}
{"id": "C72", "title": "Tangent of rational multiples of pi, arc functions of constants", "statement": "The tangent of x*pi returns for angles of an explicit table in the first quadrant the entry, whose value is the tangent, after any number of turns, and for the negative angles the negated entry; it is 0 at the multiples of pi, Undefined at the odd multiples of pi/2, and it stays (with a positive argument) for every x*pi that is no multiple of 15 or 22.5 degrees. asin(sin(x*pi)) and acos(cos(x*pi)) are, for every multiple x*pi of 15 or 22.5 degrees, the angle between -pi/2 and pi/2, respectively between 0 and pi, with the same sine or cosine. atan of the entries of the table is the angle. asin and acos of a rational number outside of [-1, 1] are Undefined; of the other rationals only 0, 1/2, 1 and their negatives have an angle, for every other r asin(r) and acos(r) stay, asin(-r) is -asin(r), acos(-r) is pi - acos(r); the same for atan and 0, 1, -1.", "quantifier": "all rational numbers x and r, all multiples of 15 and 22.5 degrees in any quadrant and turn", "why_tests_cant": "The table is searched by comparing numerical values, so a number that happens to agree with an entry would be given its angle; that no other rational number does is Niven's theorem. The tests use some angles.", "anchors": ["src/numtrigosimpl.cpp:tan", "src/numtrigosimpl.cpp:tanViaSinCos", "src/numtrigosimpl.cpp:getTanTable", "src/numtrigosimpl.cpp:computeAsinAcosAtan", "src/numtrigosimpl.cpp:isInverseArgOutOfRange", "src/numtrigosimpl.cpp:prepareAsinAcosAtan", "src/numtrigosimpl.cpp:asin", "src/numtrigosimpl.cpp:acos", "src/numtrigosimpl.cpp:acosFromAsinResult", "src/numtrigosimpl.cpp:atan", "src/numtrigosimpl.cpp:getKey", "src/trigonometric.cpp:createNumerically"]}
{"id": "C73", "title": "atan2 of rational numbers", "statement": "For a point (x, y) with rational coordinates in one of the eight directions at multiples of pi/4, atan2(y, x) is that multiple of pi in [0, 2*pi), written out exactly; its value is an angle of the point in polar coordinates. For every other point with x not zero the result is atan(y/x), with the sign in front. atan2(0, 0) is Undefined. Altogether the value of the result is an angle of the point if and only if x is not negative or the point is in one of the eight directions.", "quantifier": "all rational numbers x, y, not both zero; all settings in which powers of x are exact", "why_tests_cant": "The tests use some points in the eight directions; that the quadrant is lost for all the other points with a negative x is not seen by any of them.", "anchors": ["src/trigonometric.cpp:createAtan2", "src/trigonometric.cpp:createAtan2Numerically", "src/trigonometric.cpp:simplAtan2", "src/trigonometric.cpp:shiftAtanResultIntoRange", "src/trigonometric.cpp:atan2ArgEval", "src/numtrigosimpl.cpp:atan"]}
{"id": "C74", "title": "Rational powers of positive symbols form a canonical algebra", "statement": "Products, quotients and powers with any rational exponents of symbols that are declared positive always have a result, without conditions: one, or a product of powers with different bases. Two of them have the same result if and only if every symbol has the same exponent in both. Sums and products of such monomials with rational coefficients and Laurent monomials of other symbols (Puiseux polynomials) can be expanded: the expansion is a sum of monomials with the same value, it does not change if expanded again, and two expansions are equal if and only if the Puiseux polynomials have the same values wherever both have values.", "quantifier": "all expression trees of this kind, of any size, over any symbols, with any rational exponents; for sums: all trees with a value somewhere, coefficients' powers within the range of the integers", "why_tests_cant": "The tests have a few roots with small exponents; that the exponents of all products cancel and merge exactly, and that different ones are never confused, is a statement on infinitely many exponents and sizes.", "anchors": ["src/powersimpl.cpp:simplifyPowerBase", "src/powersimpl.cpp:simplifyProductBase", "src/powersimpl.cpp:doContractExpFirst", "src/productsimpl.cpp:simplTwoEqualBases", "src/power.cpp:expand", "src/product.cpp:expand", "src/sumsimpl.cpp:simpl"]}
{"id": "C75", "title": "Powers of powers of a symbol", "statement": "The power of a power of a symbol, nested to any depth, has a result without conditions, and the exponents of the result are known exactly: two exponents p and q are multiplied if and only if the base is known to be positive, or both are integers, or both are fractions with odd denominators, or p is odd and p*q is not 1 or -1, or p is even and p*q is even, or p and p*q are fractions. The product of two powers of a symbol adds the exponents unless the symbol is not known to be positive, both exponents are fractions and the sum is an integer; this addition never gives a value where the product has none, other than at zero.", "quantifier": "all symbols of either kind, all lists of rational exponents, all values of the symbol", "why_tests_cant": "The rules depend on the parity of numerators and denominators and on the whole stack of exponents below; a test looks at single combinations.", "anchors": ["src/powersimpl.cpp:simplifyPowerBase", "src/powersimpl.cpp:doContractExpFirst", "src/powersimpl.cpp:doContractExpSecond", "src/powersimpl.cpp:areTwoFractionExpWithOddDenom", "src/productsimpl.cpp:simplTwoEqualBases", "src/power.cpp:Power::isPositive"]}
{"id": "C76", "title": "Products of powers of sine, cosine and tangent", "statement": "The product of two powers of sine, cosine and tangent of a symbol with integer exponents is known exactly: with u and v the total exponents of sine and cosine, it is 1, sin^u, cos^v, tan^u (if u = -v) or cos^v*sin^u. It has the value of the product wherever sine and cosine are not zero, and two products with the same values have the same result. The only exceptions are tan^p*tan^(-p), which are undefined behaviour. For a power of the sine times a power of the cosine, and for two powers of sine or of cosine, the result is known for all rational exponents; sin^p*sin^(-p) and cos^p*cos^(-p) with a fraction p give the wrong results tan^p and tan^(-p).", "quantifier": "all symbols, all pairs of the functions, all integer exponents, all rational exponents for sine and cosine, all values of the symbol", "why_tests_cant": "The exponents are not bounded, and the wrong results need two fractional exponents with the sum zero; the tests use a few pairs of small exponents.", "anchors": ["src/productsimpl.cpp:contractTrigonometrics", "src/productsimpl.cpp:contractTrigFctPowers", "src/productsimpl.cpp:areContractableTrigFctPowers", "src/productsimpl.cpp:isContractableTrigFctPower", "src/productsimpl.cpp:trigFunctionPowerReplacement", "src/productsimpl.cpp:contract"]}
{"id": "C77", "title": "Differentiation of Puiseux polynomials is total and exact", "statement": "diff of an expanded Puiseux polynomial (sums of products of integer powers of symbols and rational powers of positive symbols, with rational coefficients) by a symbol always returns, without undefined behaviour; the result is an expanded Puiseux polynomial, and it is the derivative of the function that was written down wherever this is defined nearby and the symbol is not zero. It is the number zero if and only if the symbol does not occur. Derivatives by two symbols in either order are the same expression. The derivative of an expanded product is the expansion of the product rule, as an expression.", "quantifier": "all Puiseux polynomials, all symbols, all assignments", "why_tests_cant": "Exponents, numbers of symbols and of summands are not bounded; the equations between expressions hold only if every intermediate result is in its normal form.", "anchors": ["src/power.cpp:Power::diffWrtSymbol", "src/product.cpp:Product::diffWrtSymbol", "src/sum.cpp:Sum::diffWrtSymbol", "src/symbol.cpp:Symbol::diffWrtSymbol", "src/base.cpp:Base::diff"]}
{"id": "C78", "title": "A trigonometric function of a trigonometric function of a symbol", "statement": "For every symbol and every two of the functions sin, cos, tan, asin, acos, atan, calling one on the result of the other always returns the entry of a table of 36: the function of its own arc function is the symbol; sin(acos s) and cos(asin s) are (1-s^2)^(1/2), sin(atan s) is s*(1+s^2)^(-1/2), cos(atan s) is (1+s^2)^(-1/2), tan(asin s) is s*(1-s^2)^(-1/2), tan(acos s) is (1-s^2)^(1/2)/s; all others stay as they are. No condition is recorded but such as always hold. At all points where the composition of the real functions is defined, the entry has its value.", "quantifier": "all symbols, all pairs of functions, all assignments", "why_tests_cant": "The result is the normal form of a fraction, computed with replaced subexpressions, gcd and cancellation; it has to be the same for all names of symbols, as these decide the order of operands.", "anchors": ["src/trigonometric.cpp:createFromTrigo", "src/trigonometric.cpp:createFromTrigoNoInverse", "src/trigonometric.cpp:isOtherTheInverse", "src/base.cpp:Base::normal"]}
{"id": "C79", "title": "A trigonometric function of the angle of a point with two symbols", "statement": "For every two different symbols y and x, sin, cos and tan of atan2(y, x) always return y*(x^2+y^2)^(-1/2), x*(x^2+y^2)^(-1/2) and y/x, with the operands in the order of the symbols, and asin, acos and atan of it stay as they are. No condition is recorded but such as always hold. At all points other than the origin where the function of the angle is defined, the result has its value.", "quantifier": "all pairs of different symbols, all functions, all assignments", "why_tests_cant": "As for C78; the order of the operands depends on the names of both symbols.", "anchors": ["src/trigonometric.cpp:createFromTrigoNoInverse", "src/trigonometric.cpp:createAtan2", "src/trigonometric.cpp:atan2ArgEval"]}
{"id": "C80", "title": "Sums of multiples of the squares of sine and cosine", "statement": "For every expanded polynomial that is not a number and all rational numbers a and b, a*sin(r)^2 + b*cos(r)^2, in both orders, is the number a if a = b, otherwise the sum of the two terms with the cosine first (a term with factor zero is missing). p + (a*sin(r)^2 + b*cos(r)^2) is the number p+a if a = b, otherwise the sum with p as the first summand. (p + a*sin(r)^2) + b*cos(r)^2 is the same if a and b differ. If a = b it is a sum with the two numbers p and a as summands, which is not equal to p+a and is not zero if a = -p. So addition is not associative. Expanding adds the numbers. All results have the right values.", "quantifier": "all polynomials that are not numbers, all rational factors and numbers, all assignments", "why_tests_cant": "A test checks some arguments and factors, mostly with equal factors and no third summand; the sums of three in every order, with an equal factor, are where the result is not simplified.", "anchors": ["src/sumsimpl.cpp:haveContractableSinCos", "src/sumsimpl.cpp:mergeNonEmpty", "src/sumsimpl.cpp:simplTwoSummandsWithoutSum"]}
{"id": "C81", "title": "The texts of names in Unicode and in TeX", "statement": "A string is taken as a Greek letter if and only if it is one of 48 words (24 names, and the same with a capital letter). Its Unicode text is the letter of a table; its TeX text is the entry of a table with subscript and superscript, with braces if they have more than one character. All other names have the value with subscript and superscript as text. Different legal names have different TeX texts, and different Unicode texts if Greek letters have no subscript. (18 of the 48 TeX texts are not commands of LaTeX.)", "quantifier": "all strings, all names with any subscript and superscript, all pairs of legal names", "why_tests_cant": "That no other string is taken for a Greek letter, and that no two names collide, is about all strings.", "anchors": ["src/namefct.cpp:greekAlphabetIndex", "src/namefct.cpp:unicode", "src/namefct.cpp:tex", "src/namefct.cpp:getGreekTexLetter"]}
{"id": "C82", "title": "Derivatives of functions of a symbol", "statement": "The derivative of log, sin, cos, tan, asin, acos and atan of a symbol by this symbol is the expression of a table: 1/a, cos a, -sin a, 1 + tan(a)^2, (1 - a^2)^(-1/2), -(1 - a^2)^(-1/2), 1/(1 + a^2). The exponential function of a symbol is its own derivative. The derivative by any other symbol is zero. Inside the domain of the function the entry of the table has the value of the derivative of the real function, and but for the logarithm it has no value elsewhere. The logarithm has no value for negative numbers, its derivative has.", "quantifier": "all symbols, all seven functions, all real values of the symbol, all configurations of the library with a correct environment", "why_tests_cant": "That the derivative of the code is the derivative of the real function is a limit at every point; and the result must be the same for all names and signs of symbols.", "anchors": ["src/trigonometric.cpp:diffWrtSymbol", "src/trigonometric.cpp:innerDiff", "src/logarithm.cpp:diffWrtSymbol", "src/power.cpp:diffWrtSymbol"]}
{"id": "C83", "title": "Signs of composed expressions", "statement": "The sign queries answer for a composed expression from the answers for its parts, and nothing else. For a product the sign is the product of the signs of the factors, not known if one of them is not known. For a sum of a number and of expressions without a numerical value it is known if and only if all of them have this sign, where the number may be zero. A power with a rational exponent is positive if and only if its base is or the numerator of the exponent is even, and never negative. The arc tangent has the sign of its argument, the logarithm of a polynomial that of the polynomial minus one, and the other functions of arguments without numerical value have no known sign.", "quantifier": "all lists of factors and summands of any length, all expressions as parts, all rational exponents, all expanded polynomials as arguments of the logarithm, all configurations with a correct environment", "why_tests_cant": "The rules hold for any number of parts, nested to any depth, with parts of any kind.", "anchors": ["src/sum.cpp:sign", "src/sum.cpp:signOfNumericParts", "src/sum.cpp:signOfSymbolicParts", "src/product.cpp:sign", "src/power.cpp:isPositive", "src/logarithm.cpp:checkSign", "src/trigonometric.cpp:isPositive"]}
{"id": "C84", "title": "Rational powers of rational numbers and their products", "statement": "A positive rational number with an exponent between -1 and 1 from which no prime can be taken out stays a power, with a positive exponent unless the base would have the numerator one. The product of two such powers is: the power with the sum of the exponents for equal bases; the power of the product of the bases for equal exponents, of the quotient for opposite exponents; one root of the product of the integer powers for equal denominators of the exponents, if numerator and denominator are within the limit for primes; the product in the given order above the limit; the product with the smaller base first for different denominators. Above the limit multiplication therefore does not commute.", "quantifier": "all positive rational bases and rational exponents as stated, all limits for primes", "why_tests_cant": "Which branch is taken depends on the prime factors, on the fractions of the exponents and on the limit; the exact result is claimed for all of them.", "anchors": ["src/numpowersimpl.cpp:compute", "src/productsimpl.cpp:simplTwoConst", "src/productsimpl.cpp:simplTwoEqualBases", "src/productsimpl.cpp:simplTwoEqualExp", "src/productsimpl.cpp:simplTwoZeroSumExp", "src/productsimpl.cpp:simplTwoEqualExpDenom", "src/primefac.cpp:getEqualCountOf"]}
{"id": "C85", "title": "When powers of rational numbers are right", "statement": "The simplification of a power of a positive rational number with a rational exponent that is not zero always returns. Its value is the power exactly if the base is above the limit for primes, or there is no common exponent c, at least two, such that in numerator and denominator the smallest prime that stays below the root has the exponent c, c divides the exponents of all primes that stay, and one of them is not c. There are no such bases for exponents with the denominators 2, 3 and 4 and for limits below 324, and there are some for all other denominators, integers included: p^k*q^(k*m) with p < q.", "quantifier": "all positive rational bases, all rational exponents whose parts fit into an unsigned number, all limits for primes", "why_tests_cant": "The exact set of wrong inputs is infinite and depends on the factorisation; sampling finds neither all of it nor shows that everything else is right.", "anchors": ["src/numpowersimpl.cpp:compute", "src/numpowersimpl.cpp:cancel", "src/primefac.cpp:getEqualCountOf", "src/primefac.cpp:equalCountOrZero", "src/primefac.cpp:collectToNewExp"]}
{"id": "C86", "title": "The results of powers of rational numbers", "statement": "A positive rational number other than one, within the limit for primes, to a rational power that is no integer gives a positive number, a reduced root, or a number times a reduced root that share no prime crosswise; a root is reduced if its exponent is between 0 and 1, no prime can be taken out of it, and its primes have no common exponent in the sense of C85. If no common exponent is mistaken, the result has the value of the power, otherwise another one. Above the limit the power stays as it is, with a positive exponent unless the numerator would be one. Within the limit exactly the reduced roots stay as they are. A number other than zero and one times such a root stays a product, in both orders, if no prime can be cancelled between them.", "quantifier": "all positive rational bases other than one, all rational exponents that are no integers and whose parts fit into an unsigned number, all limits for primes, all numbers in front", "why_tests_cant": "The form of the result is a statement about the factorisation of every rational number and every exponent, with signs, fractions and the limit interacting.", "anchors": ["src/numpowersimpl.cpp:compute", "src/numpowersimpl.cpp:computeNegExp", "src/numpowersimpl.cpp:adjustExpSignAndBase", "src/powersimpl.cpp:simplifyNumericPower", "src/power.cpp:create", "src/productsimpl.cpp:simplNumAndNumPow"]}
{"id": "C87", "title": "Integer powers of rational numbers and powers that are not defined", "statement": "An integer power of a rational number other than zero, positive or negative, is a number. It is the right one if the exponent is zero or one, the number is above the limit for primes, or no common exponent is mistaken in the sense of C85, and otherwise it is not. A negative number to a power that is no integer is undefined. Zero to the power of zero is one, to a positive power zero and to a negative one undefined; all rational powers of one are one.", "quantifier": "all rational bases, all rational exponents (integers at most 4294967295/31 in size), all limits for primes below 2^31", "why_tests_cant": "Exactness for every base and exponent depends on the factorisation; the wrong results form an infinite set that sampling does not delimit.", "anchors": ["src/power.cpp:createNotUndefined", "src/powersimpl.cpp:doesInvolveComplexNumbers", "src/powersimpl.cpp:simplifyNumericPower", "src/numpowersimpl.cpp:shiftNegBase", "src/numpowersimpl.cpp:shiftPreFacSignBack", "src/numpowersimpl.cpp:adjustExpGreaterThanOne"]}
{"id": "C88", "title": "Powers of roots of rational numbers", "statement": "A rational power of a rational power of a positive rational number gives what the power with the product of the exponents gives. If that product is an integer, a reduced root, or one above the limit for primes, becomes the exact rational number; in particular the root of degree d to the power of d is the number below it. Otherwise a reduced root to a power is a number, a reduced root or their product with the right value, unless a common exponent is mistaken in the sense of C85; above the limit the exponents are multiplied.", "quantifier": "all positive rational numbers, all exponents with parts below 4294967295 (integers at most a 31st of that), all limits for primes below 2^31", "why_tests_cant": "The results depend on the factorisations and exponents of all primes in the number; tests cover only few numbers and degrees.", "anchors": ["src/power.cpp:createNotUndefined", "src/power.cpp:createNonTrivial", "src/powersimpl.cpp:simplifyPowerBase", "src/powersimpl.cpp:doContractExpFirst", "src/numpowersimpl.cpp:adjustExpGreaterThanOne"]}
{"id": "C89", "title": "Sums of multiples of square roots", "statement": "Sums of rational multiples of square roots of squarefree natural numbers, with denominators that have no prime in common with the number below the root, can be added, subtracted and multiplied with numbers; this always returns the right sum of that form. Two such sums are the same expression exactly if they have the same real value, so a difference is the number zero exactly if the two numbers are equal. With roots of fractions this fails.", "quantifier": "all such sums of any length with any numbers, all limits for primes", "why_tests_cant": "Sums of arbitrary length merge in an order depending on all numbers below the roots; that no two different sums have the same value needs the linear independence of square roots.", "anchors": ["src/sumsimpl.cpp:merge", "src/sumsimpl.cpp:mergeNonEmpty", "src/sumsimpl.cpp:simplTwoSummandsWithoutSum", "src/sumsimpl.cpp:haveEqualNonNumericTerms", "src/sumsimpl.cpp:simplEqualNonNumericTerms", "src/product.cpp:needsExpansion"]}
{"id": "C90", "title": "Products of sums of square roots", "statement": "The product of two different sums of integer multiples of square roots of squarefree natural numbers always returns, and it is the expanded sum of that form with the product of the values; one or both factors can be a single multiple of a root or a number. The order of the factors does not matter, and the product is zero exactly if a factor is. A sum times itself is a power instead. The products of the numbers below the roots must be within the limit for primes.", "quantifier": "all such sums of any length with any integers, all limits for primes that the products of the numbers below the roots do not exceed, all orders in which equal keys are sorted", "why_tests_cant": "The product runs through all pairs of summands, each with a gcd of the numbers below the roots, and merges the results; tests cover only short sums with small numbers.", "anchors": ["src/productsimpl.cpp:contractConst", "src/productsimpl.cpp:simplTwoEqualExp", "src/product.cpp:needsExpansion", "src/baseptrlistfct.cpp:expandAsProduct", "src/baseptrlistfct.cpp:defScalarAndSums", "src/numpowersimpl.cpp:simplify"]}
{"id": "C91", "title": "Expanding powers of sums of square roots", "statement": "Expanding a natural power of a sum of at least two integer multiples of square roots always returns, and the result is the sum of that form with the power of the value. It again has at least two summands, so the expansion never takes a product that is no sum for one. Two expanded powers are the same expression exactly if the values are the same, and the product of two expanded powers with different values is the expanded power with the sum of the exponents.", "quantifier": "all such sums of any length with any integers, all natural exponents from one on, all limits for primes that are large enough for the products of the numbers below the roots", "why_tests_cant": "The number of products grows with the exponent, and that no intermediate product collapses to a single summand needs an argument about all sums.", "anchors": ["src/power.cpp:expandSumBaseIntExp", "src/baseptrlistfct.cpp:expandAsProduct", "src/baseptrlistfct.cpp:expandProductOf", "src/baseptrlistfct.cpp:defScalarAndSums"]}
{"id": "C92", "title": "Computing with square roots decides equality", "statement": "Any computation with integers, square roots of natural numbers, sums, differences and products that are expanded, always returns, and the result has the exact value of the computation. Two computations give the same expression exactly if their values are the same. A result is an integer exactly if the value is that integer, and exactly if the value is not irrational.", "quantifier": "all such computations of any size, where all numbers below the roots divide a number whose square is within the limit for primes", "why_tests_cant": "That equal real numbers always become the same expression needs the linear independence of square roots and an induction over all computations; tests compare a few hand-picked cases.", "anchors": ["src/functions.cpp:sqrt", "src/product.cpp:needsExpansion", "src/productsimpl.cpp:simplTwoEqualBases", "src/power.cpp:expandSumBaseIntExp", "src/baseptrlistfct.cpp:expandAsProduct"]}
{"id": "C93", "title": "Computing with square roots decides the order", "statement": "The sign queries of the result of any computation as in C92 always answer, and the answer is the sign of the real number. The difference of two results is positive, negative or zero exactly if the first number is greater than, less than or equal to the second.", "quantifier": "all computations as in C92, of any size; numerical values are exact", "why_tests_cant": "Sums of square roots can be arbitrarily close to zero; no test covers all of them.", "anchors": ["src/sum.cpp:isPositive", "src/sum.cpp:isNegative", "src/product.cpp:sign", "src/power.cpp:isPositive"]}
{"id": "C94", "title": "Sums of square roots survive printing and parsing unchanged", "statement": "A sum of rational multiples of square roots of different square-free numbers is always printed, no parentheses are missing, and the parser makes exactly the same expression of the text. The same holds for the debug text. Two computations as in C92 end with the same text if and only if they have the same value. (The limit for primes is less than 324, or no denominator is divisible by a fourth power; otherwise a text can be read as another number.)", "quantifier": "all sums with any number of roots, all computations as in C92, of any size", "why_tests_cant": "The text and the calls that rebuild the expression depend on every coefficient, every root and the order of the summands; the printer tests compare a few texts and do not parse them.", "anchors": ["src/printer.cpp:sum", "src/printer.cpp:power", "src/printer.cpp:productWithoutFractions", "src/parser.cpp:parseAsciiOnly", "src/functions.cpp:parse"]}
{"id": "C95", "title": "Powers of computations with square roots are repeated products", "statement": "If the square of the value of a computation as in C92 is irrational, then pow with any natural exponent and expand always return, and the result is the same expression as the one from multiplying and expanding again and again; its value is the power of the value. The product of two such powers is the power with the sum of the exponents.", "quantifier": "all computations as in C92, of any size, and all natural exponents, also 0 and 1", "why_tests_cant": "The two ways of computing share few calls (the binomial expansion, the pairwise products), and the coefficients grow with the exponent; the tests expand a few small powers.", "anchors": ["src/power.cpp:create", "src/power.cpp:expandSumBaseIntExp", "src/baseptrlistfct.cpp:expandProductOf", "src/baseptrlistfct.cpp:expandAsProduct", "src/functions.cpp:pow", "src/functions.cpp:expand"]}
{"id": "C96", "title": "Sums of square roots are constants", "statement": "Substituting anything for a symbol in a sum of rational multiples of square roots always returns exactly the same sum, and the derivative with respect to any symbol is exactly zero. This holds for the results of all computations as in C92.", "quantifier": "all sums with any number of roots of square-free numbers of any size, all symbols and all expressions to be inserted", "why_tests_cant": "Substitution creates every number, power, product and the sum again, and the derivative of a root makes logarithms and inverses of the numbers; each of these calls could change the form.", "anchors": ["src/sum.cpp:subst", "src/product.cpp:subst", "src/power.cpp:subst", "src/sum.cpp:diffWrtSymbol", "src/product.cpp:diffWrtSymbol", "src/power.cpp:diffWrtSymbol"]}
