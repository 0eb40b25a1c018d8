# A Lean 4 model of tsym

The subject is the C++ library in /repo (tsym, pinned commit). The model is in
`lean/Verif`, one Lean module per group of C++ files. The code was read as text;
it was not built or run. Properties are listed in `properties.jsonl` (C01 – C96),
their state in `MANIFEST.json`; the theorems are in `lean/Verif/Props`.

## 1. Structure of the model

* `Number` is a rational or a "double". The type of doubles and the operations on
  it are a parameter `Flt D`: conversion from a rational, `+`, `*`, `pow`, `sin`,
  comparison, the tolerance test, and the recognition of short decimals.
  Theorems about values assume `LawfulFlt D`: the floating point unit computes
  exactly. Two instances show that the assumption can be met: ℝ, and `Hyb`, whose
  operations the kernel can evaluate on rationals. `ExactLt D` is the weaker
  assumption that fractions are compared exactly after conversion to doubles.
  Theorems without such an assumption hold for any behaviour of the floating
  point unit. An instance for Lean's IEEE `Float` was used to try the model on the
  inputs of the unit tests of the library; no theorem depends on it.
* `Expr` is the expression tree (Numeric, Symbol, Constant, Undefined, Sum,
  Product, Power, Function). An object is its tree: sharing and object identity
  are not in the model, except where they can be observed (the pool of symbols,
  C38/C39, and the caches, C37).
* The library is one big mutual recursion: `Sum::create` may call `normal`, which
  calls the polynomial gcd, which calls `Sum::create`. It is modelled by open
  recursion. Every C++ function is a Lean definition that gets a record `Eng` of
  the entry points it may call. `eng cfg n` ties the knot with depth `n`; the
  outcome `fuel` says that the depth was used up. All theorems hold for all `n`,
  and C46 says that the depth does not influence a result: once a call ends, every
  greater depth gives the same outcome.
* Outcomes are explicit (`Err`): a value, out of fuel, undefined behaviour, failed
  assertion, each kind of C++ exception, and endless recursion that is
  evident (`loop`). No default values stand in for them.
* `Cfg` holds what is not fixed by the C++ text: the option for the largest prime,
  the order in which `std::unordered_map` yields its entries, the result of
  `std::sort` on lists with a comparison that is not a strict weak order, and the
  numbers of fresh temporary symbols. `Cfg.Ok` says what the standard guarantees
  (permutations, fresh numbers); `Cfg.std` is an instance.
* The meaning of expressions is a small separate specification, `den`, from
  expressions and assignments to `Option ℝ` (`Spec.lean`, `Den.lean`).
* Known wrong rewriting steps stay in the model. Where the code does such a step
  the model records a *side condition* (`Cond`, ghost data that never influences
  the result): e.g. `log(b^e) -> e*log(b)` records "b > 0". The value theorems say
  that a result is right under all assignments that satisfy the recorded
  conditions. Section 4 lists where conditions are recorded. For polynomial
  expressions (C47, C48) it is shown that nothing is recorded and that a result
  exists.

### Modules

| Lean modules | C++ files |
|--------------|-----------|
| Number, PrimeFac, NumPowerSimpl, PrimeCollect | number.cpp, fraction.cpp, primefac.cpp, simpleprimepolicy.h, numpowersimpl.cpp |
| Expr, Query, Order | base.cpp, basefct.cpp, the classes, numericEval, has, isConst, complexity, order.cpp |
| Eng, Engine | the record of entry points and the fixpoint |
| SumSimpl, ProdSimpl, PowSimpl | sum.cpp, sumsimpl.cpp, product.cpp, productsimpl.cpp, power.cpp, powersimpl.cpp, logarithm.cpp, baseptrlistfct.cpp |
| NumTrigo, Trig | numtrigosimpl.cpp, trigonometric.cpp |
| Expand | expand, subst, coeff, degree, diff |
| Poly, PseudoDiv | poly.cpp, polyinfo.cpp, gcd.cpp, subresultantgcd.cpp |
| PrimGcd | primitivegcd.cpp (class PrimitiveGcd, used only in the unit tests), with gcd.cpp for that class |
| Normal | normal of all classes, powernormal.cpp, symbolmap.cpp |
| Api | var.cpp, functions.cpp |
| Solve, SolveApi | directsolve.cpp, solve.cpp, solve.h, for any type of scalars |
| SolveEng | the same files, with the operators of the library for expressions |
| LuDecomp | ludecomp.h (class LUDecomposition, used only in the unit tests), for any scalars and for expressions |
| Cache, SymPool | cache.h, symbol.cpp |
| Parser, Grammar, NameFct | parser.cpp, name.cpp, namefct.cpp |
| Printer, TreeDen | printer.cpp, plaintextprintengine.cpp |

Proofs: `Wp` (what every result satisfies), `Sound*` (values), `Syms*` (symbols),
`Mono` (depth), `Tot` (a result exists and nothing is recorded), `Diverge` (no
result exists), `Poly*`, `NumPow`, `Pow*` (the polynomial fragment), `Z*` (the same with
integer exponents and sums as bases), `Q*` (rational exponents), `Quot*` (quotients), `Gcd*` (the
Euclidean algorithm for polynomials), `Sqrt*` and `Surd*` (square roots of numbers and sums of
their multiples), `PolyPrint`, `SurdPrint` (texts of polynomials and of sums of roots), `*Thm`.

## 2. Results, property by property

| Id | How proved | Result |
|----|------------|--------|
| C01–C06, C08–C10, C43 | one induction on the depth (`sound_eng`): for each function, if the entry points it calls keep values, then it keeps values | partial: right where the recorded conditions hold; each is false without them, with witnesses |
| C07 | as above | partial; false (witness) |
| C11, C14 | the same induction for the set of symbols (`syms_eng`), together with an invariant for the temporary symbols of the tangent contraction: they never get into an exponent (`Tame`) | proved |
| C12 | induction on the tree, Mathlib's derivatives; the specification `Smooth` says where the function is differentiable; at zeros of bases by continuity; atan2 as the arc tangent of the quotient up to a constant (`Props/DiffAtanTwo`) | partial; false (witnesses) |
| C13 | induction on the tree, any floating point unit | proved |
| C15 | case analysis over all depths | proved |
| C16 | polynomial fragment: invariant `Pol` | partial; false in general (witness) |
| C17, C18 | in the value induction; without conditions by a second induction (`SignThm.lean`) over the depth of calls, for expressions in which the queries meet no logarithm, or only logarithms of polynomials; sign queries of polynomials always return | C17 partial (other logarithms: where the conditions hold); C18 false (witness), true where no base is zero |
| C19, C20, C22 | lists of primes; value invariant with a ghost flag | C20 proved; C19, C22 false (witnesses), partial theorems |
| C21 | algebra of rationals | proved |
| C23–C27 | elimination invariant in terms of Mathlib matrices, any dimension, any field with an undefined element | proved, but C26: determinant is false (witnesses) |
| C28, C29 | structural induction; the hash combination is a parameter | C28 proved; C29 false with doubles (witness) |
| C30, C31 | induction over the sizes of two, for transitivity of three expressions (`OrderTrans.lean`: products and sums are compared as lists, powers as pairs); polynomial fragment | partial; false with atan2 (witnesses); C31 also false for roots of numbers (`RootsNEx.C31_false_roots`) |
| C32 | structural induction | proved |
| C33–C35 | the parser as recursive descent with a value stack, related to a grammar and parse trees; soundness and completeness | C34 proved; C33, C35 partial (names that begin with pi/euler, octal numbers: witnesses) |
| C36 | value of the printed syntax tree equals the value of the expression; round trip through the parser | partial (witnesses for each exception) |
| C37 | state machine over all histories of the caches | partial; false when an option changes (witness) |
| C38, C39 | state machine over all histories of the symbol pool | C39 proved; C38 false in general (witness), proved for nested scopes |
| C40 | case analysis with C45 | proved |
| C41, C42 | loop invariants | C42 proved; C41 partial, quotient of pseudoDivide false, divide wrong or endless with the coefficient 324 (witnesses) |
| C44 | case analysis | proved |
| C45 | structural induction | proved |
| C46 | order-theoretic monotonicity of every function | proved |
| C47–C49 | the class `Pol` of expressions is closed under sums, products and expansion; every call ends (`Tot`); expanded polynomials are determined by their polynomial in Mathlib's `MvPolynomial` | proved |
| C50, C51 | on the same fragment: degree, coeff and diff agree with `degreeOf`, coefficients and `pderiv` of `MvPolynomial`; no condition is recorded | proved |
| C52 | integer powers of rationals by case analysis of NumPowerSimpl (`compute_eq`; a complete table for the integers below 324), then powers of factors and products | proved for a prime limit below 324; false with the default limit (witness) |
| C53 | a polynomial as a polynomial in one symbol over the others (`upoly`); each round cancels the leading terms, so the degree falls; invariant l^j*u = Q*v + r | proved |
| C54 | induction over the list of symbols, inside it over the degree; a bound of the degrees of the intermediate remainders | proved |
| C55 | subresultant theory over a unique factorisation domain (`Subres.lean`: determinants of Sylvester type, the invariant `Inv` of the loop, exactness of the division by beta); Gauss's lemma for primitive parts (`GcdMath.lean`); degree bounds of the subresultants; induction over the number of symbols with the loop inside | proved for a prime limit below 324; false with the default limit (witness, does not end) |
| C56 | induction over expression trees; `PolyShape` is an inductive specification that does not use the code; the operations are unfolded as far as the check of the input | proved |
| C57 | the polynomial fragment of C47–C55: gcd, content and division of polynomials with integer coefficients by integers are exact; induction over the fold of common denominators with the invariant `Over`; `Lowest` for the cancelled fraction | proved; with the default limit the normal form of a/324 is a/36 (`NormalPolyEx.C57_false`) |
| C58 | trees of operations (`RTree`) with their values as specification; induction over the tree with the value theorems of the engine | partial: false of the code (`RationalEx.C58_false`, `C58_false_ub`); the value is right where the recorded conditions hold; for sums of fractions (`SumOfFractions`) a result exists without conditions (`C58_live_partial`, modules `ZFac` … `ZTop`: canonical products and sums of powers with integer exponents) |
| C59 | on the same fragment: the result of a sum is the canonical list of its coefficients (`SL.ext`), that of a product the canonical list of its exponents (`Can.ext`) | proved; t - t is not always 0 and products are not associative (`RationalEx.C59_false_sub`, `C59_false_mul_assoc`) |
| C60 | the expansion of a Laurent tree is a canonical list of monomials; products of powers are characters of the group of positive assignments, which are linearly independent (Dedekind), so that the values determine the list (`ZEval.lean`) | proved |
| C61 | the quotient is a canonical product of powers (`Zf` modules); a bookkeeping of exponents (`pp`) gives numerator and denominator before cancelling; they are not zero (a point where both polynomials are not zero); C55 and C54 for the cancellation; lowest terms imply the divisibilities (unique factorisation) | proved for a prime limit below 324; the normal form is not canonical (`QuotEx.C61_false_canonical`) |
| C62 | a run that returns is simulated by a run of the generic solver whose scalars are computations (`scal`); the elimination invariant of C23, C24 over the values | proved; the conditions recorded at divisions by pivots say that the value of the pivot is not zero, this has no counterpart in the code |
| C63 | on rational numbers and Undefined every operator of the library returns what the scalars of C23 give (`rep`, `SolveNum.lean`), so that the whole run is the image of the exact run; then C23 – C26 | proved for a prime limit below 324; false with the default limit (`SolveEx.C63_false_default`) |
| C64 | the remainder loop keeps the common divisors of the primitive parts (`PRnd`), and the degree goes down (`GcdPrim.lean`); induction over the number of symbols with the contents as greatest common divisors (`GcdBy`, `GcdPrimAlgo.lean`); C55 for the contents of the remainders | proved for a prime limit below 324 and degrees bounded as stated; the two algorithms differ by a rational factor (`PolyEx6.C64_false_same`) |
| C65 | the factorisation is the elimination of C23 without pivots; the products of the first pivots are the leading minors (`Inv.minor`); comparison with the generic run for rational numbers (as C63) and for expressions (as C62) | proved; that all regular systems are solved is false (`SolveEx.C65_false_regular`) |
| C66 | induction on the expression (`tot_subst_pol`) with the existence lemmas of C52 for sums, products and powers; equal expansions by uniqueness (C48); a result without symbols is a number | proved |
| C67 | uniqueness of the decomposition into a square and a squarefree number; the sorted lists of primes are counted (`SqrtNum.lean`); case analysis of NumPowerSimpl for the exponents 1/2 and -1/2; then Power::create, Product::create and Sum::create (`SqrtEng`, `SqrtMul`, `SqrtSum`) | proved |
| C68 | printing is monotone in the depth (`PrintMono`); induction over factors and summands: the text is in the grammar, and the calls it stands for give the partial products and sums, which are unique as expanded polynomials (`PolyPrint`); with C33 | proved |
| C69 | induction over the factors of a monomial and over the summands with the accumulated sign (`PolySign`); the summands are the monomials of the polynomial | proved |
| C70 | the polynomial is a sum of monomials in normal form; the loop over the prefactors decides whether all coefficients are negative (`TrigSym`); then each identity step by step through the simplifications (`TrigInv`) | proved |
| C71 | sums and products with π in normal form, the two loops by the remainder modulo 2, the quadrant (`TrigPi`); sums of square roots (`SurdSum`); the table entry by entry (`TrigTable`); then symmetry and quadrants (`TrigVal`) | proved |
| C72 | `InvTrig` gives the result of the arc functions in terms of the angle found by numerical value; `InvTab`, `TanTab` show that the entries of both tables have a numerical value, a sign, and a negative; `TrigKey` finds the angle: injectivity of sine and tangent, and Niven's theorem for the rational numbers | proved |
| C73 | `AtanTwo` follows createAtan2 for two numbers: the quotient, the angle from the table of tangents (C72), and the loops that shift it into [0, 2*pi) | proved |
| C74 | `QFac` to `QLaurent` redo the normal forms of the Laurent polynomials (C60) with rational exponents for positive bases; `QEval` shows that products of real powers are characters, hence linearly independent | proved |
| C75 | `Tower` gives the rule `Merges` and the stack of exponents; induction over the stack | proved |
| C76 | `TrigMul`, `TrigFin`, `TrigCon`, `TrigTan` follow the replacement by temporary symbols and back, with the factors of the replaced powers identified by their exponents; `TrigProd` and `TrigAll` add the loop of contract and Product::create | proved |
| C77 | `QDiff` evaluates diff on expanded Puiseux polynomials and shows that it is the derivation of the group algebra with rational exponents (Leibniz rule, commuting derivations, kernel); the value comes from C12, the equations from the uniqueness of expansions (C74) | proved |
| C78 | `ArcBase`, `ArcNormal`, `ArcEval` and `ArcThm` evaluate the roots of 1 - s² and 1 + s² and the normal forms of the fractions through the replacement of the root by a temporary symbol, gcd, cancellation and the substitution back; the values come from Mathlib | proved |
| C79 | `ArcTwo`: the root of the sum of two squares satisfies the assumptions of the evaluation for C78; the values come from Mathlib (sine, cosine and tangent of the argument of a complex number) | proved |
| C80 | `Pyth`: terms of the summands, the order of the two terms, the merge with a number; the argument is an expanded polynomial as in C70 | proved |
| C81 | `Props/NameTex`: the table of the specification is complete, since the lower case of a character determines it up to case; splitting of the texts at the first character that is no letter or digit (as for C35) | proved |
| C82 | `DiffFn`, `Props/DiffFn`: the run of the code for a function of any symbol, step by step with the lemmas on runs that do not depend on the depth (`Tot`, `Rs`), including normal of the inner derivative; values with the derivatives of Mathlib | proved |
| C83 | `Props/SignComp`: induction on the lists; the signs of the parts are hypotheses in terms of the two queries of the API, so that the theorems can be applied one after another to nested expressions; for the logarithm the sum with -1 is an expanded polynomial (C52) with the signs of C69 | proved |
| C84 | `RootN`, `RootNMul`, `RootPlain`, `Props/RootsN`: NumPowerSimpl leaves a payload unchanged whose prime counts are below the denominator of the exponent and have no common count (induction over the loops of PrimeFac); the branches of simplTwoConst one by one | proved |
| C85 | `PowExact`, `Props/PowExact`: the count found by getEqualCount characterised by counts of a sorted list of primes, the extraction takes the counts modulo the denominator (nothing for integers), the collected base to the count found equals the old base iff all counts are equal | proved |
| C86 | `RootPow`, `Props/RootPow`: the result of cancel is followed through the sign of the exponent and the last adjustment, its root is a fixed point for all limits, its primes are those of the base, so that the number in front and the root stay a product | proved |
| C87 | `PowExact`, `Props/IntPow`: the exponent becomes zero or one in the last step, the sign of the base is followed through the prefactor, and the number is put together by Power::create | proved |
| C88 | `PowRoot`, `Props/PowRoot`: a power of a power with positive numeric base goes to Power::createNonTrivial with the product of the exponents; the results are then those of C86 and C87, where a number below a reduced root never has a mistaken common exponent for integer powers | proved |
| C89 | `SqrtIndep` proves the linear independence of square roots of squarefree numbers over the rational numbers; `SurdList`, `SurdMerge` follow the order, merging and adding of multiples of roots through the sum simplification, `SurdScale` the expansion of a number times a sum; `Props/Surds` states the results | proved |
| C90 | `SurdMul` multiplies two multiples of roots through contractNumerics, contractConst and the numeric powers; `SurdProd`, `SurdRev` a multiple and a sum in both orders, `SurdSums` two sums through the expansion of constant products; `Props/SurdMul` states the results with the values of C89 | proved |
| C91 | `SurdSign` changes the sign of all roots of multiples of a prime: this goes through products, so a power with a single summand would come from a sum with a single one; the expansion then follows by induction on the exponent from the product of two sums in `SurdSums`; `Props/SurdPow` states the results | proved |
| C92 | `SurdSquare`: the product of a sum with itself is its second power; `Props/SurdRing` has the trees and shows by induction, with C89 to C91, that all results are sums of integer multiples of square roots of divisors of one number | proved |
| C93 | `Props/SurdOrder`: the numerical value of a sum is its value, the sign of a product that of the number in front; with C92 | proved |
| C94 | `Props/SurdText`: induction over the summands as in C68, the parser adds a root to the sorted sum before it; with C89 and C92 | proved |
| C95 | `Props/SurdTreePow`: an irrational square means at least two summands, whose power is kept and expanded as in C91; with C92; the square of 324*√2 is wrong (witness), so the condition is needed | proved |
| C96 | `Props/SurdConst`: the constructors give the parts of an ordered sum again (C89); factors of zero in the derivatives | proved |

A property that is false of the code has a theorem named `…_false…` with a
concrete input on which the model, run by the kernel, gives the wrong result.

## 3. Findings

Wrong or surprising behaviour of the C++ code found while proving. "(proved)" means
there is a theorem about the model.

1. `getEqualCountOf` and `eraseDuplicates` in primefac.cpp lose exponents: 324^(1/5) gives 6^(2/5), 324^2 gives 1296, 324^(-1) gives 1/36, 3*(4/3)^(1/5) gives 6^(2/5) for every limit from 4 on (`C19_false_small_limit`, proved for 4), a/324 gives a/36, 2^(2/5)*3^(4/5) gives 6^(2/5), diff(log(324*a), a) gives 9/a (proved).
2. The counter of temporary symbols goes down when any temporary symbol is destroyed, so that two live ones can be equal (proved).
3. order.cpp: atan2(y, a) and atan2(y, b) are not ordered (proved); hence + and * are not commutative for them (proved).
4. atan2 of numbers: atan2(2, -1) gives -atan(2) (proved); atan2(-2, 0) gives 3/2*pi; atan2(-1, 1) gives 7/4*pi. C73 has all rational arguments: the quadrant is lost for exactly the points with x < 0 that are not in one of the eight directions at multiples of pi/4.
5. atan of a negative double gives 2*pi + atan(x) (proved).
6. isPositive is true for a^2 (proved); sqrt(-a^2) is Undefined, although it is 0 for a = 0 (proved).
7. log(a^2) gives 2*log(a), which has no value for a < 0 (proved).
8. diff of a power with a base known to be negative gives Undefined (proved).
9. determinant of singular matrices gives 0 or Undefined instead of an exception (proved).
10. unicode names drop sub- and superscripts of Greek letters; the constant e prints like the symbol e; names that begin with pi or euler cannot be parsed (proved).
11. `==` on doubles has a tolerance: it is not transitive, and equal values can have different hashes (proved). Undefined is not equal to itself (proved).
12. 0^(negative double) is 0; Number(0).toThe(0) is 0.
13. Only the cache of products takes the option for the largest prime into account; setMaxPrimeResolution does not clear the others (proved).
14. The parser leaves values of abandoned alternatives on its stack (proved); integers with leading zeros are octal (proved).
15. extractPrimes uses std::prev(begin) (formally undefined behaviour).
16. Number::toThe recurses forever for rationals whose conversion to double is 0 or NaN (proved).
17. tan(a)*(1/tan(a)): front() of an empty list, undefined behaviour (proved).
18. sqrt(2^54+1) gives the rational 2^27 (proved).
19. A double prefactor over at least two denominators prints the numerator 0 (proved).
20. abs() and sign() of rationals compare doubles; sign can fail its assertion for tiny rationals.
21. The pivot rule of LC elimination misses entries whose complexity is at least UINT_MAX.
22. expandProductOf(sums) assumes that the first of the remaining factors is a sum (proved wrong); with (√3-√2)*(√3+√2) = 1 it is undefined behaviour.
23. contractConst increments an iterator at the end (formally undefined behaviour).
24. cos(x)/sin(x) becomes tan(x)^(-1), which has no value at pi/2 (proved).
25. normal of (a/b)^(1/2) splits into a^(1/2)*b^(-1/2), wrong for negative a and b (proved).
26. Gcd::normalizationFactor recurses forever for an empty list of symbols and a non-numeric argument.
27. simplify would loop forever if a later normalisation is Undefined (Undefined is not equal to itself). `normal(const Var&)` is declared but not defined.
28. The printer leaves out parentheses around some composed bases (proved). Undefined prints as a text that is read as a symbol (proved).
29. pseudoDivideChecked leaves the loop before it counts the last step: the pseudo-quotient has a factor too many when the remainder is zero (proved).
30. (a*b)^c * d multiplied by (a*b)^(1-c) gives 1: the factor d and a*b are lost (proved).
31. a*(a*b)^c multiplied by (a*b)^(1-c) gives the nested product a*(a*b) (proved).
32. Power::degree gives 0 for exponents that do not fit into an int: the degree of a^(2^31) is 0 (proved).
33. Because of finding 1, poly::divide of 324 by 324 gives the quotient 9, and of a by 324*a never ends (proved); poly::gcd of 324*a and a never ends (proved); normal of 1/a + 1/324 exceeded every depth that was tried (not proved). The text of a/324 is read as a/36 (proved). The normal form of a/324 is a/36 (proved, `NormalPolyEx.C57_false`).
34. poly::divide does not expand its arguments before it takes leading coefficients, and cancel discards the remainder. So normal and simplify of (a^2 + a*(a*b - a))/(a*b) give 0, where the expression is a (proved).
35. 2^(2/5)*3^c multiplied by 3^(4/5 - c) gives 2^(2/5)*3^(4/5), where the two powers stay side by side. Added to itself it gives 2*6^(2/5), which is wrong (proved): the simplification of sums calls that of products again, which merges the powers (finding of C02).
36. Finding 22 is reached by the four operators alone: the negation of d + (1 - 2*a*b/(a+b)^2 - b^2/(a+b)^2)*(a*(a+b) + b*(a+b))*(c + d) has the wrong value (-7 for -3 if all symbols are 1), and that of a + (1 - b/(a+b))*((1+a)*(a+b) - a*(a+b))*(c + d) is undefined behaviour (proved). The expansion of the product (baseptrlistfct.cpp:113-135) takes the product of the first two sums, which is a^2 or a, for a sum.
37. t - t is not always 0: for t = 1 + 1/(a+b)^2 it is 1/(a+b)^2 - 1/(a^2+2*a*b+b^2), because the subtraction expands its second operand (proved). (2*(a+b))*(a+b) and 2*((a+b)*(a+b)) are different expressions (proved).
38. Equal quotients of polynomials can have different normal forms: b/(1-a) and -b/(a-1) (proved).
39. cos(acos(r)) is not simplified to r if all coefficients of the polynomial r are negative: the result is cos(pi - acos(-r)) (proved, C70).
    sin(asin(r)) and tan(atan(r)) are always simplified.
40. The tangent is not reduced by its period π (proved, C72): tan(π/8) is −1 + √2, but tan(9/8·π) is the quotient
    (2+√2)^(−1/2)·(2−√2)^(1/2). Sine and cosine are reduced to the first quadrant in all cases (C71).
41. a^(1/2)*a^(3/2) and a^(3/2)*a^(1/2) are different expressions for a symbol of unknown sign: the two powers are kept, but not put in order (proved, C75).
42. (a^3)^(2/3) gives a^2, which has a value for negative a, where the first has none; the powers ((a^3)^(1/3))^3… are never simplified, to any depth (proved, C75).
43. sin(a)^p*sin(a)^(-p) gives tan(a)^p and cos(a)^p*cos(a)^(-p) gives tan(a)^(-p) for every fraction p, instead of 1: the check in contractTrigFctPowers (productsimpl.cpp) whether two factors form a tangent looks at the exponents and at one base only (proved, C76).
44. tan(a)^p*tan(a)^(-p) with an integer p takes the first element of an empty list: undefined behaviour for tan(a)/tan(a) (proved, C76).
45. tan(a)^(1/2)*tan(a) gives tan(a), a factor is lost; tan(a)^(1/2)*tan(a)^(-1/2) gives tan(a)^(1/2), tan(a)^(1/2)*sin(a)^(-1/2) gives tan(a)^(-1/2), tan(a)^(1/2)*cos(a)^(-1/2) gives tan(a)^(1/2) (proved witnesses, C76).
46. sin(a)^(1/2)*cos(a)^(-1/2) gives tan(a)^(1/2), which has a value where sine and cosine are negative and the product has none (proved, C76).
47. (p + a cos(x)^2) + a sin(x)^2 is a sum of the two numbers p and a, which are not added (e.g. (cos(x)^2 - 1) + sin(x)^2 is not zero), since mergeNonEmpty joins the first summand with a rest that has become a number; p + (a cos(x)^2 + a sin(x)^2) is the number p + a, so addition is not associative; expanding repairs it (proved for all polynomials, C80).
48. The TeX text of 18 of the 48 Greek letters is not a command of LaTeX: \\my, \\ny, \\ypsilon and \\omikron (it would be \\mu, \\nu, \\upsilon, o), and capital letters such as \\Alpha (proved against the list of commands in the specification, C81).
49. The derivative of log(a) is 1/a also where a is negative, where the logarithm has no real value (C82).
50. The derivative of atan2(a, b) by a has the value -1 at a = 0, b = -1, on the cut, where the angle jumps (C12).
51. Products of two roots with exponents of the same denominator that exceed the limit for primes are stored in the given order (productsimpl.cpp:477-478): 2^(1/3)*10007^(2/3) and 10007^(2/3)*2^(1/3) are different expressions, and their difference is not zero (proved for all such roots, C84).

52. Sums with square roots of fractions can keep summands that cancel. √(2/3) + √6 - 4√(2/3) is returned as the sum of -√6 and √6 (`C89_false_fraction`), although
   its value is zero. Adding √(2/3) and -4√(2/3) gives -√6, which is inserted next to √6 without a further comparison.

53. The product of a sum of square roots with itself is a power that is not expanded, unlike the product of two different sums. So (1 + √2)*(1 + √2) minus its value
   3 + 2√2 is a sum of three summands and not zero (`C90_false_square`). The product 2√2 * 5√3 is a short way to finding 23 (`C90_false_strict`).

## 4. Where conditions are recorded

* PowSimpl: negative base with a broken exponent gives Undefined (base not zero; the exponent, if computed as a double, not an integer); numeric powers (`fail` if the collection of primes lost an exponent); powers of powers with a double exponent; powers of products with an exponent that is not an integer; e^f with f equal to a logarithm but not one; log of a power (base positive).
* ProdSimpl: contraction of numeric powers (`fail` if inexact or not rational); merging of two lists that gives one factor for several (`fail`, finding 30); products of trigonometric powers (finding 24); the empty list (finding 17).
* SumSimpl: the corresponding place of the merge of sums (`fail`).
* NumTrigo, Trig: values that are looked up or computed from doubles when an argument does not evaluate (`fail`); atan2 and atan in the wrong quadrant (`fail`).
* Expand: finding 22. Poly: division by v (v not zero). Normal: cancellation (gcd not zero, remainder zero), 1/d (d not zero), splitting of broken powers of fractions (finding 25).
* Printer: categories of subexpressions without parentheses, doubles, the constant e (findings 10, 19, 28).

## 5. Trusted base

* Lean's kernel. `#print axioms` of the theorems in MANIFEST.json gives
  `propext`, `Classical.choice`, `Quot.sound` or fewer: C20_zero, C28_undefined and
  SymbolEx.C38_false need `propext` only; C28_equivalence, C29_hash_partial,
  C32_symbols, C39_returns, C42_integer_gcd and C44_simplify need `propext` and
  `Quot.sound`; all others need the three. There are no axioms of our own, no
  `sorry`, no `native_decide`. The tactic `krfl` (Krfl.lean) builds the term
  `Eq.refl`, which the kernel checks by evaluation.
* The correspondence between the Lean definitions and the C++ text, which is by
  reading; each definition cites file and lines and says where it simplifies.
* The specifications: `den` and `Spec.*`, `Smooth`, `LinSpec`, `Grammar`, `TreeDen`,
  `PTree`, `Expanded`, `ShapeOk`, `Roots`, `RootsN`, `Surds` (with `Surds.Tree`).

Modelled with assumptions: arbitrary precision integers (boost::cpp_int) are ℤ;
boost::rational is ℚ with the exception for a zero denominator; Boost Spirit is
ordered choice with greedy repetition and attribute handling as documented; the
text of a number is its decimal expansion; the hash functions are parameters.

Not modelled: threads, memory exhaustion, logging, iostream formatting, the
lifetime of shared pointers (except temporary symbols), the rounding of doubles
in the value theorems, the width of `unsigned` except in `complexity` and in the
pivot rule, overflow of the counters.

## 6. Tests of the theorems

`seeded/LOG.jsonl` has one line for each wrong version of a definition that was
tried in a copy of the project: the edit, the claim it breaks, and the theorems
that failed. Theorems that still held were tightened; the line says how.
