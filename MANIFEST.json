{
 "claims": [
  {
   "property": "C01",
   "status": "partial",
   "theorems": [
    "Tsym.C01_add_partial",
    "Tsym.C01_sum_partial",
    "Tsym.C01_neg_partial",
    "Tsym.C01_sub_partial",
    "Tsym.ShapeEx.C01_false",
    "Tsym.ShapeEx.u_created"
   ],
   "note": "False of the code (2^(2/5)*3^(4/5), built as 2^(2/5)*3^c*3^(4/5-c), added to itself gives 2*6^(2/5)); true where the recorded conditions hold, and of polynomials without conditions (C47)."
  },
  {
   "property": "C02",
   "status": "partial",
   "theorems": [
    "Tsym.C02_mul_partial",
    "Tsym.C02_prod_partial",
    "Tsym.ValueEx.C02_false",
    "Tsym.ValueEx.C02_undefined_behaviour",
    "Tsym.ShapeEx.C02_false_merge"
   ],
   "note": "False of the code (2^(2/5)*3^(4/5) gives 6^(2/5)); true where the recorded conditions hold."
  },
  {
   "property": "C03",
   "status": "partial",
   "theorems": [
    "Tsym.C03_div_partial",
    "Tsym.C03_division_by_zero",
    "Tsym.ValueEx.C03_false",
    "Tsym.ValueEx.C03_false_tan"
   ],
   "note": "False of the code (a/324 gives a/36); true where the recorded conditions hold."
  },
  {
   "property": "C04",
   "status": "partial",
   "theorems": [
    "Tsym.C04_pow_partial",
    "Tsym.C04_sqrt_partial",
    "Tsym.ValueEx.C04_false",
    "Tsym.ValueEx.C04_false_sqrt"
   ],
   "note": "False of the code (324^2 gives 1296); true where the recorded conditions hold."
  },
  {
   "property": "C05",
   "status": "partial",
   "theorems": [
    "Tsym.C05_log_partial",
    "Tsym.ValueEx.C05_false"
   ],
   "note": "False of the code (log(a^2) for a < 0); true where the recorded conditions hold."
  },
  {
   "property": "C06",
   "status": "partial",
   "theorems": [
    "Tsym.C06_trig_partial",
    "Tsym.ValueEx.C06_false"
   ],
   "note": "False of the code (atan of a negative double); true where the recorded conditions hold."
  },
  {
   "property": "C07",
   "status": "partial",
   "theorems": [
    "Tsym.C07_atan2_partial",
    "Tsym.ValueEx.C07_false"
   ],
   "note": "False of the code (atan2(2, -1) gives -atan(2)); true where the recorded conditions hold."
  },
  {
   "property": "C08",
   "status": "partial",
   "theorems": [
    "Tsym.C08_expand_partial",
    "Tsym.ValueEx.C08_false"
   ],
   "note": "False of the code ((2+2^(1/2))*(2^(1/2)-1)*(a+b)*c); true where the recorded conditions hold."
  },
  {
   "property": "C09",
   "status": "partial",
   "theorems": [
    "Tsym.C09_normal_partial",
    "Tsym.C09_simplify_partial",
    "Tsym.ValueEx.C09_false",
    "Tsym.ValueEx.C09_false_zero"
   ],
   "note": "False of the code ((a/b)^(1/2) for negative a, b; (a^2+a*(a*b-a))/(a*b) gives 0); true where the recorded conditions hold."
  },
  {
   "property": "C10",
   "status": "partial",
   "theorems": [
    "Tsym.C10_subst_partial",
    "Tsym.C10_subst_expression_partial",
    "Tsym.ValueEx.C10_false"
   ],
   "note": "False of the code, since powers are; true where the recorded conditions hold."
  },
  {
   "property": "C11",
   "status": "proved",
   "theorems": [
    "Tsym.C11_subst_removes",
    "Tsym.C11_subst_removes_has"
   ],
   "note": "For every result, any floating point unit, any hash map order, any depth of calls."
  },
  {
   "property": "C12",
   "status": "partial",
   "theorems": [
    "Tsym.C12_diff_partial",
    "Tsym.C12_limit",
    "Tsym.C12_atan2",
    "Tsym.DiffEx.C12_false",
    "Tsym.DiffEx.C12_false_cut",
    "Tsym.DiffEx.C12_undefined"
   ],
   "note": "False of the code (log(324*a) gives 9/a); true where the recorded conditions hold and the expression is put together from differentiable functions. At points where a base is zero, true if it is true nearby and the expression and the result are continuous (C12_limit). For atan2 of arguments with the symbol true off the cut and the vertical axis, if the quotient computed by the code is put together from differentiable functions (C12_atan2); on the cut false (witness)."
  },
  {
   "property": "C13",
   "status": "proved",
   "theorems": [
    "Tsym.C13_absent_symbol"
   ],
   "note": "For any floating point unit."
  },
  {
   "property": "C14",
   "status": "proved",
   "theorems": [
    "Tsym.C14_no_new_symbols"
   ],
   "note": "For any floating point unit and any configuration."
  },
  {
   "property": "C15",
   "status": "proved",
   "theorems": [
    "Tsym.C15_undefined_contagious",
    "Tsym.C15_returns",
    "Tsym.C15_lists"
   ],
   "note": "For any floating point unit. Which calls are known to return is stated in C15_returns."
  },
  {
   "property": "C16",
   "status": "partial",
   "theorems": [
    "Tsym.C16_polynomial_partial",
    "Tsym.ShapeEx.C16_false_nested"
   ],
   "note": "False of the code: a product can be an operand of a product. True of polynomial expressions, for all expressions inside."
  },
  {
   "property": "C17",
   "status": "partial",
   "theorems": [
    "Tsym.C17_isPositive_partial",
    "Tsym.C17_isNegative_partial",
    "Tsym.C17_isPositive_plain_partial",
    "Tsym.C17_isNegative_plain_partial",
    "Tsym.C17_both_plain_partial",
    "Tsym.C17_returns_polynomial"
   ],
   "note": "True under all assignments for expressions without logarithms, or with logarithms of polynomials; with other logarithms where the recorded conditions hold."
  },
  {
   "property": "C18",
   "status": "partial",
   "theorems": [
    "Tsym.C18_strict_partial",
    "Tsym.ValueEx.C18_false"
   ],
   "note": "False of the code (a^2 is called positive); true where no base of a power met by the query is zero and no logarithm is met."
  },
  {
   "property": "C19",
   "status": "partial",
   "theorems": [
    "Tsym.C19_false",
    "Tsym.C19_false_integer",
    "Tsym.C19_false_small_limit",
    "Tsym.C19_value_partial",
    "Tsym.C19_small_denominator_partial",
    "Tsym.C19_integer_partial",
    "Tsym.C85_exact"
   ],
   "note": "False of the code (324^(1/5)); true if the ghost flag says that the collection of primes was exact, and always for exponent denominators 2, 3, 4; for integer exponents a result exists and is exact if the limit for primes is less than 324 or no fourth power divides the number. C85_exact says for positive bases exactly when it is true."
  },
  {
   "property": "C20",
   "status": "proved",
   "theorems": [
    "Tsym.C20_prime_factorisation",
    "Tsym.C20_zero"
   ],
   "note": "Trial division equals Nat.primeFactorsList; the rounding of std::sqrt is not modelled."
  },
  {
   "property": "C21",
   "status": "proved",
   "theorems": [
    "Tsym.C21_fraction",
    "Tsym.C21_arithmetic",
    "Tsym.C21_integer_power",
    "Tsym.C21_zero_reported",
    "Tsym.C21_integer_power_total",
    "Tsym.C21_power_loops"
   ],
   "note": "For any behaviour of the floating point unit. C21_power_loops: inputs for which Number::toThe never returns."
  },
  {
   "property": "C22",
   "status": "partial",
   "theorems": [
    "Tsym.C22_exact_root_partial",
    "Tsym.C22_power_value",
    "Tsym.C22_false"
   ],
   "note": "Exact unless the result comes from the floating point power; that one can be taken for a rational (2^54+1)^(1/2)."
  },
  {
   "property": "C23",
   "status": "proved",
   "theorems": [
    "Tsym.Lin.C23_solve",
    "Tsym.Lin.C23_solve_symbolic"
   ],
   "note": "Exact entries over any field, with the undefined element; symbolic entries for any scalar operations that respect values, where no pivot vanishes."
  },
  {
   "property": "C24",
   "status": "proved",
   "theorems": [
    "Tsym.Lin.C24_determinant",
    "Tsym.Lin.C24_determinant_symbolic"
   ],
   "note": "Both pivot rules, any dimension, skip fields included."
  },
  {
   "property": "C25",
   "status": "proved",
   "theorems": [
    "Tsym.Lin.C25_invert"
   ],
   "note": "Exact entries over any field; singular matrices throw before anything is written."
  },
  {
   "property": "C26",
   "status": "partial",
   "theorems": [
    "Tsym.Lin.C26_solve_invert_partial",
    "Tsym.Lin.C26_determinant_partial",
    "Tsym.Lin.C26_false_determinant",
    "Tsym.Lin.C26_false_determinant_undefined"
   ],
   "note": "True of solve and invert; false of determinant, which returns 0 or Undefined for some singular matrices."
  },
  {
   "property": "C27",
   "status": "proved",
   "theorems": [
    "Tsym.Lin.C27_reads",
    "Tsym.Lin.C27_writes",
    "Tsym.Lin.C23_solve",
    "Tsym.Lin.C24_determinant",
    "Tsym.Lin.C25_invert"
   ],
   "note": "For any scalars; the exact theorems give the meaning of the selected sub-problem."
  },
  {
   "property": "C28",
   "status": "proved",
   "theorems": [
    "Tsym.C28_equivalence",
    "Tsym.C28_undefined",
    "Tsym.C28_value"
   ],
   "note": "Object identity is not modelled (an object is its tree)."
  },
  {
   "property": "C29",
   "status": "partial",
   "theorems": [
    "Tsym.C29_hash_partial",
    "Tsym.ExprEx.C29_false"
   ],
   "note": "True without floating point numbers, for any hash functions; false with them (1/3 as fraction and as double)."
  },
  {
   "property": "C30",
   "status": "partial",
   "theorems": [
    "Tsym.C30_order_partial",
    "Tsym.C30_transitive_partial",
    "Tsym.C30_unique_partial",
    "Tsym.ExprEx.C30_false",
    "Tsym.ExprEx.C30_false_both_ways"
   ],
   "note": "True without atan2 (floating point comparison exact); transitivity also without floating point numbers; false with atan2."
  },
  {
   "property": "C31",
   "status": "partial",
   "theorems": [
    "Tsym.C31_polynomial_partial",
    "Tsym.C49_add_comm",
    "Tsym.C59_add_comm",
    "Tsym.C59_mul_comm",
    "Tsym.ShapeEx.C31_false",
    "Tsym.RootsNEx.C31_false_roots"
   ],
   "note": "False of the code for atan2 functions that differ in the second argument, and for products of roots of numbers above the limit for primes (C84). True of polynomial expressions after expansion, and of sums and products of fractions as they are."
  },
  {
   "property": "C32",
   "status": "proved",
   "theorems": [
    "Tsym.C32_symbols"
   ],
   "note": "Any expression, any floating point unit."
  },
  {
   "property": "C33",
   "status": "partial",
   "theorems": [
    "Tsym.C33_sound",
    "Tsym.C33_complete_partial",
    "Tsym.C33_decimal_partial",
    "Tsym.C33_unambiguous_partial",
    "Tsym.C33_value_partial",
    "Tsym.ParserEx.C33_false_prefix",
    "Tsym.ParserEx.C33_false_octal",
    "Tsym.ParserEx.C33_false_throw",
    "Tsym.ParserEx.stale_result"
   ],
   "note": "Everything accepted is a text of the grammar and gets the value of its tree; every text whose names do not begin with pi or euler is accepted. False beyond that: such names, and integers with leading zeros (read as octal, or an exception)."
  },
  {
   "property": "C34",
   "status": "proved",
   "theorems": [
    "Tsym.C34_no_underflow",
    "Tsym.parse_terminates"
   ],
   "note": "For all strings."
  },
  {
   "property": "C35",
   "status": "partial",
   "theorems": [
    "Tsym.C35_var_partial",
    "Tsym.concat_text",
    "Tsym.C35_concat_injective",
    "Tsym.C35_unicode_partial",
    "Tsym.ParserEx.C35_false_prefix",
    "Tsym.ParserEx.C35_false_greek"
   ],
   "note": "True for names that do not begin with pi or euler; printed texts differ unless the name is a Greek letter (then the subscript is dropped, witness)."
  },
  {
   "property": "C36",
   "status": "partial",
   "theorems": [
    "Tsym.C36_print_partial",
    "Tsym.C36_debug_partial",
    "Tsym.C36_roundtrip_partial",
    "Tsym.PrinterEx.C36_false_e",
    "Tsym.PrinterEx.C36_false_undefined",
    "Tsym.PrinterEx.C36_false_base",
    "Tsym.PrinterEx.C36_false_double"
   ],
   "note": "The printed text, read with the usual rules of precedence, has the value of the expression; read back by the parser it gives an expression of the same value. Conditions: no double, no constant e, no composed numeric base that looks like an integer; each exception has a witness."
  },
  {
   "property": "C37",
   "status": "partial",
   "theorems": [
    "Tsym.C37_caches_invisible_partial",
    "Tsym.C37_empty",
    "Tsym.CacheEx.C37_false"
   ],
   "note": "True while the options stay as they are and no double is in the expressions; false when setMaxPrimeResolution is called in between (witness)."
  },
  {
   "property": "C38",
   "status": "partial",
   "theorems": [
    "Tsym.C38_different_partial",
    "Tsym.C38_nested_partial",
    "Tsym.SymbolEx.C38_false",
    "Tsym.SymbolEx.C38_false_variables"
   ],
   "note": "False of the code (the counter goes down when an older symbol is destroyed); true for nested scopes, and whenever nothing older has been destroyed in between."
  },
  {
   "property": "C39",
   "status": "proved",
   "theorems": [
    "Tsym.C39_one_object",
    "Tsym.C39_returns"
   ],
   "note": "Over all histories. Names that begin with tmp# are temporary symbols."
  },
  {
   "property": "C40",
   "status": "proved",
   "theorems": [
    "Tsym.C40_int",
    "Tsym.C40_throws"
   ],
   "note": "Floating point unit exact for the value, arbitrary for the exceptions."
  },
  {
   "property": "C41",
   "status": "partial",
   "theorems": [
    "Tsym.C41_divide_partial",
    "Tsym.C41_pseudo_partial",
    "Tsym.C41_remainder_partial",
    "Tsym.PolyEx.C41_false",
    "Tsym.PolyDivEx.C41_false_quotient",
    "Tsym.PolyDivEx.C41_false_endless"
   ],
   "note": "Division and pseudo-division; true where the recorded conditions hold. The pseudo-quotient has a factor too many when the remainder is zero (witness). Division by a polynomial with the coefficient 324 gives a wrong quotient or never ends (witnesses)."
  },
  {
   "property": "C42",
   "status": "proved",
   "theorems": [
    "Tsym.C42_integer_gcd",
    "Tsym.C42_content",
    "Tsym.C42_content_of_two",
    "Tsym.C42_content_returns"
   ],
   "note": "The greatest common divisor of integers and the content of a polynomial."
  },
  {
   "property": "C43",
   "status": "partial",
   "theorems": [
    "Tsym.C43_fraction_partial",
    "Tsym.ValueEx.C43_false"
   ],
   "note": "False of the code ((a^2+a*(a*b-a))/(a*b) has the numerator 0); true where the recorded conditions hold."
  },
  {
   "property": "C44",
   "status": "proved",
   "theorems": [
    "Tsym.C44_simplify"
   ],
   "note": "For any engine."
  },
  {
   "property": "C45",
   "status": "proved",
   "theorems": [
    "Tsym.C45_value",
    "Tsym.C45_toDouble",
    "Tsym.C45_isInteger"
   ],
   "note": "Floating point unit exact."
  },
  {
   "property": "C46",
   "status": "proved",
   "theorems": [
    "Tsym.C46_one_outcome"
   ],
   "note": "For any floating point unit."
  },
  {
   "property": "C47",
   "status": "proved",
   "theorems": [
    "Tsym.C47_value",
    "Tsym.C47_power"
   ],
   "note": "All trees; named symbols that do not begin with tmp#; floating point comparison of fractions exact."
  },
  {
   "property": "C48",
   "status": "proved",
   "theorems": [
    "Tsym.C48_expanded",
    "Tsym.C48_identity",
    "Tsym.C48_difference",
    "Tsym.C48_idempotent"
   ],
   "note": "All pairs of trees; symbols as in C47."
  },
  {
   "property": "C49",
   "status": "proved",
   "theorems": [
    "Tsym.C49_add_comm"
   ],
   "note": "As C48."
  },
  {
   "property": "C50",
   "status": "proved",
   "theorems": [
    "Tsym.C50_degree",
    "Tsym.C50_coeff",
    "Tsym.PolyEx3.C50_false_great"
   ],
   "note": "Degrees below the greatest int; the degree of a^(2^31) is given as zero (witness)."
  },
  {
   "property": "C51",
   "status": "proved",
   "theorems": [
    "Tsym.C51_diff",
    "Tsym.C51_exchange"
   ],
   "note": "As C48."
  },
  {
   "property": "C52",
   "status": "proved",
   "theorems": [
    "Tsym.C52_value",
    "Tsym.C52_expanded",
    "Tsym.C52_identity",
    "Tsym.PolyEx4.C52_false"
   ],
   "note": "Limit for primes less than 324, or divisors without fourth powers; false with the default limit (witness)."
  },
  {
   "property": "C53",
   "status": "proved",
   "theorems": [
    "Tsym.C53_pseudo"
   ],
   "note": "The factor too many in the quotient for the remainder zero is part of the statement. Coefficients of the divisor without fourth powers, or the limit for primes less than 324."
  },
  {
   "property": "C54",
   "status": "proved",
   "theorems": [
    "Tsym.C54_divide"
   ],
   "note": "Coefficients of the divisor without fourth powers, or the limit for primes less than 324 (false otherwise: PolyDivEx.C41_false_endless)."
  },
  {
   "property": "C55",
   "status": "proved",
   "theorems": [
    "Tsym.C55_gcd",
    "Tsym.C55_content",
    "Tsym.C55_zero",
    "Tsym.PolyEx6.C55_false"
   ],
   "note": "Limit for primes less than 324; with the default limit the gcd of 324*a and a does not end (witness). Subresultant algorithm (the default); caches left out (C37)."
  },
  {
   "property": "C56",
   "status": "proved",
   "theorems": [
    "Tsym.C56_accepted",
    "Tsym.C56_accepted_value",
    "Tsym.C56_rejected"
   ],
   "note": "Floating point exact. The characterisation is for numeric exponents; the value statement for all."
  },
  {
   "property": "C57",
   "status": "proved",
   "theorems": [
    "Tsym.C57_fraction",
    "Tsym.C57_normal",
    "Tsym.C57_simplify",
    "Tsym.NormalPolyEx.C57_false"
   ],
   "note": "Floating point exact. Denominators of the coefficients without fourth powers, or the limit for primes less than 324 (false otherwise, witness)."
  },
  {
   "property": "C58",
   "status": "partial",
   "theorems": [
    "Tsym.C58_value_partial",
    "Tsym.C58_live_partial",
    "Tsym.RationalEx.C58_false",
    "Tsym.RationalEx.C58_false_ub"
   ],
   "note": "False of the code: the negation of a sum with a product that collapses in the expansion is wrong or undefined behaviour (witnesses). True where the recorded conditions hold; for sums of fractions (products and quotients of Laurent polynomials) a result always exists, without conditions, if the limit for primes is less than 324."
  },
  {
   "property": "C59",
   "status": "proved",
   "theorems": [
    "Tsym.C59_add_comm",
    "Tsym.C59_add_assoc",
    "Tsym.C59_add_zero",
    "Tsym.C59_mul_comm",
    "Tsym.RationalEx.C59_false_sub",
    "Tsym.RationalEx.C59_false_mul_assoc"
   ],
   "note": "For a limit for primes less than 324. Witnesses that subtraction is not inverse to addition, and that products are not associative, structurally."
  },
  {
   "property": "C60",
   "status": "proved",
   "theorems": [
    "Tsym.C60_expanded",
    "Tsym.C60_identity",
    "Tsym.C60_difference",
    "Tsym.C60_idempotent"
   ],
   "note": "For a limit for primes less than 324."
  },
  {
   "property": "C61",
   "status": "proved",
   "theorems": [
    "Tsym.C61_fraction",
    "Tsym.C61_divides",
    "Tsym.C61_zero",
    "Tsym.QuotEx.C61_false_canonical"
   ],
   "note": "For a limit for primes less than 324. Equal quotients can have different normal forms (witness)."
  },
  {
   "property": "C62",
   "status": "proved",
   "theorems": [
    "Tsym.C62_solve",
    "Tsym.C62_determinant",
    "Tsym.C62_invert",
    "Tsym.SolveEx.C62_solve_example"
   ],
   "note": "Where the recorded conditions hold. Floating point exact."
  },
  {
   "property": "C63",
   "status": "proved",
   "theorems": [
    "Tsym.C63_solve",
    "Tsym.C63_determinant",
    "Tsym.C63_invert",
    "Tsym.SolveEx.C63_false_default"
   ],
   "note": "For a limit for primes less than 324; false with the default limit (witness). Floating point exact."
  },
  {
   "property": "C64",
   "status": "proved",
   "theorems": [
    "Tsym.C64_gcd",
    "Tsym.C64_content",
    "Tsym.C64_agree",
    "Tsym.C64_zero",
    "Tsym.PolyEx6.C64_false_same"
   ],
   "note": "For a limit for primes less than 324 and bounded degrees. That both algorithms give the same expression is false (witness)."
  },
  {
   "property": "C65",
   "status": "proved",
   "theorems": [
    "Tsym.C65_factorize",
    "Tsym.C65_compute",
    "Tsym.C65_solve",
    "Tsym.C65_rational",
    "Tsym.C65_factorize_expressions",
    "Tsym.C65_compute_expressions",
    "Tsym.SolveEx.C65_false_regular"
   ],
   "note": "That all regular systems are solved is false (witness)."
  },
  {
   "property": "C66",
   "status": "proved",
   "theorems": [
    "Tsym.C66_value",
    "Tsym.C66_expanded",
    "Tsym.C66_evaluate"
   ],
   "note": "For a limit for primes less than 324 (C10 is false otherwise) and exponents less than 2^29. Floating point exact."
  },
  {
   "property": "C67",
   "status": "proved",
   "theorems": [
    "Tsym.C67_value",
    "Tsym.C67_root",
    "Tsym.C67_root_large",
    "Tsym.C67_root_value",
    "Tsym.C67_square",
    "Tsym.C67_multiple",
    "Tsym.C67_product",
    "Tsym.C67_product_self",
    "Tsym.C67_sum",
    "Tsym.C67_sum_zero",
    "Tsym.C67_equal",
    "Tsym.C67_negative"
   ],
   "note": "For every limit for primes. Products of multiples with factors in front are not covered (three or more factors). The roots of 2 and of 1/2 are not added (`RootsEx.C67_false_sum`)."
  },
  {
   "property": "C68",
   "status": "proved",
   "theorems": [
    "Tsym.C68_roundtrip",
    "Tsym.C68_debug",
    "Tsym.C68_same_text",
    "Tsym.RoundTripEx.C68_false_limit",
    "Tsym.RoundTripEx.C68_false_positive",
    "Tsym.RoundTripEx.C68_false_name"
   ],
   "note": "The conditions about denominators, signs and names are needed (three witnesses)."
  },
  {
   "property": "C69",
   "status": "proved",
   "theorems": [
    "Tsym.C69_signs",
    "Tsym.C69_log",
    "Tsym.PolySignEx.C69_false_complete"
   ],
   "note": "The answers are about coefficients: 1 + (a - b)^2 expanded is positive for all values, and the answer is no (witness)."
  },
  {
   "property": "C70",
   "status": "proved",
   "theorems": [
    "Tsym.C70_plain",
    "Tsym.C70_symmetry",
    "Tsym.C70_odd",
    "Tsym.C70_even",
    "Tsym.C70_inverse",
    "Tsym.C70_cos_acos",
    "Tsym.C70_cos_acos_neg",
    "Tsym.C70_squares",
    "Tsym.C70_log_exp",
    "Tsym.C70_exp_log",
    "Tsym.TrigPolyEx.C70_false_odd"
   ],
   "note": "cos(acos(r)) is not simplified if all coefficients are negative (proved, C70_cos_acos_neg), and with coefficients of both signs -sin(r) and sin(-r) are different expressions (witness)."
  },
  {
   "property": "C71",
   "status": "proved",
   "theorems": [
    "Tsym.C71_exists",
    "Tsym.C71_value",
    "Tsym.C71_sin",
    "Tsym.C71_cos",
    "Tsym.C71_sin_other",
    "Tsym.C71_cos_other"
   ],
   "note": "The value of the entry follows from the soundness of the simplification (C06)."
  },
  {
   "property": "C72",
   "status": "proved",
   "theorems": [
    "Tsym.C72_value",
    "Tsym.C72_tan",
    "Tsym.C72_tan_neg",
    "Tsym.C72_tan_poles",
    "Tsym.C72_tan_other",
    "Tsym.C72_asin",
    "Tsym.C72_acos",
    "Tsym.C72_asin_sin",
    "Tsym.C72_acos_cos",
    "Tsym.C72_atan",
    "Tsym.C72_range",
    "Tsym.C72_rational",
    "Tsym.C72_atan_rational",
    "Tsym.TrigInvEx.C72_period"
   ],
   "note": "C72_period is a finding: the tangent is not reduced by its period pi, so that tan(9/8*pi) is a quotient of roots."
  },
  {
   "property": "C73",
   "status": "proved",
   "theorems": [
    "Tsym.C73_octants",
    "Tsym.C73_value",
    "Tsym.C73_other",
    "Tsym.C73_direction",
    "Tsym.C73_origin",
    "Tsym.C73_correct"
   ],
   "note": "C73_correct says exactly for which points the result is right (finding 4)."
  },
  {
   "property": "C74",
   "status": "proved",
   "theorems": [
    "Tsym.C74_product",
    "Tsym.C74_exponents",
    "Tsym.C74_power",
    "Tsym.C74_expanded",
    "Tsym.C74_identity",
    "Tsym.C74_idempotent",
    "Tsym.C74_difference"
   ],
   "note": "Exponents of numeric coefficients are integers; sums as bases have natural exponents."
  },
  {
   "property": "C75",
   "status": "proved",
   "theorems": [
    "Tsym.C75_towers",
    "Tsym.C75_zero",
    "Tsym.C75_power",
    "Tsym.C75_unbounded",
    "Tsym.C75_product",
    "Tsym.C75_product_value",
    "Tsym.C75_not_commutative",
    "Tsym.C75_hides"
   ],
   "note": "The multiplication of exponents can hide that a power has no value (C75_hides), the number of nested powers is not bounded (C75_unbounded), and the kept products are not commutative (C75_not_commutative)."
  },
  {
   "property": "C76",
   "status": "proved",
   "theorems": [
    "Tsym.C76_integers",
    "Tsym.C76_tan_ub",
    "Tsym.C76_value",
    "Tsym.C76_complete",
    "Tsym.C76_sin_cos",
    "Tsym.C76_sin_cos_value",
    "Tsym.C76_same",
    "Tsym.C76_wrong",
    "Tsym.C76_wrong_value",
    "Tsym.C76_hides",
    "Tsym.TrigPowEx.C76_tan_roots",
    "Tsym.TrigPowEx.C76_tan_lost"
   ],
   "note": "The code does not meet the ideal rule for fractional exponents (C76_wrong, C76_tan_roots) and for the tangent with opposite exponents (C76_tan_ub); both are proved as they are. The general result for roots of the tangent is given by witnesses only."
  },
  {
   "property": "C77",
   "status": "proved",
   "theorems": [
    "Tsym.C77_diff",
    "Tsym.C77_zero",
    "Tsym.C77_symmetric",
    "Tsym.C77_product"
   ],
   "note": "For limits for primes less than 324, as for C74."
  },
  {
   "property": "C78",
   "status": "proved",
   "theorems": [
    "Tsym.C78_trig_of_trig",
    "Tsym.C78_value"
   ],
   "note": "For lawful doubles and all limits."
  },
  {
   "property": "C79",
   "status": "proved",
   "theorems": [
    "Tsym.C79_trig_of_angle",
    "Tsym.C79_order",
    "Tsym.C79_value"
   ],
   "note": "For lawful doubles and all limits."
  },
  {
   "property": "C80",
   "status": "proved",
   "theorems": [
    "Tsym.C80_two",
    "Tsym.C80_number",
    "Tsym.C80_left",
    "Tsym.C80_not_associative",
    "Tsym.C80_expand",
    "Tsym.C80_value"
   ],
   "note": "For lawful doubles and all limits. C80_left and C80_not_associative are about the missing simplification, for all polynomials and numbers."
  },
  {
   "property": "C81",
   "status": "proved",
   "theorems": [
    "Tsym.C81_greek",
    "Tsym.C81_letter",
    "Tsym.C81_other",
    "Tsym.C81_tex_injective",
    "Tsym.C81_unicode_injective",
    "Tsym.C81_false_tex"
   ],
   "note": "Characters are Unicode code points here, bytes (UTF-8) in the code. The list of commands of LaTeX in C81_false_tex is part of the specification."
  },
  {
   "property": "C82",
   "status": "proved",
   "theorems": [
    "Tsym.C82_diff",
    "Tsym.C82_unconditional",
    "Tsym.C82_other",
    "Tsym.C82_exp",
    "Tsym.C82_value",
    "Tsym.C82_domain",
    "Tsym.C82_log_outside"
   ],
   "note": "For the arc cosine a condition is recorded (a quotient by a number in the cancellation), it is always met."
  },
  {
   "property": "C83",
   "status": "proved",
   "theorems": [
    "Tsym.C83_atoms",
    "Tsym.C83_product",
    "Tsym.C83_sum",
    "Tsym.C83_sum_number",
    "Tsym.C83_power",
    "Tsym.C83_atan",
    "Tsym.C83_trig",
    "Tsym.C83_log"
   ],
   "note": "Parts whose own queries record conditions, and numbers among the summands other than one rational number at the beginning, are not covered. That the answers are right for the values is C17."
  },
  {
   "property": "C84",
   "status": "proved",
   "theorems": [
    "Tsym.C84_value",
    "Tsym.C84_pow",
    "Tsym.C84_pow_stored",
    "Tsym.C84_fixed",
    "Tsym.C84_same_base",
    "Tsym.C84_same_exp",
    "Tsym.C84_opposite_exp",
    "Tsym.C84_same_den",
    "Tsym.C84_same_den_large",
    "Tsym.C84_other_den",
    "Tsym.C84_not_commutative",
    "Tsym.C84_plain",
    "Tsym.RootsNEx.C84_false_difference"
   ],
   "note": "Plain numbers: no prime with an exponent as large as the denominator of the exponent, and the exponent of the smallest prime is one or does not divide all the others (otherwise finding 1 applies). Sums of exponents beyond one are not described."
  },
  {
   "property": "C85",
   "status": "proved",
   "theorems": [
    "Tsym.C85_exact",
    "Tsym.C85_right",
    "Tsym.C85_wrong",
    "Tsym.C85_degrees",
    "Tsym.C85_least"
   ],
   "note": "Equivalence, so the theorem fails for a program that is right more often as well as for one that is wrong more often. Integer exponents are at most 4294967295/31 with a limit below 2^31. Negative bases are not treated."
  },
  {
   "property": "C86",
   "status": "proved",
   "theorems": [
    "Tsym.C86_pow",
    "Tsym.C86_wrong",
    "Tsym.C86_large",
    "Tsym.C86_fixed",
    "Tsym.C86_only",
    "Tsym.C86_number_root"
   ],
   "note": "Products with a number that shares a prime crosswise with the base of the root are not treated here (C67 does so for square roots). C86_wrong is the form of the results that are false."
  },
  {
   "property": "C87",
   "status": "proved",
   "theorems": [
    "Tsym.C87_right",
    "Tsym.C87_wrong",
    "Tsym.C87_negative",
    "Tsym.C87_trivial"
   ],
   "note": "With C86 all powers of rational numbers with rational exponents are covered, except for exponents with parts above 4294967295 (integers above a 31st of that)."
  },
  {
   "property": "C88",
   "status": "proved",
   "theorems": [
    "Tsym.C88_same",
    "Tsym.C88_integer",
    "Tsym.C88_inverse",
    "Tsym.C88_fraction",
    "Tsym.C88_large"
   ],
   "note": "The reduced roots are those C86 shows to be the only results of powers within the limit."
  },
  {
   "property": "C89",
   "status": "proved",
   "theorems": [
    "Tsym.C89_value",
    "Tsym.C89_zero",
    "Tsym.C89_equal",
    "Tsym.C89_add",
    "Tsym.C89_sum",
    "Tsym.C89_scale",
    "Tsym.C89_sub",
    "Tsym.C89_false_fraction"
   ],
   "note": "C89_false_fraction shows that the restriction on denominators is needed."
  },
  {
   "property": "C90",
   "status": "proved",
   "theorems": [
    "Tsym.C90_mul",
    "Tsym.C90_comm",
    "Tsym.C90_zero",
    "Tsym.C90_false_square",
    "Tsym.C90_false_strict"
   ],
   "note": "The theorems take the increment of the end iterator in contractConst (finding 23) to have no effect; C90_false_strict shows that it happens. C90_false_square shows that the two sums must be different."
  },
  {
   "property": "C91",
   "status": "proved",
   "theorems": [
    "Tsym.C91_expand",
    "Tsym.C91_equal",
    "Tsym.C91_mul"
   ],
   "note": "As for C90, the increment of the end iterator in contractConst is taken to have no effect. C91_mul leaves out products of equal powers, which are powers by C90_false_square."
  },
  {
   "property": "C92",
   "status": "proved",
   "theorems": [
    "Tsym.C92_run",
    "Tsym.C92_equal",
    "Tsym.C92_integer",
    "Tsym.C92_rational",
    "Tsym.C92_false_limit"
   ],
   "note": "As for C90, the increment of the end iterator in contractConst is taken to have no effect. Products are expanded, since a sum times itself is a power (C90_false_square). C92_false_limit shows that the condition on the limit is needed."
  },
  {
   "property": "C93",
   "status": "proved",
   "theorems": [
    "Tsym.C93_sign",
    "Tsym.C93_order"
   ],
   "note": "Doubles are exact in the model (LawfulFlt), which the code's doubles are not: for values below their precision the answers of the code can differ."
  },
  {
   "property": "C94",
   "status": "proved",
   "theorems": [
    "Tsym.C94_roundtrip",
    "Tsym.C94_debug",
    "Tsym.C94_same_text",
    "Tsym.C94_run",
    "Tsym.C94_false_limit"
   ],
   "note": "C94_false_limit: with the default limit the text of sqrt(5)/324 is read as sqrt(5)/36, as in C68."
  },
  {
   "property": "C95",
   "status": "proved",
   "theorems": [
    "Tsym.C95_pow",
    "Tsym.C95_add",
    "Tsym.C95_false_single"
   ],
   "note": "C95_false_single: the condition is needed, with the default limit pow makes 2592 of 324*sqrt(2) and 2 (finding on numbers with a fourth power of a prime)."
  },
  {
   "property": "C96",
   "status": "proved",
   "theorems": [
    "Tsym.C96_subst",
    "Tsym.C96_diff",
    "Tsym.C96_run"
   ],
   "note": ""
  }
 ]
}