{
 "claims": [
  {
   "property": "C01",
   "status": "proved",
   "theorems": [
    "Rustnomial.C01_new_shape",
    "Rustnomial.C01_trim_idempotent",
    "Rustnomial.C01_new_same_polynomial",
    "Rustnomial.C01_canonical",
    "Rustnomial.C01_sparse_trim"
   ],
   "note": "All coefficient types with a lawful zero test; also SparsePolynomial::trim."
  },
  {
   "property": "C02",
   "status": "proved",
   "theorems": [
    "Rustnomial.C02_dense_degree",
    "Rustnomial.C02_dense_is_zero",
    "Rustnomial.C02_monomial_degree",
    "Rustnomial.C02_binomial_degree",
    "Rustnomial.C02_trinomial_degree",
    "Rustnomial.C02_fixed_is_zero",
    "Rustnomial.C02_fixed_zero",
    "Rustnomial.C02_sparse_degree",
    "Rustnomial.C02_sparse_is_zero",
    "Rustnomial.C02_sparse_zero",
    "Rustnomial.C02_dense_zero"
   ],
   "note": "All five types, in every commutative ring; NegInf is bottom."
  },
  {
   "property": "C03",
   "status": "proved",
   "theorems": [
    "Rustnomial.C03_dense_terms",
    "Rustnomial.C03_dense_terms_sum",
    "Rustnomial.C03_monomial_terms",
    "Rustnomial.C03_binomial_terms",
    "Rustnomial.C03_trinomial_terms",
    "Rustnomial.C03_sparse_terms",
    "Rustnomial.C03_sparse_terms_sum"
   ],
   "note": "All five types: strictly descending, non-zero, membership iff coefficient, and the sum of the yielded terms is the polynomial."
  },
  {
   "property": "C04",
   "status": "proved",
   "theorems": [
    "Rustnomial.C04_dense_term",
    "Rustnomial.C04_monomial_term",
    "Rustnomial.C04_binomial_term",
    "Rustnomial.C04_trinomial_term",
    "Rustnomial.C04_sparse_term"
   ],
   "note": "All five types, every degree."
  },
  {
   "property": "C05",
   "status": "proved",
   "theorems": [
    "Rustnomial.C05_dense_eq",
    "Rustnomial.C05_dense_equivalence",
    "Rustnomial.C05_monomial_eq",
    "Rustnomial.C05_binomial_eq",
    "Rustnomial.C05_trinomial_eq",
    "Rustnomial.C05_fixed_equivalence",
    "Rustnomial.C05_sparse_eq",
    "Rustnomial.C05_sparse_equivalence"
   ],
   "note": "All five types; equivalence relation follows."
  },
  {
   "property": "C06",
   "status": "proved",
   "theorems": [
    "Rustnomial.C06_dense_eval"
   ],
   "note": "Every commutative ring."
  },
  {
   "property": "C07",
   "status": "partial",
   "theorems": [
    "Rustnomial.C07_binomial_eval",
    "Rustnomial.C07_trinomial_eval",
    "Rustnomial.C07_monomial_eval_partial",
    "Rustnomial.C07_monomial_eval_false",
    "Rustnomial.C07_sparse_eval_partial",
    "Rustnomial.C07_sparse_eval_false"
   ],
   "note": "False as stated: upow truncates the exponent (u32 for integers, i32 for floats), so Monomial and SparsePolynomial evaluate wrongly from 2^32 (2^31) on: _false witnesses. Proved for all exponents below the bound, and what is returned for every exponent (C63); LinearBinomial and QuadraticTrinomial proved without restriction."
  },
  {
   "property": "C08",
   "status": "proved",
   "theorems": [
    "Rustnomial.C08_dense_add",
    "Rustnomial.C08_dense_add_assign"
   ],
   "note": "Exact coefficients in any commutative ring; fixed-width versions are C56, C57."
  },
  {
   "property": "C09",
   "status": "proved",
   "theorems": [
    "Rustnomial.C09_dense_sub",
    "Rustnomial.C09_dense_sub_ref",
    "Rustnomial.C09_dense_sub_spellings"
   ],
   "note": "All four spellings."
  },
  {
   "property": "C10",
   "status": "proved",
   "theorems": [
    "Rustnomial.C10_sparse_neg_laws",
    "Rustnomial.C10_dense_neg",
    "Rustnomial.C10_dense_add_neg",
    "Rustnomial.C10_monomial_neg",
    "Rustnomial.C10_binomial_neg",
    "Rustnomial.C10_trinomial_neg",
    "Rustnomial.C10_sparse_neg"
   ],
   "note": "All five types."
  },
  {
   "property": "C11",
   "status": "partial",
   "theorems": [
    "Rustnomial.C11_dense_mul_in_place_partial",
    "Rustnomial.C11_dense_mul_partial",
    "Rustnomial.C11_dense_mul_panics_iff",
    "Rustnomial.C11_dense_mul_zero_zero_false"
   ],
   "note": "False as stated: the product of two zero polynomials panics (usize underflow of 0+0-1 in slice_mul). Proved: panics iff both operands are zero, otherwise the product. The exact behaviour is C58."
  },
  {
   "property": "C12",
   "status": "partial",
   "theorems": [
    "Rustnomial.C12_dense_pow_sound",
    "Rustnomial.C12_dense_pow_partial",
    "Rustnomial.C12_dense_pow_zero_false",
    "Rustnomial.C12_dense_pow_terminates"
   ],
   "note": "False as stated: pow of the zero polynomial panics for exponents >= 2. Proved: sound whenever it returns, always terminates, and returns for every non-zero polynomial over a domain. The exact behaviour is C58."
  },
  {
   "property": "C13",
   "status": "proved",
   "theorems": [
    "Rustnomial.C13_dense_div_assign_scalar_int",
    "Rustnomial.C13_dense_div_mul_scalar",
    "Rustnomial.C13_sparse_div_mul_scalar",
    "Rustnomial.C13_fixed_div_mul_scalar",
    "Rustnomial.C13_div_scalar_zero_iff",
    "Rustnomial.C13_fixed_mul_assign_scalar",
    "Rustnomial.C13_fixed_div_assign_scalar",
    "Rustnomial.C13_fixed_div_assign_scalar_int",
    "Rustnomial.C13_dense_mul_assign_scalar",
    "Rustnomial.C13_dense_mul_scalar",
    "Rustnomial.C13_dense_div_scalar",
    "Rustnomial.C13_dense_div_scalar_int",
    "Rustnomial.C13_dense_div_scalar_zero",
    "Rustnomial.C13_fixed_mul_scalar",
    "Rustnomial.C13_fixed_div_scalar",
    "Rustnomial.C13_fixed_div_scalar_int",
    "Rustnomial.C13_sparse_mul_scalar",
    "Rustnomial.C13_sparse_div_scalar",
    "Rustnomial.C13_sparse_div_scalar_int"
   ],
   "note": "All five types, value and in-place operators, (p/c)*c == p; exact over fields, truncating over the integers, and division by zero described."
  },
  {
   "property": "C14",
   "status": "partial",
   "theorems": [
    "Rustnomial.C14_dense_shift_assign_partial",
    "Rustnomial.C14_dense_shl",
    "Rustnomial.C14_dense_shr_partial",
    "Rustnomial.C14_dense_shr_trimmed",
    "Rustnomial.C14_dense_shr_panics_iff",
    "Rustnomial.C14_dense_shift_false"
   ],
   "note": "False as stated: >> can panic on a vector with leading zeros, and shifting by i32::MIN panics on negation. Proved: exact panic condition and the right quotient/product otherwise."
  },
  {
   "property": "C15",
   "status": "partial",
   "theorems": [
    "Rustnomial.C15_monomial_shift_assign_partial",
    "Rustnomial.C15_monomial_shift_assign_false",
    "Rustnomial.C15_sparse_shift_assign_partial",
    "Rustnomial.C15_monomial_shift_partial",
    "Rustnomial.C15_monomial_shift_false",
    "Rustnomial.C15_binomial_shr",
    "Rustnomial.C15_trinomial_shr",
    "Rustnomial.C15_sparse_shift_partial",
    "Rustnomial.C15_sparse_shift_false"
   ],
   "note": "False as stated only at i32::MIN (negation overflows, _false). Proved for every other i32; LinearBinomial and QuadraticTrinomial without restriction."
  },
  {
   "property": "C16",
   "status": "partial",
   "theorems": [
    "Rustnomial.C16_dense_derivative_panics_iff",
    "Rustnomial.C16_dense_derivative",
    "Rustnomial.C16_dense_derivative_documented_panic_false"
   ],
   "note": "The documented panic condition is not the real one: the code converts degree+1, so it panics when degree+1 (not degree) is not representable. Proved: the exact panic condition, and the formal derivative otherwise."
  },
  {
   "property": "C17",
   "status": "proved",
   "theorems": [
    "Rustnomial.C17_trinomial_derivative_panics_iff",
    "Rustnomial.C17_monomial_derivative",
    "Rustnomial.C17_binomial_derivative",
    "Rustnomial.C17_trinomial_derivative",
    "Rustnomial.C17_sparse_derivative"
   ],
   "note": "All four types, with the conversion of the exponent as the only way to panic."
  },
  {
   "property": "C18",
   "status": "proved",
   "theorems": [
    "Rustnomial.C18_monomial_integral_panics_iff",
    "Rustnomial.C18_binomial_integral_panics_iff",
    "Rustnomial.C18_trinomial_integral_panics_iff",
    "Rustnomial.C18_dense_integral_panics_iff",
    "Rustnomial.C18_sparse_integral_panics_iff",
    "Rustnomial.C18_dense_integral",
    "Rustnomial.C18_dense_derivative_integral",
    "Rustnomial.C18_dense_integral_int",
    "Rustnomial.C18_dense_integral_integers_false",
    "Rustnomial.C18_monomial_integral",
    "Rustnomial.C18_binomial_integral",
    "Rustnomial.C18_trinomial_integral",
    "Rustnomial.C18_sparse_integral",
    "Rustnomial.C18_sparse_derivative_integral",
    "Rustnomial.C18_sparse_integral_int"
   ],
   "note": "Fields of characteristic zero. Extra theorems give the truncating behaviour over the integers and show the law fails there."
  },
  {
   "property": "C19",
   "status": "partial",
   "theorems": [
    "Rustnomial.C19_sparse_integral_false",
    "Rustnomial.C19_integral_eval",
    "Rustnomial.C19_replace_c",
    "Rustnomial.C19_dense_integral",
    "Rustnomial.C19_sparse_integral_partial"
   ],
   "note": "Integral wrapper laws and dense integrals proved without restriction; for SparsePolynomial the evaluation inherits the exponent bound of C07, beyond which it is false (C19_sparse_integral_false)."
  },
  {
   "property": "C20",
   "status": "proved",
   "theorems": [
    "Rustnomial.C20_dense_div_mod",
    "Rustnomial.C20_dense_div_mod_unique",
    "Rustnomial.C20_dense_floor_div"
   ],
   "note": "Every field; explicit iteration bound length+1."
  },
  {
   "property": "C21",
   "status": "partial",
   "theorems": [
    "Rustnomial.C21_dense_div_mod_int_outcome",
    "Rustnomial.C21_dense_div_mod_int_partial",
    "Rustnomial.C21_dense_div_mod_int_diverges",
    "Rustnomial.C21_dense_div_mod_int_false"
   ],
   "note": "False as stated: [1,0] / [2] loops forever over the integers. Proved: never panics, result correct when it returns, and it terminates iff a quotient and remainder exist in Z[x]."
  },
  {
   "property": "C22",
   "status": "partial",
   "theorems": [
    "Rustnomial.C22_dense_rem_partial",
    "Rustnomial.C22_dense_rem_diverges",
    "Rustnomial.C22_dense_rem_false"
   ],
   "note": "False as stated: the loop re-reads self instead of the remainder, so % diverges whenever deg a >= deg b. Proved: returns a itself when deg a < deg b, diverges in every other case."
  },
  {
   "property": "C23",
   "status": "proved",
   "theorems": [
    "Rustnomial.C23_dense_rem_assign_agrees",
    "Rustnomial.C23_dense_rem_assign",
    "Rustnomial.C23_dense_rem_assign_int"
   ],
   "note": "Field version with iteration bound; agreement with div_mod in every commutative ring with a division total on non-zero divisors; integer version."
  },
  {
   "property": "C24",
   "status": "proved",
   "theorems": [
    "Rustnomial.C24_dense_zero_divisor",
    "Rustnomial.C24_dense_nonzero_divisor",
    "Rustnomial.C24_sparse_zero_divisor",
    "Rustnomial.C24_sparse_nonzero_divisor"
   ],
   "note": "Zero divisors panic in every representation; non-zero divisors never panic for any number of iterations (they may diverge, see C21, C22, C27)."
  },
  {
   "property": "C25",
   "status": "proved",
   "theorems": [
    "Rustnomial.C25_sparse_sub_assign",
    "Rustnomial.C25_sparse_add",
    "Rustnomial.C25_sparse_sub",
    "Rustnomial.C25_sparse_sub_dense"
   ],
   "note": "All spellings, including SparsePolynomial - Polynomial."
  },
  {
   "property": "C26",
   "status": "proved",
   "theorems": [
    "Rustnomial.C26_sparse_mul_in_place",
    "Rustnomial.C26_sparse_mul",
    "Rustnomial.C26_sparse_pow"
   ],
   "note": "Unbounded exponents; the loop of pow terminates within the given fuel."
  },
  {
   "property": "C27",
   "status": "partial",
   "theorems": [
    "Rustnomial.C27_sparse_rem_assign_partial",
    "Rustnomial.C27_sparse_div_mod_small_partial",
    "Rustnomial.C27_sparse_div_mod_diverges",
    "Rustnomial.C27_sparse_div_mod_false",
    "Rustnomial.C27_sparse_div_mod_equal_partial"
   ],
   "note": "False as stated: the loop diverges whenever deg a > deg b. Proved: correct for deg a < deg b and deg a = deg b, divergent for every fuel otherwise."
  },
  {
   "property": "C28",
   "status": "partial",
   "theorems": [
    "Rustnomial.C28_div_scalar",
    "Rustnomial.C28_div_scalar_int",
    "Rustnomial.C28_div_scalar_zero_false",
    "Rustnomial.C28_from_vec",
    "Rustnomial.C28_queries",
    "Rustnomial.C28_eval_partial",
    "Rustnomial.C28_arith_partial",
    "Rustnomial.C28_shift_partial",
    "Rustnomial.C28_derivative_partial",
    "Rustnomial.C28_derivative_total",
    "Rustnomial.C28_false",
    "Rustnomial.C28_sparse_from_vec"
   ],
   "note": "False in the cases where one representation panics and the other does not (0*0, derivative bounds, i32::MIN, exponents of C07, division by the scalar zero): C28_false, C28_div_scalar_zero_false. Proved for everything else."
  },
  {
   "property": "C29",
   "status": "proved",
   "theorems": [
    "Rustnomial.C29_dense",
    "Rustnomial.C29_sparse",
    "Rustnomial.C29_monomial",
    "Rustnomial.C29_binomial",
    "Rustnomial.C29_trinomial",
    "Rustnomial.C29_array"
   ],
   "note": "All five types and ArrayPolynomial."
  },
  {
   "property": "C30",
   "status": "partial",
   "theorems": [
    "Rustnomial.C30_dense_partial",
    "Rustnomial.C30_dense_stored",
    "Rustnomial.C30_dense_false",
    "Rustnomial.C30_sparse_partial",
    "Rustnomial.C30_sparse_stored",
    "Rustnomial.C30_sparse_false",
    "Rustnomial.C30_fixed_false",
    "Rustnomial.C30_fixed_never_reported",
    "Rustnomial.C30_exact"
   ],
   "note": "False as stated: the fixed-size types and ArrayPolynomial never report CanNotNegate, and a stored zero underflows. Proved: absent terms of Polynomial and SparsePolynomial are reported, and the exact outcome in every case (C30_exact)."
  },
  {
   "property": "C31",
   "status": "proved",
   "theorems": [
    "Rustnomial.C31_sparse_add_term",
    "Rustnomial.C31_sparse_from_terms",
    "Rustnomial.C31_sparse_from_terms_perm",
    "Rustnomial.C31_dense_add_term",
    "Rustnomial.C31_dense_from_terms",
    "Rustnomial.C31_dense_from_terms_perm"
   ],
   "note": "Both growable types, permutation invariance included."
  },
  {
   "property": "C32",
   "status": "proved",
   "theorems": [
    "Rustnomial.C32_add_poly",
    "Rustnomial.C32_sub_poly",
    "Rustnomial.C32_mul_poly_vec",
    "Rustnomial.C32_dense_sink",
    "Rustnomial.C32_sparse_sink"
   ],
   "note": "Any sink meeting the C29 contract; Polynomial and SparsePolynomial sinks as instances."
  },
  {
   "property": "C33",
   "status": "partial",
   "theorems": [
    "Rustnomial.C33_poly_add",
    "Rustnomial.C33_poly_sub_partial",
    "Rustnomial.C33_sink_errors",
    "Rustnomial.C33_poly_sub_unsigned_false"
   ],
   "note": "Over unsigned types poly_sub! drops the CanNotNegate error and returns a wrong value (C33_poly_sub_unsigned_false). Proved for signed coefficient types; poly_add! proved without restriction."
  },
  {
   "property": "C34",
   "status": "proved",
   "theorems": [
    "Rustnomial.C34_tokenizer",
    "Rustnomial.C34_slice",
    "Rustnomial.C34_contiguous",
    "Rustnomial.C34_unique"
   ],
   "note": "Byte offsets over UTF-8 lengths; the partition is unique."
  },
  {
   "property": "C35",
   "status": "proved",
   "theorems": [
    "Rustnomial.C35_separators",
    "Rustnomial.C35_texts",
    "Rustnomial.C35_canonical"
   ],
   "note": "All texts and separators, every degree."
  },
  {
   "property": "C36",
   "status": "partial",
   "theorems": [
    "Rustnomial.C36_accept_iff",
    "Rustnomial.C36_rejects",
    "Rustnomial.C36_errors_sound",
    "Rustnomial.C36_messages",
    "Rustnomial.C36_int_rejects",
    "Rustnomial.C36_false"
   ],
   "note": "False as stated: DegreeCouldNotBeParsed is never returned and some odd texts are accepted (C36_false). Proved: exact acceptance condition, each rejection, soundness of each error, and that the message printed for an error determines it."
  },
  {
   "property": "C37",
   "status": "partial",
   "theorems": [
    "Rustnomial.C37_dense_partial",
    "Rustnomial.C37_sparse_partial",
    "Rustnomial.C37_monomial",
    "Rustnomial.C37_binomial_partial",
    "Rustnomial.C37_trinomial_partial",
    "Rustnomial.C37_false",
    "Rustnomial.C37_min_panics",
    "Rustnomial.C37_dense_unprintable",
    "Rustnomial.C37_sparse_unprintable",
    "Rustnomial.C37_binomial_unprintable",
    "Rustnomial.C37_trinomial_unprintable"
   ],
   "note": "False as stated for a trailing coefficient equal to MIN of the type: C37_false. Proved for all other polynomials of all five types (C37_*_partial, C37_monomial); C37_*_unprintable gives what happens in the exceptions: with checks a panic, without them a text such as \"x - -128\", which from_str rejects with CoeffCouldNotBeParsed."
  },
  {
   "property": "C38",
   "status": "proved",
   "theorems": [
    "Rustnomial.C38_canonical",
    "Rustnomial.C38_zero",
    "Rustnomial.C38_integral",
    "Rustnomial.C38_injective"
   ],
   "note": "All representations; Integral display included."
  },
  {
   "property": "C39",
   "status": "proved",
   "theorems": [
    "Rustnomial.C39_total",
    "Rustnomial.C39_empty",
    "Rustnomial.C39_sound",
    "Rustnomial.C39_sum",
    "Rustnomial.C39_first_error",
    "Rustnomial.C39_order",
    "Rustnomial.C39_legal_chars"
   ],
   "note": "Sum, order independence, first error, empty string, legal characters. C39_total is about unbounded coefficients and degrees; C102 says when parsing panics on a machine."
  },
  {
   "property": "C40",
   "status": "proved",
   "theorems": [
    "Rustnomial.C40_unsigned",
    "Rustnomial.C40_signed",
    "Rustnomial.C40_signed_min"
   ],
   "note": "All widths; every intermediate value shown in range; MIN panics in abs."
  },
  {
   "property": "C41",
   "status": "partial",
   "theorems": [
    "Rustnomial.C41_int",
    "Rustnomial.C41_int_continuous",
    "Rustnomial.C41_cont_f32",
    "Rustnomial.C41_cont_f64_partial",
    "Rustnomial.C41_cont_f64_false",
    "Rustnomial.C41_exact_float_partial",
    "Rustnomial.C41_exact_float_false"
   ],
   "note": "False as stated at the edges: exact float conversion at usize::MAX and cont for f64 refuses (2^52, 2^53]. Proved: all integer types, f32 cont, and everything else for floats."
  },
  {
   "property": "C42",
   "status": "proved",
   "theorems": [
    "Rustnomial.C42_cast_exact",
    "Rustnomial.C42_cast_compose",
    "Rustnomial.C42_table_complete",
    "Rustnomial.C42_dense",
    "Rustnomial.C42_sparse",
    "Rustnomial.C42_fixed"
   ],
   "note": "Every row of the upcast table."
  },
  {
   "property": "C43",
   "status": "proved",
   "theorems": [
    "Rustnomial.C43_real_roots",
    "Rustnomial.C43_complex_roots",
    "Rustnomial.C43_int_exact",
    "Rustnomial.C43_int_truncates",
    "Rustnomial.C43_int_zero_leading"
   ],
   "note": "Over the reals with the exact square root; integer instances (truncating) described."
  },
  {
   "property": "C44",
   "status": "partial",
   "theorems": [
    "Rustnomial.C44_order_partial",
    "Rustnomial.C44_false"
   ],
   "note": "False as stated for a < 0 (C44_false). Proved: the order is largest first iff a > 0 (or both roots are equal)."
  },
  {
   "property": "C45",
   "status": "partial",
   "theorems": [
    "Rustnomial.C45_real_factors",
    "Rustnomial.C45_complex_factors_partial",
    "Rustnomial.C45_complex_factors_iff",
    "Rustnomial.C45_false",
    "Rustnomial.C45_array_same"
   ],
   "note": "False for complex_factors: it uses +root, so the factors multiply back only under the condition of C45_complex_factors_iff. real_factors proved without restriction."
  },
  {
   "property": "C46",
   "status": "partial",
   "theorems": [
    "Rustnomial.C46_cubic_partial",
    "Rustnomial.C46_false"
   ],
   "note": "False as stated: with three distinct real roots that are not symmetric the result is wrong. C46_cubic_partial and C46_false together decide every case."
  },
  {
   "property": "C47",
   "status": "partial",
   "theorems": [
    "Rustnomial.C47_constant",
    "Rustnomial.C47_monomial",
    "Rustnomial.C47_monomial_multiplicity",
    "Rustnomial.C47_linear",
    "Rustnomial.C47_quadratic",
    "Rustnomial.C47_cubic_partial",
    "Rustnomial.C47_cubic_false",
    "Rustnomial.C47_total",
    "Rustnomial.C47_infinite_iff"
   ],
   "note": "All cases proved except that the cubic branch inherits C46, decided by C47_cubic_partial and C47_cubic_false; monomials of degree >= 2 give [0] once."
  },
  {
   "property": "C48",
   "status": "proved",
   "theorems": [
    "Rustnomial.C48_roots",
    "Rustnomial.C48_roots_sparse",
    "Rustnomial.C48_total"
   ],
   "note": "Relative to the stated contract of the external solver. The sparse version carries the exponent bound of C07."
  },
  {
   "property": "C49",
   "status": "proved",
   "theorems": [
    "Rustnomial.C49_binomial_root",
    "Rustnomial.C49_array_root",
    "Rustnomial.C49_binomial_root_int",
    "Rustnomial.C49_monomial_root"
   ],
   "note": "Fields; the integer version describes truncation."
  },
  {
   "property": "C50",
   "status": "partial",
   "theorems": [
    "Rustnomial.C50_monomial_mul_in_place",
    "Rustnomial.C50_monomial_mul",
    "Rustnomial.C50_monomial_from_scalar",
    "Rustnomial.C50_monomial_pow_partial",
    "Rustnomial.C50_monomial_pow_false"
   ],
   "note": "pow truncates the exponent of the coefficient as in C07 (_false); proved below the bound, exact condition for integers in C63_monomial_pow_right_iff; other operations without restriction."
  },
  {
   "property": "C51",
   "status": "proved",
   "theorems": [
    "Rustnomial.C51_in_place",
    "Rustnomial.C51_binomial_add_sub",
    "Rustnomial.C51_trinomial_add_sub"
   ],
   "note": "Both types, both spellings."
  },
  {
   "property": "C52",
   "status": "partial",
   "theorems": [
    "Rustnomial.C52_array_observers",
    "Rustnomial.C52_array_try_terms",
    "Rustnomial.C52_array_eq",
    "Rustnomial.C52_array_derivative",
    "Rustnomial.C52_array_integral",
    "Rustnomial.C52_array_terms_partial",
    "Rustnomial.C52_array_terms_false_one",
    "Rustnomial.C52_array_terms_false_panic",
    "Rustnomial.C52_array_integral_panics_iff"
   ],
   "note": "ordered_term_iter is wrong for SIZE != 2 (_false theorems). Everything else proved for every SIZE."
  },
  {
   "property": "C53",
   "status": "partial",
   "theorems": [
    "Rustnomial.C53_dense_history_partial",
    "Rustnomial.C53_sparse_history_partial",
    "Rustnomial.C53_dense_representation",
    "Rustnomial.C53_dense_sparse_partial"
   ],
   "note": "Histories proved for all operations with the exceptions forced by C11 (0*0 panics) and C14 (i32::MIN)."
  },
  {
   "property": "C54",
   "status": "partial",
   "theorems": [
    "Rustnomial.C54_dense_queries",
    "Rustnomial.C54_dense_arith",
    "Rustnomial.C54_dense_pow",
    "Rustnomial.C54_dense_calculus",
    "Rustnomial.C54_dense_div_scalar_partial",
    "Rustnomial.C54_dense_shift_assign",
    "Rustnomial.C54_dense_shift_partial",
    "Rustnomial.C54_dense_div",
    "Rustnomial.C54_sparse_queries",
    "Rustnomial.C54_sparse_arith",
    "Rustnomial.C54_sparse_derivative",
    "Rustnomial.C54_sparse_div_scalar_partial",
    "Rustnomial.C54_sparse_div",
    "Rustnomial.C54_sparse_integral_partial",
    "Rustnomial.C54_false"
   ],
   "note": "False for scalar division by zero, the integral of a stored zero, and >> with leading zeros (C54_false). Everything else proved."
  },
  {
   "property": "C55",
   "status": "partial",
   "theorems": [
    "Rustnomial.C55_dense_add_group",
    "Rustnomial.C55_dense_mul_laws_partial",
    "Rustnomial.C55_dense_mul_laws_return_partial",
    "Rustnomial.C55_dense_false",
    "Rustnomial.C55_dense_eval_hom",
    "Rustnomial.C55_sparse_ring",
    "Rustnomial.C55_sparse_eval_hom_partial"
   ],
   "note": "Sparse ring laws proved without restriction; dense laws with the exception of C11 (0*0 panics, C55_dense_false); sparse eval with the exponent bound of C07."
  },
  {
   "property": "C56",
   "status": "proved",
   "theorems": [
    "Rustnomial.C56_exact",
    "Rustnomial.C56_neg",
    "Rustnomial.C56_add",
    "Rustnomial.C56_sub",
    "Rustnomial.C56_mul_scalar",
    "Rustnomial.C56_mul",
    "Rustnomial.C56_mul_zero_zero",
    "Rustnomial.C56_mul_unsigned",
    "Rustnomial.C56_eval",
    "Rustnomial.C56_eval_unsigned",
    "Rustnomial.C56_derivative"
   ],
   "note": "Every width and signedness; the intermediate values are spelled out in the statements."
  },
  {
   "property": "C57",
   "status": "proved",
   "theorems": [
    "Rustnomial.C57_linear",
    "Rustnomial.C57_mul",
    "Rustnomial.C57_eval"
   ],
   "note": "Every width and signedness."
  },
  {
   "property": "C58",
   "status": "proved",
   "theorems": [
    "Rustnomial.C58_dense_mul_outcome",
    "Rustnomial.C58_dense_pow_outcome"
   ],
   "note": "Every commutative ring; pow over a domain."
  },
  {
   "property": "C59",
   "status": "proved",
   "theorems": [
    "Rustnomial.C59_dense_division_outcome"
   ],
   "note": "Every field."
  },
  {
   "property": "C60",
   "status": "proved",
   "theorems": [
    "Rustnomial.C60_int_division_outcome"
   ],
   "note": "All integer polynomials."
  },
  {
   "property": "C61",
   "status": "proved",
   "theorems": [
    "Rustnomial.C61_sparse_division_outcome"
   ],
   "note": "Every field."
  },
  {
   "property": "C62",
   "status": "proved",
   "theorems": [
    "Rustnomial.C62_dense_shl_outcome",
    "Rustnomial.C62_dense_shr_outcome",
    "Rustnomial.C62_sparse_shift_outcome",
    "Rustnomial.C62_monomial_shift_outcome"
   ],
   "note": "All types with i32 shifts."
  },
  {
   "property": "C63",
   "status": "proved",
   "theorems": [
    "Rustnomial.C63_monomial_eval_right_iff",
    "Rustnomial.C63_monomial_eval_float",
    "Rustnomial.C63_monomial_pow_right_iff",
    "Rustnomial.C63_eval_exact",
    "Rustnomial.C63_monomial_pow_exact"
   ],
   "note": "Exact integers and idealised floats; machine-width versions of upow are separate."
  },
  {
   "property": "C64",
   "status": "proved",
   "theorems": [
    "Rustnomial.C64_quadratic_order",
    "Rustnomial.C64_cubic_root_iff"
   ],
   "note": "Over the reals with exact square and cube roots."
  },
  {
   "property": "C65",
   "status": "proved",
   "theorems": [
    "Rustnomial.Fl.C65_closed",
    "Rustnomial.Fl.C65_nearest",
    "Rustnomial.Fl.C65_ties_even",
    "Rustnomial.Fl.C65_of_nat",
    "Rustnomial.Fl.C65_exact",
    "Rustnomial.Fl.C65_no_overflow"
   ],
   "note": "Every binary format (parameters p, q, w), f32 and f64 as instances; signed zeros, subnormals, infinities, NaN included."
  },
  {
   "property": "C66",
   "status": "proved",
   "theorems": [
    "Rustnomial.Fl.C66_eval_error",
    "Rustnomial.Fl.C66_eval_exact"
   ],
   "note": "Every binary format; the only hypothesis is that the result is finite."
  },
  {
   "property": "C67",
   "status": "proved",
   "theorems": [
    "Rustnomial.Fl.C67_add",
    "Rustnomial.Fl.C67_add_comm",
    "Rustnomial.Fl.C67_sub",
    "Rustnomial.Fl.C67_neg",
    "Rustnomial.Fl.C67_mul_scalar",
    "Rustnomial.Fl.C67_div_scalar",
    "Rustnomial.Fl.C67_add_assoc_false"
   ],
   "note": "Every binary format; associativity refuted."
  },
  {
   "property": "C68",
   "status": "proved",
   "theorems": [
    "Rustnomial.Fl.C68_mul_error",
    "Rustnomial.Fl.C68_mul_panics_iff",
    "Rustnomial.Fl.C68_mul_comm_false"
   ],
   "note": "Every binary format; commutativity refuted."
  },
  {
   "property": "C69",
   "status": "proved",
   "theorems": [
    "Rustnomial.Fl.C69_derivative_f64",
    "Rustnomial.Fl.C69_derivative_f32",
    "Rustnomial.Fl.C69_integral_f64",
    "Rustnomial.Fl.C69_integral_f32",
    "Rustnomial.Fl.C69_returns"
   ],
   "note": "f64 and f32."
  },
  {
   "property": "C70",
   "status": "partial",
   "theorems": [
    "Rustnomial.Fl.C70_never_panics",
    "Rustnomial.Fl.C70_degrees",
    "Rustnomial.Fl.C70_nonfinite_diverges",
    "Rustnomial.Fl.C70_diverges",
    "Rustnomial.Fl.C70_quotient_false",
    "Rustnomial.Fl.C70_power_of_two",
    "Rustnomial.Fl.C70_large_lead_diverges",
    "Rustnomial.Fl.C70_monic",
    "Rustnomial.Fl.C70_rounds",
    "Rustnomial.Fl.C70_terminates",
    "Rustnomial.Fl.C70_lead_diverges",
    "Rustnomial.Fl.C70_terminates_iff"
   ],
   "note": "Never panics: proved. Termination is false: [1.0]/[49.0] and every dividend or divisor with a non-finite leading coefficient loop forever (proved for every fuel). The result is false: [7.0]/[25.0] returns quotient -3.55e-17. Proved for divisors with leading coefficient 1 or ±1/2^j: returns within length+1 rounds with p = q*b + r up to rounding, or overflows; for every leading coefficient of magnitude at least 2 a dividend is given on which division never returns. C87_dense_div: exact when quotient and coefficients are whole numbers below 2^p, for every leading coefficient. C70_rounds: whenever div_mod returns, for every leading coefficient, a finite remainder is the dividend minus all rounds up to rounding, and the quotient keeps the last round of each degree. Which leading coefficients make division terminate is settled by C70_terminates, C70_lead_diverges and C70_terminates_iff: exactly those below 3/2 in magnitude, unless a round overflows."
  },
  {
   "property": "C71",
   "status": "proved",
   "theorems": [
    "Rustnomial.C71_monomial_checked",
    "Rustnomial.C71_sparse_mul_checked",
    "Rustnomial.C71_sparse_pow_checked",
    "Rustnomial.C71_sparse_pow_overflow",
    "Rustnomial.C71_monomial_shl_checked",
    "Rustnomial.C71_sparse_shl_checked",
    "Rustnomial.C71_integral_checked",
    "Rustnomial.C71_mul_poly_vec_checked"
   ],
   "note": "Every usize width. sparse pow: exact or panic always; the panic is characterised over domains."
  },
  {
   "property": "C72",
   "status": "proved",
   "theorems": [
    "Rustnomial.C72_monomial_wrapping",
    "Rustnomial.C72_sparse_shl_wrapping",
    "Rustnomial.C72_sparse_mul_wrapping",
    "Rustnomial.C72_sparse_pow_wrapping",
    "Rustnomial.C72_release_mul_false"
   ],
   "note": "Every usize width; C72_release_mul_false shows that this is not the product."
  },
  {
   "property": "C73",
   "status": "proved",
   "theorems": [
    "Rustnomial.C73_shift_min_checked",
    "Rustnomial.C73_shift_min_diverges",
    "Rustnomial.C73_shift_other"
   ],
   "note": "All types with i32 shifts, both builds."
  },
  {
   "property": "C74",
   "status": "proved",
   "theorems": [
    "Rustnomial.C74_add_term",
    "Rustnomial.C74_try_sub_term",
    "Rustnomial.C74_from_terms"
   ],
   "note": "Every usize width, both builds; allocation is assumed to succeed."
  },
  {
   "property": "C75",
   "status": "proved",
   "theorems": [
    "Rustnomial.C75_exact_dense",
    "Rustnomial.C75_exact_sparse",
    "Rustnomial.C75_dense_pow",
    "Rustnomial.C75_dense_division",
    "Rustnomial.C75_dense_rem",
    "Rustnomial.C75_sparse_mul_pow",
    "Rustnomial.C75_sparse_division"
   ],
   "note": "Every width and signedness; the same functions with exact arithmetic are shown equal to the ideal model."
  },
  {
   "property": "C76",
   "status": "proved",
   "theorems": [
    "Rustnomial.C76_sparse_neg",
    "Rustnomial.C76_sparse_mul_scalar",
    "Rustnomial.C76_sparse_add",
    "Rustnomial.C76_sparse_sub",
    "Rustnomial.C76_sparse_sub_dense",
    "Rustnomial.C76_sparse_add_term",
    "Rustnomial.C76_sparse_eval",
    "Rustnomial.C76_sparse_mul",
    "Rustnomial.C76_sparse_mul_unsigned",
    "Rustnomial.C76_sparse_derivative"
   ],
   "note": "Every width and signedness; the values which must fit are spelled out in the statements."
  },
  {
   "property": "C77",
   "status": "proved",
   "theorems": [
    "Rustnomial.C77_sparse_division",
    "Rustnomial.C77_dense_rem"
   ],
   "note": "Every width and signedness. Sparse: overflow checks on (C77_sparse_division); dense: both builds."
  },
  {
   "property": "C78",
   "status": "proved",
   "theorems": [
    "Rustnomial.C78_dense_div_scalar",
    "Rustnomial.C78_sparse_div_scalar",
    "Rustnomial.C78_dense_integral",
    "Rustnomial.C78_sparse_integral"
   ],
   "note": "Every width and signedness, both builds."
  },
  {
   "property": "C79",
   "status": "proved",
   "theorems": [
    "Rustnomial.C79_monomial_eval",
    "Rustnomial.C79_monomial_ops",
    "Rustnomial.C79_monomial_div_scalar",
    "Rustnomial.C79_monomial_derivative",
    "Rustnomial.C79_monomial_integral",
    "Rustnomial.C79_monomial_try_add",
    "Rustnomial.C79_linear_eval",
    "Rustnomial.C79_linear_ops",
    "Rustnomial.C79_linear_div_scalar",
    "Rustnomial.C79_linear_integral",
    "Rustnomial.C79_linear_try_add",
    "Rustnomial.C79_quadratic_eval",
    "Rustnomial.C79_quadratic_ops",
    "Rustnomial.C79_quadratic_div_scalar",
    "Rustnomial.C79_quadratic_derivative",
    "Rustnomial.C79_quadratic_integral",
    "Rustnomial.C79_quadratic_try_add",
    "Rustnomial.C79_quadratic_discriminant",
    "Rustnomial.C79_quadratic_roots",
    "Rustnomial.C79_array_eval",
    "Rustnomial.C79_array_derivative",
    "Rustnomial.C79_array_integral",
    "Rustnomial.C79_array_try_add"
   ],
   "note": "Every width and signedness; roots for signed types of even width at least 4."
  },
  {
   "property": "C80",
   "status": "proved",
   "theorems": [
    "Rustnomial.C80_dense_pow_fits",
    "Rustnomial.C80_dense_pow_norm",
    "Rustnomial.C80_dense_pow_unsigned",
    "Rustnomial.C80_sparse_pow_fits",
    "Rustnomial.C80_sparse_pow_unsigned",
    "Rustnomial.C80_dense_pow_exact",
    "Rustnomial.C80_sparse_pow_exact"
   ],
   "note": "Every width; exactly when, by the products of binary powering; for unsigned types by the coefficients of the power alone; a sufficient condition by a majorant."
  },
  {
   "property": "C81",
   "status": "proved",
   "theorems": [
    "Rustnomial.C81_sparse_scalar",
    "Rustnomial.C81_sparse_add_sub",
    "Rustnomial.C81_sparse_mul",
    "Rustnomial.C81_sparse_pow",
    "Rustnomial.C81_sparse_eval",
    "Rustnomial.C81_sparse_derivative",
    "Rustnomial.C81_dense_pow",
    "Rustnomial.C81_dense_derivative",
    "Rustnomial.C81_dense_add_term",
    "Rustnomial.C81_monomial",
    "Rustnomial.C81_linear",
    "Rustnomial.C81_quadratic",
    "Rustnomial.C81_array_eval"
   ],
   "note": "Every width and signedness; sparse and monomial evaluation for exponents below 2^32 (C07)."
  },
  {
   "property": "C82",
   "status": "proved",
   "theorems": [
    "Rustnomial.C82_dense_div_mod",
    "Rustnomial.C82_dense_rem_assign",
    "Rustnomial.C82_dense_monic",
    "Rustnomial.C82_sparse_division",
    "Rustnomial.C82_dense_div_mod_exact",
    "Rustnomial.C82_dense_rem_assign_exact"
   ],
   "note": "Every width and signedness. Dense % is C77."
  },
  {
   "property": "C83",
   "status": "proved",
   "theorems": [
    "Rustnomial.Fl.C83_sqrt",
    "Rustnomial.Fl.C83_sqrt_error",
    "Rustnomial.Fl.C83_linear_root"
   ],
   "note": "Both formats; correct rounding of sqrt itself is IEEE 754 and part of the float model, see DESIGN section 2."
  },
  {
   "property": "C84",
   "status": "proved",
   "theorems": [
    "Rustnomial.Fl.C84_roots_error",
    "Rustnomial.Fl.C84_classify",
    "Rustnomial.Fl.C84_integer_roots",
    "Rustnomial.Fl.C84_zero_leading",
    "Rustnomial.Fl.C84_nan",
    "Rustnomial.Fl.C84_cancellation_false",
    "Rustnomial.Fl.C84_overflow_false"
   ],
   "note": "Both formats; the last sentence is C84_zero_leading, C84_nan, C84_cancellation_false, C84_overflow_false."
  },
  {
   "property": "C85",
   "status": "proved",
   "theorems": [
    "Rustnomial.Fl.C85_add",
    "Rustnomial.Fl.C85_sub",
    "Rustnomial.Fl.C85_neg",
    "Rustnomial.Fl.C85_mul_scalar",
    "Rustnomial.Fl.C85_div_scalar",
    "Rustnomial.Fl.C85_mul_error",
    "Rustnomial.Fl.C85_mul_keys",
    "Rustnomial.Fl.C85_derivative_error",
    "Rustnomial.Fl.C85_derivative_returns",
    "Rustnomial.Fl.C85_integral_error",
    "Rustnomial.Fl.C85_derivative_max_false",
    "Rustnomial.Fl.C85_degree",
    "Rustnomial.Fl.C85_terms",
    "Rustnomial.Fl.C85_eq",
    "Rustnomial.Fl.C85_div_outcome",
    "Rustnomial.Fl.C85_div_equal",
    "Rustnomial.Fl.C85_div_equal_false",
    "Rustnomial.Fl.C85_eval_error",
    "Rustnomial.Fl.C85_eval_exact",
    "Rustnomial.Fl.C85_div_equal_outcome",
    "Rustnomial.Fl.C85_div_equal_terminates",
    "Rustnomial.Fl.C85_div_equal_diverges"
   ],
   "note": "Any format for the arithmetic, both formats where usize is converted; the precision of powi is a parameter of C85_eval_error (it is unspecified in Rust)."
  },
  {
   "property": "C86",
   "status": "proved",
   "theorems": [
    "Rustnomial.Fl.C86_dense",
    "Rustnomial.Fl.C86_dense_self",
    "Rustnomial.Fl.C86_dense_term",
    "Rustnomial.Fl.C86_monomial",
    "Rustnomial.Fl.C86_binomial",
    "Rustnomial.Fl.C86_trinomial",
    "Rustnomial.Fl.C86_array",
    "Rustnomial.Fl.C86_binomial_eval",
    "Rustnomial.Fl.C86_trinomial_eval",
    "Rustnomial.Fl.C86_monomial_eval",
    "Rustnomial.Fl.C86_array_eval",
    "Rustnomial.Fl.C86_eval_exact",
    "Rustnomial.Fl.C86_binomial_add",
    "Rustnomial.Fl.C86_trinomial_add",
    "Rustnomial.Fl.C86_mul_scalar",
    "Rustnomial.Fl.C86_div_scalar",
    "Rustnomial.Fl.C86_monomial_mul",
    "Rustnomial.Fl.C86_derivative",
    "Rustnomial.Fl.C86_monomial_derivative",
    "Rustnomial.Fl.C86_monomial_integral",
    "Rustnomial.Fl.C86_integral",
    "Rustnomial.Fl.C86_array_calculus_f64",
    "Rustnomial.Fl.C86_array_calculus_f32",
    "Rustnomial.Fl.C86_monomial_pow"
   ],
   "note": "Any format for the arithmetic, both formats where usize is converted; the precision of powi is a parameter of C86_monomial_eval and C86_monomial_pow."
  },
  {
   "property": "C87",
   "status": "proved",
   "theorems": [
    "Rustnomial.Fl.C87_dense_add_sub",
    "Rustnomial.Fl.C87_sparse_add_sub",
    "Rustnomial.Fl.C87_dense_mul",
    "Rustnomial.Fl.C87_sparse_mul",
    "Rustnomial.Fl.C87_dense_pow",
    "Rustnomial.Fl.C87_dense_div",
    "Rustnomial.Fl.C87_sparse_pow",
    "Rustnomial.Fl.C87_dense_scalar",
    "Rustnomial.Fl.C87_sparse_scalar",
    "Rustnomial.Fl.C87_dense_derivative",
    "Rustnomial.Fl.C87_sparse_derivative"
   ],
   "note": "Any format with p + q <= w for the arithmetic, both formats where usize is converted. Evaluation at whole numbers is C66_eval_exact and C85_eval_exact."
  },
  {
   "property": "C88",
   "status": "proved",
   "theorems": [
    "Rustnomial.Fl.C88_parse_iff",
    "Rustnomial.Fl.C88_parse",
    "Rustnomial.Fl.C88_dense",
    "Rustnomial.Fl.C88_sparse",
    "Rustnomial.Fl.C88_monomial",
    "Rustnomial.Fl.C88_binomial",
    "Rustnomial.Fl.C88_trinomial",
    "Rustnomial.Fl.C88_texts",
    "Rustnomial.Fl.C88_nonfinite"
   ],
   "note": "Any format with f.q < f.w. Display of the floats themselves (the standard library chooses the digits) is a parameter satisfying DisplaysFloats; showExact_displays shows that such a display exists."
  },
  {
   "property": "C89",
   "status": "proved",
   "theorems": [
    "Rustnomial.Fl.C89_dense_pow_error",
    "Rustnomial.Fl.C89_dense_pow_returns",
    "Rustnomial.Fl.C89_pow_false",
    "Rustnomial.Fl.C89_sparse_pow_error"
   ],
   "note": "Any format; the last sentence is C89_pow_false."
  },
  {
   "property": "C90",
   "status": "proved",
   "theorems": [
    "Rustnomial.Fl.C90_deflation",
    "Rustnomial.Fl.C90_deflation_eval",
    "Rustnomial.Fl.C90_round",
    "Rustnomial.Fl.C90_deflation_backward",
    "Rustnomial.Fl.C90_dense_roots",
    "Rustnomial.Fl.C90_sparse_roots",
    "Rustnomial.Fl.C90_returns",
    "Rustnomial.Fl.C90_infinite_iff",
    "Rustnomial.Fl.C90_linear",
    "Rustnomial.Fl.C90_quadratic",
    "Rustnomial.Fl.C90_overflow_false"
   ],
   "note": "Any format (C90_quadratic: 4 <= p, 2p <= q); the solver is an arbitrary function; cbrt in the cubic formula is a parameter, so no error bound for degree three. The last sentence is C90_overflow_false."
  },
  {
   "property": "C91",
   "status": "proved",
   "theorems": [
    "Rustnomial.Fl.C91_try_add",
    "Rustnomial.Fl.C91_try_sub",
    "Rustnomial.Fl.C91_outcomes",
    "Rustnomial.Fl.C91_add_poly",
    "Rustnomial.Fl.C91_sub_poly",
    "Rustnomial.Fl.C91_int",
    "Rustnomial.Fl.C91_mul_poly_vec",
    "Rustnomial.Fl.C91_mul_int",
    "Rustnomial.Fl.C91_from_terms",
    "Rustnomial.Fl.C91_macro_sink",
    "Rustnomial.Fl.C91_macro"
   ],
   "note": "Any format; C91_from_terms, C91_int, C91_mul_int and C91_macro need 1 <= p and p + q <= w (or p <= w), true of both formats."
  },
  {
   "property": "C92",
   "status": "proved",
   "theorems": [
    "Rustnomial.Fl.C92_widen",
    "Rustnomial.Fl.C92_widen_mul",
    "Rustnomial.Fl.C92_of_int",
    "Rustnomial.Fl.C92_table",
    "Rustnomial.Fl.C92_upcast_float",
    "Rustnomial.Fl.C92_upcast_int",
    "Rustnomial.Fl.C92_dense_shift",
    "Rustnomial.Fl.C92_sparse_shift",
    "Rustnomial.Fl.C92_fixed_shift",
    "Rustnomial.Fl.C92_trim"
   ],
   "note": "Any formats f, g with Wider f g (DoubleWide f g for products), both shown of binary32 and binary64."
  },
  {
   "property": "C93",
   "status": "proved",
   "theorems": [
    "Rustnomial.Fl.C93_dense_f64",
    "Rustnomial.Fl.C93_dense_f32",
    "Rustnomial.Fl.C93_sparse_f64",
    "Rustnomial.Fl.C93_sparse_f32",
    "Rustnomial.Fl.C93_dense_whole",
    "Rustnomial.Fl.C93_sparse_whole",
    "Rustnomial.Fl.C93_limits",
    "Rustnomial.Fl.C93_replace_c"
   ],
   "note": "Underflow adds a multiple of eta, stated explicitly. Sparse powers: any PowUsize with relative error delta (exact powers for the whole-number case)."
  },
  {
   "property": "C94",
   "status": "partial",
   "theorems": [
    "Rustnomial.Fl.C94_roots_backward",
    "Rustnomial.Fl.C94_real_factors_shape",
    "Rustnomial.Fl.C94_real_factors",
    "Rustnomial.Fl.C94_classify",
    "Rustnomial.Fl.C94_whole",
    "Rustnomial.Fl.C94_complex_factors_partial",
    "Rustnomial.Fl.C94_array",
    "Rustnomial.Fl.C94_complex_false",
    "Rustnomial.Fl.C94_constant_false"
   ],
   "note": "Real factors in full. Complex factors are x + z for the roots z instead of x - z, so their linear coefficient is close to -b: the claim is false for them (C94_complex_false), what holds is C94_complex_factors_partial."
  },
  {
   "property": "C95",
   "status": "proved",
   "theorems": [
    "Rustnomial.Fl.C95_cubic_backward",
    "Rustnomial.Fl.C95_triple_root",
    "Rustnomial.Fl.C95_roots",
    "Rustnomial.Fl.C95_roots_triple",
    "Rustnomial.Fl.C95_first_false"
   ],
   "note": "That the first root is not always near a root (C95_first_false) is the defect of C46 in floating point."
  },
  {
   "property": "C96",
   "status": "proved",
   "theorems": [
    "Rustnomial.C96_monomial_in_place",
    "Rustnomial.C96_binomial_in_place",
    "Rustnomial.C96_trinomial_in_place",
    "Rustnomial.C96_sparse_in_place",
    "Rustnomial.C96_dense_in_place",
    "Rustnomial.C96_fixed_shift_in_place",
    "Rustnomial.C96_sparse_add_in_place",
    "Rustnomial.C96_sparse_scalar_in_place",
    "Rustnomial.C96_dense_more_in_place",
    "Rustnomial.C96_dense_shift_in_place"
   ],
   "note": "The variants are modelled separately (Model/Assign.lean; those of Polynomial in Model/Dense.lean). % and %= of Polynomial differ (C22). What the values are is in C11, C13, C15, C25, C26, C27, C50, C51."
  },
  {
   "property": "C97",
   "status": "proved",
   "theorems": [
    "Rustnomial.C97_pow",
    "Rustnomial.C97_dense_mul",
    "Rustnomial.C97_sparse_mul",
    "Rustnomial.C97_eval",
    "Rustnomial.C97_div_mod"
   ],
   "note": "About instrumented copies of the functions (Model/Cost.lean) which the same theorems show to return the same values."
  },
  {
   "property": "C98",
   "status": "proved",
   "theorems": [
    "Rustnomial.Fl.C98_unique",
    "Rustnomial.Fl.C98_add",
    "Rustnomial.Fl.C98_neg",
    "Rustnomial.Fl.C98_sub",
    "Rustnomial.Fl.C98_mul",
    "Rustnomial.Fl.C98_div",
    "Rustnomial.Fl.C98_eq",
    "Rustnomial.Fl.C98_of_nat",
    "Rustnomial.Fl.C98_abs_sqrt",
    "Rustnomial.Fl.C98_sign"
   ],
   "note": "A check of the float model against an independent statement of the standard; C98_unique shows that statement complete for rounded results."
  },
  {
   "property": "C99",
   "status": "proved",
   "theorems": [
    "Rustnomial.C99_div_mod",
    "Rustnomial.C99_rem_assign",
    "Rustnomial.C99_stuck",
    "Rustnomial.C99_cases",
    "Rustnomial.C99_zero",
    "Rustnomial.C99_rem_assign_min"
   ],
   "note": "C99_cases shows that the two kinds cover every division; RoundsFit is stated in terms of the polynomials alone (SpecMachineDiv.lean)."
  },
  {
   "property": "C100",
   "status": "proved",
   "theorems": [
    "Rustnomial.Fl.C100_powi_error",
    "Rustnomial.Fl.C100_powi_exact",
    "Rustnomial.Fl.C100_powi_zero",
    "Rustnomial.Fl.C100_sparse_eval",
    "Rustnomial.Fl.C100_sparse_eval_exact",
    "Rustnomial.Fl.C100_stored_zero_false",
    "Rustnomial.Fl.C100_monomial_eval",
    "Rustnomial.Fl.C100_monomial_pow",
    "Rustnomial.C100_int_pow"
   ],
   "note": "intPow and powi are the algorithms of the standard library and of compiler-rt, read from memory, not from /repo; Rust leaves the precision of powi open."
  },
  {
   "property": "C101",
   "status": "proved",
   "theorems": [
    "Rustnomial.C101_trimmed",
    "Rustnomial.C101_trimmed_div",
    "Rustnomial.C101_grow_length",
    "Rustnomial.C101_sum_length",
    "Rustnomial.C101_product_length",
    "Rustnomial.C101_calculus_length",
    "Rustnomial.C101_shift_length",
    "Rustnomial.C101_rem_assign_length",
    "Rustnomial.C101_sparse_sum_entries",
    "Rustnomial.C101_sparse_build_entries",
    "Rustnomial.C101_sparse_product_entries",
    "Rustnomial.C101_sparse_div_entries",
    "Rustnomial.C101_sparse_counts",
    "Rustnomial.C101_storage_grows",
    "Rustnomial.C101_trimmed_degree",
    "Rustnomial.C101_calculus_trimmed",
    "Rustnomial.C101_parse_size"
   ],
   "note": "Only lengths, trimming and the set of stored degrees; which polynomial the values stand for is the subject of the other claims."
  },
  {
   "property": "C102",
   "status": "proved",
   "theorems": [
    "Rustnomial.C102_add_poly_dense",
    "Rustnomial.C102_add_poly_sparse",
    "Rustnomial.C102_sub_poly_dense",
    "Rustnomial.C102_sub_poly_sparse",
    "Rustnomial.C102_from_terms_dense",
    "Rustnomial.C102_from_terms_sparse",
    "Rustnomial.C102_mul_poly_vec_dense",
    "Rustnomial.C102_mul_poly_vec_sparse",
    "Rustnomial.C102_parse_dense",
    "Rustnomial.C102_parse_sparse",
    "Rustnomial.C102_parse_linear",
    "Rustnomial.C102_parse_quadratic",
    "Rustnomial.C102_parse_monomial",
    "Rustnomial.C102_poly_add",
    "Rustnomial.C102_poly_sub",
    "Rustnomial.C102_wrap",
    "Rustnomial.C102_parse_wrap",
    "Rustnomial.C102_round_dense",
    "Rustnomial.C102_round_sparse",
    "Rustnomial.C102_round_monomial",
    "Rustnomial.C102_round_linear",
    "Rustnomial.C102_round_quadratic",
    "Rustnomial.C102_unsigned_order",
    "Rustnomial.C102_order_matters",
    "Rustnomial.C102_huge_degree"
   ],
   "note": "cap stands for isize::MAX / size of a coefficient; running out of memory earlier is not modelled. TextFits and RunFits (SpecBuild.lean) are stated with polynomials and prefixes only. C102_order_matters and C102_huge_degree are concrete witnesses."
  },
  {
   "property": "C103",
   "status": "proved",
   "theorems": [
    "Rustnomial.C103_dense",
    "Rustnomial.C103_sparse",
    "Rustnomial.C103_monomial",
    "Rustnomial.C103_binomial",
    "Rustnomial.C103_trinomial",
    "Rustnomial.C103_array",
    "Rustnomial.C103_numbers",
    "Rustnomial.C103_build",
    "Rustnomial.C103_from_str",
    "Rustnomial.C103_degrees",
    "Rustnomial.C103_converse_false"
   ],
   "note": "OnlyPanics a b: unless a panics, b does the same (same value or endless loop). MonoMutPoly in C103_build has instances for all six types."
  },
  {
   "property": "C104",
   "status": "proved",
   "theorems": [
    "Rustnomial.C104_products",
    "Rustnomial.C104_linear",
    "Rustnomial.C104_quadratic",
    "Rustnomial.C104_array",
    "Rustnomial.C104_array_term",
    "Rustnomial.C104_monomial",
    "Rustnomial.C104_mul",
    "Rustnomial.C104_mul_wrap",
    "Rustnomial.C104_dense_unsigned",
    "Rustnomial.C104_sparse_unsigned",
    "Rustnomial.C104_signed_wrap"
   ],
   "note": "Specification in SpecBuild: TakesTerms, TakesTermsWrap (outcome with and without overflow checks), EndsAfter (position of the refused term), FitsWhile, ProductsFit, SameDegree. C104_products: the products of mul_poly_vec add up to the product."
  },
  {
   "property": "C105",
   "status": "proved",
   "theorems": [
    "Rustnomial.C105_dense_definite",
    "Rustnomial.C105_sparse_definite",
    "Rustnomial.C105_definite_wrap",
    "Rustnomial.C105_definite_unsigned",
    "Rustnomial.C105_dense_replace_c",
    "Rustnomial.C105_sparse_replace_c",
    "Rustnomial.C105_replace_c_wrap",
    "Rustnomial.C105_linear_root",
    "Rustnomial.C105_array_root",
    "Rustnomial.C105_real_factors",
    "Rustnomial.C105_complex_factors",
    "Rustnomial.C105_roots_wrap",
    "Rustnomial.C105_factors_wrap",
    "Rustnomial.C105_array_same"
   ],
   "note": "HornerFits and TermwiseFits (SpecBuild) say which values have to fit in an evaluation; RootsFit which ones in the roots. C105_dense_replace_c: an integral from integral() has constant coefficient zero, so there it never panics."
  },
  {
   "property": "C106",
   "status": "proved",
   "theorems": [
    "Rustnomial.C106_dense_checked",
    "Rustnomial.C106_sparse_checked",
    "Rustnomial.C106_dense_wrap",
    "Rustnomial.C106_sparse_wrap"
   ],
   "note": "OpFits says when one operation fits, FitsRun the whole history; Op.modulo takes the numbers of an operation modulo 2^bits. try_sub_term of unsigned types depends on the stored length and is in C30 and C104; shifts by i32::MIN without checks are in C73. Memory is unbounded here (C102 bounds it)."
  },
  {
   "property": "C107",
   "status": "proved",
   "theorems": [
    "Rustnomial.C107_array",
    "Rustnomial.C107_binomial",
    "Rustnomial.C107_trinomial",
    "Rustnomial.C107_monomial",
    "Rustnomial.C107_binomial_checked",
    "Rustnomial.C107_trinomial_checked",
    "Rustnomial.C107_array_checked",
    "Rustnomial.C107_monomial_checked",
    "Rustnomial.C107_binomial_wrap",
    "Rustnomial.C107_trinomial_wrap",
    "Rustnomial.C107_array_wrap",
    "Rustnomial.C107_monomial_wrap"
   ],
   "note": "termSpec, arraySpec, boundedSpec and monomialSpec are the mathematical steps, logRun the mathematical history, AllSafe says that a condition holds at every step. Memory and usize are unbounded here (C73 bounds degrees)."
  },
  {
   "property": "C108",
   "status": "partial",
   "theorems": [
    "Rustnomial.C108_dense_derivative_linear",
    "Rustnomial.C108_dense_product_rule",
    "Rustnomial.C108_dense_power_rule",
    "Rustnomial.C108_macros_derivative",
    "Rustnomial.C108_dense_integral_linear",
    "Rustnomial.C108_dense_fundamental",
    "Rustnomial.C108_dense_by_parts",
    "Rustnomial.C108_macros_integral",
    "Rustnomial.C108_sparse_derivative_laws",
    "Rustnomial.C108_sparse_integral_linear",
    "Rustnomial.C108_sparse_integral_derivative",
    "Rustnomial.C108_sparse_fundamental_partial"
   ],
   "note": "Missing: for SparsePolynomial the fundamental theorem is false when an exponent reaches 2^32, where evaluation uses a truncated exponent (C07, C19_sparse_integral_false). ResEq: both sides return and are ==; ResAgree: if both return, they are ==. The fundamental theorem for SparsePolynomial (suffix _partial) needs exponents below the bound up to which upow is exact, since it evaluates (C07); C108_sparse_integral_derivative states the same without evaluation. Conversions that fail are in C16 to C18."
  },
  {
   "property": "C109",
   "status": "proved",
   "theorems": [
    "Rustnomial.C109_div_mod_of_mul_add",
    "Rustnomial.C109_mul_add_of_div_mod",
    "Rustnomial.C109_exact_quotient",
    "Rustnomial.C109_remainder_theorem",
    "Rustnomial.C109_factor_theorem",
    "Rustnomial.C109_modular_arithmetic",
    "Rustnomial.C109_int_always_returns_iff",
    "Rustnomial.C109_int_remainder_theorem",
    "Rustnomial.C109_int_div_mod_of_mul_add"
   ],
   "note": "For SparsePolynomial no such laws hold: division does not return once the dividend has larger degree (C61). Dense % (without assignment) does not return either (C22), so the laws are about div_mod, floor_div and %=. Fuel at least the stored length plus one is enough."
  },
  {
   "property": "C110",
   "status": "proved",
   "theorems": [
    "Rustnomial.C110_dense_add_degree",
    "Rustnomial.C110_dense_mul_degree",
    "Rustnomial.C110_dense_shr_degree",
    "Rustnomial.C110_dense_shl_degree",
    "Rustnomial.C110_dense_derivative_degree",
    "Rustnomial.C110_dense_integral_degree",
    "Rustnomial.C110_sparse_add_degree",
    "Rustnomial.C110_sparse_mul_degree",
    "Rustnomial.C110_sparse_shr_degree",
    "Rustnomial.C110_sparse_derivative_degree",
    "Rustnomial.C110_sparse_integral_degree",
    "Rustnomial.C110_monomial_degree",
    "Rustnomial.C110_fixed_derivative_degree",
    "Rustnomial.C110_fixed_sum_degree",
    "Rustnomial.C110_fixed_shr_degree",
    "Rustnomial.C110_monomial_pow_degree",
    "Rustnomial.C110_fixed_integral_degree"
   ],
   "note": "Dense >> is stated for values without leading zeros, since others can panic (C14); powers of Monomial for exponents below the bound up to which upow is exponentiation (C50)."
  },
  {
   "property": "C111",
   "status": "proved",
   "theorems": [
    "Rustnomial.C111_append",
    "Rustnomial.C111_concat",
    "Rustnomial.C111_swap",
    "Rustnomial.C111_separators",
    "Rustnomial.C111_same_clean",
    "Rustnomial.C111_separators_false",
    "Rustnomial.C111_only_separators",
    "Rustnomial.C111_flip",
    "Rustnomial.C111_flip_int",
    "Rustnomial.C111_leading_plus",
    "Rustnomial.C111_leading_plus_int"
   ],
   "note": "The exception for separators in front of a first sign is C111_separators_false. White space other than the space character is never accepted (C39_legal_chars); C111_separators asks for its absence so that the errors agree too."
  },
  {
   "property": "C112",
   "status": "proved",
   "theorems": [
    "Rustnomial.Fl.C112_dense_error",
    "Rustnomial.Fl.C112_sparse_error",
    "Rustnomial.Fl.C112_dense_whole",
    "Rustnomial.Fl.C112_sparse_whole",
    "Rustnomial.Fl.C112_returns"
   ],
   "note": "The bound errStep and the exact effect absStepDiv are in SpecFloatHistory.lean. Finiteness is asked for every value on the way (FiniteRun), since clearing or shifting can remove an infinity."
  },
  {
   "property": "C113",
   "status": "proved",
   "theorems": [
    "Rustnomial.C113_term",
    "Rustnomial.C113_any_error",
    "Rustnomial.C113_any_accept",
    "Rustnomial.C113_never",
    "Rustnomial.C113_error",
    "Rustnomial.C113_accept"
   ],
   "note": "The faults are defined in SpecParseErrors.lean, for the text without separators. That a degree that can not be read is reported as CoeffCouldNotBeParsed is defect 14."
  },
  {
   "property": "C114",
   "status": "proved",
   "theorems": [
    "Rustnomial.C114_lists",
    "Rustnomial.C114_lists_sparse",
    "Rustnomial.C114_only",
    "Rustnomial.C114_only_sparse",
    "Rustnomial.C114_eval",
    "Rustnomial.C114_scale",
    "Rustnomial.C114_mul",
    "Rustnomial.C114_shl",
    "Rustnomial.C114_deflate",
    "Rustnomial.C114_derivative"
   ],
   "note": "Exact arithmetic and an exact solver (ExactOracle) are assumed as in C48; floating point is C90. Solvable is defined in SpecRootLaws.lean; that no other polynomial is listed completely is C114_only."
  },
  {
   "property": "C115",
   "status": "proved",
   "theorems": [
    "Rustnomial.Fl.C115_add_coeff",
    "Rustnomial.Fl.C115_sub_coeff",
    "Rustnomial.Fl.C115_neg_coeff",
    "Rustnomial.Fl.C115_scale_coeff",
    "Rustnomial.Fl.C115_mul_coeff",
    "Rustnomial.Fl.C115_same",
    "Rustnomial.Fl.C115_congr",
    "Rustnomial.Fl.C115_add_laws",
    "Rustnomial.Fl.C115_mul_neg",
    "Rustnomial.Fl.C115_mul_const",
    "Rustnomial.Fl.C115_mul_comm",
    "Rustnomial.Fl.C115_scale_laws",
    "Rustnomial.Fl.C115_eval_neg",
    "Rustnomial.Fl.C115_shl_coeff",
    "Rustnomial.Fl.C115_shl_laws",
    "Rustnomial.Fl.C115_laws_false"
   ],
   "note": "SameNum, coeffOf and convSum are defined in SpecFloatLaws.lean; AllNumbers asks for finite members of the format, AllValid for members of the format (NaN and infinities included). The laws that fail are refuted in C115_laws_false (binary64), C67_add_assoc_false and C68_mul_comm_false."
  },
  {
   "property": "C116",
   "status": "proved",
   "theorems": [
    "Rustnomial.Fl.C116_coeffs",
    "Rustnomial.Fl.C116_mono",
    "Rustnomial.Fl.C116_integral_f64",
    "Rustnomial.Fl.C116_integral_f32",
    "Rustnomial.Fl.C116_reflect",
    "Rustnomial.Fl.C116_even_odd",
    "Rustnomial.Fl.C116_upow",
    "Rustnomial.Fl.C116_sparse",
    "Rustnomial.Fl.C116_sparse_false",
    "Rustnomial.Fl.C116_upow_neg",
    "Rustnomial.Fl.C116_sparse_reflect",
    "Rustnomial.Fl.C116_fixed",
    "Rustnomial.Fl.C116_fixed_reflect",
    "Rustnomial.Fl.C116_sparse_odd",
    "Rustnomial.Fl.C116_monomial_reflect"
   ],
   "note": "Le, the order of IEEE 754, and reflect are defined in SpecFloatOrder.lean. The formats have precision p >= 1, p <= w and, for powers, q < w, as f32 and f64 have. powi is the algorithm of compiler-rt as in C100."
  },
  {
   "property": "C117",
   "status": "proved",
   "theorems": [
    "Rustnomial.Fl.C117_neg",
    "Rustnomial.Fl.C117_scale_false",
    "Rustnomial.Fl.C117_linear_neg",
    "Rustnomial.Fl.C117_mirror",
    "Rustnomial.Fl.C117_cubic_neg",
    "Rustnomial.Fl.C117_cubic_mirror",
    "Rustnomial.Fl.C117_order",
    "Rustnomial.Fl.C117_poly_neg",
    "Rustnomial.Fl.C117_sparse_neg",
    "Rustnomial.C117_int_neg",
    "Rustnomial.C117_int_mirror",
    "Rustnomial.C117_real_scale",
    "Rustnomial.C117_real_mirror",
    "Rustnomial.C117_real_cubic_scale",
    "Rustnomial.C117_real_cubic_mirror",
    "Rustnomial.C117_real_roots_scale"
   ],
   "note": "swap, mirror, reversed and the relations between answers are defined in SpecRootSymmetry.lean. The external eigenvalue solver is any function (over floats: one that answers with the same numbers when only signs of zeros differ); the cube root over floats is any function with that property, odd for the mirrored cubic."
  },
  {
   "property": "C118",
   "status": "proved",
   "theorems": [
    "Rustnomial.C118_dense_checked",
    "Rustnomial.C118_dense_wrap",
    "Rustnomial.C118_sparse_checked",
    "Rustnomial.C118_sparse_wrap"
   ],
   "note": "roomSpec, storedSpec, roomAfter, storedAfter and the refusals are defined in SpecRoomHistory.lean; runLog, logRun and AllSafe as in C107. Removes the restriction of try_sub_term to signed types from C106."
  },
  {
   "property": "C119",
   "status": "proved",
   "theorems": [
    "Rustnomial.C119_dense",
    "Rustnomial.C119_sparse",
    "Rustnomial.C119_values",
    "Rustnomial.C119_dense_checked",
    "Rustnomial.C119_sparse_checked",
    "Rustnomial.C119_dense_wrap",
    "Rustnomial.C119_sparse_wrap",
    "Rustnomial.C119_values_wrap",
    "Rustnomial.C119_field"
   ],
   "note": "Expressions, their denotation, Goes (every step possible) and Defined are in SpecExpr.lean and Model/Expr.lean; MulFitsDown, MulFitsUp and PowFits as in C56, C76 and C80. >> is left out because the dense operator depends on leading zeros left by earlier steps (C14)."
  },
  {
   "property": "C120",
   "status": "proved",
   "theorems": [
    "Rustnomial.Fl.C120_dense_error",
    "Rustnomial.Fl.C120_sparse_error",
    "Rustnomial.Fl.C120_dense_value",
    "Rustnomial.Fl.C120_dense_whole",
    "Rustnomial.Fl.C120_sparse_whole",
    "Rustnomial.Fl.C120_sparse_returns",
    "Rustnomial.Fl.C120_dense_panics",
    "Rustnomial.Fl.C120_normal",
    "Rustnomial.Fl.C120_whole_of_total"
   ],
   "note": "RExpr.map, major (absolute values), size, rounds, Normal (no underflow), AllValues, WholeExpr and total are in SpecFloatExpr.lean; u is the unit roundoff of C66, powRounds that of C89. When a power panics on a value met on the way is described by C89."
  },
  {
   "property": "C121",
   "status": "proved",
   "theorems": [
    "Rustnomial.C121_outcome",
    "Rustnomial.C121_dense_program",
    "Rustnomial.C121_sparse_program",
    "Rustnomial.C121_same_answer",
    "Rustnomial.C121_checks_only_panic",
    "Rustnomial.C121_dense_wrap_program",
    "Rustnomial.C121_sparse_wrap_program",
    "Rustnomial.C121_same_wrap_answer"
   ],
   "note": "Calc and the programs are in Model/Calc.lean, Outcome, Reads and Yields in SpecCalc.lean, DenseOutcome and SparseOutcome (which steps are possible: MulFitsDown, MulFitsUp, PowFits as in C119) and, without overflow checks, DenseWrapOutcome and SparseWrapOutcome in Props/Calc.lean. The limit of vectors is applied to parsing only; degrees that overflow usize in the operators are the matter of C71."
  },
  {
   "property": "C122",
   "status": "proved",
   "theorems": [
    "Rustnomial.C122_dense_determined",
    "Rustnomial.C122_sparse_determined",
    "Rustnomial.C122_dense_zero",
    "Rustnomial.C122_dense_function",
    "Rustnomial.C122_congruence",
    "Rustnomial.C122_special_points",
    "Rustnomial.C122_checked_determined",
    "Rustnomial.C122_sparse_checked_determined",
    "Rustnomial.C122_one_value",
    "Rustnomial.C122_wrap_determined",
    "Rustnomial.C122_wrap_vanishes_iff",
    "Rustnomial.C122_wrap_vanishing_degree",
    "Rustnomial.C122_float_false"
   ],
   "note": "States when comparing values (as the tests of the crate do) is enough to know that two polynomials are equal. C122_float_false shows that the statement does not extend to floats."
  },
  {
   "property": "C123",
   "status": "proved",
   "theorems": [
    "Rustnomial.C123_gcd_rem_assign",
    "Rustnomial.C123_gcd_div_mod",
    "Rustnomial.C123_common_roots",
    "Rustnomial.C123_coprime",
    "Rustnomial.C123_squarefree",
    "Rustnomial.C123_extended",
    "Rustnomial.C123_extended_panics",
    "Rustnomial.C123_gcd_rem_diverges",
    "Rustnomial.C123_gcd_rem_zero",
    "Rustnomial.C123_sparse_gcd"
   ],
   "note": "The programs are in Model/Euclid.lean (the crate has no gcd function; they are what a caller writes), IsGcd in SpecEuclid.lean. A claim about the operators working together: the divergences are defects of % (C22) and of the sparse division (C27), the panic is that of C11."
  },
  {
   "property": "C124",
   "status": "proved",
   "theorems": [
    "Rustnomial.Fl.C124_dense_backward",
    "Rustnomial.Fl.C124_array_backward",
    "Rustnomial.Fl.C124_binomial_backward",
    "Rustnomial.Fl.C124_trinomial_backward",
    "Rustnomial.Fl.C124_sparse_backward",
    "Rustnomial.Fl.C124_error_computed",
    "Rustnomial.Fl.C124_sign",
    "Rustnomial.Fl.C124_sign_complete",
    "Rustnomial.Fl.C124_bracket",
    "Rustnomial.Fl.C124_gamma_small",
    "Rustnomial.Fl.C124_sign_in_floats"
   ],
   "note": "NearPoly, evalGamma, evalUnder, absCoeffs and SignTest are defined in SpecFloatCertify.lean. The test is one a caller makes; the crate has none."
  },
  {
   "property": "C125",
   "status": "proved",
   "theorems": [
    "Rustnomial.C125_compose",
    "Rustnomial.C125_compose_panics_iff",
    "Rustnomial.C125_shift",
    "Rustnomial.C125_compose_terms",
    "Rustnomial.C125_compose_terms_zero",
    "Rustnomial.C125_sparse_compose",
    "Rustnomial.C125_compose_agree",
    "Rustnomial.C125_newton",
    "Rustnomial.C125_newton_samples",
    "Rustnomial.C125_newton_repeated"
   ],
   "note": "The programs are in Model/Compose.lean (the crate has no such functions; they are what a caller writes). The panics are those of C11 and C12."
  },
  {
   "property": "C126",
   "status": "proved",
   "theorems": [
    "Rustnomial.C126_dense_read",
    "Rustnomial.C126_dense_binary",
    "Rustnomial.C126_dense_unary",
    "Rustnomial.C126_dense_div",
    "Rustnomial.C126_dense_calculus",
    "Rustnomial.C126_eq",
    "Rustnomial.C126_display",
    "Rustnomial.C126_sparse_read",
    "Rustnomial.C126_sparse_binary",
    "Rustnomial.C126_sparse_unary",
    "Rustnomial.C126_sparse_div",
    "Rustnomial.C126_sparse_calculus",
    "Rustnomial.C126_expr",
    "Rustnomial.C126_expr_ring",
    "Rustnomial.C126_history",
    "Rustnomial.C126_image",
    "Rustnomial.C126_image_ring",
    "Rustnomial.C126_integers_in_rationals",
    "Rustnomial.C126_zero_signs",
    "Rustnomial.C126_zero_signs_read",
    "Rustnomial.C126_zero_signs_sparse",
    "Rustnomial.C126_monomial",
    "Rustnomial.C126_monomial_more",
    "Rustnomial.C126_binomial",
    "Rustnomial.C126_binomial_more",
    "Rustnomial.C126_trinomial",
    "Rustnomial.C126_trinomial_more",
    "Rustnomial.C126_array"
   ],
   "note": "Alike, AlikeDiv, AlikeCount and the relations between polynomials, expressions and histories are in SpecParam.lean. This also bounds what the single NaN of the float model leaves out: C126_image applies to the map that forgets the payload and sign of a NaN."
  },
  {
   "property": "C127",
   "status": "proved",
   "theorems": [
    "Rustnomial.Fl.C127_add",
    "Rustnomial.Fl.C127_sub",
    "Rustnomial.Fl.C127_mul",
    "Rustnomial.Fl.C127_div",
    "Rustnomial.Fl.C127_sqrt",
    "Rustnomial.Fl.C127_eval",
    "Rustnomial.Fl.C127_eval_whole",
    "Rustnomial.Fl.C127_sum",
    "Rustnomial.Fl.C127_scalar",
    "Rustnomial.Fl.C127_product",
    "Rustnomial.Fl.C127_derivative_f64",
    "Rustnomial.Fl.C127_derivative_f32",
    "Rustnomial.Fl.C127_integral_f64",
    "Rustnomial.Fl.C127_integral_f32",
    "Rustnomial.Fl.C127_eval_fixed",
    "Rustnomial.Fl.C127_roots",
    "Rustnomial.Fl.C127_false"
   ],
   "note": "Scaled, ScaledPoly, NoUnderflow and ScaledRoots are in SpecFloatScale.lean. NoUnderflow also admits results below the normal range that are exact. The condition for eval is about the values of the upper coefficients, the partial sums of Horner's rule."
  },
  {
   "property": "C128",
   "status": "proved",
   "theorems": [
    "Rustnomial.Fl.C128_number",
    "Rustnomial.Fl.C128_sum",
    "Rustnomial.Fl.C128_product",
    "Rustnomial.Fl.C128_scalar",
    "Rustnomial.Fl.C128_eval",
    "Rustnomial.Fl.C128_eval_fixed",
    "Rustnomial.Fl.C128_derivative",
    "Rustnomial.Fl.C128_integral",
    "Rustnomial.Fl.C128_scalar_div",
    "Rustnomial.Fl.C128_closed",
    "Rustnomial.Fl.C128_pow",
    "Rustnomial.Fl.C128_sparse_sum",
    "Rustnomial.Fl.C128_sparse_product",
    "Rustnomial.Fl.C128_sparse_derivative",
    "Rustnomial.Fl.C128_false"
   ],
   "note": "Grid, GridPoly, GridOk and Has are in SpecFloatGrid.lean. For sparse polynomials one grid for both factors; sparse powers and eval, division and shifts are left to C87 (whole numbers)."
  },
  {
   "property": "C129",
   "status": "proved",
   "theorems": [
    "Rustnomial.C129_multiplicity",
    "Rustnomial.C129_multiplicity_zero",
    "Rustnomial.C129_divide_out",
    "Rustnomial.C129_taylor_divide",
    "Rustnomial.C129_taylor_derive",
    "Rustnomial.C129_squarefree_part",
    "Rustnomial.C129_multiplicity_wrapping_false"
   ],
   "note": "The programs are in Model/Taylor.lean. Conversions of the lengths to the number type are assumed to succeed (C16 has the panics). _false theorem: machine integers without overflow checks."
  },
  {
   "property": "C130",
   "status": "proved",
   "theorems": [
    "Rustnomial.C130_mul_mod",
    "Rustnomial.C130_pow_mod",
    "Rustnomial.C130_pow_mod_irreducible",
    "Rustnomial.C130_inv_mod",
    "Rustnomial.C130_pow_mod_panics"
   ],
   "note": "The programs are in Model/Modular.lean. Steps and fuel are explicit."
  },
  {
   "property": "C131",
   "status": "proved",
   "theorems": [
    "Rustnomial.Fl.C131_bisect",
    "Rustnomial.Fl.C131_less",
    "Rustnomial.Fl.C131_bisect_certain",
    "Rustnomial.Fl.C131_rounds_f64",
    "Rustnomial.Fl.C131_rounds_f32"
   ],
   "note": "The programs are in Model/Bisect.lean; the rounds of the second are explicit. NaN and infinities as midpoints are covered."
  },
  {
   "property": "C132",
   "status": "proved",
   "theorems": [
    "Rustnomial.Fl.C132_positive_roots",
    "Rustnomial.Fl.C132_negative_roots",
    "Rustnomial.Fl.C132_odd_changes",
    "Rustnomial.Fl.C132_exact_terms",
    "Rustnomial.Fl.C132_integer_terms",
    "Rustnomial.Fl.C132_float_terms",
    "Rustnomial.Fl.C132_root_bound",
    "Rustnomial.Fl.C132_root_bound_float"
   ],
   "note": "The programs are in Model/Bounds.lean. TermsOf says that the terms yielded are those of the polynomial and that is_positive tells their signs; C132_exact_terms, C132_integer_terms and C132_float_terms show this for ordered_term_iter of both types. The rule of signs and the bound for given coefficients are those of Mathlib."
  },
  {
   "property": "C133",
   "status": "proved",
   "theorems": [
    "Rustnomial.C133_count",
    "Rustnomial.C133_count_reversed",
    "Rustnomial.C133_all",
    "Rustnomial.C133_integer_false"
   ],
   "note": "The programs are in Model/Sturm.lean; Sturm's theorem, which Mathlib does not have, is proved in Lemmas/Sturm.lean, with multiple roots allowed. rootsIn is the set of distinct real roots z with a < z <= b. An example shows that the condition on the ends is needed."
  },
  {
   "property": "C134",
   "status": "proved",
   "theorems": [
    "Rustnomial.C134_isolate",
    "Rustnomial.C134_isolate_returns",
    "Rustnomial.C134_isolate_any"
   ],
   "note": "The program is in Model/Sturm.lean. Isolates is defined in Props/Sturm.lean. The depth of the recursion is explicit."
  },
  {
   "property": "C135",
   "status": "proved",
   "theorems": [
    "Rustnomial.C135_newton",
    "Rustnomial.C135_one_change",
    "Rustnomial.C135_rightmost"
   ],
   "note": "The program is in Model/Newton.lean; AllUp (a root at which all derivatives are at least 0) in Props/Newton.lean. The rounding of floats is not considered here."
  },
  {
   "property": "C136",
   "status": "proved",
   "theorems": [
    "Rustnomial.C136_resultant",
    "Rustnomial.C136_common_factor",
    "Rustnomial.C136_discriminant",
    "Rustnomial.C136_repeated",
    "Rustnomial.C136_trinomial"
   ],
   "note": "The programs are in Model/Resultant.lean; resultant, discr and Squarefree are those of Mathlib. All remainders may drop by more than one degree."
  },
  {
   "property": "C137",
   "status": "proved",
   "theorems": [
    "Rustnomial.C137_rem",
    "Rustnomial.C137_rem_same",
    "Rustnomial.C137_mul",
    "Rustnomial.C137_mul_same",
    "Rustnomial.C137_pow",
    "Rustnomial.C137_pow_same",
    "Rustnomial.C137_shift",
    "Rustnomial.C137_shift_same",
    "Rustnomial.C137_derivative",
    "Rustnomial.C137_derivative_same",
    "Rustnomial.C137_sparse_div_mod",
    "Rustnomial.C137_sparse_div_mod_same",
    "Rustnomial.C137_array_terms",
    "Rustnomial.C137_sparse_eval",
    "Rustnomial.C137_sparse_eval_same",
    "Rustnomial.C137_order",
    "Rustnomial.C137_complex_factors",
    "Rustnomial.C137_cubic",
    "Rustnomial.C137_cubic_same"
   ],
   "note": "The changed functions are in Model/Repaired.lean, apart from the model of the code; each comment names the lines and the change. Nothing else uses them. The repair of the cubic (C46) is over the reals, with a cosine and an arc cosine that numerics.rs does not have; for symmetric cubics with three real roots it returns the same roots in another order."
  },
  {
   "property": "C138",
   "status": "proved",
   "theorems": [
    "Rustnomial.Fl.C138_division",
    "Rustnomial.Fl.C138_zero",
    "Rustnomial.Fl.C138_field_same",
    "Rustnomial.Fl.C138_power_of_two_same",
    "Rustnomial.C138_integer",
    "Rustnomial.C138_integer_same"
   ],
   "note": "Two repairs of div_mod, for the claims C70 and C21 that are false of the code: Poly.divModDrop and Poly.divModStop in Model/Repaired.lean, used by nothing else. The bound is that of C70_power_of_two with the smallest positive number scaled by max(1, |l|); the first repair does not suit the integers and the second does not suit floats."
  },
  {
   "property": "C139",
   "status": "proved",
   "theorems": [
    "Rustnomial.Fl.C139_mul",
    "Rustnomial.Fl.C139_pow",
    "Rustnomial.Fl.C139_upow",
    "Rustnomial.Fl.C139_sparse_eval",
    "Rustnomial.Fl.C139_complex_factors"
   ],
   "note": "About the functions of Model/Repaired.lean with floating-point coefficients; they are not code of the repository. The hypotheses and the bounds are those of C68, C100 and C94."
  },
  {
   "property": "C140",
   "status": "proved",
   "theorems": [
    "Rustnomial.Fl.C140_division",
    "Rustnomial.Fl.C140_shift_alone_false",
    "Rustnomial.Fl.C140_zero",
    "Rustnomial.Fl.C140_field_same"
   ],
   "note": "About Sparse.divModDrop of Model/Repaired.lean, which is not code of the repository; for the claims C27 and C85 (division) that are false of the code. The number of roundings is the number of rounds, not the number of stored terms."
  },
  {
   "property": "C141",
   "status": "proved",
   "theorems": [
    "Rustnomial.C141_division",
    "Rustnomial.C141_zero",
    "Rustnomial.C141_gcd",
    "Rustnomial.C141_count",
    "Rustnomial.C141_count_reversed"
   ],
   "note": "Client programs in Model/Pseudo.lean; the operators they use are the modelled code. Integers are unbounded: overflow of machine integers is outside the claim."
  },
  {
   "property": "C142",
   "status": "proved",
   "theorems": [
    "Rustnomial.C142_division",
    "Rustnomial.C142_division_outcome",
    "Rustnomial.C142_gcd",
    "Rustnomial.C142_count",
    "Rustnomial.C142_count_reversed",
    "Rustnomial.C142_unchecked_false"
   ],
   "note": "Client programs in Model/PseudoMachine.lean. The exact condition for a panic is given for div_mod; for the gcd and the count it is right or panics."
  },
  {
   "property": "C143",
   "status": "proved",
   "theorems": [
    "Rustnomial.C143_share_root",
    "Rustnomial.C143_distinct_roots",
    "Rustnomial.C143_machine"
   ],
   "note": "Client programs at the end of Model/Pseudo.lean and Model/PseudoMachine.lean."
  },
  {
   "property": "C144",
   "status": "proved",
   "theorems": [
    "Rustnomial.C144_rational_roots",
    "Rustnomial.C144_zero",
    "Rustnomial.C144_irreducible"
   ],
   "note": "Client program in Model/RationalRoots.lean. Rational coefficients are exact (Ratio of unbounded integers)."
  },
  {
   "property": "C145",
   "status": "proved",
   "theorems": [
    "Rustnomial.C145_integer_roots",
    "Rustnomial.C145_zero",
    "Rustnomial.C145_unchecked_false"
   ],
   "note": "Client program in Model/IntegerRoots.lean. The claim is for builds with overflow checks; C145_unchecked_false shows it fails without."
  },
  {
   "property": "C146",
   "status": "proved",
   "theorems": [
    "Rustnomial.C146_count_all",
    "Rustnomial.C146_positive",
    "Rustnomial.C146_machine"
   ],
   "note": "Client programs in Model/AllRoots.lean."
  }
 ]
}