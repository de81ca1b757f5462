{"id": "C01", "title": "Dense construction and trimming preserve the polynomial and are canonical", "statement": "Polynomial::new / from(Vec) / trim drop exactly the leading zero coefficients: the represented polynomial is unchanged, the resulting vector is empty or starts with a non-zero coefficient, trimming twice is trimming once, and two vectors that represent the same polynomial are trimmed to the same vector.", "quantifier": "every coefficient vector of every length, every coefficient type (only is_zero matters for the shape part)", "why_tests_cant": "The scan is unrolled in chunks of four with a separate remainder loop; tests sample a handful of lengths modulo 4 and positions of the first non-zero entry.", "anchors": ["src/polynomial/polynomial.rs: first_nonzero_index, Polynomial::new, Polynomial::trim, From<Vec<N>>"]}
{"id": "C02", "title": "degree() is the mathematical degree", "statement": "For Polynomial, SparsePolynomial, Monomial, LinearBinomial and QuadraticTrinomial, degree() is NegInf exactly when every coefficient is zero and otherwise Num(d) with d the largest exponent whose coefficient is non-zero; is_zero() agrees. Stored zero coefficients (leading zeros, zero entries of the map) never change the answer.", "quantifier": "every value of each type, including un-trimmed ones with stored zeros", "why_tests_cant": "Must hold for every placement of zeros; the dense code scans in chunks of 4, the sparse code keeps a running maximum.", "anchors": ["src/polynomial/polynomial.rs: degree, first_nonzero_index", "src/polynomial/sparsepolynomial.rs: degree", "src/polynomial/monomial.rs: SizedPolynomial::degree", "src/polynomial/binomial.rs: degree", "src/polynomial/trinomial.rs: degree", "src/polynomial/traits.rs: is_zero"]}
{"id": "C03", "title": "Term iteration yields exactly the non-zero terms in strictly descending degree", "statement": "ordered_term_iter()/terms_as_vec() return strictly descending degrees, only non-zero coefficients, and contain (c,d) exactly when c is the non-zero coefficient of x^d.", "quantifier": "every value of Polynomial, SparsePolynomial, Monomial, LinearBinomial, QuadraticTrinomial", "why_tests_cant": "Completeness and order over all vectors/maps cannot be sampled.", "anchors": ["src/polynomial/polynomial.rs: ordered_term_iter", "src/polynomial/sparsepolynomial.rs: ordered_term_iter", "src/polynomial/monomial.rs: ordered_term_iter", "src/polynomial/binomial.rs: ordered_term_iter", "src/polynomial/trinomial.rs: ordered_term_iter"]}
{"id": "C04", "title": "term_with_degree reads the coefficient", "statement": "term_with_degree(d) is Term(c,d) with c the coefficient of x^d when that is non-zero, and ZeroTerm otherwise, for every d including d beyond the stored length; it never panics.", "quantifier": "every value of the five types, every d", "why_tests_cant": "Boundary d = len, d = len-1 and huge d for every length.", "anchors": ["src/polynomial/polynomial.rs: term_with_deg", "src/polynomial/sparsepolynomial.rs: term_with_degree", "src/polynomial/monomial.rs: term_with_degree", "src/polynomial/binomial.rs", "src/polynomial/trinomial.rs"]}
{"id": "C05", "title": "Equality is equality of polynomials", "statement": "a == b is true exactly when a and b have the same coefficient at every degree, regardless of leading zeros (Polynomial) or stored zero entries (SparsePolynomial) or the stale degree of a zero Monomial; hence == is reflexive, symmetric and transitive for coefficient types with a lawful ==.", "quantifier": "all pairs (and triples) of values of each type", "why_tests_cant": "An equivalence over all representations; tests check a few pairs.", "anchors": ["src/polynomial/polynomial.rs: PartialEq::eq", "src/polynomial/sparsepolynomial.rs: PartialEq::eq", "src/polynomial/monomial.rs: PartialEq::eq", "src/polynomial/binomial.rs: PartialEq::eq", "src/polynomial/trinomial.rs: PartialEq::eq"]}
{"id": "C06", "title": "Dense evaluation is evaluation", "statement": "Polynomial::eval(x) equals the sum of c_i * x^i, including at x = 0 (where it short-circuits) and for the empty polynomial.", "quantifier": "every polynomial, every point, every commutative coefficient semiring (exact integers, wrapping machine integers, rationals)", "why_tests_cant": "Horner loop with a special case: correctness for every length and point.", "anchors": ["src/polynomial/polynomial.rs: Evaluable::eval"]}
{"id": "C07", "title": "Evaluation agrees across representations", "statement": "SparsePolynomial, Monomial, LinearBinomial and QuadraticTrinomial eval return the same mathematical value as the polynomial they represent, for every exponent.", "quantifier": "every value, every point, every exponent up to usize::MAX", "why_tests_cant": "Exponents beyond 32 bits are not testable by example enumeration; the integer power casts the exponent to u32.", "anchors": ["src/polynomial/sparsepolynomial.rs: Evaluable::eval", "src/polynomial/monomial.rs: Evaluable::eval", "src/polynomial/binomial.rs: Evaluable::eval", "src/polynomial/trinomial.rs: Evaluable::eval", "src/numerics.rs: PowUsize"]}
{"id": "C08", "title": "Dense addition is addition", "statement": "a + b and a += b represent the sum polynomial for operands of any (unequal) lengths, in either order.", "quantifier": "all pairs of polynomials of all lengths", "why_tests_cant": "Offset arithmetic between unequal lengths, for all lengths.", "anchors": ["src/polynomial/polynomial.rs: Add, AddAssign"]}
{"id": "C09", "title": "Dense subtraction is subtraction, and its four spellings agree", "statement": "a - b, a -= b, a - &b and a -= &b all represent the difference polynomial, for operands of any lengths.", "quantifier": "all pairs of polynomials of all lengths", "why_tests_cant": "Two different implementations (one consumes rhs, one prepends negated terms) must agree on every length combination.", "anchors": ["src/polynomial/polynomial.rs: Sub, SubAssign (owned and by reference)"]}
{"id": "C10", "title": "Negation is negation on every type", "statement": "-p represents the negated polynomial for Polynomial, SparsePolynomial, Monomial, LinearBinomial, QuadraticTrinomial; negating twice gives back an equal polynomial and p + (-p) is zero.", "quantifier": "all values of all five types", "why_tests_cant": "Quantifies over all polynomials.", "anchors": ["src/polynomial/polynomial.rs: Neg", "src/polynomial/sparsepolynomial.rs: Neg", "src/polynomial/monomial.rs: Neg", "src/polynomial/binomial.rs: Neg", "src/polynomial/trinomial.rs: Neg"]}
{"id": "C11", "title": "Dense multiplication is multiplication and never panics", "statement": "a * b (all owned/borrowed spellings and *=) returns the product polynomial for all operands, including zero operands and operands with leading zeros.", "quantifier": "all pairs of polynomials, including zero", "why_tests_cant": "Includes every pair of lengths, in particular the degenerate lengths where rhs.len()+lhs.len()-1 underflows.", "anchors": ["src/polynomial/polynomial.rs: slice_mul, Mul, MulAssign"]}
{"id": "C12", "title": "Dense pow is exponentiation", "statement": "p.pow(n) is the n-th power of p for every n and every p, including the zero polynomial, and it always terminates.", "quantifier": "all polynomials, all exponents", "why_tests_cant": "Recursive square-and-multiply over all exponents; termination of pow(n/2).pow(2).", "anchors": ["src/polynomial/polynomial.rs: Polynomial::pow"]}
{"id": "C13", "title": "Scalar multiplication and division act coefficient-wise", "statement": "p * c and p *= c represent c times the polynomial; p / c and p /= c divide every coefficient by c and, over a field with c non-zero, (p / c) * c == p. Holds for all five types.", "quantifier": "all polynomials, all scalars", "why_tests_cant": "Quantifies over all values.", "anchors": ["src/polynomial/polynomial.rs: Mul<N>, MulAssign<N>, Div<N>, DivAssign<N>", "src/polynomial/sparsepolynomial.rs", "src/polynomial/monomial.rs", "src/polynomial/binomial.rs", "src/polynomial/trinomial.rs"]}
{"id": "C14", "title": "Dense shifts multiply and divide by powers of x", "statement": "p << k represents p * x^k; p >> k is the quotient of p by x^k (coefficients of degree < k dropped); negative k reverses the direction; the assigning forms agree. No panic for any k of type i32.", "quantifier": "all polynomials (also with leading zeros), all i32 shift amounts", "why_tests_cant": "Slice bounds depend on leading zeros, length and shift amount together; k = i32::MIN is a boundary.", "anchors": ["src/polynomial/polynomial.rs: Shl, ShlAssign, Shr, ShrAssign"]}
{"id": "C15", "title": "Sparse and monomial shifts multiply and divide by powers of x", "statement": "For SparsePolynomial and Monomial, p << k is p*x^k, p >> k is the quotient by x^k, negative k reverses direction, and the assigning forms agree; for LinearBinomial and QuadraticTrinomial >> k (u32) is the quotient by x^k.", "quantifier": "all values, all shift amounts", "why_tests_cant": "All shift amounts and stored-degree sets.", "anchors": ["src/polynomial/sparsepolynomial.rs: Shl/Shr", "src/polynomial/monomial.rs: Shl/Shr", "src/polynomial/binomial.rs: Shr", "src/polynomial/trinomial.rs: Shr"]}
{"id": "C16", "title": "Dense derivative is the formal derivative", "statement": "Polynomial::derivative represents the formal derivative; it panics exactly when the coefficient type cannot represent the numbers 0..=degree (documented panic).", "quantifier": "all polynomials of all degrees, all coefficient types", "why_tests_cant": "The running degree counter must be right for every length; the panic boundary is at the maximum of the numeric type.", "anchors": ["src/polynomial/polynomial.rs: Derivable::derivative", "src/numerics.rs: TryFromUsizeContinuous"]}
{"id": "C17", "title": "Derivatives of the other types are the formal derivative", "statement": "SparsePolynomial, Monomial, LinearBinomial, QuadraticTrinomial derivative() represent the formal derivative, and panic exactly if a number they need (the degree of a nonzero term that is not constant; 2 for a trinomial) is not representable in the coefficient type.", "quantifier": "all values", "why_tests_cant": "Quantifies over all maps/degrees.", "anchors": ["src/polynomial/sparsepolynomial.rs: derivative", "src/polynomial/monomial.rs: derivative", "src/polynomial/binomial.rs: derivative", "src/polynomial/trinomial.rs: derivative"]}
{"id": "C18", "title": "Differentiating an integral gives back the polynomial", "statement": "Over a field of characteristic zero, derivative(integral(p).inner()) == p for Polynomial and SparsePolynomial, the integrals of Monomial, LinearBinomial and QuadraticTrinomial differentiate to the polynomial they came from, and every integral has constant term zero. An integral panics exactly if a number it divides by is not representable: the number of coefficients up to the leading one (Polynomial), the degree plus one of a stored term, zero or not (SparsePolynomial) or of a nonzero Monomial, 2 (LinearBinomial), 2 or 3 (QuadraticTrinomial), SIZE (ArrayPolynomial).", "quantifier": "all polynomials over all characteristic-zero fields", "why_tests_cant": "An inverse law over all polynomials.", "anchors": ["src/polynomial/polynomial.rs: Integrable::integral", "src/polynomial/sparsepolynomial.rs: integral", "src/polynomial/monomial.rs: integral", "src/polynomial/binomial.rs: integral", "src/polynomial/trinomial.rs: integral"]}
{"id": "C19", "title": "Definite integration is additive and independent of C", "statement": "integral.eval(a,b) = F(b) - F(a) for the antiderivative F; eval(a,a)=0, eval(a,b)+eval(b,c)=eval(a,c), eval(b,a) = -eval(a,b); replace_c(c) has constant term c, the same derivative, and the same definite integrals.", "quantifier": "all integrals, all points, all constants", "why_tests_cant": "Laws over all points and polynomials.", "anchors": ["src/polynomial/integral.rs: Integral::eval, replace_c, inner"]}
{"id": "C20", "title": "Dense Euclidean division", "statement": "Over a field, div_mod(a,b) with b non-zero terminates and returns (q,r) with a = q*b + r and deg r < deg b; floor_div returns q; q and r are uniquely determined (they are the mathematical quotient and remainder).", "quantifier": "all dividends, all non-zero divisors (with or without leading zeros), all fields", "why_tests_cant": "Loop termination and the division identity for all degrees.", "anchors": ["src/polynomial/polynomial.rs: Polynomial::div_mod, floor_div, vec_sub_w_scale, first_term"]}
{"id": "C21", "title": "Division never hangs on integer coefficients", "statement": "div_mod terminates for every pair of integer polynomials with non-zero divisor, and when it returns, a = q*b + r with deg r < deg b.", "quantifier": "all pairs of integer polynomials", "why_tests_cant": "Termination is a liveness property; a test can only time out.", "anchors": ["src/polynomial/polynomial.rs: Polynomial::div_mod, RemAssign"]}
{"id": "C22", "title": "The % operator returns the remainder (dense)", "statement": "a % b terminates and returns the remainder of dividing a by b, for every non-zero b over a field.", "quantifier": "all pairs", "why_tests_cant": "Termination of the reduction loop for every pair of degrees.", "anchors": ["src/polynomial/polynomial.rs: Rem::rem"]}
{"id": "C23", "title": "The %= operator assigns the remainder (dense)", "statement": "a %= b terminates and leaves in a the remainder of dividing by b over a field, agreeing with the second component of div_mod.", "quantifier": "all pairs with non-zero divisor", "why_tests_cant": "Termination and correctness of the loop for all degrees.", "anchors": ["src/polynomial/polynomial.rs: RemAssign::rem_assign"]}
{"id": "C24", "title": "Division by the zero polynomial always panics", "statement": "div_mod, floor_div, % and %= panic when the divisor is the zero polynomial in any representation (empty, all-zero vector, map with zero entries), for Polynomial and SparsePolynomial, and never panic over a field when it is not.", "quantifier": "all dividends, all representations of zero", "why_tests_cant": "All representations of zero.", "anchors": ["src/polynomial/polynomial.rs: div_mod, Rem, RemAssign", "src/polynomial/sparsepolynomial.rs: div_mod, Rem, RemAssign"]}
{"id": "C25", "title": "Sparse addition, subtraction are exact", "statement": "a + b, a += b, a - b, a -= b on SparsePolynomial and SparsePolynomial - Polynomial represent the sum/difference polynomial.", "quantifier": "all pairs of maps", "why_tests_cant": "All key overlaps.", "anchors": ["src/polynomial/sparsepolynomial.rs: Add, AddAssign, Sub, SubAssign, Sub<Polynomial<N>>"]}
{"id": "C26", "title": "Sparse multiplication and pow are exact", "statement": "a * b, a *= b, borrow_mul (all spellings) represent the product; pow(n) represents the n-th power for every n and terminates.", "quantifier": "all pairs of maps, all exponents", "why_tests_cant": "All key collisions in the product accumulation; all exponents.", "anchors": ["src/polynomial/sparsepolynomial.rs: map_mul, Mul, MulAssign, borrow_mul, pow"]}
{"id": "C27", "title": "Sparse Euclidean division", "statement": "Over a field, SparsePolynomial::div_mod(a,b) with b non-zero terminates and returns (q,r) with a = q*b + r and deg r < deg b; % and %= return r.", "quantifier": "all pairs with non-zero divisor", "why_tests_cant": "Termination for every pair of degrees.", "anchors": ["src/polynomial/sparsepolynomial.rs: div_mod, Rem, RemAssign, map_sub_w_scale"]}
{"id": "C28", "title": "Dense and sparse representations are interchangeable", "statement": "SparsePolynomial::from(v) and Polynomial::from(v) represent the same polynomial; for the operations +, -, *, neg, scalar ops, shifts, pow, eval, derivative, degree, term queries and term iteration, computing on one representation and converting gives the same result as converting and computing on the other.", "quantifier": "all coefficient vectors and all operations", "why_tests_cant": "A simulation between two implementations over all inputs.", "anchors": ["src/polynomial/sparsepolynomial.rs: From<Vec<N>>", "src/polynomial/polynomial.rs"]}
{"id": "C29", "title": "try_add_term / try_sub_term contract", "statement": "On Ok the represented polynomial changes by exactly +/- coeff*x^degree; on Err the value is unchanged; the fixed-size types fail exactly when the degree is out of range (or, for Monomial, when the value is non-zero and the degree differs); try_add_term never fails on Polynomial and SparsePolynomial.", "quantifier": "every value, coefficient and degree, for all five types", "why_tests_cant": "All degrees relative to the stored length.", "anchors": ["src/polynomial/traits.rs: MutablePolynomial", "src/polynomial/polynomial.rs: try_add_term, try_sub_term", "src/polynomial/sparsepolynomial.rs", "src/polynomial/monomial.rs", "src/polynomial/binomial.rs", "src/polynomial/trinomial.rs"]}
{"id": "C30", "title": "Unsigned coefficients are never negated", "statement": "For coefficient types that cannot be negated, try_sub_term of a term whose coefficient is absent reports CanNotNegate and leaves the polynomial unchanged rather than underflowing.", "quantifier": "every value, coefficient and degree, all types", "why_tests_cant": "All degree/length relations for every type.", "anchors": ["src/polynomial/polynomial.rs: try_sub_term", "src/polynomial/sparsepolynomial.rs: try_sub_term", "src/polynomial/monomial.rs: try_sub_term", "src/polynomial/binomial.rs: try_sub_term", "src/polynomial/trinomial.rs: try_sub_term", "src/numerics.rs: CanNegate"]}
{"id": "C31", "title": "from_terms / add_term accumulate", "statement": "from_terms(ts) represents the sum of c*x^d over ts, for any order and any repeated degrees; permuting ts gives an equal polynomial.", "quantifier": "all term lists, all permutations", "why_tests_cant": "Order-independence over all lists.", "anchors": ["src/polynomial/polynomial.rs: from_terms, add_term", "src/polynomial/sparsepolynomial.rs: from_terms, add_term"]}
{"id": "C32", "title": "Generic sink arithmetic (add_poly, sub_poly, mul_poly_vec)", "statement": "When add_poly/sub_poly/mul_poly_vec return Ok, the sink's polynomial has changed by +source, -source, +lhs*rhs; with Polynomial/SparsePolynomial sinks over signed types they always return Ok; when they fail, the sink holds the partial result of the terms before the first failing one and the first error is reported.", "quantifier": "all sources, all sinks of the five types", "why_tests_cant": "All term sequences and failure positions.", "anchors": ["src/polynomial/poly_math.rs: add_poly, sub_poly, mul_poly_vec"]}
{"id": "C33", "title": "poly_add! and poly_sub! compute sums and differences", "statement": "poly_add!(x1,...,xk) is the sum of the xi; poly_sub!(l, x1,...,xk) is l minus the sum of the xi; the sink forms update the sink and report the first error.", "quantifier": "all argument lists of every length and mix of types", "why_tests_cant": "All argument counts, unsigned coefficient types included.", "anchors": ["src/polynomial/poly_math.rs: poly_add!, poly_sub!"]}
{"id": "C34", "title": "The tokenizer partitions the input at + and -", "statement": "The ranges produced for a string are non-empty, start at 0, are contiguous, end at the byte length, lie on character boundaries (so slicing never panics), and every range after the first starts with '+' or '-'; there are none exactly for the empty string. Slicing at a range gives exactly the part of the string between its byte offsets, and panics for offsets which are not such boundaries.", "quantifier": "every Unicode string", "why_tests_cant": "All strings, including multi-byte characters.", "anchors": ["src/terms.rs: TermTokenizer"]}
{"id": "C35", "title": "Term parsing accepts well-formed terms with the right value", "statement": "For every coefficient and degree, the texts [sign][digits]x^[digits], [sign][digits]x, [sign]x^[digits], [sign]x, [sign][digits] parse to the corresponding term (ZeroTerm when the coefficient is zero); spaces, commas and underscores anywhere are ignored.", "quantifier": "every integer coefficient in range, every usize degree, every interleaving of separators", "why_tests_cant": "Unbounded numerals and separator placements.", "anchors": ["src/terms.rs: Term::from_str"]}
{"id": "C36", "title": "Term parsing rejects malformed terms", "statement": "A term with two 'x', two '^', a '^' before x, a '^' without a degree, an unexpected character, an empty or sign-only text, an out-of-range or malformed coefficient or a malformed degree is rejected with the documented error, and every accepted term really denotes a term.", "quantifier": "every string", "why_tests_cant": "All strings.", "anchors": ["src/terms.rs: Term::from_str", "src/err.rs: TermFromStringError"]}
{"id": "C37", "title": "Display then parse round-trips", "statement": "For every integer polynomial p of each of the five types, from_str(p.to_string()) succeeds and equals p.", "quantifier": "every value, every integer coefficient type", "why_tests_cant": "An inverse law over all polynomials.", "anchors": ["src/strings.rs: fmt_poly!, write_leading_term, write_trailing_term, poly_from_str!", "src/terms.rs"]}
{"id": "C38", "title": "Display is canonical and injective", "statement": "Equal polynomials print identically (in every representation) and unequal integer polynomials print differently; the zero polynomial prints 0.", "quantifier": "all pairs of values", "why_tests_cant": "Injectivity over all pairs.", "anchors": ["src/strings.rs: fmt_poly!", "src/polynomial/monomial.rs: Display"]}
{"id": "C39", "title": "Parsing a polynomial sums its terms", "statement": "If every token of the string parses as a term, from_str for Polynomial and SparsePolynomial returns the sum of those terms, independent of the order of terms and with repeated degrees combined; if some token fails, the first failing token's error is returned; the empty string gives NoTermsFound.", "quantifier": "all strings", "why_tests_cant": "All strings and orders of terms.", "anchors": ["src/strings.rs: poly_from_str!", "src/terms.rs"]}
{"id": "C40", "title": "Integer square root is exact and overflow-free", "statement": "abs_sqrt on every unsigned type returns floor(sqrt(n)) for every n, terminates, and performs no overflowing or dividing-by-zero operation; on signed types it returns floor(sqrt(|n|)) except that n = MIN is rejected by abs.", "quantifier": "every n of every width (8..128 bits)", "why_tests_cant": "2^64 and 2^128 inputs; Newton iteration termination.", "anchors": ["src/numerics.rs: AbsSqrt (abs_sqrt_u!, abs_sqrt_i!)"]}
{"id": "C41", "title": "usize conversions are lossless when they succeed", "statement": "try_from_usize_cont / try_from_usize_exact succeed only if the number is exactly representable in the target type, return that number, and (cont) all smaller numbers are representable too; they fail otherwise.", "quantifier": "every usize value and every target type", "why_tests_cant": "2^64 inputs per type, boundaries at the rounding and saturation points of floats.", "anchors": ["src/numerics.rs: TryFromUsizeContinuous, TryFromUsizeExact"]}
{"id": "C42", "title": "Upcasts between coefficient types are lossless", "statement": "Every From<Poly<A>> for Poly<B> conversion in the upcast! table represents every value of A exactly in B, so the converted polynomial has the same coefficients, and conversions compose.", "quantifier": "all values of every (A,B) pair of the table, all polynomials", "why_tests_cant": "All values of wide integer types.", "anchors": ["src/macros.rs: upcast!", "src/polynomial/polynomial.rs: from_poly_a_to_b", "src/polynomial/sparsepolynomial.rs: from_sparse_a_to_b", "src/polynomial/monomial.rs", "src/polynomial/binomial.rs", "src/polynomial/trinomial.rs"]}
{"id": "C43", "title": "Quadratic roots are the roots", "statement": "Over exact real arithmetic, with a != 0, roots() of ax^2+bx+c returns two real roots r1, r2 with a(x-r1)(x-r2) = ax^2+bx+c when the discriminant is non-negative (a repeated root when zero) and a conjugate pair of complex roots otherwise.", "quantifier": "all real a != 0, b, c", "why_tests_cant": "All real coefficients.", "anchors": ["src/polynomial/find_roots.rs: trinomial_roots, discriminant_trinomial", "src/polynomial/trinomial.rs: roots, discriminant"]}
{"id": "C44", "title": "Quadratic roots are ordered largest first", "statement": "When roots() returns two real roots, the first is at least the second (as documented).", "quantifier": "all real a != 0, b, c with non-negative discriminant", "why_tests_cant": "The order depends on the sign of a.", "anchors": ["src/polynomial/trinomial.rs: roots (doc comment)"]}
{"id": "C45", "title": "Quadratic factorisations multiply back", "statement": "real_factors() is Some((a,f,g)) exactly when the discriminant is non-negative, and then a*f*g = the trinomial; complex_factors() always returns (a,f,g) with a*f*g = the trinomial over the complex numbers.", "quantifier": "all real a != 0, b, c", "why_tests_cant": "All coefficients and both discriminant signs.", "anchors": ["src/polynomial/trinomial.rs: real_factors, complex_factors"]}
{"id": "C46", "title": "Cubic roots are the roots", "statement": "Over exact real arithmetic, for a != 0 the cubic formula returns x, r1, r2 with a(t-x)(t-r1)(t-r2) = at^3+bt^2+ct+d, for every sign of the cubic discriminant.", "quantifier": "all real a != 0, b, c, d", "why_tests_cant": "All real coefficients including the three-distinct-real-roots case.", "anchors": ["src/polynomial/find_roots.rs: cubic_roots"]}
{"id": "C47", "title": "Low-degree root finding is complete", "statement": "roots() on Polynomial/SparsePolynomial returns InfiniteRoots exactly for the zero polynomial, NoRoots for non-zero constants, [0] for monomials of positive degree, -c/b for linear polynomials, and the quadratic/cubic formula otherwise; no unreachable!() branch is reachable.", "quantifier": "all polynomials of degree at most 3 and all monomials", "why_tests_cant": "All coefficient/degree patterns; unreachability of panics.", "anchors": ["src/polynomial/find_roots.rs: find_roots_special"]}
{"id": "C48", "title": "High-degree root finding is sound and complete relative to the external solver", "statement": "If the external solver returns exactly the distinct real roots of each polynomial it is given, roots() terminates and returns every real root with its multiplicity (ManyRealRoots when the polynomial splits over the reals, OnlyRealRoots when some roots are non-real, NoRoots when there is no real root).", "quantifier": "all polynomials of degree at least 4, all solver answers", "why_tests_cant": "Termination and multiset equality of the deflation loop.", "anchors": ["src/polynomial/find_roots.rs: find_roots, div, normalize"]}
{"id": "C49", "title": "Linear root and monomial root", "statement": "LinearBinomial::root returns InfiniteRoots iff both coefficients are zero, NoRoots iff it is a non-zero constant, and otherwise the unique root over a field; Monomial::root returns 0 exactly when the degree is positive and the coefficient non-zero.", "quantifier": "all coefficients", "why_tests_cant": "All field values.", "anchors": ["src/polynomial/binomial.rs: root", "src/polynomial/monomial.rs: root"]}
{"id": "C50", "title": "Monomial algebra", "statement": "For Monomial, *, *= (owned and by reference), pow, scalar * and / represent the product, power and scaling of the represented monomial; Monomial::from(a) is the constant a.", "quantifier": "all monomials, exponents and scalars", "why_tests_cant": "All degrees and coefficients.", "anchors": ["src/polynomial/monomial.rs: Mul, MulAssign, pow"]}
{"id": "C51", "title": "Fixed-size algebra", "statement": "For LinearBinomial and QuadraticTrinomial +, +=, -, -= represent sum and difference.", "quantifier": "all values", "why_tests_cant": "All values.", "anchors": ["src/polynomial/binomial.rs: Add, Sub, AddAssign, SubAssign", "src/polynomial/trinomial.rs: Add, Sub, AddAssign, SubAssign"]}
{"id": "C52", "title": "ArrayPolynomial behaves as the polynomial it stores", "statement": "With the array_polynomials feature, for every SIZE: eval, derivative, integral, degree, term_with_degree, try_add_term/try_sub_term, ordered_term_iter/terms_as_vec agree with the represented polynomial and do not panic.", "quantifier": "every SIZE and every coefficient array", "why_tests_cant": "A const-generic size.", "anchors": ["src/polynomial/array_polynomial.rs"]}
{"id": "C53", "title": "Any history of mutations behaves like an abstract polynomial", "statement": "After any sequence of add_term, try_sub_term, +=, -=, *=, scalar *=, <<=, trim, set_to_zero operations on a Polynomial or SparsePolynomial, the observable coefficients, degree, equality and values are those of the mathematical polynomial obtained by the same sequence; no operation's outcome depends on the representation (trimmed or not).", "quantifier": "all finite operation histories", "why_tests_cant": "Unbounded histories.", "anchors": ["src/polynomial/polynomial.rs", "src/polynomial/sparsepolynomial.rs"]}
{"id": "C54", "title": "Observers cannot distinguish representations", "statement": "Two Polynomials (or two SparsePolynomials) that are == give equal results for degree, terms_as_vec, term_with_degree, eval, to_string, derivative, integral, +, -, *, shifts, scalar operations and division.", "quantifier": "all pairs of equal values", "why_tests_cant": "Congruence over all representation pairs.", "anchors": ["src/polynomial/polynomial.rs", "src/polynomial/sparsepolynomial.rs"]}
{"id": "C55", "title": "Ring laws", "statement": "With respect to ==, Polynomial and SparsePolynomial +, -, * satisfy the commutative ring laws (associativity, commutativity, distributivity, units), and eval is a ring homomorphism: (a+b)(x) = a(x)+b(x), (a*b)(x) = a(x)*b(x).", "quantifier": "all triples of polynomials, all points", "why_tests_cant": "Universal algebraic laws.", "anchors": ["src/polynomial/polynomial.rs", "src/polynomial/sparsepolynomial.rs"]}
{"id": "C56", "title": "Arithmetic on checked machine integers is exact or panics", "statement": "For fixed-width integer coefficients in a build with overflow checks, if dense +, -, *, neg, scalar *, eval return, the result is the exact integer result (and all result coefficients are in range); they return whenever every intermediate value is in range.", "quantifier": "all polynomials over every signed/unsigned width", "why_tests_cant": "All overflow boundaries.", "anchors": ["src/polynomial/polynomial.rs: Add, Sub, slice_mul, eval, Neg", "src/numerics.rs"]}
{"id": "C57", "title": "Arithmetic on wrapping machine integers is exact modulo the width", "statement": "For fixed-width integer coefficients in a build without overflow checks, dense +, -, *, neg, scalar * and eval return (except * of two zero polynomials), and every coefficient (or the value) is the unique value of the type congruent to the exact one modulo 2^bits.", "quantifier": "all polynomials over every signed/unsigned width", "why_tests_cant": "Every wrap-around pattern; intermediate wrapping must not change the final residue.", "anchors": ["src/polynomial/polynomial.rs: Add, Sub, slice_mul, eval, Neg", "src/numerics.rs"]}
{"id": "C58", "title": "Dense product and power: the complete outcome", "statement": "For every pair of Polynomials the product panics exactly when both are zero and is the product polynomial otherwise; over a domain, pow(n) panics exactly for the zero polynomial with n >= 2 and is the n-th power otherwise.", "quantifier": "all polynomials over every commutative ring (domain for pow), all exponents", "why_tests_cant": "Tests show single panicking inputs; the exact set needs a proof.", "anchors": ["src/polynomial/polynomial.rs: slice_mul, Mul, pow"]}
{"id": "C59", "title": "Dense division over a field: the complete outcome", "statement": "For every dividend and divisor over a field: all four spellings panic exactly for a zero divisor; otherwise div_mod, floor_div and %= return the Euclidean quotient/remainder within length+1 iterations, while % returns its left operand when it has smaller degree and otherwise loops forever.", "quantifier": "all pairs of polynomials over every field", "why_tests_cant": "Non-termination cannot be observed by a test.", "anchors": ["src/polynomial/polynomial.rs: div_mod, floor_div, Rem, RemAssign"]}
{"id": "C60", "title": "Dense division of integer polynomials: the complete outcome", "statement": "Over the integers div_mod and %= panic for a zero divisor, return the quotient and remainder exactly when they exist in Z[x] (within length+1 iterations), and loop forever exactly when they do not.", "quantifier": "all pairs of integer polynomials", "why_tests_cant": "Non-termination cannot be observed by a test.", "anchors": ["src/polynomial/polynomial.rs: div_mod, RemAssign"]}
{"id": "C61", "title": "Sparse division: the complete outcome", "statement": "For SparsePolynomial over a field, div_mod and % panic for a zero divisor, return (0, a) for deg a < deg b, the Euclidean quotient and remainder for deg a = deg b, and loop forever for deg a > deg b.", "quantifier": "all pairs of sparse polynomials over every field", "why_tests_cant": "Non-termination cannot be observed by a test.", "anchors": ["src/polynomial/sparsepolynomial.rs: div_mod, Rem, RemAssign"]}
{"id": "C62", "title": "Shifts: the complete outcome for every i32", "statement": "For every shift amount k of type i32: shifting by i32::MIN panics on every type; Polynomial >> k (and << -k) panics exactly when k exceeds the trimmed but not the stored number of coefficients; in all other cases the result is the product with, or quotient by, the power of x.", "quantifier": "all polynomials, all i32 shift amounts", "why_tests_cant": "Needs all (representation, amount) pairs.", "anchors": ["src/polynomial/polynomial.rs: Shl, Shr, ShlAssign, ShrAssign", "src/polynomial/sparsepolynomial.rs", "src/polynomial/monomial.rs"]}
{"id": "C63", "title": "Evaluation and powers with arbitrary exponents: the exact value", "statement": "Evaluating an integer SparsePolynomial or Monomial returns the value of the polynomial whose exponents are reduced modulo 2^32, for every exponent; Monomial::pow(n) multiplies the degree by n and raises the coefficient to n modulo 2^32. A monomial is evaluated correctly exactly when its degree is below 2^32, its coefficient is 0, or the point is 1, -1, or 0 (with a truncated degree that is not 0); the same for pow with the coefficient in place of the point. Over idealised floats the degree acts as an i32, and away from 0 the value is right exactly when the degree is below 2^31, the coefficient is 0, or the point is 1 or -1.", "quantifier": "all integer sparse polynomials, monomials, points and exponents", "why_tests_cant": "Exponents of 2^32 and more are out of reach for tests.", "anchors": ["src/polynomial/sparsepolynomial.rs: eval", "src/polynomial/monomial.rs", "src/numerics.rs: upow"]}
{"id": "C64", "title": "Quadratic root order and cubic roots: the exact conditions", "statement": "Two real quadratic roots come largest first exactly when a > 0 or they coincide; for a cubic over the reals the first number returned is a root exactly when the discriminant is <= 0 or the cubic is symmetric about its inflection point.", "quantifier": "all real quadratics and cubics", "why_tests_cant": "Continuum of coefficients.", "anchors": ["src/polynomial/find_roots.rs: trinomial_roots, cubic_roots"]}
{"id": "C65", "title": "Floating point coefficients: the arithmetic is correctly rounded", "statement": "With f32/f64 coefficients every +, -, *, / of the model returns a number of the format, the one nearest to the exact result whenever finite (even significand on ties), exact when the exact result is representable, and overflows only beyond the largest finite number.", "quantifier": "all pairs of floats of every binary format", "why_tests_cant": "2^128 operand pairs for f64.", "anchors": ["src/polynomial/polynomial.rs: impl blocks instantiated at f32, f64"]}
{"id": "C66", "title": "Float evaluation: forward error bound", "statement": "Polynomial::eval over f32/f64 (Horner) returns a number within ((1+u)^(2n+1)-1)*sum|a_i||x|^i plus an underflow term of the exact value whenever the result is finite; for whole numbers below 2^p it is exact.", "quantifier": "all float polynomials, all points", "why_tests_cant": "The bound is for every rounding pattern; tests sample a few.", "anchors": ["src/polynomial/polynomial.rs: eval"]}
{"id": "C67", "title": "Float addition, subtraction, negation, scaling: error per coefficient", "statement": "With f32/f64 coefficients + and - have a relative error of at most u in every coefficient, negation is exact, scaling and scalar division have relative error u plus half the smallest positive number; + is bitwise commutative but not associative.", "quantifier": "all float polynomials of any length", "why_tests_cant": "Needs all rounding patterns.", "anchors": ["src/polynomial/polynomial.rs: Add, Sub, Neg, Mul<N>, Div<N> and assigning forms"]}
{"id": "C68", "title": "Float product: error per coefficient, panics", "statement": "With f32/f64 coefficients every coefficient of a finite product is within ((1+u)^(n+1)-1)(|p||q|)_k + n(1+u)^n eta of the exact one; the product panics exactly for two zero operands (including -0.0); it is not commutative.", "quantifier": "all pairs of float polynomials", "why_tests_cant": "Needs all rounding patterns.", "anchors": ["src/polynomial/polynomial.rs: Mul", "src/polynomial/polynomial.rs: slice_mul"]}
{"id": "C69", "title": "Float derivative and integral: error per coefficient", "statement": "With f32/f64 coefficients each coefficient of the derivative has relative error at most u, each coefficient of the integral relative error at most u plus half the smallest positive number; both panic at most beyond 2^52 (f64) or 2^24 (f32) coefficients.", "quantifier": "all float polynomials", "why_tests_cant": "Needs all rounding patterns and lengths.", "anchors": ["src/polynomial/polynomial.rs: derivative, integral"]}
{"id": "C70", "title": "Float division: termination and result", "statement": "div_mod over f32/f64 by a non-zero divisor never panics and terminates with quotient and remainder satisfying p = q*b + r up to rounding.", "quantifier": "all pairs of float polynomials", "why_tests_cant": "Non-termination cannot be observed by a test; depends on one rounding error in the leading coefficient.", "anchors": ["src/polynomial/polynomial.rs: div_mod, floor_div, RemAssign"]}
{"id": "C71", "title": "Degree overflow with checks: exact or panic", "statement": "In a build with overflow checks, multiplication, pow, <<, integral and mul_poly_vec on SparsePolynomial and Monomial return the exact polynomial when every degree computed fits in a usize, and panic when one does not.", "quantifier": "all operands, every usize width", "why_tests_cant": "Degrees near 2^64 with every combination of terms.", "anchors": ["src/polynomial/sparsepolynomial.rs: map_mul, pow, integral, Shl", "src/polynomial/monomial.rs: Mul, pow, integral, Shl", "src/polynomial/poly_math.rs: mul_poly_vec"]}
{"id": "C72", "title": "Degree overflow without checks: the product modulo X^(2^bits) - 1", "statement": "In a build without overflow checks multiplication, pow and << on SparsePolynomial and Monomial always return, and the result is the exact polynomial reduced modulo X^(2^bits) - 1 (so the square of x^(2^(bits-1)) is 1).", "quantifier": "all operands, every usize width", "why_tests_cant": "Degrees near 2^64 with every combination of terms.", "anchors": ["src/polynomial/sparsepolynomial.rs: map_mul, pow, Shl", "src/polynomial/monomial.rs: Mul, pow, Shl"]}
{"id": "C73", "title": "Shifting by i32::MIN: panic or endless recursion", "statement": "<<, >>, <<= and >>= by i32::MIN panic in a build with overflow checks and call each other for ever in a build without them, for every operand; for every other amount the recursion is at most one call deep and both builds agree.", "quantifier": "all polynomials, all i32 shift amounts, both builds", "why_tests_cant": "Non-termination cannot be observed by a test.", "anchors": ["src/polynomial/polynomial.rs: Shl, Shr, ShlAssign, ShrAssign", "src/polynomial/sparsepolynomial.rs", "src/polynomial/monomial.rs"]}
{"id": "C74", "title": "Growing a Polynomial up to the largest degree", "statement": "add_term, try_sub_term and from_terms on Polynomial are exact for every degree below usize::MAX and panic at usize::MAX, with or without overflow checks.", "quantifier": "all polynomials, coefficients, degrees and usize widths", "why_tests_cant": "The index arithmetic wraps only at a degree no test can allocate.", "anchors": ["src/polynomial/polynomial.rs: add_term, try_sub_term, from_terms"]}
{"id": "C75", "title": "Machine integers with overflow checks: powers and division are exact when they return", "statement": "In a build with overflow checks, whenever pow, div_mod, floor_div, % and %= of Polynomial<N> and multiplication, pow, div_mod and % of SparsePolynomial<N> return for a primitive integer type N, the result is the exact one: the power, or a quotient and remainder with p = q*b + r and deg r < deg b.", "quantifier": "all polynomials, every integer width and signedness", "why_tests_cant": "An overflow in an intermediate value depends on the order of all operations.", "anchors": ["src/polynomial/polynomial.rs: pow, div_mod, floor_div, Rem, RemAssign", "src/polynomial/sparsepolynomial.rs: Mul, pow, div_mod, Rem"]}
{"id": "C76", "title": "Sparse polynomials over machine integers: exactly which operands overflow", "statement": "In a build with overflow checks each of +, -, negation, scaling, add_term, eval, multiplication and derivative of SparsePolynomial<N> returns the exact result when the stated values fit the type and panics when one of them does not; for unsigned types multiplication panics exactly when a coefficient of the product does not fit.", "quantifier": "all sparse polynomials, every integer width and signedness", "why_tests_cant": "The set of operands which overflow is not finite in the degree, and depends on the order of operations.", "anchors": ["src/polynomial/sparsepolynomial.rs: Add, Sub, Neg, Mul, MulAssign, add_term, eval, derivative, map_mul"]}
{"id": "C77", "title": "Division loops over machine integers: panic, endless loop or result", "statement": "For a non-zero divisor of no larger degree, dense % with machine integers never returns: with overflow checks it panics after at most 2^bits rounds unless the quotient of the leading coefficients is zero, without them it panics exactly on MIN / -1. Sparse division and % return exactly for equal degrees with an exact quotient whose step fits the type, panic or loop for ever otherwise, as stated case by case.", "quantifier": "all pairs of polynomials, every integer width and signedness", "why_tests_cant": "Non-termination cannot be observed by a test.", "anchors": ["src/polynomial/polynomial.rs: Rem", "src/polynomial/sparsepolynomial.rs: div_mod, Rem, RemAssign", "src/polynomial/sparsepolynomial.rs: map_sub_w_scale"]}
{"id": "C78", "title": "Scalar division and integration over machine integers", "statement": "Dividing a polynomial by a number, and integrating it, over a primitive integer type: the coefficients are the quotients rounded towards zero; the division panics exactly for a zero divisor or MIN / -1, and integral exactly when the type cannot represent the degree of the integral, with or without overflow checks.", "quantifier": "all polynomials and divisors, every integer width and signedness, both builds", "why_tests_cant": "The one overflowing quotient is a single pair of values per type, and the failing degree depends on the type.", "anchors": ["src/polynomial/polynomial.rs: Div<N>, DivAssign<N>, integral", "src/polynomial/sparsepolynomial.rs: Div<N>, DivAssign<N>, integral"]}
{"id": "C79", "title": "Fixed-size polynomials over machine integers: exactly which operands overflow", "statement": "With overflow checks, each operation of Monomial, LinearBinomial, QuadraticTrinomial and ArrayPolynomial over a primitive integer type returns the exact result when the stated values fit the type and panics when one does not. QuadraticTrinomial::roots for signed types returns exactly when a is not zero and b^2, 4ac, the discriminant and 2a fit.", "quantifier": "all operands, every integer width and signedness", "why_tests_cant": "The boundary of the set of overflowing operands is a surface in several coefficients.", "anchors": ["src/polynomial/monomial.rs", "src/polynomial/binomial.rs", "src/polynomial/trinomial.rs", "src/polynomial/array_polynomial.rs", "src/polynomial/find_roots.rs: trinomial_roots"]}
{"id": "C80", "title": "Powers over machine integers: when they overflow", "statement": "With overflow checks, pow of Polynomial<N> and SparsePolynomial<N> over an unsigned type returns the exact power exactly when every coefficient of the power fits the type (and, for Polynomial, the base is not zero or the exponent is at most 1), and panics otherwise: no intermediate square overflows on its own. For every type it returns the exact power exactly when all products of coefficients and all partial sums of the multiplications of binary powering (the squares of the powers for the leading binary digits of n, and the products with the base at the odd ones) fit the type, and panics otherwise (Polynomial: for a base other than zero). For signed types it returns the exact power whenever the n-th power of a polynomial dominating the absolute values of the coefficients fits, in particular when (sum |a_i|)^n does.", "quantifier": "all polynomials and exponents, every integer width and signedness", "why_tests_cant": "The intermediate squares depend on the binary digits of the exponent.", "anchors": ["src/polynomial/polynomial.rs: pow", "src/polynomial/sparsepolynomial.rs: pow"]}
{"id": "C81", "title": "Machine integers without overflow checks: results are reduced modulo 2^bits", "statement": "In a build without overflow checks, negation, sums, differences, products, powers, scaling, evaluation and derivatives of SparsePolynomial, Monomial, LinearBinomial, QuadraticTrinomial, and add_term, derivative and pow of Polynomial, and eval of ArrayPolynomial over a primitive integer type return the exact result with every coefficient reduced to the type. Derivatives panic exactly when an exponent (dense: the length) does not fit the type. Polynomial::pow panics exactly when the exponent n is at least 2 and every coefficient of the (n/2)-th power is divisible by 2^bits.", "quantifier": "all operands, every integer width and signedness", "why_tests_cant": "Wrapping happens after overflow only; the intermediate results of pow which vanish modulo 2^bits are few.", "anchors": ["src/polynomial/polynomial.rs: pow, derivative, add_term", "src/polynomial/sparsepolynomial.rs: Neg, Add, Sub, Mul, pow, eval, derivative", "src/polynomial/monomial.rs", "src/polynomial/binomial.rs", "src/polynomial/trinomial.rs", "src/polynomial/array_polynomial.rs: eval"]}
{"id": "C82", "title": "Polynomial division over machine integers without overflow checks", "statement": "In a build without overflow checks, Polynomial::div_mod, floor_div and %= over a primitive integer type with a nonzero divisor either never return, or panic (only when the leading coefficient of the divisor is -1), or return values with p = q*b + r modulo 2^bits and deg r < deg b. They return exactly when there are q and r of values of the type with p = q*b + r modulo 2^bits, deg r < deg b and no product of a coefficient of q and the leading coefficient of b out of range, which determine q and r, and then within len(self)+1 rounds (%= panics if it found a term of q and the leading coefficients of r and b are MIN and -1); otherwise they panic if the type is signed and the leading coefficient of b is -1, and never return if not. For a monic divisor they return within len(self)+1 rounds with the exact quotient and remainder reduced to the type. SparsePolynomial division never returns when the dividend has a larger degree than the divisor; at equal degrees it returns exactly when the leading coefficients divide and no MIN/-1 occurs.", "quantifier": "all dividends and nonzero divisors, every integer width and signedness", "why_tests_cant": "Whether the loop ends depends on the divisibility of wrapped leading coefficients.", "anchors": ["src/polynomial/polynomial.rs: div_mod, floor_div, RemAssign", "src/polynomial/sparsepolynomial.rs: div_mod, Rem, RemAssign"]}
{"id": "C83", "title": "Square roots and roots of linear polynomials in floating point", "statement": "For f32 and f64, abs_sqrt of a finite number is the number of the format nearest to the square root of its absolute value (ties to even; relative error at most 2^-p, never subnormal), and LinearBinomial::root of ax+b with a not zero returns, unless it overflows, the number of the format nearest to -b/a.", "quantifier": "all finite floats of both formats, including subnormals", "why_tests_cant": "Which of the 2^64 inputs would round wrongly cannot be enumerated; the worst cases of a square root lie arbitrarily near a tie.", "anchors": ["src/numerics.rs: AbsSqrt for f32, f64", "src/polynomial/binomial.rs: root"]}
{"id": "C84", "title": "Roots of quadratic polynomials in floating point: error bound, kind of answer, exact cases", "statement": "For f32 and f64 the two roots returned by QuadraticTrinomial::roots, when they are finite and a is not zero, are within (3u*sqrt(S) + sqrt(3uS + 6h))/|a| + 3h of the two exact complex roots, where S = b^2 + 4|ac|, u = 2^-p and h is half the smallest positive number. When |b^2 - 4ac| exceeds 3uS + 6h the roots are reported as real exactly when b^2 - 4ac > 0. For k(x-r)(x-s) with integers (2kr)^2, (2ks)^2, (2k)^2 < 2^p the roots are exactly r and s, the larger first when k > 0. A leading coefficient zero gives two real roots that are not finite; a NaN coefficient gives two complex roots with NaN imaginary part; cancellation can return 0 for a root that is not zero and overflow can return infinities for roots that are representable.", "quantifier": "all finite coefficients of both formats (and NaN where stated)", "why_tests_cant": "The rounding errors of nine operations accumulate differently for every triple of coefficients; the square root of the error bound only shows near a double root.", "anchors": ["src/polynomial/find_roots.rs: discriminant_trinomial, trinomial_roots", "src/polynomial/trinomial.rs: discriminant, roots"]}
{"id": "C85", "title": "Sparse polynomials in floating point: error bounds, equality, division", "statement": "For f32 and f64, with no intermediate overflow: sums and differences of SparsePolynomials (also minus a Polynomial), derivatives, and scaling have one rounding per coefficient; negation is exact; a product has at most n+1 roundings relative to the product of absolute values, n the number of terms of the right operand; the integral has one rounding per coefficient; eval has n+1 roundings relative to the sum of absolute values plus the error of powi, and is exact for integers whose absolute sum stays below 2^p. degree, is_zero, iteration and == agree with the exact polynomial of the stored values; a polynomial equals itself unless a coefficient is NaN. The derivative exists exactly when every power with non-zero coefficient is a number of the format, except usize::MAX, which is converted to 2^64. Division: a zero divisor panics, a dividend of lower degree is the remainder, a dividend of higher degree is never finished, and at equal degrees one round suffices when the leading coefficients cancel exactly (two roundings per coefficient), while the smallest positive number by 4 is never finished. In general division at equal degrees returns exactly if the iteration of c to the rounded c - l * (c / l) on the leading coefficients reaches zero; for |l| < 3/2 it does within as many rounds as a magnitude has bits, unless a round overflows, and for |l| >= 3/2 the smallest positive number is never finished.", "quantifier": "all polynomials over both formats, including subnormals and signed zeros; division also for NaN and infinities", "why_tests_cant": "Rounding errors depend on all bits of every coefficient; the number of roundings grows with the number of terms.", "anchors": ["src/polynomial/sparsepolynomial.rs: Neg, Add, AddAssign, Sub, Mul, Div, eval, derivative, integral, degree, ordered_term_iter, PartialEq, div_mod, Rem, RemAssign"]}
{"id": "C86", "title": "Fixed-size polynomials in floating point; degree, terms and equality of dense ones", "statement": "For f32 and f64, with no intermediate overflow: degree, is_zero, the term iterator and == of Polynomial, Monomial, LinearBinomial and QuadraticTrinomial (degree, is_zero and == of ArrayPolynomial) agree with the exact polynomial of the stored values, zeros of either sign counting as zero, and a Polynomial equals itself exactly when no coefficient is NaN. eval of a LinearBinomial has two roundings, of a QuadraticTrinomial four, of an ArrayPolynomial 2(SIZE-1)+1, of a Monomial one beyond powi, relative to the sum of absolute values, and eval of linear and quadratic polynomials is exact for integers whose absolute sums stay below 2^p. Sums, differences and scaling of LinearBinomial and QuadraticTrinomial, scaling and products of Monomials have one rounding per coefficient; negation is exact. The derivative of a LinearBinomial is exact, that of a QuadraticTrinomial always exists, that of a Monomial exists exactly when it is zero or its degree is a number of the format; the integrals of linear and quadratic polynomials always exist, that of a Monomial exactly when it is zero or its degree plus one is a number of the format, those of an ArrayPolynomial up to SIZE 2^52 (2^24); every coefficient is rounded once and the constant of an integral is zero.", "quantifier": "all values of the types over both formats, including subnormals and signed zeros; every SIZE", "why_tests_cant": "Rounding errors depend on all bits of every coefficient and of the point.", "anchors": ["src/polynomial/polynomial.rs: degree, is_zero, ordered_term_iter, PartialEq", "src/polynomial/monomial.rs", "src/polynomial/binomial.rs", "src/polynomial/trinomial.rs", "src/polynomial/array_polynomial.rs: eval, derivative, integral, degree"]}
{"id": "C87", "title": "Whole-number coefficients are computed exactly in floating point", "statement": "For f32 and f64 (p = 24, 53) and polynomials whose coefficients are whole numbers: sums, differences, products, powers, scalar multiples and derivatives of Polynomials and SparsePolynomials have exactly the coefficients of the true result, as long as those coefficients (for products and powers: the same operation on the absolute values) stay below 2^p; powers of a Polynomial need it to be non-zero. Division by a scalar is exact when the quotients are whole. div_mod of Polynomials returns the exact quotient and remainder, within one more round than the dividend has coefficients, whenever the exact quotient Q has whole coefficients and |P| + |Q||B| stays below 2^p, whatever the leading coefficient of the divisor; floor_div and %= agree.", "quantifier": "all polynomials of both formats with whole coefficients, every exponent, every divisor", "why_tests_cant": "Exactness has to hold for every combination of coefficients up to 2^53; tests only show it for the ones they try, and beyond 2^53 it is false.", "anchors": ["src/polynomial/polynomial.rs: Add, Sub, Mul, pow, Mul<N>, Div<N>, derivative, div_mod, floor_div, RemAssign", "src/polynomial/sparsepolynomial.rs: Add, Sub, Mul, pow, Mul<N>, Div<N>, derivative"]}
{"id": "C88", "title": "Printing and parsing polynomials with floating-point coefficients", "statement": "For f32 and f64 a coefficient text is accepted exactly when it is an optional sign and a decimal number, and stands for the number of the format nearest to it (ties to even), finite whenever the decimal number does not exceed the largest finite number. The text printed for a Polynomial, SparsePolynomial, Monomial, LinearBinomial or QuadraticTrinomial with finite coefficients parses back to a polynomial with exactly the same coefficients (== as well), signs of zeros aside. Printing a polynomial with an infinite or NaN coefficient succeeds but gives a text that is rejected (NaN prints after a minus sign when it is not the leading coefficient).", "quantifier": "every text; every polynomial of the five types over both formats with degree below 2^usize; every Display of floats that prints finite numbers as decimal numbers that read back", "why_tests_cant": "The round trip must hold for each of the 2^64 coefficients in every position of polynomials of any degree.", "anchors": ["src/strings.rs: write_leading_term, write_trailing_term, TermTokenizer", "src/terms.rs: Term::from_str", "src/polynomial/*.rs: Display, FromStr"]}
{"id": "C89", "title": "Powers of polynomials in floating point: error bound and when they return", "statement": "For f32 and f64, if the n-th power of a Polynomial or SparsePolynomial of degree d has only finite coefficients and no product of n of its non-zero coefficients can fall below the smallest normal number, every coefficient of the computed power is within ((1+u)^((n-1)(2nd+3)) - 1) times the same coefficient of the n-th power of the polynomial of absolute values from the exact one. Polynomial::pow returns for every polynomial with a leading coefficient of at least 2^-m as long as m*(n/2) <= 1074 (149); without that it can panic although the polynomial is not zero: the fourth power of 2^-538 does.", "quantifier": "all polynomials of both formats, every exponent", "why_tests_cant": "The number of roundings depends on the exponent and the degree, and the order of the multiplications on the binary digits of the exponent.", "anchors": ["src/polynomial/polynomial.rs: pow", "src/polynomial/sparsepolynomial.rs: pow"]}
{"id": "C90", "title": "roots() of polynomials in floating point: results, deflation and when it returns", "statement": "For every behaviour of the external solver, in f64 (the only type roots() exists for; the proofs cover the f32 format as well): Polynomial::roots and SparsePolynomial::roots give InfiniteRoots exactly for a zero polynomial, NoRoots for a constant, [0] for a single term, for degree one the number nearest to -b/a, for degree two the pair of C84 (each within an explicit distance from the exact roots), for degree three the cubic formula, and from degree four, round by round, every number the solver returned or its rounding to a whole number (the rounding exactly when the polynomial's absolute value there is the smaller one, NaN never being smaller), as long as roots are missing, NoRoots exactly when it returned nothing for the quotients by the leading coefficient. Deflating by a root r is Horner's scheme: the result is the list of values of the leading parts at r, and (x - r) times it differs from the polynomial by a constant and, in the coefficient of x^i, by at most u|c_i| + (2u + u^2)|r q_i| plus underflow. roots() returns within d+1 rounds when the coefficients are at most 2^a, the leading one is at least 2^-l, the roots from the solver are at most 2^r and a + l + (r+1)d(d-1)/2 stays below the largest exponent. Without that it can run for ever: 2^1023 (x^4 + x^3 - x^2 - x) does when the solver answers with the exact root 1, as deflation loops for ever once a coefficient overflows.", "quantifier": "all polynomials over both formats, every solver, every root", "why_tests_cant": "The loop depends on the solver and on every intermediate rounding; tests use a handful of small polynomials.", "anchors": ["src/polynomial/find_roots.rs: 118-281", "src/polynomial/polynomial.rs: roots", "src/polynomial/sparsepolynomial.rs: roots"]}
{"id": "C91", "title": "Building polynomials term by term in floating point", "statement": "For any binary format and all six polynomial types: try_add_term and try_sub_term that succeed with finite results change only the coefficient of their degree, which is the old one plus (minus) the given one rounded once; a refused term leaves the value as it was, and the refusals are those of C29. add_poly, sub_poly and the sink forms of poly_add! and poly_sub! give, in the coefficient of x^k, an error of at most ((1+u)^n - 1) times the sum of the absolute values, n the number of terms of degree k; mul_poly_vec the same with one rounding more for each product plus underflow. from_terms and the macros that return a polynomial take the first term of each degree exactly, so terms of different degrees give exactly their sum, and n terms of degree k cost n - 1 roundings. Whole numbers are exact while the sums of absolute values stay below 2^p.", "quantifier": "all formats, all term lists (any order, with repetitions), all targets", "why_tests_cant": "How many roundings a coefficient suffers depends on the number of terms of its degree; tests add terms of different degrees with small whole coefficients.", "anchors": ["src/polynomial/polynomial.rs: MutablePolynomial", "src/polynomial/sparsepolynomial.rs: MutablePolynomial", "src/macros.rs: poly_add, poly_sub"]}
{"id": "C92", "title": "Shifts, trimming and casts in floating point", "statement": "Operations that only move coefficients are exact for every binary format. << and <<= by k multiply the value by x^k, >> and >>= drop the lowest k coefficients, and a negative count shifts the other way; every coefficient of the result is one of the operand, bit for bit, or +0.0. On dense polynomials only >> can panic: exactly if k exceeds the number of coefficients without leading zeros but not the number stored. new, From<Vec> and trim drop exactly the leading (sparse: all) coefficients equal to zero of either sign and keep the rest, NaN and infinities included. Upcasting f32 polynomials to f64 changes no value, no infinity and no NaN, and the f64 product of two upcast f32 numbers is exact; every integer-to-float entry of the upcast table maps every value of the integer type to the float of exactly that value, for all polynomial types.", "quantifier": "all formats, all coefficient lists and shift counts below 2^31, all values of the integer types in the table", "why_tests_cant": "Exactness of a cast over all 2^32 i32 values, and at the limits of the formats, is not sampled by tests; no test shifts a float polynomial with NaN or signed zeros.", "anchors": ["src/polynomial/polynomial.rs: Shl/Shr/trim", "src/polynomial/sparsepolynomial.rs: Shl/Shr", "src/polynomial/monomial.rs: Shl/Shr", "src/polynomial/binomial.rs: Shl/Shr", "src/polynomial/trinomial.rs: Shl/Shr", "src/macros.rs: upcast!"]}
{"id": "C93", "title": "Definite integrals in floating point", "statement": "integral().eval(a, b) in f64 and f32, for all six polynomial types with finite coefficients and finite results: it differs from the exact integral F(b) - F(a) by at most ((1+u)^(2n+1) - 1)(G(|a|) + G(|b|)) plus underflow, where n is the number of stored coefficients of the integral and G the antiderivative with absolute values (n + 3 roundings and the precision of the power function for sparse polynomials and monomials). If the antiderivative has whole coefficients and the limits are whole, the result is exact while the sums of absolute values stay below 2^53 (2^24). Exchanging the limits changes only the sign; an empty interval gives +0.0. replace_c sets the constant exactly and changes no other coefficient.", "quantifier": "all polynomials with finite coefficients, all limits, f64 and f32", "why_tests_cant": "The error combines the rounded quotients, two evaluations and one subtraction with cancellation; tests integrate whole polynomials between whole limits.", "anchors": ["src/polynomial/integral.rs: eval, replace_c", "src/polynomial/polynomial.rs: integral", "src/polynomial/sparsepolynomial.rs: integral", "src/polynomial/monomial.rs: integral", "src/polynomial/binomial.rs: integral", "src/polynomial/trinomial.rs: integral", "src/polynomial/array_polynomial.rs: integral"]}
{"id": "C94", "title": "Factors of quadratics in floating point", "statement": "real_factors and complex_factors of QuadraticTrinomial and ArrayPolynomial<3> in f64 and f32: they never panic; real_factors is None exactly when roots() finds complex roots (in particular whenever the discriminant is negative by more than its rounding error) and otherwise returns a with two monic factors. With finite factors, the exact product of what is returned has leading coefficient a, a linear coefficient within 3u sqrt(S) of b and a constant within 4uS/|a| of c, up to underflow, where S = b^2 + 4|ac|. For k(x-r)(x-s) with small integers it is exactly the trinomial.", "quantifier": "all quadratics with finite coefficients, a nonzero and 2a finite; f64 and f32", "why_tests_cant": "The product of the factors is not the polynomial after rounding; tests use whole roots, for which every step is exact.", "anchors": ["src/polynomial/trinomial.rs: roots, complex_factors, real_factors", "src/polynomial/array_polynomial.rs: roots, complex_factors, real_factors", "src/polynomial/find_roots.rs: trinomial_roots"]}
{"id": "C95", "title": "Roots of cubics in floating point", "statement": "cubic_roots, and roots() of a Polynomial or SparsePolynomial of degree three that is not a single term, in f64 (the only type they are used with; the proofs cover the f32 format as well): it never panics and returns three real or three complex roots, the first of them real, for every behaviour of cbrt. When they are finite, the polynomial P - P(w1) is a((X-w1)(X-w2)(X-w3) + E2 X^2 + E1 X + E0) with |E2| <= 24uT, |E1| <= 140uT^2, |E0| <= 125uT^3, for every T that bounds |w1|, |b/a| and sqrt|c/a|. For k(x-r)^3 with small integers the answer is r three times, exactly. Nothing of the kind bounds P(w1): for x^3-7x+6 and every cbrt accurate to one percent, P(w1) >= 1.", "quantifier": "all cubics with finite coefficients, every implementation of cbrt (for triple roots: every one with cbrt(0)=0); f64 and f32", "why_tests_cant": "cbrt has no specified precision and differs between platforms; tests compare a handful of cubics on one of them.", "anchors": ["src/polynomial/find_roots.rs: cubic_roots, trinomial_roots, find_roots", "src/polynomial/polynomial.rs: roots", "src/polynomial/sparsepolynomial.rs: roots"]}
{"id": "C96", "title": "In-place and by-reference operators agree with the others", "statement": "Every compound assignment (+=, -=, *=, /=, %=, <<=, >>=) and every by-reference variant of an operator of Monomial, LinearBinomial, QuadraticTrinomial and SparsePolynomial, and +=, -=, *=, /=, <<= and every by-reference variant of Polynomial, leaves exactly the value that the by-value operator returns (for Polynomial: up to trimming), panics on the same operands and runs for ever on the same operands. >>= of Polynomial agrees with >> wherever >> does not panic. += of SparsePolynomial adds the two coefficients in the other order.", "quantifier": "all operands, every coefficient type (no law of arithmetic is assumed, so wrapping integers and floats are included, except commutativity of addition for += of SparsePolynomial)", "why_tests_cant": "The variants are separate pieces of code; a test suite exercises only some of them, with a few operands.", "anchors": ["src/polynomial/monomial.rs: MulAssign, DivAssign, ShlAssign, ShrAssign", "src/polynomial/binomial.rs: AddAssign, SubAssign, MulAssign, DivAssign", "src/polynomial/trinomial.rs: AddAssign, SubAssign, MulAssign, DivAssign", "src/polynomial/sparsepolynomial.rs: AddAssign, MulAssign, DivAssign, SubAssign, RemAssign, ShlAssign, ShrAssign", "src/polynomial/polynomial.rs: Add, AddAssign, Sub, SubAssign, Mul, MulAssign, Div, DivAssign, Shl, ShlAssign, Shr, ShrAssign"]}
{"id": "C97", "title": "Number of arithmetic operations of pow, *, eval and div_mod", "statement": "pow with exponent n >= 1 forms floor(log2 n) + (ones in binary n) - 1 products of polynomials and nests that deep (at most 126 for any usize exponent); a dense product multiplies coefficients (non-zero coefficients of the right factor) x (coefficients of the left factor without leading zeros) times, a sparse product (non-zero entries of the right) x (entries of the left); eval of n stored coefficients multiplies n-1 times, or never at zero; over a field div_mod divides once per non-zero term of the quotient, at most deg p - deg b + 1 times, and multiplies deg b + 1 times for each.", "quantifier": "all polynomials and exponents; pow, * and eval for every coefficient type", "why_tests_cant": "A test sees the value, not the number of operations; an accidental return to repeated multiplication keeps all values.", "anchors": ["src/polynomial/polynomial.rs: pow, slice_mul, eval, vec_sub_w_scale, div_mod", "src/polynomial/sparsepolynomial.rs: pow, map_mul"]}
{"id": "C98", "title": "The float coefficients obey IEEE 754 in every case", "statement": "For every binary format and all operands, +, -, * and / of the float coefficients are NaN exactly for the operands IEEE 754 lists (a NaN; infinities of opposite sign; zero times infinity; 0/0; infinity by infinity), infinite with the prescribed sign for infinite operands and division by zero, and otherwise the exact result rounded to nearest with ties to even, infinite exactly from half a step above the largest finite number on, with the prescribed sign bit also for zeros (an exact zero sum is negative only if both operands are); this determines the result uniquely. == is equality of the values, NaN being equal to nothing and the two zeros equal; negation flips the sign bit; conversion from usize rounds; abs_sqrt is NaN only for NaN and never negative; is_positive, abs, is_one, is_negative_one and is_zero compare or keep the value accordingly.", "quantifier": "all operands of every binary format, including NaN, infinities, signed zeros and subnormals", "why_tests_cant": "There are 2^128 pairs of f64 operands; the special cases and the overflow boundary are single points among them.", "anchors": ["src/polynomial/polynomial.rs: every use of + - * / on coefficients", "src/numerics.rs: AbsSqrt, TryFromUsizeContinuous for f32, f64"]}
{"id": "C99", "title": "Dense integer division with overflow checks, in every case", "statement": "For every primitive integer type with overflow checks and all dense polynomials over it, division by a nonzero polynomial is of exactly one of two kinds over the integers: it completes with one quotient Q and remainder T, or it comes to a leading coefficient that is not a multiple of the divisor's. In the first case div_mod and floor_div return Q and T when the values of every round (the term of the quotient, its products with the divisor's coefficients, the coefficients left) are values of the type, and panic otherwise; %= does the same, except that it panics also when the leading coefficient of a nonzero remainder divided by that of the divisor is no value of the type (MIN by -1). In the second case the division never returns when all rounds up to that one fit the type, and panics otherwise. A zero divisor always panics.", "quantifier": "all dense polynomials over every primitive integer type", "why_tests_cant": "Which intermediate value first leaves the range depends on all coefficients; a run that does not return cannot be told from a slow one.", "anchors": ["src/polynomial/polynomial.rs:DivMod", "src/polynomial/polynomial.rs:FloorDiv", "src/polynomial/polynomial.rs:RemAssign", "src/polynomial/polynomial.rs: vec_sub_w_scale"]}
{"id": "C100", "title": "Powers of coefficients by repeated squaring", "statement": "pow of the primitive integers, by repeated squaring, overflows (with checks: panics; without: wraps) exactly as the power taken as one operation. powi of the floats by repeated squaring (compiler-rt) has at most the relative error of n roundings for the n-th power, n < 2^31, when the result is finite and no power underflows, is exact for whole numbers with powers below 2^53 (2^24), and gives 1 for exponents that are multiples of 2^32. Hence eval of a sparse polynomial has the error of n + d + 1 roundings and eval and pow of a Monomial that of d + 1 and n; sparse eval is exact for whole numbers unless zero coefficients are stored, in which case it can be NaN.", "quantifier": "all bases and exponents of every integer type and binary format", "why_tests_cant": "The intermediate squares are invisible in the result; overflow of one of them, or a stored zero meeting an infinite power, needs particular bases and exponents.", "anchors": ["src/numerics.rs:PowUsize", "src/polynomial/sparsepolynomial.rs:Evaluable::eval", "src/polynomial/monomial.rs:Evaluable::eval, Monomial::pow"]}
{"id": "C101", "title": "Stored form of results: trimmed or not, and how much is stored", "statement": "Whatever the operands, new, From<Vec>, trim, +, products by reference, scalar * and /, casts, pow with a positive exponent and the quotient of a division are trimmed vectors (no leading zero, so one coefficient more than the degree); so is a remainder, except that a dividend with nothing to divide is returned as it is. -, += and -= store as many coefficients as the longer operand, add_term and try_sub_term of degree d max(len, d + 1), from_terms and parsing one more than the largest degree, even if all cancels; * and *= one less than the operands together without their leading zeros (a non-zero p times zero stores deg p zeros), derivative one less, integral and shifts one or k more (zero << k stores k zeros), %= as many as before. A SparsePolynomial keeps an entry for every degree stored in either operand of a sum or remainder, for every sum of a stored degree of the left and a non-zero one of the right factor, and a quotient has at most one. Without trim, set_to_zero, products and shifts no history of mutations ever frees storage.", "quantifier": "all operands, every coefficient type (no law of arithmetic is assumed except where degrees are named)", "why_tests_cant": "Tests compare values with ==, which ignores leading zeros and stored zero entries.", "anchors": ["src/polynomial/polynomial.rs: new, trim, Add, AddAssign, Sub, SubAssign, Mul, MulAssign, Neg, Shl, Shr, derivative, integral, div_mod, RemAssign, add_term, from_terms", "src/polynomial/sparsepolynomial.rs: Add, Sub, Mul, map_mul, div_mod, Rem, add_term, from_terms, trim", "src/strings.rs: from_str"]}
{"id": "C102", "title": "Parsing, from_terms, add_poly and the macros on machine integers and bounded vectors", "statement": "For every primitive integer type with overflow checks, a usize of w bits and vectors of at most cap < 2^w coefficients: from_terms, add_poly, sub_poly (signed types), mul_poly_vec, poly_add! and poly_sub! return the exact sum, difference or product when every degree has room (dense: below cap) and every partial result has coefficients of the type, and panic otherwise; FromStr of each type does what it does with unbounded numbers when this holds of the terms before the first error, and panics otherwise. For unsigned types only the total has to fit, so the order of terms does not matter; for signed types it does. Without checks the coefficients wrap, and only a dense degree without room panics. Printing a polynomial (no coefficient MIN below the leading one) and parsing the text gives it back, with and without checks.", "quantifier": "all texts, all lists of terms, all polynomials over every primitive integer type; every w and cap", "why_tests_cant": "The outcome depends on every partial sum in order; huge degrees exhaust the memory of the test instead of showing the panic.", "anchors": ["src/strings.rs: from_str", "src/polynomial/poly_math.rs: add_poly, sub_poly, mul_poly_vec, poly_add!, poly_sub!", "src/polynomial/polynomial.rs: add_term, try_sub_term, from_terms, FromStr", "src/polynomial/sparsepolynomial.rs: add_term, from_terms, FromStr"]}
{"id": "C103", "title": "Overflow checks only add panics", "statement": "For every function of the model whose outcome can depend on overflow checks (arithmetic, evaluation, derivative, integral, division, pow, mutation, shifts, degrees, abs, abs_sqrt, roots of quadratic trinomials, printing, parsing, the poly_math functions) and all arguments: if it does not panic in a build with overflow checks, it does the same in a build without them. The converse fails.", "quantifier": "all arguments, every primitive integer type, every width of usize", "why_tests_cant": "A test run uses one kind of build; agreement of the two for all inputs is a statement about pairs of executions.", "anchors": ["src/polynomial/polynomial.rs: all operators", "src/polynomial/sparsepolynomial.rs: all operators", "src/polynomial/monomial.rs", "src/polynomial/binomial.rs", "src/polynomial/trinomial.rs", "src/polynomial/array_polynomial.rs", "src/numerics.rs: Abs, AbsSqrt, PowUsize", "src/strings.rs"]}
{"id": "C104", "title": "Which terms are taken, and what is refused, on machine integers", "statement": "add_poly, sub_poly and mul_poly_vec go through their terms (or products, in the order of the pairs) until one is refused, and return the error with everything before it applied: a LinearBinomial refuses degrees above 1, a QuadraticTrinomial above 2, an ArrayPolynomial of size n degrees n and more (DegreeOutOfBounds), a Monomial a degree other than its own unless it is zero at that moment (TooManyTerms); subtraction over an unsigned type refuses, in a Polynomial, degrees beyond its stored coefficients, and in a SparsePolynomial non-zero terms of degrees without an entry (CanNotNegate). With overflow checks this is the outcome, with exact coefficients, when every polynomial on the way up to the refused term (and for products every product formed, including the refused one) is representable, and a panic otherwise; without checks it is always the outcome, with coefficients reduced to the type (a Monomial that becomes zero by reduction takes any degree). Subtraction over a signed type without checks refuses nothing; a dense degree without room panics.", "quantifier": "all lists of terms, all starting polynomials, every primitive integer type, every w and cap", "why_tests_cant": "The state left behind after a refusal depends on the position of the first refused term in arbitrary lists and on overflow before it.", "anchors": ["src/polynomial/poly_math.rs: add_poly, sub_poly, mul_poly_vec", "src/polynomial/monomial.rs: MutablePolynomial", "src/polynomial/binomial.rs: MutablePolynomial", "src/polynomial/trinomial.rs: MutablePolynomial", "src/polynomial/array_polynomial.rs: MutablePolynomial", "src/polynomial/polynomial.rs: try_sub_term", "src/polynomial/sparsepolynomial.rs: try_sub_term"]}
{"id": "C105", "title": "Definite integrals, constants of integration, linear roots and quadratic factors on machine integers", "statement": "Integral::eval with overflow checks returns the difference of the values at the two ends exactly when both evaluations and the difference fit, and panics otherwise; without checks it is that difference reduced to the type. Over unsigned types it returns from left to right exactly when the value at the right end fits, and panics from right to left unless the polynomial is constant. replace_c adds the constant and panics (wraps without checks) exactly when the constant coefficient overflows. root of a x + b, a not 0, over a signed type is a whole r with |a r + b| < |a|, the root if a whole one exists, except for b = MIN: a panic with checks, and without them a panic for a = -1 and an answer of the wrong sign otherwise. real_factors and complex_factors of a quadratic panic exactly when roots does; the real factors multiply back exactly when the polynomial is a (x - u)(x - v) for integers u, v of the same parity. Without checks roots and factors panic exactly for a = 0 and a = MIN, and otherwise use the formula with the discriminant, 2a and -b reduced to the type. ArrayPolynomial of size 2 and 3 does the same.", "quantifier": "all polynomials and points of every primitive integer type; roots with sqrt: every signed type of even width", "why_tests_cant": "The outcome depends on overflow in intermediate values, and on one coefficient (MIN) out of 2^64.", "anchors": ["src/polynomial/integral.rs: Integral::eval, replace_c", "src/polynomial/binomial.rs: LinearBinomial::root", "src/polynomial/trinomial.rs: real_factors, complex_factors", "src/polynomial/array_polynomial.rs: root, roots, discriminant, real_factors, complex_factors"]}
{"id": "C106", "title": "Any history of mutations on machine integers", "statement": "For every primitive integer type, any starting value and any sequence of add_term, try_sub_term (signed types), +=, -=, *=, scalar *=, <<=, >>=, trim and set_to_zero on a Polynomial or SparsePolynomial, with operands of the type: with overflow checks the sequence returns the polynomial obtained by the same sequence of exact operations if no step of that exact sequence leaves the type (for a product: every single product and every partial sum, summed from the high end of the right factor for a Polynomial and from the low end for a SparsePolynomial), no shift is by i32::MIN and, for Polynomial, no product is of zero by zero; otherwise it panics. Without checks, and without shifts by i32::MIN, overflow on the way does not matter: the result is that of the whole exact sequence, reduced to the type once at the end; only a Polynomial product of two operands that are both zero modulo 2^bits at that moment panics.", "quantifier": "all sequences of operations of any length, all starting values and operands, every primitive integer type, both kinds of build", "why_tests_cant": "The claim is about sequences of any length; a test can only try some of them, and overflow at an inner step shows only for particular values.", "anchors": ["src/polynomial/polynomial.rs: add_term, try_sub_term, AddAssign, SubAssign, MulAssign, ShlAssign, ShrAssign, trim, set_to_zero", "src/polynomial/sparsepolynomial.rs: add_term, try_sub_term, AddAssign, SubAssign, MulAssign, ShlAssign, ShrAssign, trim, set_to_zero"]}
{"id": "C107", "title": "Any history of mutations of the fixed-size types, with the result of every step", "statement": "Any sequence of try_add_term, try_sub_term and set_to_zero on an ArrayPolynomial, and also of +=, -=, scalar *= and >>= on a LinearBinomial or QuadraticTrinomial, or of *=, scalar *=, <<= and >>= on a Monomial, where the caller goes on after a refused term: over any commutative ring the final polynomial and the list of all results are those of the mathematical sequence, in which a term is refused, leaving the polynomial alone, when its degree is size or more (ArrayPolynomial), above 1 or 2 (DegreeOutOfBounds), or for a Monomial when the polynomial is not zero and of another degree (TooManyTerms); nothing panics except a shift of a Monomial by i32::MIN. Over machine integers with overflow checks it is the same if all coefficients fit after every step of the mathematical sequence, and a panic otherwise. Without checks (and without shifts by i32::MIN) final polynomial and results are those of the sequence of polynomials over the integers modulo 2^bits: a Monomial that wraps to zero takes a term of any degree.", "quantifier": "all sequences of operations of any length, all starting values and operands; any commutative ring, and every primitive integer type in both kinds of build", "why_tests_cant": "Which terms are refused depends on everything that happened before; sequences of any length can not be enumerated.", "anchors": ["src/polynomial/monomial.rs: MutablePolynomial, set_to_zero, MulAssign, ShlAssign, ShrAssign", "src/polynomial/binomial.rs: MutablePolynomial, set_to_zero, AddAssign, SubAssign, MulAssign, ShrAssign", "src/polynomial/trinomial.rs: MutablePolynomial, set_to_zero, AddAssign, SubAssign, MulAssign, ShrAssign", "src/polynomial/array_polynomial.rs: MutablePolynomial, set_to_zero"]}
{"id": "C108", "title": "Laws of differentiation and integration, and the macros", "statement": "With the library's own operations and ==: the derivative of a sum, difference, negation or scalar multiple is the sum, difference, negation or multiple of the derivatives; (pq)' = p'q + pq'; (p^(n+1))' = (n+1) p^n p'; over fields of characteristic zero integration is linear, the definite integral of p' from a to b is p(b) - p(a), and integration by parts holds. For Polynomial both sides return for factors other than zero (0 * 0 panics) and agree whenever they return. polynomial! gives the polynomial of its arguments in descending order without leading zeros, derivative! its derivative, integral! an antiderivative with constant term zero whose derivative is == the polynomial.", "quantifier": "all polynomials, scalars, exponents and bounds of integration; any commutative ring (derivative), any field of characteristic zero (integral), with a conversion from usize that does not fail", "why_tests_cant": "Laws relate several operations on arbitrary operands; tests check single values.", "anchors": ["src/polynomial/polynomial.rs: derivative, integral, polynomial!", "src/polynomial/derivative.rs: derivative!", "src/polynomial/integral.rs: integral!, Integral::eval, replace_c", "src/polynomial/sparsepolynomial.rs: derivative, integral"]}
{"id": "C109", "title": "Laws of division", "statement": "For dense polynomials over a field and b other than zero: (q b + r).div_mod(b) is (q, r) when r has smaller degree than b, likewise floor_div and %=; (q b) / b is q without remainder; the quotient times b plus the remainder is == the dividend, and the quotient has the difference of the degrees; the remainder by x - a is the constant p(a), it is zero exactly when a is a root, and then p == quotient * (x - a); %= respects sums, differences and products and is idempotent. Over the integers: (q b + r).div_mod(b) is (q, r) whatever the leading coefficient of b; division by x - a always returns and obeys the remainder and factor theorem; and division by b returns for every dividend exactly when the leading coefficient of b is 1 or -1.", "quantifier": "all polynomials q, r, p, all divisors b other than zero, all a; any field, and the integers", "why_tests_cant": "The laws quantify over all polynomials; which integer divisions never return can not be tested.", "anchors": ["src/polynomial/polynomial.rs: div_mod, floor_div, RemAssign, Mul, Add, eval, PartialEq"]}
{"id": "C110", "title": "The degree of a result", "statement": "degree() of a sum or difference is at most the larger degree, and equal to it when the two degrees differ; of a negation, the same degree; over a domain degrees add in products and are multiplied in powers (at most the sum over any ring); << k adds k; >> k subtracts k or gives -inf; over a domain of characteristic zero the derivative has degree one less, and -inf for constants; the integral has degree one more. For Polynomial, SparsePolynomial, Monomial, LinearBinomial and QuadraticTrinomial, as far as they have the operation.", "quantifier": "all polynomials, exponents and shifts; any commutative ring, domain or field as stated", "why_tests_cant": "Cancellation of leading terms depends on the operands; tests sample a few.", "anchors": ["src/polynomial/polynomial.rs: degree and the operators", "src/polynomial/sparsepolynomial.rs: degree and the operators", "src/polynomial/monomial.rs: degree, Mul, Neg, Shl, Shr, derivative", "src/polynomial/binomial.rs: degree, derivative", "src/polynomial/trinomial.rs: degree, derivative"]}
{"id": "C111", "title": "Laws of parsing", "statement": "For every polynomial and coefficient type, reading a text s followed by a text t that begins with a sign is reading s and going on with t from its value; an error in s is the error of the whole. For Polynomial and SparsePolynomial the result is == the sum of what s and t give alone, an error in t alone is the error of the whole, and pieces that begin with a sign may be exchanged. Spaces, commas and underscores may be put anywhere in a text without changing the result, except a comma or underscore in front of a sign that comes first: such a text is refused, as is a text of separators only. Exchanging + and - throughout a text that begins with a sign negates what is read, if both can be read. A + in front of a text that does not begin with a sign changes nothing.", "quantifier": "all texts; all five types with from_str; any commutative ring, and the primitive integer types", "why_tests_cant": "The laws relate the reading of arbitrary texts; tests read a few fixed strings.", "anchors": ["src/strings.rs: poly_from_str!", "src/terms.rs: Term::from_str, TermTokenizer"]}
{"id": "C112", "title": "Any history of mutations in floating point", "statement": "Any sequence of add_term, try_sub_term, +=, -=, *=, scalar *=, scalar /=, <<=, >>=, trim and set_to_zero on a Polynomial or SparsePolynomial with floating point coefficients, started from data known up to given errors: if every value on the way is finite and divisors are finite and not zero, each coefficient of the result differs from that of the exact sequence by at most a bound computed step by step from the exact coefficients (one relative rounding for sums, one rounding and half the smallest number for scalar operations, (1+u)^(n+1)-1 relative to the product of absolute values plus n(1+u)^n half smallest numbers for products by n stored coefficients, nothing for shifts, trim and clearing). If all numbers and results are whole, below 2^p (products: sums of absolute values), and quotients are whole, the sequence is exact. The sequence always returns, whatever the numbers, unless it shifts by i32::MIN or, for Polynomial, multiplies a value of zeros by a value of zeros, which panics.", "quantifier": "all binary formats, all sequences of any length, all starting values and operands, all errors of the starting data", "why_tests_cant": "Rounding errors of one step enter all later ones; no sample of sequences covers the combinations.", "anchors": ["src/polynomial/polynomial.rs: add_term, try_sub_term, AddAssign, SubAssign, MulAssign, DivAssign, ShlAssign, ShrAssign, trim, set_to_zero", "src/polynomial/sparsepolynomial.rs: add_term, try_sub_term, AddAssign, SubAssign, MulAssign, DivAssign, ShlAssign, ShrAssign, trim, set_to_zero"]}
{"id": "C113", "title": "Exactly which error a text is refused with", "statement": "Term::from_str, after dropping spaces, commas and underscores, fails with the error of the first fault from the left and with no other: a character that has no place in a term; a second x; an x after a text that is no coefficient; a second ^; a ^ before x; and if no character is at fault, a text that ends in x^, that is no number, or whose degree does not fit. from_str of the five types fails exactly so: with NoTermsFound for the empty text; else with the error of the first token (the text is cut before each sign) that is no term, or that the type can not take as the sum of the tokens before it: nothing for Polynomial and SparsePolynomial, a degree above 1 or 2 for LinearBinomial and QuadraticTrinomial, for Monomial another degree than that of a sum other than zero (for numbers that are no ring: the sum of the coefficients from left to right is not zero and the degree is not that of the last term); terms that are zero are not offered to the type. In all other cases, and only then, it succeeds. DegreeCouldNotBeParsed and CanNotNegate are never reported.", "quantifier": "all texts, all errors; any parser of numbers, any ring and any other kind of coefficients (floating point), any width of usize", "why_tests_cant": "The equivalence speaks of every text with several faults; tests try one fault at a time.", "anchors": ["src/terms.rs: Term::from_str, TermTokenizer", "src/strings.rs: poly_from_str!", "src/polynomial/monomial.rs: try_add_term", "src/polynomial/binomial.rs: try_add_term", "src/polynomial/trinomial.rs: try_add_term"]}
{"id": "C114", "title": "Laws of root finding", "statement": "In exact arithmetic, with an exact solver of the eigenvalue problem, roots() of Polynomial and of SparsePolynomial (exponents below 2^31) lists the real roots, each as often as it is a root, exactly if the polynomial is solvable: no monomial of degree two or more (there 0 is listed once) and, if it is of degree three, one to which the cubic formula applies (C46). For solvable Polynomials: the listed numbers are exactly the zeros of eval, no more than the degree; multiplying by a number other than zero and negating change no root; the roots of a product are those of both factors; << k adds the root 0 k times; dividing by x - r for a listed r leaves no remainder and takes r off the list once; a number is listed at least twice exactly if it is also a zero of the derivative; between two listed numbers lies one listed for the derivative, and the derivative lists at most one number less.", "quantifier": "all polynomials over the reals, all exact solvers, any fuel above the degree", "why_tests_cant": "The laws relate two or three calls of roots() over all polynomials of any degree; a test compares one polynomial with known roots.", "anchors": ["src/polynomial/find_roots.rs: find_roots", "src/polynomial/polynomial.rs: roots, Mul, Shl, div_mod, derivative", "src/polynomial/sparsepolynomial.rs: roots"]}
{"id": "C115", "title": "Which algebraic laws hold exactly in floating point", "statement": "For Polynomial over any IEEE format, with 'same' meaning equal numbers up to the sign of zero (NaN being the same as NaN): the coefficients of a + b, a += b, a - b, -a, a * number and a << k are the rounded results on the coefficients, and those of a product of polynomials with finite coefficients are the sums of products, rounded after every step in the order of falling degree of the right factor. Hence the results depend on the numbers only (not on leading zeros or signs of zeros) and polynomials with the same coefficients have the same degree, terms, values at finite numbers, and are == unless a coefficient is NaN. These laws hold exactly: 0 is neutral for +, a - b = a + (-b) = -(b - a), -(a + b) = -a + -b, -(-a) = a, a - a = 0 for finite coefficients; (-a)b = a(-b) = -(ab), (-a)(-b) = ab, a product with a constant is the multiple on either side, 1 is neutral, a product with a factor of degree at most one is commutative; signs move freely through multiples; the value of -a is the negated value; << commutes with sums and with products. These laws fail: (a + b)c = ac + bc, (a + b) - b = a, (ab)c = a(bc), (a * s) * t = a * (s * t).", "quantifier": "all polynomials over all binary floating-point formats of precision at least one (with NaN and infinities where not said otherwise), all shifts and factors", "why_tests_cant": "Rounding depends on all bits of all coefficients; a law observed on sample values can fail by one unit in the last place elsewhere, as several of these laws do.", "anchors": ["src/polynomial/polynomial.rs: Add, AddAssign, Sub, Neg, Mul, Shl, eval, PartialEq", "src/polynomial/poly_math.rs: slice_mul"]}
{"id": "C116", "title": "Order and symmetry of values in floating point", "statement": "Over any binary floating-point format, with <= of IEEE 754: if all coefficients of a Polynomial, ArrayPolynomial, LinearBinomial or QuadraticTrinomial are nonnegative, then eval(x) is nonnegative and at most eval(y) for all finite 0 <= x <= y, whatever is rounded, underflows or overflows (no NaN arises; infinite coefficients are allowed where they are never multiplied by a zero); the same holds for a SparsePolynomial or Monomial with positive finite coefficients and degrees below 2^31, even for infinite y, and fails (NaN) with a stored zero or with coefficients of both signs; powers of nonnegative numbers are monotone. If the finite coefficients of p are at most those of q then p.eval(x) <= q.eval(x) for every finite x >= 0. A definite integral of a nonnegative Polynomial from a >= 0 up to b >= a is nonnegative unless the antiderivative is already infinite at a, in which case it is NaN. eval(-x) is, up to the sign of zero, the value at x of the polynomial with the coefficients of odd degree negated (for all types, all coefficients and all x), so even polynomials are exactly even and odd ones exactly odd.", "quantifier": "all polynomials, formats and points as stated; degrees below 2^31 for powi", "why_tests_cant": "Monotonicity is a statement about all pairs of points and all roundings in between; tests compare few points, mostly with results that are exact.", "anchors": ["src/polynomial/polynomial.rs: eval, integral", "src/polynomial/sparsepolynomial.rs: eval", "src/polynomial/monomial.rs: eval", "src/polynomial/binomial.rs: eval", "src/polynomial/trinomial.rs: eval", "src/polynomial/array_polynomial.rs: eval", "src/polynomial/integral.rs: eval", "src/numerics.rs: upow"]}
{"id": "C117", "title": "Symmetries of root finding", "statement": "roots() respects the symmetries of the equation p(x) = 0. Negating a QuadraticTrinomial exchanges its two roots, over the integers (with truncating division), over the real numbers and, bit for bit, over every binary floating-point format, NaN and infinities included; negating a LinearBinomial or a cubic leaves the answer as it is, bit for bit. Replacing x by -x negates the roots of a quadratic or cubic and reverses the order of the pair (over floats up to signs of zeros; for cubics if the external cube root is odd). Over the real numbers multiplying by k != 0 leaves the answer of roots() of Polynomial and SparsePolynomial as it is, except that the two roots of a quadratic are exchanged for k < 0, whatever the external root finder answers, and the two types agree; over floats the same holds for k = -1 if the external functions respect signs of zeros, and fails for k = 3. With a leading coefficient whose sign bit is clear, the first of two real roots computed in floats is not less than the second, and of two complex roots the first has the nonnegative imaginary part and the second is its conjugate bit for bit, unless a NaN is among them.", "quantifier": "all coefficients, formats, external root finders and amounts of fuel; exponents below 2^31 for SparsePolynomial", "why_tests_cant": "These laws relate the answers for pairs of inputs, through branches on the discriminant, division, square and cube roots and an external solver; a test sees one pair at a time, and rounding makes plausible laws (scaling by 3) fail.", "anchors": ["src/polynomial/find_roots.rs: trinomial_roots, cubic_roots, find_roots, roots", "src/polynomial/binomial.rs: root, Neg", "src/polynomial/trinomial.rs: roots, discriminant, Neg, Mul", "src/polynomial/polynomial.rs: roots, Neg", "src/polynomial/sparsepolynomial.rs: roots, Neg"]}
{"id": "C118", "title": "Any history of mutations on machine integers, with room and refusals", "statement": "For every primitive integer type, signed or unsigned, any starting value and any sequence of add_term, try_sub_term, +=, -=, *=, scalar *=, <<=, >>=, trim and set_to_zero on a Polynomial or SparsePolynomial, going on after a refused try_sub_term: the value, what is stored for it and the answer of every call follow exactly those of a history of mathematical polynomials paired with their room. The room of a Polynomial is a number of coefficients: max(n, d + 1) after add_term or try_sub_term of degree d, the larger of both after += and -=, degree(a) + degree(b) + 1 after a product, unchanged by scalar *=, n + k after << k (not below 0), degree + 1 after trim, 0 after set_to_zero. That of a SparsePolynomial is a set of degrees: the degree of a nonzero term is added, += and -= unite the sets, a product has the sums of a stored degree of the left and a degree with nonzero coefficient of the right, shifts move it, trim keeps the nonzero degrees. try_sub_term answers CanNotNegate, changing nothing, exactly if the type is unsigned and the room does not contain the degree (for SparsePolynomial: and the coefficient is not 0), and Ok otherwise. With overflow checks the history returns exactly if every step is refused or fits (C106); without, it returns unless a Polynomial product is of zero by zero modulo 2^bits, with all numbers reduced modulo 2^bits, which does not affect the room or the answers. Otherwise it panics.", "quantifier": "all sequences of operations of any length, all starting values and operands (without checks: no shift by i32::MIN), every primitive integer type, both kinds of build", "why_tests_cant": "Whether a subtraction is refused depends on what all earlier operations left stored, zeros included; only an invariant over all histories settles it.", "anchors": ["src/polynomial/polynomial.rs: add_term, try_sub_term, AddAssign, SubAssign, MulAssign, ShlAssign, ShrAssign, trim, set_to_zero", "src/polynomial/sparsepolynomial.rs: add_term, try_sub_term, AddAssign, SubAssign, MulAssign, ShlAssign, ShrAssign, trim, set_to_zero", "src/numerics.rs: CanNegate"]}
{"id": "C119", "title": "Any expression built from the operators", "statement": "Take any expression built from literals with unary -, +, -, *, pow, multiplication by a scalar and << by a non-negative amount, nested to any depth. Computed with Polynomial over a domain it returns the polynomial the expression denotes in R[x], unless somewhere inside two zero polynomials are multiplied or zero is raised to a power from 2 on, and then it panics; computed with SparsePolynomial over any commutative ring it always returns that polynomial. Evaluating the result at x gives what the same expression gives when computed on numbers with x for the variable (for SparsePolynomial while the degrees are below the bound of its power function). Over a primitive integer type with overflow checks the computation returns exactly if no step leaves the type (and, for Polynomial, no zeros are multiplied), with the exact result, and otherwise panics. Without overflow checks the result is the exact result with every coefficient reduced to the type once, at the end, except that Polynomial panics exactly if two factors that are zero modulo 2^bits are multiplied, directly or inside a power; evaluating it gives the number expression reduced once. Over a field that represents the degrees, expressions may also contain derivative, floor_div and %=: computing them with Polynomial ends with the polynomial denoted (Euclidean quotient and remainder) unless zeros are multiplied, zero is raised to a power from 2 on or a division by zero is made, which panics.", "quantifier": "all expressions of any size over any domain, commutative ring, primitive integer type or field; all evaluation points", "why_tests_cant": "Expressions nest without bound and each step works on what the previous ones left stored, leading zeros and explicit zeros included; tests run a few expressions, the claim is an induction over all of them.", "anchors": ["src/polynomial/polynomial.rs: Neg, Add, Sub, Mul, pow, Mul<N>, Shl, eval, derivative, floor_div, RemAssign", "src/polynomial/sparsepolynomial.rs: Neg, Add, Sub, Mul, pow, Mul<N>, Shl, eval", "src/polynomial/polynomial.rs: slice_mul"]}
{"id": "C120", "title": "Any expression in floating point", "statement": "Take any expression built from literals with unary -, +, -, *, pow, multiplication by a scalar and << by a non-negative amount, nested to any depth, over any binary floating-point format. If all values on the way are finite and no product can underflow, every coefficient of the result, computed with Polynomial or SparsePolynomial, differs from the one the expression denotes on exact numbers by at most ((1+u)^k - 1) times the coefficient of the expression with absolute values, where k counts roundings along the expression (1 for a sum, 2 for a multiple, 2n + 1 for a product by n coefficients, (n-1)(2nd+3) for an n-th power of degree d); evaluating the resulting Polynomial adds two roundings per degree and the underflows of the evaluation. Products cannot underflow when all numbers are zero or at least 1 in absolute value. On whole numbers whose values (products and powers: computed with absolute values) stay below 2^p the result is exact, unless with Polynomial two zero polynomials are multiplied or zero is raised to a power from 2 on, where it panics; sums of absolute values below 2^p for all parts are enough. With any numbers, infinities and NaN included, SparsePolynomial always returns; Polynomial returns or panics, and panics exactly when a product of two polynomials with only zero coefficients, or a power that panics, is met.", "quantifier": "all expressions of any size, all formats, all coefficients (finite where said)", "why_tests_cant": "Rounding errors accumulate along expressions of unbounded size; tests compare a few values with a tolerance chosen by hand.", "anchors": ["src/polynomial/polynomial.rs: Neg, Add, Sub, Mul, pow, Mul<N>, Shl, eval", "src/polynomial/sparsepolynomial.rs: Neg, Add, Sub, Mul, pow, Mul<N>, Shl", "src/polynomial/polynomial.rs: slice_mul"]}
{"id": "C121", "title": "Programs from text to text", "statement": "Take any program that parses texts (FromStr), combines the polynomials with unary -, +, -, *, pow, multiplication by a number and << by a non-negative amount, nested to any depth and ending at the first error (?), and prints the result (Display). With Polynomial or SparsePolynomial over any primitive integer type with overflow checks it comes to exactly one of these, determined by the texts alone: the error of the first text refused, in the order of computation, unless an earlier step panics; a panic if, in that order, a text has a term without room or a partial sum outside the type, or a step leaves the type (for Polynomial also zero times zero); otherwise the text of the polynomial the program denotes over the integers (a panic if that cannot be printed, C37), and parsing this text again gives the same polynomial while its degree has room. If neither panics, both types give the same error or the same text. Without overflow checks a program does the same whenever it does not panic with them; in general it ends with the error of the first text refused or prints the result over the integers with every coefficient reduced to the type once. With SparsePolynomial it then never panics; with Polynomial it panics exactly when, in the order of computation, a term has no room or two factors that are both zero for the type are multiplied; otherwise both types give the same answer.", "quantifier": "all programs of any size, all texts, every primitive integer type, any width of usize and any limit of vectors", "why_tests_cant": "The claim composes parsing, arithmetic and printing over all texts and programs at once, including which of several faults is reported; tests run a few programs.", "anchors": ["src/polynomial/polynomial.rs: FromStr, Display, Neg, Add, Sub, Mul, pow, Mul<N>, Shl", "src/polynomial/sparsepolynomial.rs: FromStr, Display, Neg, Add, Sub, Mul, pow, Mul<N>, Shl", "src/strings.rs: poly_from_str!, fmt_poly!", "src/terms.rs: Term::from_str, TermTokenizer"]}
{"id": "C122", "title": "What values say about a polynomial", "statement": "Over an integral domain two Polynomials (or SparsePolynomials with exponents for which upow is exact) are == exactly if eval gives the same value at the points of any one set larger than their degrees; one that vanishes at more points than its degree is zero; over an infinite domain == is equality of all values. x - y divides p(x) - p(y); the value at 0 is the last stored coefficient, at 1 the sum, at -1 the alternating sum of the coefficients. Two integer polynomials whose corresponding coefficients differ by less than B are == exactly if their values at B are equal. With overflow checks the same conclusions follow from the values eval returns. Without them, equal values at 0, ..., d for degrees at most d give coefficients whose differences multiplied by d! are zero in the type (so == for d <= 1), and this is sharp: a polynomial of degree d with leading coefficient a that vanishes at every point exists exactly if a is not zero and d!*a is zero in the type, hence for every type exactly from degree 2 on (128x^2 + 128x on u8). In floating point the first statement is false (x + 1 and x over f32 at 2^30, 2^31, 2^32).", "quantifier": "all polynomials, all sets of points, every integral domain, every primitive integer type in both kinds of build", "why_tests_cant": "That equal values at finitely many points mean equal polynomials is a statement about all polynomials of a degree; testing by comparing values relies on it, and without overflow checks it is wrong.", "anchors": ["src/polynomial/polynomial.rs: eval, PartialEq, degree", "src/polynomial/sparsepolynomial.rs: eval, PartialEq, degree", "src/numerics.rs: upow"]}
{"id": "C123", "title": "Euclid's algorithm with the operators", "statement": "Over a field the program while !b.is_zero() { let r = a mod b; a = b; b = r; } with Polynomial, the remainder taken by %= or by div_mod, always returns, for any two polynomials and however they are stored, after at most len(b) + 1 tests of its condition, and its result is a greatest common divisor: it divides both and everything that divides both divides it. So its roots are the common roots, its degree is 0 exactly if the two have no common factor, and for a polynomial and its derivative() (characteristic 0) the degree is 0 exactly if the polynomial is squarefree. The extended program, with s0 - &q * &s1 and t0 - &q * &t1, returns in addition s and t with g = a*s + b*t if the degree of the first operand is at least that of the second (or the second is zero), and otherwise panics at its first step, by multiplying zero by zero. Written with the operator % the program never returns unless one of the two polynomials is zero; with SparsePolynomial (% or %=) it never returns unless one is zero or they are constant multiples of each other, in which case the result is right.", "quantifier": "all pairs of polynomials over any field, all stored representations", "why_tests_cant": "Termination and the greatest property are about all pairs and an unbounded number of divisions; a test that calls the program with a wrong operator does not end.", "anchors": ["src/polynomial/polynomial.rs: RemAssign, div_mod, Rem, Mul, Sub, is_zero, derivative", "src/polynomial/sparsepolynomial.rs: Rem, RemAssign"]}
{"id": "C124", "title": "Computed values as values of nearby polynomials, and certain signs", "statement": "Over any binary floating-point format, a finite value computed by eval of Polynomial, ArrayPolynomial, LinearBinomial, QuadraticTrinomial or SparsePolynomial is the exact value, at the same point, of a polynomial whose coefficients differ from the stored ones by a few roundings each ((1+u)^(2n-1) - 1 relative for n coefficients, (1+u)^2 - 1 and (1+u)^4 - 1 for the fixed-size ones, (1+u)^(terms+d+1) - 1 for SparsePolynomial with degrees up to d), the constant one also by the underflows. So a point where eval gives 0 is a root of a nearby polynomial. With m the computed value at |x| of the polynomial with the absolute values of the coefficients, the error of p.eval(x) is at most (g*m + underflows)/(1-g), g = (1+u)^(2n-1) - 1 <= 4nu; when |p.eval(x)| exceeds that, the exact value has the same sign, and this test succeeds whenever the exact value exceeds about twice the possible error. When it succeeds at two points with different signs there is a real root of the stored polynomial strictly between them. The test can be made in floating point alone: c*m < |p.eval(x)| with c >= 32nu, away from the underflow threshold.", "quantifier": "all polynomials, formats and points with finite computed values; fewer than 2^(p-3) coefficients for the bound on g", "why_tests_cant": "Whether a computed sign can be trusted is a statement about all roundings on the way; tests see values far from the error bound or compare with a tolerance chosen by hand.", "anchors": ["src/polynomial/polynomial.rs: eval", "src/polynomial/array_polynomial.rs: eval", "src/polynomial/binomial.rs: eval", "src/polynomial/trinomial.rs: eval", "src/polynomial/sparsepolynomial.rs: eval", "src/numerics.rs: upow, abs"]}
{"id": "C125", "title": "Composing and interpolating with the operators", "statement": "The program acc = acc * &q + Polynomial::new(vec![c]) over the coefficients c of p returns, over any commutative ring and for every q other than zero, the composition p(q(x)): its values are p.eval(q.eval(x)), and with q = x + a it shifts the argument, shifting back by -a giving something == p. With q = 0 it panics exactly if p has a stored coefficient (even for a constant p). The program acc += q.pow(d) * c over ordered_term_iter() returns the composition for every q other than zero (no zero divisors); with q = 0 it returns the constant coefficient of p if p has degree at most 1 and panics otherwise. The same program with SparsePolynomial returns the composition always. Newton's interpolation, c = (y - p.eval(x)) / w.eval(x); p += w.clone() * c; w = w * &(x - x_i), over a field, returns for points with different abscissas the polynomial of degree below their number through all of them, the only one; applied to values of a polynomial at more points than its degree it gives it back (==); with a repeated abscissa it divides by zero, so it panics where division by zero does.", "quantifier": "all polynomials over any commutative ring (field for interpolation), all lists of points", "why_tests_cant": "The claims combine multiplication, addition, evaluation and equality over an unbounded number of steps; a test checks a few compositions of small degree.", "anchors": ["src/polynomial/polynomial.rs: Mul, Add, AddAssign, Mul<N>, pow, eval, ordered_term_iter, PartialEq", "src/polynomial/sparsepolynomial.rs: Add, Mul<N>, pow, ordered_term_iter"]}
{"id": "C126", "title": "Nothing depends on how the numbers are represented", "statement": "Take two number types and a relation between their numbers that 0, 1, is_zero, +, -, *, unary minus and, where division is used, / by a divisor that is not a zero respect. Then every operation of Polynomial and SparsePolynomial (new, from a vector, degree, terms, iteration, eval, all arithmetic operators, pow, scalar operators, shifts, add_term, try_sub_term, trim, division with remainder, derivative, integral) given polynomials related coefficient by coefficient returns related results, or panics on both sides, or on both sides does not come to an end; == and the printed text are the same if they are for related numbers (for the text, related numbers that are not zeros). The same holds for Monomial (whose eval and pow need powers of related numbers to be related), LinearBinomial, QuadraticTrinomial and ArrayPolynomial of every size. Likewise for the results of any expression built from the operators, derivative and division, and of any history of mutations. Hence a map between number types that the operations respect, such as that of integers into rationals or one that forgets the bits of a NaN, can be applied before or after any program; and in floating point replacing 0.0 by -0.0 among the inputs changes nothing but signs of zeros, unless a polynomial is divided by the number zero.", "quantifier": "all pairs of number types and relations respected by their operations, all polynomials, expressions and histories", "why_tests_cant": "That generic code uses nothing of a number but the operations of its traits is a statement about all number types at once; tests run it at a few.", "anchors": ["src/polynomial/polynomial.rs: all operations", "src/polynomial/sparsepolynomial.rs: all operations", "src/polynomial/monomial.rs, binomial.rs, trinomial.rs, array_polynomial.rs: all operations", "src/strings.rs: fmt_poly!"]}
{"id": "C127", "title": "Scaling by powers of two in floating point", "statement": "Floating-point polynomials have no preferred unit: replace p(x) by 2^k p(2^j x), that is multiply the coefficient of x^i by 2^(k + ji), and every result is the old one multiplied by a power of two, rounding errors included (signs of zeros aside), as long as no result overflows and no product or quotient underflows. eval at 2^-j x gives 2^k times the old value (for Polynomial, ArrayPolynomial, LinearBinomial and QuadraticTrinomial; for SparsePolynomial with j = 0); sums and differences scale with no condition but that they do not overflow; products by 2^(k+l); derivative by 2^(k+j) with no condition on underflow, integral by 2^(k-j); multiplying by a number 2^k scales by exactly k; the square root of a number multiplied by 2^(2k) is 2^k times the old root; the roots of a quadratic are multiplied by 2^-j and stay of the same kind (real or complex), so multiplying all three coefficients by 2^k leaves the computed roots as they were. Evaluation at an integer point of a polynomial multiplied by 2^k needs no condition on underflow. With underflow or overflow these statements are false, with witnesses.", "quantifier": "all binary formats (f32 and f64 where counts are converted), all integers k, j, all polynomials and points with finite results", "why_tests_cant": "The statement relates the rounding of every intermediate result of two runs of unbounded length; a test compares a few pairs.", "anchors": ["src/polynomial/polynomial.rs: eval, Add, Sub, Neg, Mul, Mul<N>, derivative, integral", "src/polynomial/trinomial.rs: eval, roots", "src/polynomial/binomial.rs: eval", "src/polynomial/sparsepolynomial.rs: eval", "src/polynomial/find_roots.rs 17-62"]}
{"id": "C128", "title": "Fixed-point coefficients are computed exactly", "statement": "Floating-point numbers with a fixed number of binary places behave like exact numbers within a range that is known beforehand. If the coefficients are whole multiples of 2^e (e may be negative; within the range of the format), then every result below is exact, not rounded, provided the exact result, computed with absolute values where terms are added up, stays below 2^p units of its last place: sums and differences (units 2^e), products of multiples of 2^e and 2^g (units 2^(e+g)), powers (units 2^(en)), multiplication and division by a number, derivative, integral (when its coefficients are multiples of 2^e), and eval of a polynomial of degree n at a point with m binary places (units 2^(e-mn)) for Polynomial, LinearBinomial and QuadraticTrinomial; for SparsePolynomial sums, differences, products (one e for both factors) and derivative. The results are again such polynomials, so calculations can be continued. For e = 0 these are the whole numbers of C87. Without the bound, and for decimal fractions such as 0.1, the results are rounded, with witnesses.", "quantifier": "all binary formats (f32 and f64 where counts are converted), all exponents e, all polynomials and points meeting the bound", "why_tests_cant": "Exactness for all inputs in an infinite family, with all intermediate sums of Horner's rule and of the product loop; tests compare a few values.", "anchors": ["src/polynomial/polynomial.rs: eval, Add, Sub, Mul, pow, Mul<N>, Div<N>, derivative, integral", "src/polynomial/trinomial.rs: eval", "src/polynomial/binomial.rs: eval", "src/polynomial/sparsepolynomial.rs: Add, AddAssign, Sub, Mul, derivative"]}
{"id": "C129", "title": "Multiplicities, Taylor coefficients and squarefree parts with the operators", "statement": "while p.eval(a).is_zero() { p = p.derivative(); k += 1; } counts, in characteristic 0, the multiplicity of the root a of any Polynomial other than zero (0 if a is no root); for zero it never ends; without overflow checks it is wrong (x^3 + 128x^2 on u8 at 0 gives 3, 128x^2 never ends). while p.eval(a).is_zero() { p = p.div_mod(&(x - a)).0; k += 1; } gives the same count in any characteristic and for integers, and leaves a polynomial q, not zero at a, with p = (x - a)^k q. Dividing by x - a until nothing is left, the remainders are the coefficients of p(x + a), as many as the degree plus one, none for zero; so are the values p(a)/0!, p'(a)/1!, p''(a)/2!, ... of the repeated derivative(). p.div_mod(&gcd(p, p.derivative())).0, with Euclid's algorithm written with %=, has in characteristic 0 the same irreducible factors as p, each once, so the same roots, all simple.", "quantifier": "all polynomials over an integral domain (field for the last two), all points, all stored representations", "why_tests_cant": "The loops run an unbounded number of times and combine evaluation, derivative and division; a test checks a few polynomials with known roots.", "anchors": ["src/polynomial/polynomial.rs: eval, derivative, div_mod, RemAssign, is_zero, new"]}
{"id": "C130", "title": "Calculating modulo a polynomial with the operators", "statement": "Over a field, let mut r = a * &b; r %= m.clone(); gives the remainder of the product, and panics exactly if both factors are zero. The program r = 1; b = a % m; while n > 0 { if n % 2 == 1 { r = r*b mod m; } b = b*b mod m; n /= 2; }, with these operators, gives the remainder of a^n modulo m for n >= 1, and panics exactly if m divides a^(2^k), 2^k being the largest power of two up to n, because it then squares a zero; so x^4 modulo x^3 panics although x^3 modulo x^3 is found to be zero. For n = 0 it gives 1, also modulo a constant. Modulo an irreducible m it works for every a that m does not divide. The extended Euclidean algorithm on m and a % m finds a t with a*t = 1 modulo m exactly if a and m are coprime and otherwise says that there is none; it never panics.", "quantifier": "all polynomials over any field, all moduli other than zero, all exponents", "why_tests_cant": "Exact conditions for panics in a loop of unbounded length over all polynomials; a test with a modulus without repeated factors never sees one.", "anchors": ["src/polynomial/polynomial.rs: Mul, RemAssign, div_mod, Div<N>, degree, eval, new"]}
{"id": "C131", "title": "Finding roots by halving intervals", "statement": "With exact numbers, n rounds of let m = (a + b) / 2; if p.eval(m).is_positive() == p.eval(b).is_positive() { b = m; } else { a = m; }, started with an interval at whose ends exactly one value is positive, give an interval inside it, exactly 2^n times shorter, at whose ends exactly one value is positive and which contains a real root of the polynomial. In floating point, the same loop that goes on while a < m && m < b and the sign of p.eval(m) is certain (by a test that implies the one of C124) returns for every polynomial and every pair of finite ends at which the signs are certain and different: each round leaves at most five sixths of the interval, so 8001 rounds always suffice for f64 and 1101 for f32. The interval returned lies within the given one, and a real root of the stored polynomial lies strictly between its ends; the loop stopped only because the computed midpoint was not strictly between the ends or the sign there not certain.", "quantifier": "all polynomials over the rationals, over f32 and f64 (any format with at least two bits), all intervals, all numbers of rounds", "why_tests_cant": "Existence of a real root, and a bound on the number of rounds over all pairs of floats, are not observable in a run.", "anchors": ["src/polynomial/polynomial.rs: eval", "src/numerics.rs: IsPositive"]}
{"id": "C132", "title": "Counting and bounding roots from the terms", "statement": "A program that goes through ordered_term_iter() and counts how often is_positive() of the coefficient changes gives, for Polynomial and SparsePolynomial over exact numbers, the integer types, and f32 and f64 with finite coefficients, an upper bound for the number of positive real roots of the polynomial stored, with their multiplicities; with the signs of the odd powers reversed, for that of the negative ones. If the number is odd, there is a positive root; if it is 1, exactly one. A program that divides each coefficient by the leading one, takes absolute values and keeps the largest finds, with exact numbers, the largest quotient b, and every complex root is smaller than b + 1 in absolute value; for the zero polynomial it finds none. In floating point, whatever rounding, overflow and underflow in the quotients, every complex root of the polynomial stored is smaller than (b + b) + 2 as computed, if that is finite.", "quantifier": "all polynomials of both types over exact numbers and over any binary format with at least three bits, finite coefficients", "why_tests_cant": "Statements on all real and complex roots cannot be observed in a run; they hold for every polynomial and every way of rounding the quotients.", "anchors": ["src/polynomial/polynomial.rs: ordered_term_iter", "src/polynomial/sparsepolynomial.rs: ordered_term_iter", "src/numerics.rs: IsPositive"]}
{"id": "C133", "title": "Counting the real roots in an interval with the remainder operators", "statement": "A caller forms the sequence p, p', -(p % p'), ... with derivative, %= and negation until the remainder is zero, and counts at a point the changes of sign of the values (eval, is_zero, is_positive), not counting zeros. With exact numbers, for every polynomial other than zero and every interval a < b with no multiple root at an end, the count at a less the count at b is the number of distinct real roots z with a < z <= b, whatever their multiplicities; the sequence ends after at most as many steps as there are coefficients, nothing panics and the subtraction does not go below zero. With the ends exchanged it panics if there is a root between them, and gives zero otherwise. Between -(r + 1) and r + 1, with the r of C132, it counts all real roots. With integer coefficients the program never returns for a polynomial of degree 2 or more, because the first %= does not end.", "quantifier": "all Polynomials of exact rational numbers other than zero (leading zeros stored or not), all rational ends without multiple root, all sufficient step counts; for integers all polynomials of degree 2 or more and all step counts", "why_tests_cant": "The claim needs every remainder of a long sequence to be right, with its sign; tests of a single % would pass with remainders of the wrong sign or with leading zeros that spoil the next step, and the number of real roots has no other simple program to compare with.", "anchors": ["src/polynomial/polynomial.rs: RemAssign, Neg, derivative, eval", "src/polynomial/traits.rs: is_zero", "src/numerics.rs: IsPositive"]}
{"id": "C134", "title": "Separating the real roots of a polynomial", "statement": "A caller halves an interval until the count of C133 is 0 or 1 on each part. For polynomials without rational multiple root (in particular the squarefree part of C129 of any polynomial other than zero) whatever the program returns is a list of intervals from left to right within the one given, each with exactly one real root, and no root of the interval is outside them. It never panics, and it returns if the depth exceeds n where 2^n times the smallest distance of two roots is at least the length of the interval; such a depth always exists.", "quantifier": "all Polynomials of exact rational numbers, all intervals, all depths", "why_tests_cant": "Which midpoints are tried depends on the polynomial, roots may lie exactly on them, and the depth needed has no bound independent of the polynomial; tests see a few polynomials with well separated roots.", "anchors": ["src/polynomial/polynomial.rs: RemAssign, Neg, derivative, eval, div_mod", "src/polynomial/traits.rs: is_zero", "src/numerics.rs: IsPositive"]}
{"id": "C135", "title": "Newton's method with eval and derivative", "statement": "A caller repeats x = x - p.eval(x) / d.eval(x) with d = p.derivative(). With exact numbers, started to the right of a root z at which all derivatives are at least 0, it never divides by zero, the points decrease and never pass z, each step takes away at least one d-th of the distance to z (d the degree) so that the points converge to z, and p'(z) times the new distance is at most p'' (at the old point) times the square of the old distance. The condition holds at a positive root if the coefficients change sign once (at least 0 from some degree on, at most 0 below), and at a real root if the leading coefficient is positive and no complex root has a larger real part.", "quantifier": "all Polynomials of exact rational numbers other than zero, all starting points to the right of the root, any number of steps", "why_tests_cant": "Convergence is a statement about infinitely many steps, and that no step divides by zero depends on all points reached.", "anchors": ["src/polynomial/polynomial.rs: derivative, eval"]}
{"id": "C136", "title": "Resultants and discriminants with the operators", "statement": "A caller computes the resultant of two polynomials with %= and ordered_term_iter (Euclid's algorithm, collecting powers of the leading coefficients and signs), and the discriminant from the resultant with the derivative. With exact numbers nothing panics, the first is the determinant of Sylvester's matrix, and is zero exactly if the two polynomials, not both constant, have a common factor; the second is, in characteristic 0, the discriminant, is zero exactly if the polynomial has a repeated factor, and agrees with QuadraticTrinomial::discriminant on quadratics.", "quantifier": "all Polynomials over a field with exact arithmetic (of degree at least 1 and in characteristic 0 for discriminants), all loop limits above the lengths", "why_tests_cant": "The signs and powers depend on the degrees of all remainders, which drop by more than one only for special polynomials.", "anchors": ["src/polynomial/polynomial.rs: RemAssign, ordered_term_iter, derivative", "src/polynomial/trinomial.rs: discriminant"]}
{"id": "C137", "title": "The smallest repairs make the false claims true", "statement": "Changing one place in each of %, slice_mul, >>, derivative, map_sub_w_scale with div_mod of SparsePolynomial, ordered_term_iter of ArrayPolynomial, upow, trinomial_roots, complex_factors and cubic_roots makes the claims C22, C11 and C12, C14, C16, C27, C52, C07, C44, C45 and C46, which are false of the code, true as stated for these functions; and wherever the present %, *, pow, <<, >>, derivative and sparse div_mod return, and for cubic_roots wherever the discriminant is not positive, the changed ones return the same value.", "quantifier": "all polynomials of the types concerned (over a field with exact arithmetic for division, the real numbers for roots), all exponents and shift distances", "why_tests_cant": "That a repair is complete, and that it changes nothing a caller relies on, are statements about all inputs.", "anchors": ["src/polynomial/polynomial.rs: Rem, slice_mul, Shl, Shr, derivative", "src/polynomial/sparsepolynomial.rs: map_sub_w_scale, div_mod, eval", "src/polynomial/array_polynomial.rs: ordered_term_iter", "src/numerics.rs: upow", "src/polynomial/find_roots.rs: trinomial_roots, cubic_roots", "src/polynomial/trinomial.rs: complex_factors"]}
{"id": "C138", "title": "Division that always ends", "statement": "If div_mod sets the leading coefficient of the new remainder to zero in each round, it returns in floating point for all dividends and divisors other than zero, NaN and infinities included, within as many rounds as the dividend has coefficients, with a remainder of smaller degree; and for every finite leading coefficient of the divisor, if quotient and remainder are finite, r = p - q*b up to rounding. Over a field, and in floating point for leading coefficients 1/2^j in absolute value, it returns what the present code returns. If div_mod instead ends when the degree of the remainder does not drop, it returns for all integer polynomials, p = q*b + r exactly, the remainder has smaller degree or a leading coefficient smaller in absolute value than the divisor's, and wherever the present code returns the result is the same.", "quantifier": "all polynomials over each floating-point format with precision and exponent range as parameters, over each field with exact division, over the integers", "why_tests_cant": "Whether a loop ends for all floating-point inputs is not observable by running some; the error bound is over all degrees and coefficients.", "anchors": ["src/polynomial/polynomial.rs: div_mod, vec_sub_w_scale"]}
{"id": "C139", "title": "The repairs in floating point", "statement": "With f32 or f64 coefficients: the repaired product returns for all operands, zero included, with the error of C68; the repaired power returns for all polynomials and exponents; the repaired SparsePolynomial eval has the error of n + d + 1 roundings for exponents of any size, where the code converts the exponent to i32; the exact product of the repaired complex factors of a quadratic has leading coefficient a and other coefficients close to b and c for real and for complex roots.", "quantifier": "all polynomials, points and exponents over each floating-point format with precision and exponent range as parameters; for the factors, a quadratic coefficient that is not zero and no overflow; for eval, no power of the point below the normal numbers", "why_tests_cant": "Rounding errors of all floats and exponents above 2^31 cannot be tried out.", "anchors": ["src/polynomial/polynomial.rs: slice_mul, pow", "src/polynomial/sparsepolynomial.rs: eval", "src/numerics.rs: upow", "src/polynomial/trinomial.rs: complex_factors"]}
{"id": "C140", "title": "Sparse division that always ends", "statement": "If SparsePolynomial div_mod subtracts at the right degree (C137) and drops the terms of the remainder from its leading degree on in each round, it returns in floating point for all dividends and divisors other than zero, NaN, infinities and stored zeros included, within one round more than the difference of the degrees, with a remainder of smaller degree; and for every finite leading coefficient of the divisor, if quotient and remainder are finite, r = p - q*b up to rounding. Over a field quotient and remainder are the exact ones. Subtracting at the right degree alone is not enough.", "quantifier": "all SparsePolynomials over each floating-point format with precision and exponent range as parameters, and over each field with exact division", "why_tests_cant": "Whether a loop ends for all floating-point inputs is not observable by running some; the error bound is over all degrees and coefficients.", "anchors": ["src/polynomial/sparsepolynomial.rs: div_mod, map_sub_w_scale"]}
{"id": "C141", "title": "Integer polynomials: multiply before dividing", "statement": "For polynomials with integer coefficients, on which div_mod and %= in general do not end (C21): if the dividend is first multiplied by a power of the square of the divisor's leading coefficient, the exponent being one more than the difference of the degrees, both return for all dividends and divisors other than zero, s*a = q*b + r exactly with s > 0 and a remainder of smaller degree. Euclid's algorithm with these remainders returns what is over the rational numbers a greatest common divisor, and the program of C133 with them counts the distinct real roots of every integer polynomial other than zero between two integers at which it has no multiple root; with the two ends exchanged it panics if there is a root between them.", "quantifier": "all polynomials with integer coefficients, without overflow; all pairs of integer ends", "why_tests_cant": "Termination and exactness for all integer polynomials, and counting roots that are real numbers, are not observable by running some.", "anchors": ["src/polynomial/polynomial.rs: div_mod, RemAssign, ordered_term_iter, Mul<N>, Neg, derivative, eval"]}
{"id": "C142", "title": "Multiplying before dividing on machine integers", "statement": "With coefficients of a primitive integer type and overflow checks, the programs of C141 panic or return the exact result: division of the multiplied dividend, Euclid's algorithm, and the number of real roots between two integers; none of them returns a wrong value or runs without end. With the two ends exchanged, the count is zero or a panic, and a panic if there is a root between them. Without overflow checks the count can be wrong. div_mod after the multiplication panics exactly when the factor, a coefficient of the multiplied dividend, or a value of a round of the division is not a value of the type.", "quantifier": "all polynomials with coefficients of any integer type, of any width, signed or not, in builds with overflow checks; all pairs of ends", "why_tests_cant": "A wrong count after an unnoticed overflow, or a loop that does not end, would show only for particular coefficients.", "anchors": ["src/polynomial/polynomial.rs: div_mod, RemAssign, ordered_term_iter, Mul<N>, Neg, derivative, eval", "src/numerics.rs: TryFromUsizeContinuous"]}
{"id": "C143", "title": "Common roots and the number of distinct complex roots of integer polynomials", "statement": "The programs 'the gcd (with the remainders of C141) of a and b is not constant' and 'degree of p minus degree of the gcd of p and its derivative' answer exactly whether a and b have a complex root in common and how many distinct complex roots p has; on machine integers with overflow checks they give this answer or panic.", "quantifier": "all integer polynomials a, b not both zero and p not zero; all integer types", "why_tests_cant": "The roots are complex numbers that no test can list; the answer is over all polynomials.", "anchors": ["src/polynomial/polynomial.rs: RemAssign, ordered_term_iter, Mul<N>, derivative, degree"]}
{"id": "C144", "title": "All rational roots of an integer polynomial by trial", "statement": "Trying every fraction k/q with |k| at most the absolute value of the last and q at most that of the first coefficient given by ordered_term_iter, with eval over the rational numbers, returns every rational root of the polynomial exactly once and nothing else; for the zero polynomial the program panics. A polynomial of degree 2 or 3 is irreducible over the rational numbers exactly if the list is empty.", "quantifier": "all integer polynomials", "why_tests_cant": "That no root is missed, and irreducibility, are statements about all rational numbers and all factorisations.", "anchors": ["src/polynomial/polynomial.rs: ordered_term_iter, eval, new"]}
{"id": "C145", "title": "All integer roots on machine integers by trial", "statement": "Over a signed integer type with overflow checks: evaluating at every k with |k| at most the absolute value of the last coefficient given by ordered_term_iter returns all integer roots in ascending order if that absolute value and all these evaluations fit into the type (the condition of C56 for each), and panics otherwise, as it does for the zero polynomial. Without overflow checks it can return numbers that are not roots.", "quantifier": "all polynomials over signed integer types of any width", "why_tests_cant": "That no root is missed or invented, and exactly when the program panics, are statements about all coefficients.", "anchors": ["src/polynomial/polynomial.rs: ordered_term_iter, eval", "src/numerics.rs: Abs"]}
{"id": "C146", "title": "All real roots of an integer polynomial and positivity everywhere", "statement": "With m = 1 + the sum of the absolute values of the coefficients given by ordered_term_iter, counting sign changes of the fraction-free Sturm chain (C141) at -m and m returns the number of distinct real roots of any nonzero integer polynomial; and the polynomial is positive at every real number if and only if it is not zero, this count is 0, and eval(0) is positive. Over machine integers with overflow checks both programs are right or panic.", "quantifier": "all integer polynomials; all machine integer types with overflow checks", "why_tests_cant": "A statement about all real numbers cannot be tested by evaluating at some of them.", "anchors": ["src/polynomial/polynomial.rs: div_mod, RemAssign, ordered_term_iter, Mul<N>, Neg, derivative, eval", "src/polynomial/traits.rs: is_zero", "src/numerics.rs: IsPositive"]}
