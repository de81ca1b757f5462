# Formal model of `rustnomial` in Lean 4

## 1. Trusted base

* Lean 4.33.0's kernel, and Mathlib as installed in the box.
* Axioms: only Lean's standard `propext`, `Classical.choice`, `Quot.sound`
  (`lean/Verif/Axioms.lean` prints the axioms of every property theorem).
  No axiom is declared here; no `sorry`, `admit`, `native_decide`, `bv_decide`.
* The hand translation from `/repo/src` to `lean/Verif/Model/*.lean`.  Every definition cites the
  lines it models.  Nothing in `/repo` was compiled or run.

## 2. What is modelled and how

| Rust | Lean |
|---|---|
| a call that returns / panics / loops for ever | `Res α` = `ok a` / `panic` / `fuel` |
| `while`/`loop` | recursion on a fuel argument, `fuel` when it runs out.  "Terminates" = some (explicit) fuel gives `ok`; "diverges" = every fuel gives `fuel` |
| `&mut self` | a function returning the new value |
| `Result<_, E>`, `Option` | `Except E _`, `Option` (never mixed up with panics) |
| generic `N` with `num::Zero` | any type with `0` and a Boolean test `isZero` (class `NumZero`, law `LawfulNumZero`) |
| `N: Add+Mul+...` | the algebraic theorems hold in every commutative (semi)ring: `ℤ` = exact integers, `ZMod (2^w)` = wrapping machine integers (release builds), `ℚ`, `ℝ` = idealised floats.  Fixed-width overflow *checks* (debug builds) are modelled separately in `Model/Checked.lean` and `Model/Machine.lean` |
| `N: Div` | class `RDiv`, `rdiv a b : Res N` (integer division truncates and panics at 0) |
| `Vec<N>`, `[N; k]` | `List N`, tuples/fields |
| `BTreeMap<usize, N>` | strictly ascending association list, with `get`, `insert`, iteration in key order |
| `usize` | `Nat` in most of the model.  `Model/Usize.lean` repeats every function that does arithmetic on degrees with a `usize` of any width, with or without overflow checks (C71–C74) |
| `String`/`&str` | `List Char`; the tokenizer is modelled over byte offsets as well |
| `f32`, `f64` | twice: idealised by exact fields (`ℚ`, `ℝ`) for the algebraic laws, and as IEEE binary formats with rounding, signed zeros, subnormals, infinities and NaN (`Model/Float.lean`, `Model/FloatRoots.lean`) for dense polynomials (C65–C70) and the roots of linear and quadratic ones (C83, C84) and sparse (C85) and fixed-size polynomials (C86); whole-number coefficients are exact (C87); powers (C89); `roots()` (C90); term-by-term construction (C91); shifts, trimming and casts (`Model/FloatCast.lean`, C92); definite integrals (C93); factors of quadratics (C94); roots of cubics (C95).  `from_str` of a float is modelled as the nearest number of the format to the decimal number (`Model/FloatText.lean`; exponents, `inf` and `nan` never reach it, the term parser rejects their letters first); `Display` of a float is a parameter of which only the guarantee of the standard library is used, that the text of a finite number is decimal and reads back (C88).  Conversions from `usize` are modelled exactly (round to nearest even) |
| external crate `find_roots_sturm` | an arbitrary oracle function with an assumed contract |

Slicing and indexing that can go out of bounds, `usize` subtraction that can underflow, `unwrap`,
`expect`, `unreachable!` are explicit `panic` branches in the model, so "does not panic" is always
something proved.

### Specification

The specification is Mathlib's `Polynomial R` (`R[X]`) with `coeff`, `degree`, `eval`,
`derivative`, `/`, `%`, plus the small file `Verif/Spec.lean` which only defines the abstraction
functions (the polynomial a list / map / pair represents).  Theorem statements are about these and
the model of the API function, not about internal helpers.

## 3. Layout

* `Verif/Res.lean`, `Verif/Num.lean` – outcomes and numeric classes.
* `Verif/Model/*.lean` – the model, function by function:
  `Terms` (terms.rs, Degree/Term), `Dense` (polynomial.rs), `BMap` + `Sparse`
  (sparsepolynomial.rs), `Fixed` (monomial.rs, binomial.rs, trinomial.rs, array_polynomial.rs,
  integral.rs), `PolyMath` (poly_math.rs, macros), `Numerics` (numerics.rs), `Upcast` (macros.rs),
  `FindRoots` (find_roots.rs), `Strings` (strings.rs and the Display/FromStr impls), `History`
  (sequences of `&mut self` calls), `Checked` (dense operations over fixed-width integers), `Float`,
  `FloatRoots` (IEEE binary formats as coefficients), `Usize` (degrees as machine integers, shifts by wrapping `i32`),
  `Machine` (all other operations over fixed-width integers: powers, division, sparse and fixed-size types), `Assign` (the
  in-place and by-reference operators), `Cost` (copies of pow, `*`, eval and div_mod that count operations), `MachineBuild` (parsing,
  `from_terms`, `poly_math` over fixed-width integers, `usize` and vectors of bounded size), `MachineRoots` (`Integral`, linear
  roots and quadratic factors over fixed-width integers), `RoomHistory` (the same with the answers of `try_sub_term`), `MachineHistory` (sequences of `&mut self` calls over fixed-width
  integers), `FixedHistory` (sequences of calls on the fixed-size types, with their results), `FloatHistory` (with scalar `/=`), `Macros`
  (`polynomial!`, `derivative!`, `integral!`), `Powers` (`pow` and `powi` by repeated squaring), `Expr` (expressions
  built from the operators, computed with any of the types), `Euclid`, `Compose`, `Taylor`, `Modular`, `Bisect`, `Bounds`, `Sturm`, `Newton`, `Resultant`, `Pseudo`, `PseudoMachine`, `RationalRoots`, `IntegerRoots` and `AllRoots` (programs a caller writes with the operators), `Repaired` (copies of
  faulty functions changed in one place; not code of the repository, and used only by C137 to C140).
* `Verif/Spec.lean`, `SpecFixed.lean`, `SpecRoots.lean`, `SpecStrings.lean`, `SpecFloat.lean`, `SpecFloatIeee.lean`, `SpecMachineDiv.lean`, `SpecFloatRoots.lean`, `SpecFloatPow.lean`, `SpecFloatExpr.lean`, `SpecCalc.lean`, `SpecParam.lean`, `SpecFloatScale.lean`, `SpecFloatGrid.lean`, `SpecEuclid.lean`, `SpecFloatText.lean`, `SpecFloatFindRoots.lean`, `SpecFloatBuild.lean`, `SpecFloatCast.lean`, `SpecFloatIntegral.lean`, `SpecFloatFactors.lean`, `SpecFloatCubic.lean`, `SpecFloatCertify.lean`, `SpecStored.lean`, `SpecBuild.lean`, `SpecFloatHistory.lean`, `SpecParseErrors.lean`, `SpecRootLaws.lean`, `SpecFloatLaws.lean`, `SpecFloatOrder.lean`, `SpecRootSymmetry.lean`, `SpecRoomHistory.lean`, `SpecExpr.lean` – the specification:
  abstraction functions, root multisets, the grammar of terms and of printed polynomials.
* `Verif/Lemmas/*.lean` – supporting lemmas.
* `Verif/Props/*.lean` – one section per property with theorem(s), non-vacuity `example`s, and for
  properties that the code violates the refutation (`..._false`, with a concrete witness) and the
  strongest true part (`..._partial`).
* `Verif/Validation.lean` – the crate's own unit tests and documentation examples evaluated on the model: tests of
  the translation, not proofs.
* `Verif/Axioms.lean` – generated, `#print axioms` for every theorem of MANIFEST.json.
* `seeded/LOG.jsonl` – one line per seeded bug (mutation of the model) and the theorems it broke.

### Modelled

All of `terms.rs`, `strings.rs`, `numerics.rs` (`upow`, `abs_sqrt`, `is_negative`, `can_negate`,
`try_from_usize_*`, `cont`/`exact` conversions), `macros.rs` (upcast table), and of
`polynomial/*.rs`: constructors, queries, iteration, equality, all arithmetic operators and their
assigning/borrowing forms, shifts, derivative, integral, `Integral` wrapper, division, `pow`,
`try_add_term`/`try_sub_term`/`add_term`, `add_poly`/`sub_poly`/`mul_poly_vec`, `poly_add!`,
`poly_sub!`, root finding, factorisation, Display and FromStr.

### Not modelled

* Allocation (except that a vector cannot hold more than `isize::MAX` bytes, C102), capacity, time.  `#[derive(Debug, Clone)]`.  The benchmarks.
* `cbrt` of the float types, whose precision is unspecified: theorems about floats hold for every `cbrt` (C90, C95).  `powi` is
  unspecified as well: C85 and C86 hold for every `powi` of a given accuracy, C100 for the one of `compiler-rt`.  The payload and sign of NaN (by C126 they reach nothing but
  payloads and signs of NaNs).
* `poly_mul!` (poly_math.rs 62-103): its expansion names items that do not exist
  (`GenericPolynomial`, `poly_math::mul_poly`), so no program can use it.
* `find_roots_sturm` itself (external crate): an oracle with a stated contract.

## 4. Plan per property

* C01 – lists: `firstNonzeroIndex = findIdx`, induction over chunks of four; canonical form by
  uniqueness of coefficients.
* C02 – degree = Mathlib degree of the abstraction (`⊥` for `NegInf`) for each type.
* C03 – iteration: `Pairwise (>)` on degrees plus membership characterisation by `coeff`.
* C04 – `termWithDegree d` by cases on `coeff d`.
* C05 – `eq = true ↔ sem a = sem b`.
* C06, C07 – `eval = Polynomial.eval`; C07 is false for exponents `≥ 2^32` (the integer power
  truncates the exponent to `u32`): refutation + `_partial` with the exponent bound.
* C08, C09, C10, C13 – list inductions, aligned on the low-order end.
* C11, C12 – convolution induction.  False when both operands are zero (`0+0-1` underflow):
  refutation + exact characterisation (`panic ↔ both zero`).
* C14 – `X^k *` and `divX`-style coefficient characterisation.  `>>` on un-trimmed values can slice
  out of order, and `i32::MIN` cannot be negated: refutation + exact condition.
* C15 – as C14 for the other types.
* C16, C17 – `Polynomial.derivative`.
* C18, C19 – field of characteristic zero; `Integral` wrapper laws.
* C20 – loop invariant + degree decrease; uniqueness through Mathlib `EuclideanDomain` `/`, `%`.
* C21 – false over ℤ (`div_mod` on `[1,0]`, `[2]` loops for ever): divergence proved for every fuel; partial:
  exact when leading coefficients divide.
* C22 – false: loop never re-reads the remainder; divergence for every fuel when `deg a ≥ deg b`;
  partial for `deg a < deg b`.
* C23 – as C20.   C24 – direct.
* C25, C26 – map folds; sum over entries.
* C27 – false: divergence whenever `deg a > deg b`; partial for `deg a ≤ deg b`.
* C28 – corollaries through the common abstraction.
* C29, C30, C31, C32, C33 – case analysis / fold induction.  C30 is false for the fixed-size types
  (modelled with checked unsigned subtraction) and for `poly_sub!` (error dropped).
* C34 – induction over the character list with a running byte offset.
* C35, C36, C37, C38, C39 – list-of-characters parsing; digit printing/reading inverse.
  C37 has an exception: a trailing coefficient equal to `MIN` of a signed type panics in `abs`.
* C40 – Newton iteration, invariant with `Nat.sqrt`.
* C41 – rounding model for floats; exact conversion false at `usize::MAX` for `f64`/`f32`.
* C42 – cast functions and ranges of the table.
* C43–C46 – ordered field with square root (instance ℝ), ℂ for complex roots; C44, C45, C46 have
  refutations (order for `a < 0`, sign of complex factors, casus irreducibilis).
* C47, C48 – case analysis; deflation loop with an ideal oracle.
* C49–C51 – direct.
* C52 – lists of length SIZE; `ordered_term_iter` refuted for SIZE ≠ 2.
* C53 – simulation by induction on histories.  C54, C55 – corollaries.
* C56 – checked arithmetic monad; simulation to ℤ.
* C57 – wrapping arithmetic: congruence modulo `2^bits`, unique representative.
* C58–C64 – complete outcome (result, panic or divergence) of products, powers, divisions, shifts,
  evaluation, root order; assembled from the refutations and the partial theorems.
* C65 – correct rounding of the float model, from a lemma on rounding a ratio of naturals.
* C66 – Horner: induction with a relative and an absolute error term.
* C67–C69 – coefficientwise error; for the product each coefficient carries the triple (float, exact,
  sum of absolute values) through the loops.
* C71, C72 – checked: folds that panic or act like the ideal ones; unchecked: congruence modulo
  `X^(2^bits) - 1`, unique by degree.  C73 – induction on fuel.  C74 – index arithmetic.
* C70 – division by any leading coefficient: degrees and no panics; divergence from a fixed point of the
  loop; for leading coefficients ±1/2^j the leading terms cancel exactly (or overflow) and the error analysis of C68
  applies; in general the rounds of the loop are collected in a list from which remainder and quotient are read off.
  Termination: a leading coefficient below 3/2 makes every round halve the leading coefficient of the remainder or lower
  its degree; from 3/2 on the smallest positive number comes back forever, with its sign changed or not.
* C75 – each function over machine arithmetic refines (panics or equals) the one over exact arithmetic.
* C76 – exact panic conditions by carrying a predicate and a value through the folds.
* C77 – loop invariants: the quotient or one coefficient is an arithmetic progression, which leaves the range
  of the type after at most `2^bits` rounds.
* C78, C79 – the same predicates through the scalar loops and the straight-line code of the fixed-size types; for
  `roots` the bounds on `b²`, `4ac`, `D` imply those of all other intermediate values.
* C80 – a majorant of the coefficients bounds every intermediate power by the last one; the exact condition (`PowFits`) follows
  the binary digits of the exponent, by strong induction on the exponent from the exact conditions for one product (C56, C76).
* C81 – without overflow checks: reduction modulo 2^bits is a ring homomorphism which commutes with every loop.
* C82 – the same for the division loops: the leading coefficient of the remainder never wraps, so a round either
  lowers the degree or repeats forever.  The exact outcome (`IsWrapQuot` in `SpecMachineDiv.lean`): the leading term of a
  quotient is determined by the leading terms of the dividend and the divisor, because that product does not wrap.
* C83 – the model rounds `√n` through a rational on the same side of every midpoint (a sticky bit); proved nearest
  over ℝ.
* C84 – errors of the discriminant, of its root (`|√x - √y| ≤ √|x - y|`, also across zero in ℂ) and of the quotients
  are collected against the exact complex roots.
* C85 – the coefficient at a key after a fold over a map, then the error analysis of C67–C69 per key; `eval` by an
  invariant over the terms; divergence of division by a coefficient that stays, for any values.
* C86 – degree, terms and equality are transported from `ℚ` along the value of a float; an approximation predicate
  with a number of roundings is composed along the straight-line code; the loops are those of C69.
* C87 – the loops of C67–C70 and C85 are proved once for an arbitrary predicate on (float, exact value, sum of absolute
  values); C87 instantiates it with "equal while below 2^p".  Division is compared with a given exact quotient: each
  round finds its next coefficient.
* C88 – display then parse is proved once for any coefficient type whose texts are a sign and a body of digits and
  points that reads back (`displayTerms_gen`); the five types follow from how they add a term to zero.
* C89 – the error of one product (C68, C85), sharpened so that a coefficient that is zero by structure has no error,
  combined along the square-and-multiply recursion: if the factors have relative errors `(1+u)^a - 1` and `(1+u)^b - 1`
  with respect to powers of the polynomial of absolute values, the product has `(1+u)^(a+b+c) - 1`.  Returning: the
  leading coefficient stays at least `2^-(m i)`, because a power of two rounds to itself.
* C90 – the deflation loop removes its leading term exactly (`b - 1*b`), so it is Horner's scheme; a run of the driver is
  described by `Runs` (returns a value with a property for enough fuel, or never returns), composed along the loop with
  the degree falling by one.  Sizes are tracked as powers of two, which round to themselves.
* C91 – the six types share a specification of one successful step (`StepAt`); every builder is a sequence of steps (`Run`),
  and the error of a run is an induction on its length that counts only the steps at the degree looked at.
* C92 – a wider format represents every number of the narrower one, so casts and the product of two casts are exact by
  C65; shifts follow the proofs of C13–C15 with `toRat` in place of the ring laws.
* C93 – a rounded quotient of zero is zero, so the error of the integrated polynomial is a sum over the support of the
  operand; it is composed with the error of evaluation (C66, C85) and of one subtraction.
* C94 – backward error: the computed `β ≈ -b/2a` and `σ ≈ √|D'|/2a` give `β² ∓ σ²` close to `(b² - D')/4a²`, and `D'` is
  within `3uS` of the discriminant, so the product of the roots is close to `c/a` although each root alone may be far off.
* C95 – whatever the first root `x` is, the quadratic left after it has coefficients close to those of exact deflation, and
  its roots are those of a nearby quadratic (C94); the constant term is only right if `x` is a root, hence `P - P(x)`.
* C96 – the in-place and by-reference variants are modelled on their own in `Model/Assign.lean` and shown equal to the
  by-value operators with no law of arithmetic assumed (induction over the map for `-=`, over the fuel for `%=`).
  The sparse `p += q` inserts `p` into `q` entry by entry, so it is `q + p`; equality with `p + q` needs commutative addition.
* C97 – the counting copies are shown equal to the functions paired with a closed formula; for division the number of
  rounds is the number of terms of the quotient because each round removes its leading term (`eraseLead`).
* C98 – one lemma about the rounding function (finite exactly below the midpoint above the largest number, from nearest and
  ties) gives all operations; case analysis for the special operands; uniqueness because two different equally near numbers
  would each be divisible by a higher power of two than the other.
* C99 – induction on the rounds, where the quotient loses its leading term (`eraseLead`); a checked round is a conjunction of
  range conditions (`Chk`); the existence of the two kinds by induction on the degree.
* C100 – induction on the exponent halved; for overflow: a positive multiple of a value out of range is out of range, and a
  square out of range is large enough for any accumulator other than -1; for floats: a product of `(1+δ)`s.
* C101 – lengths of lists through the loops; for maps the set of keys through the folds (`HasKey`), counts by cardinality;
  trimmed = as many coefficients as the degree asks for (C02).
* C102 – one step (`StepM`) returns or panics by a condition on the polynomial before and after (`Chk`); induction on the list of
  terms or tokens.  The round trip: the tokens of a printed text are its terms, of distinct degrees.
* C103 – monotonicity: each operation with checks panics or equals the one without (`Ref`), and `>>=`, folds and recursion keep this.
* C104 – one structure (`Sink`, Lemmas/MachineSink) says of a step which terms it takes, what it writes and that a refused term changes nothing; induction over the terms gives the run with and without overflow checks, and the run over products.
* C105 – composition of the evaluation and `add_term` theorems (C56, C76, C81); truncated division for roots; for factors the roots are at
  most half the operands, so negation is safe, and equal parity makes both truncated quotients exact.
* C106 – induction on histories as in C53.  With checks the state is the exact polynomial; without checks the invariant is equality of
  the images in `(ZMod (2 ^ bits))[X]`, where every operation (shifts too) commutes with reduction.
* C107 – one induction over histories with results (`runLog_spec`), used three times: state = exact polynomial; exact polynomial with all
  coefficients in range; image in `(ZMod (2 ^ bits))[X]`, where an in-range monomial keeps its degree.
* C108 – from C08–C19: in characteristic zero an antiderivative is given by its derivative and its constant term.
* C109 – from the uniqueness of quotient and remainder (C20, C60); for ℤ, a leading coefficient that is no unit does not divide that of
  a power of `x`.
* C110 – `degree()` is the degree of the represented polynomial (C02).
* C111 – all from the tokenization (C34): the tokens of `s ++ t` are those of `s` and of `t`; the tokens without separators are the tokens
  of the text without separators; a changed sign changes the sign of its own token only.
* C112 – the error of one operation is that of C67, C68, C85, C91, C92; `errStep_mono` (pure arithmetic in `ℚ[X]`) carries an error that
  was there before through the exact operation, and an induction over the history adds them up.  Whole numbers: C87 step by step.
* C113 – every text without separators is a beginning without fault or has a first faulty character (induction from the right); after a
  beginning without fault the state of the parser is explicit. For the types: induction over the tokens, with the refusals of each type as a
  function of the represented sum and the offered degree.
* C114 – C46–C48 give the answer of `roots()` for each degree; the real numbers in it are `Polynomial.roots` of the represented polynomial
  exactly for the solvable ones (`C114_only`). The laws are those of `Polynomial.roots` (products, scaling, Rolle's theorem, multiplicity).
* C115 – each operation is described by what it does to the number at `x^k` (`coeffOf`): one rounded sum, difference or product, or the
  sum `convSum` rounded in a fixed order; "the same number" (`SameNum`) identifies the two zeros. The laws then follow from those of single
  floating-point operations (commutativity, the sign rules, neutral elements); the laws that fail are refuted by computed witnesses.
* C116 – rounding is monotone (`IsRounding.mono`, from the characterisation of rounding in C98), hence so are `+`, and `*` on nonnegative
  numbers, as long as no NaN arises; then induction along Horner's rule, the loop of `powi` and the sum of the sparse terms. The symmetries
  follow from the sign rules of C115.
* C117 – the formulas for degrees 2 and 3 are rewritten with the sign rules of the coefficients. For `find_roots` a relational lemma
  (`findRoots_rel`): if two runs start with related terms, values and external answers, and the relation is kept by the operations used,
  they take the same branches and end with related answers; used with `y = k·x` over ℝ and with "same number" over floats.
* C118 – the state of the mathematical history is a polynomial with its room (number of stored coefficients, or set of stored degrees). Lengths
  and stored degrees are shown not to depend on the arithmetic; with C106 for the values and induction on the history (`runLog_spec`) the
  restriction of C106 to signed types is removed.
* C119 – structural induction over expressions, once for any operators of which every step either represents the right polynomial or panics
  (`Computes`); the instances are the theorems on single operations. For fields the induction carries an amount of fuel from which on the
  result no longer changes.
* C120 – induction over the expression with the invariant `Near`: every coefficient is bounded by the one of the expression with absolute
  values and differs from the exact one by the roundings counted so far (`FloatComputes`); products and powers by the single-operation errors
  of C67, C85 and C89. Whole numbers by the exactness theorems of C87.
* C121 – induction over the program: what it does `Matches` the outcome the specification gives, from the reading theorems (C39, C102)
  at the texts, the `Computes` instances behind C119 at the operators and C37, C38 and C102 at the end; both types by induction over pairs of outcomes.
  Without overflow checks the same induction with `IsWrapOf` (equal up to reduction) as the relation.
* C122 – a polynomial with more roots than its degree is zero, read through the evaluation theorems (C06, C07, C56, C76). Without overflow
  checks: interpolation at `0, …, d` has denominators dividing `d!`; the vanishing polynomials are multiples of `x(x-1)…(x-d+1)`.
* C123 – induction on the number of tests of the loop's condition with the degree of `b` as the measure, over C20, C22, C23 and C27; `%=` keeps
  the length of what it works on and `div_mod` does not increase it, which bounds the rounds of every division. The programs are not part of
  the crate; they exercise `is_zero`, `%=`, `div_mod`, `%`, `*`, `-` and `derivative` together.
* C124 – an error of at most `g · Σ|c_i||x|^i + e` (C66, C85, C86, C100) is spread over the coefficients in proportion to `|c_i||x|^i`; the sign
  test compares the value with the bound of C66, itself bounded by a computed value; the intermediate value theorem gives the root.
* C125 – the loops by induction over the coefficients, the terms or the points; for Newton the invariant is that `w` vanishes exactly at the
  abscissas done and `p` passes through the points done with a smaller degree than `w`; uniqueness by the number of roots.
* C126 – every function of the two types unfolded once with two runs side by side (`Lemmas/Param.lean`; the fixed-size types in `Props/ParamFixed.lean`); loops by induction on the related lists or
  on the fuel.  Programs by induction on the expression or the history.  The float case: no operation but division by a zero tells `-0.0` from `0.0`.
* C127 – rounding to `p` bits commutes with multiplication by `2^n` (`roundRat_pow`); a rational that is a whole number of units or at least the smallest normal
  number is rounded at the same place after scaling (`rounded_scale`), so every operation scales; loops by induction on the stored list. The square root by `roundSqrt_pow`.
* C128 – a multiple of `2^e` below `2^(p+e)` is a number of the format (`grid_valid`), and the nearest one to itself, so operations with such a result are exact; sums over
  the loops by induction, Horner's rule with the last place moving by `m` binary places a step.
* C129 – client programs in `Model/Taylor.lean`: multiplicities by differentiating and by dividing out, Taylor coefficients by both, the squarefree
  part; by induction on the degree with C06, C16, C20, C123 and the stored lengths of C101.
* C130 – client programs in `Model/Modular.lean`: products, powers and inverses modulo a polynomial; the exact condition under which repeated
  squaring multiplies zero by zero.
* C131 – client programs in `Model/Bisect.lean`: bisection with exact numbers, and in floating point with a test of the sign (C124); the
  latter with a bound on the number of rounds (every midpoint strictly between two floats leaves at most five sixths on both sides).
* C132 – client programs in `Model/Bounds.lean` on the items of `ordered_term_iter`: Descartes' rule of signs and Cauchy's bound, the latter also
  as computed with floats.
* C133 – client programs in `Model/Sturm.lean`. Sturm's theorem is proved in `Lemmas/Sturm.lean`: dividing the sequence by its last member gives
  one whose neighbours have no common zeros; its count of sign changes is locally constant away from the roots of the first member (so constant on
  intervals without roots, which are connected) and drops by one at each. The sign of `p p'` next to a root comes from the multiplicity.
* C134 – induction on the depth, with the count of C133 on each part; the squarefree part has the same real roots because it has the same
  irreducible factors (minimal polynomials).
* C135 – client program in `Model/Newton.lean`: the Taylor coefficients at the root are not negative, so the inequalities between `p`, `p'` and
  `p''` hold term by term; for roots in a half plane the coefficients come from real factors of degree 1 and 2, by induction on the degree.
* C136 – client programs in `Model/Resultant.lean`: the factor collected times the resultant of the pair at hand does not change, by the rule
  for adding multiples, the rule for lowering the formal degree and the rule for exchanging (all of Mathlib); fields, exact arithmetic.
* C137 – `Model/Repaired.lean`: the claims in full for the repaired functions, and agreement with the code wherever it returns (for `%` and sparse
  division by the divergence theorems of C22 and C27).  The cubic is over ℝ, with `cos(arccos t / 3)` as a parameter of the repaired function.
* C138 – the invariant of C68 and C70 on triples (float, exact value, sum of absolute values), with the entry in front replaced by zero: what is
  dropped is bounded by the rounding error of the division; for the integers `|c tmod l| < |l|`.
* C139 – the repaired functions reduced to those of C68, C94 and C100: same product when it returns, the loop of `powi` without truncation, and the
  factors of both kinds of roots as `x - z`.
* C140 – the same for maps, by degree: below the leading degree the state of C85 (`StB`), from it on a zero that is off by no more than the bound.
* C141 – client programs in `Model/Pseudo.lean`. Multiplied by `l^k`, a polynomial of degree below `deg b + k` has a quotient (induction on `k`),
  so C60 applies. For counting, the members of the chain times positive real numbers form a remainder sequence (`RemSeq`), and variations of sign
  do not change under positive factors.
* C142 – every step panics or does what it does over the integers (`Ref`, as in C75), so C141 carries over; the condition for `div_mod` is that of
  C99 for the multiplied dividend, and the factor is the largest of its partial products.
* C143 – Bézout carries the gcd from ℚ to ℂ, where every root of multiplicity `m` of `p` has multiplicity `m - 1` in the gcd of `p` and `p'`.
* C144 – client program in `Model/RationalRoots.lean`: the rational root theorem for the polynomial without its factor `x^e`.
* C145 – client program in `Model/IntegerRoots.lean`: an integer root divides the lowest coefficient; each evaluation by C56.
* C146 – client programs in `Model/AllRoots.lean`: Cauchy's bound (Mathlib) places every real root inside the interval given to C141/C142; positivity by the intermediate value theorem.

## 5. Defects of the code found by the proofs

Each has a theorem with a concrete witness (`..._false`, `..._diverges`, `..._panics_iff`).

1. `slice_mul` underflows (`0 + 0 - 1`): the product of two zero `Polynomial`s panics (C11), hence
   `pow` of zero (C12).
2. `div_mod` / `%=` on integer coefficients loop for ever unless a quotient exists in ℤ[x] (C21).
3. `Polynomial % Polynomial` loops for ever whenever `deg a ≥ deg b` (C22).
4. `SparsePolynomial` `div_mod`, `%`, `%=` loop for ever whenever `deg a > deg b` (C27).
5. `upow` truncates the exponent to `u32`/`i32`: wrong values of `eval`, `Monomial::pow` (C07, C50).
6. `Polynomial >> k` slices out of order when the vector has leading zeros (C14).
7. Shifts by `i32::MIN` negate it (C14, C15).
8. `Polynomial::derivative` panics when `degree + 1` is not representable (C16).
9. `try_from_usize_exact` for floats accepts `usize::MAX`; `try_from_usize_cont` for `f64` refuses
   representable numbers above `2^52` (C41).
10. `trinomial_roots` orders roots smallest first for `a < 0` (C44); over integers it truncates (C43).
11. `complex_factors` uses `x + root` (C45, C94).
12. `cubic_roots` is wrong for three distinct real roots unless they are symmetric (C46, C95).
13. Display of a trailing coefficient `MIN` panics or prints `- -128` (C37).
14. `DegreeCouldNotBeParsed` is never returned; lenient texts are accepted (C36).
15. `poly_sub!` ignores `CanNotNegate`; fixed-size `try_sub_term` never checks it; stored zeros
    underflow (C30, C33).
16. `add_poly`/`sub_poly` are not atomic: on error the sink keeps a partial result (C32).
17. `ArrayPolynomial::ordered_term_iter` is wrong for SIZE ≠ 2 (C52).
18. `SparsePolynomial::integral` and scalar division look at stored zeros, so `==` values can differ
    in behaviour (C54).
19. Monomials of degree ≥ 2 report the root 0 only once (C47).
20. Over floats `div_mod` loops for ever when `c - b*(c/b)` does not round to zero and stays put
    (`[1.0] / [49.0]`) or is not finite, and overwrites a quotient coefficient when a second round
    hits the same degree (`[7.0] / [25.0]` gives `-3.55e-17`) (C70).
21. Without overflow checks degrees wrap: the square of `x^(2^63)` is `1` (C72); shifts by `i32::MIN` never
    return (C73).
22. `Polynomial::add_term` with degree `usize::MAX` panics on an index, not on allocation (C74).
23. The endless loops of items 3 and 4 become overflow panics after up to `2^bits` rounds in builds with
    overflow checks, except when the first quotient term is zero (C77); sparse division of equal degrees can
    panic after the division is finished, since the next quotient is computed before the loop test (C77).
24. `MIN / -1` panics in every build (C78).  `Monomial::eval` of a zero coefficient panics when the power of the point
    overflows (C79).
25. Without overflow checks `Polynomial::pow` panics when an intermediate square is zero modulo 2^bits, e.g.
    `[16u8].pow(4)` (C81).
26. `QuadraticTrinomial::roots` over floats does not test the leading coefficient: `0x² + x + 1` gives
    `TwoRealRoots(NaN, -inf)`; a NaN coefficient gives `TwoComplexRoots`; `x² + 2^28 x + 1` gives the root `0` and
    `x² + 2^600 x + 1` two infinities (C84).
27. Over floats the derivative of `x^usize::MAX` gets the coefficient `2^64` (C85); sparse division of equal degrees
    loops for ever when the quotient underflows (`5e-324 / 4.0`), and for the smallest positive number by any leading
    coefficient of magnitude 3/2 or more, as dense division does (C70, C85).
28. Over floats `Polynomial::pow(4)` of a tiny constant (`2^-538`) panics, because the square underflows to the empty
    polynomial (C89).
29. Over floats `roots()` loops for ever when a coefficient overflows during deflation (or the solver returns a
    non-finite root): `div` (find_roots.rs 118-151) never gets rid of an infinite leading coefficient, as `inf - inf` is
    NaN.  `2^1023 (x⁴ + x³ - x² - x)` suffices, because the coefficients are deflated before they are normalised (C90).
30. Over signed integers with overflow checks `%=` panics when the leading coefficient of the remainder is `MIN` and that of
    the divisor `-1`, although `div_mod` returns: it computes the next quotient before it looks at the degree (C99).
31. Over floats `SparsePolynomial::eval` is NaN when a stored zero coefficient meets an infinite power: `(x^1100 + 7) - x^1100`
    at `2` (C100).
32. `Polynomial::from_str` panics on short texts: `x^18446744073709551615` in every build (index out of bounds or capacity overflow),
    and with overflow checks when a partial sum overflows, e.g. `100x + 100x - 90x` over `i8`, although the sum fits (C102).
33. `LinearBinomial::root` of `a x + MIN` over a signed type panics with overflow checks; without them it panics for `a = -1` and
    otherwise gives the root with the wrong sign: `2 x - 128` over `i8` gives `-64` (C105).
34. `Integral::eval` over unsigned types panics with overflow checks when the ends are in decreasing order (C105).
35. A comma or underscore in front of the first sign makes a text unreadable: `_+3` is refused, ` +3`, `_3` and `+_3` are read; the tokenizer
    takes `_` for a first term, the term parser ignores it (C111).

The mirror image of these lists is in MANIFEST.json: a property whose English statement is false of
the code has status `partial`, with the refutation and the strongest true part.
