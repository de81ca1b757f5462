import Verif.Model.Dense
import Verif.Model.Sparse
import Verif.Model.Fixed
import Verif.Model.PolyMath
import Verif.Model.Strings
import Verif.Model.FindRoots
import Verif.Model.Float
import Verif.Model.Machine
import Verif.Model.FloatRoots
import Verif.Model.FloatText

/-!
# The test suite of the crate, run on the model

Every assertion of the crate's own unit tests and documentation examples that the model can compute,
transcribed in the order of the source.  These are tests of the model (does it compute what the code
is known to compute?), not proofs of properties.

Literals: `i32` and other integers are unbounded integers, the overflow-checked model is used where a
test names a type; `f64` literals are `Fl binary64`.

Root finding uses two functions that are parameters of the model: `cbrt` is only called with 0 here, and
`find_roots_sturm` of the crate `roots` is replaced by a search for whole roots.

Not transcribed: `test_large_polynomials` of find_roots.rs (too slow in the kernel) and tests of Rust syntax
(`polynomial!`, `ArrayPolynomial::new`).
-/

namespace Rustnomial.Validation
open Rustnomial

/-- The `f64` of an integer literal. -/
def fl (n : Int) : Fl binary64 := if n < 0 then -Fl.ofNat n.natAbs else Fl.ofNat n.natAbs

/-- `assert_eq!(expected, actual)` for `Polynomial`. -/
def okP {N : Type} [Zero N] [NumZero N] [BEq N] (expected : Poly N) : Res (Poly N) → Bool
  | .ok p => expected.eq p
  | _ => false

/-- `assert_eq!(expected, actual)` for `SparsePolynomial`. -/
def okS {N : Type} [Zero N] [NumZero N] [BEq N] (expected : Sparse N) : Res (Sparse N) → Bool
  | .ok p => expected.eq p
  | _ => false

/-- `assert_eq!(expected, actual)` for any type with `==`. -/
def okB {α : Type} [BEq α] (expected : α) : Res α → Bool
  | .ok p => expected == p
  | _ => false

/-- `Polynomial::new(vec![..])` of integers. -/
abbrev pn (l : List Int) : Poly Int := Poly.new l

/-- `SparsePolynomial::from(vec![..])` of integers. -/
abbrev sn (l : List Int) : Sparse Int := Sparse.fromVec l

/-- `Polynomial::new(vec![..])` of `f64`. -/
abbrev pf (l : List Int) : Poly (Fl binary64) := Poly.new (l.map fl)

/-- `SparsePolynomial::from(vec![..])` of `f64`. -/
abbrev sf (l : List Int) : Sparse (Fl binary64) := Sparse.fromVec (l.map fl)

/-! ## src/polynomial/polynomial.rs, `mod test` -/

-- test_eval
example : (pn [1, 2, 3]).eval 5 = 25 + 2 * 5 + 3 := by decide +kernel
-- test_derivative
example : okP (pn [2, 2]) (pn [1, 2, 3]).derivative = true := by decide +kernel
example : okP (pn [2, 2]) (pn [0, 1, 2, 3]).derivative = true := by decide +kernel
example : okP (pn [3, 4, 3]) (pn [1, 2, 3, 4]).derivative = true := by decide +kernel
example : okP (Poly.zero : Poly Int) (Poly.zero : Poly Int).derivative = true := by decide +kernel
-- test_integral, test_integral_eval, test_integral_const_substitute
example : okP (pn [1, 1, 1, 0]) (pn [3, 2, 1]).integral = true := by decide +kernel
example : okB (3 : Int) ((pn [3, 2, 1]).integral.bind fun i => .ok ((Integral.mk i).eval (0 : Int) 1)) = true := by
  decide +kernel
example : okP (pn [1, 1, 1, 5]) ((pn [3, 2, 1]).integral.bind fun i => .ok ((Integral.mk i).replaceC (5 : Int))) =
    true := by decide +kernel
-- test_add_lhs_bigger, test_add_rhs_bigger, and the assigning versions
example : okP (pn [1, 3, 5, 7]) ((pn [1, 2, 3, 4]).add (pn [1, 2, 3])) = true := by decide +kernel
example : okP (pn [1, 3, 5, 7]) ((pn [1, 2, 3]).add (pn [1, 2, 3, 4])) = true := by decide +kernel
example : okP (pn [1, 3, 5, 7]) ((pn [1, 2, 3, 4]).addAssign (pn [1, 2, 3])) = true := by decide +kernel
example : okP (pn [1, 3, 5, 7]) ((pn [1, 2, 3]).addAssign (pn [1, 2, 3, 4])) = true := by decide +kernel
-- test_sub_lhs_bigger, test_sub_rhs_bigger, and the assigning versions
example : okP (pn [1, 0, 0, 0]) ((pn [1, 2, 3, 4]).sub (pn [2, 3, 4])) = true := by decide +kernel
example : okP (pn [-1, 0, 0, 0]) ((pn [2, 3, 4]).sub (pn [1, 2, 3, 4])) = true := by decide +kernel
example : okP (pn [1, 0, 0, 0]) ((pn [1, 2, 3, 4]).subRef (pn [2, 3, 4])) = true := by decide +kernel
example : okP (pn [-1, 0, 0, 0]) ((pn [2, 3, 4]).subRef (pn [1, 2, 3, 4])) = true := by decide +kernel
-- test_negate
example : (pn [-1, -2, -3, 0, 5]).eq (pn [1, 2, 3, 0, -5]).neg = true := by decide +kernel
-- test_mul_poly, test_mul_assign_poly, test_mul_num, test_mul_assign_num
example : okP (pn [1, 4, 4]) ((pn [1, 2]).mul (pn [1, 2])) = true := by decide +kernel
example : okP (pn [1, 4, 4]) ((pn [1, 2]).mulRef (pn [1, 2])) = true := by decide +kernel
example : (pn [10, 20]).eq ((pn [1, 2]).mulScalar 10) = true := by decide +kernel
example : (pn [10, 20]).eq ((pn [1, 2]).mulAssignScalar 10) = true := by decide +kernel
-- test_equality, test_equality_first_match, test_equality_different
example : (⟨[0, 0, 0, 1, 2]⟩ : Poly Int).eq (pn [1, 2]) = true := by decide +kernel
example : (⟨[1, 2, 0, 0, 0]⟩ : Poly Int).eq (pn [1, 2]) = false := by decide +kernel
example : (pn [1, 2]).eq (pn [1, 0]) = false := by decide +kernel
example : (pn [1, 2]).eq (pn [3, 7, 4]) = false := by decide +kernel
-- test_shl_*, test_shr_*
example : okP (pn [1, 2, 0, 0, 0, 0, 0]) ((pn [1, 2]).shl 5) = true := by decide +kernel
example : okP (pn [1, 2, 0, 0, 0, 0, 0]) ((pn [1, 2]).shlAssign 5) = true := by decide +kernel
example : okP (pn [1, 2]) ((pn [1, 2, 0, 0, 0, 0, 0]).shl (-5)) = true := by decide +kernel
example : okP (pn [1, 2]) ((pn [1, 2, 0, 0, 0, 0, 0]).shlAssign (-5)) = true := by decide +kernel
example : okP (pn [1, 2]) ((pn [1, 2, 0, 0, 0, 0, 0]).shr 5) = true := by decide +kernel
example : okP (pn [1, 2]) ((pn [1, 2, 0, 0, 0, 0, 0]).shrAssign 5) = true := by decide +kernel
example : okP (pn [1, 2, 0, 0, 0, 0, 0]) ((pn [1, 2]).shr (-5)) = true := by decide +kernel
example : okP (pn [1, 2, 0, 0, 0, 0, 0]) ((pn [1, 2]).shrAssign (-5)) = true := by decide +kernel
example : okP (Poly.zero : Poly Int) ((pn [1, 2]).shr 5) = true := by decide +kernel
example : okP (Poly.zero : Poly Int) ((pn [1, 2]).shrAssign 5) = true := by decide +kernel
-- test_exp: `b` runs through the products of `a`
example : okP (pn [1]) ((pn [1, 2]).pow 0) = true := by decide +kernel
example : ∀ i ∈ List.range' 1 9, (match (List.range (i - 1)).foldlM (fun b _ => b.mulRef (pn [1, 2])) (pn [1, 2]) with
    | .ok b => okP b ((pn [1, 2]).pow i)
    | _ => false) = true := by decide +kernel
-- test_trim
example : (pn [0, 1, 2]).terms = [1, 2] := by decide +kernel
example : (pn (List.replicate 10000 0)).terms = [] := by decide +kernel
example : (pn []).terms = [] := by decide +kernel
-- test_degree
example : (pn [0, 0, 0, -1, -2, 3]).degree = .num 2 := by decide +kernel

/-! ## src/polynomial/polynomial.rs, documentation examples -/

example : (pf [1, 4, 4]).trim.terms = [fl 1, fl 4, fl 4] := by decide +kernel
example : (pf [1, 4, 4]).degree = .num 2 := by decide +kernel
example : (Poly.zero : Poly Int).isZeroPoly = true ∧ (Poly.zero : Poly Int).orderedTermIter = [] ∧
    (Poly.zero : Poly Int).terms = [] := by decide +kernel
example : (Poly.fromVec [0, 1] : Poly Int).isZeroPoly = false ∧
    (Poly.fromVec [0, 1] : Poly Int).setToZero.isZeroPoly = true := by decide +kernel
example : (pf [1, 4, 4]).eq (Poly.fromTerms [(fl 1, 2), (fl 4, 1), (fl 4, 0)]) = true := by decide +kernel
example : (pn [1, 2, 3, 4]).eval 1 = 10 ∧ (pn [1, 2, 3, 4]).eval 10 = 1234 := by decide +kernel
example : okP (pn [8, 1]) (pn [4, 1, 5]).derivative = true := by decide +kernel
example : okP (Poly.new [Fl.div (fl 1) (fl 3), fl 1, fl 5, fl 0]) (pf [1, 2, 5]).integral = true := by
  decide +kernel
example : (match (pf [1, 2]).pow 2, (pf [1, 2]).pow 3 with
    | .ok sqr, .ok cub => okP sqr ((pf [1, 2]).mul (pf [1, 2])) && okP cub (sqr.mul (pf [1, 2]))
    | _, _ => false) = true := by decide +kernel
example : (pf [1, 2]).eq (pf [2, 2]) = false ∧ (pf [1, 2]).eq (pf [1, 0]) = false ∧
    okP (pf [1, 2]) ((pf [2, 2]).sub (pf [1, 0])) = true := by decide +kernel

/-! ## src/polynomial/sparsepolynomial.rs, `mod test` -/

-- test_from
example : ((sn [1, 2, 3, 4]).upcast (⟨false, 16⟩ : IntTy).wrap).eq (sn [1, 2, 3, 4]) = true := by
  decide +kernel
-- test_eval
example : (sn [1, 2, 3]).eval 5 = 25 + 2 * 5 + 3 := by decide +kernel
-- test_derivative
example : okS (sn [2, 2]) (sn [1, 2, 3]).derivative = true := by decide +kernel
example : okS (sn [2, 2]) (sn [0, 1, 2, 3]).derivative = true := by decide +kernel
example : okS (sn [3, 4, 3]) (sn [1, 2, 3, 4]).derivative = true := by decide +kernel
-- test_integral, test_integral_eval, test_integral_const_substitute
example : okS (sn [1, 1, 1, 0]) (sn [3, 2, 1]).integral = true := by decide +kernel
example : okB (3 : Int) ((sn [3, 2, 1]).integral.bind fun i => .ok ((Integral.mk i).eval (0 : Int) 1)) = true := by
  decide +kernel
example : okS (sn [1, 1, 1, 5]) ((sn [3, 2, 1]).integral.bind fun i => .ok ((Integral.mk i).replaceC (5 : Int))) =
    true := by decide +kernel
-- test_add_*, test_sub_*
example : (sn [1, 3, 5, 7]).eq ((sn [1, 2, 3, 4]).add (sn [1, 2, 3])) = true := by decide +kernel
example : (sn [1, 3, 5, 7]).eq ((sn [1, 2, 3]).add (sn [1, 2, 3, 4])) = true := by decide +kernel
example : (sn [1, 3, 5, 7]).eq ((sn [1, 2, 3, 4]).addAssign (sn [1, 2, 3])) = true := by decide +kernel
example : (sn [1, 3, 5, 7]).eq ((sn [1, 2, 3]).addAssign (sn [1, 2, 3, 4])) = true := by decide +kernel
example : (sn [1, 0, 0, 0]).eq ((sn [1, 2, 3, 4]).sub (sn [2, 3, 4])) = true := by decide +kernel
example : (sn [-1, 0, 0, 0]).eq ((sn [2, 3, 4]).sub (sn [1, 2, 3, 4])) = true := by decide +kernel
-- test_negate
example : (sn [-1, -2, -3, 0, 5]).eq (sn [1, 2, 3, 0, -5]).neg = true := by decide +kernel
-- test_mul_poly, test_mul_assign_poly, test_mul_num, test_mul_assign_num
example : (sn [1, 4, 4]).eq ((sn [1, 2]).mul (sn [1, 2])) = true := by decide +kernel
example : (sn [10, 20]).eq ((sn [1, 2]).mulScalar 10) = true := by decide +kernel
example : (sn [10, 20]).eq ((sn [1, 2]).mulAssignScalar 10) = true := by decide +kernel
-- test_equality, test_equality_first_match, test_equality_different
example : (sn [0, 0, 0, 1, 2]).eq (sn [1, 2]) = true := by decide +kernel
example : (sn [1, 2, 0, 0, 0]).eq (sn [1, 2]) = false := by decide +kernel
example : (sn [1, 2]).eq (sn [1, 0]) = false := by decide +kernel
example : (sn [1, 2]).eq (sn [3, 7, 4]) = false := by decide +kernel
-- test_shl_*, test_shr_*
example : okS (sn [1, 2, 0, 0, 0, 0, 0]) ((sn [1, 2]).shl 5) = true := by decide +kernel
example : okS (sn [1, 2]) ((sn [1, 2, 0, 0, 0, 0, 0]).shl (-5)) = true := by decide +kernel
example : okS (sn [1, 2]) ((sn [1, 2, 0, 0, 0, 0, 0]).shr 5) = true := by decide +kernel
example : okS (sn [1, 2, 0, 0, 0, 0, 0]) ((sn [1, 2]).shr (-5)) = true := by decide +kernel
example : okS (Sparse.zero : Sparse Int) ((sn [1, 2]).shr 5) = true := by decide +kernel
-- test_exp
example : (sn [1]).eq ((sn [1, 2]).pow 0) = true := by decide +kernel
example : ∀ i ∈ List.range' 1 9,
    ((List.range (i - 1)).foldl (fun b _ => b.mul (sn [1, 2])) (sn [1, 2])).eq ((sn [1, 2]).pow i) = true := by
  decide +kernel
-- test_degree
example : (sn [0, 0, 0, -1, -2, 3]).degree = .num 2 := by decide +kernel
-- test_generic_sub
example : (sn [0]).eq ((sn [0, 0, 0, -1, -2, 3]).subDense (pn [-1, -2, 3])) = true := by decide +kernel
-- test_pow, over `u32` with overflow checks
example : (match (sn [1, 2, 3, 4, 5]).powM (.machine true ⟨false, 32⟩) 8,
      (pn [1, 2, 3, 4, 5]).powM (.machine true ⟨false, 32⟩) 8 with
    | .ok a, .ok b => (Sparse.fromVec b.terms).eq a
    | _, _ => false) = true := by decide +kernel

/-! ## src/polynomial/sparsepolynomial.rs, documentation examples -/

example : (sf [1, 4, 4]).degree = .num 2 := by decide +kernel
example : (Sparse.zero : Sparse Int).isZeroPoly = true ∧ (Sparse.zero : Sparse Int).orderedTermIter = [] ∧
    (Sparse.zero : Sparse Int).terms.entries = [] := by decide +kernel
example : (sn [0, 1]).isZeroPoly = false ∧ (sn [0, 1]).setToZero.isZeroPoly = true := by decide +kernel
example : (sf [0, 0, 1, 0, 4, 4]).trim.terms.entries =
    (BMap.ofList [(3, fl 1), (1, fl 4), (0, fl 4)]).entries := by decide +kernel
example : okS (sn [8, 1]) (sn [4, 1, 5]).derivative = true := by decide +kernel
example : (match (sf [1, 2]).pow 2, (sf [1, 2]).pow 3 with
    | sqr, cub => sqr.eq ((sf [1, 2]).mul (sf [1, 2])) && cub.eq (sqr.mul (sf [1, 2]))) = true := by decide +kernel
example : (sf [1, 2]).eq (sf [2, 2]) = false ∧ (sf [1, 2]).eq (sf [1, 0]) = false ∧
    (sf [1, 2]).eq ((sf [2, 2]).sub (sf [1, 0])) = true := by decide +kernel

/-! ## src/polynomial/monomial.rs -/

/-- `Monomial::new` of integers. -/
abbrev mn (c : Int) (d : Nat) : Monomial Int := Monomial.new c d

/-- `assert_eq!(expected, actual)` for `Monomial`. -/
def okM (expected : Monomial Int) : Res (Monomial Int) → Bool
  | .ok p => expected.eq p
  | _ => false

-- test_root_zero, test_root_constant, test_root_not_constant, test_eval
example : (Monomial.zero : Monomial Int).root = .infiniteRoots := by decide +kernel
example : (mn 1 0).root = .noRoots := by decide +kernel
example : (mn 1 1).root = .oneRealRoot 0 := by decide +kernel
example : (mn 5 2).eval 5 = 125 := by decide +kernel
-- test_shl_*, test_shr_*
example : okM (mn 1 7) ((mn 1 2).shl 5) = true := by decide +kernel
example : okM (mn 1 2) ((mn 1 7).shl (-5)) = true := by decide +kernel
example : okM (mn 1 2) ((mn 1 7).shr 5) = true := by decide +kernel
example : okM (mn 1 7) ((mn 1 2).shr (-5)) = true := by decide +kernel
example : okM Monomial.zero ((mn 5 1).shr 5) = true := by decide +kernel
-- test_derivative_of_zero, test_derivative_of_monomial_degree_zero, test_derivative, test_integral
example : okM Monomial.zero (Monomial.zero : Monomial Int).derivative = true := by decide +kernel
example : okM Monomial.zero (mn 5 0).derivative = true := by decide +kernel
example : okM (mn 15 2) (mn 5 3).derivative = true := by decide +kernel
example : okS (Sparse.fromTerms [(Int.tdiv 5 3, 3)]) (mn 5 2).integral = true := by decide +kernel
-- documentation examples
example : (Monomial.new (fl 3) 2).coefficient = fl 3 ∧ (Monomial.new (fl 3) 2).degree = .num 2 := by decide +kernel
example : (mn 5 2).termWithDegree 2 = .term 5 2 ∧ (mn 5 2).termWithDegree 1 = .zeroTerm := by decide +kernel
example : (Monomial.new (fl 0) 2).degree = .negInf ∧ (Monomial.new (fl 1) 0).degree = .num 0 := by decide +kernel
example : (Monomial.zero : Monomial Int).isZeroPoly = true ∧ (mn 1 1).isZeroPoly = false ∧
    (mn 1 1).setToZero.isZeroPoly = true := by decide +kernel
example : (mn 1 0).eval 0 = 1 ∧ (mn 1 2).root = .oneRealRoot 0 := by decide +kernel
example : ((mn 2 1).mul (mn 2 1)).eq ((mn 2 1).pow 2) = true ∧
    (((mn 2 1).pow 2).mul (mn 2 1)).eq ((mn 2 1).pow 3) = true := by decide +kernel
example : (mn 2 2).eq (mn 2 2) = true ∧ (mn 2 2).eq (mn 1 2) = false := by decide +kernel

/-! ## src/polynomial/binomial.rs -/

/-- `LinearBinomial::new` of integers. -/
abbrev ln (a b : Int) : LinearBinomial Int := LinearBinomial.new a b

-- test_root_both_zero, test_root_constant, test_root_both
example : (ln 0 0).root = .ok .infiniteRoots := by decide +kernel
example : (ln 0 1).root = .ok .noRoots := by decide +kernel
example : (ln 1 2).root = .ok (.oneRealRoot (-2)) := by decide +kernel
-- test_degree_*
example : (LinearBinomial.zero : LinearBinomial Int).degree = .negInf := by decide +kernel
example : (ln 0 1).degree = .num 0 := by decide +kernel
example : (ln 1 0).degree = .num 1 := by decide +kernel
example : (ln 2 1).degree = .num 1 := by decide +kernel
-- test_eval, test_shr_*
example : (ln 5 0).eval 5 = 25 := by decide +kernel
example : ((ln 1 0).shr 1).eq (ln 0 1) = true := by decide +kernel
example : ((ln 1 0).shrAssign 1).eq (ln 0 1) = true := by decide +kernel
example : ((ln 1 2).shr 5).eq LinearBinomial.zero = true := by decide +kernel
example : ((ln 1 2).shrAssign 5).eq LinearBinomial.zero = true := by decide +kernel
-- test_derivative_of_zero, test_derivative_of_degree_zero, test_derivative
example : (LinearBinomial.zero : LinearBinomial Int).derivative.eq LinearBinomial.zero = true := by decide +kernel
example : (ln 0 1).derivative.eq LinearBinomial.zero = true := by decide +kernel
example : (ln 1 3).derivative.eq (ln 0 1) = true := by decide +kernel
-- documentation examples
example : (ln 3 2).degree = .num 1 := by decide +kernel
example : (LinearBinomial.new (fl 1) (fl 2)).root = .ok (.oneRealRoot (fl (-2))) := by decide +kernel
example : (ln 5 0).termWithDegree 1 = .term 5 1 ∧ (ln 5 0).termWithDegree 0 = .zeroTerm := by decide +kernel
example : (LinearBinomial.new (fl 3) (fl 2)).degree = .num 1 ∧ (LinearBinomial.new (fl 0) (fl 1)).degree = .num 0 := by
  decide +kernel
example : (LinearBinomial.zero : LinearBinomial Int).isZeroPoly = true ∧
    (LinearBinomial.zero : LinearBinomial Int).orderedTermIter = [] ∧ (ln 1 1).isZeroPoly = false ∧
    (ln 1 1).setToZero.isZeroPoly = true := by decide +kernel
example : (ln 1 2).eval 5 = 7 ∧ (ln 1 2).eval 0 = 2 := by decide +kernel
example : (LinearBinomial.new (fl 0) (fl 3)).eq (LinearBinomial.new (fl 3) (fl 1)).derivative = true := by
  decide +kernel
example : okP (pf [1, 0, 0]) (LinearBinomial.new (fl 2) (fl 0)).integral = true := by decide +kernel

/-! ## src/polynomial/trinomial.rs -/

/-- `QuadraticTrinomial::new` of integers. -/
abbrev tn (a b c : Int) : QuadraticTrinomial Int := QuadraticTrinomial.new a b c

/-- `assert_eq!(expected, actual)` for `QuadraticTrinomial`. -/
def okT (expected : QuadraticTrinomial Int) : Res (QuadraticTrinomial Int) → Bool
  | .ok p => expected.eq p
  | _ => false

-- test_eval, test_shr_*
example : (tn 5 0 0).eval 5 = 125 := by decide +kernel
example : (tn 0 0 1).eq ((tn 1 0 0).shr 2) = true := by decide +kernel
example : (tn 0 0 1).eq ((tn 1 0 0).shrAssign 2) = true := by decide +kernel
example : QuadraticTrinomial.zero.eq ((tn 1 2 3).shr 5) = true := by decide +kernel
example : QuadraticTrinomial.zero.eq ((tn 1 2 3).shrAssign 5) = true := by decide +kernel
-- test_derivative_of_zero, test_derivative_of_degree_zero, test_derivative
example : okT QuadraticTrinomial.zero (QuadraticTrinomial.zero : QuadraticTrinomial Int).derivative = true := by
  decide +kernel
example : okT QuadraticTrinomial.zero (tn 0 0 1).derivative = true := by decide +kernel
example : okT (tn 0 2 2) (tn 1 2 3).derivative = true := by decide +kernel
-- test_roots_pos, test_complex_roots_neg
example : (tn 1 4 4).roots = .ok (.twoRealRoots (-2) (-2)) := by decide +kernel
example : (tn 1 0 4).roots = .ok (.twoComplexRoots ⟨0, 2⟩ ⟨0, -2⟩) := by decide +kernel
-- documentation examples
example : (tn 1 0 3).termWithDegree 2 = .term 1 2 ∧ (tn 1 0 3).termWithDegree 1 = .zeroTerm ∧
    (tn 1 0 3).termWithDegree 0 = .term 3 0 := by decide +kernel
example : (tn 1 2 3).degree = .num 2 ∧ (tn 0 2 3).degree = .num 1 ∧ (tn 0 0 3).degree = .num 0 ∧
    (tn 0 0 0).degree = .negInf := by decide +kernel
example : (QuadraticTrinomial.zero : QuadraticTrinomial Int).isZeroPoly = true ∧ (tn 1 1 1).isZeroPoly = false ∧
    (tn 1 1 1).setToZero.isZeroPoly = true := by decide +kernel
example : (tn 1 2 3).eval 1 = 6 ∧ (tn 1 2 3).eval 0 = 3 := by decide +kernel

/-! ## src/polynomial/array_polynomial.rs -/

-- test_eval
example : (tn 1 2 3).eval 5 = (⟨[1, 2, 3], rfl⟩ : ArrayPoly Int 3).eval 5 := by decide +kernel
-- test_derivative
example : (⟨[4, 1, 5], rfl⟩ : ArrayPoly Int 3).derivative = .ok [0, 8, 1] := by decide +kernel
example : (⟨[4, 1], rfl⟩ : ArrayPoly Int 2).derivative = .ok [0, 4] := by decide +kernel
example : (⟨[99], rfl⟩ : ArrayPoly Int 1).derivative = .ok [0] := by decide +kernel
example : (⟨[], rfl⟩ : ArrayPoly Int 0).derivative = .ok [] := by decide +kernel
-- test_integral
example : (match (pf [1, 2, 5]).integral with
    | .ok i => okP i (⟨[fl 1, fl 2, fl 5], rfl⟩ : ArrayPoly (Fl binary64) 3).integral
    | _ => false) = true := by decide +kernel

/-! ## src/strings.rs -/

/-- `i32::from_str`. -/
abbrev pi32 : List Char → Option Int := parseInt ⟨true, 32⟩

/-- `assert_eq!(expected, SparsePolynomial::<i32>::from_str(s).unwrap())`. -/
def parses (expected : Sparse Int) (s : String) : Bool :=
  match Sparse.fromStr pi32 64 s.toList with
  | .ok (.ok p) => expected.eq p
  | _ => false

/-- `assert_eq!(expected, a.to_string())`. -/
def shows (expected : String) : Res (List Char) → Bool
  | .ok s => expected.toList == s
  | _ => false

-- test_from_str_*
example : parses (sn [255, 15, 3]) "255x^2+15x+3" = true := by decide +kernel
example : parses (sn [5, 0, 0]) "5x^2" = true := by decide +kernel
example : parses (sn [255, -15, 3]) "255x^2-15x^1+3x^0" = true := by decide +kernel
example : parses (sn [-1, 0]) "-x^1" = true := by decide +kernel
example : parses (sn [1, 5]) "5+x" = true := by decide +kernel
example : parses (sn [16, 0]) "5x+11x" = true := by decide +kernel
-- test_dangling_caret_errors
example : (match Sparse.fromStr pi32 64 "5+x^".toList with
    | .ok (.error _) => true
    | _ => false) = true := by decide +kernel
-- test_sparse_polynomial_str_*
example : ∀ l ∈ ([[0], [], [0, 0]] : List (List Int)), shows "0" ((sn l).display (intFmt true ⟨true, 32⟩)) = true := by
  decide +kernel
example : shows "-x^2 - 2x + 3" ((sn [-1, -2, 3]).display (intFmt true ⟨true, 32⟩)) = true := by decide +kernel
example : shows "-x^4 - 2x^3 + 3" ((sn [-1, -2, 0, 0, 3]).display (intFmt true ⟨true, 32⟩)) = true := by decide +kernel
example : shows "-x^3 - x^2 - x" ((sn [-1, -1, -1, 0]).display (intFmt true ⟨true, 32⟩)) = true := by decide +kernel
example : shows "-2x^3 - x^2 - x" ((sn [-2, -1, -1, 0]).display (intFmt true ⟨true, 32⟩)) = true := by decide +kernel
-- test_sparse_integral_str
example : (match (pn [-3, -2, 1]).integral with
    | .ok i => shows "-x^3 - x^2 + x + C" ((Integral.mk i).display Poly.isZeroPoly (Poly.display (intFmt true ⟨true, 32⟩)))
    | _ => false) = true := by decide +kernel
-- test_str_monomial
example : shows "5x^2" ((mn 5 2).display (intFmt true ⟨true, 32⟩)) = true := by decide +kernel
-- test_polynomial_str_*
example : ∀ p ∈ ([pn [0], Poly.zero, pn [0, 0], ⟨[]⟩, ⟨[0]⟩, ⟨[0, 0]⟩] : List (Poly Int)),
    shows "0" (p.display (intFmt true ⟨true, 8⟩)) = true := by decide +kernel
example : shows "-x^2 - 2x + 3" ((pn [-1, -2, 3]).display (intFmt true ⟨true, 32⟩)) = true := by decide +kernel
example : shows "-x^4 - 2x^3 + 3" ((pn [-1, -2, 0, 0, 3]).display (intFmt true ⟨true, 32⟩)) = true := by decide +kernel
example : shows "-x^3 - x^2 - x" ((pn [-1, -1, -1, 0]).display (intFmt true ⟨true, 32⟩)) = true := by decide +kernel
example : shows "-2x^3 - x^2 - x" ((pn [-2, -1, -1, 0]).display (intFmt true ⟨true, 32⟩)) = true := by decide +kernel
example : shows "-1" ((pn [-1]).display (intFmt true ⟨true, 32⟩)) = true := by decide +kernel

/-! ## src/polynomial/integral.rs -/

-- test_integral_empty_polynomial, test_integral_str, test_integral_str_negatives
example : (match (pn [0]).integral with
    | .ok i => shows "C" ((Integral.mk i).display Poly.isZeroPoly (Poly.display (intFmt true ⟨true, 32⟩)))
    | _ => false) = true := by decide +kernel
example : (match (pn [6, 4, 2]).integral with
    | .ok i => shows "2x^3 + 2x^2 + 2x + C" ((Integral.mk i).display Poly.isZeroPoly (Poly.display (intFmt true ⟨true, 32⟩)))
    | _ => false) = true := by decide +kernel
-- documentation example of `Integral::eval`
example : (match (pf [2, 1]).integral with
    | .ok i => (Integral.mk i).eval (fl 0) (fl 1) == fl 2 && (Integral.mk i).eval (fl 0) (fl 2) == fl 6 &&
        (Integral.mk i).eval (fl 1) (fl 2) == fl 4
    | _ => false) = true := by decide +kernel

/-! ## src/terms.rs -/

/-- `Term::<i32>::from_str`. -/
abbrev term (s : String) : Except TermFromStringError (Term Int) := Term.fromStr pi32 64 s.toList

/-- `is_err()`. -/
def isErr {E A : Type} : Except E A → Bool
  | .error _ => true
  | .ok _ => false

/-- `assert_eq!(Ok(expected), ..)`. -/
def okTerm (expected : Term Int) : Except TermFromStringError (Term Int) → Bool
  | .ok t => decide (expected = t)
  | .error _ => false

example : okTerm (.term 5 2) (term "5x^2") = true := by decide +kernel
example : okTerm (.term 5 2) (term "+5 x ^ 2") = true := by decide +kernel
example : isErr (term "+5 x ^ ") = true := by decide +kernel
example : isErr (term "5x^^2") = true := by decide +kernel
example : okTerm (.term 5 1) (term "+5 x ") = true := by decide +kernel
example : okTerm (.term 5 0) (term "+5 ") = true := by decide +kernel
example : isErr (term "+5^ ") = true := by decide +kernel
example : okTerm (.term (-1) 0) (term "-1") = true := by decide +kernel
example : okTerm (.term 1 1) (term "x") = true := by decide +kernel
example : okTerm (.term (-1) 1) (term "-x") = true := by decide +kernel
example : okTerm (.term 1 1) (term "+x") = true := by decide +kernel
example : okTerm .zeroTerm (term "000") = true := by decide +kernel
example : isErr (term "+") = true ∧ isErr (term "-") = true := by decide +kernel
example : isErr (term "") = true ∧ isErr (term "    ") = true := by decide +kernel

/-- `Term::<f32>::from_str`. -/
abbrev termF (s : String) : Except TermFromStringError (Term (Fl binary32)) :=
  Term.fromStr (parseFl binary32) 64 s.toList

/-- `assert_eq!(Ok(expected), ..)` over `f32`. -/
def okTermF (expected : Term (Fl binary32)) : Except TermFromStringError (Term (Fl binary32)) → Bool
  | .ok t => decide (expected = t)
  | .error _ => false

example : okTermF (.term 1 1) (termF "x") = true := by decide +kernel
example : okTermF (.term (-1) 1) (termF "-x") = true := by decide +kernel
example : okTermF (.term 1 1) (termF "+x") = true := by decide +kernel

/-! ## src/polynomial/find_roots.rs -/

/-- `cbrt(0.0) = 0.0`; no test below calls it with another number. -/
local instance cbrtZero : Cbrt (Fl binary64) := ⟨fun x => if isZero x then x else .nan⟩

/-- In place of `find_roots_sturm`: which of -3 and -2 are roots of the monic polynomial with the given lower
coefficients, in ascending order. -/
def wholeRoots (tail : List (Fl binary64)) : List (Fl binary64) :=
  ([-3, -2].map fl).filter fun x => isZero (Poly.eval ⟨1 :: tail⟩ x)

/-- `assert_eq!(expected, actual)` for `Roots::ManyRealRoots`. -/
def okMany (expected : List Int) : Res (Roots (Fl binary64)) → Bool
  | .ok (.manyRealRoots l) => l == expected.map fl
  | _ => false

-- test_roots_empty, test_roots_constant, test_roots_binomial
example : (match findRoots wholeRoots Fl.round 20 (pf []).termsAsVec (pf []).degree (pf []).eval with
    | .ok .infiniteRoots => true | _ => false) = true := by decide +kernel
example : (match findRoots wholeRoots Fl.round 20 (pf [1]).termsAsVec (pf [1]).degree (pf [1]).eval with
    | .ok .noRoots => true | _ => false) = true := by decide +kernel
example : okMany [-2] ((pf [1, 2]).roots wholeRoots Fl.round 20) = true := by decide +kernel
-- test_roots_cubic_a_equals_one, test_roots_cubic_a_does_not_equal_one
example : (match cubicRoots (fl 1) (fl 6) (fl 12) (fl 8) with
    | .ok (.threeRealRoots a b c) => a == fl (-2) && b == fl (-2) && c == fl (-2) | _ => false) = true := by decide +kernel
example : (match cubicRoots (fl 2) (fl 12) (fl 24) (fl 16) with
    | .ok (.threeRealRoots a b c) => a == fl (-2) && b == fl (-2) && c == fl (-2) | _ => false) = true := by decide +kernel
-- test_cubic_polynomials
example : okMany [-2, -2, -2] ((pf [1, 6, 12, 8]).roots wholeRoots Fl.round 20) = true := by decide +kernel
-- test_quad_no_real_roots
example : (match (pf [1, 1, 1, 1, 1]).roots wholeRoots Fl.round 20 with
    | .ok .noRoots => true | _ => false) = true := by decide +kernel
-- documentation examples of `roots`
example : okMany [0] ((pf [1, 0]).roots wholeRoots Fl.round 20) = true := by decide +kernel
example : okMany [-2, -2] ((pf [1, 4, 4]).roots wholeRoots Fl.round 20) = true := by decide +kernel

/-! ## src/polynomial/poly_math.rs, derivative.rs, traits.rs -/

-- test_poly_add, test_poly_sub
example : (polyAdd [(Poly.zero : Poly Int).orderedTermIter, (pn [1, 2, 3]).orderedTermIter]).eq (pn [1, 2, 3]) = true := by
  decide +kernel
example : (match polyAddSink [(pn [1, 2, 3]).orderedTermIter] (Poly.zero : Poly Int) with
    | (base, .ok ()) => base.eq (pn [1, 2, 3])
    | _ => false) = true := by decide +kernel
example : (polySub (Poly.zero : Poly Int).orderedTermIter [(pn [1, 2, 3]).orderedTermIter]).eq (pn [1, 2, 3]).neg = true := by
  decide +kernel
example : (match polySubSink [(pn [1, 2, 3]).orderedTermIter] (Poly.zero : Poly Int) with
    | (base, .ok ()) => base.eq (pn [1, 2, 3]).neg
    | _ => false) = true := by decide +kernel
-- documentation examples of `add_poly`, `mul_poly_vec`, `sub_poly`
example : (match addPoly (sn [1, 2, 3, 4]).orderedTermIter (Poly.zero : Poly Int) with
    | (sink, .ok ()) => (pn [1, 2, 3, 4]).eq sink
    | _ => false) = true := by decide +kernel
example : (match mulPolyVec (sn [1, 2, 3, 4]).orderedTermIter [] (Poly.zero : Poly Int) with
    | (sink, .ok ()) => Poly.zero.eq sink
    | _ => false) = true := by decide +kernel
example : (match subPoly (sn [1, 2, 3, 4]).orderedTermIter (Poly.zero : Poly Int) with
    | (sink, .ok ()) => (pn [-1, -2, -3, -4]).eq sink
    | _ => false) = true := by decide +kernel
-- test_derivative_macro
example : okP (pn [2, 2]) (pn [1, 2, 3]).derivative = true := by decide +kernel
-- documentation examples of `terms_as_vec` and `is_zero`
example : (pn [1, 0, 2, 3]).termsAsVec = [(1, 3), (2, 1), (3, 0)] := by decide +kernel
example : (pn [0, 0]).isZeroPoly = true ∧ (pn [0, 1]).isZeroPoly = false := by decide +kernel

/-! ## README.md -/

-- parsing and printing
example : (match Poly.fromStr pi32 64 "1+x^2-3+11x".toList with
    | .ok (.ok p) => shows "x^2 + 11x - 2" (p.display (intFmt true ⟨true, 32⟩))
    | _ => false) = true := by decide +kernel
-- integration: the coefficient printed as 1.6666666666666667, the value printed as 2.666666666666667
example : (match (pf [5, 2, 0]).integral with
    | .ok i => i.terms == [Fl.pack false (roundRat 53 (16666666666666667 * 2 ^ 1074) (10 ^ 16)), fl 1, fl 0, fl 0] &&
        (Integral.mk i).eval (fl 0) (fl 1) == Fl.pack false (roundRat 53 (2666666666666667 * 2 ^ 1074) (10 ^ 15))
    | _ => false) = true := by decide +kernel
-- derivation
example : okP (pf [10, 2]) (pf [5, 2, 0]).derivative = true := by decide +kernel
-- the polynomial of the root finding example
example : (match (pf [1, 2]).pow 9 with
    | .ok p => okP (pf [1, 21, 198, 1104, 4032, 10080, 17472, 20736, 16128, 7424, 1536]) (p.mul (pf [1, 3]))
    | _ => false) = true := by decide +kernel

end Rustnomial.Validation
