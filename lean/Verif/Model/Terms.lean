import Verif.Num

/-!
# `Degree` and `Term` (src/terms.rs)
-/

namespace Rustnomial

/-- `Degree` (src/terms.rs 11-16). -/
inductive Degree where
  | negInf
  | num (n : Nat)
  deriving DecidableEq, Repr

/-- `Term` (src/terms.rs 20-25). -/
inductive Term (N : Type) where
  | zeroTerm
  | term (coeff : N) (degree : Nat)
  deriving DecidableEq, Repr

/-- `Term::new` (src/terms.rs 27-35). -/
def Term.new {N : Type} [Zero N] [NumZero N] (coeff : N) (degree : Nat) : Term N :=
  if isZero coeff then .zeroTerm else .term coeff degree

/-- `TryAddError` (src/err.rs 3-8). -/
inductive TryAddError where
  | degreeOutOfBounds
  | tooManyTerms
  | canNotNegate
  deriving DecidableEq, Repr

/-- `SizedPolynomial::is_zero` default method (src/polynomial/traits.rs 48-50). -/
def Degree.isZeroPoly (d : Degree) : Bool := decide (d = .negInf)

end Rustnomial
