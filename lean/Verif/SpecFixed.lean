import Verif.Spec
import Verif.Model.Fixed

/-!
# Specification: the polynomials represented by the fixed-size types
-/

open Polynomial

namespace Rustnomial
variable {R : Type} [Semiring R]

/-- The polynomial a `Monomial` represents. -/
noncomputable def Monomial.poly (m : Monomial R) : R[X] := C m.coefficient * X ^ m.deg

/-- The polynomial a `LinearBinomial` represents. -/
noncomputable def LinearBinomial.poly (b : LinearBinomial R) : R[X] := C b.c0 * X + C b.c1

/-- The polynomial a `QuadraticTrinomial` represents. -/
noncomputable def QuadraticTrinomial.poly (t : QuadraticTrinomial R) : R[X] :=
  C t.c0 * X ^ 2 + C t.c1 * X + C t.c2

end Rustnomial
