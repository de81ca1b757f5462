import Verif.SpecFixed
import Verif.SpecFloat

/-!
# Specification of the fixed-size polynomials with floating point coefficients
-/

open Polynomial

namespace Rustnomial
variable {f : FlFmt}

/-- The exact polynomial with the value of the stored coefficient. -/
noncomputable def Monomial.ratPoly (m : Monomial (Fl f)) : ℚ[X] := C m.coefficient.toRat * X ^ m.deg

/-- The exact polynomial with the values of the stored coefficients. -/
noncomputable def LinearBinomial.ratPoly (b : LinearBinomial (Fl f)) : ℚ[X] := C b.c0.toRat * X + C b.c1.toRat

/-- The exact polynomial with the values of the stored coefficients. -/
noncomputable def QuadraticTrinomial.ratPoly (t : QuadraticTrinomial (Fl f)) : ℚ[X] :=
  C t.c0.toRat * X ^ 2 + C t.c1.toRat * X + C t.c2.toRat

/-- The stored coefficients are numbers. -/
def LinearBinomial.AllFinite (b : LinearBinomial (Fl f)) : Prop := b.c0.isFinite = true ∧ b.c1.isFinite = true

/-- The stored coefficients are numbers. -/
def QuadraticTrinomial.AllFinite (t : QuadraticTrinomial (Fl f)) : Prop :=
  t.c0.isFinite = true ∧ t.c1.isFinite = true ∧ t.c2.isFinite = true

end Rustnomial
