import Verif.SpecFloatFixed
import Verif.SpecFloatRoots
import Mathlib.Algebra.Polynomial.Basic

/-!
# Specification of factorisations computed in floating point
-/

namespace Rustnomial
open Polynomial
variable {f : FlFmt}

/-- The complex number that a pair of floats stands for. -/
noncomputable def Cplx.flC (z : Cplx (Fl f)) : ℂ := ⟨(z.re.toRat : ℝ), (z.im.toRat : ℝ)⟩

/-- All four floats of a linear binomial with complex coefficients are finite. -/
def CplxFinite (l : LinearBinomial (Cplx (Fl f))) : Prop :=
  l.c0.re.isFinite = true ∧ l.c0.im.isFinite = true ∧ l.c1.re.isFinite = true ∧ l.c1.im.isFinite = true

/-- The polynomial that a linear binomial with complex coefficients stands for. -/
noncomputable def LinearBinomial.flcPoly (l : LinearBinomial (Cplx (Fl f))) : ℂ[X] := C l.c0.flC * X + C l.c1.flC

end Rustnomial
