import Verif.Model.Sparse
import Verif.Spec
import Verif.SpecFloat

/-!
# Specification of polynomials with floating point coefficients, stored as maps
-/

open Polynomial

namespace Rustnomial
variable {f : FlFmt}

/-- The exact polynomial with the values of the stored coefficients. -/
noncomputable def Sparse.ratPoly (p : Sparse (Fl f)) : ℚ[X] :=
  entriesPoly (p.terms.entries.map fun e => (e.1, e.2.toRat))

/-- The exact polynomial with the absolute values of the stored coefficients. -/
noncomputable def Sparse.absPoly (p : Sparse (Fl f)) : ℚ[X] :=
  entriesPoly (p.terms.entries.map fun e => (e.1, |e.2.toRat|))

/-- No stored coefficient is infinite or NaN. -/
def Sparse.AllFinite (p : Sparse (Fl f)) : Prop := ∀ e ∈ p.terms.entries, e.2.isFinite = true

instance (p : Sparse (Fl f)) : Decidable p.AllFinite :=
  inferInstanceAs (Decidable (∀ e ∈ p.terms.entries, e.2.isFinite = true))

end Rustnomial
