import Verif.SpecFloat
import Verif.SpecFloatSparse
import Verif.SpecFloatFixed
import Verif.Model.PolyMath
import Verif.Model.FloatText

/-!
# Specification of building float polynomials term by term
-/

open Polynomial

namespace Rustnomial
variable {f : FlFmt}

/-- The exact polynomial of the stored values, and whether all of them are finite, for the types to which terms can be
added. -/
class FloatSink (f : outParam FlFmt) (S : Type) where
  ratPoly : S → ℚ[X]
  AllFinite : S → Prop

noncomputable instance : FloatSink f (Poly (Fl f)) := ⟨fun p => descPoly (p.terms.map Fl.toRat), fun p => ∀ c ∈ p.terms, c.isFinite = true⟩

noncomputable instance : FloatSink f (Sparse (Fl f)) := ⟨Sparse.ratPoly, Sparse.AllFinite⟩

noncomputable instance : FloatSink f (Monomial (Fl f)) := ⟨Monomial.ratPoly, fun m => m.coefficient.isFinite = true⟩

noncomputable instance : FloatSink f (LinearBinomial (Fl f)) := ⟨LinearBinomial.ratPoly, LinearBinomial.AllFinite⟩

noncomputable instance : FloatSink f (QuadraticTrinomial (Fl f)) := ⟨QuadraticTrinomial.ratPoly, QuadraticTrinomial.AllFinite⟩

noncomputable instance {size : Nat} : FloatSink f (ArrayPoly (Fl f) size) :=
  ⟨fun p => descPoly (p.coefficients.map Fl.toRat), fun p => ∀ c ∈ p.coefficients, c.isFinite = true⟩

/-- The sum of terms with the values of float coefficients. -/
noncomputable def ratTerms (ts : List (Fl f × Nat)) : ℚ[X] := termsPoly (ts.map fun t => (t.1.toRat, t.2))

/-- The sum of terms with the absolute values of float coefficients. -/
noncomputable def absTerms (ts : List (Fl f × Nat)) : ℚ[X] := termsPoly (ts.map fun t => (|t.1.toRat|, t.2))

end Rustnomial
