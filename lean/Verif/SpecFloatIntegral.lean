import Mathlib.Algebra.Polynomial.Derivative
import Verif.SpecFloatBuild

/-!
# Specification: definite integrals in floating point
-/

open Polynomial

namespace Rustnomial
namespace Fl
variable {f : FlFmt}

/-- `r` is what `integral()` returns for a `Polynomial`, `LinearBinomial`, `QuadraticTrinomial` or `ArrayPolynomial`
with finite coefficients and the value `P`. -/
def IsDenseIntegral [FromUsizeCont (Fl f)] [FromUsizeExact (Fl f)] (P : ℚ[X]) (r : Poly (Fl f)) : Prop :=
  (∃ p : Poly (Fl f), p.integral = .ok r ∧ FloatSink.AllFinite p ∧ FloatSink.ratPoly p = P) ∨
  (∃ b : LinearBinomial (Fl f), b.integral = .ok r ∧ FloatSink.AllFinite b ∧ FloatSink.ratPoly b = P) ∨
  (∃ t : QuadraticTrinomial (Fl f), t.integral = .ok r ∧ FloatSink.AllFinite t ∧ FloatSink.ratPoly t = P) ∨
  ∃ (size : Nat) (a : ArrayPoly (Fl f) size), a.integral = .ok r ∧ FloatSink.AllFinite a ∧ FloatSink.ratPoly a = P

/-- `r` is what `integral()` returns for a `SparsePolynomial` or `Monomial` with finite coefficients, the value `P` and
degrees below `usize::MAX - 1`. -/
def IsSparseIntegral [FromUsizeExact (Fl f)] (P : ℚ[X]) (r : Sparse (Fl f)) : Prop :=
  (∃ p : Sparse (Fl f), p.integral = .ok r ∧ FloatSink.AllFinite p ∧ FloatSink.ratPoly p = P ∧
    ∀ e ∈ p.terms.entries, e.1 + 1 < 2 ^ 64 - 1) ∨
  (∃ m : Monomial (Fl f), m.integral = .ok r ∧ FloatSink.AllFinite m ∧ FloatSink.ratPoly m = P ∧ m.deg + 1 < 2 ^ 64 - 1)

/-- `F` is the antiderivative of `P` without constant and `G` has the absolute values of its coefficients. -/
structure IsAntiderivative (P F G : ℚ[X]) : Prop where
  deriv : derivative F = P
  zero : F.coeff 0 = 0
  abs : ∀ k, G.coeff k = |F.coeff k|

end Fl
end Rustnomial
