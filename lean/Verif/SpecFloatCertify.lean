import Verif.SpecFloatSparse
import Verif.Model.FloatRoots
import Mathlib.Algebra.BigOperators.Group.Finset.Basic
import Mathlib.Algebra.Polynomial.Coeff

/-!
# Specification: nearby polynomials, and a test of the sign of a computed value
-/

open Polynomial

namespace Rustnomial
namespace Fl
variable {f : FlFmt}

/-- The polynomial `Q` is near `P`: every coefficient differs by at most the fraction `g` of itself, the constant one by `e` more. -/
def NearPoly (g e : ℚ) (P Q : ℚ[X]) : Prop := ∀ i, |Q.coeff i - P.coeff i| ≤ g * |P.coeff i| + if i = 0 then e else 0

/-- Relative error of evaluating a polynomial stored with `n` coefficients. -/
def evalGamma (f : FlFmt) (n : Nat) : ℚ := (1 + uro f) ^ (2 * (n - 1) + 1) - 1

/-- Absolute error of underflows in evaluating a polynomial stored with `n` coefficients at `x`. -/
def evalUnder (f : FlFmt) (n : Nat) (x : ℚ) : ℚ := (1 + uro f) * eta f * ∑ i ∈ Finset.range (n - 1), ((1 + uro f) ^ 2 * |x|) ^ i

/-- The polynomial with the absolute values of the coefficients, as a caller makes it. -/
def absCoeffs (p : Poly (Fl f)) : Poly (Fl f) := ⟨p.terms.map abs⟩

/-- The test: `p.eval(x)` and the value of `absCoeffs p` at `|x|` are finite, and the first exceeds its possible error, estimated by the
second. -/
def SignTest (p : Poly (Fl f)) (x : Fl f) : Prop :=
  (p.eval x).isFinite = true ∧ ((absCoeffs p).eval (abs x)).isFinite = true ∧
    evalGamma f p.terms.length * ((absCoeffs p).eval (abs x)).toRat + evalUnder f p.terms.length x.toRat <
      (1 - evalGamma f p.terms.length) * |(p.eval x).toRat|

instance (p : Poly (Fl f)) (x : Fl f) : Decidable (SignTest p x) := by unfold SignTest; infer_instance

end Fl
end Rustnomial
