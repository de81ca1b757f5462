import Verif.Spec
import Verif.Model.FindRoots
import Mathlib.Algebra.Polynomial.Roots

/-!
# Specification of the root finder
-/

open Polynomial

namespace Rustnomial

/-- The external solver is exact: for the monic polynomial `X^n + a₁X^(n-1) + … + aₙ` it is given
as `[a₁, …, aₙ]` it answers each real root once. -/
def ExactOracle (oracle : List ℝ → List ℝ) : Prop :=
  ∀ as, (oracle as).Nodup ∧ ∀ r, r ∈ oracle as ↔ (X ^ as.length + descPoly as).IsRoot r

/-- Outcome of the root finder on a polynomial of degree `n` with the real roots `l`. -/
noncomputable def rootsAnswer (n : Nat) (l : List ℝ) : Roots ℝ :=
  if l = [] then .noRoots else if l.length = n then .manyRealRoots l else .onlyRealRoots l

end Rustnomial
