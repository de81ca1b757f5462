import Mathlib.Algebra.Polynomial.FieldDivision

/-!
# What Euclid's algorithm should find
-/

open Polynomial

namespace Rustnomial

/-- `G` is a greatest common divisor of `P` and `Q`: it divides both, and everything dividing both divides it. -/
def IsGcd {K : Type} [Field K] (G P Q : K[X]) : Prop := G ∣ P ∧ G ∣ Q ∧ ∀ D : K[X], D ∣ P → D ∣ Q → D ∣ G

end Rustnomial
