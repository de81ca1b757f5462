import Verif.Model.Numerics
import Mathlib.Algebra.Polynomial.Degree.Definitions

/-!
# Specification of polynomial division with integers of bounded size

The values which the rounds of a polynomial division compute, in terms of the polynomials alone.
-/

open Polynomial

namespace Rustnomial

/-- The values of one round of a division by `B` are values of the type: the term `s * x^k` of the quotient, its products
with the coefficients of `B`, and the coefficients of what remains of `R`. -/
def RoundFits (t : IntTy) (R B : ℤ[X]) (s : ℤ) (k : ℕ) : Prop :=
  t.InRange s ∧ (∀ j, t.InRange (s * B.coeff j)) ∧ ∀ d, t.InRange ((R - C s * X ^ k * B).coeff d)

/-- The terms of `Q` above `x^k`. -/
noncomputable def termsAbove (Q : ℤ[X]) (k : ℕ) : ℤ[X] := ∑ i ∈ Q.support with k < i, C (Q.coeff i) * X ^ i

/-- The values of all rounds of the division of `P` by `B` which finds the terms of `Q`, the highest first. -/
def RoundsFit (t : IntTy) (P B Q : ℤ[X]) : Prop :=
  ∀ k, Q.coeff k ≠ 0 → RoundFits t (P - termsAbove Q k * B) B (Q.coeff k) k

/-- Division of `P` by `B` over the integers finds the terms of `Q` and is left with `T`, of no lower degree than `B`, whose
leading coefficient is not a multiple of that of `B`. -/
def StuckAt (P B Q T : ℤ[X]) : Prop :=
  P = Q * B + T ∧ B.degree ≤ T.degree ∧ ¬ B.leadingCoeff ∣ T.leadingCoeff ∧
  ∀ k, Q.coeff k ≠ 0 → T.natDegree < k + B.natDegree

/-- A quotient `Q` and a remainder `T` of `P` by `B` modulo `2 ^ bits`, of values of the type: `P ≡ Q * B + T`, `T` is of lower
degree than `B`, and the products of the coefficients of `Q` and the leading coefficient of `B` do not wrap. -/
def IsWrapQuot (t : IntTy) (P B Q T : ℤ[X]) : Prop :=
  (∀ d, t.InRange (Q.coeff d)) ∧ (∀ d, t.InRange (T.coeff d)) ∧ T.degree < B.degree ∧
  (∀ d, (2 : ℤ) ^ t.bits ∣ (P - (Q * B + T)).coeff d) ∧ ∀ k, t.InRange (Q.coeff k * B.leadingCoeff)

end Rustnomial
