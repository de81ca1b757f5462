import Verif.Spec
import Verif.Model.Expr
import Mathlib.Algebra.Polynomial.Derivative
import Mathlib.Algebra.Polynomial.FieldDivision

/-!
# Specification of expressions
-/

open Polynomial

namespace Rustnomial

/-- All numbers in the expression satisfy `ok`. -/
def RExpr.Numbers {N : Type} (ok : N → Prop) : RExpr N → Prop
  | .lit cs => ∀ c ∈ cs, ok c
  | .neg a => a.Numbers ok
  | .add a b => a.Numbers ok ∧ b.Numbers ok
  | .sub a b => a.Numbers ok ∧ b.Numbers ok
  | .mul a b => a.Numbers ok ∧ b.Numbers ok
  | .pow a _ => a.Numbers ok
  | .scale a c => a.Numbers ok ∧ ok c
  | .shl a _ => a.Numbers ok

section
variable {R : Type} [CommRing R]

/-- The polynomial an expression denotes. -/
noncomputable def RExpr.den : RExpr R → R[X]
  | .lit cs => descPoly cs
  | .neg a => -a.den
  | .add a b => a.den + b.den
  | .sub a b => a.den - b.den
  | .mul a b => a.den * b.den
  | .pow a n => a.den ^ n
  | .scale a c => C c * a.den
  | .shl a k => a.den * X ^ k

/-- The same expression computed with numbers, `x` standing for the variable. -/
def RExpr.at (x : R) : RExpr R → R
  | .lit cs => cs.foldl (fun v c => v * x + c) 0
  | .neg a => -a.at x
  | .add a b => a.at x + b.at x
  | .sub a b => a.at x - b.at x
  | .mul a b => a.at x * b.at x
  | .pow a n => a.at x ^ n
  | .scale a c => c * a.at x
  | .shl a k => a.at x * x ^ k

/-- Every step of the computation is possible: `resOk` of the result of a negation, sum, difference or multiple, `mulOk` of the factors of
a product, `powOk` of the base and the exponent of a power. -/
def RExpr.Goes (resOk : R[X] → Prop) (mulOk : R[X] → R[X] → Prop) (powOk : R[X] → Nat → Prop) : RExpr R → Prop
  | .lit _ => True
  | .neg a => a.Goes resOk mulOk powOk ∧ resOk (-a.den)
  | .add a b => a.Goes resOk mulOk powOk ∧ b.Goes resOk mulOk powOk ∧ resOk (a.den + b.den)
  | .sub a b => a.Goes resOk mulOk powOk ∧ b.Goes resOk mulOk powOk ∧ resOk (a.den - b.den)
  | .mul a b => a.Goes resOk mulOk powOk ∧ b.Goes resOk mulOk powOk ∧ mulOk a.den b.den
  | .pow a n => a.Goes resOk mulOk powOk ∧ powOk a.den n
  | .scale a c => a.Goes resOk mulOk powOk ∧ resOk (C c * a.den)
  | .shl a _ => a.Goes resOk mulOk powOk

end

section
variable {K : Type} [Field K]

/-- The polynomial an expression over a field denotes; quotient and remainder are the Euclidean ones. -/
noncomputable def FExpr.den : FExpr K → K[X]
  | .lit cs => descPoly cs
  | .neg a => -a.den
  | .add a b => a.den + b.den
  | .sub a b => a.den - b.den
  | .mul a b => a.den * b.den
  | .pow a n => a.den ^ n
  | .scale a c => C c * a.den
  | .shl a k => a.den * X ^ k
  | .deriv a => derivative a.den
  | .quo a b => a.den / b.den
  | .rem a b => a.den % b.den

/-- Nowhere in the expression are two zero polynomials multiplied, zero raised to a power from 2 on, or a division by zero made. -/
def FExpr.Defined : FExpr K → Prop
  | .lit _ => True
  | .neg a => a.Defined
  | .add a b => a.Defined ∧ b.Defined
  | .sub a b => a.Defined ∧ b.Defined
  | .mul a b => a.Defined ∧ b.Defined ∧ ¬ (a.den = 0 ∧ b.den = 0)
  | .pow a n => a.Defined ∧ ¬ (a.den = 0 ∧ 2 ≤ n)
  | .scale a _ => a.Defined
  | .shl a _ => a.Defined
  | .deriv a => a.Defined
  | .quo a b => a.Defined ∧ b.Defined ∧ b.den ≠ 0
  | .rem a b => a.Defined ∧ b.Defined ∧ b.den ≠ 0

end
end Rustnomial
