import Verif.Model.Terms
import Mathlib.Algebra.Polynomial.Basic
import Mathlib.Algebra.Polynomial.Coeff
import Mathlib.Algebra.Polynomial.Degree.Defs

/-!
# Specification: which polynomial does a value represent?

The reference is Mathlib's `Polynomial R` (`R[X]`).
-/

open Polynomial

namespace Rustnomial

/-- The polynomial with the given coefficients in descending order of degree:
`[a, b, c] ↦ a X^2 + b X + c`. -/
noncomputable def descPoly {R : Type} [Semiring R] : List R → R[X]
  | [] => 0
  | c :: cs => C c * X ^ cs.length + descPoly cs

/-- The polynomial which is the sum of the given `(coefficient, degree)` terms. -/
noncomputable def termsPoly {R : Type} [Semiring R] (ts : List (R × Nat)) : R[X] :=
  (ts.map fun t => C t.1 * X ^ t.2).sum

/-- The polynomial with the given `(degree, coefficient)` entries (the contents of a map). -/
noncomputable def entriesPoly {R : Type} [Semiring R] (es : List (Nat × R)) : R[X] :=
  (es.map fun e => C e.2 * X ^ e.1).sum

/-- `Degree` as Mathlib's `WithBot ℕ` valued degree. -/
def Degree.toWithBot : Degree → WithBot ℕ
  | .negInf => ⊥
  | .num n => (n : WithBot ℕ)

/-- The polynomial a `Term` denotes. -/
noncomputable def Term.poly {R : Type} [Semiring R] : Term R → R[X]
  | .zeroTerm => 0
  | .term c d => C c * X ^ d

/-- A list of `(coefficient, degree)` pairs is *the* ordered list of non-zero terms of `P`:
strictly descending degrees, and exactly the non-zero coefficients. -/
def IsTermListOf {R : Type} [Semiring R] (ts : List (R × Nat)) (P : R[X]) : Prop :=
  ts.Pairwise (fun s t => s.2 > t.2) ∧ ∀ c d, (c, d) ∈ ts ↔ c ≠ 0 ∧ P.coeff d = c

end Rustnomial
