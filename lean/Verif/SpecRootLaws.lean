import Verif.SpecRoots

/-!
# Specification of the laws of root finding
-/

open Polynomial

namespace Rustnomial

/-- The real numbers among the complex ones. -/
noncomputable def realOnes (zs : List (Cplx ℝ)) : Multiset ℝ := ((zs.filter fun z => decide (z.im = 0)).map (·.re) : List ℝ)

/-- The real roots in an answer, each as often as it is listed. -/
noncomputable def Roots.reals : Roots ℝ → Multiset ℝ
  | .noRoots => 0
  | .noRootsFound => 0
  | .oneRealRoot r => {r}
  | .twoRealRoots r s => {r, s}
  | .threeRealRoots r s t => {r, s, t}
  | .manyRealRoots rs => rs
  | .oneComplexRoot z => realOnes [z]
  | .twoComplexRoots z w => realOnes [z, w]
  | .threeComplexRoots z w v => realOnes [z, w, v]
  | .manyComplexRoots zs => realOnes zs
  | .infiniteRoots => 0
  | .onlyRealRoots rs => rs

/-- The polynomials whose real roots `roots()` lists completely: not zero, not a monomial of degree two or more (there the root 0 is
listed once), and of degree three only if the cubic formula applies (C46). -/
def Solvable (P : ℝ[X]) : Prop :=
  P ≠ 0 ∧ (∀ c n, 2 ≤ n → P ≠ C c * X ^ n) ∧
  (P.natDegree = 3 →
    18 * P.coeff 3 * P.coeff 2 * P.coeff 1 * P.coeff 0 - 4 * P.coeff 2 ^ 3 * P.coeff 0 + P.coeff 2 ^ 2 * P.coeff 1 ^ 2
      - 4 * P.coeff 3 * P.coeff 1 ^ 3 - 27 * P.coeff 3 ^ 2 * P.coeff 0 ^ 2 ≤ 0 ∨
    2 * P.coeff 2 ^ 3 - 9 * P.coeff 3 * P.coeff 2 * P.coeff 1 + 27 * P.coeff 3 ^ 2 * P.coeff 0 = 0)

/-- The answer of a call lists exactly the real roots of `P`, each as often as it is a root. -/
def ListsRoots (res : Res (Roots ℝ)) (P : ℝ[X]) : Prop := ∃ ans, res = .ok ans ∧ ans.reals = P.roots

end Rustnomial
