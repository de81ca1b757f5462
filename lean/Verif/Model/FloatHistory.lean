import Verif.Model.History
import Verif.Model.FloatText

/-!
# Histories of mutations with scalar division
-/

namespace Rustnomial

/-- The mutating operations of `Model/History.lean` and `/=` by a scalar. -/
inductive OpDiv (P N : Type) where
  | op (o : Op P N)
  | divAssignScalar (c : N)

/-- One operation on a `Polynomial`: those of `Poly.step`, and scalar `/=` (src/polynomial/polynomial.rs 884-888). -/
def Poly.stepDiv {N : Type} [Zero N] [NumZero N] [Add N] [Sub N] [Neg N] [Mul N] [CanNegate N] [RDiv N] (p : Poly N) :
    OpDiv (Poly N) N → Res (Poly N)
  | .op o => p.step o
  | .divAssignScalar c => p.divAssignScalar c

/-- One operation on a `SparsePolynomial`: those of `Sparse.step`, and scalar `/=`
(src/polynomial/sparsepolynomial.rs 894-898). -/
def Sparse.stepDiv {N : Type} [Zero N] [NumZero N] [Add N] [Sub N] [Neg N] [Mul N] [CanNegate N] [RDiv N]
    (p : Sparse N) : OpDiv (Sparse N) N → Res (Sparse N)
  | .op o => p.step o
  | .divAssignScalar c => p.divAssignScalar c

end Rustnomial
