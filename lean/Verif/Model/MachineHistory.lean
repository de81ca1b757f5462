import Verif.Model.History
import Verif.Model.Machine

/-!
# Histories of mutations over machine integers

As `Model/History.lean`, with the arithmetic of a machine type.  Vectors are unbounded here (their room is the subject of
`Model/MachineBuild.lean`), and shifts are the ones of `Model/Dense.lean` and `Model/Sparse.lean`, for they do no arithmetic on
coefficients.
-/

namespace Rustnomial

/-- One operation on a `Polynomial`: `add_term` (src/polynomial/polynomial.rs 315-323), `try_sub_term`
(247-260, the `Result` is ignored), `+=` (771-787), `-=` (690-708), `*=` (842-844), scalar `*=` (865-869),
`<<=` (907-913), `>>=` (937-948), `trim` (164-169), `set_to_zero` (234-236). -/
def Poly.stepM (A : Arith) (canNegate : Bool) (p : Poly Int) : Op (Poly Int) Int → Res (Poly Int)
  | .addTerm c d => p.addTermM A c d
  | .trySubTerm c d => do
    let r ← p.trySubTermM A canNegate c d
    .ok r.1
  | .addAssign q => p.addAssignM A q
  | .subAssign q => p.subM A q
  | .mulAssign q => p.mulM A q
  | .mulAssignScalar c => p.mulAssignScalarM A c
  | .shlAssign k => p.shlAssign k
  | .shrAssign k => p.shrAssign k
  | .trim => .ok p.trim
  | .setToZero => .ok p.setToZero

/-- One operation on a `SparsePolynomial`: `add_term` (src/polynomial/sparsepolynomial.rs 272-285),
`try_sub_term` (169-188), `+=` (797-808), `-=` (757-768), `*=` (828-830), scalar `*=` (867-871), `<<=`
(919-930), `>>=` (953-966), `trim` (311-313), `set_to_zero` (156-158). -/
def Sparse.stepM (A : Arith) (canNegate : Bool) (p : Sparse Int) : Op (Sparse Int) Int → Res (Sparse Int)
  | .addTerm c d => p.addTermM A c d
  | .trySubTerm c d => do
    let r ← p.trySubTermM A canNegate c d
    .ok r.1
  | .addAssign q => p.addAssignM A q
  | .subAssign q => p.subM A q
  | .mulAssign q => p.mulM A q
  | .mulAssignScalar c => p.mulAssignScalarM A c
  | .shlAssign k => p.shl k
  | .shrAssign k => p.shr k
  | .trim => .ok p.trim
  | .setToZero => .ok p.setToZero

end Rustnomial
