import Verif.Model.MachineHistory
import Verif.Model.FixedHistory

/-!
# Histories of mutations over machine integers, with the results of `try_sub_term`

As `Model/MachineHistory.lean`, but the `Result` of every step is kept: a refused term is not the end, the caller goes on.
-/

namespace Rustnomial

/-- One operation on a `Polynomial` with its result: `try_sub_term` (src/polynomial/polynomial.rs 247-260) gives a `Result`, the others
(see `Poly.stepM`) always succeed. -/
def Poly.stepLogM (A : Arith) (canNegate : Bool) (p : Poly Int) : Op (Poly Int) Int → Res (Poly Int × Except TryAddError Unit)
  | .trySubTerm c d => p.trySubTermM A canNegate c d
  | o => do
    let r ← p.stepM A canNegate o
    .ok (r, .ok ())

/-- One operation on a `SparsePolynomial` with its result: `try_sub_term` (src/polynomial/sparsepolynomial.rs 169-188) gives a `Result`, the
others (see `Sparse.stepM`) always succeed. -/
def Sparse.stepLogM (A : Arith) (canNegate : Bool) (p : Sparse Int) : Op (Sparse Int) Int → Res (Sparse Int × Except TryAddError Unit)
  | .trySubTerm c d => p.trySubTermM A canNegate c d
  | o => do
    let r ← p.stepM A canNegate o
    .ok (r, .ok ())

end Rustnomial
