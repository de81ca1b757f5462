import Verif.Model.Sparse

/-!
# Histories of mutations

Sequences of in-place operations applied to one value.
-/

namespace Rustnomial

/-- The mutating operations of `Polynomial` and `SparsePolynomial`; `P` is the type of operands. -/
inductive Op (P N : Type) where
  | addTerm (c : N) (d : Nat)
  | trySubTerm (c : N) (d : Nat)
  | addAssign (q : P)
  | subAssign (q : P)
  | mulAssign (q : P)
  | mulAssignScalar (c : N)
  | shlAssign (k : Int)
  | shrAssign (k : Int)
  | trim
  | setToZero

/-- One operation on a `Polynomial`: `add_term` (src/polynomial/polynomial.rs 315-323), `try_sub_term`
(247-260, the `Result` is ignored), `+=` (771-787), `-=` (690-708), `*=` (842-844), scalar `*=` (865-869),
`<<=` (907-913), `>>=` (937-948), `trim` (164-169), `set_to_zero` (234-236). -/
def Poly.step {N : Type} [Zero N] [NumZero N] [Add N] [Sub N] [Neg N] [Mul N] [CanNegate N] (p : Poly N) :
    Op (Poly N) N → Res (Poly N)
  | .addTerm c d => .ok (p.addTerm c d)
  | .trySubTerm c d => .ok (p.trySubTerm c d).1
  | .addAssign q => p.addAssign q
  | .subAssign q => p.sub q
  | .mulAssign q => p.mul q
  | .mulAssignScalar c => .ok (p.mulAssignScalar c)
  | .shlAssign k => p.shlAssign k
  | .shrAssign k => p.shrAssign k
  | .trim => .ok p.trim
  | .setToZero => .ok p.setToZero

/-- One operation on a `SparsePolynomial`: `add_term` (src/polynomial/sparsepolynomial.rs 272-285),
`try_sub_term` (169-188), `+=` (797-808), `-=` (757-768), `*=` (828-830), scalar `*=` (867-871), `<<=`
(919-930), `>>=` (953-966), `trim` (311-313), `set_to_zero` (156-158). -/
def Sparse.step {N : Type} [Zero N] [NumZero N] [Add N] [Sub N] [Neg N] [Mul N] [CanNegate N] (p : Sparse N) :
    Op (Sparse N) N → Res (Sparse N)
  | .addTerm c d => .ok (p.addTerm c d)
  | .trySubTerm c d => .ok (p.trySubTerm c d).1
  | .addAssign q => .ok (p.addAssign q)
  | .subAssign q => .ok (p.sub q)
  | .mulAssign q => .ok (p.mul q)
  | .mulAssignScalar c => .ok (p.mulAssignScalar c)
  | .shlAssign k => p.shl k
  | .shrAssign k => p.shr k
  | .trim => .ok p.trim
  | .setToZero => .ok p.setToZero

/-- A sequence of operations, one after the other. -/
def runOps {S O : Type} (step : S → O → Res S) (s : S) (ops : List O) : Res S := ops.foldlM step s

end Rustnomial
