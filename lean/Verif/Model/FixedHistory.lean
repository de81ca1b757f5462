import Verif.Model.Assign
import Verif.Model.PolyMath
import Verif.Model.MachineBuild

/-!
# Histories of mutations of the fixed-size types

Sequences of in-place operations applied to one `Monomial`, `LinearBinomial`, `QuadraticTrinomial` or `ArrayPolynomial`.  A
refused term is not the end: the caller keeps the `Err` and goes on.
-/

namespace Rustnomial

/-- The operations of every `MutablePolynomial` (src/polynomial/traits.rs 58-75) and `set_to_zero`
(52-53). -/
inductive TermOp (N : Type) where
  | tryAddTerm (c : N) (d : Nat)
  | trySubTerm (c : N) (d : Nat)
  | setToZero

/-- The operations of `LinearBinomial` and `QuadraticTrinomial`; `>>=` takes a `u32`. -/
inductive BoundedOp (P N : Type) where
  | term (o : TermOp N)
  | addAssign (q : P)
  | subAssign (q : P)
  | mulAssignScalar (c : N)
  | shrAssign (k : Nat)

/-- The operations of `Monomial`; `<<=` and `>>=` take an `i32`. -/
inductive MonomialOp (P N : Type) where
  | term (o : TermOp N)
  | mulAssign (q : P)
  | mulAssignScalar (c : N)
  | shlAssign (k : Int)
  | shrAssign (k : Int)

/-- A sequence of operations, one after the other, with the results of all of them. -/
def runLog {S O : Type} (step : S → O → Res (S × Except TryAddError Unit)) : S → List O → Res (S × List (Except TryAddError Unit))
  | s, [] => .ok (s, [])
  | s, o :: ops => do
    let r ← step s o
    let q ← runLog step r.1 ops
    .ok (q.1, r.2 :: q.2)

section
variable {N : Type} [Zero N] [NumZero N] [Add N] [Sub N] [Mul N]

/-- One operation on an `ArrayPolynomial`: `try_add_term`, `try_sub_term` (src/polynomial/array_polynomial.rs 36-52),
`set_to_zero` (259-261). -/
def ArrayPoly.step {size : Nat} (p : ArrayPoly N size) : TermOp N → Res (ArrayPoly N size × Except TryAddError Unit)
  | .tryAddTerm c d => .ok (p.tryAddTerm c d)
  | .trySubTerm c d => .ok (p.trySubTerm c d)
  | .setToZero => .ok (.zero, .ok ())

/-- One operation on a `LinearBinomial`: `try_add_term`, `try_sub_term` (src/polynomial/binomial.rs 160-176), `set_to_zero`
(151-153), `+=` (338-343), `-=` (314-322), scalar `*=` (386-391), `>>=` (471-485). -/
def LinearBinomial.step (b : LinearBinomial N) : BoundedOp (LinearBinomial N) N →
    Res (LinearBinomial N × Except TryAddError Unit)
  | .term (.tryAddTerm c d) => .ok (b.tryAddTerm c d)
  | .term (.trySubTerm c d) => .ok (b.trySubTerm c d)
  | .term .setToZero => .ok (b.setToZero, .ok ())
  | .addAssign q => .ok (b.addAssign q, .ok ())
  | .subAssign q => .ok (b.subAssign q, .ok ())
  | .mulAssignScalar c => .ok (b.mulAssignScalar c, .ok ())
  | .shrAssign k => .ok (b.shrAssign k, .ok ())

/-- One operation on a `QuadraticTrinomial`: `try_add_term`, `try_sub_term` (src/polynomial/trinomial.rs 194-210), `set_to_zero`
(185-187), `+=` (392-398), `-=` (366-375), scalar `*=` (445-451), `>>=` (537-558). -/
def QuadraticTrinomial.step (b : QuadraticTrinomial N) : BoundedOp (QuadraticTrinomial N) N →
    Res (QuadraticTrinomial N × Except TryAddError Unit)
  | .term (.tryAddTerm c d) => .ok (b.tryAddTerm c d)
  | .term (.trySubTerm c d) => .ok (b.trySubTerm c d)
  | .term .setToZero => .ok (b.setToZero, .ok ())
  | .addAssign q => .ok (b.addAssign q, .ok ())
  | .subAssign q => .ok (b.subAssign q, .ok ())
  | .mulAssignScalar c => .ok (b.mulAssignScalar c, .ok ())
  | .shrAssign k => .ok (b.shrAssign k, .ok ())

/-- One operation on a `Monomial`: `try_add_term`, `try_sub_term` (src/polynomial/monomial.rs 137-161), `set_to_zero`
(128-130), `*=` (448-453), scalar `*=` (481-485), `<<=` (513-521), `>>=` (540-554). -/
def Monomial.step (m : Monomial N) : MonomialOp (Monomial N) N → Res (Monomial N × Except TryAddError Unit)
  | .term (.tryAddTerm c d) => .ok (m.tryAddTerm c d)
  | .term (.trySubTerm c d) => .ok (m.trySubTerm c d)
  | .term .setToZero => .ok (m.setToZero, .ok ())
  | .mulAssign q => .ok (m.mulAssign q, .ok ())
  | .mulAssignScalar c => .ok (m.mulAssignScalar c, .ok ())
  | .shlAssign k => do
    let r ← m.shlAssign k
    .ok (r, .ok ())
  | .shrAssign k => do
    let r ← m.shrAssign k
    .ok (r, .ok ())

end

/-- `ArrayPoly.step` over a machine type: `try_add_term`, `try_sub_term` (src/polynomial/array_polynomial.rs 36-52),
`set_to_zero` (259-261). -/
def ArrayPoly.stepM (E : Env) {size : Nat} (p : ArrayPoly Int size) : TermOp Int → Res (ArrayPoly Int size × Except TryAddError Unit)
  | .tryAddTerm c d => p.tryAddTermE E c d
  | .trySubTerm c d => p.trySubTermE E c d
  | .setToZero => .ok (.zero, .ok ())

/-- `LinearBinomial.step` over a machine type: `try_add_term`, `try_sub_term` (src/polynomial/binomial.rs 160-176), `set_to_zero`
(151-153), `+=` (338-343), `-=` (314-322), scalar `*=` (386-391), `>>=` (471-485). -/
def LinearBinomial.stepM (A : Arith) (b : LinearBinomial Int) : BoundedOp (LinearBinomial Int) Int →
    Res (LinearBinomial Int × Except TryAddError Unit)
  | .term (.tryAddTerm c d) => b.tryAddTermM A c d
  | .term (.trySubTerm c d) => b.trySubTermM A c d
  | .term .setToZero => .ok (b.setToZero, .ok ())
  | .addAssign q => do
    let r ← b.addM A q
    .ok (r, .ok ())
  | .subAssign q => do
    let r ← b.subM A q
    .ok (r, .ok ())
  | .mulAssignScalar c => do
    let r ← b.mulScalarM A c
    .ok (r, .ok ())
  | .shrAssign k => .ok (b.shrAssign k, .ok ())

/-- `QuadraticTrinomial.step` over a machine type: `try_add_term`, `try_sub_term` (src/polynomial/trinomial.rs 194-210),
`set_to_zero` (185-187), `+=` (392-398), `-=` (366-375), scalar `*=` (445-451), `>>=` (537-558). -/
def QuadraticTrinomial.stepM (A : Arith) (b : QuadraticTrinomial Int) : BoundedOp (QuadraticTrinomial Int) Int →
    Res (QuadraticTrinomial Int × Except TryAddError Unit)
  | .term (.tryAddTerm c d) => b.tryAddTermM A c d
  | .term (.trySubTerm c d) => b.trySubTermM A c d
  | .term .setToZero => .ok (b.setToZero, .ok ())
  | .addAssign q => do
    let r ← b.addM A q
    .ok (r, .ok ())
  | .subAssign q => do
    let r ← b.subM A q
    .ok (r, .ok ())
  | .mulAssignScalar c => do
    let r ← b.mulScalarM A c
    .ok (r, .ok ())
  | .shrAssign k => .ok (b.shrAssign k, .ok ())

/-- `Monomial.step` over a machine type: `try_add_term`, `try_sub_term` (src/polynomial/monomial.rs 137-161), `set_to_zero`
(128-130), `*=` (448-453), scalar `*=` (481-485), `<<=` (513-521), `>>=` (540-554).  Degrees are unbounded here
(`Model/Usize.lean` bounds them). -/
def Monomial.stepM (A : Arith) (m : Monomial Int) : MonomialOp (Monomial Int) Int → Res (Monomial Int × Except TryAddError Unit)
  | .term (.tryAddTerm c d) => m.tryAddTermM A c d
  | .term (.trySubTerm c d) => m.trySubTermM A c d
  | .term .setToZero => .ok (m.setToZero, .ok ())
  | .mulAssign q => do
    let r ← m.mulM A q
    .ok (r, .ok ())
  | .mulAssignScalar c => do
    let r ← m.mulScalarM A c
    .ok (r, .ok ())
  | .shlAssign k => do
    let r ← m.shlAssign k
    .ok (r, .ok ())
  | .shrAssign k => do
    let r ← m.shrAssign k
    .ok (r, .ok ())

end Rustnomial
