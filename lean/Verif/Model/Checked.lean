import Verif.Model.Sparse
import Verif.Model.Fixed
import Verif.Model.Numerics

/-!
# Arithmetic on machine integers

The functions of `Model/Dense.lean`, `Model/Sparse.lean` and `Model/Fixed.lean` once more, for coefficients
of a primitive integer type whose `+`, `-`, `*` and unary `-` can overflow.  Every arithmetic operation on
coefficients goes through an `Arith`; instantiated with exact arithmetic the functions are those of the
ideal model (`Props/Checked.lean`, `C56_exact`).
-/

namespace Rustnomial

/-- The arithmetic operations of a coefficient type, each of which may panic. -/
structure Arith where
  add : Int → Int → Res Int
  sub : Int → Int → Res Int
  mul : Int → Int → Res Int
  neg : Int → Res Int

/-- Exact integers. -/
def Arith.exact : Arith :=
  ⟨fun a b => .ok (a + b), fun a b => .ok (a - b), fun a b => .ok (a * b), fun a => .ok (-a)⟩

/-- What an operation with exact result `v` does on type `t`: with overflow checks (`chk`) it panics when
`v` is out of range, without them it wraps around. -/
def IntTy.result (chk : Bool) (t : IntTy) (v : Int) : Res Int := if chk then t.checked v else .ok (t.wrap v)

/-- The primitive type `t` in a build with (`chk = true`) or without overflow checks. -/
def Arith.machine (chk : Bool) (t : IntTy) : Arith :=
  ⟨fun a b => t.result chk (a + b), fun a b => t.result chk (a - b), fun a b => t.result chk (a * b),
    fun a => t.result chk (-a)⟩

/-- `CanNegate::can_negate` of a primitive integer type (src/numerics.rs 256-267): whether it is signed. -/
def IntTy.canNegate (t : IntTy) : Bool := t.signed

/-- `for (x, y) in xs.iter_mut().zip(ys) { *x = f(*x, y) }` with an `f` which may panic. -/
def zipMutM {α : Type} {β : Type} (f : α → β → Res α) : List α → List β → Res (List α)
  | [], _ => .ok []
  | x :: xs, [] => .ok (x :: xs)
  | x :: xs, y :: ys => do
    let z ← f x y
    let zs ← zipMutM f xs ys
    .ok (z :: zs)

/-- `terms[index] = f(terms[index])` with an `f` which may panic; the index is checked. -/
def modifyM {α : Type} (f : α → Res α) : List α → Nat → Res (List α)
  | [], _ => .panic
  | x :: xs, 0 => do
    let y ← f x
    .ok (y :: xs)
  | x :: xs, i + 1 => do
    let ys ← modifyM f xs i
    .ok (x :: ys)

namespace Poly

/-- `Neg::neg` (src/polynomial/polynomial.rs 668-671). -/
def negM (A : Arith) (p : Poly Int) : Res (Poly Int) := do
  let terms ← p.terms.mapM A.neg
  .ok ⟨terms⟩

/-- `Sub<Polynomial>` / `SubAssign<Polynomial>` (src/polynomial/polynomial.rs 680-683, 690-708). -/
def subM (A : Arith) (p rhs : Poly Int) : Res (Poly Int) :=
  if rhs.terms.length > p.terms.length then do
    let offset := rhs.terms.length - p.terms.length
    let right ← (rhs.terms.take offset).mapM A.neg
    let left ← zipMutM (fun term val => A.sub val term) (rhs.terms.drop offset) p.terms
    .ok ⟨right ++ left⟩
  else do
    let offset := p.terms.length - rhs.terms.length
    let tail ← sliceFrom p.terms offset
    let tail ← zipMutM (fun term val => A.sub term val) tail rhs.terms
    .ok ⟨p.terms.take offset ++ tail⟩

/-- `Sub<&Polynomial>` / `SubAssign<&Polynomial>` (src/polynomial/polynomial.rs 717-720, 727-744). -/
def subRefM (A : Arith) (p rhs : Poly Int) : Res (Poly Int) :=
  if rhs.terms.length > p.terms.length then do
    let offset := rhs.terms.length - p.terms.length
    let right ← (rhs.terms.take offset).mapM A.neg
    let left ← zipMutM (fun l r => A.sub l r) p.terms (rhs.terms.drop offset)
    .ok ⟨right ++ left⟩
  else do
    let offset := p.terms.length - rhs.terms.length
    let tail ← sliceFrom p.terms offset
    let tail ← zipMutM (fun term val => A.sub term val) tail rhs.terms
    .ok ⟨p.terms.take offset ++ tail⟩

/-- `Add<Polynomial>` (src/polynomial/polynomial.rs 753-767). -/
def addM (A : Arith) (p rhs : Poly Int) : Res (Poly Int) :=
  let (terms, small) :=
    if rhs.terms.length > p.terms.length then (rhs.terms, p.terms) else (p.terms, rhs.terms)
  let offset := terms.length - small.length
  do
    let tail ← sliceFrom terms offset
    let tail ← zipMutM (fun index val => A.add index val) tail small
    .ok (new (terms.take offset ++ tail))

/-- `AddAssign<Polynomial>` (src/polynomial/polynomial.rs 771-787). -/
def addAssignM (A : Arith) (p rhs : Poly Int) : Res (Poly Int) :=
  if rhs.terms.length > p.terms.length then do
    let offset := rhs.terms.length - p.terms.length
    let tail ← sliceFrom rhs.terms offset
    let tail ← zipMutM (fun index val => A.add index val) tail p.terms
    .ok ⟨rhs.terms.take offset ++ tail⟩
  else do
    let offset := p.terms.length - rhs.terms.length
    let tail ← sliceFrom p.terms offset
    let tail ← zipMutM (fun index val => A.add index val) tail rhs.terms
    .ok ⟨p.terms.take offset ++ tail⟩

/-- `Mul<N>` (src/polynomial/polynomial.rs 859-861). -/
def mulScalarM (A : Arith) (p : Poly Int) (rhs : Int) : Res (Poly Int) := do
  let terms ← p.terms.mapM (fun x => A.mul x rhs)
  .ok (new terms)

/-- `MulAssign<N>` (src/polynomial/polynomial.rs 865-869). -/
def mulAssignScalarM (A : Arith) (p : Poly Int) (rhs : Int) : Res (Poly Int) := do
  let terms ← p.terms.mapM (fun x => A.mul x rhs)
  .ok ⟨terms⟩

/-- `Evaluable::eval` (src/polynomial/polynomial.rs 340-362). -/
def evalM (A : Arith) (p : Poly Int) (point : Int) : Res Int :=
  match p.terms.getLast? with
  | some last =>
    if point = 0 then .ok last
    else do
      let sum ← p.terms.dropLast.foldlM (fun sum val => do
        let sum ← A.add sum val
        A.mul sum point) 0
      A.add sum last
  | none => .ok 0

/-- Loop of `derivative` (src/polynomial/polynomial.rs 392-395). -/
def derivLoopM (A : Arith) : List Int → Int → Res (List Int)
  | [], _ => .ok []
  | term :: rest, degree => do
    let degree ← A.sub degree 1
    let term ← A.mul term degree
    let rest ← derivLoopM A rest degree
    .ok (term :: rest)

/-- `Derivable::derivative` (src/polynomial/polynomial.rs 381-397), with the conversion of `usize` to the
coefficient type as a parameter. -/
def derivativeM (A : Arith) (fromUsize : Nat → Option Int) (p : Poly Int) : Res (Poly Int) :=
  let index := firstNonzeroIndex p.terms
  match fromUsize (p.terms.length - index) with
  | none => .panic
  | some degree =>
    match p.terms.drop index with
    | [] => .ok zero
    | x :: xs => do
      let terms ← derivLoopM A (x :: xs).dropLast degree
      .ok ⟨terms⟩

/-- `add_term` (src/polynomial/polynomial.rs 315-323). -/
def addTermM (A : Arith) (p : Poly Int) (coeff : Int) (degree : Nat) : Res (Poly Int) := do
  let terms :=
    if p.terms.length < degree + 1 then List.replicate (degree + 1 - p.terms.length) 0 ++ p.terms
    else p.terms
  let terms ← modifyM (fun x => A.add x coeff) terms (terms.length - degree - 1)
  .ok ⟨terms⟩

/-- `try_sub_term` (src/polynomial/polynomial.rs 247-260), for the type with the given `can_negate`. -/
def trySubTermM (A : Arith) (canNegate : Bool) (p : Poly Int) (coeff : Int) (degree : Nat) :
    Res (Poly Int × Except TryAddError Unit) :=
  if p.terms.length < degree + 1 then
    if !canNegate then .ok (p, .error .canNotNegate)
    else do
      let terms := List.replicate (degree + 1 - p.terms.length) 0 ++ p.terms
      let terms ← modifyM (fun x => A.sub x coeff) terms (terms.length - degree - 1)
      .ok (⟨terms⟩, .ok ())
  else do
    let terms ← modifyM (fun x => A.sub x coeff) p.terms (p.terms.length - degree - 1)
    .ok (⟨terms⟩, .ok ())

end Poly

/-- Body of the outer loop of `slice_mul` (src/polynomial/polynomial.rs 62-69). -/
def sliceMulStepM (A : Arith) (lhs terms : List Int) (index : Nat) (rterm : Int) : Res (List Int) :=
  if rterm = 0 then .ok terms
  else do
    let tail ← sliceFrom terms index
    let tail ← zipMutM (fun term lterm => do
      let x ← A.mul rterm lterm
      A.add term x) tail lhs
    .ok (terms.take index ++ tail)

/-- Outer loop of `slice_mul` (src/polynomial/polynomial.rs 62-69). -/
def sliceMulLoopM (A : Arith) (lhs : List Int) : List Int → Nat → List Int → Res (List Int)
  | [], _, terms => .ok terms
  | rterm :: rest, index, terms => do
    let terms ← sliceMulStepM A lhs terms index rterm
    sliceMulLoopM A lhs rest (index + 1) terms

/-- `slice_mul` (src/polynomial/polynomial.rs 55-71). -/
def sliceMulM (A : Arith) (lhs rhs : List Int) : Res (List Int) := do
  let rhs ← sliceFrom rhs (firstNonzeroIndex rhs)
  let lhs ← sliceFrom lhs (firstNonzeroIndex lhs)
  let len ← usub (rhs.length + lhs.length) 1
  sliceMulLoopM A lhs rhs 0 (List.replicate len 0)

namespace Poly

/-- `Mul<Polynomial>`, `MulAssign` (src/polynomial/polynomial.rs 796-800, 820-824, 842-844, 851-853). -/
def mulM (A : Arith) (p q : Poly Int) : Res (Poly Int) := do
  let terms ← sliceMulM A p.terms q.terms
  .ok ⟨terms⟩

/-- `Mul<&Polynomial>` (src/polynomial/polynomial.rs 809-811, 833-835). -/
def mulRefM (A : Arith) (p q : Poly Int) : Res (Poly Int) := do
  let terms ← sliceMulM A p.terms q.terms
  .ok (new terms)

end Poly

/-- `SparsePolynomial::try_sub_term` (src/polynomial/sparsepolynomial.rs 169-188). -/
def Sparse.trySubTermM (A : Arith) (canNegate : Bool) (p : Sparse Int) (coeff : Int) (degree : Nat) :
    Res (Sparse Int × Except TryAddError Unit) :=
  if coeff = 0 then .ok (p, .ok ())
  else
    match p.terms.get degree with
    | none =>
      if !canNegate then .ok (p, .error .canNotNegate)
      else do
        let v ← A.sub 0 coeff
        .ok (⟨p.terms.insert degree v⟩, .ok ())
    | some val => do
      let v ← A.sub val coeff
      .ok (⟨p.terms.insert degree v⟩, .ok ())

/-- `Monomial::try_sub_term` (src/polynomial/monomial.rs 150-161). -/
def Monomial.trySubTermM (A : Arith) (m : Monomial Int) (coeff : Int) (degree : Nat) :
    Res (Monomial Int × Except TryAddError Unit) :=
  if m.isZeroPoly then do
    let v ← A.sub m.coefficient coeff
    .ok (⟨v, degree⟩, .ok ())
  else if degree = m.deg then do
    let v ← A.sub m.coefficient coeff
    .ok ({ m with coefficient := v }, .ok ())
  else .ok (m, .error .tooManyTerms)

/-- `LinearBinomial::try_sub_term` (src/polynomial/binomial.rs 169-176). -/
def LinearBinomial.trySubTermM (A : Arith) (b : LinearBinomial Int) (coeff : Int) (degree : Nat) :
    Res (LinearBinomial Int × Except TryAddError Unit) :=
  if degree ≤ 1 then do
    let v ← A.sub (if 1 - degree = 0 then b.c0 else b.c1) coeff
    .ok (b.modify (1 - degree) (fun _ => v), .ok ())
  else .ok (b, .error .degreeOutOfBounds)

/-- `QuadraticTrinomial::try_sub_term` (src/polynomial/trinomial.rs 203-210). -/
def QuadraticTrinomial.trySubTermM (A : Arith) (b : QuadraticTrinomial Int) (coeff : Int) (degree : Nat) :
    Res (QuadraticTrinomial Int × Except TryAddError Unit) :=
  if degree ≤ 2 then do
    let v ← A.sub (if 2 - degree = 0 then b.c0 else if 2 - degree = 1 then b.c1 else b.c2) coeff
    .ok (b.modify (2 - degree) (fun _ => v), .ok ())
  else .ok (b, .error .degreeOutOfBounds)

/-- `ArrayPolynomial::try_sub_term` (src/polynomial/array_polynomial.rs 45-52), on the underlying array
(of length `size`). -/
def arrayTrySubTermM (A : Arith) (coefficients : List Int) (coeff : Int) (degree : Nat) :
    Res (List Int × Except TryAddError Unit) :=
  if degree < coefficients.length then do
    let cs ← modifyM (fun x => A.sub x coeff) coefficients (coefficients.length - degree - 1)
    .ok (cs, .ok ())
  else .ok (coefficients, .error .degreeOutOfBounds)

end Rustnomial
