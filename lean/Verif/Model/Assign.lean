import Verif.Model.Fixed
import Verif.Model.Sparse

/-!
# In-place and by-reference operators

`Model/Fixed.lean`, `Model/Sparse.lean` and `Model/Dense.lean` have one definition for an operator and its variants where the
code repeats the same computation.  Here the variants are modelled on their own, statement by statement: a `&mut self`
method is a function from the old value to the new one, an assignment to a field is a record update.
-/

namespace Rustnomial

namespace Monomial
variable {N : Type}

/-- `MulAssign<Monomial<N>>` (src/polynomial/monomial.rs 448-453). -/
def mulAssign [Mul N] (m rhs : Monomial N) : Monomial N :=
  let m := { m with coefficient := m.coefficient * rhs.coefficient }
  { m with deg := m.deg + rhs.deg }

/-- `Mul<&Monomial<N>>` (src/polynomial/monomial.rs 455-461). -/
def mulRef [Mul N] (m rhs : Monomial N) : Monomial N := new (m.coefficient * rhs.coefficient) (m.deg + rhs.deg)

/-- `MulAssign<&Monomial<N>>` (src/polynomial/monomial.rs 463-471). -/
def mulAssignRef [Mul N] (m rhs : Monomial N) : Monomial N :=
  let m := { m with coefficient := m.coefficient * rhs.coefficient }
  { m with deg := m.deg + rhs.deg }

/-- `MulAssign<N>` (src/polynomial/monomial.rs 481-485). -/
def mulAssignScalar [Mul N] (m : Monomial N) (rhs : N) : Monomial N := { m with coefficient := m.coefficient * rhs }

/-- `DivAssign<N>` (src/polynomial/monomial.rs 495-499). -/
def divAssignScalar [RDiv N] (m : Monomial N) (rhs : N) : Res (Monomial N) := do
  let c ← rdiv m.coefficient rhs
  .ok { m with coefficient := c }

/-- Non-negative branch of `ShlAssign<i32>` (src/polynomial/monomial.rs 518). -/
def shlAssignPos (m : Monomial N) (k : Nat) : Monomial N := { m with deg := m.deg + k }

/-- Non-negative branch of `ShrAssign<i32>` (src/polynomial/monomial.rs 545-551). -/
def shrAssignPos [Zero N] (m : Monomial N) (k : Nat) : Monomial N :=
  if k > m.deg then
    let m := { m with coefficient := (0 : N) }
    { m with deg := 0 }
  else { m with deg := m.deg - k }

/-- `ShlAssign<i32>` (src/polynomial/monomial.rs 513-521).  `-rhs` is positive, so the mutual call takes the non-negative
branch. -/
def shlAssign [Zero N] (m : Monomial N) (rhs : Int) : Res (Monomial N) :=
  if rhs < 0 then do
    let k ← negI32 rhs
    .ok (m.shrAssignPos k)
  else .ok (m.shlAssignPos rhs.toNat)

/-- `ShrAssign<i32>` (src/polynomial/monomial.rs 540-554). -/
def shrAssign [Zero N] (m : Monomial N) (rhs : Int) : Res (Monomial N) :=
  if rhs < 0 then do
    let k ← negI32 rhs
    .ok (m.shlAssignPos k)
  else .ok (m.shrAssignPos rhs.toNat)

end Monomial

namespace LinearBinomial
variable {N : Type}

/-- `SubAssign` (src/polynomial/binomial.rs 314-322). -/
def subAssign [Sub N] (b rhs : LinearBinomial N) : LinearBinomial N :=
  let b := { b with c0 := b.c0 - rhs.c0 }
  { b with c1 := b.c1 - rhs.c1 }

/-- `AddAssign` (src/polynomial/binomial.rs 338-343). -/
def addAssign [Add N] (b rhs : LinearBinomial N) : LinearBinomial N :=
  let b := { b with c0 := b.c0 + rhs.c0 }
  { b with c1 := b.c1 + rhs.c1 }

/-- `MulAssign<N>` (src/polynomial/binomial.rs 386-391). -/
def mulAssignScalar [Mul N] (b : LinearBinomial N) (rhs : N) : LinearBinomial N :=
  let b := { b with c0 := b.c0 * rhs }
  { b with c1 := b.c1 * rhs }

/-- `DivAssign<N>` (src/polynomial/binomial.rs 401-406). -/
def divAssignScalar [RDiv N] (b : LinearBinomial N) (rhs : N) : Res (LinearBinomial N) := do
  let q0 ← rdiv b.c0 rhs
  let b := { b with c0 := q0 }
  let q1 ← rdiv b.c1 rhs
  .ok { b with c1 := q1 }

end LinearBinomial

namespace QuadraticTrinomial
variable {N : Type}

/-- `SubAssign` (src/polynomial/trinomial.rs 366-375). -/
def subAssign [Sub N] (t rhs : QuadraticTrinomial N) : QuadraticTrinomial N :=
  let t := { t with c0 := t.c0 - rhs.c0 }
  let t := { t with c1 := t.c1 - rhs.c1 }
  { t with c2 := t.c2 - rhs.c2 }

/-- `AddAssign` (src/polynomial/trinomial.rs 392-398). -/
def addAssign [Add N] (t rhs : QuadraticTrinomial N) : QuadraticTrinomial N :=
  let t := { t with c0 := t.c0 + rhs.c0 }
  let t := { t with c1 := t.c1 + rhs.c1 }
  { t with c2 := t.c2 + rhs.c2 }

/-- `MulAssign<N>` (src/polynomial/trinomial.rs 445-451). -/
def mulAssignScalar [Mul N] (t : QuadraticTrinomial N) (rhs : N) : QuadraticTrinomial N :=
  let t := { t with c0 := t.c0 * rhs }
  let t := { t with c1 := t.c1 * rhs }
  { t with c2 := t.c2 * rhs }

/-- `DivAssign<N>` (src/polynomial/trinomial.rs 465-471). -/
def divAssignScalar [RDiv N] (t : QuadraticTrinomial N) (rhs : N) : Res (QuadraticTrinomial N) := do
  let q0 ← rdiv t.c0 rhs
  let t := { t with c0 := q0 }
  let q1 ← rdiv t.c1 rhs
  let t := { t with c1 := q1 }
  let q2 ← rdiv t.c2 rhs
  .ok { t with c2 := q2 }

end QuadraticTrinomial

namespace Sparse
variable {N : Type}

/-- `Mul<SparsePolynomial<N>>` (src/polynomial/sparsepolynomial.rs 817-821). -/
def mulOwned [Zero N] [NumZero N] [Add N] [Mul N] (p rhs : Sparse N) : Sparse N := ⟨mapMul p.terms rhs.terms⟩

/-- `MulAssign<SparsePolynomial<N>>` (src/polynomial/sparsepolynomial.rs 828-830). -/
def mulAssign [Zero N] [NumZero N] [Add N] [Mul N] (p rhs : Sparse N) : Sparse N :=
  { p with terms := mapMul p.terms rhs.terms }

/-- `Mul<&SparsePolynomial<N>>` (src/polynomial/sparsepolynomial.rs 839-841). -/
def mulRef [Zero N] [NumZero N] [Add N] [Mul N] (p rhs : Sparse N) : Sparse N := new (mapMul p.terms rhs.terms)

/-- `MulAssign<&SparsePolynomial<N>>` (src/polynomial/sparsepolynomial.rs 848-850). -/
def mulAssignRef [Zero N] [NumZero N] [Add N] [Mul N] (p rhs : Sparse N) : Sparse N :=
  { p with terms := mapMul p.terms rhs.terms }

/-- `SubAssign<SparsePolynomial<N>>` (src/polynomial/sparsepolynomial.rs 757-768). -/
def subAssign [Neg N] [Sub N] (p rhs : Sparse N) : Sparse N :=
  rhs.terms.entries.foldl (fun p e =>
    match p.terms.get e.1 with
    | none => { p with terms := p.terms.insert e.1 (-e.2) }
    | some val => { p with terms := p.terms.insert e.1 (val - e.2) }) p

/-- Loop of `RemAssign::rem_assign` (src/polynomial/sparsepolynomial.rs 650-661), on `self`. -/
def remAssignLoop [Zero N] [NumZero N] [Neg N] [Sub N] [Mul N] [Add N] [RDiv N] (rhs : BMap N) (rhsFirst : N)
    (rhsDeg : Nat) : Nat → N → Nat → Sparse N → Res (Sparse N)
  | 0, _, _, _ => .fuel
  | fuel + 1, scale, selfDegree, p =>
    if selfDegree ≥ rhsDeg then
      let p := { p with terms := mapSubWScale p.terms rhs scale }
      match sparseFirstTerm p.terms with
      | .zeroTerm => .ok p
      | .term coeff degree => do
        let scale ← rdiv coeff rhsFirst
        remAssignLoop rhs rhsFirst rhsDeg fuel scale degree p
    else .ok p

/-- `RemAssign::rem_assign` (src/polynomial/sparsepolynomial.rs 630-662). -/
def remAssign [Zero N] [NumZero N] [Neg N] [Sub N] [Mul N] [Add N] [RDiv N] (fuel : Nat) (p rhs : Sparse N) :
    Res (Sparse N) :=
  match sparseFirstTerm rhs.terms with
  | .zeroTerm => .panic
  | .term rhsFirst rhsDeg =>
    match sparseFirstTerm p.terms with
    | .zeroTerm => .ok p
    | .term coeff degree =>
      if degree < rhsDeg then .ok p
      else do
        let scale ← rdiv coeff rhsFirst
        remAssignLoop rhs.terms rhsFirst rhsDeg fuel scale degree p

/-- Non-negative branch of `ShlAssign<i32>` (src/polynomial/sparsepolynomial.rs 923-928). -/
def shlAssignPos (p : Sparse N) (k : Nat) : Sparse N :=
  { p with terms := p.terms.entries.foldl (fun terms e => terms.insert (e.1 + k) e.2) .empty }

/-- Non-negative branch of `ShrAssign<i32>` (src/polynomial/sparsepolynomial.rs 957-964). -/
def shrAssignPos (p : Sparse N) (k : Nat) : Sparse N :=
  { p with terms := p.terms.entries.foldl (fun terms e =>
      if e.1 ≥ k then terms.insert (e.1 - k) e.2 else terms) .empty }

/-- `ShlAssign<i32>` (src/polynomial/sparsepolynomial.rs 918-931). -/
def shlAssign (p : Sparse N) (rhs : Int) : Res (Sparse N) :=
  if rhs < 0 then do
    let k ← negI32 rhs
    .ok (p.shrAssignPos k)
  else .ok (p.shlAssignPos rhs.toNat)

/-- `ShrAssign<i32>` (src/polynomial/sparsepolynomial.rs 952-967). -/
def shrAssign (p : Sparse N) (rhs : Int) : Res (Sparse N) :=
  if rhs < 0 then do
    let k ← negI32 rhs
    .ok (p.shlAssignPos k)
  else .ok (p.shrAssignPos rhs.toNat)

end Sparse

namespace Poly
variable {N : Type}

/-- `Mul<Polynomial<N>> for &Polynomial<N>` (src/polynomial/polynomial.rs 820-824). -/
def refMul [Zero N] [NumZero N] [Add N] [Mul N] (p rhs : Poly N) : Res (Poly N) := do
  let terms ← sliceMul p.terms rhs.terms
  .ok ⟨terms⟩

/-- `Mul<&Polynomial<N>> for &Polynomial<N>` (src/polynomial/polynomial.rs 833-835). -/
def refMulRef [Zero N] [NumZero N] [Add N] [Mul N] (p rhs : Poly N) : Res (Poly N) := do
  let terms ← sliceMul p.terms rhs.terms
  .ok (new terms)

/-- `MulAssign<Polynomial<N>>` (src/polynomial/polynomial.rs 842-844). -/
def mulAssign [Zero N] [NumZero N] [Add N] [Mul N] (p rhs : Poly N) : Res (Poly N) := do
  let terms ← sliceMul p.terms rhs.terms
  .ok { p with terms := terms }

/-- `MulAssign<&Polynomial<N>>` (src/polynomial/polynomial.rs 851-853). -/
def mulAssignRef [Zero N] [NumZero N] [Add N] [Mul N] (p rhs : Poly N) : Res (Poly N) := do
  let terms ← sliceMul p.terms rhs.terms
  .ok { p with terms := terms }

end Poly
end Rustnomial
