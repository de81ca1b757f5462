import Verif.Model.PseudoMachine

/-!
# All real roots of an integer polynomial, and whether it is positive everywhere

The repository has no such functions; these are programs a caller writes with the operators.
-/

namespace Rustnomial

variable {N : Type}

/-- `for (c, _) in terms { m = m + if c.is_positive() { c } else { -c }; } m` (`is_positive`, src/numerics.rs 123-150). -/
def absSumFrom [Add N] [Neg N] [IsPositive N] : N → List (N × Nat) → N
  | m, [] => m
  | m, (c, _) :: ts => absSumFrom (m + if isPositive c then c else -c) ts

/-- `let m = …` as above from 1 with `p.ordered_term_iter()` (src/polynomial/polynomial.rs 171-182); `count_roots(p, -m, m)` (see
`Poly.countRootsPseudo`). -/
def Poly.countAllRoots [Zero N] [NumZero N] [One N] [Add N] [Mul N] [Sub N] [Neg N] [RDiv N] [FromUsizeCont N] [IsPositive N]
    (fuel steps : Nat) (p : Poly N) : Res Nat :=
  let m := absSumFrom 1 p.orderedTermIter
  p.countRootsPseudo fuel steps (-m) m

/-- `!p.is_zero() && count_all_roots(p) == 0 && p.eval(0).is_positive()` (`is_zero`, src/polynomial/traits.rs 48-50; `eval`,
src/polynomial/polynomial.rs 340-362). -/
def Poly.positiveEverywhere [Zero N] [NumZero N] [One N] [Add N] [Mul N] [Sub N] [Neg N] [RDiv N] [FromUsizeCont N] [IsPositive N]
    (fuel steps : Nat) (p : Poly N) : Res Bool :=
  if p.isZeroPoly then .ok false
  else do
    let n ← p.countAllRoots fuel steps
    .ok (n == 0 && isPositive (p.eval 0))

/-! ## The same over fixed-width integers -/

/-- `if c.is_positive() { c } else { -c }` where the negation may panic (`is_positive`, src/numerics.rs 123-150). -/
def absM (A : Arith) (c : Int) : Res Int := if isPositive c then .ok c else A.neg c

/-- `absSumFrom` where every operation may panic. -/
def absSumFromM (A : Arith) : Int → List (Int × Nat) → Res Int
  | m, [] => .ok m
  | m, (c, _) :: ts => do
    let c ← absM A c
    let m ← A.add m c
    absSumFromM A m ts

namespace Poly

/-- `count_all_roots` (see `Poly.countAllRoots`). -/
def countAllRootsM (A : Arith2) (fromUsize : Nat → Option Int) (fuel steps : Nat) (p : Poly Int) : Res Nat := do
  let m ← absSumFromM A.toArith 1 p.orderedTermIter
  let a ← A.neg m
  p.countRootsPseudoM A fromUsize fuel steps a m

/-- `positive_everywhere` (see `Poly.positiveEverywhere`). -/
def positiveEverywhereM (A : Arith2) (fromUsize : Nat → Option Int) (fuel steps : Nat) (p : Poly Int) : Res Bool :=
  if p.isZeroPoly then .ok false
  else do
    let n ← p.countAllRootsM A fromUsize fuel steps
    if n = 0 then do
      let v ← p.evalM A.toArith 0
      .ok (isPositive v)
    else .ok false

end Poly

end Rustnomial
