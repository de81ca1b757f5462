import Verif.Model.Sturm
import Verif.Model.Resultant

/-!
# Programs for integer polynomials that multiply before they divide

The repository has no such functions; these are the programs a caller writes with the operators of `Polynomial`, for which `%=` alone does not
end (C21).
-/

namespace Rustnomial

variable {N : Type}

/-- `let (c, n) = b.ordered_term_iter().next().unwrap(); let mut s = 1; for _ in n..degree_or_zero(&a) + 1 { s = s * (c * c); } let mut r =
a.clone() * s; r %= b.clone(); r` (`ordered_term_iter` 171-182, `Mul<N>` 859-861, `rem_assign` 573-599 of src/polynomial/polynomial.rs). -/
def Poly.pseudoRem [Zero N] [NumZero N] [One N] [Mul N] [Sub N] [RDiv N] (fuel : Nat) (a b : Poly N) : Res (Poly N) :=
  match b.orderedTermIter with
  | [] => .panic
  | (c, n) :: _ =>
    let s := mulTimes (c * c) (a.degreeOrZero + 1 - n) 1
    (a.mulScalar s).remAssign fuel b

/-- As above, with `div_mod` (src/polynomial/polynomial.rs 477-515): `(s, quotient, remainder)`. -/
def Poly.pseudoDivMod [Zero N] [NumZero N] [One N] [Mul N] [Sub N] [RDiv N] (fuel : Nat) (a b : Poly N) : Res (N × Poly N × Poly N) :=
  match b.orderedTermIter with
  | [] => .panic
  | (c, n) :: _ => do
    let s := mulTimes (c * c) (a.degreeOrZero + 1 - n) 1
    let (q, r) ← (a.mulScalar s).divMod fuel b
    .ok (s, q, r)

/-- Euclid's algorithm (`euclid`) with `pseudo_rem`. -/
def Poly.gcdPseudo [Zero N] [NumZero N] [One N] [Mul N] [Sub N] [RDiv N] (fuel steps : Nat) (a b : Poly N) : Res (Poly N) :=
  euclid Poly.isZeroPoly (Poly.pseudoRem fuel) steps a b

/-- `Poly.sturmLoop` with `pseudo_rem` for `%=`. -/
def Poly.sturmLoopPseudo [Zero N] [NumZero N] [One N] [Mul N] [Sub N] [Neg N] [RDiv N] (fuel : Nat) :
    Nat → Poly N → Poly N → Res (List (Poly N))
  | 0, _, _ => .fuel
  | steps + 1, a, b =>
    if b.isZeroPoly then .ok [a]
    else do
      let r ← a.pseudoRem fuel b
      let rest ← Poly.sturmLoopPseudo fuel steps b r.neg
      .ok (a :: rest)

/-- `Poly.countRoots` with that loop. -/
def Poly.countRootsPseudo [Zero N] [NumZero N] [One N] [Add N] [Mul N] [Sub N] [Neg N] [RDiv N] [FromUsizeCont N] [IsPositive N]
    (fuel steps : Nat) (p : Poly N) (a b : N) : Res Nat := do
  let d ← p.derivative
  let chain ← Poly.sturmLoopPseudo fuel steps p d
  let va := variationsFrom a none chain
  let vb := variationsFrom b none chain
  if va < vb then .panic else .ok (va - vb)

/-- `degree_or_zero(&gcd(a, b)) != 0`. -/
def Poly.shareRoot [Zero N] [NumZero N] [One N] [Mul N] [Sub N] [RDiv N] (fuel steps : Nat) (a b : Poly N) : Res Bool := do
  let g ← a.gcdPseudo fuel steps b
  .ok (g.degreeOrZero != 0)

/-- `degree_or_zero(&p) - degree_or_zero(&gcd(p, p.derivative()))` (src/polynomial/polynomial.rs 381-397), where the subtraction of `usize`
panics if it would be negative. -/
def Poly.distinctRoots [Zero N] [NumZero N] [One N] [Mul N] [Sub N] [RDiv N] [FromUsizeCont N] (fuel steps : Nat) (p : Poly N) : Res Nat := do
  let d ← p.derivative
  let g ← p.gcdPseudo fuel steps d
  if p.degreeOrZero < g.degreeOrZero then .panic else .ok (p.degreeOrZero - g.degreeOrZero)

end Rustnomial
