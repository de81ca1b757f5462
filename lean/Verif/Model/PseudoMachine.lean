import Verif.Model.Pseudo
import Verif.Model.Machine

/-!
# The programs of `Model/Pseudo.lean` over fixed-width integers

The same texts, with coefficients of a primitive integer type (`A`, see `Model/Checked.lean` and `Model/Machine.lean`): every operation may panic.
-/

namespace Rustnomial

/-- `for _ in 0..k { s = s * (c * c); } s`. -/
def mulSquaresM (A : Arith) (c : Int) : Nat → Int → Res Int
  | 0, s => .ok s
  | k + 1, s => do
    let cc ← A.mul c c
    let s ← A.mul s cc
    mulSquaresM A c k s

namespace Poly

/-- `pseudo_rem` (see `Poly.pseudoRem`; `Mul<N>` 859-861, `rem_assign` 573-599 of src/polynomial/polynomial.rs). -/
def pseudoRemM (A : Arith2) (fuel : Nat) (a b : Poly Int) : Res (Poly Int) :=
  match b.orderedTermIter with
  | [] => .panic
  | (c, n) :: _ => do
    let s ← mulSquaresM A.toArith c (a.degreeOrZero + 1 - n) 1
    let scaled ← a.mulScalarM A.toArith s
    scaled.remAssignM A fuel b

/-- The same with `div_mod` (see `Poly.pseudoDivMod`; src/polynomial/polynomial.rs 477-515). -/
def pseudoDivModM (A : Arith2) (fuel : Nat) (a b : Poly Int) : Res (Int × Poly Int × Poly Int) :=
  match b.orderedTermIter with
  | [] => .panic
  | (c, n) :: _ => do
    let s ← mulSquaresM A.toArith c (a.degreeOrZero + 1 - n) 1
    let scaled ← a.mulScalarM A.toArith s
    let (q, r) ← scaled.divModM A fuel b
    .ok (s, q, r)

/-- Euclid's algorithm with `pseudo_rem` (see `Poly.gcdPseudo`). -/
def gcdPseudoM (A : Arith2) (fuel steps : Nat) (a b : Poly Int) : Res (Poly Int) :=
  euclid Poly.isZeroPoly (Poly.pseudoRemM A fuel) steps a b

/-- The chain of remainders (see `Poly.sturmLoopPseudo`). -/
def sturmLoopPseudoM (A : Arith2) (fuel : Nat) : Nat → Poly Int → Poly Int → Res (List (Poly Int))
  | 0, _, _ => .fuel
  | steps + 1, a, b =>
    if b.isZeroPoly then .ok [a]
    else do
      let r ← a.pseudoRemM A fuel b
      let r ← r.negM A.toArith
      let rest ← sturmLoopPseudoM A fuel steps b r
      .ok (a :: rest)

/-- `variations` (see `variationsFrom`), where `eval` may panic. -/
def variationsFromM (A : Arith) (x : Int) : Option Bool → List (Poly Int) → Res Nat
  | _, [] => .ok 0
  | last, p :: ps => do
    let v ← p.evalM A x
    if v = 0 then variationsFromM A x last ps
    else do
      let s := isPositive v
      let n ← variationsFromM A x (some s) ps
      .ok ((if last = some (!s) then 1 else 0) + n)

/-- `count_roots` (see `Poly.countRootsPseudo`), with the conversion of `usize` in `derivative` as a parameter. -/
def countRootsPseudoM (A : Arith2) (fromUsize : Nat → Option Int) (fuel steps : Nat) (p : Poly Int) (a b : Int) : Res Nat := do
  let d ← p.derivativeM A.toArith fromUsize
  let chain ← sturmLoopPseudoM A fuel steps p d
  let va ← variationsFromM A.toArith a none chain
  let vb ← variationsFromM A.toArith b none chain
  if va < vb then .panic else .ok (va - vb)

/-- `share_root` (see `Poly.shareRoot`). -/
def shareRootM (A : Arith2) (fuel steps : Nat) (a b : Poly Int) : Res Bool := do
  let g ← a.gcdPseudoM A fuel steps b
  .ok (g.degreeOrZero != 0)

/-- `distinct_roots` (see `Poly.distinctRoots`). -/
def distinctRootsM (A : Arith2) (fromUsize : Nat → Option Int) (fuel steps : Nat) (p : Poly Int) : Res Nat := do
  let d ← p.derivativeM A.toArith fromUsize
  let g ← p.gcdPseudoM A fuel steps d
  if p.degreeOrZero < g.degreeOrZero then .panic else .ok (p.degreeOrZero - g.degreeOrZero)

end Poly

end Rustnomial
