import Verif.Model.Dense
import Verif.Model.Sparse
import Verif.Model.Fixed
import Mathlib.Analysis.SpecialFunctions.Pow.Real
import Mathlib.Analysis.Real.Sqrt

/-!
# Root finding (src/polynomial/find_roots.rs and the `root`/`roots`/factor methods)

The functions are modelled over any coefficient type with the operations they use, also `find_roots`, which is
written for `f64` only.  Here `f64` is idealised by exact reals: no rounding, no NaN, no infinities; division
by zero of floats, which does not panic in Rust, is meaningless there, and the theorems over the reals only speak
about calls where no divisor is zero.  The IEEE instances are in `Model/FloatRoots.lean`.
-/

namespace Rustnomial

/-- `num::Complex`. -/
structure Cplx (N : Type) where
  re : N
  im : N
  deriving DecidableEq, Repr

/-- `Roots` (src/polynomial/find_roots.rs 11-25).  The payload of `OnlyRealRoots` is `Vec<f64>` in
Rust; it is only ever built by `find_roots`, where `N` is `f64`. -/
inductive Roots (N : Type) where
  | noRoots
  | noRootsFound
  | oneRealRoot (r : N)
  | twoRealRoots (r s : N)
  | threeRealRoots (r s t : N)
  | manyRealRoots (rs : List N)
  | oneComplexRoot (r : Cplx N)
  | twoComplexRoots (r s : Cplx N)
  | threeComplexRoots (r s t : Cplx N)
  | manyComplexRoots (rs : List (Cplx N))
  | infiniteRoots
  | onlyRealRoots (rs : List N)
  deriving DecidableEq, Repr

/-- `AbsSqrt` (src/numerics.rs 152-154). -/
class AbsSqrt (N : Type) where
  absSqrt : N → Res N

export AbsSqrt (absSqrt)

/-- `IsPositive` (src/numerics.rs 123-125). -/
class IsPositive (N : Type) where
  isPositive : N → Bool

export IsPositive (isPositive)

/-- `Cbrt` (src/numerics.rs 226-228). -/
class Cbrt (N : Type) where
  cbrt : N → N

export Cbrt (cbrt)

/-- The comparison `a.abs() < b.abs()` of `f64` (src/polynomial/find_roots.rs 257). -/
class AbsLess (N : Type) where
  absLess : N → N → Bool

export AbsLess (absLess)

/-- Integer square root, unbounded integers (`abs_sqrt` of the machine types computes it: C40). -/
instance : AbsSqrt Int where
  absSqrt v := .ok (v.natAbs.sqrt : Int)

/-- `is_positive` of integers (src/numerics.rs 127-135). -/
instance : IsPositive Int where
  isPositive v := decide (v > 0)

/-- Division of idealised floats. -/
noncomputable instance : RDiv ℝ where
  rdiv a b := .ok (a / b)

/-- `abs_sqrt` of floats (src/numerics.rs 214-224): `self.abs().sqrt()`. -/
noncomputable instance : AbsSqrt ℝ where
  absSqrt x := .ok (Real.sqrt |x|)

/-- `is_positive` of floats (src/numerics.rs 127-135). -/
noncomputable instance : IsPositive ℝ where
  isPositive x := decide (x > 0)

/-- `cbrt` of floats (src/numerics.rs 230-240): the real cube root, odd. -/
noncomputable instance : Cbrt ℝ where
  cbrt x := if 0 ≤ x then x ^ (1 / 3 : ℝ) else -((-x) ^ (1 / 3 : ℝ))

/-- Comparison of absolute values of idealised floats. -/
noncomputable instance : AbsLess ℝ where
  absLess a b := decide (|a| < |b|)

/-- `upow` of idealised floats. -/
noncomputable instance : PowUsize ℝ where
  upow := upowFloat

section
variable {N : Type}

/-- `discriminant_trinomial` (src/polynomial/find_roots.rs 28-33). -/
def discriminantTrinomial [Mul N] [Sub N] [NatCast N] (a b c : N) : N :=
  b * b - a * c * ((4 : Nat) : N)

/-- `trinomial_roots` (src/polynomial/find_roots.rs 35-62). -/
def trinomialRoots [Mul N] [RDiv N] [Sub N] [Add N] [AbsSqrt N] [IsPositive N] [Zero N] [NumZero N]
    [Neg N] [NatCast N] (a b c : N) : Res (Roots N) := do
  let discriminant := discriminantTrinomial a b c
  let a := a * ((2 : Nat) : N)
  let b ← rdiv (-b) a
  if isZero discriminant then .ok (.twoRealRoots b b)
  else do
    let s ← absSqrt discriminant
    let sqrt ← rdiv s a
    if isPositive discriminant then .ok (.twoRealRoots (b + sqrt) (b - sqrt))
    else .ok (.twoComplexRoots ⟨b, sqrt⟩ ⟨b, -sqrt⟩)

/-- `cubic_roots` (src/polynomial/find_roots.rs 65-96); the last branch is `unreachable!()`. -/
def cubicRoots [Mul N] [RDiv N] [Sub N] [Add N] [AbsSqrt N] [Cbrt N] [IsPositive N] [Zero N]
    [NumZero N] [One N] [Neg N] [NatCast N] (a b c d : N) : Res (Roots N) := do
  let sqr := fun x : N => x * x
  let cub := fun x : N => x * x * x
  let p ← rdiv (-b) (((3 : Nat) : N) * a)
  let q0 ← rdiv (b * c - ((3 : Nat) : N) * a * d) (((6 : Nat) : N) * sqr a)
  let q := cub p + q0
  let r ← rdiv c (((3 : Nat) : N) * a)
  let k ← absSqrt (sqr q + cub (r - sqr p))
  let x := cbrt (q + k) + cbrt (q - k) + p
  let b' ← rdiv b a
  let b := b' + x
  let c' ← rdiv c a
  let c := c' + b * x
  let roots ← trinomialRoots 1 b c
  match roots with
  | .twoRealRoots a b => .ok (.threeRealRoots x a b)
  | .twoComplexRoots a b => .ok (.threeComplexRoots ⟨x, 0⟩ a b)
  | _ => .panic

/-- The `while` loop of `div` (src/polynomial/find_roots.rs 136-149).  Indexing out of bounds and
`usize` underflow are panics. -/
def divLoop [Zero N] [NumZero N] [One N] [Add N] [Sub N] [Mul N] [RDiv N] (root : N) (offset : Nat) :
    Nat → List N → List N → N → Nat → Res (List N)
  | 0, _, _, _, _ => .fuel
  | f + 1, values, div, coeff, selfDegree =>
    if selfDegree ≥ 1 then do
      let scale ← rdiv coeff 1
      let l ← usub values.length selfDegree
      let loc ← usub l 1
      if loc + 1 < values.length then do
        let values := values.modify loc (· - 1 * scale)
        let values := values.modify (loc + 1) (· + root * scale)
        let i ← usub offset selfDegree
        if i < div.length then
          let div := div.set i scale
          match firstTerm values with
          | .zeroTerm => .ok div
          | .term coeffx degree => divLoop root offset f values div coeffx degree
        else .panic
      else .panic
    else .ok div

/-- `div` (src/polynomial/find_roots.rs 118-151): divides by `x - root`. -/
def divRoot [Zero N] [NumZero N] [One N] [Add N] [Sub N] [Mul N] [RDiv N] (fuel : Nat)
    (values : List N) (root : N) : Res (List N) :=
  match firstTerm values with
  | .zeroTerm => .ok []
  | .term _ 1 => .ok []
  | .term coeff degree => divLoop root degree fuel values (List.replicate degree 0) coeff degree

/-- `normalize` (src/polynomial/find_roots.rs 153-162). -/
def normalize [Zero N] [NumZero N] [RDiv N] (values : List N) : Res (List N) :=
  let fi := firstNonzeroIndex values
  match values.drop fi with
  | [] => .ok values
  | first :: rest => do
    let t ← (first :: rest).mapM (fun val => rdiv val first)
    .ok (values.take fi ++ t)

/-- The inner `match` of the quadratic case (src/polynomial/find_roots.rs 172-178). -/
def quadCoeffs [Zero N] : List (N × Nat) → Res (N × N)
  | [] => .ok (0, 0)
  | [(xc, 0)] => .ok (0, xc)
  | [(xb, 1)] => .ok (xb, 0)
  | [(xb, 1), (xc, 0)] => .ok (xb, xc)
  | _ => .panic

/-- The inner `match` of the cubic case (src/polynomial/find_roots.rs 186-196). -/
def cubicCoeffs [Zero N] : List (N × Nat) → Res (N × N × N)
  | [] => .ok (0, 0, 0)
  | [(xd, 0)] => .ok (0, 0, xd)
  | [(xc, 1)] => .ok (0, xc, 0)
  | [(xc, 1), (xd, 0)] => .ok (0, xc, xd)
  | [(xb, 2)] => .ok (xb, 0, 0)
  | [(xb, 2), (xd, 0)] => .ok (xb, 0, xd)
  | [(xb, 2), (xc, 1)] => .ok (xb, xc, 0)
  | [(xb, 2), (xc, 1), (xd, 0)] => .ok (xb, xc, xd)
  | _ => .panic

/-- `find_roots_special` (src/polynomial/find_roots.rs 165-205); `f64` is `N`.  The `match` on a
slice whose first element has degree 2 or 3 is written as a nested test. -/
def findRootsSpecial [Mul N] [RDiv N] [Sub N] [Add N] [AbsSqrt N] [Cbrt N] [IsPositive N] [Zero N]
    [NumZero N] [One N] [Neg N] [NatCast N] (poly : List (N × Nat)) : Res (Option (Roots N)) :=
  match poly with
  | [] => .ok (some .infiniteRoots)
  | [(_, 0)] => .ok (some .noRoots)
  | [_] => .ok (some (.manyRealRoots [0]))
  | [(c1, 1), (c2, 0)] => do
    let r ← rdiv (-c2) c1
    .ok (some (.manyRealRoots [r]))
  | (a, 2) :: oneOrMore => do
    let (b, c) ← quadCoeffs oneOrMore
    let r ← trinomialRoots a b c
    match r with
    | .twoComplexRoots a b => .ok (some (.manyComplexRoots [a, b]))
    | .twoRealRoots a b => .ok (some (.manyRealRoots [a, b]))
    | _ => .panic
  | (a, 3) :: oneOrMore => do
    let (b, c, d) ← cubicCoeffs oneOrMore
    let r ← cubicRoots a b c d
    match r with
    | .threeComplexRoots a b c => .ok (some (.manyComplexRoots [a, b, c]))
    | .threeRealRoots a b c => .ok (some (.manyRealRoots [a, b, c]))
    | _ => .panic
  | _ => .ok none

end

section
variable {N : Type} [Zero N] [NumZero N] [One N] [Add N] [Sub N] [Mul N] [RDiv N] [AbsLess N]

/-- Choice between a root and its rounding (src/polynomial/find_roots.rs 255-262); `rnd` is
`f64::round`, `eval` is `poly.eval`. -/
def pickRoot (rnd eval : N → N) (root : N) : N :=
  if absLess (eval (rnd root)) (eval root) then rnd root else root

/-- The `for root in temp_roots` loop (src/polynomial/find_roots.rs 254-265): `roots` and
`nvalues`. -/
def deflate (rnd eval : N → N) (fuel : Nat) :
    List N → List N → List N → Res (List N × List N)
  | [], roots, nvalues => .ok (roots, nvalues)
  | root :: rest, roots, nvalues => do
    let root := pickRoot rnd eval root
    let nvalues ← divRoot fuel nvalues root
    deflate rnd eval fuel rest (roots ++ [root]) nvalues

/-- The `loop` of `find_roots` (src/polynomial/find_roots.rs 232-280).  `oracle` is
`find_roots_sturm` of the external crate `roots` with its error results dropped (233-236), a function of the
slice only; `degree` is `poly.degree()`; `fuel0` bounds the inner loop of `div`. -/
def findRootsLoop (oracle : List N → List N) (rnd eval : N → N) (degree : Degree) (fuel0 : Nat) :
    Nat → List N → List N → List N → Res (Roots N)
  | 0, _, _, _ => .fuel
  | f + 1, values, nvalues, roots => do
    let tail ← sliceFrom values 1
    let tempRoots := oracle tail
    if tempRoots.isEmpty then
      match degree with
      | .num x =>
        if x = tempRoots.length then .ok (.manyRealRoots roots)
        else if roots.isEmpty then .ok .noRoots
        else .ok (.onlyRealRoots roots)
      | .negInf => .panic
    else do
      let (roots, nvalues) ← deflate rnd eval fuel0 tempRoots roots nvalues
      if nvalues.isEmpty then
        if roots.isEmpty then .ok .noRoots else .ok (.manyRealRoots roots)
      else do
        let nvalues ← normalize nvalues
        match nvalues with
        | [] => .panic
        | leading :: _ => do
          let values ← nvalues.mapM (fun val => rdiv val leading)
          findRootsLoop oracle rnd eval degree fuel0 f values nvalues roots

/-- Writing `vals[1..]` into `values` and `nvalues` (src/polynomial/find_roots.rs 226-229). -/
def fillValues (leading : N) (degree : Nat) :
    List (N × Nat) → List N → List N → Res (List N × List N)
  | [], values, nvalues => .ok (values, nvalues)
  | (val, valDeg) :: rest, values, nvalues => do
    let i ← usub degree valDeg
    if i < values.length ∧ i < nvalues.length then do
      let q ← rdiv val leading
      fillValues leading degree rest (values.set i q) (nvalues.set i val)
    else .panic

variable [AbsSqrt N] [Cbrt N] [IsPositive N] [Neg N] [NatCast N]

/-- `find_roots` (src/polynomial/find_roots.rs 209-281): `vals` is `poly.terms_as_vec()`, `degree`
is `poly.degree()`, `eval` is `poly.eval`. -/
def findRoots (oracle : List N → List N) (rnd : N → N) (fuel : Nat)
    (vals : List (N × Nat)) (degree : Degree) (eval : N → N) : Res (Roots N) := do
  let special ← findRootsSpecial vals
  match special with
  | some roots => .ok roots
  | none =>
    match vals with
    | [] => .panic
    | (leading, deg) :: rest => do
      let (values, nvalues) ← fillValues leading deg rest (List.replicate (deg + 1) 0)
        ((List.replicate (deg + 1) 0).set 0 leading)
      findRootsLoop oracle rnd eval degree fuel fuel values nvalues []

/-- `Polynomial<f64>::roots` (src/polynomial/polynomial.rs 283-285). -/
def Poly.roots (oracle : List N → List N) (rnd : N → N) (fuel : Nat) (p : Poly N) :
    Res (Roots N) :=
  findRoots oracle rnd fuel p.termsAsVec p.degree p.eval

/-- `SparsePolynomial<f64>::roots` (src/polynomial/sparsepolynomial.rs 211-213). -/
def Sparse.roots (oracle : List N → List N) (rnd : N → N) (fuel : Nat) [PowUsize N] (p : Sparse N) :
    Res (Roots N) :=
  findRoots oracle rnd fuel p.termsAsVec p.degree p.eval

end

section
variable {N : Type}

/-- `Monomial::root` (src/polynomial/monomial.rs 197-203). -/
def Monomial.root [Zero N] [NumZero N] (m : Monomial N) : Roots N :=
  match m.degree with
  | .negInf => .infiniteRoots
  | .num 0 => .noRoots
  | .num _ => .oneRealRoot 0

/-- `LinearBinomial::root` (src/polynomial/binomial.rs 70-81). -/
def LinearBinomial.root [Zero N] [NumZero N] [Neg N] [RDiv N] (b : LinearBinomial N) : Res (Roots N) :=
  if isZero b.c0 then
    if isZero b.c1 then .ok .infiniteRoots else .ok .noRoots
  else do
    let r ← rdiv (-b.c1) b.c0
    .ok (.oneRealRoot r)

/-- `ArrayPolynomial<N, 2>::root` (src/polynomial/array_polynomial.rs 281-292); the pattern
`[a, b]` is irrefutable for SIZE = 2. -/
def ArrayPoly.root [Zero N] [NumZero N] [Neg N] [RDiv N] (p : ArrayPoly N 2) : Res (Roots N) :=
  match p.coefficients with
  | [a, b] =>
    if isZero a then
      if isZero b then .ok .infiniteRoots else .ok .noRoots
    else do
      let r ← rdiv (-b) a
      .ok (.oneRealRoot r)
  | _ => .panic

variable [Zero N] [NumZero N] [Mul N] [Neg N] [Sub N] [Add N] [NatCast N] [RDiv N] [AbsSqrt N]
  [IsPositive N] [One N]

/-- `QuadraticTrinomial::discriminant` (src/polynomial/trinomial.rs 68-71). -/
def QuadraticTrinomial.discriminant (t : QuadraticTrinomial N) : N :=
  discriminantTrinomial t.c0 t.c1 t.c2

/-- `QuadraticTrinomial::roots` (src/polynomial/trinomial.rs 75-78). -/
def QuadraticTrinomial.roots (t : QuadraticTrinomial N) : Res (Roots N) :=
  trinomialRoots t.c0 t.c1 t.c2

/-- `QuadraticTrinomial::complex_factors` (src/polynomial/trinomial.rs 80-100). -/
def QuadraticTrinomial.complexFactors (t : QuadraticTrinomial N) :
    Res (N × LinearBinomial (Cplx N) × LinearBinomial (Cplx N)) := do
  let roots ← t.roots
  match roots with
  | .twoComplexRoots rootA rootB =>
    .ok (t.c0, .new ⟨1, -0⟩ rootA, .new ⟨1, -0⟩ rootB)
  | .twoRealRoots a b =>
    .ok (t.c0, .new ⟨1, 0⟩ ⟨-a, 0⟩, .new ⟨1, 0⟩ ⟨-b, 0⟩)
  | _ => .panic

/-- `QuadraticTrinomial::real_factors` (src/polynomial/trinomial.rs 102-112). -/
def QuadraticTrinomial.realFactors (t : QuadraticTrinomial N) :
    Res (Option (N × LinearBinomial N × LinearBinomial N)) := do
  let roots ← t.roots
  match roots with
  | .twoRealRoots rootA rootB => .ok (some (t.c0, .new 1 (-rootA), .new 1 (-rootB)))
  | _ => .ok none

/-- `ArrayPolynomial<N, 3>::roots` (src/polynomial/array_polynomial.rs 149-152). -/
def ArrayPoly.roots3 (p : ArrayPoly N 3) : Res (Roots N) :=
  match p.coefficients with
  | [a, b, c] => trinomialRoots a b c
  | _ => .panic

/-- `ArrayPolynomial<N, 3>::discriminant` (src/polynomial/array_polynomial.rs 142-145). -/
def ArrayPoly.discriminant (p : ArrayPoly N 3) : Res N :=
  match p.coefficients with
  | [a, b, c] => .ok (discriminantTrinomial a b c)
  | _ => .panic

/-- `ArrayPolynomial<N, 3>::real_factors` (src/polynomial/array_polynomial.rs 182-192). -/
def ArrayPoly.realFactors (p : ArrayPoly N 3) : Res (Option (N × ArrayPoly N 2 × ArrayPoly N 2)) :=
  match p.coefficients with
  | [c0, _, _] => do
    let roots ← p.roots3
    match roots with
    | .twoRealRoots rootA rootB => .ok (some (c0, ⟨[1, -rootA], rfl⟩, ⟨[1, -rootB], rfl⟩))
    | _ => .ok none
  | _ => .panic

/-- `ArrayPolynomial<N, 3>::complex_factors` (src/polynomial/array_polynomial.rs 154-180). -/
def ArrayPoly.complexFactors (p : ArrayPoly N 3) :
    Res (N × ArrayPoly (Cplx N) 2 × ArrayPoly (Cplx N) 2) :=
  match p.coefficients with
  | [c0, _, _] => do
    let roots ← p.roots3
    match roots with
    | .twoComplexRoots rootA rootB => .ok (c0, ⟨[⟨1, -0⟩, rootA], rfl⟩, ⟨[⟨1, -0⟩, rootB], rfl⟩)
    | .twoRealRoots a b => .ok (c0, ⟨[⟨1, 0⟩, ⟨-a, 0⟩], rfl⟩, ⟨[⟨1, 0⟩, ⟨-b, 0⟩], rfl⟩)
    | _ => .panic
  | _ => .panic

end
end Rustnomial
