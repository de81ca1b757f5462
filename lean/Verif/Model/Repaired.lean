import Verif.Model.Sparse
import Verif.Model.FindRoots

/-!
# Repairs

The functions of src/polynomial for which a claim of properties.jsonl is false, each changed in the one place named in its comment.  They are
not code of the repository; nothing else in the model uses them.
-/

namespace Rustnomial

variable {N : Type}

/-- `Rem::rem` (src/polynomial/polynomial.rs 535-565) with `first_term(&remainder)` for `first_term(&self.terms)` in line 555: the loop is then
that of `rem_assign` (589-598). -/
def Poly.remRepaired [Zero N] [NumZero N] [Mul N] [Sub N] [RDiv N] (fuel : Nat) (p rhs : Poly N) : Res (Poly N) :=
  match firstTerm rhs.terms with
  | .zeroTerm => .panic
  | .term rhsFirst rhsDeg =>
    match firstTerm p.terms with
    | .zeroTerm => .ok p
    | .term coeff degree =>
      if degree < rhsDeg then .ok p
      else do
        let scale ← rdiv coeff rhsFirst
        let remainder ← Poly.remAssignLoop rhs.terms rhsFirst rhsDeg fuel scale degree p.terms
        .ok (Poly.new remainder)

/-- `slice_mul` (src/polynomial/polynomial.rs 55-71) with `(rhs.len() + lhs.len()).saturating_sub(1)`. -/
def sliceMulRepaired [Zero N] [NumZero N] [Add N] [Mul N] (lhs rhs : List N) : Res (List N) := do
  let rhs ← sliceFrom rhs (firstNonzeroIndex rhs)
  let lhs ← sliceFrom lhs (firstNonzeroIndex lhs)
  sliceMulLoop lhs rhs 0 (List.replicate (rhs.length + lhs.length - 1) 0)

/-- `Mul<&Polynomial>` (src/polynomial/polynomial.rs 809-811, 833-835) with the above. -/
def Poly.mulRepaired [Zero N] [NumZero N] [Add N] [Mul N] (p q : Poly N) : Res (Poly N) := do
  let terms ← sliceMulRepaired p.terms q.terms
  .ok (Poly.new terms)

/-- `Polynomial::pow` (src/polynomial/polynomial.rs 455-469) with the above. -/
def Poly.powRepaired [Zero N] [NumZero N] [One N] [Add N] [Mul N] (p : Poly N) (exp : Nat) : Res (Poly N) :=
  if exp = 0 then .ok ⟨List.replicate 1 1⟩
  else if exp = 1 then .ok (Poly.new p.terms)
  else if exp = 2 then p.mulRepaired p
  else if exp % 2 = 0 then do
    let h ← powRepaired p (exp / 2)
    powRepaired h 2
  else do
    let h ← powRepaired p (exp - 1)
    p.mulRepaired h
termination_by exp
decreasing_by all_goals omega

/-- Non-negative branch of `Shr<i32>` (src/polynomial/polynomial.rs 923-931) with `index.min(self.terms.len() - rhs)` for `index`. -/
def Poly.shrPosRepaired [Zero N] [NumZero N] (p : Poly N) (k : Nat) : Res (Poly N) :=
  let index := firstNonzeroIndex p.terms
  if k > p.terms.length then .ok ⟨[]⟩
  else do
    let terms ← sliceRange p.terms (min index (p.terms.length - k)) (p.terms.length - k)
    .ok ⟨terms⟩

/-- `Shr<i32>` (src/polynomial/polynomial.rs 919-933) with the above, and with `rhs.unsigned_abs()` for `-rhs`. -/
def Poly.shrRepaired [Zero N] [NumZero N] (p : Poly N) (rhs : Int) : Res (Poly N) :=
  if rhs < 0 then p.shlPos rhs.natAbs else p.shrPosRepaired rhs.natAbs

/-- `Shl<i32>` (src/polynomial/polynomial.rs 894-903) with the same changes. -/
def Poly.shlRepaired [Zero N] [NumZero N] (p : Poly N) (rhs : Int) : Res (Poly N) :=
  if rhs < 0 then p.shrPosRepaired rhs.natAbs else p.shlPos rhs.natAbs

/-- Loop of `derivative` (src/polynomial/polynomial.rs 392-395) with the multiplication before the subtraction. -/
def derivLoopRepaired [Sub N] [One N] [Mul N] : List N → N → List N
  | [], _ => []
  | term :: rest, degree => term * degree :: derivLoopRepaired rest (degree - 1)

/-- `derivative` (src/polynomial/polynomial.rs 381-397), converting the degree instead of the length. -/
def Poly.derivativeRepaired [Zero N] [NumZero N] [One N] [Sub N] [Mul N] [FromUsizeCont N] (p : Poly N) : Res (Poly N) :=
  match p.terms.drop (firstNonzeroIndex p.terms) with
  | [] => .ok Poly.zero
  | x :: xs =>
    match (tryFromCont xs.length : Option N) with
    | none => .panic
    | some degree => .ok ⟨derivLoopRepaired (x :: xs).dropLast degree⟩

/-- `map_sub_w_scale` (src/polynomial/sparsepolynomial.rs 50-64) with a further argument `shift`, added to every degree `rdeg`. -/
def mapSubWScaleRepaired [Neg N] [Sub N] [Mul N] (lhs rhs : BMap N) (rhsScale : N) (shift : Nat) : BMap N :=
  rhs.entries.foldl (fun m e => m.upsert (e.1 + shift) (-e.2 * rhsScale) (· - e.2 * rhsScale)) lhs

section
variable [Zero N] [NumZero N] [Neg N] [Sub N] [Mul N] [Add N] [RDiv N]

/-- Loop of `div_mod` (src/polynomial/sparsepolynomial.rs 547-559) with `self_degree - rhs_deg` as that argument and in place of `offset`. -/
def Sparse.divModLoopRepaired (rhs : BMap N) (rhsFirst : N) (rhsDeg : Nat) : Nat → N → Nat → BMap N → Sparse N → Res (Sparse N × BMap N)
  | 0, _, _, _, _ => .fuel
  | fuel + 1, scale, selfDegree, remainder, div =>
    if selfDegree ≥ rhsDeg then
      let remainder := mapSubWScaleRepaired remainder rhs scale (selfDegree - rhsDeg)
      let div := div.addTerm scale (selfDegree - rhsDeg)
      match sparseFirstTerm remainder with
      | .zeroTerm => .ok (div, remainder)
      | .term coeff degree => do
        let scale ← rdiv coeff rhsFirst
        divModLoopRepaired rhs rhsFirst rhsDeg fuel scale degree remainder div
    else .ok (div, remainder)

/-- `div_mod` (src/polynomial/sparsepolynomial.rs 517-562) with the above. -/
def Sparse.divModRepaired (fuel : Nat) (p rhs : Sparse N) : Res (Sparse N × Sparse N) :=
  match sparseFirstTerm rhs.terms with
  | .zeroTerm => .panic
  | .term rhsFirst rhsDeg =>
    match sparseFirstTerm p.terms with
    | .zeroTerm => .ok (Sparse.zero, Sparse.new p.terms)
    | .term term degree =>
      if degree < rhsDeg then .ok (Sparse.zero, Sparse.new p.terms)
      else do
        let scale ← rdiv term rhsFirst
        let (div, remainder) ← divModLoopRepaired rhs.terms rhsFirst rhsDeg fuel scale degree p.terms (Sparse.fromVec [])
        .ok (div, Sparse.new remainder)

/-- The above loop with `remainder.retain(|&degree, _| degree < self_degree)` after the subtraction (line 548): the leading term, which is
meant to cancel, is dropped. -/
def Sparse.divModLoopDrop (rhs : BMap N) (rhsFirst : N) (rhsDeg : Nat) : Nat → N → Nat → BMap N → Sparse N → Res (Sparse N × BMap N)
  | 0, _, _, _, _ => .fuel
  | fuel + 1, scale, selfDegree, remainder, div =>
    if selfDegree ≥ rhsDeg then
      let remainder := mapSubWScaleRepaired remainder rhs scale (selfDegree - rhsDeg)
      let remainder := remainder.retain fun degree _ => degree < selfDegree
      let div := div.addTerm scale (selfDegree - rhsDeg)
      match sparseFirstTerm remainder with
      | .zeroTerm => .ok (div, remainder)
      | .term coeff degree => do
        let scale ← rdiv coeff rhsFirst
        divModLoopDrop rhs rhsFirst rhsDeg fuel scale degree remainder div
    else .ok (div, remainder)

/-- `div_mod` (src/polynomial/sparsepolynomial.rs 517-562) with that loop. -/
def Sparse.divModDrop (fuel : Nat) (p rhs : Sparse N) : Res (Sparse N × Sparse N) :=
  match sparseFirstTerm rhs.terms with
  | .zeroTerm => .panic
  | .term rhsFirst rhsDeg =>
    match sparseFirstTerm p.terms with
    | .zeroTerm => .ok (Sparse.zero, Sparse.new p.terms)
    | .term term degree =>
      if degree < rhsDeg then .ok (Sparse.zero, Sparse.new p.terms)
      else do
        let scale ← rdiv term rhsFirst
        let (div, remainder) ← divModLoopDrop rhs.terms rhsFirst rhsDeg fuel scale degree p.terms (Sparse.fromVec [])
        .ok (div, Sparse.new remainder)

end

/-- `ordered_term_iter` (src/polynomial/array_polynomial.rs 196-207) with `SIZE - index - 1` for `1 - index`. -/
def ArrayPoly.orderedTermIterRepaired {size : Nat} [Zero N] [NumZero N] (p : ArrayPoly N size) : Res (List (N × Nat)) :=
  p.coefficients.zipIdx.foldlM (fun acc e =>
    if isZero e.1 then .ok acc
    else do
      let d ← usub size (e.2 + 1)
      Res.ok (acc ++ [(e.1, d)])) []

/-- Power by repeated squaring with the whole of the exponent, in place of `PowUsize::upow` (src/numerics.rs 83-124). -/
def upowRepaired [Mul N] (acc base : N) (exp : Nat) : N :=
  if exp = 0 then acc
  else upowRepaired (if exp % 2 = 1 then acc * base else acc) (base * base) (exp / 2)
termination_by exp
decreasing_by omega

/-- `eval` (src/polynomial/sparsepolynomial.rs 374-380) with the above. -/
def Sparse.evalRepaired [Zero N] [One N] [Add N] [Mul N] (p : Sparse N) (point : N) : N :=
  p.terms.entries.foldl (fun sum e => sum + e.2 * upowRepaired 1 point e.1) 0

section
variable [Mul N] [RDiv N] [Sub N] [Add N] [AbsSqrt N] [IsPositive N] [Zero N] [NumZero N] [One N] [Neg N] [NatCast N]

/-- `trinomial_roots` (src/polynomial/find_roots.rs 35-62) with the two roots exchanged when `a` is negative. -/
def trinomialRootsRepaired (a b c : N) : Res (Roots N) := do
  let roots ← trinomialRoots a b c
  match roots with
  | .twoRealRoots r s => .ok (if isPositive a then .twoRealRoots r s else .twoRealRoots s r)
  | roots => .ok roots

/-- `QuadraticTrinomial::complex_factors` (src/polynomial/trinomial.rs 80-100) with `-root_a` and `-root_b`. -/
def QuadraticTrinomial.complexFactorsRepaired (t : QuadraticTrinomial N) :
    Res (N × LinearBinomial (Cplx N) × LinearBinomial (Cplx N)) := do
  let roots ← t.roots
  match roots with
  | .twoComplexRoots rootA rootB => .ok (t.c0, .new ⟨1, 0⟩ ⟨-rootA.re, -rootA.im⟩, .new ⟨1, 0⟩ ⟨-rootB.re, -rootB.im⟩)
  | .twoRealRoots a b => .ok (t.c0, .new ⟨1, 0⟩ ⟨-a, 0⟩, .new ⟨1, 0⟩ ⟨-b, 0⟩)
  | _ => .panic

/-- `cubic_roots` (src/polynomial/find_roots.rs 65-96) with the first root found by cosines,
`2·√(p²-r)·cos(arccos(q/√(p²-r)³)/3) + p`, when the radicand `q² + (r-p²)³` is negative.  The number types
have no trigonometric functions in `numerics.rs`: `cosThird t` stands for `cos(arccos(t)/3)`. -/
def cubicRootsRepaired [Cbrt N] (cosThird : N → N) (a b c d : N) : Res (Roots N) := do
  let sqr := fun x : N => x * x
  let cub := fun x : N => x * x * x
  let p ← rdiv (-b) (((3 : Nat) : N) * a)
  let q0 ← rdiv (b * c - ((3 : Nat) : N) * a * d) (((6 : Nat) : N) * sqr a)
  let q := cub p + q0
  let r ← rdiv c (((3 : Nat) : N) * a)
  let radicand := sqr q + cub (r - sqr p)
  let x ← (if isPositive radicand || isZero radicand then do
      let k ← absSqrt radicand
      .ok (cbrt (q + k) + cbrt (q - k) + p)
    else do
      let s ← absSqrt (sqr p - r)
      let t ← rdiv q (cub s)
      .ok (((2 : Nat) : N) * s * cosThird t + p))
  let b' ← rdiv b a
  let b := b' + x
  let c' ← rdiv c a
  let c := c' + b * x
  let roots ← trinomialRoots 1 b c
  match roots with
  | .twoRealRoots a b => .ok (.threeRealRoots x a b)
  | .twoComplexRoots a b => .ok (.threeComplexRoots ⟨x, 0⟩ a b)
  | _ => .panic

end

section
variable [Zero N] [NumZero N] [Sub N] [Mul N] [RDiv N]

/-- `while` loop of `div_mod` (src/polynomial/polynomial.rs 501-512) with the leading coefficient of the new remainder
set to zero, `remainder[len - self_degree - 1] = N::zero()`, after the subtraction. -/
def Poly.divModLoopDrop (rhs : List N) (rhsFirst : N) (rhsDeg offset : Nat) :
    Nat → N → Nat → List N → List N → Res (List N × List N)
  | 0, _, _, _, _ => .fuel
  | fuel + 1, coeff, selfDegree, remainder, div =>
    if rhsDeg ≤ selfDegree then do
      let scale ← rdiv coeff rhsFirst
      let remainder ← vecSubWScale remainder selfDegree rhs rhsDeg scale
      let remainder := remainder.set (remainder.length - selfDegree - 1) 0
      let i ← usub offset selfDegree
      if i < div.length then
        let div := div.set i scale
        match firstTerm remainder with
        | .zeroTerm => .ok (div, remainder)
        | .term coeffx degree => divModLoopDrop rhs rhsFirst rhsDeg offset fuel coeffx degree remainder div
      else .panic
    else .ok (div, remainder)

/-- `Polynomial::div_mod` (src/polynomial/polynomial.rs 477-515) with the above. -/
def Poly.divModDrop (fuel : Nat) (p rhs : Poly N) : Res (Poly N × Poly N) :=
  match firstTerm rhs.terms with
  | .zeroTerm => .panic
  | .term rhsFirst rhsDeg =>
    match firstTerm p.terms with
    | .zeroTerm => .ok (zero, p)
    | .term coeff degree =>
      if degree < rhsDeg then .ok (zero, p)
      else do
        let (div, remainder) ← divModLoopDrop rhs.terms rhsFirst rhsDeg degree fuel coeff degree p.terms
          (List.replicate (degree - rhsDeg + 1) 0)
        .ok (new div, new remainder)

/-- `while` loop of `div_mod` (src/polynomial/polynomial.rs 501-512) that ends as soon as the degree of the remainder does
not drop, `if degree == self_degree { break; }`; for the integer types. -/
def Poly.divModLoopStop (rhs : List N) (rhsFirst : N) (rhsDeg offset : Nat) :
    Nat → N → Nat → List N → List N → Res (List N × List N)
  | 0, _, _, _, _ => .fuel
  | fuel + 1, coeff, selfDegree, remainder, div =>
    if rhsDeg ≤ selfDegree then do
      let scale ← rdiv coeff rhsFirst
      let remainder ← vecSubWScale remainder selfDegree rhs rhsDeg scale
      let i ← usub offset selfDegree
      if i < div.length then
        let div := div.set i scale
        match firstTerm remainder with
        | .zeroTerm => .ok (div, remainder)
        | .term coeffx degree =>
          if degree = selfDegree then .ok (div, remainder)
          else divModLoopStop rhs rhsFirst rhsDeg offset fuel coeffx degree remainder div
      else .panic
    else .ok (div, remainder)

/-- `Polynomial::div_mod` (src/polynomial/polynomial.rs 477-515) with the above. -/
def Poly.divModStop (fuel : Nat) (p rhs : Poly N) : Res (Poly N × Poly N) :=
  match firstTerm rhs.terms with
  | .zeroTerm => .panic
  | .term rhsFirst rhsDeg =>
    match firstTerm p.terms with
    | .zeroTerm => .ok (zero, p)
    | .term coeff degree =>
      if degree < rhsDeg then .ok (zero, p)
      else do
        let (div, remainder) ← divModLoopStop rhs.terms rhsFirst rhsDeg degree fuel coeff degree p.terms
          (List.replicate (degree - rhsDeg + 1) 0)
        .ok (new div, new remainder)

end

end Rustnomial
