import Verif.Model.BMap
import Verif.Model.Dense

/-!
# `SparsePolynomial` (src/polynomial/sparsepolynomial.rs)

Degrees are unbounded naturals: overflow of `usize` in `rhs_deg + lhs_deg`, `deg + rhs` and
`deg + 1` is not modelled.
-/

namespace Rustnomial

/-- `SparsePolynomial<N>` (src/polynomial/sparsepolynomial.rs 22-24). -/
structure Sparse (N : Type) where
  terms : BMap N

section
variable {N : Type}

/-- Inner loop of `map_mul` (src/polynomial/sparsepolynomial.rs 36-45). -/
def mapMulInner [Add N] [Mul N] (rhsDeg : Nat) (rterm : N) (lhs : List (Nat × N)) (terms : BMap N) :
    BMap N :=
  lhs.foldl (fun terms e => terms.upsert (rhsDeg + e.1) (rterm * e.2) (· + rterm * e.2)) terms

/-- `map_mul` (src/polynomial/sparsepolynomial.rs 26-48). -/
def mapMul [Zero N] [NumZero N] [Add N] [Mul N] (lhs rhs : BMap N) : BMap N :=
  rhs.entries.foldl (fun terms e =>
    if isZero e.2 then terms else mapMulInner e.1 e.2 lhs.entries terms) .empty

/-- `map_sub_w_scale` (src/polynomial/sparsepolynomial.rs 50-64). -/
def mapSubWScale [Neg N] [Sub N] [Mul N] (lhs rhs : BMap N) (rhsScale : N) : BMap N :=
  rhs.entries.foldl (fun m e => m.upsert e.1 (-e.2 * rhsScale) (· - e.2 * rhsScale)) lhs

/-- Loop of `degree` (src/polynomial/sparsepolynomial.rs 75-80). -/
def sparseDegreeLoop [Zero N] [NumZero N] : List (Nat × N) → N × Nat → N × Nat
  | [], s => s
  | (degree, coeff) :: t, (maxTerm, maxDegree) =>
    if degree > maxDegree && !isZero coeff then sparseDegreeLoop t (coeff, degree)
    else sparseDegreeLoop t (maxTerm, maxDegree)

/-- `degree` (src/polynomial/sparsepolynomial.rs 66-87). -/
def sparseDegree [Zero N] [NumZero N] (terms : BMap N) : Degree :=
  match terms.entries with
  | [] => .negInf
  | (degree, coeff) :: t =>
    let s := sparseDegreeLoop t (coeff, degree)
    if isZero s.1 then .negInf else .num s.2

/-- `first_term` (src/polynomial/sparsepolynomial.rs 89-100). -/
def sparseFirstTerm [Zero N] [NumZero N] (terms : BMap N) : Term N :=
  match sparseDegree terms with
  | .negInf => .zeroTerm
  | .num degree =>
    match terms.get degree with
    | none => .zeroTerm
    | some val => Term.new val degree

end

namespace Sparse
variable {N : Type}

/-- `SparsePolynomial::new` (src/polynomial/sparsepolynomial.rs 289-291). -/
def new (terms : BMap N) : Sparse N := ⟨terms⟩

/-- `term_with_degree` (src/polynomial/sparsepolynomial.rs 103-108). -/
def termWithDegree [Zero N] [NumZero N] (p : Sparse N) (degree : Nat) : Term N :=
  match p.terms.get degree with
  | none => .zeroTerm
  | some coeff => Term.new coeff degree

/-- `ordered_term_iter` (src/polynomial/sparsepolynomial.rs 317-325), as the list of items. -/
def orderedTermIter [Zero N] [NumZero N] (p : Sparse N) : List (N × Nat) :=
  p.terms.entries.reverse.filterMap fun e => if isZero e.2 then none else some (e.2, e.1)

/-- `terms_as_vec` (src/polynomial/sparsepolynomial.rs 110-112). -/
def termsAsVec [Zero N] [NumZero N] (p : Sparse N) : List (N × Nat) := p.orderedTermIter

/-- `degree` (src/polynomial/sparsepolynomial.rs 124-126). -/
def degree [Zero N] [NumZero N] (p : Sparse N) : Degree := sparseDegree p.terms

/-- `is_zero` (src/polynomial/traits.rs 48-50). -/
def isZeroPoly [Zero N] [NumZero N] (p : Sparse N) : Bool := p.degree.isZeroPoly

/-- `zero` (src/polynomial/sparsepolynomial.rs 139-143). -/
def zero : Sparse N := ⟨.empty⟩

/-- `set_to_zero` (src/polynomial/sparsepolynomial.rs 156-158). -/
def setToZero (_p : Sparse N) : Sparse N := ⟨.empty⟩

/-- `trim`, feature `sparse_poly_trim` (src/polynomial/sparsepolynomial.rs 311-313). -/
def trim [Zero N] [NumZero N] (p : Sparse N) : Sparse N := ⟨p.terms.retain fun _ v => !isZero v⟩

/-- `add_term` (src/polynomial/sparsepolynomial.rs 272-285). -/
def addTerm [Zero N] [NumZero N] [Add N] (p : Sparse N) (coeff : N) (degree : Nat) : Sparse N :=
  if isZero coeff then p else ⟨p.terms.upsert degree coeff (· + coeff)⟩

/-- `from_terms` (src/polynomial/sparsepolynomial.rs 264-270). -/
def fromTerms [Zero N] [NumZero N] [Add N] (terms : List (N × Nat)) : Sparse N :=
  terms.foldl (fun a t => a.addTerm t.1 t.2) (new .empty)

/-- `try_add_term` (src/polynomial/sparsepolynomial.rs 165-167): the new value of `*self` and the
returned `Result`. -/
def tryAddTerm [Zero N] [NumZero N] [Add N] (p : Sparse N) (coeff : N) (degree : Nat) :
    Sparse N × Except TryAddError Unit := (p.addTerm coeff degree, .ok ())

/-- `try_sub_term` (src/polynomial/sparsepolynomial.rs 169-188): the new value of `*self` and the
returned `Result`. -/
def trySubTerm [Zero N] [NumZero N] [Sub N] [CanNegate N] (p : Sparse N) (coeff : N) (degree : Nat) :
    Sparse N × Except TryAddError Unit :=
  if isZero coeff then (p, .ok ())
  else
    match p.terms.get degree with
    | none =>
      if !CanNegate.canNegate N then (p, .error .canNotNegate)
      else (⟨p.terms.insert degree (0 - coeff)⟩, .ok ())
    | some val => (⟨p.terms.insert degree (val - coeff)⟩, .ok ())

/-- `From<Vec<N>>` (src/polynomial/sparsepolynomial.rs 346-357); `degree - index` does not underflow
because `index < len`. -/
def fromVec [Zero N] [NumZero N] (termVec : List N) : Sparse N :=
  if termVec.isEmpty then ⟨.empty⟩
  else
    let degree := termVec.length - 1
    ⟨termVec.zipIdx.foldl (fun terms e =>
      if !isZero e.1 then terms.insert (degree - e.2) e.1 else terms) .empty⟩

/-- `From<SparsePolynomial<A>> for SparsePolynomial<B>` (src/polynomial/sparsepolynomial.rs
233-241), for a cast `A as B`. -/
def upcast {A B : Type} (cast : A → B) (p : Sparse A) : Sparse B :=
  new (.ofList (p.terms.entries.map fun e => (e.1, cast e.2)))

/-- `eval` (src/polynomial/sparsepolynomial.rs 374-380). -/
def eval [Zero N] [Add N] [Mul N] [PowUsize N] (p : Sparse N) (point : N) : N :=
  p.terms.entries.foldl (fun sum e => sum + e.2 * upow point e.1) 0

/-- `derivative` (src/polynomial/sparsepolynomial.rs 400-413). -/
def derivative [Zero N] [NumZero N] [Mul N] [FromUsizeExact N] (p : Sparse N) : Res (Sparse N) := do
  let terms ← p.terms.entries.foldlM (fun terms e =>
    if !isZero e.2 && e.1 != 0 then
      match (tryFromExact e.1 : Option N) with
      | none => Res.panic
      | some d => .ok (terms.insert (e.1 - 1) (e.2 * d))
    else .ok terms) .empty
  .ok ⟨terms⟩

/-- `integral` (src/polynomial/sparsepolynomial.rs 440-452): the `SparsePolynomial` inside the
`Integral`. -/
def integral [RDiv N] [FromUsizeExact N] (p : Sparse N) : Res (Sparse N) := do
  let terms ← p.terms.entries.foldlM (fun terms e =>
    match (tryFromExact (e.1 + 1) : Option N) with
    | none => Res.panic
    | some d => do
      let v ← rdiv e.2 d
      .ok (terms.insert (e.1 + 1) v)) .empty
  .ok (new terms)

/-- `borrow_mul` (src/polynomial/sparsepolynomial.rs 459-463); also `Mul`/`MulAssign` by value and
by reference (817-850), which compute the same map. -/
def mul [Zero N] [NumZero N] [Add N] [Mul N] (p rhs : Sparse N) : Sparse N :=
  ⟨mapMul p.terms rhs.terms⟩

/-- `pow` (src/polynomial/sparsepolynomial.rs 477-495). -/
def pow [Zero N] [NumZero N] [One N] [Add N] [Mul N] (p : Sparse N) (exp : Nat) : Sparse N :=
  if exp = 0 then ⟨BMap.empty.insert 0 1⟩
  else if exp = 1 then new p.terms
  else if exp = 2 then p.mul p
  else if exp % 2 = 0 then pow (pow p (exp / 2)) 2
  else p.mul (pow p (exp - 1))
termination_by exp
decreasing_by all_goals omega

section Div
variable [Zero N] [NumZero N] [Neg N] [Sub N] [Mul N] [Add N] [RDiv N]

/-- Loop of `div_mod` (src/polynomial/sparsepolynomial.rs 547-559). -/
def divModLoop (rhs : BMap N) (rhsFirst : N) (rhsDeg offset : Nat) :
    Nat → N → Nat → BMap N → Sparse N → Res (Sparse N × BMap N)
  | 0, _, _, _, _ => .fuel
  | fuel + 1, scale, selfDegree, remainder, div =>
    if selfDegree ≥ rhsDeg then
      let remainder := mapSubWScale remainder rhs scale
      let div := div.addTerm scale offset
      match sparseFirstTerm remainder with
      | .zeroTerm => .ok (div, remainder)
      | .term coeff degree => do
        let scale ← rdiv coeff rhsFirst
        divModLoop rhs rhsFirst rhsDeg offset fuel scale degree remainder div
    else .ok (div, remainder)

/-- `div_mod` (src/polynomial/sparsepolynomial.rs 517-562). -/
def divMod (fuel : Nat) (p rhs : Sparse N) : Res (Sparse N × Sparse N) :=
  match sparseFirstTerm rhs.terms with
  | .zeroTerm => .panic
  | .term rhsFirst rhsDeg =>
    match sparseFirstTerm p.terms with
    | .zeroTerm => .ok (zero, new p.terms)
    | .term term degree =>
      if degree < rhsDeg then .ok (zero, new p.terms)
      else do
        let scale ← rdiv term rhsFirst
        let (div, remainder) ← divModLoop rhs.terms rhsFirst rhsDeg (degree - rhsDeg) fuel scale degree
          p.terms (fromVec [])
        .ok (div, new remainder)

/-- Loop of `Rem::rem` and `RemAssign::rem_assign` (src/polynomial/sparsepolynomial.rs 601-612,
650-661). -/
def remLoop (rhs : BMap N) (rhsFirst : N) (rhsDeg : Nat) : Nat → N → Nat → BMap N → Res (BMap N)
  | 0, _, _, _ => .fuel
  | fuel + 1, scale, selfDegree, remainder =>
    if selfDegree ≥ rhsDeg then
      let remainder := mapSubWScale remainder rhs scale
      match sparseFirstTerm remainder with
      | .zeroTerm => .ok remainder
      | .term coeff degree => do
        let scale ← rdiv coeff rhsFirst
        remLoop rhs rhsFirst rhsDeg fuel scale degree remainder
    else .ok remainder

/-- `Rem::rem` (src/polynomial/sparsepolynomial.rs 579-615) and `RemAssign::rem_assign` (630-662),
which compute the same map. -/
def rem (fuel : Nat) (p rhs : Sparse N) : Res (Sparse N) :=
  match sparseFirstTerm rhs.terms with
  | .zeroTerm => .panic
  | .term rhsFirst rhsDeg =>
    match sparseFirstTerm p.terms with
    | .zeroTerm => .ok (new p.terms)
    | .term term degree =>
      if degree < rhsDeg then .ok (new p.terms)
      else do
        let scale ← rdiv term rhsFirst
        let remainder ← remLoop rhs.terms rhsFirst rhsDeg fuel scale degree p.terms
        .ok (new remainder)

end Div

/-- `PartialEq::eq` (src/polynomial/sparsepolynomial.rs 682-693). -/
def eq [Zero N] [NumZero N] [BEq N] (p other : Sparse N) : Bool :=
  (p.terms.entries.all fun e =>
    match other.terms.get e.1 with
    | none => isZero e.2
    | some v => e.2 == v) &&
  (other.terms.entries.all fun e =>
    match p.terms.get e.1 with
    | none => isZero e.2
    | some v => e.2 == v)

/-- `Neg::neg` (src/polynomial/sparsepolynomial.rs 702-708). -/
def neg [Neg N] (p : Sparse N) : Sparse N :=
  new (p.terms.entries.foldl (fun terms e => terms.insert e.1 (-e.2)) .empty)

/-- `Sub` (src/polynomial/sparsepolynomial.rs 717-729) and `SubAssign` (757-768): the same loop. -/
def sub [Neg N] [Sub N] (p rhs : Sparse N) : Sparse N :=
  ⟨rhs.terms.entries.foldl (fun m e => m.upsert e.1 (-e.2) (· - e.2)) p.terms⟩

/-- `Sub<Polynomial<N>>` (src/polynomial/sparsepolynomial.rs 738-750). -/
def subDense [Zero N] [NumZero N] [Neg N] [Sub N] (p : Sparse N) (rhs : Poly N) : Sparse N :=
  ⟨rhs.orderedTermIter.foldl (fun m e => m.upsert e.2 (-e.1) (· - e.1)) p.terms⟩

/-- `Add` (src/polynomial/sparsepolynomial.rs 777-793). -/
def add [Add N] (p rhs : Sparse N) : Sparse N :=
  let terms := rhs.terms.entries.foldl (fun m e => m.insert e.1 e.2) .empty
  ⟨p.terms.entries.foldl (fun m e => m.upsert e.1 e.2 (· + e.2)) terms⟩

/-- `AddAssign` (src/polynomial/sparsepolynomial.rs 797-808). -/
def addAssign [Add N] (p rhs : Sparse N) : Sparse N :=
  ⟨rhs.terms.entries.foldl (fun m e => m.upsert e.1 e.2 (· + e.2)) p.terms⟩

/-- `Mul<N>` (src/polynomial/sparsepolynomial.rs 856-863). -/
def mulScalar [Mul N] (p : Sparse N) (rhs : N) : Sparse N :=
  new (p.terms.entries.foldl (fun terms e => terms.insert e.1 (e.2 * rhs)) .empty)

/-- `MulAssign<N>` (src/polynomial/sparsepolynomial.rs 867-871). -/
def mulAssignScalar [Mul N] (p : Sparse N) (rhs : N) : Sparse N := ⟨p.terms.mapVals (· * rhs)⟩

/-- `Div<N>` (src/polynomial/sparsepolynomial.rs 880-887). -/
def divScalar [RDiv N] (p : Sparse N) (rhs : N) : Res (Sparse N) := do
  let terms ← p.terms.entries.foldlM (fun terms e => do
    let v ← rdiv e.2 rhs
    Res.ok (terms.insert e.1 v)) .empty
  .ok (new terms)

/-- `DivAssign<N>` (src/polynomial/sparsepolynomial.rs 894-898): in place, entry by entry; the keys
do not change, so this is re-inserting each key with its new value. -/
def divAssignScalar [RDiv N] (p : Sparse N) (rhs : N) : Res (Sparse N) := do
  let terms ← p.terms.entries.foldlM (fun terms e => do
    let v ← rdiv e.2 rhs
    Res.ok (terms.insert e.1 v)) p.terms
  .ok ⟨terms⟩

/-- Non-negative branch of `Shl`/`ShlAssign` (src/polynomial/sparsepolynomial.rs 908-913,
923-928). -/
def shlPos (p : Sparse N) (k : Nat) : Sparse N :=
  new (p.terms.entries.foldl (fun terms e => terms.insert (e.1 + k) e.2) .empty)

/-- Non-negative branch of `Shr`/`ShrAssign` (src/polynomial/sparsepolynomial.rs 940-947,
957-964). -/
def shrPos (p : Sparse N) (k : Nat) : Sparse N :=
  new (p.terms.entries.foldl (fun terms e =>
    if e.1 ≥ k then terms.insert (e.1 - k) e.2 else terms) .empty)

/-- `Shl<i32>` and `ShlAssign<i32>` (src/polynomial/sparsepolynomial.rs 904-930). -/
def shl (p : Sparse N) (rhs : Int) : Res (Sparse N) :=
  if rhs < 0 then do
    let k ← negI32 rhs
    .ok (p.shrPos k)
  else .ok (p.shlPos rhs.toNat)

/-- `Shr<i32>` and `ShrAssign<i32>` (src/polynomial/sparsepolynomial.rs 936-966). -/
def shr (p : Sparse N) (rhs : Int) : Res (Sparse N) :=
  if rhs < 0 then do
    let k ← negI32 rhs
    .ok (p.shlPos k)
  else .ok (p.shrPos rhs.toNat)

end Sparse
end Rustnomial
