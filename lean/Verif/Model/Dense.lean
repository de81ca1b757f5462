import Verif.Model.Terms

/-!
# `Polynomial<N>` (src/polynomial/polynomial.rs)

Coefficients in descending order of degree, as in the Rust `Vec`.
-/

namespace Rustnomial

/-- `Polynomial` (src/polynomial/polynomial.rs 28-30).  `terms` is a public field, so any list is
a reachable value. -/
structure Poly (N : Type) where
  terms : List N
  deriving DecidableEq, Repr

section Scan
variable {N : Type} [Zero N] [NumZero N]

/-- `coeffs.chunks_exact(4)` and its `remainder()`
(used at src/polynomial/polynomial.rs 36, 44, 45, 102, 110, 111). -/
def chunks4 : List N → List (List N) × List N
  | a :: b :: c :: d :: rest => ([a, b, c, d] :: (chunks4 rest).1, (chunks4 rest).2)
  | l => ([], l)

/-- Inner loop over one chunk of `first_nonzero_index` / `first_term`
(src/polynomial/polynomial.rs 37-41, 103-107): first non-zero value and its index in the chunk. -/
def scanChunk : List N → Nat → Option (N × Nat)
  | [], _ => none
  | v :: vs, index => if !isZero v then some (v, index) else scanChunk vs (index + 1)

/-- Outer loop over the chunks (src/polynomial/polynomial.rs 36-42, 102-108): the value found and
its position `degree * 4 + index`. -/
def scanChunks : List (List N) → Nat → Option (N × Nat)
  | [], _ => none
  | chunk :: rest, degree =>
    match scanChunk chunk 0 with
    | some (v, index) => some (v, degree * 4 + index)
    | none => scanChunks rest (degree + 1)

/-- Loop over the remainder in `first_nonzero_index` (src/polynomial/polynomial.rs 44-52). -/
def scanRemainder : List N → Nat → Nat
  | [], len => len
  | v :: vs, len => if !isZero v then len else scanRemainder vs (len + 1)

/-- `first_nonzero_index` (src/polynomial/polynomial.rs 32-53). -/
def firstNonzeroIndex (coeffs : List N) : Nat :=
  match scanChunks (chunks4 coeffs).1 0 with
  | some (_, i) => i
  | none => scanRemainder (chunks4 coeffs).2 ((chunks4 coeffs).1.length * 4)

/-- `degree` (src/polynomial/polynomial.rs 86-96).  The subtraction cannot underflow:
`firstNonzeroIndex_le` and the test. -/
def denseDegree (coeffs : List N) : Degree :=
  let index := firstNonzeroIndex coeffs
  if index = coeffs.length then .negInf else .num (coeffs.length - index - 1)

/-- Loop over the remainder in `first_term` (src/polynomial/polynomial.rs 110-118).  Subtractions
cannot underflow since `index < len` for an element of the remainder (`firstTerm_eq`). -/
def firstTermRemainder (len : Nat) : List N → Nat → Term N
  | [], _ => .zeroTerm
  | v :: vs, index => if !isZero v then .term v (len - index - 1) else firstTermRemainder len vs (index + 1)

/-- `first_term` (src/polynomial/polynomial.rs 98-119). -/
def firstTerm (polyVec : List N) : Term N :=
  match scanChunks (chunks4 polyVec).1 0 with
  | some (v, i) => .term v (polyVec.length - i - 1)
  | none => firstTermRemainder polyVec.length (chunks4 polyVec).2 ((chunks4 polyVec).1.length * 4)

/-- `term_with_deg` (src/polynomial/polynomial.rs 121-127).  The index is in bounds by the test;
`getD` is never out of range. -/
def termWithDeg (terms : List N) (degree : Nat) : Term N :=
  if degree < terms.length then Term.new (terms.getD (terms.length - degree - 1) 0) degree
  else .zeroTerm

namespace Poly

/-- `Polynomial::trim` (src/polynomial/polynomial.rs 164-169). -/
def trim (p : Poly N) : Poly N :=
  let ind := firstNonzeroIndex p.terms
  if ind ≠ 0 then ⟨p.terms.drop ind⟩ else p

/-- `Polynomial::new` (src/polynomial/polynomial.rs 147-151). -/
def new (terms : List N) : Poly N := trim ⟨terms⟩

/-- `From<Vec<N>>` (src/polynomial/polynomial.rs 624-646). -/
def fromVec (termVec : List N) : Poly N := new termVec

/-- `Polynomial::ordered_term_iter` (src/polynomial/polynomial.rs 171-182), as the list of items
yielded.  The slice is in bounds (`firstNonzeroIndex_le`), `deg - index` cannot underflow. -/
def orderedTermIter (p : Poly N) : List (N × Nat) :=
  let start := firstNonzeroIndex p.terms
  let terms := p.terms.drop start
  let deg := terms.length - 1
  terms.zipIdx.filterMap fun (coeff, index) =>
    if isZero coeff then none else some (coeff, deg - index)

/-- `SizedPolynomial::term_with_degree` (src/polynomial/polynomial.rs 186-188). -/
def termWithDegree (p : Poly N) (degree : Nat) : Term N := termWithDeg p.terms degree

/-- `SizedPolynomial::terms_as_vec` (src/polynomial/polynomial.rs 190-192). -/
def termsAsVec (p : Poly N) : List (N × Nat) := p.orderedTermIter

/-- `SizedPolynomial::degree` (src/polynomial/polynomial.rs 204-206). -/
def degree (p : Poly N) : Degree := denseDegree p.terms

/-- `SizedPolynomial::is_zero` (src/polynomial/traits.rs 48-50). -/
def isZeroPoly (p : Poly N) : Bool := p.degree.isZeroPoly

/-- `SizedPolynomial::zero` (src/polynomial/polynomial.rs 219-221). -/
def zero : Poly N := ⟨[]⟩

/-- `SizedPolynomial::set_to_zero` (src/polynomial/polynomial.rs 234-236). -/
def setToZero (_p : Poly N) : Poly N := ⟨[]⟩

/-- `PartialEq::eq` (src/polynomial/polynomial.rs 619-621): `Iterator::eq` of the two term
iterators. -/
def eq [BEq N] (p q : Poly N) : Bool := p.orderedTermIter == q.orderedTermIter

end Poly
end Scan

namespace Poly
variable {N : Type}

/-- `FreeSizePolynomial::add_term` (src/polynomial/polynomial.rs 315-323).  After the splice the
index is in bounds, so the element update is `modify`.  `degree + 1` overflowing `usize` is not
modelled. -/
def addTerm [Zero N] [Add N] (p : Poly N) (coeff : N) (degree : Nat) : Poly N :=
  let terms :=
    if p.terms.length < degree + 1 then List.replicate (degree + 1 - p.terms.length) 0 ++ p.terms
    else p.terms
  ⟨terms.modify (terms.length - degree - 1) (· + coeff)⟩

/-- `FreeSizePolynomial::from_terms` (src/polynomial/polynomial.rs 307-313). -/
def fromTerms [Zero N] [Add N] (terms : List (N × Nat)) : Poly N :=
  terms.foldl (fun a t => a.addTerm t.1 t.2) ⟨[]⟩

/-- `MutablePolynomial::try_add_term` (src/polynomial/polynomial.rs 243-245): the new value of
`*self` and the returned `Result`. -/
def tryAddTerm [Zero N] [Add N] (p : Poly N) (coeff : N) (degree : Nat) :
    Poly N × Except TryAddError Unit :=
  (p.addTerm coeff degree, .ok ())

/-- `MutablePolynomial::try_sub_term` (src/polynomial/polynomial.rs 247-260): the new value of
`*self` and the returned `Result`. -/
def trySubTerm [Zero N] [Sub N] [CanNegate N] (p : Poly N) (coeff : N) (degree : Nat) :
    Poly N × Except TryAddError Unit :=
  if p.terms.length < degree + 1 then
    if !CanNegate.canNegate N then (p, .error .canNotNegate)
    else
      let terms := List.replicate (degree + 1 - p.terms.length) 0 ++ p.terms
      (⟨terms.modify (terms.length - degree - 1) (· - coeff)⟩, .ok ())
  else (⟨p.terms.modify (p.terms.length - degree - 1) (· - coeff)⟩, .ok ())

/-- `Evaluable::eval` (src/polynomial/polynomial.rs 340-362). -/
def eval [Zero N] [NumZero N] [Add N] [Mul N] (p : Poly N) (point : N) : N :=
  match p.terms.getLast? with
  | some last =>
    if isZero point then last
    else p.terms.dropLast.foldl (fun sum val => (sum + val) * point) 0 + last
  | none => 0

/-- Loop of `derivative` (src/polynomial/polynomial.rs 392-395). -/
def derivLoop [Sub N] [One N] [Mul N] : List N → N → List N
  | [], _ => []
  | term :: rest, degree => term * (degree - 1) :: derivLoop rest (degree - 1)

/-- `Derivable::derivative` (src/polynomial/polynomial.rs 381-397); `expect` is a panic. -/
def derivative [Zero N] [NumZero N] [One N] [Sub N] [Mul N] [FromUsizeCont N] (p : Poly N) :
    Res (Poly N) :=
  let index := firstNonzeroIndex p.terms
  match (tryFromCont (p.terms.length - index) : Option N) with
  | none => .panic
  | some degree =>
    match p.terms.drop index with
    | [] => .ok zero
    | x :: xs => .ok ⟨derivLoop (x :: xs).dropLast degree⟩

/-- Loop of `integral` (src/polynomial/polynomial.rs 430-433). -/
def integLoop [Sub N] [One N] [RDiv N] : List N → N → Res (List N)
  | [], _ => .ok []
  | term :: rest, degree => do
    let t ← rdiv term degree
    let ts ← integLoop rest (degree - 1)
    .ok (t :: ts)

/-- `Integrable::integral` (src/polynomial/polynomial.rs 425-436), giving the inner polynomial of
the `Integral`. -/
def integral [Zero N] [NumZero N] [One N] [Sub N] [RDiv N] [FromUsizeCont N] (p : Poly N) :
    Res (Poly N) :=
  let index := firstNonzeroIndex p.terms
  match (tryFromCont (p.terms.length - index) : Option N) with
  | none => .panic
  | some degree => do
    let terms ← integLoop (p.terms.drop index) degree
    .ok ⟨terms ++ [0]⟩

end Poly

section Mul
variable {N : Type} [Zero N] [NumZero N] [Add N] [Mul N]

/-- Body of the outer loop of `slice_mul` (src/polynomial/polynomial.rs 62-69). -/
def sliceMulStep (lhs : List N) (terms : List N) (index : Nat) (rterm : N) : Res (List N) :=
  if isZero rterm then .ok terms
  else do
    let tail ← sliceFrom terms index
    .ok (terms.take index ++ zipMut (fun term lterm => term + rterm * lterm) tail lhs)

/-- Outer loop of `slice_mul` over the enumerated right-hand side
(src/polynomial/polynomial.rs 62-69). -/
def sliceMulLoop (lhs : List N) : List N → Nat → List N → Res (List N)
  | [], _, terms => .ok terms
  | rterm :: rest, index, terms => do
    let terms ← sliceMulStep lhs terms index rterm
    sliceMulLoop lhs rest (index + 1) terms

/-- `slice_mul` (src/polynomial/polynomial.rs 55-71). -/
def sliceMul (lhs rhs : List N) : Res (List N) := do
  let rhs ← sliceFrom rhs (firstNonzeroIndex rhs)
  let lhs ← sliceFrom lhs (firstNonzeroIndex lhs)
  let len ← usub (rhs.length + lhs.length) 1
  sliceMulLoop lhs rhs 0 (List.replicate len 0)

namespace Poly

/-- `Mul<Polynomial>` for `Polynomial` and `&Polynomial` (src/polynomial/polynomial.rs 796-800,
820-824); also `MulAssign` with owned or borrowed right-hand side (842-844, 851-853), which store
the same vector. -/
def mul (p q : Poly N) : Res (Poly N) := do
  let terms ← sliceMul p.terms q.terms
  .ok ⟨terms⟩

/-- `Mul<&Polynomial>` for `Polynomial` and `&Polynomial` (src/polynomial/polynomial.rs 809-811,
833-835): as `mul`, trimmed. -/
def mulRef (p q : Poly N) : Res (Poly N) := do
  let terms ← sliceMul p.terms q.terms
  .ok (new terms)

/-- `Polynomial::pow` (src/polynomial/polynomial.rs 455-469). -/
def pow [One N] (p : Poly N) (exp : Nat) : Res (Poly N) :=
  if exp = 0 then .ok ⟨List.replicate 1 1⟩
  else if exp = 1 then .ok (new p.terms)
  else if exp = 2 then p.mulRef p
  else if exp % 2 = 0 then do
    let h ← pow p (exp / 2)
    pow h 2
  else do
    let h ← pow p (exp - 1)
    p.mulRef h
termination_by exp
decreasing_by all_goals omega

end Poly
end Mul

section Div
variable {N : Type} [Zero N] [NumZero N] [Sub N] [Mul N] [RDiv N]

/-- `vec_sub_w_scale` (src/polynomial/polynomial.rs 73-84). -/
def vecSubWScale (lhs : List N) (lhsDegree : Nat) (rhs : List N) (rhsDeg : Nat) (rhsScale : N) :
    Res (List N) := do
  let l1 ← usub lhs.length lhsDegree
  let loc ← usub l1 1
  let tail ← sliceFrom lhs loc
  let r1 ← usub rhs.length rhsDeg
  let r2 ← usub r1 1
  let rtail ← sliceFrom rhs r2
  .ok (lhs.take loc ++ zipMut (fun l r => l - r * rhsScale) tail rtail)

namespace Poly

/-- `while` loop of `div_mod` (src/polynomial/polynomial.rs 501-512).  State: `coeff`,
`self_degree`, `remainder`, `div`.  `div[offset - self_degree] = scale` checks the subtraction and
the bound. -/
def divModLoop (rhs : List N) (rhsFirst : N) (rhsDeg offset : Nat) :
    Nat → N → Nat → List N → List N → Res (List N × List N)
  | 0, _, _, _, _ => .fuel
  | fuel + 1, coeff, selfDegree, remainder, div =>
    if rhsDeg ≤ selfDegree then do
      let scale ← rdiv coeff rhsFirst
      let remainder ← vecSubWScale remainder selfDegree rhs rhsDeg scale
      let i ← usub offset selfDegree
      if i < div.length then
        let div := div.set i scale
        match firstTerm remainder with
        | .zeroTerm => .ok (div, remainder)
        | .term coeffx degree => divModLoop rhs rhsFirst rhsDeg offset fuel coeffx degree remainder div
      else .panic
    else .ok (div, remainder)

/-- `Polynomial::div_mod` (src/polynomial/polynomial.rs 477-515). -/
def divMod (fuel : Nat) (p rhs : Poly N) : Res (Poly N × Poly N) :=
  match firstTerm rhs.terms with
  | .zeroTerm => .panic
  | .term rhsFirst rhsDeg =>
    match firstTerm p.terms with
    | .zeroTerm => .ok (zero, p)
    | .term coeff degree =>
      if degree < rhsDeg then .ok (zero, p)
      else do
        let (div, remainder) ← divModLoop rhs.terms rhsFirst rhsDeg degree fuel coeff degree p.terms
          (List.replicate (degree - rhsDeg + 1) 0)
        .ok (new div, new remainder)

/-- `Polynomial::floor_div` (src/polynomial/polynomial.rs 523-525). -/
def floorDiv (fuel : Nat) (p rhs : Poly N) : Res (Poly N) := do
  let (q, _) ← divMod fuel p rhs
  .ok q

/-- `while` loop of `Rem::rem` (src/polynomial/polynomial.rs 553-562).  Note that the next term is
read from `self.terms`, which does not change. -/
def remLoop (selfTerms rhs : List N) (rhsFirst : N) (rhsDeg : Nat) :
    Nat → N → Nat → List N → Res (List N)
  | 0, _, _, _ => .fuel
  | fuel + 1, scale, selfDegree, remainder =>
    if rhsDeg ≤ selfDegree then do
      let remainder ← vecSubWScale remainder selfDegree rhs rhsDeg scale
      match firstTerm selfTerms with
      | .zeroTerm => .ok remainder
      | .term coeff degree => do
        let scale ← rdiv coeff rhsFirst
        remLoop selfTerms rhs rhsFirst rhsDeg fuel scale degree remainder
    else .ok remainder

/-- `Rem::rem`, the `%` operator (src/polynomial/polynomial.rs 535-565). -/
def rem (fuel : Nat) (p rhs : Poly N) : Res (Poly N) :=
  match firstTerm rhs.terms with
  | .zeroTerm => .panic
  | .term rhsFirst rhsDeg =>
    match firstTerm p.terms with
    | .zeroTerm => .ok p
    | .term coeff degree =>
      if degree < rhsDeg then .ok p
      else do
        let scale ← rdiv coeff rhsFirst
        let remainder ← remLoop p.terms rhs.terms rhsFirst rhsDeg fuel scale degree p.terms
        .ok (new remainder)

/-- `while` loop of `RemAssign::rem_assign` (src/polynomial/polynomial.rs 589-598). -/
def remAssignLoop (rhs : List N) (rhsFirst : N) (rhsDeg : Nat) :
    Nat → N → Nat → List N → Res (List N)
  | 0, _, _, _ => .fuel
  | fuel + 1, scale, selfDegree, terms =>
    if rhsDeg ≤ selfDegree then do
      let terms ← vecSubWScale terms selfDegree rhs rhsDeg scale
      match firstTerm terms with
      | .zeroTerm => .ok terms
      | .term coeff degree => do
        let scale ← rdiv coeff rhsFirst
        remAssignLoop rhs rhsFirst rhsDeg fuel scale degree terms
    else .ok terms

/-- `RemAssign::rem_assign`, the `%=` operator (src/polynomial/polynomial.rs 573-599). -/
def remAssign (fuel : Nat) (p rhs : Poly N) : Res (Poly N) :=
  match firstTerm rhs.terms with
  | .zeroTerm => .panic
  | .term rhsFirst rhsDeg =>
    match firstTerm p.terms with
    | .zeroTerm => .ok p
    | .term coeff degree =>
      if degree < rhsDeg then .ok p
      else do
        let scale ← rdiv coeff rhsFirst
        let terms ← remAssignLoop rhs.terms rhsFirst rhsDeg fuel scale degree p.terms
        .ok ⟨terms⟩

end Poly
end Div

namespace Poly
variable {N : Type}

/-- `Neg::neg` (src/polynomial/polynomial.rs 668-671). -/
def neg [Neg N] (p : Poly N) : Poly N := ⟨p.terms.map (fun x => -x)⟩

/-- `SubAssign<Polynomial>` (src/polynomial/polynomial.rs 690-708); `Sub<Polynomial>` (680-683)
returns the same value. -/
def sub [Neg N] [Sub N] (p rhs : Poly N) : Res (Poly N) :=
  if rhs.terms.length > p.terms.length then
    let offset := rhs.terms.length - p.terms.length
    let right := rhs.terms.take offset
    let left := rhs.terms.drop offset
    .ok ⟨right.map (fun t => -t) ++ zipMut (fun term val => val - term) left p.terms⟩
  else do
    let offset := p.terms.length - rhs.terms.length
    let tail ← sliceFrom p.terms offset
    .ok ⟨p.terms.take offset ++ zipMut (fun term val => term - val) tail rhs.terms⟩

/-- `SubAssign<&Polynomial>` (src/polynomial/polynomial.rs 727-744); `Sub<&Polynomial>` (717-720)
returns the same value. -/
def subRef [Neg N] [Sub N] (p rhs : Poly N) : Res (Poly N) :=
  if rhs.terms.length > p.terms.length then
    let offset := rhs.terms.length - p.terms.length
    let right := rhs.terms.take offset
    let left := rhs.terms.drop offset
    .ok ⟨right.map (fun c => -c) ++ zipMut (fun l r => l - r) p.terms left⟩
  else do
    let offset := p.terms.length - rhs.terms.length
    let tail ← sliceFrom p.terms offset
    .ok ⟨p.terms.take offset ++ zipMut (fun term val => term - val) tail rhs.terms⟩

/-- `Add<Polynomial>` (src/polynomial/polynomial.rs 753-767). -/
def add [Zero N] [NumZero N] [Add N] (p rhs : Poly N) : Res (Poly N) :=
  let (terms, small) :=
    if rhs.terms.length > p.terms.length then (rhs.terms, p.terms) else (p.terms, rhs.terms)
  let offset := terms.length - small.length
  do
    let tail ← sliceFrom terms offset
    .ok (new (terms.take offset ++ zipMut (fun index val => index + val) tail small))

/-- `AddAssign<Polynomial>` (src/polynomial/polynomial.rs 771-787). -/
def addAssign [Add N] (p rhs : Poly N) : Res (Poly N) :=
  if rhs.terms.length > p.terms.length then do
    let offset := rhs.terms.length - p.terms.length
    let tail ← sliceFrom rhs.terms offset
    .ok ⟨rhs.terms.take offset ++ zipMut (fun index val => index + val) tail p.terms⟩
  else do
    let offset := p.terms.length - rhs.terms.length
    let tail ← sliceFrom p.terms offset
    .ok ⟨p.terms.take offset ++ zipMut (fun index val => index + val) tail rhs.terms⟩

/-- `Mul<N>` (src/polynomial/polynomial.rs 859-861). -/
def mulScalar [Zero N] [NumZero N] [Mul N] (p : Poly N) (rhs : N) : Poly N :=
  new (p.terms.map (fun x => x * rhs))

/-- `MulAssign<N>` (src/polynomial/polynomial.rs 865-869). -/
def mulAssignScalar [Mul N] (p : Poly N) (rhs : N) : Poly N := ⟨p.terms.map (fun x => x * rhs)⟩

/-- `Div<N>` (src/polynomial/polynomial.rs 878-880). -/
def divScalar [Zero N] [NumZero N] [RDiv N] (p : Poly N) (rhs : N) : Res (Poly N) := do
  let terms ← p.terms.mapM (fun x => rdiv x rhs)
  .ok (new terms)

/-- `DivAssign<N>` (src/polynomial/polynomial.rs 884-888). -/
def divAssignScalar [RDiv N] (p : Poly N) (rhs : N) : Res (Poly N) := do
  let terms ← p.terms.mapM (fun x => rdiv x rhs)
  .ok ⟨terms⟩

end Poly

/-- `-rhs` on `i32`: overflows for `i32::MIN`.  With overflow checks this panics; without them the
two shift operators call each other with the same argument until the stack overflows, which aborts.
Both are `panic` here. -/
def negI32 (r : Int) : Res Nat := if r = -2 ^ 31 then .panic else .ok (-r).toNat

theorem negI32_ok {r : Int} (h : r ≠ -2 ^ 31) : negI32 r = .ok (-r).toNat := if_neg h
theorem negI32_min : negI32 (-2 ^ 31) = .panic := if_pos rfl

namespace Poly
variable {N : Type}

/-- Non-negative branch of `Shl<i32>` (src/polynomial/polynomial.rs 898-901). -/
def shlPos [Zero N] [NumZero N] (p : Poly N) (k : Nat) : Res (Poly N) := do
  let terms ← sliceFrom p.terms (firstNonzeroIndex p.terms)
  .ok ⟨terms ++ List.replicate k 0⟩

/-- Non-negative branch of `Shr<i32>` (src/polynomial/polynomial.rs 923-931). -/
def shrPos [Zero N] [NumZero N] (p : Poly N) (k : Nat) : Res (Poly N) :=
  let index := firstNonzeroIndex p.terms
  if k > p.terms.length then .ok ⟨[]⟩
  else do
    let terms ← sliceRange p.terms index (p.terms.length - k)
    .ok ⟨terms⟩

/-- `Shl<i32>` (src/polynomial/polynomial.rs 894-903).  For negative `rhs` the callee's own sign
test is false because `-rhs > 0`. -/
def shl [Zero N] [NumZero N] (p : Poly N) (rhs : Int) : Res (Poly N) :=
  if rhs < 0 then do
    let k ← negI32 rhs
    p.shrPos k
  else p.shlPos rhs.toNat

/-- `Shr<i32>` (src/polynomial/polynomial.rs 919-933). -/
def shr [Zero N] [NumZero N] (p : Poly N) (rhs : Int) : Res (Poly N) :=
  if rhs < 0 then do
    let k ← negI32 rhs
    p.shlPos k
  else p.shrPos rhs.toNat

/-- Non-negative branch of `ShlAssign<i32>` (src/polynomial/polynomial.rs 911). -/
def shlAssignPos [Zero N] (p : Poly N) (k : Nat) : Poly N := ⟨p.terms ++ List.replicate k 0⟩

/-- Non-negative branch of `ShrAssign<i32>` (src/polynomial/polynomial.rs 941-946). -/
def shrAssignPos (p : Poly N) (k : Nat) : Res (Poly N) :=
  if k > p.terms.length then .ok ⟨[]⟩
  else do
    let terms ← sliceRange p.terms 0 (p.terms.length - k)
    .ok ⟨terms⟩

/-- `ShlAssign<i32>` (src/polynomial/polynomial.rs 907-913). -/
def shlAssign [Zero N] (p : Poly N) (rhs : Int) : Res (Poly N) :=
  if rhs < 0 then do
    let k ← negI32 rhs
    p.shrAssignPos k
  else .ok (p.shlAssignPos rhs.toNat)

/-- `ShrAssign<i32>` (src/polynomial/polynomial.rs 937-948). -/
def shrAssign [Zero N] (p : Poly N) (rhs : Int) : Res (Poly N) :=
  if rhs < 0 then do
    let k ← negI32 rhs
    .ok (p.shlAssignPos k)
  else p.shrAssignPos rhs.toNat

/-- `From<Polynomial<A>> for Polynomial<B>` (src/polynomial/polynomial.rs 648-656), for a cast
`A as B`. -/
def upcast {A : Type} {B : Type} [Zero B] [NumZero B] (cast : A → B) (p : Poly A) : Poly B :=
  new (p.terms.map cast)

end Poly
end Rustnomial
