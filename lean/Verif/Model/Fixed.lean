import Verif.Model.Sparse

/-!
# `Monomial`, `LinearBinomial`, `QuadraticTrinomial`, `ArrayPolynomial`
(src/polynomial/monomial.rs, binomial.rs, trinomial.rs, array_polynomial.rs)

Degrees are unbounded naturals: overflow of `usize` in degree arithmetic is not modelled.
Root finding is in `Verif/Model/FindRoots.lean`, text in `Verif/Model/Strings.lean`.
-/

namespace Rustnomial

/-- `Monomial` (src/polynomial/monomial.rs 20-23); both fields are public. -/
structure Monomial (N : Type) where
  coefficient : N
  deg : Nat
  deriving DecidableEq, Repr

namespace Monomial
variable {N : Type}

/-- `Monomial::new` (src/polynomial/monomial.rs 36-41). -/
def new (coefficient : N) (degree : Nat) : Monomial N := ⟨coefficient, degree⟩

/-- `ordered_term_iter` (src/polynomial/monomial.rs 45-52), as the list of items. -/
def orderedTermIter [Zero N] [NumZero N] (m : Monomial N) : List (N × Nat) :=
  if isZero m.coefficient then [] else [(m.coefficient, m.deg)]

/-- `as_term` (src/polynomial/monomial.rs 56-58). -/
def asTerm [Zero N] [NumZero N] (m : Monomial N) : Term N := Term.new m.coefficient m.deg

/-- `term_with_degree` (src/polynomial/monomial.rs 72-78). -/
def termWithDegree [Zero N] [NumZero N] (m : Monomial N) (degree : Nat) : Term N :=
  if degree = m.deg then Term.new m.coefficient m.deg else .zeroTerm

/-- `terms_as_vec` (src/polynomial/monomial.rs 80-82). -/
def termsAsVec [Zero N] [NumZero N] (m : Monomial N) : List (N × Nat) := m.orderedTermIter

/-- `degree` (src/polynomial/monomial.rs 97-103). -/
def degree [Zero N] [NumZero N] (m : Monomial N) : Degree :=
  if isZero m.coefficient then .negInf else .num m.deg

/-- `is_zero` (src/polynomial/traits.rs 48-50). -/
def isZeroPoly [Zero N] [NumZero N] (m : Monomial N) : Bool := m.degree.isZeroPoly

/-- `zero` (src/polynomial/monomial.rs 113-115). -/
def zero [Zero N] : Monomial N := new 0 0

/-- `set_to_zero` (src/polynomial/monomial.rs 128-130): the degree field is kept. -/
def setToZero [Zero N] (m : Monomial N) : Monomial N := { m with coefficient := 0 }

/-- `try_add_term` (src/polynomial/monomial.rs 137-148): the new value of `*self` and the result. -/
def tryAddTerm [Zero N] [NumZero N] [Add N] (m : Monomial N) (coeff : N) (degree : Nat) :
    Monomial N × Except TryAddError Unit :=
  if m.isZeroPoly then (⟨m.coefficient + coeff, degree⟩, .ok ())
  else if degree = m.deg then ({ m with coefficient := m.coefficient + coeff }, .ok ())
  else (m, .error .tooManyTerms)

/-- `try_sub_term` (src/polynomial/monomial.rs 150-161): the new value of `*self` and the result. -/
def trySubTerm [Zero N] [NumZero N] [Sub N] (m : Monomial N) (coeff : N) (degree : Nat) :
    Monomial N × Except TryAddError Unit :=
  if m.isZeroPoly then (⟨m.coefficient - coeff, degree⟩, .ok ())
  else if degree = m.deg then ({ m with coefficient := m.coefficient - coeff }, .ok ())
  else (m, .error .tooManyTerms)

/-- `eval` (src/polynomial/monomial.rs 178-180). -/
def eval [Mul N] [PowUsize N] (m : Monomial N) (point : N) : N := m.coefficient * upow point m.deg

/-- `derivative` (src/polynomial/monomial.rs 222-232); `expect` is a panic. -/
def derivative [Zero N] [NumZero N] [Mul N] [FromUsizeExact N] (m : Monomial N) : Res (Monomial N) :=
  match m.degree with
  | .negInf => .ok zero
  | .num 0 => .ok zero
  | .num x =>
    match (tryFromExact x : Option N) with
    | none => .panic
    | some d => .ok (new (m.coefficient * d) (x - 1))

/-- `integral` (src/polynomial/monomial.rs 257-265): the `SparsePolynomial` inside the `Integral`;
`unwrap` is a panic. -/
def integral [Zero N] [NumZero N] [Add N] [RDiv N] [FromUsizeExact N] (m : Monomial N) : Res (Sparse N) :=
  match m.degree with
  | .negInf => .ok Sparse.zero
  | .num x =>
    match (tryFromExact (x + 1) : Option N) with
    | none => .panic
    | some d => do
      let c ← rdiv m.coefficient d
      .ok (Sparse.fromTerms [(c, x + 1)])

/-- `pow` (src/polynomial/monomial.rs 281-283). -/
def pow [PowUsize N] (m : Monomial N) (exp : Nat) : Monomial N :=
  new (upow m.coefficient exp) (m.deg * exp)

/-- `PartialEq::eq` (src/polynomial/monomial.rs 304-306), with the derived `PartialEq` of `Term`
(src/terms.rs 18). -/
def eq [Zero N] [NumZero N] [BEq N] (m other : Monomial N) : Bool :=
  match m.asTerm, other.asTerm with
  | .zeroTerm, .zeroTerm => true
  | .term c d, .term c' d' => c == c' && d == d'
  | _, _ => false

/-- `From<N>` (src/polynomial/monomial.rs 309-313). -/
def ofScalar (item : N) : Monomial N := new item 0

/-- `From<Monomial<A>> for Monomial<B>` (src/polynomial/monomial.rs 315-323). -/
def upcast {A B : Type} (cast : A → B) (m : Monomial A) : Monomial B := new (cast m.coefficient) m.deg

/-- `Neg` (src/polynomial/monomial.rs 341-347). -/
def neg [Neg N] (m : Monomial N) : Monomial N := new (-m.coefficient) m.deg

/-- `Mul`, `MulAssign` by value and by reference (src/polynomial/monomial.rs 440-471). -/
def mul [Mul N] (m rhs : Monomial N) : Monomial N := new (m.coefficient * rhs.coefficient) (m.deg + rhs.deg)

/-- `Mul<N>`, `MulAssign<N>` (src/polynomial/monomial.rs 473-485). -/
def mulScalar [Mul N] (m : Monomial N) (rhs : N) : Monomial N := new (m.coefficient * rhs) m.deg

/-- `Div<N>`, `DivAssign<N>` (src/polynomial/monomial.rs 487-499). -/
def divScalar [RDiv N] (m : Monomial N) (rhs : N) : Res (Monomial N) := do
  let c ← rdiv m.coefficient rhs
  .ok (new c m.deg)

/-- Non-negative branch of `Shl` (src/polynomial/monomial.rs 508) and `ShlAssign` (518). -/
def shlPos (m : Monomial N) (k : Nat) : Monomial N := new m.coefficient (m.deg + k)

/-- Non-negative branch of `Shr` (src/polynomial/monomial.rs 530-535) and `ShrAssign` (545-551). -/
def shrPos [Zero N] (m : Monomial N) (k : Nat) : Monomial N :=
  if k > m.deg then zero else new m.coefficient (m.deg - k)

/-- `Shl<i32>` and `ShlAssign<i32>` (src/polynomial/monomial.rs 501-521).  `-rhs` is positive, so the
mutual call takes the non-negative branch. -/
def shl [Zero N] (m : Monomial N) (rhs : Int) : Res (Monomial N) :=
  if rhs < 0 then do
    let k ← negI32 rhs
    .ok (m.shrPos k)
  else .ok (m.shlPos rhs.toNat)

/-- `Shr<i32>` and `ShrAssign<i32>` (src/polynomial/monomial.rs 523-554). -/
def shr [Zero N] (m : Monomial N) (rhs : Int) : Res (Monomial N) :=
  if rhs < 0 then do
    let k ← negI32 rhs
    .ok (m.shlPos k)
  else .ok (m.shrPos rhs.toNat)

end Monomial

/-- `LinearBinomial` (src/polynomial/binomial.rs 19-21): the array `[c0, c1]`. -/
structure LinearBinomial (N : Type) where
  c0 : N
  c1 : N
  deriving DecidableEq, Repr

namespace LinearBinomial
variable {N : Type}

/-- The array `coefficients` (src/polynomial/binomial.rs 20). -/
def coefficients (b : LinearBinomial N) : List N := [b.c0, b.c1]

/-- `LinearBinomial::new` (src/polynomial/binomial.rs 33-35). -/
def new (c0 c1 : N) : LinearBinomial N := ⟨c0, c1⟩

/-- `ordered_term_iter` (src/polynomial/binomial.rs 39-50); `1 - index` cannot underflow as
`index < 2`. -/
def orderedTermIter [Zero N] [NumZero N] (b : LinearBinomial N) : List (N × Nat) :=
  b.coefficients.zipIdx.filterMap fun (coeff, index) =>
    if isZero coeff then none else some (coeff, 1 - index)

/-- `term_with_degree` (src/polynomial/binomial.rs 95-97). -/
def termWithDegree [Zero N] [NumZero N] (b : LinearBinomial N) (degree : Nat) : Term N :=
  termWithDeg b.coefficients degree

/-- `terms_as_vec` (src/polynomial/binomial.rs 99-101). -/
def termsAsVec [Zero N] [NumZero N] (b : LinearBinomial N) : List (N × Nat) := b.orderedTermIter

/-- `degree` (src/polynomial/binomial.rs 116-124). -/
def degree [Zero N] [NumZero N] (b : LinearBinomial N) : Degree :=
  if !isZero b.c0 then .num 1 else if !isZero b.c1 then .num 0 else .negInf

/-- `is_zero` (src/polynomial/traits.rs 48-50). -/
def isZeroPoly [Zero N] [NumZero N] (b : LinearBinomial N) : Bool := b.degree.isZeroPoly

/-- `zero` (src/polynomial/binomial.rs 136-138). -/
def zero [Zero N] : LinearBinomial N := new 0 0

/-- `set_to_zero` (src/polynomial/binomial.rs 151-153). -/
def setToZero [Zero N] (_b : LinearBinomial N) : LinearBinomial N := ⟨0, 0⟩

/-- `coefficients[i] = f(coefficients[i])` for `i < 2`
(used at src/polynomial/binomial.rs 162, 171). -/
def modify (b : LinearBinomial N) (i : Nat) (f : N → N) : LinearBinomial N :=
  if i = 0 then { b with c0 := f b.c0 } else { b with c1 := f b.c1 }

/-- `try_add_term` (src/polynomial/binomial.rs 160-167): the new value of `*self` and the result. -/
def tryAddTerm [Add N] (b : LinearBinomial N) (coeff : N) (degree : Nat) :
    LinearBinomial N × Except TryAddError Unit :=
  if degree ≤ 1 then (b.modify (1 - degree) (· + coeff), .ok ()) else (b, .error .degreeOutOfBounds)

/-- `try_sub_term` (src/polynomial/binomial.rs 169-176): the new value of `*self` and the result. -/
def trySubTerm [Sub N] (b : LinearBinomial N) (coeff : N) (degree : Nat) :
    LinearBinomial N × Except TryAddError Unit :=
  if degree ≤ 1 then (b.modify (1 - degree) (· - coeff), .ok ()) else (b, .error .degreeOutOfBounds)

/-- `eval` (src/polynomial/binomial.rs 193-195). -/
def eval [Mul N] [Add N] (b : LinearBinomial N) (point : N) : N := point * b.c0 + b.c1

/-- `derivative` (src/polynomial/binomial.rs 211-213). -/
def derivative [Zero N] (b : LinearBinomial N) : LinearBinomial N := new 0 b.c0

/-- `integral` (src/polynomial/binomial.rs 239-246): the inner `Polynomial`. -/
def integral [Zero N] [NumZero N] [RDiv N] [FromUsizeCont N] (b : LinearBinomial N) : Res (Poly N) :=
  match (tryFromCont 2 : Option N) with
  | none => .panic
  | some two => do
    let q ← rdiv b.c0 two
    .ok (Poly.new [q, b.c1, 0])

/-- `PartialEq::eq` (src/polynomial/binomial.rs 273-275). -/
def eq [BEq N] (b other : LinearBinomial N) : Bool := b.c0 == other.c0 && b.c1 == other.c1

/-- `From<LinearBinomial<A>> for LinearBinomial<B>` (src/polynomial/binomial.rs 278-286). -/
def upcast {A B : Type} (cast : A → B) (b : LinearBinomial A) : LinearBinomial B :=
  new (cast b.c0) (cast b.c1)

/-- `Neg` (src/polynomial/binomial.rs 292-298). -/
def neg [Neg N] (b : LinearBinomial N) : LinearBinomial N := new (-b.c0) (-b.c1)

/-- `Sub`, `SubAssign` (src/polynomial/binomial.rs 300-322). -/
def sub [Sub N] (b rhs : LinearBinomial N) : LinearBinomial N := new (b.c0 - rhs.c0) (b.c1 - rhs.c1)

/-- `Add`, `AddAssign` (src/polynomial/binomial.rs 324-343). -/
def add [Add N] (b rhs : LinearBinomial N) : LinearBinomial N := new (b.c0 + rhs.c0) (b.c1 + rhs.c1)

/-- `Mul<N>`, `MulAssign<N>` (src/polynomial/binomial.rs 378-391). -/
def mulScalar [Mul N] (b : LinearBinomial N) (rhs : N) : LinearBinomial N := new (b.c0 * rhs) (b.c1 * rhs)

/-- `Div<N>`, `DivAssign<N>` (src/polynomial/binomial.rs 393-406). -/
def divScalar [RDiv N] (b : LinearBinomial N) (rhs : N) : Res (LinearBinomial N) := do
  let q0 ← rdiv b.c0 rhs
  let q1 ← rdiv b.c1 rhs
  .ok (new q0 q1)

/-- `Shr<u32>` (src/polynomial/binomial.rs 462-468). -/
def shr [Zero N] (b : LinearBinomial N) (rhs : Nat) : LinearBinomial N :=
  match rhs with
  | 0 => b
  | 1 => new 0 b.c0
  | _ => zero

/-- `ShrAssign<u32>` (src/polynomial/binomial.rs 472-485), assignment by assignment. -/
def shrAssign [Zero N] (b : LinearBinomial N) (rhs : Nat) : LinearBinomial N :=
  match rhs with
  | 0 => b
  | 1 =>
    let b := { b with c1 := b.c0 }
    { b with c0 := 0 }
  | _ =>
    let b := { b with c0 := 0 }
    { b with c1 := 0 }

end LinearBinomial

/-- `QuadraticTrinomial` (src/polynomial/trinomial.rs 20-22): the array `[c0, c1, c2]`. -/
structure QuadraticTrinomial (N : Type) where
  c0 : N
  c1 : N
  c2 : N
  deriving DecidableEq, Repr

namespace QuadraticTrinomial
variable {N : Type}

/-- The array `coefficients` (src/polynomial/trinomial.rs 21). -/
def coefficients (t : QuadraticTrinomial N) : List N := [t.c0, t.c1, t.c2]

/-- `QuadraticTrinomial::new` (src/polynomial/trinomial.rs 35-37). -/
def new (c0 c1 c2 : N) : QuadraticTrinomial N := ⟨c0, c1, c2⟩

/-- `ordered_term_iter` (src/polynomial/trinomial.rs 41-52); `2 - index` cannot underflow. -/
def orderedTermIter [Zero N] [NumZero N] (t : QuadraticTrinomial N) : List (N × Nat) :=
  t.coefficients.zipIdx.filterMap fun (coeff, index) =>
    if isZero coeff then none else some (coeff, 2 - index)

/-- `term_with_degree` (src/polynomial/trinomial.rs 127-129). -/
def termWithDegree [Zero N] [NumZero N] (t : QuadraticTrinomial N) (degree : Nat) : Term N :=
  termWithDeg t.coefficients degree

/-- `terms_as_vec` (src/polynomial/trinomial.rs 131-133). -/
def termsAsVec [Zero N] [NumZero N] (t : QuadraticTrinomial N) : List (N × Nat) := t.orderedTermIter

/-- `degree` (src/polynomial/trinomial.rs 150-160). -/
def degree [Zero N] [NumZero N] (t : QuadraticTrinomial N) : Degree :=
  if !isZero t.c0 then .num 2
  else if !isZero t.c1 then .num 1
  else if !isZero t.c2 then .num 0
  else .negInf

/-- `is_zero` (src/polynomial/traits.rs 48-50). -/
def isZeroPoly [Zero N] [NumZero N] (t : QuadraticTrinomial N) : Bool := t.degree.isZeroPoly

/-- `zero` (src/polynomial/trinomial.rs 170-172). -/
def zero [Zero N] : QuadraticTrinomial N := new 0 0 0

/-- `set_to_zero` (src/polynomial/trinomial.rs 185-187). -/
def setToZero [Zero N] (_t : QuadraticTrinomial N) : QuadraticTrinomial N := ⟨0, 0, 0⟩

/-- `coefficients[i] = f(coefficients[i])` for `i < 3`
(used at src/polynomial/trinomial.rs 196, 205). -/
def modify (t : QuadraticTrinomial N) (i : Nat) (f : N → N) : QuadraticTrinomial N :=
  if i = 0 then { t with c0 := f t.c0 }
  else if i = 1 then { t with c1 := f t.c1 }
  else { t with c2 := f t.c2 }

/-- `try_add_term` (src/polynomial/trinomial.rs 194-201): the new value of `*self` and the result. -/
def tryAddTerm [Add N] (t : QuadraticTrinomial N) (coeff : N) (degree : Nat) :
    QuadraticTrinomial N × Except TryAddError Unit :=
  if degree ≤ 2 then (t.modify (2 - degree) (· + coeff), .ok ()) else (t, .error .degreeOutOfBounds)

/-- `try_sub_term` (src/polynomial/trinomial.rs 203-210): the new value of `*self` and the result. -/
def trySubTerm [Sub N] (t : QuadraticTrinomial N) (coeff : N) (degree : Nat) :
    QuadraticTrinomial N × Except TryAddError Unit :=
  if degree ≤ 2 then (t.modify (2 - degree) (· - coeff), .ok ()) else (t, .error .degreeOutOfBounds)

/-- `eval` (src/polynomial/trinomial.rs 227-229). -/
def eval [Mul N] [Add N] (t : QuadraticTrinomial N) (point : N) : N :=
  point * (t.c0 * point + t.c1) + t.c2

/-- `derivative` (src/polynomial/trinomial.rs 245-252). -/
def derivative [Zero N] [Mul N] [FromUsizeExact N] (t : QuadraticTrinomial N) :
    Res (QuadraticTrinomial N) :=
  match (tryFromExact 2 : Option N) with
  | none => .panic
  | some two => .ok (new 0 (t.c0 * two) t.c1)

/-- `integral` (src/polynomial/trinomial.rs 279-288): the inner `Polynomial`. -/
def integral [Zero N] [NumZero N] [RDiv N] [FromUsizeExact N] (t : QuadraticTrinomial N) : Res (Poly N) :=
  match (tryFromExact 3 : Option N) with
  | none => .panic
  | some three => do
    let q0 ← rdiv t.c0 three
    match (tryFromExact 2 : Option N) with
    | none => .panic
    | some two => do
      let q1 ← rdiv t.c1 two
      .ok (Poly.new [q0, q1, t.c2, 0])

/-- `PartialEq::eq` (src/polynomial/trinomial.rs 316-318). -/
def eq [BEq N] (t other : QuadraticTrinomial N) : Bool :=
  t.c0 == other.c0 && t.c1 == other.c1 && t.c2 == other.c2

/-- `From<QuadraticTrinomial<A>> for QuadraticTrinomial<B>` (src/polynomial/trinomial.rs 321-333). -/
def upcast {A B : Type} (cast : A → B) (t : QuadraticTrinomial A) : QuadraticTrinomial B :=
  new (cast t.c0) (cast t.c1) (cast t.c2)

/-- `Neg` (src/polynomial/trinomial.rs 339-349). -/
def neg [Neg N] (t : QuadraticTrinomial N) : QuadraticTrinomial N := new (-t.c0) (-t.c1) (-t.c2)

/-- `Sub`, `SubAssign` (src/polynomial/trinomial.rs 351-375). -/
def sub [Sub N] (t rhs : QuadraticTrinomial N) : QuadraticTrinomial N :=
  new (t.c0 - rhs.c0) (t.c1 - rhs.c1) (t.c2 - rhs.c2)

/-- `Add`, `AddAssign` (src/polynomial/trinomial.rs 377-398). -/
def add [Add N] (t rhs : QuadraticTrinomial N) : QuadraticTrinomial N :=
  new (t.c0 + rhs.c0) (t.c1 + rhs.c1) (t.c2 + rhs.c2)

/-- `Mul<N>`, `MulAssign<N>` (src/polynomial/trinomial.rs 433-451). -/
def mulScalar [Mul N] (t : QuadraticTrinomial N) (rhs : N) : QuadraticTrinomial N :=
  new (t.c0 * rhs) (t.c1 * rhs) (t.c2 * rhs)

/-- `Div<N>`, `DivAssign<N>` (src/polynomial/trinomial.rs 453-471). -/
def divScalar [RDiv N] (t : QuadraticTrinomial N) (rhs : N) : Res (QuadraticTrinomial N) := do
  let q0 ← rdiv t.c0 rhs
  let q1 ← rdiv t.c1 rhs
  let q2 ← rdiv t.c2 rhs
  .ok (new q0 q1 q2)

/-- `Shr<u32>` (src/polynomial/trinomial.rs 527-534). -/
def shr [Zero N] (t : QuadraticTrinomial N) (rhs : Nat) : QuadraticTrinomial N :=
  match rhs with
  | 0 => t
  | 1 => new 0 t.c0 t.c1
  | 2 => new 0 0 t.c0
  | _ => zero

/-- `ShrAssign<u32>` (src/polynomial/trinomial.rs 538-558), assignment by assignment. -/
def shrAssign [Zero N] (t : QuadraticTrinomial N) (rhs : Nat) : QuadraticTrinomial N :=
  match rhs with
  | 0 => t
  | 1 =>
    let t := { t with c2 := t.c1 }
    let t := { t with c1 := t.c0 }
    { t with c0 := 0 }
  | 2 =>
    let t := { t with c2 := t.c0 }
    let t := { t with c1 := 0 }
    { t with c0 := 0 }
  | _ =>
    let t := { t with c0 := 0 }
    let t := { t with c1 := 0 }
    { t with c2 := 0 }

end QuadraticTrinomial

/-- `ArrayPolynomial<N, SIZE>`, feature `array_polynomials`
(src/polynomial/array_polynomial.rs 22-24): a list of length `size`. -/
structure ArrayPoly (N : Type) (size : Nat) where
  coefficients : List N
  length_eq : coefficients.length = size

namespace ArrayPoly
variable {N : Type} {size : Nat}

/-- `try_add_term` (src/polynomial/array_polynomial.rs 36-43): the new value of `*self` and the
result. -/
def tryAddTerm [Add N] (p : ArrayPoly N size) (coeff : N) (degree : Nat) :
    ArrayPoly N size × Except TryAddError Unit :=
  if degree < size then
    (⟨p.coefficients.modify (size - degree - 1) (· + coeff), by simp [p.length_eq]⟩, .ok ())
  else (p, .error .degreeOutOfBounds)

/-- `try_sub_term` (src/polynomial/array_polynomial.rs 45-52): the new value of `*self` and the
result. -/
def trySubTerm [Sub N] (p : ArrayPoly N size) (coeff : N) (degree : Nat) :
    ArrayPoly N size × Except TryAddError Unit :=
  if degree < size then
    (⟨p.coefficients.modify (size - degree - 1) (· - coeff), by simp [p.length_eq]⟩, .ok ())
  else (p, .error .degreeOutOfBounds)

/-- `eval` (src/polynomial/array_polynomial.rs 59-74). -/
def eval [Zero N] [NumZero N] [Add N] [Mul N] (p : ArrayPoly N size) (point : N) : N :=
  match p.coefficients.getLast? with
  | some last =>
    if isZero point then last
    else p.coefficients.dropLast.foldl (fun sum val => (sum + val) * point) 0 + last
  | none => 0

/-- Loop of `derivative` (src/polynomial/array_polynomial.rs 86-89): the list of the values
assigned to `result[1..]`, one for each coefficient until `result[1..]` is exhausted. -/
def derivLoop [Sub N] [One N] [Mul N] : List N → Nat → N → List N
  | coeff :: rest, slots + 1, degree => (degree - 1) * coeff :: derivLoop rest slots (degree - 1)
  | _, _, _ => []

/-- `derivative` (src/polynomial/array_polynomial.rs 81-92): the coefficient list of the result. -/
def derivative [Zero N] [One N] [Sub N] [Mul N] [FromUsizeCont N] (p : ArrayPoly N size) : Res (List N) :=
  match (tryFromCont size : Option N) with
  | none => .panic
  | some degree =>
    if size ≥ 1 then .ok (0 :: derivLoop p.coefficients (size - 1) degree)
    else .ok []

/-- `integral` (src/polynomial/array_polynomial.rs 107-117): the inner `Polynomial` (not trimmed). -/
def integral [Zero N] [One N] [Sub N] [RDiv N] [FromUsizeCont N] (p : ArrayPoly N size) : Res (Poly N) :=
  match (tryFromCont size : Option N) with
  | none => .panic
  | some degree => do
    let terms ← Poly.integLoop p.coefficients degree
    .ok ⟨terms ++ [0]⟩

/-- `PartialEq::eq` (src/polynomial/array_polynomial.rs 124-126). -/
def eq [BEq N] (p q : ArrayPoly N size) : Bool := p.coefficients == q.coefficients

/-- `ordered_term_iter` collected (src/polynomial/array_polynomial.rs 196-207, 215-217): the
subtraction `1 - index` is checked (`usub`), as in a build with overflow checks. -/
def orderedTermIter [Zero N] [NumZero N] (p : ArrayPoly N size) : Res (List (N × Nat)) :=
  p.coefficients.zipIdx.foldlM (fun acc e =>
    if isZero e.1 then .ok acc
    else do
      let d ← usub 1 e.2
      Res.ok (acc ++ [(e.1, d)])) []

/-- `term_with_degree` (src/polynomial/array_polynomial.rs 211-213). -/
def termWithDegree [Zero N] [NumZero N] (p : ArrayPoly N size) (degree : Nat) : Term N :=
  termWithDeg p.coefficients degree

/-- `degree` (src/polynomial/array_polynomial.rs 229-231). -/
def degree [Zero N] [NumZero N] (p : ArrayPoly N size) : Degree := denseDegree p.coefficients

/-- `is_zero` (src/polynomial/traits.rs 48-50). -/
def isZeroPoly [Zero N] [NumZero N] (p : ArrayPoly N size) : Bool := p.degree.isZeroPoly

/-- `zero` (src/polynomial/array_polynomial.rs 244-246); `set_to_zero` (259-261) assigns the same. -/
def zero [Zero N] : ArrayPoly N size := ⟨List.replicate size 0, by simp⟩

end ArrayPoly
end Rustnomial
