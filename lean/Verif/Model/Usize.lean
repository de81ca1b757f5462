import Verif.Model.Fixed
import Verif.Model.PolyMath

/-!
# Degrees as `usize`, shift counts as `i32`

The rest of the model has unbounded degrees.  Here the degree arithmetic of the library is done on
`bits`-bit unsigned integers, as the machine does it: with overflow checks (debug builds) an overflow
panics, without them (release builds) the result is reduced modulo `2 ^ bits`.

Only the arithmetic on degrees changes; everything else is as in `Verif/Model/Sparse.lean`,
`Fixed.lean` and `Dense.lean`.
-/

namespace Rustnomial

/-- A `usize`: its width and whether the build checks overflow.  Models no line of the repository
(it is the language's integer semantics). -/
structure USz where
  bits : Nat
  chk : Bool

namespace USz

/-- The outcome of a `usize` operation whose exact value is `v` (language semantics). -/
def result (u : USz) (v : Nat) : Res Nat :=
  if v < 2 ^ u.bits then .ok v else if u.chk then .panic else .ok (v % 2 ^ u.bits)

/-- `a + b` on `usize` (language semantics). -/
def add (u : USz) (a b : Nat) : Res Nat := u.result (a + b)

/-- `a * b` on `usize` (language semantics). -/
def mul (u : USz) (a b : Nat) : Res Nat := u.result (a * b)

/-- `a - b` on `usize` (language semantics). -/
def sub (u : USz) (a b : Nat) : Res Nat :=
  if b ≤ a then .ok (a - b) else if u.chk then .panic else .ok (2 ^ u.bits + a - b)

end USz

/-- `-rhs` on `i32` (language semantics): `-i32::MIN` is an overflow; without checks it is
`i32::MIN` again. -/
def negI32U (chk : Bool) (rhs : Int) : Res Int :=
  if rhs = -2 ^ 31 then (if chk then .panic else .ok rhs) else .ok (-rhs)

/-- The shape shared by every pair `Shl<i32>`/`Shr<i32>` and `ShlAssign<i32>`/`ShrAssign<i32>`
(src/polynomial/polynomial.rs 891-948, sparsepolynomial.rs 901-967, monomial.rs 501-554): for a
negative count the other operator is called with `-rhs`, otherwise `pos` does the work (`left` tells
which operator).  The fuel bounds the depth of the mutual recursion. -/
def shiftU {P : Type} (chk : Bool) (pos : Bool → P → Nat → Res P) : Nat → Bool → P → Int → Res P
  | 0, _, _, _ => .fuel
  | fuel + 1, left, p, rhs =>
    if rhs < 0 then do
      let r ← negI32U chk rhs
      shiftU chk pos fuel (!left) p r
    else pos left p rhs.toNat

namespace Monomial
variable {N : Type}

/-- `Mul`, `MulAssign` by value and by reference (src/polynomial/monomial.rs 440-471). -/
def mulU [Mul N] (u : USz) (m rhs : Monomial N) : Res (Monomial N) := do
  let d ← u.add m.deg rhs.deg
  .ok (new (m.coefficient * rhs.coefficient) d)

/-- `pow` (src/polynomial/monomial.rs 281-283). -/
def powU [PowUsize N] (u : USz) (m : Monomial N) (exp : Nat) : Res (Monomial N) := do
  let d ← u.mul m.deg exp
  .ok (new (upow m.coefficient exp) d)

/-- `integral` (src/polynomial/monomial.rs 257-265): the `SparsePolynomial` inside the `Integral`.
`x + 1` is computed twice, with the same outcome. -/
def integralU [Zero N] [NumZero N] [Add N] [RDiv N] [FromUsizeExact N] (u : USz) (m : Monomial N) :
    Res (Sparse N) :=
  match m.degree with
  | .negInf => .ok Sparse.zero
  | .num x => do
    let x1 ← u.add x 1
    match (tryFromExact x1 : Option N) with
    | none => .panic
    | some d => do
      let c ← rdiv m.coefficient d
      .ok (Sparse.fromTerms [(c, x1)])

/-- Non-negative branches of the shifts (src/polynomial/monomial.rs 508, 518, 530-535, 545-551).
`rhs as usize` is exact for a non-negative `i32` on platforms with at least 31 bits. -/
def shiftPosU [Zero N] (u : USz) (left : Bool) (m : Monomial N) (k : Nat) : Res (Monomial N) :=
  if left then do
    let d ← u.add m.deg k
    .ok (new m.coefficient d)
  else .ok (m.shrPos k)

/-- `Shl<i32>`, `ShlAssign<i32>` (src/polynomial/monomial.rs 501-521). -/
def shlU [Zero N] (u : USz) (fuel : Nat) (m : Monomial N) (rhs : Int) : Res (Monomial N) :=
  shiftU u.chk (shiftPosU u) fuel true m rhs

/-- `Shr<i32>`, `ShrAssign<i32>` (src/polynomial/monomial.rs 523-554). -/
def shrU [Zero N] (u : USz) (fuel : Nat) (m : Monomial N) (rhs : Int) : Res (Monomial N) :=
  shiftU u.chk (shiftPosU u) fuel false m rhs

end Monomial

section
variable {N : Type}

/-- Inner loop of `map_mul` (src/polynomial/sparsepolynomial.rs 36-45).  `rhs_deg + lhs_deg` is
computed twice, with the same outcome. -/
def mapMulInnerU [Add N] [Mul N] (u : USz) (rhsDeg : Nat) (rterm : N) (lhs : List (Nat × N))
    (terms : BMap N) : Res (BMap N) :=
  lhs.foldlM (fun terms e => do
    let k ← u.add rhsDeg e.1
    Res.ok (terms.upsert k (rterm * e.2) (· + rterm * e.2))) terms

/-- `map_mul` (src/polynomial/sparsepolynomial.rs 26-48). -/
def mapMulU [Zero N] [NumZero N] [Add N] [Mul N] (u : USz) (lhs rhs : BMap N) : Res (BMap N) :=
  rhs.entries.foldlM (fun terms e =>
    if isZero e.2 then Res.ok terms else mapMulInnerU u e.1 e.2 lhs.entries terms) .empty

end

namespace Sparse
variable {N : Type}

/-- `borrow_mul` (src/polynomial/sparsepolynomial.rs 459-463); also `Mul`/`MulAssign` by value and
by reference (817-850). -/
def mulU [Zero N] [NumZero N] [Add N] [Mul N] (u : USz) (p rhs : Sparse N) : Res (Sparse N) := do
  let terms ← mapMulU u p.terms rhs.terms
  .ok ⟨terms⟩

/-- `pow` (src/polynomial/sparsepolynomial.rs 477-495). -/
def powU [Zero N] [NumZero N] [One N] [Add N] [Mul N] (u : USz) (p : Sparse N) (exp : Nat) :
    Res (Sparse N) :=
  if exp = 0 then .ok ⟨BMap.empty.insert 0 1⟩
  else if exp = 1 then .ok (new p.terms)
  else if exp = 2 then p.mulU u p
  else if exp % 2 = 0 then do
    let h ← powU u p (exp / 2)
    powU u h 2
  else do
    let h ← powU u p (exp - 1)
    p.mulU u h
termination_by exp
decreasing_by all_goals omega

/-- `integral` (src/polynomial/sparsepolynomial.rs 440-452): the `SparsePolynomial` inside the
`Integral`.  `deg + 1` is computed twice, with the same outcome. -/
def integralU [RDiv N] [FromUsizeExact N] (u : USz) (p : Sparse N) : Res (Sparse N) := do
  let terms ← p.terms.entries.foldlM (fun terms e => do
    let k ← u.add e.1 1
    match (tryFromExact k : Option N) with
    | none => Res.panic
    | some d => do
      let v ← rdiv e.2 d
      .ok (terms.insert k v)) .empty
  .ok (new terms)

/-- Non-negative branches of the shifts (src/polynomial/sparsepolynomial.rs 908-913, 923-928,
940-947, 957-964); `deg - rhs` does not underflow because it is guarded by `deg >= rhs`. -/
def shiftPosU (u : USz) (left : Bool) (p : Sparse N) (k : Nat) : Res (Sparse N) :=
  if left then do
    let terms ← p.terms.entries.foldlM (fun terms e => do
      let d ← u.add e.1 k
      Res.ok (terms.insert d e.2)) .empty
    .ok (new terms)
  else .ok (p.shrPos k)

/-- `Shl<i32>`, `ShlAssign<i32>` (src/polynomial/sparsepolynomial.rs 901-931). -/
def shlU (u : USz) (fuel : Nat) (p : Sparse N) (rhs : Int) : Res (Sparse N) :=
  shiftU u.chk (shiftPosU u) fuel true p rhs

/-- `Shr<i32>`, `ShrAssign<i32>` (src/polynomial/sparsepolynomial.rs 933-967). -/
def shrU (u : USz) (fuel : Nat) (p : Sparse N) (rhs : Int) : Res (Sparse N) :=
  shiftU u.chk (shiftPosU u) fuel false p rhs

end Sparse

namespace Poly
variable {N : Type}

/-- `add_term` (src/polynomial/polynomial.rs 315-323).  The allocation itself is assumed to
succeed. -/
def addTermU [Zero N] [Add N] (u : USz) (p : Poly N) (coeff : N) (degree : Nat) : Res (Poly N) := do
  let need ← u.add degree 1
  let terms ← if p.terms.length < need then do
      let need ← u.add degree 1
      let addedZeros ← u.sub need p.terms.length
      Res.ok (List.replicate addedZeros 0 ++ p.terms)
    else Res.ok p.terms
  let i ← u.sub terms.length degree
  let index ← u.sub i 1
  if index < terms.length then .ok ⟨terms.modify index (· + coeff)⟩ else .panic

/-- `try_sub_term` (src/polynomial/polynomial.rs 247-260). -/
def trySubTermU [Zero N] [Sub N] [CanNegate N] (u : USz) (p : Poly N) (coeff : N) (degree : Nat) :
    Res (Poly N × Except TryAddError Unit) := do
  let need ← u.add degree 1
  if p.terms.length < need then
    if !CanNegate.canNegate N then .ok (p, .error .canNotNegate)
    else do
      let need ← u.add degree 1
      let addedZeros ← u.sub need p.terms.length
      let terms := List.replicate addedZeros 0 ++ p.terms
      let i ← u.sub terms.length degree
      let index ← u.sub i 1
      if index < terms.length then .ok (⟨terms.modify index (· - coeff)⟩, .ok ()) else .panic
  else do
    let i ← u.sub p.terms.length degree
    let index ← u.sub i 1
    if index < p.terms.length then .ok (⟨p.terms.modify index (· - coeff)⟩, .ok ()) else .panic

/-- `from_terms` (src/polynomial/polynomial.rs 307-313). -/
def fromTermsU [Zero N] [Add N] (u : USz) (terms : List (N × Nat)) : Res (Poly N) :=
  terms.foldlM (fun a t => a.addTermU u t.1 t.2) ⟨[]⟩

/-- `Shl<i32>` (src/polynomial/polynomial.rs 891-904). -/
def shlU [Zero N] [NumZero N] (chk : Bool) (fuel : Nat) (p : Poly N) (rhs : Int) : Res (Poly N) :=
  shiftU chk (fun left p k => if left then p.shlPos k else p.shrPos k) fuel true p rhs

/-- `Shr<i32>` (src/polynomial/polynomial.rs 916-933). -/
def shrU [Zero N] [NumZero N] (chk : Bool) (fuel : Nat) (p : Poly N) (rhs : Int) : Res (Poly N) :=
  shiftU chk (fun left p k => if left then p.shlPos k else p.shrPos k) fuel false p rhs

/-- `ShlAssign<i32>` (src/polynomial/polynomial.rs 906-914). -/
def shlAssignU [Zero N] (chk : Bool) (fuel : Nat) (p : Poly N) (rhs : Int) : Res (Poly N) :=
  shiftU chk (fun left p k => if left then .ok (p.shlAssignPos k) else p.shrAssignPos k) fuel true p rhs

/-- `ShrAssign<i32>` (src/polynomial/polynomial.rs 935-948). -/
def shrAssignU [Zero N] (chk : Bool) (fuel : Nat) (p : Poly N) (rhs : Int) : Res (Poly N) :=
  shiftU chk (fun left p k => if left then .ok (p.shlAssignPos k) else p.shrAssignPos k) fuel false p rhs

end Poly

/-- Inner loop of `mul_poly_vec` (src/polynomial/poly_math.rs 114-116); the sink's own degree
arithmetic is that of its ideal `try_add_term`. -/
def mulPolyVecInnerU {N S : Type} [MutPoly N S] [Mul N] (u : USz) (rcoeff : N) (rdeg : Nat) :
    List (N × Nat) → S → Res (S × Except TryAddError Unit)
  | [], sink => .ok (sink, .ok ())
  | (lcoeff, ldeg) :: lhs, sink => do
    let k ← u.add rdeg ldeg
    match MutPoly.tryAddTerm sink (rcoeff * lcoeff) k with
    | (sink, .ok ()) => mulPolyVecInnerU u rcoeff rdeg lhs sink
    | (sink, .error e) => .ok (sink, .error e)

/-- `mul_poly_vec` (src/polynomial/poly_math.rs 105-120). -/
def mulPolyVecU {N S : Type} [MutPoly N S] [Mul N] (u : USz) :
    List (N × Nat) → List (N × Nat) → S → Res (S × Except TryAddError Unit)
  | [], _, sink => .ok (sink, .ok ())
  | (rcoeff, rdeg) :: rhs, lhs, sink => do
    match ← mulPolyVecInnerU u rcoeff rdeg lhs sink with
    | (sink, .ok ()) => mulPolyVecU u rhs lhs sink
    | (sink, .error e) => .ok (sink, .error e)

end Rustnomial
