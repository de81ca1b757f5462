import Verif.Model.Checked
import Verif.Model.FindRoots

/-!
# Arithmetic on machine integers, continued: powers, division, the sparse and the fixed-size types

As in `Model/Checked.lean`, every arithmetic operation on coefficients goes through the given arithmetic,
here extended with `/` and `PowUsize::upow`.  Instantiated with exact arithmetic the functions are those of
the ideal model (`Props/Machine.lean`, `C75_exact_*`).  Degrees are unbounded naturals here; degrees as
machine integers are in `Model/Usize.lean`.
-/

namespace Rustnomial

/-- The arithmetic of a coefficient type with `/` and `upow`. -/
structure Arith2 extends Arith where
  div : Int → Int → Res Int
  upow : Int → Nat → Res Int

/-- Exact integers; `/` truncates and panics on a zero divisor, `upow` keeps the low 32 bits of the exponent
(`exp as u32`, src/numerics.rs 91-93). -/
def Arith2.exact : Arith2 :=
  { Arith.exact with
    div := fun a b => if b = 0 then .panic else .ok (a.tdiv b)
    upow := fun a e => .ok (a ^ (e % 2 ^ 32)) }

/-- The primitive type `t` in a build with (`chk = true`) or without overflow checks.  `MIN / -1` panics in
every build.  `pow` of the standard library overflows exactly when the power does: it squares the base only
as long as the square is still needed. -/
def Arith2.machine (chk : Bool) (t : IntTy) : Arith2 :=
  { Arith.machine chk t with
    div := fun a b => if b = 0 then .panic else t.checked (a.tdiv b)
    upow := fun a e => t.result chk (a ^ (e % 2 ^ 32)) }

/-- `match m.get_mut(&k) { None => { m.insert(k, v); } Some(val) => { *val = f(*val); } }` with operations
which may panic. -/
def BMap.upsertM (m : BMap Int) (k : Nat) (v : Res Int) (f : Int → Res Int) : Res (BMap Int) :=
  match m.get k with
  | none => do
    let v ← v
    .ok (m.insert k v)
  | some val => do
    let v ← f val
    .ok (m.insert k v)

/-- Body of the inner loop of `map_mul` (src/polynomial/sparsepolynomial.rs 37-44). -/
def mapMulStepM (A : Arith) (rhsDeg : Nat) (rterm : Int) (terms : BMap Int) (e : Nat × Int) : Res (BMap Int) :=
  terms.upsertM (rhsDeg + e.1) (A.mul rterm e.2) (fun val => do
    let x ← A.mul rterm e.2
    A.add val x)

/-- Inner loop of `map_mul` (src/polynomial/sparsepolynomial.rs 36-45). -/
def mapMulInnerM (A : Arith) (rhsDeg : Nat) (rterm : Int) (lhs : List (Nat × Int)) (terms : BMap Int) :
    Res (BMap Int) :=
  lhs.foldlM (mapMulStepM A rhsDeg rterm) terms

/-- `map_mul` (src/polynomial/sparsepolynomial.rs 26-48). -/
def mapMulM (A : Arith) (lhs rhs : BMap Int) : Res (BMap Int) :=
  rhs.entries.foldlM (fun terms e =>
    if e.2 = 0 then .ok terms else mapMulInnerM A e.1 e.2 lhs.entries terms) .empty

/-- `map_sub_w_scale` (src/polynomial/sparsepolynomial.rs 50-64); `-rcoeff * rhs_scale` is
`(-rcoeff) * rhs_scale`. -/
def mapSubWScaleM (A : Arith) (lhs rhs : BMap Int) (rhsScale : Int) : Res (BMap Int) :=
  rhs.entries.foldlM (fun m e =>
    m.upsertM e.1 (do
      let n ← A.neg e.2
      A.mul n rhsScale) (fun l => do
      let x ← A.mul e.2 rhsScale
      A.sub l x)) lhs

namespace Sparse

/-- `add_term` (src/polynomial/sparsepolynomial.rs 272-285). -/
def addTermM (A : Arith) (p : Sparse Int) (coeff : Int) (degree : Nat) : Res (Sparse Int) :=
  if coeff = 0 then .ok p
  else do
    let terms ← p.terms.upsertM degree (.ok coeff) (fun val => A.add val coeff)
    .ok ⟨terms⟩

/-- `eval` (src/polynomial/sparsepolynomial.rs 374-380). -/
def evalM (A : Arith2) (p : Sparse Int) (point : Int) : Res Int :=
  p.terms.entries.foldlM (fun sum e => do
    let y ← A.upow point e.1
    let y ← A.mul e.2 y
    A.add sum y) 0

/-- `derivative` (src/polynomial/sparsepolynomial.rs 400-413), with the conversion of `usize` to the
coefficient type as a parameter. -/
def derivativeM (A : Arith) (fromUsize : Nat → Option Int) (p : Sparse Int) : Res (Sparse Int) := do
  let terms ← p.terms.entries.foldlM (fun (terms : BMap Int) (e : Nat × Int) =>
    if e.2 ≠ 0 ∧ e.1 ≠ 0 then
      match fromUsize e.1 with
      | none => Res.panic
      | some d => do
        let v ← A.mul e.2 d
        .ok (terms.insert (e.1 - 1) v)
    else .ok terms) .empty
  .ok ⟨terms⟩

/-- `integral` (src/polynomial/sparsepolynomial.rs 440-452). -/
def integralM (A : Arith2) (fromUsize : Nat → Option Int) (p : Sparse Int) : Res (Sparse Int) := do
  let terms ← p.terms.entries.foldlM (fun terms e =>
    match fromUsize (e.1 + 1) with
    | none => Res.panic
    | some d => do
      let v ← A.div e.2 d
      .ok (terms.insert (e.1 + 1) v)) .empty
  .ok (new terms)

/-- `borrow_mul`, `Mul`, `MulAssign` (src/polynomial/sparsepolynomial.rs 459-463, 817-850). -/
def mulM (A : Arith) (p rhs : Sparse Int) : Res (Sparse Int) := do
  let terms ← mapMulM A p.terms rhs.terms
  .ok ⟨terms⟩

/-- `pow` (src/polynomial/sparsepolynomial.rs 477-495). -/
def powM (A : Arith) (p : Sparse Int) (exp : Nat) : Res (Sparse Int) :=
  if exp = 0 then .ok ⟨BMap.empty.insert 0 1⟩
  else if exp = 1 then .ok (new p.terms)
  else if exp = 2 then p.mulM A p
  else if exp % 2 = 0 then do
    let h ← powM A p (exp / 2)
    powM A h 2
  else do
    let h ← powM A p (exp - 1)
    p.mulM A h
termination_by exp
decreasing_by all_goals omega

/-- Loop of `div_mod` (src/polynomial/sparsepolynomial.rs 547-559). -/
def divModLoopM (A : Arith2) (rhs : BMap Int) (rhsFirst : Int) (rhsDeg offset : Nat) :
    Nat → Int → Nat → BMap Int → Sparse Int → Res (Sparse Int × BMap Int)
  | 0, _, _, _, _ => .fuel
  | fuel + 1, scale, selfDegree, remainder, div =>
    if selfDegree ≥ rhsDeg then do
      let remainder ← mapSubWScaleM A.toArith remainder rhs scale
      let div ← div.addTermM A.toArith scale offset
      match sparseFirstTerm remainder with
      | .zeroTerm => .ok (div, remainder)
      | .term coeff degree => do
        let scale ← A.div coeff rhsFirst
        divModLoopM A rhs rhsFirst rhsDeg offset fuel scale degree remainder div
    else .ok (div, remainder)

/-- `div_mod` (src/polynomial/sparsepolynomial.rs 517-562). -/
def divModM (A : Arith2) (fuel : Nat) (p rhs : Sparse Int) : Res (Sparse Int × Sparse Int) :=
  match sparseFirstTerm rhs.terms with
  | .zeroTerm => .panic
  | .term rhsFirst rhsDeg =>
    match sparseFirstTerm p.terms with
    | .zeroTerm => .ok (zero, new p.terms)
    | .term term degree =>
      if degree < rhsDeg then .ok (zero, new p.terms)
      else do
        let scale ← A.div term rhsFirst
        let (div, remainder) ← divModLoopM A rhs.terms rhsFirst rhsDeg (degree - rhsDeg) fuel scale degree
          p.terms (fromVec [])
        .ok (div, new remainder)

/-- Loop of `Rem::rem` and `RemAssign::rem_assign` (src/polynomial/sparsepolynomial.rs 601-612, 650-661). -/
def remLoopM (A : Arith2) (rhs : BMap Int) (rhsFirst : Int) (rhsDeg : Nat) :
    Nat → Int → Nat → BMap Int → Res (BMap Int)
  | 0, _, _, _ => .fuel
  | fuel + 1, scale, selfDegree, remainder =>
    if selfDegree ≥ rhsDeg then do
      let remainder ← mapSubWScaleM A.toArith remainder rhs scale
      match sparseFirstTerm remainder with
      | .zeroTerm => .ok remainder
      | .term coeff degree => do
        let scale ← A.div coeff rhsFirst
        remLoopM A rhs rhsFirst rhsDeg fuel scale degree remainder
    else .ok remainder

/-- `Rem::rem` (src/polynomial/sparsepolynomial.rs 579-615), `RemAssign::rem_assign` (630-662). -/
def remM (A : Arith2) (fuel : Nat) (p rhs : Sparse Int) : Res (Sparse Int) :=
  match sparseFirstTerm rhs.terms with
  | .zeroTerm => .panic
  | .term rhsFirst rhsDeg =>
    match sparseFirstTerm p.terms with
    | .zeroTerm => .ok (new p.terms)
    | .term term degree =>
      if degree < rhsDeg then .ok (new p.terms)
      else do
        let scale ← A.div term rhsFirst
        let remainder ← remLoopM A rhs.terms rhsFirst rhsDeg fuel scale degree p.terms
        .ok (new remainder)

/-- `Neg::neg` (src/polynomial/sparsepolynomial.rs 702-708). -/
def negM (A : Arith) (p : Sparse Int) : Res (Sparse Int) := do
  let terms ← p.terms.entries.foldlM (fun terms e => do
    let v ← A.neg e.2
    Res.ok (terms.insert e.1 v)) .empty
  .ok (new terms)

/-- `Sub` (src/polynomial/sparsepolynomial.rs 717-729) and `SubAssign` (757-768). -/
def subM (A : Arith) (p rhs : Sparse Int) : Res (Sparse Int) := do
  let terms ← rhs.terms.entries.foldlM (fun m e => m.upsertM e.1 (A.neg e.2) (fun l => A.sub l e.2)) p.terms
  .ok ⟨terms⟩

/-- `Sub<Polynomial<N>>` (src/polynomial/sparsepolynomial.rs 738-750). -/
def subDenseM (A : Arith) (p : Sparse Int) (rhs : Poly Int) : Res (Sparse Int) := do
  let terms ← rhs.orderedTermIter.foldlM (fun m e => m.upsertM e.2 (A.neg e.1) (fun l => A.sub l e.1)) p.terms
  .ok ⟨terms⟩

/-- `Add` (src/polynomial/sparsepolynomial.rs 777-793). -/
def addM (A : Arith) (p rhs : Sparse Int) : Res (Sparse Int) := do
  let terms := rhs.terms.entries.foldl (fun m e => m.insert e.1 e.2) BMap.empty
  let terms ← p.terms.entries.foldlM (fun m e => m.upsertM e.1 (.ok e.2) (fun l => A.add l e.2)) terms
  .ok ⟨terms⟩

/-- `AddAssign` (src/polynomial/sparsepolynomial.rs 797-808). -/
def addAssignM (A : Arith) (p rhs : Sparse Int) : Res (Sparse Int) := do
  let terms ← rhs.terms.entries.foldlM (fun m e => m.upsertM e.1 (.ok e.2) (fun l => A.add l e.2)) p.terms
  .ok ⟨terms⟩

/-- `Mul<N>` (src/polynomial/sparsepolynomial.rs 856-863). -/
def mulScalarM (A : Arith) (p : Sparse Int) (rhs : Int) : Res (Sparse Int) := do
  let terms ← p.terms.entries.foldlM (fun terms e => do
    let v ← A.mul e.2 rhs
    Res.ok (terms.insert e.1 v)) .empty
  .ok (new terms)

/-- `MulAssign<N>` (src/polynomial/sparsepolynomial.rs 867-871): in place, entry by entry; the keys do not
change, so this is re-inserting each key with its new value. -/
def mulAssignScalarM (A : Arith) (p : Sparse Int) (rhs : Int) : Res (Sparse Int) := do
  let terms ← p.terms.entries.foldlM (fun terms e => do
    let v ← A.mul e.2 rhs
    Res.ok (terms.insert e.1 v)) p.terms
  .ok ⟨terms⟩

/-- `Div<N>` (src/polynomial/sparsepolynomial.rs 880-887). -/
def divScalarM (A : Arith2) (p : Sparse Int) (rhs : Int) : Res (Sparse Int) := do
  let terms ← p.terms.entries.foldlM (fun terms e => do
    let v ← A.div e.2 rhs
    Res.ok (terms.insert e.1 v)) .empty
  .ok (new terms)

/-- `DivAssign<N>` (src/polynomial/sparsepolynomial.rs 894-898). -/
def divAssignScalarM (A : Arith2) (p : Sparse Int) (rhs : Int) : Res (Sparse Int) := do
  let terms ← p.terms.entries.foldlM (fun terms e => do
    let v ← A.div e.2 rhs
    Res.ok (terms.insert e.1 v)) p.terms
  .ok ⟨terms⟩

end Sparse

/-- `vec_sub_w_scale` (src/polynomial/polynomial.rs 73-84). -/
def vecSubWScaleM (A : Arith) (lhs : List Int) (lhsDegree : Nat) (rhs : List Int) (rhsDeg : Nat)
    (rhsScale : Int) : Res (List Int) := do
  let l1 ← usub lhs.length lhsDegree
  let loc ← usub l1 1
  let tail ← sliceFrom lhs loc
  let r1 ← usub rhs.length rhsDeg
  let r2 ← usub r1 1
  let rtail ← sliceFrom rhs r2
  let tail ← zipMutM (fun l r => do
    let x ← A.mul r rhsScale
    A.sub l x) tail rtail
  .ok (lhs.take loc ++ tail)

namespace Poly

/-- `Polynomial::pow` (src/polynomial/polynomial.rs 455-469). -/
def powM (A : Arith) (p : Poly Int) (exp : Nat) : Res (Poly Int) :=
  if exp = 0 then .ok ⟨List.replicate 1 1⟩
  else if exp = 1 then .ok (new p.terms)
  else if exp = 2 then p.mulRefM A p
  else if exp % 2 = 0 then do
    let h ← powM A p (exp / 2)
    powM A h 2
  else do
    let h ← powM A p (exp - 1)
    p.mulRefM A h
termination_by exp
decreasing_by all_goals omega

/-- Loop of `integral` (src/polynomial/polynomial.rs 430-433). -/
def integLoopM (A : Arith2) : List Int → Int → Res (List Int)
  | [], _ => .ok []
  | term :: rest, degree => do
    let t ← A.div term degree
    let degree ← A.sub degree 1
    let ts ← integLoopM A rest degree
    .ok (t :: ts)

/-- `Integrable::integral` (src/polynomial/polynomial.rs 425-436). -/
def integralM (A : Arith2) (fromUsize : Nat → Option Int) (p : Poly Int) : Res (Poly Int) :=
  let index := firstNonzeroIndex p.terms
  match fromUsize (p.terms.length - index) with
  | none => .panic
  | some degree => do
    let terms ← integLoopM A (p.terms.drop index) degree
    .ok ⟨terms ++ [0]⟩

/-- `while` loop of `div_mod` (src/polynomial/polynomial.rs 501-512). -/
def divModLoopM (A : Arith2) (rhs : List Int) (rhsFirst : Int) (rhsDeg offset : Nat) :
    Nat → Int → Nat → List Int → List Int → Res (List Int × List Int)
  | 0, _, _, _, _ => .fuel
  | fuel + 1, coeff, selfDegree, remainder, div =>
    if rhsDeg ≤ selfDegree then do
      let scale ← A.div coeff rhsFirst
      let remainder ← vecSubWScaleM A.toArith remainder selfDegree rhs rhsDeg scale
      let i ← usub offset selfDegree
      if i < div.length then
        let div := div.set i scale
        match firstTerm remainder with
        | .zeroTerm => .ok (div, remainder)
        | .term coeffx degree => divModLoopM A rhs rhsFirst rhsDeg offset fuel coeffx degree remainder div
      else .panic
    else .ok (div, remainder)

/-- `Polynomial::div_mod` (src/polynomial/polynomial.rs 477-515). -/
def divModM (A : Arith2) (fuel : Nat) (p rhs : Poly Int) : Res (Poly Int × Poly Int) :=
  match firstTerm rhs.terms with
  | .zeroTerm => .panic
  | .term rhsFirst rhsDeg =>
    match firstTerm p.terms with
    | .zeroTerm => .ok (zero, p)
    | .term coeff degree =>
      if degree < rhsDeg then .ok (zero, p)
      else do
        let (div, remainder) ← divModLoopM A rhs.terms rhsFirst rhsDeg degree fuel coeff degree p.terms
          (List.replicate (degree - rhsDeg + 1) 0)
        .ok (new div, new remainder)

/-- `Polynomial::floor_div` (src/polynomial/polynomial.rs 523-525). -/
def floorDivM (A : Arith2) (fuel : Nat) (p rhs : Poly Int) : Res (Poly Int) := do
  let (q, _) ← divModM A fuel p rhs
  .ok q

/-- `while` loop of `Rem::rem` (src/polynomial/polynomial.rs 553-562); the next term is read from
`self.terms`, which does not change. -/
def remLoopM (A : Arith2) (selfTerms rhs : List Int) (rhsFirst : Int) (rhsDeg : Nat) :
    Nat → Int → Nat → List Int → Res (List Int)
  | 0, _, _, _ => .fuel
  | fuel + 1, scale, selfDegree, remainder =>
    if rhsDeg ≤ selfDegree then do
      let remainder ← vecSubWScaleM A.toArith remainder selfDegree rhs rhsDeg scale
      match firstTerm selfTerms with
      | .zeroTerm => .ok remainder
      | .term coeff degree => do
        let scale ← A.div coeff rhsFirst
        remLoopM A selfTerms rhs rhsFirst rhsDeg fuel scale degree remainder
    else .ok remainder

/-- `Rem::rem`, the `%` operator (src/polynomial/polynomial.rs 535-565). -/
def remM (A : Arith2) (fuel : Nat) (p rhs : Poly Int) : Res (Poly Int) :=
  match firstTerm rhs.terms with
  | .zeroTerm => .panic
  | .term rhsFirst rhsDeg =>
    match firstTerm p.terms with
    | .zeroTerm => .ok p
    | .term coeff degree =>
      if degree < rhsDeg then .ok p
      else do
        let scale ← A.div coeff rhsFirst
        let remainder ← remLoopM A p.terms rhs.terms rhsFirst rhsDeg fuel scale degree p.terms
        .ok (new remainder)

/-- `while` loop of `RemAssign::rem_assign` (src/polynomial/polynomial.rs 589-598). -/
def remAssignLoopM (A : Arith2) (rhs : List Int) (rhsFirst : Int) (rhsDeg : Nat) :
    Nat → Int → Nat → List Int → Res (List Int)
  | 0, _, _, _ => .fuel
  | fuel + 1, scale, selfDegree, terms =>
    if rhsDeg ≤ selfDegree then do
      let terms ← vecSubWScaleM A.toArith terms selfDegree rhs rhsDeg scale
      match firstTerm terms with
      | .zeroTerm => .ok terms
      | .term coeff degree => do
        let scale ← A.div coeff rhsFirst
        remAssignLoopM A rhs rhsFirst rhsDeg fuel scale degree terms
    else .ok terms

/-- `RemAssign::rem_assign`, the `%=` operator (src/polynomial/polynomial.rs 573-599). -/
def remAssignM (A : Arith2) (fuel : Nat) (p rhs : Poly Int) : Res (Poly Int) :=
  match firstTerm rhs.terms with
  | .zeroTerm => .panic
  | .term rhsFirst rhsDeg =>
    match firstTerm p.terms with
    | .zeroTerm => .ok p
    | .term coeff degree =>
      if degree < rhsDeg then .ok p
      else do
        let scale ← A.div coeff rhsFirst
        let terms ← remAssignLoopM A rhs.terms rhsFirst rhsDeg fuel scale degree p.terms
        .ok ⟨terms⟩

/-- `Div<N>` (src/polynomial/polynomial.rs 878-880). -/
def divScalarM (A : Arith2) (p : Poly Int) (rhs : Int) : Res (Poly Int) := do
  let terms ← p.terms.mapM (fun x => A.div x rhs)
  .ok (new terms)

/-- `DivAssign<N>` (src/polynomial/polynomial.rs 884-888). -/
def divAssignScalarM (A : Arith2) (p : Poly Int) (rhs : Int) : Res (Poly Int) := do
  let terms ← p.terms.mapM (fun x => A.div x rhs)
  .ok ⟨terms⟩

end Poly

namespace Monomial

/-- `eval` (src/polynomial/monomial.rs 178-180). -/
def evalM (A : Arith2) (m : Monomial Int) (point : Int) : Res Int := do
  let y ← A.upow point m.deg
  A.mul m.coefficient y

/-- `derivative` (src/polynomial/monomial.rs 222-232). -/
def derivativeM (A : Arith) (fromUsize : Nat → Option Int) (m : Monomial Int) : Res (Monomial Int) :=
  match m.degree with
  | .negInf => .ok zero
  | .num 0 => .ok zero
  | .num x =>
    match fromUsize x with
    | none => .panic
    | some d => do
      let c ← A.mul m.coefficient d
      .ok (new c (x - 1))

/-- `integral` (src/polynomial/monomial.rs 257-265). -/
def integralM (A : Arith2) (fromUsize : Nat → Option Int) (m : Monomial Int) : Res (Sparse Int) :=
  match m.degree with
  | .negInf => .ok Sparse.zero
  | .num x =>
    match fromUsize (x + 1) with
    | none => .panic
    | some d => do
      let c ← A.div m.coefficient d
      .ok (Sparse.fromTerms [(c, x + 1)])

/-- `pow` (src/polynomial/monomial.rs 281-283). -/
def powM (A : Arith2) (m : Monomial Int) (exp : Nat) : Res (Monomial Int) := do
  let c ← A.upow m.coefficient exp
  .ok (new c (m.deg * exp))

/-- `Neg` (src/polynomial/monomial.rs 341-347). -/
def negM (A : Arith) (m : Monomial Int) : Res (Monomial Int) := do
  let c ← A.neg m.coefficient
  .ok (new c m.deg)

/-- `Mul`, `MulAssign` by value and by reference (src/polynomial/monomial.rs 440-471). -/
def mulM (A : Arith) (m rhs : Monomial Int) : Res (Monomial Int) := do
  let c ← A.mul m.coefficient rhs.coefficient
  .ok (new c (m.deg + rhs.deg))

/-- `Mul<N>`, `MulAssign<N>` (src/polynomial/monomial.rs 473-485). -/
def mulScalarM (A : Arith) (m : Monomial Int) (rhs : Int) : Res (Monomial Int) := do
  let c ← A.mul m.coefficient rhs
  .ok (new c m.deg)

/-- `Div<N>`, `DivAssign<N>` (src/polynomial/monomial.rs 487-499). -/
def divScalarM (A : Arith2) (m : Monomial Int) (rhs : Int) : Res (Monomial Int) := do
  let c ← A.div m.coefficient rhs
  .ok (new c m.deg)

/-- `try_add_term` (src/polynomial/monomial.rs 137-148). -/
def tryAddTermM (A : Arith) (m : Monomial Int) (coeff : Int) (degree : Nat) :
    Res (Monomial Int × Except TryAddError Unit) :=
  if m.isZeroPoly then do
    let v ← A.add m.coefficient coeff
    .ok (⟨v, degree⟩, .ok ())
  else if degree = m.deg then do
    let v ← A.add m.coefficient coeff
    .ok ({ m with coefficient := v }, .ok ())
  else .ok (m, .error .tooManyTerms)

end Monomial

namespace LinearBinomial

/-- `try_add_term` (src/polynomial/binomial.rs 160-167). -/
def tryAddTermM (A : Arith) (b : LinearBinomial Int) (coeff : Int) (degree : Nat) :
    Res (LinearBinomial Int × Except TryAddError Unit) :=
  if degree ≤ 1 then do
    let v ← A.add (if 1 - degree = 0 then b.c0 else b.c1) coeff
    .ok (b.modify (1 - degree) (fun _ => v), .ok ())
  else .ok (b, .error .degreeOutOfBounds)

/-- `integral` (src/polynomial/binomial.rs 239-246). -/
def integralM (A : Arith2) (fromUsize : Nat → Option Int) (b : LinearBinomial Int) : Res (Poly Int) :=
  match fromUsize 2 with
  | none => .panic
  | some two => do
    let q ← A.div b.c0 two
    .ok (Poly.new [q, b.c1, 0])

/-- `eval` (src/polynomial/binomial.rs 193-195). -/
def evalM (A : Arith) (b : LinearBinomial Int) (point : Int) : Res Int := do
  let x ← A.mul point b.c0
  A.add x b.c1

/-- `Neg` (src/polynomial/binomial.rs 292-298). -/
def negM (A : Arith) (b : LinearBinomial Int) : Res (LinearBinomial Int) := do
  let c0 ← A.neg b.c0
  let c1 ← A.neg b.c1
  .ok (new c0 c1)

/-- `Sub`, `SubAssign` (src/polynomial/binomial.rs 300-322). -/
def subM (A : Arith) (b rhs : LinearBinomial Int) : Res (LinearBinomial Int) := do
  let c0 ← A.sub b.c0 rhs.c0
  let c1 ← A.sub b.c1 rhs.c1
  .ok (new c0 c1)

/-- `Add`, `AddAssign` (src/polynomial/binomial.rs 324-343). -/
def addM (A : Arith) (b rhs : LinearBinomial Int) : Res (LinearBinomial Int) := do
  let c0 ← A.add b.c0 rhs.c0
  let c1 ← A.add b.c1 rhs.c1
  .ok (new c0 c1)

/-- `Mul<N>`, `MulAssign<N>` (src/polynomial/binomial.rs 378-391). -/
def mulScalarM (A : Arith) (b : LinearBinomial Int) (rhs : Int) : Res (LinearBinomial Int) := do
  let c0 ← A.mul b.c0 rhs
  let c1 ← A.mul b.c1 rhs
  .ok (new c0 c1)

/-- `Div<N>`, `DivAssign<N>` (src/polynomial/binomial.rs 393-406). -/
def divScalarM (A : Arith2) (b : LinearBinomial Int) (rhs : Int) : Res (LinearBinomial Int) := do
  let q0 ← A.div b.c0 rhs
  let q1 ← A.div b.c1 rhs
  .ok (new q0 q1)

end LinearBinomial

namespace QuadraticTrinomial

/-- `try_add_term` (src/polynomial/trinomial.rs 194-201). -/
def tryAddTermM (A : Arith) (t : QuadraticTrinomial Int) (coeff : Int) (degree : Nat) :
    Res (QuadraticTrinomial Int × Except TryAddError Unit) :=
  if degree ≤ 2 then do
    let v ← A.add (if 2 - degree = 0 then t.c0 else if 2 - degree = 1 then t.c1 else t.c2) coeff
    .ok (t.modify (2 - degree) (fun _ => v), .ok ())
  else .ok (t, .error .degreeOutOfBounds)

/-- `integral` (src/polynomial/trinomial.rs 279-288). -/
def integralM (A : Arith2) (fromUsize : Nat → Option Int) (t : QuadraticTrinomial Int) : Res (Poly Int) :=
  match fromUsize 3 with
  | none => .panic
  | some three => do
    let q0 ← A.div t.c0 three
    match fromUsize 2 with
    | none => .panic
    | some two => do
      let q1 ← A.div t.c1 two
      .ok (Poly.new [q0, q1, t.c2, 0])

/-- `eval` (src/polynomial/trinomial.rs 227-229). -/
def evalM (A : Arith) (t : QuadraticTrinomial Int) (point : Int) : Res Int := do
  let x ← A.mul t.c0 point
  let x ← A.add x t.c1
  let x ← A.mul point x
  A.add x t.c2

/-- `derivative` (src/polynomial/trinomial.rs 245-252). -/
def derivativeM (A : Arith) (fromUsize : Nat → Option Int) (t : QuadraticTrinomial Int) :
    Res (QuadraticTrinomial Int) :=
  match fromUsize 2 with
  | none => .panic
  | some two => do
    let x ← A.mul t.c0 two
    .ok (new 0 x t.c1)

/-- `Neg` (src/polynomial/trinomial.rs 339-349). -/
def negM (A : Arith) (t : QuadraticTrinomial Int) : Res (QuadraticTrinomial Int) := do
  let c0 ← A.neg t.c0
  let c1 ← A.neg t.c1
  let c2 ← A.neg t.c2
  .ok (new c0 c1 c2)

/-- `Sub`, `SubAssign` (src/polynomial/trinomial.rs 351-375). -/
def subM (A : Arith) (t rhs : QuadraticTrinomial Int) : Res (QuadraticTrinomial Int) := do
  let c0 ← A.sub t.c0 rhs.c0
  let c1 ← A.sub t.c1 rhs.c1
  let c2 ← A.sub t.c2 rhs.c2
  .ok (new c0 c1 c2)

/-- `Add`, `AddAssign` (src/polynomial/trinomial.rs 377-398). -/
def addM (A : Arith) (t rhs : QuadraticTrinomial Int) : Res (QuadraticTrinomial Int) := do
  let c0 ← A.add t.c0 rhs.c0
  let c1 ← A.add t.c1 rhs.c1
  let c2 ← A.add t.c2 rhs.c2
  .ok (new c0 c1 c2)

/-- `Mul<N>`, `MulAssign<N>` (src/polynomial/trinomial.rs 433-451). -/
def mulScalarM (A : Arith) (t : QuadraticTrinomial Int) (rhs : Int) : Res (QuadraticTrinomial Int) := do
  let c0 ← A.mul t.c0 rhs
  let c1 ← A.mul t.c1 rhs
  let c2 ← A.mul t.c2 rhs
  .ok (new c0 c1 c2)

/-- `Div<N>`, `DivAssign<N>` (src/polynomial/trinomial.rs 453-471). -/
def divScalarM (A : Arith2) (t : QuadraticTrinomial Int) (rhs : Int) : Res (QuadraticTrinomial Int) := do
  let q0 ← A.div t.c0 rhs
  let q1 ← A.div t.c1 rhs
  let q2 ← A.div t.c2 rhs
  .ok (new q0 q1 q2)

/-- `discriminant_trinomial` (src/polynomial/find_roots.rs 28-33), `discriminant`
(src/polynomial/trinomial.rs 68-71). -/
def discriminantM (A : Arith) (t : QuadraticTrinomial Int) : Res Int := do
  let bb ← A.mul t.c1 t.c1
  let ac ← A.mul t.c0 t.c2
  let ac4 ← A.mul ac 4
  A.sub bb ac4

/-- `trinomial_roots` (src/polynomial/find_roots.rs 35-62), `roots` (src/polynomial/trinomial.rs 75-78), for
a signed type of width `w`; `fuel` bounds the loop of `abs_sqrt` (src/numerics.rs 152-203). -/
def rootsM (A : Arith2) (chk : Bool) (w fuel : Nat) (t : QuadraticTrinomial Int) : Res (Roots Int) := do
  let discriminant ← t.discriminantM A.toArith
  let a ← A.mul t.c0 2
  let nb ← A.neg t.c1
  let b ← A.div nb a
  if discriminant = 0 then .ok (.twoRealRoots b b)
  else do
    let s ← absSqrtI chk w fuel discriminant
    let sqrt ← A.div s a
    if isPositiveInt discriminant then do
      let r1 ← A.add b sqrt
      let r2 ← A.sub b sqrt
      .ok (.twoRealRoots r1 r2)
    else do
      let n ← A.neg sqrt
      .ok (.twoComplexRoots ⟨b, sqrt⟩ ⟨b, n⟩)

end QuadraticTrinomial

namespace ArrayPoly
variable {size : Nat}

/-- `try_add_term` (src/polynomial/array_polynomial.rs 36-43): the new coefficients and the result. -/
def tryAddTermM (A : Arith) (p : ArrayPoly Int size) (coeff : Int) (degree : Nat) :
    Res (List Int × Except TryAddError Unit) :=
  if degree < size then do
    let l ← Rustnomial.modifyM (fun x => A.add x coeff) p.coefficients (size - degree - 1)
    .ok (l, .ok ())
  else .ok (p.coefficients, .error .degreeOutOfBounds)

/-- `eval` (src/polynomial/array_polynomial.rs 59-74). -/
def evalM (A : Arith) (p : ArrayPoly Int size) (point : Int) : Res Int :=
  match p.coefficients.getLast? with
  | some last =>
    if point = 0 then .ok last
    else do
      let sum ← p.coefficients.dropLast.foldlM (fun sum val => do
        let x ← A.add sum val
        A.mul x point) 0
      A.add sum last
  | none => .ok 0

/-- Loop of `derivative` (src/polynomial/array_polynomial.rs 86-89). -/
def derivLoopM (A : Arith) : List Int → Nat → Int → Res (List Int)
  | coeff :: rest, slots + 1, degree => do
    let degree ← A.sub degree 1
    let v ← A.mul degree coeff
    let vs ← derivLoopM A rest slots degree
    .ok (v :: vs)
  | _, _, _ => .ok []

/-- `derivative` (src/polynomial/array_polynomial.rs 81-92): the coefficient list of the result. -/
def derivativeM (A : Arith) (fromUsize : Nat → Option Int) (p : ArrayPoly Int size) : Res (List Int) :=
  match fromUsize size with
  | none => .panic
  | some degree =>
    if size ≥ 1 then do
      let vs ← derivLoopM A p.coefficients (size - 1) degree
      .ok (0 :: vs)
    else .ok []

/-- `integral` (src/polynomial/array_polynomial.rs 107-117): the inner `Polynomial` (not trimmed). -/
def integralM (A : Arith2) (fromUsize : Nat → Option Int) (p : ArrayPoly Int size) : Res (Poly Int) :=
  match fromUsize size with
  | none => .panic
  | some degree => do
    let terms ← Poly.integLoopM A p.coefficients degree
    .ok ⟨terms ++ [0]⟩

end ArrayPoly
end Rustnomial
