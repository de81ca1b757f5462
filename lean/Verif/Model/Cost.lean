import Verif.Model.Dense
import Verif.Model.Sparse

/-!
# Counting arithmetic operations

The functions of `Model/Dense.lean` and `Model/Sparse.lean` again, returning along with the value the number of
operations on coefficients that the lines cited execute.  `Props/Cost.lean` shows that they return the same values as the
functions they are copies of.
-/

namespace Rustnomial

section
variable {N : Type} [Zero N] [NumZero N] [Add N] [Mul N]

/-- `slice_mul` outer loop (src/polynomial/polynomial.rs 62-69), counting executions of the line
`*term += rterm * lterm` (67), each of which multiplies and adds once. -/
def sliceMulLoopC (lhs : List N) : List N → Nat → List N → Nat → Res (List N × Nat)
  | [], _, terms, n => .ok (terms, n)
  | rterm :: rest, index, terms, n =>
    if isZero rterm then sliceMulLoopC lhs rest (index + 1) terms n
    else do
      let tail ← sliceFrom terms index
      sliceMulLoopC lhs rest (index + 1)
        (terms.take index ++ zipMut (fun term lterm => term + rterm * lterm) tail lhs) (n + min tail.length lhs.length)

/-- `slice_mul` (src/polynomial/polynomial.rs 55-71), counting. -/
def sliceMulC (lhs rhs : List N) : Res (List N × Nat) := do
  let rhs ← sliceFrom rhs (firstNonzeroIndex rhs)
  let lhs ← sliceFrom lhs (firstNonzeroIndex lhs)
  let len ← usub (rhs.length + lhs.length) 1
  sliceMulLoopC lhs rhs 0 (List.replicate len 0) 0

/-- `Polynomial::pow` (src/polynomial/polynomial.rs 455-469) with the number of polynomial products and the largest
number of calls of `pow` that are active at the same time. -/
def Poly.powC [One N] (p : Poly N) (exp : Nat) : Res (Poly N × Nat × Nat) :=
  if exp = 0 then .ok (⟨List.replicate 1 1⟩, 0, 1)
  else if exp = 1 then .ok (Poly.new p.terms, 0, 1)
  else if exp = 2 then do
    let r ← p.mulRef p
    .ok (r, 1, 1)
  else if exp % 2 = 0 then do
    let (h, m1, d1) ← Poly.powC p (exp / 2)
    let (r, m2, d2) ← Poly.powC h 2
    .ok (r, m1 + m2, 1 + max d1 d2)
  else do
    let (h, m, d) ← Poly.powC p (exp - 1)
    let r ← p.mulRef h
    .ok (r, m + 1, 1 + d)
termination_by exp
decreasing_by all_goals omega

/-- `SparsePolynomial::pow` (src/polynomial/sparsepolynomial.rs 477-495), counting as `Poly.powC`. -/
def Sparse.powC [One N] (p : Sparse N) (exp : Nat) : Sparse N × Nat × Nat :=
  if exp = 0 then (⟨BMap.empty.insert 0 1⟩, 0, 1)
  else if exp = 1 then (Sparse.new p.terms, 0, 1)
  else if exp = 2 then (p.mul p, 1, 1)
  else if exp % 2 = 0 then
    let (h, m1, d1) := Sparse.powC p (exp / 2)
    let (r, m2, d2) := Sparse.powC h 2
    (r, m1 + m2, 1 + max d1 d2)
  else
    let (h, m, d) := Sparse.powC p (exp - 1)
    (p.mul h, m + 1, 1 + d)
termination_by exp
decreasing_by all_goals omega

/-- Inner loop of `map_mul` (src/polynomial/sparsepolynomial.rs 36-45), counting the products `rterm * lterm`. -/
def mapMulInnerC (rhsDeg : Nat) (rterm : N) (lhs : List (Nat × N)) (s : BMap N × Nat) : BMap N × Nat :=
  lhs.foldl (fun s e => (s.1.upsert (rhsDeg + e.1) (rterm * e.2) (· + rterm * e.2), s.2 + 1)) s

/-- `map_mul` (src/polynomial/sparsepolynomial.rs 26-48), counting the products. -/
def mapMulC (lhs rhs : BMap N) : BMap N × Nat :=
  rhs.entries.foldl (fun s e => if isZero e.2 then s else mapMulInnerC e.1 e.2 lhs.entries s) (.empty, 0)

/-- `Evaluable::eval` of `Polynomial` (src/polynomial/polynomial.rs 340-362), counting executions of the line
`sum = (sum + val) * point`. -/
def Poly.evalC (p : Poly N) (point : N) : N × Nat :=
  match p.terms.getLast? with
  | some last =>
    if isZero point then (last, 0)
    else
      let s := p.terms.dropLast.foldl (fun s val => ((s.1 + val) * point, s.2 + 1)) (0, 0)
      (s.1 + last, s.2)
  | none => (0, 0)

end

section
variable {N : Type} [Zero N] [NumZero N] [Sub N] [Mul N] [RDiv N]

/-- `vec_sub_w_scale` (src/polynomial/polynomial.rs 73-84), counting the products. -/
def vecSubWScaleC (lhs : List N) (lhsDegree : Nat) (rhs : List N) (rhsDeg : Nat) (rhsScale : N) :
    Res (List N × Nat) := do
  let l1 ← usub lhs.length lhsDegree
  let loc ← usub l1 1
  let tail ← sliceFrom lhs loc
  let r1 ← usub rhs.length rhsDeg
  let r2 ← usub r1 1
  let rtail ← sliceFrom rhs r2
  .ok (lhs.take loc ++ zipMut (fun l r => l - r * rhsScale) tail rtail, min tail.length rtail.length)

/-- `while` loop of `div_mod` (src/polynomial/polynomial.rs 501-512), counting divisions and products. -/
def Poly.divModLoopC (rhs : List N) (rhsFirst : N) (rhsDeg offset : Nat) :
    Nat → N → Nat → List N → List N → Nat → Nat → Res (List N × List N × Nat × Nat)
  | 0, _, _, _, _, _, _ => .fuel
  | fuel + 1, coeff, selfDegree, remainder, div, nd, nm =>
    if rhsDeg ≤ selfDegree then do
      let scale ← rdiv coeff rhsFirst
      let (remainder, k) ← vecSubWScaleC remainder selfDegree rhs rhsDeg scale
      let i ← usub offset selfDegree
      if i < div.length then
        let div := div.set i scale
        match firstTerm remainder with
        | .zeroTerm => .ok (div, remainder, nd + 1, nm + k)
        | .term coeffx degree =>
          Poly.divModLoopC rhs rhsFirst rhsDeg offset fuel coeffx degree remainder div (nd + 1) (nm + k)
      else .panic
    else .ok (div, remainder, nd, nm)

/-- `Polynomial::div_mod` (src/polynomial/polynomial.rs 477-515), counting divisions and products. -/
def Poly.divModC (fuel : Nat) (p rhs : Poly N) : Res ((Poly N × Poly N) × Nat × Nat) :=
  match firstTerm rhs.terms with
  | .zeroTerm => .panic
  | .term rhsFirst rhsDeg =>
    match firstTerm p.terms with
    | .zeroTerm => .ok ((Poly.zero, p), 0, 0)
    | .term coeff degree =>
      if degree < rhsDeg then .ok ((Poly.zero, p), 0, 0)
      else do
        let (div, remainder, nd, nm) ← Poly.divModLoopC rhs.terms rhsFirst rhsDeg degree fuel coeff degree p.terms
          (List.replicate (degree - rhsDeg + 1) 0) 0 0
        .ok ((Poly.new div, Poly.new remainder), nd, nm)

end

end Rustnomial
