import Verif.Model.MachineBuild

/-!
# `Integral`, roots and factors over machine integers
(src/polynomial/integral.rs, binomial.rs, trinomial.rs, array_polynomial.rs)

As `Model/PolyMath.lean` and `Model/FindRoots.lean`, with the arithmetic of a machine type.
-/

namespace Rustnomial

/-- `Integral::replace_c` (src/polynomial/integral.rs 61-65) of a `Polynomial`; `add_term` is
src/polynomial/polynomial.rs 315-323. -/
def Integral.replaceCE (E : Env) (i : Integral (Poly Int)) (c : Int) : Res (Poly Int) := i.polynomial.addTermE E c 0

/-- `Integral::replace_c` (src/polynomial/integral.rs 61-65) of a `SparsePolynomial`; `add_term` is
src/polynomial/sparsepolynomial.rs 272-285. -/
def Integral.replaceCSparseM (A : Arith) (i : Integral (Sparse Int)) (c : Int) : Res (Sparse Int) :=
  i.polynomial.addTermM A c 0

/-- `Integral::eval` (src/polynomial/integral.rs 81-83); `ev` is `eval` of the inner polynomial.  The value at `end` is
computed first. -/
def Integral.evalM {P : Type} (A : Arith) (ev : P → Int → Res Int) (i : Integral P) (start «end» : Int) : Res Int := do
  let e ← ev i.polynomial «end»
  let s ← ev i.polynomial start
  A.sub e s

/-- `LinearBinomial::root` (src/polynomial/binomial.rs 70-81). -/
def LinearBinomial.rootM (A : Arith2) (b : LinearBinomial Int) : Res (Roots Int) :=
  if b.c0 = 0 then
    if b.c1 = 0 then .ok .infiniteRoots else .ok .noRoots
  else do
    let n ← A.neg b.c1
    let r ← A.div n b.c0
    .ok (.oneRealRoot r)

/-- `ArrayPolynomial<N, 2>::root` (src/polynomial/array_polynomial.rs 281-292). -/
def ArrayPoly.rootM (A : Arith2) (p : ArrayPoly Int 2) : Res (Roots Int) :=
  match p.coefficients with
  | [a, b] =>
    if a = 0 then
      if b = 0 then .ok .infiniteRoots else .ok .noRoots
    else do
      let n ← A.neg b
      let r ← A.div n a
      .ok (.oneRealRoot r)
  | _ => .panic

/-- `QuadraticTrinomial::real_factors` (src/polynomial/trinomial.rs 102-112). -/
def QuadraticTrinomial.realFactorsM (A : Arith2) (chk : Bool) (w fuel : Nat) (t : QuadraticTrinomial Int) :
    Res (Option (Int × LinearBinomial Int × LinearBinomial Int)) := do
  let roots ← t.rootsM A chk w fuel
  match roots with
  | .twoRealRoots rootA rootB => do
    let a ← A.neg rootA
    let b ← A.neg rootB
    .ok (some (t.c0, .new 1 a, .new 1 b))
  | _ => .ok none

/-- `QuadraticTrinomial::complex_factors` (src/polynomial/trinomial.rs 80-100). -/
def QuadraticTrinomial.complexFactorsM (A : Arith2) (chk : Bool) (w fuel : Nat) (t : QuadraticTrinomial Int) :
    Res (Int × LinearBinomial (Cplx Int) × LinearBinomial (Cplx Int)) := do
  let roots ← t.rootsM A chk w fuel
  match roots with
  | .twoComplexRoots rootA rootB => do
    let z ← A.neg 0
    let z' ← A.neg 0
    .ok (t.c0, .new ⟨1, z⟩ rootA, .new ⟨1, z'⟩ rootB)
  | .twoRealRoots a b => do
    let a ← A.neg a
    let b ← A.neg b
    .ok (t.c0, .new ⟨1, 0⟩ ⟨a, 0⟩, .new ⟨1, 0⟩ ⟨b, 0⟩)
  | _ => .panic

/-- The three coefficients of an `ArrayPolynomial<N, 3>`, as they are passed to the functions shared with
`QuadraticTrinomial` (src/polynomial/array_polynomial.rs 143, 150). -/
def ArrayPoly.asTrinomial (p : ArrayPoly Int 3) : Res (QuadraticTrinomial Int) :=
  match p.coefficients with
  | [a, b, c] => .ok ⟨a, b, c⟩
  | _ => .panic

/-- `ArrayPolynomial<N, 3>::discriminant` (src/polynomial/array_polynomial.rs 142-145). -/
def ArrayPoly.discriminantM (A : Arith) (p : ArrayPoly Int 3) : Res Int := do
  let t ← p.asTrinomial
  t.discriminantM A

/-- `ArrayPolynomial<N, 3>::roots` (src/polynomial/array_polynomial.rs 149-152). -/
def ArrayPoly.roots3M (A : Arith2) (chk : Bool) (w fuel : Nat) (p : ArrayPoly Int 3) : Res (Roots Int) := do
  let t ← p.asTrinomial
  t.rootsM A chk w fuel

/-- `ArrayPolynomial<N, 3>::real_factors` (src/polynomial/array_polynomial.rs 182-192). -/
def ArrayPoly.realFactorsM (A : Arith2) (chk : Bool) (w fuel : Nat) (p : ArrayPoly Int 3) :
    Res (Option (Int × ArrayPoly Int 2 × ArrayPoly Int 2)) :=
  match p.coefficients with
  | [c0, _, _] => do
    let roots ← p.roots3M A chk w fuel
    match roots with
    | .twoRealRoots rootA rootB => do
      let a ← A.neg rootA
      let b ← A.neg rootB
      .ok (some (c0, ⟨[1, a], rfl⟩, ⟨[1, b], rfl⟩))
    | _ => .ok none
  | _ => .panic

/-- `ArrayPolynomial<N, 3>::complex_factors` (src/polynomial/array_polynomial.rs 154-180). -/
def ArrayPoly.complexFactorsM (A : Arith2) (chk : Bool) (w fuel : Nat) (p : ArrayPoly Int 3) :
    Res (Int × ArrayPoly (Cplx Int) 2 × ArrayPoly (Cplx Int) 2) :=
  match p.coefficients with
  | [c0, _, _] => do
    let roots ← p.roots3M A chk w fuel
    match roots with
    | .twoComplexRoots rootA rootB => do
      let z ← A.neg 0
      let z' ← A.neg 0
      .ok (c0, ⟨[⟨1, z⟩, rootA], rfl⟩, ⟨[⟨1, z'⟩, rootB], rfl⟩)
    | .twoRealRoots a b => do
      let a ← A.neg a
      let b ← A.neg b
      .ok (c0, ⟨[⟨1, 0⟩, ⟨a, 0⟩], rfl⟩, ⟨[⟨1, 0⟩, ⟨b, 0⟩], rfl⟩)
    | _ => .panic
  | _ => .panic

end Rustnomial
