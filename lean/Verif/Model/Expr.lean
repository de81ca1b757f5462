import Verif.Model.Machine
import Verif.Model.MachineBuild

/-!
# Expressions

A program that computes with polynomials through the operators of the crate, as a caller writes it: `(a + b).pow(3) * c - (d << 2)`.
-/

namespace Rustnomial

/-- An expression over `N`: literals given by their coefficients from the highest degree down, and the operators. -/
inductive RExpr (N : Type) where
  | lit (coeffs : List N)
  | neg (a : RExpr N)
  | add (a b : RExpr N)
  | sub (a b : RExpr N)
  | mul (a b : RExpr N)
  | pow (a : RExpr N) (n : Nat)
  | scale (a : RExpr N) (c : N)
  | shl (a : RExpr N) (k : Nat)

/-- The functions of a polynomial type `V` over `N` that the operators call. -/
structure ROps (V N : Type) where
  lit : List N → V
  neg : V → Res V
  add : V → V → Res V
  sub : V → V → Res V
  mul : V → V → Res V
  pow : V → Nat → Res V
  scale : V → N → Res V
  shl : V → Int → Res V

/-- The value of an expression: the operands are computed from left to right, and a panic ends the computation. -/
def RExpr.run {V N : Type} (o : ROps V N) : RExpr N → Res V
  | .lit cs => .ok (o.lit cs)
  | .neg a => do
    let x ← a.run o
    o.neg x
  | .add a b => do
    let x ← a.run o
    let y ← b.run o
    o.add x y
  | .sub a b => do
    let x ← a.run o
    let y ← b.run o
    o.sub x y
  | .mul a b => do
    let x ← a.run o
    let y ← b.run o
    o.mul x y
  | .pow a n => do
    let x ← a.run o
    o.pow x n
  | .scale a c => do
    let x ← a.run o
    o.scale x c
  | .shl a k => do
    let x ← a.run o
    o.shl x k

section
variable {N : Type} [Zero N] [NumZero N] [One N] [Neg N] [Add N] [Sub N] [Mul N]

/-- The operators of `Polynomial`: `new` (src/polynomial/polynomial.rs 147-151), `Neg` (662-672), `Add` (747-768), `Sub` (674-708), `Mul`
(790-801), `pow` (455-469), `Mul<N>` (856-862), `Shl<i32>` (891-905). -/
def denseOps : ROps (Poly N) N where
  lit := Poly.new
  neg p := .ok p.neg
  add := Poly.add
  sub := Poly.sub
  mul := Poly.mul
  pow := Poly.pow
  scale p c := .ok (p.mulScalar c)
  shl := Poly.shl

/-- The operators of `SparsePolynomial`: `From<Vec<N>>` (src/polynomial/sparsepolynomial.rs 346-357), `Neg`, `Add`, `Sub`, `Mul`, `pow`,
`Mul<N>`, `Shl<i32>` (see `Model/Sparse.lean`). -/
def sparseOps : ROps (Sparse N) N where
  lit := Sparse.fromVec
  neg p := .ok p.neg
  add p q := .ok (p.add q)
  sub p q := .ok (p.sub q)
  mul p q := .ok (p.mul q)
  pow p n := .ok (p.pow n)
  scale p c := .ok (p.mulScalar c)
  shl := Sparse.shl

end

/-- The operators of `Polynomial` (as in `denseOps`) with machine integers as coefficients. -/
def denseOpsM (A : Arith) : ROps (Poly Int) Int where
  lit := Poly.new
  neg p := p.negM A
  add p q := p.addM A q
  sub p q := p.subM A q
  mul p q := p.mulM A q
  pow p n := p.powM A n
  scale p c := p.mulScalarM A c
  shl := Poly.shl

/-- The operators of `SparsePolynomial` (as in `sparseOps`) with machine integers as coefficients. -/
def sparseOpsM (A : Arith) : ROps (Sparse Int) Int where
  lit := Sparse.fromVec
  neg p := p.negM A
  add p q := p.addM A q
  sub p q := p.subM A q
  mul p q := p.mulM A q
  pow p n := p.powM A n
  scale p c := p.mulScalarM A c
  shl := Sparse.shl

/-- An expression over a field: as `RExpr`, with `derivative`, `floor_div` and `%=`. -/
inductive FExpr (N : Type) where
  | lit (coeffs : List N)
  | neg (a : FExpr N)
  | add (a b : FExpr N)
  | sub (a b : FExpr N)
  | mul (a b : FExpr N)
  | pow (a : FExpr N) (n : Nat)
  | scale (a : FExpr N) (c : N)
  | shl (a : FExpr N) (k : Nat)
  | deriv (a : FExpr N)
  | quo (a b : FExpr N)
  | rem (a b : FExpr N)

/-- The value of an expression as a `Polynomial`: the operators of `denseOps`, `derivative` (src/polynomial/polynomial.rs 381-397),
`floor_div` (523-525) and `%=` (568-599).  `fuel` bounds the iterations of every division. -/
def FExpr.run {N : Type} [Zero N] [NumZero N] [One N] [Neg N] [Add N] [Sub N] [Mul N] [RDiv N] [FromUsizeCont N] (fuel : Nat) :
    FExpr N → Res (Poly N)
  | .lit cs => .ok (Poly.new cs)
  | .neg a => do
    let x ← a.run fuel
    .ok x.neg
  | .add a b => do
    let x ← a.run fuel
    let y ← b.run fuel
    x.add y
  | .sub a b => do
    let x ← a.run fuel
    let y ← b.run fuel
    x.sub y
  | .mul a b => do
    let x ← a.run fuel
    let y ← b.run fuel
    x.mul y
  | .pow a n => do
    let x ← a.run fuel
    x.pow n
  | .scale a c => do
    let x ← a.run fuel
    .ok (x.mulScalar c)
  | .shl a k => do
    let x ← a.run fuel
    x.shl (k : Int)
  | .deriv a => do
    let x ← a.run fuel
    x.derivative
  | .quo a b => do
    let x ← a.run fuel
    let y ← b.run fuel
    x.floorDiv fuel y
  | .rem a b => do
    let x ← a.run fuel
    let y ← b.run fuel
    x.remAssign fuel y

end Rustnomial
