import Verif.Model.Euclid

/-!
# Programs that find multiplicities, Taylor coefficients and squarefree parts with the operators

The repository has no such functions; these are the programs a caller writes.  What they call is the code of
src/polynomial/polynomial.rs.
-/

namespace Rustnomial

namespace Poly
variable {N : Type} [Zero N] [NumZero N] [Add N] [Mul N]

/-- `while p.eval(a).is_zero() { p = p.derivative(); k += 1; } k`, at most `steps` tests of the condition (`eval` 340-362,
`derivative` 381-397 of src/polynomial/polynomial.rs). -/
def multiplicityLoop [One N] [Sub N] [FromUsizeCont N] (a : N) : Nat → Poly N → Nat → Res Nat
  | 0, _, _ => .fuel
  | steps + 1, p, k =>
    if isZero (p.eval a) then do
      let d ← p.derivative
      multiplicityLoop a steps d (k + 1)
    else .ok k

/-- The loop started with `k = 0`. -/
def multiplicity [One N] [Sub N] [FromUsizeCont N] (steps : Nat) (p : Poly N) (a : N) : Res Nat := multiplicityLoop a steps p 0

/-- `while p.eval(a).is_zero() { p = p.div_mod(&Polynomial::new(vec![1, -a])).0; k += 1; } (p, k)` (`eval` 340-362, `div_mod` 477-515
of src/polynomial/polynomial.rs). -/
def divideOutLoop [One N] [Neg N] [Sub N] [RDiv N] (fuel : Nat) (a : N) : Nat → Poly N → Nat → Res (Poly N × Nat)
  | 0, _, _ => .fuel
  | steps + 1, p, k =>
    if isZero (p.eval a) then do
      let (q, _) ← p.divMod fuel (Poly.new [1, -a])
      divideOutLoop fuel a steps q (k + 1)
    else .ok (p, k)

/-- The loop started with `k = 0`. -/
def divideOut [One N] [Neg N] [Sub N] [RDiv N] (fuel steps : Nat) (p : Poly N) (a : N) : Res (Poly N × Nat) :=
  divideOutLoop fuel a steps p 0

/-- `while !p.is_zero() { let (q, r) = p.div_mod(&Polynomial::new(vec![1, -a])); c.push(r.eval(0)); p = q; } c` (`is_zero`,
src/polynomial/traits.rs 48-50; `div_mod` 477-515, `eval` 340-362 of src/polynomial/polynomial.rs). -/
def taylorDivLoop [One N] [Neg N] [Sub N] [RDiv N] (fuel : Nat) (a : N) : Nat → Poly N → List N → Res (List N)
  | 0, _, _ => .fuel
  | steps + 1, p, c =>
    if p.isZeroPoly then .ok c
    else do
      let (q, r) ← p.divMod fuel (Poly.new [1, -a])
      taylorDivLoop fuel a steps q (c ++ [r.eval 0])

/-- The loop started with `c = vec![]`. -/
def taylorDiv [One N] [Neg N] [Sub N] [RDiv N] (fuel steps : Nat) (p : Poly N) (a : N) : Res (List N) :=
  taylorDivLoop fuel a steps p []

/-- `while !p.is_zero() { c.push(p.eval(a) / f); p = p.derivative(); k = k + 1; f = f * k; } c` (`eval` 340-362, `derivative` 381-397 of
src/polynomial/polynomial.rs). -/
def taylorDerivLoop [One N] [Sub N] [RDiv N] [FromUsizeCont N] (a : N) : Nat → Poly N → N → N → List N → Res (List N)
  | 0, _, _, _, _ => .fuel
  | steps + 1, p, k, f, c =>
    if p.isZeroPoly then .ok c
    else do
      let v ← rdiv (p.eval a) f
      let d ← p.derivative
      taylorDerivLoop a steps d (k + 1) (f * (k + 1)) (c ++ [v])

/-- The loop started with `k = 0`, `f = 1`, `c = vec![]`. -/
def taylorDeriv [One N] [Sub N] [RDiv N] [FromUsizeCont N] (steps : Nat) (p : Poly N) (a : N) : Res (List N) :=
  taylorDerivLoop a steps p 0 1 []

/-- `let g = gcd(p.clone(), p.derivative()); p.div_mod(&g).0`, where `gcd` is Euclid's algorithm written with `%=`
(`Poly.gcdRemAssign`). -/
def squarefreePart [One N] [Sub N] [RDiv N] [FromUsizeCont N] (fuel steps : Nat) (p : Poly N) : Res (Poly N) := do
  let d ← p.derivative
  let g ← p.gcdRemAssign fuel steps d
  let (q, _) ← p.divMod fuel g
  .ok q

end Poly
end Rustnomial
