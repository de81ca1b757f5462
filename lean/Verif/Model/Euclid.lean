import Verif.Model.Dense
import Verif.Model.Sparse
import Verif.Model.Assign

/-!
# Programs that compute greatest common divisors with the operators

The repository has no such function; these are the programs a caller writes.  What they call is the code of
src/polynomial/polynomial.rs and src/polynomial/sparsepolynomial.rs.
-/

namespace Rustnomial

/-- `while !b.is_zero() { let r = OP(a, &b); a = b; b = r; } a`, where `OP` is one of the remainder operators below and at most `steps`
tests of the condition are made (`fuel` otherwise). -/
def euclid {P : Type} (isZeroPoly : P → Bool) (op : P → P → Res P) : Nat → P → P → Res P
  | 0, _, _ => .fuel
  | steps + 1, a, b =>
    if isZeroPoly b then .ok a
    else do
      let r ← op a b
      euclid isZeroPoly op steps b r

section Dense
variable {N : Type} [Zero N] [NumZero N] [Add N] [Mul N] [Sub N] [RDiv N]

/-- Euclid's algorithm with `Polynomial`: `let mut r = a; r %= b.clone();` (`rem_assign`, src/polynomial/polynomial.rs 573-599;
`is_zero`, src/polynomial/traits.rs 48-50). -/
def Poly.gcdRemAssign (fuel steps : Nat) (a b : Poly N) : Res (Poly N) :=
  euclid Poly.isZeroPoly (Poly.remAssign fuel) steps a b

/-- Euclid's algorithm with `Polynomial`: `let (_, r) = a.div_mod(&b);` (src/polynomial/polynomial.rs 477-515). -/
def Poly.gcdDivMod (fuel steps : Nat) (a b : Poly N) : Res (Poly N) :=
  euclid Poly.isZeroPoly (fun a b => do let (_, r) ← a.divMod fuel b; .ok r) steps a b

/-- Euclid's algorithm with `Polynomial`: `let r = a % b.clone();` (src/polynomial/polynomial.rs 535-565). -/
def Poly.gcdRem (fuel steps : Nat) (a b : Poly N) : Res (Poly N) :=
  euclid Poly.isZeroPoly (Poly.rem fuel) steps a b

/-- Loop of the extended algorithm: `while !b.is_zero() { let (q, r) = a.div_mod(&b); let s2 = s0 - &q * &s1; let t2 = t0 - &q * &t1;
(a, b, s0, s1, t0, t1) = (b, r, s1, s2, t1, t2); } (a, s0, t0)` (`div_mod` 477-515, `&p * &q` 833-835, `p - q` 680-683 of
src/polynomial/polynomial.rs). -/
def Poly.extLoop [Neg N] (fuel : Nat) : Nat → Poly N → Poly N → Poly N → Poly N → Poly N → Poly N → Res (Poly N × Poly N × Poly N)
  | 0, _, _, _, _, _, _ => .fuel
  | steps + 1, a, b, s0, s1, t0, t1 =>
    if b.isZeroPoly then .ok (a, s0, t0)
    else do
      let (q, r) ← a.divMod fuel b
      let m ← q.refMulRef s1
      let s2 ← s0.sub m
      let m' ← q.refMulRef t1
      let t2 ← t0.sub m'
      Poly.extLoop fuel steps b r s1 s2 t1 t2

/-- The extended algorithm, starting from `Polynomial::new(vec![1])` and `Polynomial::zero()` (src/polynomial/polynomial.rs 147-151,
219-221). -/
def Poly.extGcd [Neg N] [One N] (fuel steps : Nat) (a b : Poly N) : Res (Poly N × Poly N × Poly N) :=
  Poly.extLoop fuel steps a b (Poly.new [1]) Poly.zero Poly.zero (Poly.new [1])

end Dense

/-- Euclid's algorithm with `SparsePolynomial`: `let r = a % b.clone();` (src/polynomial/sparsepolynomial.rs 579-615; `%=`, 630-662, ends
the same way, `C96_sparse_in_place`). -/
def Sparse.gcdRem {N : Type} [Zero N] [NumZero N] [Add N] [Mul N] [Sub N] [Neg N] [RDiv N] (fuel steps : Nat) (a b : Sparse N) :
    Res (Sparse N) :=
  euclid Sparse.isZeroPoly (Sparse.rem fuel) steps a b

end Rustnomial
