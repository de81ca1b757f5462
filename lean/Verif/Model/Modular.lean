import Verif.Model.Euclid

/-!
# Programs that calculate modulo a polynomial with the operators

The repository has no such functions; these are the programs a caller writes.  What they call is the code of
src/polynomial/polynomial.rs.
-/

namespace Rustnomial

namespace Poly
variable {N : Type} [Zero N] [NumZero N] [Add N] [Mul N] [Sub N] [RDiv N]

/-- `let mut r = a * &b; r %= m.clone(); r` (`p * &q` 809-811, `%=` 573-599 of src/polynomial/polynomial.rs). -/
def mulMod (fuel : Nat) (a b m : Poly N) : Res (Poly N) := do
  let p ← a.mulRef b
  p.remAssign fuel m

/-- `while n > 0 { if n % 2 == 1 { r = mul_mod(r, &b, &m); } b = mul_mod(b.clone(), &b, &m); n /= 2; } r`. -/
def powModLoop (fuel : Nat) (m : Poly N) (n : Nat) (r b : Poly N) : Res (Poly N) :=
  if n = 0 then .ok r
  else do
    let r ← if n % 2 = 1 then r.mulMod fuel b m else .ok r
    let b ← b.mulMod fuel b m
    powModLoop fuel m (n / 2) r b
termination_by n
decreasing_by omega

/-- `a %= m.clone();` and the loop started with `r = Polynomial::new(vec![1])`, `b = a` (src/polynomial/polynomial.rs 573-599, 147-151). -/
def powMod [One N] (fuel : Nat) (a : Poly N) (n : Nat) (m : Poly N) : Res (Poly N) := do
  let b ← a.remAssign fuel m
  powModLoop fuel m n (Poly.new [1]) b

/-- `a %= m.clone(); let (g, _, t) = ext_gcd(m, a); if g.degree() == Degree::Num(0) { Some(t / g.eval(0)) } else { None }`, where `ext_gcd`
is the extended algorithm `Poly.extGcd` (`degree`, `eval` 340-362, `p / c` 872-881 of src/polynomial/polynomial.rs). -/
def invMod [One N] [Neg N] (fuel steps : Nat) (a m : Poly N) : Res (Option (Poly N)) := do
  let r ← a.remAssign fuel m
  let (g, _, t) ← m.extGcd fuel steps r
  if g.degree = .num 0 then do
    let t ← t.divScalar (g.eval 0)
    .ok (some t)
  else .ok none

end Poly
end Rustnomial
