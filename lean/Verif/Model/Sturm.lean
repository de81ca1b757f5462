import Verif.Model.Bounds
import Verif.Model.Euclid

/-!
# Programs that count the real roots in an interval

The repository has no such functions; these are the programs a caller writes with the operators of `Polynomial`.
-/

namespace Rustnomial

variable {N : Type}

/-- `while !b.is_zero() { let mut r = a.clone(); r %= b.clone(); chain.push(a); a = b; b = -r; } chain.push(a);` with at most `steps` tests of
the condition (`rem_assign` 573-599, `Neg` 668-671 of src/polynomial/polynomial.rs; `is_zero`, src/polynomial/traits.rs 48-50); the result is
what is pushed. -/
def Poly.sturmLoop [Zero N] [NumZero N] [Mul N] [Sub N] [Neg N] [RDiv N] (fuel : Nat) : Nat → Poly N → Poly N → Res (List (Poly N))
  | 0, _, _ => .fuel
  | steps + 1, a, b =>
    if b.isZeroPoly then .ok [a]
    else do
      let r ← a.remAssign fuel b
      let rest ← Poly.sturmLoop fuel steps b r.neg
      .ok (a :: rest)

/-- The above started with `let mut chain = vec![]; let mut a = p.clone(); let mut b = p.derivative();` (src/polynomial/polynomial.rs
381-397). -/
def Poly.sturmChain [Zero N] [NumZero N] [One N] [Mul N] [Sub N] [Neg N] [RDiv N] [FromUsizeCont N] (fuel steps : Nat) (p : Poly N) :
    Res (List (Poly N)) := do
  let d ← p.derivative
  Poly.sturmLoop fuel steps p d

/-- `for p in chain { let v = p.eval(x); if !v.is_zero() { let s = v.is_positive(); if last == Some(!s) { n += 1; } last = Some(s); } }`
(`eval`, src/polynomial/polynomial.rs 340-362; `is_positive`, src/numerics.rs 127-135); here as the number of changes still to come. -/
def variationsFrom [Zero N] [NumZero N] [One N] [Add N] [Mul N] [IsPositive N] (x : N) : Option Bool → List (Poly N) → Nat
  | _, [] => 0
  | last, p :: ps =>
    let v := p.eval x
    if isZero v then variationsFrom x last ps
    else
      let s := isPositive v
      (if last = some (!s) then 1 else 0) + variationsFrom x (some s) ps

/-- `let chain = …; variations(&chain, a) - variations(&chain, b)`, where the subtraction of `usize` panics if it would be negative. -/
def Poly.countRoots [Zero N] [NumZero N] [One N] [Add N] [Mul N] [Sub N] [Neg N] [RDiv N] [FromUsizeCont N] [IsPositive N] (fuel steps : Nat)
    (p : Poly N) (a b : N) : Res Nat := do
  let chain ← p.sturmChain fuel steps
  let va := variationsFrom a none chain
  let vb := variationsFrom b none chain
  if va < vb then .panic else .ok (va - vb)

/-- The recursive `fn isolate(chain, a, b) { match variations(chain, a) - variations(chain, b) { 0 => vec![], 1 => vec![(a, b)], _ => { let m =
(a + b) / 2; let mut l = isolate(chain, a, m); l.extend(isolate(chain, m, b)); l } } }`, to depth `depth` at most (`fuel` beyond). -/
def isolate [Zero N] [NumZero N] [One N] [Add N] [Mul N] [RDiv N] [IsPositive N] (chain : List (Poly N)) : Nat → N → N → Res (List (N × N))
  | 0, _, _ => .fuel
  | depth + 1, a, b =>
    let va := variationsFrom a none chain
    let vb := variationsFrom b none chain
    if va < vb then .panic
    else if va - vb = 0 then .ok []
    else if va - vb = 1 then .ok [(a, b)]
    else do
      let m ← rdiv (a + b) (1 + 1)
      let l ← isolate chain depth a m
      let r ← isolate chain depth m b
      .ok (l ++ r)

/-- The chain, then the above. -/
def Poly.isolateRoots [Zero N] [NumZero N] [One N] [Add N] [Mul N] [Sub N] [Neg N] [RDiv N] [FromUsizeCont N] [IsPositive N]
    (fuel steps depth : Nat) (p : Poly N) (a b : N) : Res (List (N × N)) := do
  let chain ← p.sturmChain fuel steps
  isolate chain depth a b

end Rustnomial
