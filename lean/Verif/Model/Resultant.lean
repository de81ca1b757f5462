import Verif.Model.Dense

/-!
# Resultants and discriminants with the operators

The repository has no such functions; these are the programs a caller writes.  What they call is the code of src/polynomial/polynomial.rs.
-/

namespace Rustnomial

variable {N : Type}

/-- `for _ in 0..k { s = s * c; } s`. -/
def mulTimes [Mul N] (c : N) : Nat → N → N
  | 0, s => s
  | k + 1, s => mulTimes c k (s * c)

/-- `p.ordered_term_iter().next().map_or(0, |t| t.1)` (src/polynomial/polynomial.rs 171-182). -/
def Poly.degreeOrZero [Zero N] [NumZero N] (p : Poly N) : Nat :=
  match p.orderedTermIter with
  | [] => 0
  | (_, d) :: _ => d

/-- `loop { let m = degree_or_zero(&a); match b.ordered_term_iter().next() { None => return if m == 0 { s } else { 0 }, Some((c, n)) => {
if n == 0 { return s * c^m; } let mut r = a.clone(); r %= b.clone(); s = s * c^(m - degree_or_zero(&r)); if m % 2 == 1 && n % 2 == 1 { s = -s; }
a = b; b = r; } } }` with at most `steps` rounds, the powers of `c` being loops and the
degree of `r` at most that of `a` (`rem_assign`, src/polynomial/polynomial.rs 573-599). -/
def Poly.resultantLoop [Zero N] [NumZero N] [Add N] [Mul N] [Sub N] [Neg N] [RDiv N] (fuel : Nat) : Nat → N → Poly N → Poly N → Res N
  | 0, _, _, _ => .fuel
  | steps + 1, s, a, b =>
    let m := a.degreeOrZero
    match b.orderedTermIter with
    | [] => .ok (if m = 0 then s else 0)
    | (c, n) :: _ =>
      if n = 0 then .ok (mulTimes c m s)
      else do
        let r ← a.remAssign fuel b
        let s := mulTimes c (m - r.degreeOrZero) s
        let s := if m % 2 = 1 ∧ n % 2 = 1 then -s else s
        Poly.resultantLoop fuel steps s b r

/-- The above started with `let mut s = 1;`. -/
def Poly.resultant [Zero N] [NumZero N] [One N] [Add N] [Mul N] [Sub N] [Neg N] [RDiv N] (fuel steps : Nat) (a b : Poly N) : Res N :=
  Poly.resultantLoop fuel steps 1 a b

/-- `let d = p.derivative(); let r = resultant(p, d) / c; if n * (n - 1) / 2 % 2 == 1 { -r } else { r }` for the leading term `(c, n)` of `p`
(`derivative`, src/polynomial/polynomial.rs 381-397). -/
def Poly.discriminant [Zero N] [NumZero N] [One N] [Add N] [Mul N] [Sub N] [Neg N] [RDiv N] [FromUsizeCont N] (fuel steps : Nat)
    (p : Poly N) : Res (Option N) :=
  match p.orderedTermIter with
  | [] => .ok none
  | (c, n) :: _ => do
    let d ← p.derivative
    let r ← Poly.resultant fuel steps p d
    let r ← rdiv r c
    .ok (some (if n * (n - 1) / 2 % 2 = 1 then -r else r))

end Rustnomial
