import Verif.Model.Dense
import Verif.Model.FindRoots
import Verif.Model.FloatRoots

/-!
# Programs that find roots by halving intervals

The repository has no such functions; these are the programs a caller writes.  What they call is the code of
src/polynomial/polynomial.rs and src/numerics.rs.
-/

namespace Rustnomial

namespace Poly
variable {N : Type} [Zero N] [NumZero N] [One N] [Add N] [Mul N] [RDiv N] [IsPositive N]

/-- `for _ in 0..n { let m = (a + b) / 2; if p.eval(m).is_positive() == p.eval(b).is_positive() { b = m; } else { a = m; } } (a, b)`
(`eval`, src/polynomial/polynomial.rs 340-362; `is_positive`, src/numerics.rs 127-135). -/
def bisect (p : Poly N) : Nat → N → N → Res (N × N)
  | 0, a, b => .ok (a, b)
  | n + 1, a, b => do
    let m ← rdiv (a + b) (1 + 1)
    if isPositive (p.eval m) == isPositive (p.eval b) then bisect p n a m else bisect p n m b

/-- `loop { let m = (a + b) / 2; if !(a < m && m < b && certain(m)) { return (a, b); }
if p.eval(m).is_positive() == p.eval(b).is_positive() { b = m; } else { a = m; } }`, at most `steps` times round; `certain` is a test the
caller makes of `p.eval(m)`, such as that of C124. -/
def bisectCertain (lt : N → N → Bool) (certain : N → Bool) (p : Poly N) : Nat → N → N → Res (N × N)
  | 0, _, _ => .fuel
  | steps + 1, a, b => do
    let m ← rdiv (a + b) (1 + 1)
    if !(lt a m && lt m b && certain m) then .ok (a, b)
    else if isPositive (p.eval m) == isPositive (p.eval b) then bisectCertain lt certain p steps a m
    else bisectCertain lt certain p steps m b

end Poly

/-- `is_positive` of exact rational numbers, which stand for the floats of src/numerics.rs 127-135. -/
instance : IsPositive ℚ where
  isPositive x := decide (x > 0)

/-- `a < b` of the float types: false if one is NaN. -/
def Fl.ltFl {f : FlFmt} : Fl f → Fl f → Bool
  | .nan, _ => false
  | _, .nan => false
  | .inf s, .inf t => s && !t
  | .inf s, .fin _ _ => s
  | .fin _ _, .inf t => !t
  | .fin true a, .fin true b => decide (b < a)
  | .fin true a, .fin false b => decide (0 < a + b)
  | .fin false _, .fin true _ => false
  | .fin false a, .fin false b => decide (a < b)

end Rustnomial
