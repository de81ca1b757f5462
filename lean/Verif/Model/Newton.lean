import Verif.Model.Dense

/-!
# Newton's method with the operators

The repository has no such function; this is the program a caller writes.  What it calls is the code of src/polynomial/polynomial.rs.
-/

namespace Rustnomial

variable {N : Type} [Zero N] [NumZero N] [One N] [Add N] [Sub N] [Mul N] [RDiv N]

/-- `for _ in 0..n { x = x - p.eval(x) / d.eval(x); } x` (`eval`, src/polynomial/polynomial.rs 340-362). -/
def newtonLoop (p d : Poly N) : Nat → N → Res N
  | 0, x => .ok x
  | n + 1, x => do
    let q ← rdiv (p.eval x) (d.eval x)
    newtonLoop p d n (x - q)

/-- The above with `let d = p.derivative();` (src/polynomial/polynomial.rs 381-397). -/
def Poly.newtonMethod [FromUsizeCont N] (p : Poly N) (n : Nat) (x : N) : Res N := do
  let d ← p.derivative
  newtonLoop p d n x

end Rustnomial
