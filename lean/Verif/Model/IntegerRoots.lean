import Verif.Model.Machine
import Verif.Model.Numerics

/-!
# All integer roots of a polynomial over a fixed-width integer type, by trial

The repository has no such function; this is a program a caller writes with `ordered_term_iter`, `abs` and `eval`.
-/

namespace Rustnomial

/-- `for k in ks { if p.eval(k).is_zero() { roots.push(k); } }` (`eval`, src/polynomial/polynomial.rs 340-362); here what is still to be pushed. -/
def trialLoopM (A : Arith) (p : Poly Int) : List Int → Res (List Int)
  | [] => .ok []
  | k :: ks => do
    let v ← p.evalM A k
    let rest ← trialLoopM A p ks
    .ok (if v = 0 then k :: rest else rest)

/-- `let (c, _) = p.ordered_term_iter().last().unwrap(); let m = c.abs();` and the loop above with `-m..=m` (`ordered_term_iter`,
src/polynomial/polynomial.rs 171-182; `abs`, src/numerics.rs 45-82), for the type `t` in a build with (`chk`) or without overflow checks. -/
def Poly.integerRootsM (chk : Bool) (t : IntTy) (p : Poly Int) : Res (List Int) :=
  match p.orderedTermIter.getLast? with
  | none => .panic
  | some (c, _) => do
    let m ← absInt chk t c
    trialLoopM (.machine chk t) p ((List.range (2 * m.toNat + 1)).map fun (j : ℕ) => (j : ℤ) - m)

end Rustnomial
