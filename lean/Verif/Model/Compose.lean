import Verif.Model.Dense
import Verif.Model.Sparse

/-!
# Programs that compose and interpolate with the operators

The repository has no such functions; these are the programs a caller writes.  What they call is the code of
src/polynomial/polynomial.rs and src/polynomial/sparsepolynomial.rs.
-/

namespace Rustnomial

namespace Poly
variable {N : Type} [Zero N] [NumZero N] [Add N] [Mul N]

/-- `let mut acc = Polynomial::zero(); for &c in p.terms.iter() { acc = acc * &q + Polynomial::new(vec![c]); } acc`
(`p * &q` 809-811, `p + q` 753-767, `new` 147-151, `zero` 219-221 of src/polynomial/polynomial.rs; `terms` is a public field, 29). -/
def compose (p q : Poly N) : Res (Poly N) :=
  p.terms.foldlM (fun acc c => do
    let m ← acc.mulRef q
    m.add (Poly.new [c])) Poly.zero

/-- `let mut acc = Polynomial::zero(); for (c, d) in p.ordered_term_iter() { acc += q.pow(d) * c; } acc`
(`ordered_term_iter` 171-182, `pow` 455-469, `p * c` 859-861, `p += q` 771-787 of src/polynomial/polynomial.rs). -/
def composeTerms [One N] (p q : Poly N) : Res (Poly N) :=
  p.orderedTermIter.foldlM (fun acc t => do
    let m ← q.pow t.2
    acc.addAssign (m.mulScalar t.1)) Poly.zero

/-- Newton's interpolation: `for &(x, y) in points { let c = (y - p.eval(x)) / w.eval(x); p += w.clone() * c;
w = w * &Polynomial::new(vec![1, -x]); } p` (`eval` 340-362, `p * c` 859-861, `p += q` 771-787, `p * &q` 809-811 of
src/polynomial/polynomial.rs). -/
def newtonLoop [One N] [Sub N] [Neg N] [RDiv N] : List (N × N) → Poly N → Poly N → Res (Poly N)
  | [], p, _ => .ok p
  | (x, y) :: points, p, w => do
    let c ← rdiv (y - p.eval x) (w.eval x)
    let p' ← p.addAssign (w.mulScalar c)
    let w' ← w.mulRef (Poly.new [1, -x])
    newtonLoop points p' w'

/-- The loop started with `p = Polynomial::zero()` and `w = Polynomial::new(vec![1])` (src/polynomial/polynomial.rs 219-221, 147-151). -/
def newton [One N] [Sub N] [Neg N] [RDiv N] (points : List (N × N)) : Res (Poly N) :=
  newtonLoop points Poly.zero (Poly.new [1])

end Poly

/-- `let mut acc = SparsePolynomial::zero(); for (c, d) in p.ordered_term_iter() { acc = acc + q.pow(d) * c; } acc`
(`ordered_term_iter`, `pow`, `p * c` and `p + q` of src/polynomial/sparsepolynomial.rs 317-325, 477-495, 856-863 and 777-793; `zero`, 139-143). -/
def Sparse.compose {N : Type} [Zero N] [NumZero N] [One N] [Add N] [Mul N] (p q : Sparse N) : Sparse N :=
  p.orderedTermIter.foldl (fun acc t => acc.add ((q.pow t.2).mulScalar t.1)) Sparse.zero

end Rustnomial
