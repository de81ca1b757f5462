import Verif.Model.Float

/-!
# `as` casts to the float types
-/

namespace Rustnomial
namespace Fl

/-- `x as f64` for an `f32` (used at src/polynomial/polynomial.rs 652, sparsepolynomial.rs 237, monomial.rs 319,
binomial.rs 282, trinomial.rs 326-328 for the pair `f32`, `f64` of src/macros.rs 5-62).  The magnitude is counted in
the finer unit of the target; written for any two formats. -/
def widen {f g : FlFmt} : Fl f → Fl g
  | .nan => .nan
  | .inf s => .inf s
  | .fin s a => .fin s (a * 2 ^ (g.q - f.q))

/-- `v as f32` and `v as f64` for an integer (the same lines): rounds to nearest, ties to even; 0 becomes `+0.0`. -/
def ofInt {f : FlFmt} (v : Int) : Fl f := if v < 0 then -ofNat v.natAbs else ofNat v.natAbs

end Fl
end Rustnomial
