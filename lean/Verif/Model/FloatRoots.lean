import Verif.Model.Float
import Verif.Model.FindRoots

/-!
# Floating point coefficients: square roots, conversions, root finding

The operations of `f32` and `f64` that the sparse and fixed-size types and the root formulas use besides those
of `Model/Float.lean`.  With these instances the generic functions of `Model/Sparse.lean`,
`Model/Fixed.lean` and `Model/FindRoots.lean` are the float instances of the Rust functions.

`sqrt` of the primitive types is correctly rounded (IEEE 754, and so documented by the Rust standard library).
Not modelled: `powi` and `cbrt`, whose precision is unspecified.
-/

namespace Rustnomial

/-- Round the square root of `n` to `p` significant bits, but not finer than whole units: to nearest, ties to
even.  The root is replaced by a rational number between the same two multiples of one half. -/
def roundSqrt (p n : Nat) : Nat :=
  let r := (4 * n).sqrt
  roundRat p (2 * r + if r * r = 4 * n then 0 else 1) 4

namespace Fl
variable {f : FlFmt}

/-- `abs` of the float types. -/
def abs : Fl f → Fl f
  | .nan => .nan
  | .inf _ => .inf false
  | .fin _ a => .fin false a

/-- `sqrt` of the float types: of a number of `a` units `2^-q` it is `√(a·2^q)` units. -/
def sqrt : Fl f → Fl f
  | .nan => .nan
  | .inf true => .nan
  | .inf false => .inf false
  | .fin true 0 => .fin true 0
  | .fin true _ => .nan
  | .fin false a => pack false (roundSqrt f.p (a * 2 ^ f.q))

/-- `abs_sqrt` of the float types (src/numerics.rs 214-224): `self.abs().sqrt()`. -/
instance : AbsSqrt (Fl f) := ⟨fun x => .ok (sqrt (abs x))⟩

/-- `is_positive` of the float types (src/numerics.rs 127-135): `self > &0.0`. -/
instance : IsPositive (Fl f) where
  isPositive
    | .nan => false
    | .inf s => !s
    | .fin s a => !s && decide (0 < a)

/-- `a.abs() < b.abs()` of the float types (src/polynomial/find_roots.rs 257): false if one is NaN. -/
instance : AbsLess (Fl f) where
  absLess
    | .nan, _ => false
    | _, .nan => false
    | .inf _, _ => false
    | .fin _ _, .inf _ => true
    | .fin _ a, .fin _ b => decide (a < b)

/-- `f64::round` (used at src/polynomial/find_roots.rs 256): the nearest whole number, halves away from zero. -/
def round : Fl f → Fl f
  | .nan => .nan
  | .inf s => .inf s
  | .fin s a => .fin s ((2 * a + 2 ^ f.q) / (2 * 2 ^ f.q) * 2 ^ f.q)

/-- `From<u8>` of the float types, used for the literals 2 and 4 of src/polynomial/find_roots.rs 28-62. -/
instance : NatCast (Fl f) := ⟨ofNat⟩

/-- `try_from_usize_exact` of `f64` (src/numerics.rs 447-456), 64-bit `usize`. -/
instance : FromUsizeExact (Fl binary64) := ⟨fun n => (tryFromUsizeExactFloat 64 53 n).map ofNat⟩

/-- `try_from_usize_exact` of `f32` (src/numerics.rs 436-445), 64-bit `usize`. -/
instance : FromUsizeExact (Fl binary32) := ⟨fun n => (tryFromUsizeExactFloat 64 24 n).map ofNat⟩

end Fl

end Rustnomial
