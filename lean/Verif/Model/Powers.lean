import Verif.Model.Machine
import Verif.Model.Float

/-!
# Powers of numbers

`PowUsize::upow` calls `pow` of the integer types and `powi` of the float types, which are not part of the crate.  Elsewhere
the model takes the power itself for the former and leaves the latter open; here are the algorithms behind them, as in the
standard library of Rust and in `compiler-rt`.
-/

namespace Rustnomial

/-- Loop of `pow` of the primitive integer types (standard library; called in src/numerics.rs 91-93), from `exp` at least 1:
`acc = acc * base` for an odd `exp`, which is the result when `exp == 1`, and then `exp /= 2; base = base * base`. -/
def intPowLoop (A : Arith) (acc base : Int) (exp : Nat) : Res Int :=
  if exp ≤ 1 then A.mul acc base
  else if exp % 2 = 1 then do
    let acc ← A.mul acc base
    let base ← A.mul base base
    intPowLoop A acc base (exp / 2)
  else do
    let base ← A.mul base base
    intPowLoop A acc base (exp / 2)
termination_by exp
decreasing_by all_goals omega

/-- `pow` of the primitive integer types (standard library; called in src/numerics.rs 91-93). -/
def intPow (A : Arith) (base : Int) (exp : Nat) : Res Int := if exp = 0 then .ok 1 else intPowLoop A 1 base exp

/-- Loop of `__powidf2` and `__powisf2` of `compiler-rt`, to which `powi` is compiled (called in src/numerics.rs 112-121):
`if b & 1 { r *= a }; b /= 2; if b == 0 { break }; a *= a`.  Only the absolute value of `b` matters, because `/` truncates. -/
def powiLoop {f : FlFmt} (r a : Fl f) (b : Nat) : Fl f :=
  let r := if b % 2 = 1 then r * a else r
  if b / 2 = 0 then r else powiLoop r (a * a) (b / 2)
termination_by b
decreasing_by omega

/-- `powi` of the float types (`__powidf2` and `__powisf2` of `compiler-rt`; called in src/numerics.rs 112-121). -/
def powi {f : FlFmt} (x : Fl f) (n : Int) : Fl f :=
  let r := powiLoop 1 x n.natAbs
  if n < 0 then Fl.div 1 r else r

/-- `PowUsize::upow` of the float types (src/numerics.rs 112-121): `self.powi(exp as i32)`. -/
def upowFl {f : FlFmt} (x : Fl f) (exp : Nat) : Fl f := powi x (asI32 exp)

end Rustnomial
