import Verif.SpecFloatLaws
import Mathlib.Algebra.Field.Rat
import Mathlib.Algebra.Order.Field.Power
import Mathlib.Algebra.Order.Group.Unbundled.Abs

/-!
# Specification of fixed-point numbers
-/

namespace Rustnomial
namespace Fl
variable {f : FlFmt}

/-- A whole multiple of `2^e`, such as a number with `-e` binary places. -/
def Grid (e : ℤ) (v : ℚ) : Prop := ∃ n : ℤ, v = n * 2 ^ e

/-- All coefficients are finite numbers of the format and whole multiples of `2^e`. -/
def GridPoly (e : ℤ) (p : Poly (Fl f)) : Prop := ∀ c ∈ p.terms, c.isFinite = true ∧ c.Valid ∧ Grid e c.toRat

/-- A grid within the range of the format: whole multiples of `2^e` below `2^(p + e)` are numbers of the format. -/
def GridOk (f : FlFmt) (e : ℤ) : Prop := -(f.q : ℤ) ≤ e ∧ e + f.p + f.q ≤ f.w

/-- `x` is finite and has the value `v`. -/
def Has (x : Fl f) (v : ℚ) : Prop := x.isFinite = true ∧ x.toRat = v

end Fl
end Rustnomial
