import Verif.SpecFloat
import Verif.SpecFloatSparse

/-!
# Specification of the bounds for powers in floating point
-/

namespace Rustnomial
namespace Fl

/-- The smallest normal number of the format, `2^(p-1-q)`: products below it can underflow. -/
def minNormal (f : FlFmt) : ℚ := 2 ^ f.p / 2 ^ f.q / 2

/-- Roundings counted for the `n`-th power of a polynomial of degree `d`. -/
def powRounds (n d : Nat) : Nat := (n - 1) * (2 * n * d + 3)

end Fl
end Rustnomial
