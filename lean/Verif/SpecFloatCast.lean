import Verif.SpecFloatBuild
import Verif.Model.FloatCast

/-!
# Specification of casts between float formats
-/

namespace Rustnomial

/-- Every number of the format `f` is a number of the format `g`. -/
structure Wider (f g : FlFmt) : Prop where
  p : f.p ≤ g.p
  q : f.q ≤ g.q
  w : f.w + (g.q - f.q) ≤ g.w

/-- Every product of two numbers of the format `f` is a number of the format `g`. -/
structure DoubleWide (f g : FlFmt) : Prop where
  p : 2 * f.p ≤ g.p
  q : 2 * f.q ≤ g.q
  w : 2 * f.w + (g.q - 2 * f.q) ≤ g.w

end Rustnomial
