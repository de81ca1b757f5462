import Verif.SpecFloat

/-!
# Specification of whole numbers in floating point
-/

namespace Rustnomial
variable {f : FlFmt}

/-- The float is finite and its value is a whole number. -/
def Fl.IntValued (c : Fl f) : Prop := c.isFinite = true ∧ ∃ n : ℤ, c.toRat = n

end Rustnomial
