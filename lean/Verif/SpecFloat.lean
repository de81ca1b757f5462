import Verif.Model.Float
import Mathlib.Data.Rat.Defs

/-!
# Specification of floating point values

The exact rational number a float stands for, and which floats are numbers of the format.
-/

namespace Rustnomial
namespace Fl
variable {f : FlFmt}

/-- Neither NaN nor infinite. -/
def isFinite : Fl f → Bool
  | .fin _ _ => true
  | _ => false

/-- The rational number a finite float stands for (and 0 for the others). -/
def toRat : Fl f → ℚ
  | .fin s a => (if s then -1 else 1) * (a / 2 ^ f.q)
  | _ => 0

/-- The magnitude of a finite float in units of `2^-q` (and 0 for the others). -/
def units : Fl f → Nat
  | .fin _ a => a
  | _ => 0

/-- The natural number `m` has at most `p` significant bits. -/
def FitsIn (p m : Nat) : Prop := ∃ k e : Nat, k < 2 ^ p ∧ m = k * 2 ^ e

/-- The numbers of the format: at most `p` significant bits and below the overflow threshold. -/
def Valid : Fl f → Prop
  | .fin _ a => FitsIn f.p a ∧ a < 2 ^ f.w
  | _ => True

/-- Unit roundoff `2^-p`. -/
def uro (f : FlFmt) : ℚ := 1 / 2 ^ f.p

/-- Half of the smallest positive number. -/
def eta (f : FlFmt) : ℚ := 1 / 2 ^ f.q / 2

/-- The largest finite number of the format. -/
def maxFinite (f : FlFmt) : ℚ := ((2 ^ f.p - 1) * 2 ^ (f.w - f.p) : Nat) / 2 ^ f.q

end Fl
end Rustnomial
