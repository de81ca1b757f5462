import Verif.SpecFloat

/-!
# Specification of IEEE 754 arithmetic

What the standard says about the result of an operation: the exact result, rounded to the nearest number of the format
with ties to even, infinite from half a step above the largest finite number on (4.3.1), and the sign bit (6.3).
Independent of the model of the operations.
-/

namespace Rustnomial
namespace Fl
variable {f : FlFmt}

/-- The sign bit (of a NaN: not modelled, `false`). -/
def signBit : Fl f → Bool
  | .nan => false
  | .inf s => s
  | .fin s _ => s

/-- Half a step above the largest finite number: from here on results are infinite. -/
def overflowAt (f : FlFmt) : ℚ := ((2 ^ (f.p + 1) - 1) * 2 ^ (f.w - f.p) : Nat) / 2 / 2 ^ f.q

/-- `r` is the exact value `v` rounded to nearest, ties to even, with the sign bit `s`. -/
structure IsRounding (s : Bool) (v : ℚ) (r : Fl f) : Prop where
  /-- the sign bit, also of zeros and infinities -/
  sign : r.signBit = s
  /-- a number or an infinity of the format -/
  valid : r ≠ .nan ∧ r.Valid
  /-- finite exactly below the overflow threshold -/
  finite : r.isFinite = true ↔ |v| < overflowAt f
  /-- no number of the format is nearer -/
  nearest : r.isFinite = true → ∀ z : Fl f, z.Valid → z.isFinite = true → |r.toRat - v| ≤ |z.toRat - v|
  /-- of two equally near numbers the one with the even significand: its magnitude is divisible by a higher power of 2 -/
  even : r.isFinite = true → ∀ z : Fl f, z.Valid → z.isFinite = true → z.toRat ≠ r.toRat →
    |z.toRat - v| = |r.toRat - v| → ∀ t, 2 ^ t ∣ z.units → 2 ^ (t + 1) ∣ r.units

/-- The sign bit of a sum: that of the exact sum; an exact zero is negative only if both operands are. -/
def sumSign (x y : Fl f) : Bool :=
  decide (x.toRat + y.toRat < 0) || (decide (x.toRat + y.toRat = 0) && x.signBit && y.signBit)

end Fl
end Rustnomial
