import Verif.Model.Float
import Verif.Model.Strings

/-!
# Floating point coefficients as texts

Reading `f32` and `f64` coefficients is concrete; writing them (`Display` of the standard library, the shortest
decimal number that reads back as the same float) is a parameter, specified in `SpecFloatText.lean`.
-/

namespace Rustnomial

/-- The magnitude, in units of the format, of an unsigned decimal number: digits, optionally a point and more
digits, at least one digit in all.  Correctly rounded.  Part of `f64::from_str` of the standard library. -/
def parseMag (f : FlFmt) (s : List Char) : Option Nat :=
  let ip := s.takeWhile isDigitChar
  match s.dropWhile isDigitChar with
  | [] => if ip = [] then none else some (roundRat f.p (decVal ip * 2 ^ f.q) 1)
  | c :: fp =>
    if c = '.' ∧ fp.all isDigitChar = true ∧ ip ++ fp ≠ [] then
      some (roundRat f.p (decVal (ip ++ fp) * 2 ^ f.q) (10 ^ fp.length))
    else none

/-- `f64::from_str` and `f32::from_str` of the standard library, on the texts made of `+`, `-`, `.` and digits:
`Term::from_str` (src/terms.rs 43-113) passes no others, so exponents, `inf` and `nan` are left out. -/
def parseFl (f : FlFmt) : List Char → Option (Fl f)
  | '+' :: ds => (parseMag f ds).map (Fl.pack false)
  | '-' :: ds => (parseMag f ds).map (Fl.pack true)
  | ds => (parseMag f ds).map (Fl.pack false)

/-- `is_positive` of the float types, `self > &0.0` (src/numerics.rs 127-135, 149-150). -/
def isPositiveFl {f : FlFmt} : Fl f → Bool
  | .nan => false
  | .inf s => !s
  | .fin s a => !s && a != 0

/-- `abs` of the float types (src/numerics.rs 59-67, 81-82). -/
def absFl {f : FlFmt} : Fl f → Fl f
  | .nan => .nan
  | .inf _ => .inf false
  | .fin _ a => .fin false a

/-- `can_negate` of the float types (src/numerics.rs 268-269). -/
instance {f : FlFmt} : CanNegate (Fl f) := ⟨true⟩

/-- The operations used by `Display`, for floats: `shw` is `Display` of the float type, `is_one` is `== 1.0`
(the default of `num::One`), `is_negative_one` is `== -1.0` (src/numerics.rs 19-28). -/
def flFmt {f : FlFmt} (shw : Fl f → List Char) : NumFmt (Fl f) where
  shw := shw
  isOne x := x == 1
  isNegativeOne x := x == -1
  isPositive := isPositiveFl
  abs x := .ok (absFl x)

end Rustnomial
