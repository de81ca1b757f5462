import Verif.Model.FloatText
import Verif.SpecFloat

/-!
# Specification of decimal numbers as texts
-/

namespace Rustnomial

/-- The text is a decimal number (digits, or digits with a point before, between or after them) of value `x`. -/
def IsDecimal (s : List Char) (x : ℚ) : Prop :=
  ∃ ip fp : List Char, (∀ c ∈ ip ++ fp, isDigitChar c = true) ∧ ip ++ fp ≠ [] ∧
    ((s = ip ∧ fp = []) ∨ s = ip ++ '.' :: fp) ∧ x = (decVal (ip ++ fp) : ℚ) / 10 ^ fp.length

/-- What the standard library guarantees of `Display` of a float type: a finite number is printed as an optional
minus sign and a decimal number, and the text reads back as the same float. -/
structure DisplaysFloats (f : FlFmt) (shw : Fl f → List Char) : Prop where
  shape : ∀ s m, (Fl.fin s m : Fl f).Valid →
    ∃ body x, shw (.fin s m) = (if s then ['-'] else []) ++ body ∧ IsDecimal body x
  reads : ∀ s m, (Fl.fin s m : Fl f).Valid → parseFl f (shw (.fin s m)) = some (.fin s m)
  nan : shw .nan = "NaN".toList
  inf : ∀ s, shw (.inf s) = (if s then ['-'] else []) ++ "inf".toList

/-- A display of floats: the complete decimal expansion (the standard library prints fewer digits when fewer
identify the number).  `n / 10^k` without trailing zeros. -/
def showPad : Nat → Nat → List Char
  | 0, _ => []
  | k + 1, n => showPad k (n / 10) ++ [digitChar (n % 10)]

/-- Drops factors of ten from `n / 10^k`. -/
def stripZeros : Nat → Nat → Nat × Nat
  | n, 0 => (n, 0)
  | n, k + 1 => if n % 10 = 0 then stripZeros (n / 10) k else (n, k + 1)

/-- The text of `n / 10^k`. -/
def showDecimal (n k : Nat) : List Char :=
  let r := stripZeros n k
  showNat (r.1 / 10 ^ r.2) ++ (if r.2 = 0 then [] else '.' :: showPad r.2 r.1)

/-- The display of floats described above. -/
def showExact {f : FlFmt} : Fl f → List Char
  | .nan => "NaN".toList
  | .inf s => (if s then ['-'] else []) ++ "inf".toList
  | .fin s m => (if s then ['-'] else []) ++ showDecimal (m * 5 ^ f.q) f.q

end Rustnomial
