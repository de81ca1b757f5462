import Verif.SpecFloatLaws
import Verif.SpecFloatPow
import Verif.Model.FloatRoots

/-!
# Specification of scaling by powers of two
-/

namespace Rustnomial
namespace Fl
variable {f : FlFmt}

/-- `y` is `2^k` times `x`, exactly; both finite. -/
def Scaled (k : ℤ) (x y : Fl f) : Prop := x.isFinite = true ∧ y.isFinite = true ∧ y.toRat = 2 ^ k * x.toRat

/-- An exact result that rounding treats like a large one: 0, at least the smallest normal number, or a multiple of the smallest positive number. -/
def NoUnderflow (f : FlFmt) (v : ℚ) : Prop := v = 0 ∨ minNormal f ≤ |v| ∨ ∃ n : ℤ, v * 2 ^ f.q = n

/-- The coefficient of `x^i` in `q` is `2^(k + j*i)` times that in `p`: `q(x) = 2^k * p(2^j * x)`. -/
def ScaledPoly (k j : ℤ) (p q : Poly (Fl f)) : Prop := ∀ i : Nat, Scaled (k + j * i) (coeffOf p i) (coeffOf q i)

/-- `p` without its `d` lowest coefficients (the constant is stored last). -/
def upper (p : Poly (Fl f)) (d : Nat) : Poly (Fl f) := ⟨p.terms.take (p.terms.length - d)⟩

/-- The same degrees, every coefficient multiplied by `2^k`. -/
def ScaledSparse (k : ℤ) (p q : Sparse (Fl f)) : Prop := List.Forall₂ (fun a b => a.1 = b.1 ∧ Scaled k a.2 b.2) p.terms.entries q.terms.entries

/-- All numbers in the pair of roots of a quadratic are finite. -/
def FiniteRoots : Roots (Fl f) → Prop
  | .twoRealRoots r s => r.isFinite = true ∧ s.isFinite = true
  | .twoComplexRoots r s => r.re.isFinite = true ∧ r.im.isFinite = true ∧ s.re.isFinite = true ∧ s.im.isFinite = true
  | _ => False

/-- The same kind of pair, every number multiplied by `2^k`. -/
def ScaledRoots (k : ℤ) : Roots (Fl f) → Roots (Fl f) → Prop
  | .twoRealRoots r s, .twoRealRoots r' s' => Scaled k r r' ∧ Scaled k s s'
  | .twoComplexRoots r s, .twoComplexRoots r' s' => Scaled k r.re r'.re ∧ Scaled k r.im r'.im ∧ Scaled k s.re s'.re ∧ Scaled k s.im s'.im
  | _, _ => False

/-- No product or quotient in the formula for the roots of `ax^2 + bx + c` underflows. -/
def QuadNoUnderflow (a b c : Fl f) : Prop :=
  NoUnderflow f (b.toRat * b.toRat) ∧ NoUnderflow f (a.toRat * c.toRat) ∧ NoUnderflow f (b.toRat / (a * ((2 : Nat) : Fl f)).toRat) ∧
  ∀ s : Fl f, absSqrt (b * b - a * c * ((4 : Nat) : Fl f)) = .ok s → NoUnderflow f (s.toRat / (a * ((2 : Nat) : Fl f)).toRat)

end Fl
end Rustnomial
