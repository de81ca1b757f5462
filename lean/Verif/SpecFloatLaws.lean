import Verif.SpecFloat

/-!
# Specification of the laws that hold in floating point
-/

namespace Rustnomial
namespace Fl
variable {f : FlFmt}

/-- The same number: equal, or both zero (of either sign).  NaN is the same as NaN. -/
def SameNum (x y : Fl f) : Prop := x = y ∨ ((∃ s, x = .fin s 0) ∧ ∃ s, y = .fin s 0)

/-- The coefficient of `x^k` (the constant is stored last). -/
def coeffOf (p : Poly (Fl f)) (k : Nat) : Fl f := p.terms.reverse.getD k 0

/-- All coefficients are the same numbers. -/
def SamePoly (p q : Poly (Fl f)) : Prop := ∀ k, SameNum (coeffOf p k) (coeffOf q k)

/-- `acc + g (n-1) + … + g 1 + g 0`, added from left to right with a rounding after each step. -/
def descSum (g : Nat → Fl f) : Nat → Fl f → Fl f
  | 0, acc => acc
  | n + 1, acc => descSum g n (acc + g n)

/-- The coefficient of `x^k` in a product `p * q`: the products of coefficients, added by falling degree of the factor from `q`. -/
def convSum (p q : Poly (Fl f)) (k : Nat) : Fl f := descSum (fun d => coeffOf q d * coeffOf p (k - d)) (k + 1) 0

/-- Numbers of the format, none of them infinite or NaN. -/
def AllNumbers (p : Poly (Fl f)) : Prop := ∀ c ∈ p.terms, c.isFinite = true ∧ c.Valid

/-- Numbers of the format, infinities or NaN (every stored value is one in reality). -/
def AllValid (p : Poly (Fl f)) : Prop := ∀ c ∈ p.terms, c.Valid

end Fl
end Rustnomial
