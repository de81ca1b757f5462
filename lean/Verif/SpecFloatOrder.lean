import Verif.SpecFloat
import Verif.Model.Dense
import Verif.Model.Sparse

/-!
# Specification of the order of floating-point numbers

The order as `<=` of IEEE 754 decides it, and the polynomial `p(-x)`.  Independent of the model of the operations.
-/

namespace Rustnomial
namespace Fl
variable {f : FlFmt}

/-- `x <= y`: by the numbers they stand for, the infinities at the ends; nothing is comparable to NaN. -/
def Le (x y : Fl f) : Prop :=
  x ≠ .nan ∧ y ≠ .nan ∧ (x = .inf true ∨ y = .inf false ∨ (x.isFinite = true ∧ y.isFinite = true ∧ x.toRat ≤ y.toRat))

/-- The coefficients of `p(-x)`, from the constant on: those of odd degree with the other sign. -/
def reflectAsc : List (Fl f) → List (Fl f)
  | [] => []
  | [c] => [c]
  | c :: d :: cs => c :: -d :: reflectAsc cs

/-- `p(-x)` (the constant is stored last). -/
def reflect (p : Poly (Fl f)) : Poly (Fl f) := ⟨(reflectAsc p.terms.reverse).reverse⟩

end Fl
end Rustnomial
