import Verif.Model.PolyMath

/-!
# The exported macros `polynomial!`, `derivative!` and `integral!`
-/

namespace Rustnomial

/-- `polynomial!(x, …)` (src/polynomial/polynomial.rs 16-24): `Polynomial::new` of the vector of the
arguments. The argument expressions are evaluated before; the model takes their values. -/
def polynomialMacro {N : Type} [Zero N] [NumZero N] (xs : List N) : Poly N := Poly.new xs

/-- `derivative!(x, …)` (src/polynomial/derivative.rs 1-9). -/
def derivativeMacro {N : Type} [Zero N] [NumZero N] [One N] [Sub N] [Mul N] [FromUsizeCont N] (xs : List N) :
    Res (Poly N) :=
  (polynomialMacro xs).derivative

/-- `integral!(x, …)` (src/polynomial/integral.rs 11-19). -/
def integralMacro {N : Type} [Zero N] [NumZero N] [One N] [Sub N] [RDiv N] [FromUsizeCont N] (xs : List N) :
    Res (Integral (Poly N)) := do
  let i ← (Poly.new xs).integral
  .ok ⟨i⟩

end Rustnomial
