import Verif.SpecFloatFactors

/-!
# Specification of the roots of cubics computed in floating point
-/

namespace Rustnomial
variable {f : FlFmt}

/-- `r` is a triple of finite roots which stand for the complex numbers `w₁`, `w₂` and `w₃`. -/
def FiniteTriple (r : Roots (Fl f)) (w₁ w₂ w₃ : ℂ) : Prop :=
  match r with
  | .threeRealRoots x y z =>
    (x.isFinite = true ∧ y.isFinite = true ∧ z.isFinite = true) ∧
      w₁ = ⟨(x.toRat : ℝ), 0⟩ ∧ w₂ = ⟨(y.toRat : ℝ), 0⟩ ∧ w₃ = ⟨(z.toRat : ℝ), 0⟩
  | .threeComplexRoots x y z =>
    (x.re.isFinite = true ∧ x.im.isFinite = true ∧ y.re.isFinite = true ∧ y.im.isFinite = true ∧
      z.re.isFinite = true ∧ z.im.isFinite = true) ∧ w₁ = x.flC ∧ w₂ = y.flC ∧ w₃ = z.flC
  | _ => False

end Rustnomial
