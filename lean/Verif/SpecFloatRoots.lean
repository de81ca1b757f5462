import Verif.SpecFloat
import Verif.Model.FindRoots
import Mathlib.Data.Complex.Basic

/-!
# Specification of roots computed in floating point
-/

namespace Rustnomial

/-- `r` is a pair of finite roots which stand for the complex numbers `w₁` and `w₂`. -/
def FinitePair {f : FlFmt} (r : Roots (Fl f)) (w₁ w₂ : ℂ) : Prop :=
  match r with
  | .twoRealRoots x y =>
    x.isFinite = true ∧ y.isFinite = true ∧ w₁ = ⟨(x.toRat : ℝ), 0⟩ ∧ w₂ = ⟨(y.toRat : ℝ), 0⟩
  | .twoComplexRoots x y =>
    x.re.isFinite = true ∧ x.im.isFinite = true ∧ y.re.isFinite = true ∧ y.im.isFinite = true ∧
      w₁ = ⟨(x.re.toRat : ℝ), (x.im.toRat : ℝ)⟩ ∧ w₂ = ⟨(y.re.toRat : ℝ), (y.im.toRat : ℝ)⟩
  | _ => False

end Rustnomial
