import Verif.SpecFloatLaws
import Verif.Model.FindRoots
import Verif.Spec

/-!
# Specification of symmetries of roots

The same answer with the two roots of a quadratic exchanged, the answer for `p(-x)`, and answers with the same numbers.
-/

namespace Rustnomial

/-- The two roots in the other order (other answers unchanged). -/
def Roots.swap {N : Type} : Roots N → Roots N
  | .twoRealRoots r s => .twoRealRoots s r
  | .twoComplexRoots z w => .twoComplexRoots w z
  | r => r

/-- The negated complex number. -/
def Cplx.negated {N : Type} [Neg N] (z : Cplx N) : Cplx N := ⟨-z.re, -z.im⟩

/-- The roots of `p(-x)`, given those of a quadratic or cubic `p`: negated; the two roots from the quadratic formula, of which the first is
the larger for a positive leading coefficient, in the other order. -/
def Roots.mirror {N : Type} [Neg N] : Roots N → Roots N
  | .twoRealRoots r s => .twoRealRoots (-s) (-r)
  | .twoComplexRoots z w => .twoComplexRoots w.negated z.negated
  | .threeRealRoots x r s => .threeRealRoots (-x) (-s) (-r)
  | .threeComplexRoots x z w => .threeComplexRoots ⟨-x.re, x.im⟩ w.negated z.negated
  | r => r

/-- The list of roots in the other order. -/
def Roots.reversed {N : Type} : Roots N → Roots N
  | .manyRealRoots l => .manyRealRoots l.reverse
  | .manyComplexRoots l => .manyComplexRoots l.reverse
  | r => r

/-- `g` applied to an answer that was given. -/
def Res.mapOk {α β : Type} (g : α → β) : Res α → Res β
  | .ok a => .ok (g a)
  | .panic => .panic
  | .fuel => .fuel

/-- Both give an answer, and the answers are related; or both panic, or both do not end. -/
def Res.Rel {α β : Type} (P : α → β → Prop) : Res α → Res β → Prop
  | .ok r, .ok r' => P r r'
  | .panic, .panic => True
  | .fuel, .fuel => True
  | _, _ => False

/-- Complex numbers with related parts. -/
def Cplx.Rel {N : Type} (S : N → N → Prop) (z w : Cplx N) : Prop := S z.re w.re ∧ S z.im w.im

/-- The same kind of answer, number by number related. -/
def Roots.Rel {N : Type} (S : N → N → Prop) : Roots N → Roots N → Prop
  | .noRoots, .noRoots => True
  | .noRootsFound, .noRootsFound => True
  | .infiniteRoots, .infiniteRoots => True
  | .oneRealRoot r, .oneRealRoot r' => S r r'
  | .twoRealRoots r s, .twoRealRoots r' s' => S r r' ∧ S s s'
  | .threeRealRoots r s t, .threeRealRoots r' s' t' => S r r' ∧ S s s' ∧ S t t'
  | .manyRealRoots l, .manyRealRoots l' => List.Forall₂ S l l'
  | .onlyRealRoots l, .onlyRealRoots l' => List.Forall₂ S l l'
  | .oneComplexRoot z, .oneComplexRoot z' => Cplx.Rel S z z'
  | .twoComplexRoots z w, .twoComplexRoots z' w' => Cplx.Rel S z z' ∧ Cplx.Rel S w w'
  | .threeComplexRoots z w v, .threeComplexRoots z' w' v' => Cplx.Rel S z z' ∧ Cplx.Rel S w w' ∧ Cplx.Rel S v v'
  | .manyComplexRoots l, .manyComplexRoots l' => List.Forall₂ (Cplx.Rel S) l l'
  | _, _ => False

/-- `res` is an answer of `roots()` of `Polynomial`, or of `SparsePolynomial` with exponents below `2 ^ 31` (C07), on the polynomial `P`. -/
def RootsOf (oracle : List ℝ → List ℝ) (rnd : ℝ → ℝ) (fuel : Nat) (P : Polynomial ℝ) (res : Res (Roots ℝ)) : Prop :=
  (∃ p : Poly ℝ, descPoly p.terms = P ∧ res = p.roots oracle rnd fuel) ∨
  (∃ p : Sparse ℝ, entriesPoly p.terms.entries = P ∧ (∀ e ∈ p.terms.entries, e.1 < 2 ^ 31) ∧ res = p.roots oracle rnd fuel)

namespace Fl
variable {f : FlFmt}

/-- The same kind of answer with the same numbers (up to the signs of zeros). -/
abbrev SameRoots : Roots (Fl f) → Roots (Fl f) → Prop := Roots.Rel SameNum

/-- Both give an answer, with the same numbers; or both panic, or both do not end. -/
abbrev SameRootsRes : Res (Roots (Fl f)) → Res (Roots (Fl f)) → Prop := Res.Rel SameRoots

end Fl
end Rustnomial
