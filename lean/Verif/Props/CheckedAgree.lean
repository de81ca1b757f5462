import Verif.Lemmas.CheckedAgree
import Verif.SpecBuild

/-!
# C103: overflow checks only add panics

For every function of the model which depends on whether the build has overflow checks: if it does not panic with them, it
does the same without them.
-/

namespace Rustnomial

theorem Ref.onlyPanics {α : Type} {a b : Res α} (h : Ref a b) : OnlyPanics a b := fun ha => (h.resolve_left ha).symm

section
variable (t : IntTy) (hb : 1 ≤ t.bits)
include hb

/-- C103, dense polynomials. -/
theorem C103_dense (p q : Poly Int) (c x : Int) (d n fuel : Nat) (cn : Bool) (fu : Nat → Option Int) :
    OnlyPanics (p.negM (.machine true t)) (p.negM (.machine false t)) ∧
    OnlyPanics (p.addM (.machine true t) q) (p.addM (.machine false t) q) ∧
    OnlyPanics (p.addAssignM (.machine true t) q) (p.addAssignM (.machine false t) q) ∧
    OnlyPanics (p.subM (.machine true t) q) (p.subM (.machine false t) q) ∧
    OnlyPanics (p.subRefM (.machine true t) q) (p.subRefM (.machine false t) q) ∧
    OnlyPanics (p.mulM (.machine true t) q) (p.mulM (.machine false t) q) ∧
    OnlyPanics (p.mulRefM (.machine true t) q) (p.mulRefM (.machine false t) q) ∧
    OnlyPanics (p.mulScalarM (.machine true t) c) (p.mulScalarM (.machine false t) c) ∧
    OnlyPanics (p.mulAssignScalarM (.machine true t) c) (p.mulAssignScalarM (.machine false t) c) ∧
    OnlyPanics (p.divScalarM (.machine true t) c) (p.divScalarM (.machine false t) c) ∧
    OnlyPanics (p.divAssignScalarM (.machine true t) c) (p.divAssignScalarM (.machine false t) c) ∧
    OnlyPanics (p.powM (.machine true t) n) (p.powM (.machine false t) n) ∧
    OnlyPanics (p.evalM (.machine true t) x) (p.evalM (.machine false t) x) ∧
    OnlyPanics (p.derivativeM (.machine true t) fu) (p.derivativeM (.machine false t) fu) ∧
    OnlyPanics (p.integralM (.machine true t) fu) (p.integralM (.machine false t) fu) ∧
    OnlyPanics (p.divModM (.machine true t) fuel q) (p.divModM (.machine false t) fuel q) ∧
    OnlyPanics (p.floorDivM (.machine true t) fuel q) (p.floorDivM (.machine false t) fuel q) ∧
    OnlyPanics (p.remM (.machine true t) fuel q) (p.remM (.machine false t) fuel q) ∧
    OnlyPanics (p.remAssignM (.machine true t) fuel q) (p.remAssignM (.machine false t) fuel q) ∧
    OnlyPanics (p.addTermM (.machine true t) c d) (p.addTermM (.machine false t) c d) ∧
    OnlyPanics (p.trySubTermM (.machine true t) cn c d) (p.trySubTermM (.machine false t) cn c d) := by
  have h1 := machine_le_wrap1 t hb
  have h2 := machine_le_wrap t hb
  exact ⟨(Poly.negM_mono h1 p).onlyPanics, (Poly.addM_mono h1 p q).onlyPanics, (Poly.addAssignM_mono h1 p q).onlyPanics,
    (Poly.subM_mono h1 p q).onlyPanics, (Poly.subRefM_mono h1 p q).onlyPanics, (Poly.mulM_mono h1 p q).onlyPanics,
    (Poly.mulRefM_mono h1 p q).onlyPanics, (Poly.mulScalarM_mono h1 p c).onlyPanics,
    (Poly.mulAssignScalarM_mono h1 p c).onlyPanics, (Poly.divScalarM_mono h2 p c).onlyPanics,
    (Poly.divAssignScalarM_mono h2 p c).onlyPanics, (Poly.powM_mono h1 p n).onlyPanics, (Poly.evalM_mono h1 p x).onlyPanics,
    (Poly.derivativeM_mono h1 fu p).onlyPanics, (Poly.integralM_mono h2 fu p).onlyPanics,
    (Poly.divModM_mono h2 fuel p q).onlyPanics, (Poly.floorDivM_mono h2 fuel p q).onlyPanics,
    (Poly.remM_mono h2 fuel p q).onlyPanics, (Poly.remAssignM_mono h2 fuel p q).onlyPanics,
    (Poly.addTermM_mono h1 p c d).onlyPanics, (Poly.trySubTermM_mono h1 cn p c d).onlyPanics⟩

/-- C103, sparse polynomials. -/
theorem C103_sparse (p q : Sparse Int) (r : Poly Int) (c x : Int) (d n fuel : Nat) (cn : Bool) (fu : Nat → Option Int) :
    OnlyPanics (p.negM (.machine true t)) (p.negM (.machine false t)) ∧
    OnlyPanics (p.addM (.machine true t) q) (p.addM (.machine false t) q) ∧
    OnlyPanics (p.addAssignM (.machine true t) q) (p.addAssignM (.machine false t) q) ∧
    OnlyPanics (p.subM (.machine true t) q) (p.subM (.machine false t) q) ∧
    OnlyPanics (p.subDenseM (.machine true t) r) (p.subDenseM (.machine false t) r) ∧
    OnlyPanics (p.mulM (.machine true t) q) (p.mulM (.machine false t) q) ∧
    OnlyPanics (p.mulScalarM (.machine true t) c) (p.mulScalarM (.machine false t) c) ∧
    OnlyPanics (p.mulAssignScalarM (.machine true t) c) (p.mulAssignScalarM (.machine false t) c) ∧
    OnlyPanics (p.divScalarM (.machine true t) c) (p.divScalarM (.machine false t) c) ∧
    OnlyPanics (p.divAssignScalarM (.machine true t) c) (p.divAssignScalarM (.machine false t) c) ∧
    OnlyPanics (p.powM (.machine true t) n) (p.powM (.machine false t) n) ∧
    OnlyPanics (p.evalM (.machine true t) x) (p.evalM (.machine false t) x) ∧
    OnlyPanics (p.derivativeM (.machine true t) fu) (p.derivativeM (.machine false t) fu) ∧
    OnlyPanics (p.integralM (.machine true t) fu) (p.integralM (.machine false t) fu) ∧
    OnlyPanics (p.divModM (.machine true t) fuel q) (p.divModM (.machine false t) fuel q) ∧
    OnlyPanics (p.remM (.machine true t) fuel q) (p.remM (.machine false t) fuel q) ∧
    OnlyPanics (p.addTermM (.machine true t) c d) (p.addTermM (.machine false t) c d) ∧
    OnlyPanics (p.trySubTermM (.machine true t) cn c d) (p.trySubTermM (.machine false t) cn c d) := by
  have h1 := machine_le_wrap1 t hb
  have h2 := machine_le_wrap t hb
  exact ⟨(Sparse.negM_mono h1 p).onlyPanics, (Sparse.addM_mono h1 p q).onlyPanics, (Sparse.addAssignM_mono h1 p q).onlyPanics,
    (Sparse.subM_mono h1 p q).onlyPanics, (Sparse.subDenseM_mono h1 p r).onlyPanics, (Sparse.mulM_mono h1 p q).onlyPanics,
    (Sparse.mulScalarM_mono h1 p c).onlyPanics, (Sparse.mulAssignScalarM_mono h1 p c).onlyPanics,
    (Sparse.divScalarM_mono h2 p c).onlyPanics, (Sparse.divAssignScalarM_mono h2 p c).onlyPanics,
    (Sparse.powM_mono h1 p n).onlyPanics, (Sparse.evalM_mono h2 p x).onlyPanics, (Sparse.derivativeM_mono h1 fu p).onlyPanics,
    (Sparse.integralM_mono h2 fu p).onlyPanics, (Sparse.divModM_mono h2 fuel p q).onlyPanics,
    (Sparse.remM_mono h2 fuel p q).onlyPanics, (Sparse.addTermM_mono h1 p c d).onlyPanics,
    (Sparse.trySubTermM_mono h1 cn p c d).onlyPanics⟩

/-- C103, monomials. -/
theorem C103_monomial (p q : Monomial Int) (c x : Int) (d n : Nat) (fu : Nat → Option Int) :
    OnlyPanics (p.negM (.machine true t)) (p.negM (.machine false t)) ∧
    OnlyPanics (p.mulM (.machine true t) q) (p.mulM (.machine false t) q) ∧
    OnlyPanics (p.mulScalarM (.machine true t) c) (p.mulScalarM (.machine false t) c) ∧
    OnlyPanics (p.divScalarM (.machine true t) c) (p.divScalarM (.machine false t) c) ∧
    OnlyPanics (p.powM (.machine true t) n) (p.powM (.machine false t) n) ∧
    OnlyPanics (p.evalM (.machine true t) x) (p.evalM (.machine false t) x) ∧
    OnlyPanics (p.derivativeM (.machine true t) fu) (p.derivativeM (.machine false t) fu) ∧
    OnlyPanics (p.integralM (.machine true t) fu) (p.integralM (.machine false t) fu) ∧
    OnlyPanics (p.tryAddTermM (.machine true t) c d) (p.tryAddTermM (.machine false t) c d) ∧
    OnlyPanics (p.trySubTermM (.machine true t) c d) (p.trySubTermM (.machine false t) c d) := by
  have h1 := machine_le_wrap1 t hb
  have h2 := machine_le_wrap t hb
  exact ⟨(Monomial.negM_mono h1 p).onlyPanics, (Monomial.mulM_mono h1 p q).onlyPanics, (Monomial.mulScalarM_mono h1 p c).onlyPanics,
    (Monomial.divScalarM_mono h2 p c).onlyPanics, (Monomial.powM_mono h2 p n).onlyPanics, (Monomial.evalM_mono h2 p x).onlyPanics,
    (Monomial.derivativeM_mono h1 fu p).onlyPanics, (Monomial.integralM_mono h2 fu p).onlyPanics,
    (Monomial.tryAddTermM_mono h1 p c d).onlyPanics, (Monomial.trySubTermM_mono h1 p c d).onlyPanics⟩

/-- C103, linear binomials. -/
theorem C103_binomial (p q : LinearBinomial Int) (c x : Int) (d : Nat) (fu : Nat → Option Int) :
    OnlyPanics (p.negM (.machine true t)) (p.negM (.machine false t)) ∧
    OnlyPanics (p.addM (.machine true t) q) (p.addM (.machine false t) q) ∧
    OnlyPanics (p.subM (.machine true t) q) (p.subM (.machine false t) q) ∧
    OnlyPanics (p.mulScalarM (.machine true t) c) (p.mulScalarM (.machine false t) c) ∧
    OnlyPanics (p.divScalarM (.machine true t) c) (p.divScalarM (.machine false t) c) ∧
    OnlyPanics (p.evalM (.machine true t) x) (p.evalM (.machine false t) x) ∧
    OnlyPanics (p.integralM (.machine true t) fu) (p.integralM (.machine false t) fu) ∧
    OnlyPanics (p.tryAddTermM (.machine true t) c d) (p.tryAddTermM (.machine false t) c d) ∧
    OnlyPanics (p.trySubTermM (.machine true t) c d) (p.trySubTermM (.machine false t) c d) := by
  have h1 := machine_le_wrap1 t hb
  have h2 := machine_le_wrap t hb
  exact ⟨(LinearBinomial.negM_mono h1 p).onlyPanics, (LinearBinomial.addM_mono h1 p q).onlyPanics,
    (LinearBinomial.subM_mono h1 p q).onlyPanics, (LinearBinomial.mulScalarM_mono h1 p c).onlyPanics,
    (LinearBinomial.divScalarM_mono h2 p c).onlyPanics, (LinearBinomial.evalM_mono h1 p x).onlyPanics,
    (LinearBinomial.integralM_mono h2 fu p).onlyPanics, (LinearBinomial.tryAddTermM_mono h1 p c d).onlyPanics,
    (LinearBinomial.trySubTermM_mono h1 p c d).onlyPanics⟩

/-- C103, quadratic trinomials. -/
theorem C103_trinomial (p q : QuadraticTrinomial Int) (c x : Int) (d : Nat) (fu : Nat → Option Int) :
    OnlyPanics (p.negM (.machine true t)) (p.negM (.machine false t)) ∧
    OnlyPanics (p.addM (.machine true t) q) (p.addM (.machine false t) q) ∧
    OnlyPanics (p.subM (.machine true t) q) (p.subM (.machine false t) q) ∧
    OnlyPanics (p.mulScalarM (.machine true t) c) (p.mulScalarM (.machine false t) c) ∧
    OnlyPanics (p.divScalarM (.machine true t) c) (p.divScalarM (.machine false t) c) ∧
    OnlyPanics (p.evalM (.machine true t) x) (p.evalM (.machine false t) x) ∧
    OnlyPanics (p.derivativeM (.machine true t) fu) (p.derivativeM (.machine false t) fu) ∧
    OnlyPanics (p.integralM (.machine true t) fu) (p.integralM (.machine false t) fu) ∧
    OnlyPanics (p.discriminantM (.machine true t)) (p.discriminantM (.machine false t)) ∧
    OnlyPanics (p.tryAddTermM (.machine true t) c d) (p.tryAddTermM (.machine false t) c d) ∧
    OnlyPanics (p.trySubTermM (.machine true t) c d) (p.trySubTermM (.machine false t) c d) := by
  have h1 := machine_le_wrap1 t hb
  have h2 := machine_le_wrap t hb
  exact ⟨(QuadraticTrinomial.negM_mono h1 p).onlyPanics, (QuadraticTrinomial.addM_mono h1 p q).onlyPanics,
    (QuadraticTrinomial.subM_mono h1 p q).onlyPanics, (QuadraticTrinomial.mulScalarM_mono h1 p c).onlyPanics,
    (QuadraticTrinomial.divScalarM_mono h2 p c).onlyPanics, (QuadraticTrinomial.evalM_mono h1 p x).onlyPanics,
    (QuadraticTrinomial.derivativeM_mono h1 fu p).onlyPanics, (QuadraticTrinomial.integralM_mono h2 fu p).onlyPanics,
    (QuadraticTrinomial.discriminantM_mono h1 p).onlyPanics, (QuadraticTrinomial.tryAddTermM_mono h1 p c d).onlyPanics,
    (QuadraticTrinomial.trySubTermM_mono h1 p c d).onlyPanics⟩

/-- C103, array polynomials. -/
theorem C103_array {size : Nat} (p : ArrayPoly Int size) (c x : Int) (d : Nat) (fu : Nat → Option Int) :
    OnlyPanics (p.evalM (.machine true t) x) (p.evalM (.machine false t) x) ∧
    OnlyPanics (p.derivativeM (.machine true t) fu) (p.derivativeM (.machine false t) fu) ∧
    OnlyPanics (p.integralM (.machine true t) fu) (p.integralM (.machine false t) fu) ∧
    OnlyPanics (p.tryAddTermM (.machine true t) c d) (p.tryAddTermM (.machine false t) c d) ∧
    OnlyPanics (arrayTrySubTermM (.machine true t) p.coefficients c d) (arrayTrySubTermM (.machine false t) p.coefficients c d) := by
  have h1 := machine_le_wrap1 t hb
  have h2 := machine_le_wrap t hb
  exact ⟨(ArrayPoly.evalM_mono h1 p x).onlyPanics, (ArrayPoly.derivativeM_mono h1 fu p).onlyPanics,
    (ArrayPoly.integralM_mono h2 fu p).onlyPanics, (ArrayPoly.tryAddTermM_mono h1 p c d).onlyPanics,
    (arrayTrySubTermM_mono h1 _ c d).onlyPanics⟩

/-- C103, `abs`, `abs_sqrt`, powers of primitive integers, the roots of a quadratic trinomial and printing a list of terms. -/
theorem C103_numbers (w : Nat) (hw : 1 ≤ w) (fuel e : Nat) (v : Int) (p : QuadraticTrinomial Int) (ts : List (Int × Nat)) :
    OnlyPanics (absInt true t v) (absInt false t v) ∧
    OnlyPanics (absSqrtI true w fuel v) (absSqrtI false w fuel v) ∧
    OnlyPanics (intPow (.machine true t) v e) (intPow (.machine false t) v e) ∧
    OnlyPanics (p.rootsM (.machine true ⟨true, w⟩) true w fuel) (p.rootsM (.machine false ⟨true, w⟩) false w fuel) ∧
    OnlyPanics (displayTerms (intFmt true t) ts) (displayTerms (intFmt false t) ts) :=
  ⟨(ref_abs t hb v).onlyPanics, (ref_absSqrt w hw fuel v).onlyPanics, (intPow_mono (machine_le_wrap1 t hb) v e).onlyPanics,
    (QuadraticTrinomial.rootsM_agree w hw fuel p).onlyPanics, (displayTerms_agree t hb ts).onlyPanics⟩

/-- C103, functions which add or subtract terms one after the other, for any polynomial type. -/
theorem C103_build (w cap : Nat) {S : Type} [MutPolyM S] [MonoMutPoly S] (ts us : List (Int × Nat))
    (xs : List (List (Int × Nat))) (sink : S) (s : List Char) :
    OnlyPanics (addPolyM (.machine true t w cap) ts sink) (addPolyM (.machine false t w cap) ts sink) ∧
    OnlyPanics (subPolyM (.machine true t w cap) ts sink) (subPolyM (.machine false t w cap) ts sink) ∧
    OnlyPanics (mulPolyVecM (.machine true t w cap) ts us sink) (mulPolyVecM (.machine false t w cap) ts us sink) ∧
    OnlyPanics (polyAddSinkM (.machine true t w cap) xs sink) (polyAddSinkM (.machine false t w cap) xs sink) ∧
    OnlyPanics (polySubSinkM (.machine true t w cap) xs sink) (polySubSinkM (.machine false t w cap) xs sink) ∧
    OnlyPanics (polyFromStrM (.machine true t w cap) sink (parseInt t) s)
      (polyFromStrM (.machine false t w cap) sink (parseInt t) s) := by
  have h := Env.machine_le t hb w cap
  exact ⟨(addPolyM_mono h ts sink).onlyPanics, (subPolyM_mono h ts sink).onlyPanics, (mulPolyVecM_mono h ts us sink).onlyPanics,
    (polyAddSinkM_mono h xs sink).onlyPanics, (polySubSinkM_mono h xs sink).onlyPanics,
    (polyFromStrM_mono h sink _ s).onlyPanics⟩

end

/-- C103, `FromStr` of the five types. -/
theorem C103_from_str (t : IntTy) (hb : 1 ≤ t.bits) (w cap : Nat) (s : List Char) :
    OnlyPanics (Poly.fromStrM (.machine true t w cap) t s) (Poly.fromStrM (.machine false t w cap) t s) ∧
    OnlyPanics (Sparse.fromStrM (.machine true t w cap) t s) (Sparse.fromStrM (.machine false t w cap) t s) ∧
    OnlyPanics (Monomial.fromStrM (.machine true t w cap) t s) (Monomial.fromStrM (.machine false t w cap) t s) ∧
    OnlyPanics (LinearBinomial.fromStrM (.machine true t w cap) t s) (LinearBinomial.fromStrM (.machine false t w cap) t s) ∧
    OnlyPanics (QuadraticTrinomial.fromStrM (.machine true t w cap) t s)
      (QuadraticTrinomial.fromStrM (.machine false t w cap) t s) := by
  have h := Env.machine_le t hb w cap
  exact ⟨(polyFromStrM_mono h _ _ s).onlyPanics, (polyFromStrM_mono h _ _ s).onlyPanics, (polyFromStrM_mono h _ _ s).onlyPanics,
    (polyFromStrM_mono h _ _ s).onlyPanics, (polyFromStrM_mono h _ _ s).onlyPanics⟩

/-- C103, arithmetic of degrees, for any coefficient type. -/
theorem C103_degrees (w : Nat) {N : Type} [Zero N] [NumZero N] [One N] [Add N] [Mul N] [PowUsize N] [RDiv N]
    [FromUsizeExact N] (m k : Monomial N) (p q : Sparse N) (r : Poly N) (e fuel : Nat) (i : Int) :
    OnlyPanics (m.mulU ⟨w, true⟩ k) (m.mulU ⟨w, false⟩ k) ∧
    OnlyPanics (m.powU ⟨w, true⟩ e) (m.powU ⟨w, false⟩ e) ∧
    OnlyPanics (m.integralU ⟨w, true⟩) (m.integralU ⟨w, false⟩) ∧
    OnlyPanics (m.shlU ⟨w, true⟩ fuel i) (m.shlU ⟨w, false⟩ fuel i) ∧
    OnlyPanics (m.shrU ⟨w, true⟩ fuel i) (m.shrU ⟨w, false⟩ fuel i) ∧
    OnlyPanics (p.mulU ⟨w, true⟩ q) (p.mulU ⟨w, false⟩ q) ∧
    OnlyPanics (p.powU ⟨w, true⟩ e) (p.powU ⟨w, false⟩ e) ∧
    OnlyPanics (p.integralU ⟨w, true⟩) (p.integralU ⟨w, false⟩) ∧
    OnlyPanics (p.shlU ⟨w, true⟩ fuel i) (p.shlU ⟨w, false⟩ fuel i) ∧
    OnlyPanics (p.shrU ⟨w, true⟩ fuel i) (p.shrU ⟨w, false⟩ fuel i) ∧
    OnlyPanics (r.shlU true fuel i) (r.shlU false fuel i) ∧
    OnlyPanics (r.shrU true fuel i) (r.shrU false fuel i) ∧
    OnlyPanics (r.shlAssignU true fuel i) (r.shlAssignU false fuel i) ∧
    OnlyPanics (r.shrAssignU true fuel i) (r.shrAssignU false fuel i) :=
  ⟨(m.mulU_agree w k).onlyPanics, (m.powU_agree w e).onlyPanics, (m.integralU_agree w).onlyPanics,
    (ref_shift (Monomial.shift_agree w) fuel _ m i).onlyPanics, (ref_shift (Monomial.shift_agree w) fuel _ m i).onlyPanics,
    (p.mulU_agree w q).onlyPanics, (p.powU_agree w e).onlyPanics, (p.integralU_agree w).onlyPanics,
    (ref_shift (Sparse.shift_agree w) fuel _ p i).onlyPanics, (ref_shift (Sparse.shift_agree w) fuel _ p i).onlyPanics,
    (ref_shift (fun _ _ _ => .refl _) fuel _ r i).onlyPanics, (ref_shift (fun _ _ _ => .refl _) fuel _ r i).onlyPanics,
    (ref_shift (fun _ _ _ => .refl _) fuel _ r i).onlyPanics, (ref_shift (fun _ _ _ => .refl _) fuel _ r i).onlyPanics⟩

/-! ## The converse fails, and cases -/

/-- C103: what happens without checks need not happen with them: `i8`, `(100x + 3) + (100x + 4)`. -/
theorem C103_converse_false :
    Poly.addM (.machine false ⟨true, 8⟩) ⟨[100, 3]⟩ ⟨[100, 4]⟩ = .ok ⟨[-56, 7]⟩ ∧
    Poly.addM (.machine true ⟨true, 8⟩) ⟨[100, 3]⟩ ⟨[100, 4]⟩ = .panic := by decide +kernel

example : Poly.mulM (.machine true ⟨true, 8⟩) ⟨[1, -2]⟩ ⟨[3, 4]⟩ = .ok ⟨[3, -2, -8]⟩ ∧
    Poly.mulM (.machine false ⟨true, 8⟩) ⟨[1, -2]⟩ ⟨[3, 4]⟩ = .ok ⟨[3, -2, -8]⟩ := by decide +kernel

example : Poly.divModM (.machine true ⟨true, 8⟩) 9 ⟨[1, 0, -1]⟩ ⟨[1, 1]⟩ = .ok (⟨[1, -1]⟩, ⟨[]⟩) ∧
    Poly.divModM (.machine false ⟨true, 8⟩) 9 ⟨[1, 0, -1]⟩ ⟨[1, 1]⟩ = .ok (⟨[1, -1]⟩, ⟨[]⟩) := by decide +kernel

example : Sparse.evalM (.machine true ⟨true, 8⟩) (⟨BMap.empty.insert 2 3⟩) 4 = .ok 48 ∧
    Sparse.evalM (.machine false ⟨true, 8⟩) (⟨BMap.empty.insert 2 3⟩) 4 = .ok 48 ∧
    Sparse.evalM (.machine true ⟨true, 8⟩) (⟨BMap.empty.insert 2 9⟩) 4 = .panic ∧
    Sparse.evalM (.machine false ⟨true, 8⟩) (⟨BMap.empty.insert 2 9⟩) 4 = .ok (-112) := by decide +kernel

example : Monomial.powM (.machine true ⟨true, 8⟩) ⟨-2, 3⟩ 7 = .ok ⟨-128, 21⟩ ∧
    Monomial.powM (.machine false ⟨true, 8⟩) ⟨-2, 3⟩ 7 = .ok ⟨-128, 21⟩ := by decide +kernel

example : LinearBinomial.evalM (.machine true ⟨true, 8⟩) ⟨3, 7⟩ 40 = .ok 127 ∧
    LinearBinomial.evalM (.machine false ⟨true, 8⟩) ⟨3, 7⟩ 40 = .ok 127 := by decide +kernel

example : QuadraticTrinomial.discriminantM (.machine true ⟨true, 8⟩) ⟨1, 5, 6⟩ = .ok 1 ∧
    QuadraticTrinomial.discriminantM (.machine false ⟨true, 8⟩) ⟨1, 5, 6⟩ = .ok 1 := by decide +kernel

example : ArrayPoly.evalM (.machine true ⟨true, 8⟩) (⟨[3, 7], rfl⟩ : ArrayPoly Int 2) 40 = .ok 127 ∧
    ArrayPoly.evalM (.machine false ⟨true, 8⟩) (⟨[3, 7], rfl⟩ : ArrayPoly Int 2) 40 = .ok 127 := by decide +kernel

example : absInt true ⟨true, 8⟩ (-127) = .ok 127 ∧ absInt false ⟨true, 8⟩ (-127) = .ok 127 ∧
    absInt true ⟨true, 8⟩ (-128) = .panic ∧ absInt false ⟨true, 8⟩ (-128) = .ok (-128) := by decide +kernel

example : addPolyM (.machine true ⟨true, 8⟩ 64 1000) [(100, 1), (-30, 1)] (⟨[1, 0]⟩ : Poly Int) = .ok (⟨[71, 0]⟩, .ok ()) ∧
    addPolyM (.machine false ⟨true, 8⟩ 64 1000) [(100, 1), (-30, 1)] (⟨[1, 0]⟩ : Poly Int) = .ok (⟨[71, 0]⟩, .ok ()) := by
  decide +kernel

example : Poly.fromStrM (.machine true ⟨true, 8⟩ 64 1000) ⟨true, 8⟩ "100x + 100x".toList = .panic ∧
    Poly.fromStrM (.machine false ⟨true, 8⟩ 64 1000) ⟨true, 8⟩ "100x + 100x".toList = .ok (.ok ⟨[-56, 0]⟩) ∧
    Poly.fromStrM (.machine true ⟨true, 8⟩ 64 1000) ⟨true, 8⟩ "100x - 9x".toList = .ok (.ok ⟨[91, 0]⟩) ∧
    Poly.fromStrM (.machine false ⟨true, 8⟩ 64 1000) ⟨true, 8⟩ "100x - 9x".toList = .ok (.ok ⟨[91, 0]⟩) := by
  decide +kernel

example : Monomial.mulU ⟨8, true⟩ (⟨3, 100⟩ : Monomial Int) ⟨5, 155⟩ = .ok ⟨15, 255⟩ ∧
    Monomial.mulU ⟨8, false⟩ (⟨3, 100⟩ : Monomial Int) ⟨5, 155⟩ = .ok ⟨15, 255⟩ ∧
    Monomial.mulU ⟨8, true⟩ (⟨3, 100⟩ : Monomial Int) ⟨5, 156⟩ = .panic ∧
    Monomial.mulU ⟨8, false⟩ (⟨3, 100⟩ : Monomial Int) ⟨5, 156⟩ = .ok ⟨15, 0⟩ := by decide +kernel

end Rustnomial
