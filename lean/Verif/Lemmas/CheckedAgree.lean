import Verif.Lemmas.MachineBuild
import Verif.Lemmas.Machine
import Verif.Model.Powers

/-!
# Lemmas: a computation with overflow checks panics or does what it does without them
-/

namespace Rustnomial

theorem ref_result_wrap (t : IntTy) (hb : 1 ≤ t.bits) (v : Int) : Ref (t.result true v) (t.result false v) := by
  by_cases h : t.InRange v
  · right
    simp only [IntTy.result, if_true, IntTy.checked, if_pos h]
    simp [t.wrap_of_inRange hb v h]
  · left
    simp [IntTy.result, IntTy.checked, h]

theorem machine_le_wrap (t : IntTy) (hb : 1 ≤ t.bits) : Arith2.Le (.machine true t) (.machine false t) where
  add a b := ref_result_wrap t hb _
  sub a b := ref_result_wrap t hb _
  mul a b := ref_result_wrap t hb _
  neg a := ref_result_wrap t hb _
  div a b := .refl _
  upow a b := ref_result_wrap t hb _

theorem machine_le_wrap1 (t : IntTy) (hb : 1 ≤ t.bits) : Arith.Le (.machine true t) (.machine false t) :=
  (machine_le_wrap t hb).toLe

theorem Ref.modifyM {α : Type} {f g : α → Res α} (h : ∀ x, Ref (f x) (g x)) : ∀ (l : List α) (i : Nat),
    Ref (modifyM f l i) (modifyM g l i)
  | [], _ => .refl _
  | x :: l, 0 => (h x).bind (fun _ => .refl _)
  | x :: l, i + 1 => (modifyM h l i).bind (fun _ => .refl _)

/-- One step of a monotonicity proof. -/
macro "mono3" h:ident : tactic => `(tactic| first
  | mono1 $h
  | refine Ref.modifyM (fun _ => ?_) _ _)

section
variable {A B : Arith}

namespace Poly

theorem negM_mono (h : A.Le B) (p : Poly Int) : Ref (p.negM A) (p.negM B) := by
  unfold negM; repeat mono3 h

theorem subM_mono (h : A.Le B) (p q : Poly Int) : Ref (p.subM A q) (p.subM B q) := by
  unfold subM; repeat mono3 h

theorem subRefM_mono (h : A.Le B) (p q : Poly Int) : Ref (p.subRefM A q) (p.subRefM B q) := by
  unfold subRefM; repeat mono3 h

theorem addM_mono (h : A.Le B) (p q : Poly Int) : Ref (p.addM A q) (p.addM B q) := by
  unfold addM; repeat mono3 h

theorem addAssignM_mono (h : A.Le B) (p q : Poly Int) : Ref (p.addAssignM A q) (p.addAssignM B q) := by
  unfold addAssignM; repeat mono3 h

theorem mulScalarM_mono (h : A.Le B) (p : Poly Int) (c : Int) : Ref (p.mulScalarM A c) (p.mulScalarM B c) := by
  unfold mulScalarM; repeat mono3 h

theorem mulAssignScalarM_mono (h : A.Le B) (p : Poly Int) (c : Int) :
    Ref (p.mulAssignScalarM A c) (p.mulAssignScalarM B c) := by
  unfold mulAssignScalarM; repeat mono3 h

theorem evalM_mono (h : A.Le B) (p : Poly Int) (x : Int) : Ref (p.evalM A x) (p.evalM B x) := by
  unfold evalM; repeat mono3 h

theorem derivLoopM_mono (h : A.Le B) : ∀ (l : List Int) (d : Int), Ref (derivLoopM A l d) (derivLoopM B l d)
  | [], _ => .refl _
  | x :: l, d => (h.sub _ _).bind (fun d' => (h.mul _ _).bind (fun _ => (derivLoopM_mono h l d').bind (fun _ => .refl _)))

theorem derivativeM_mono (h : A.Le B) (fu : Nat → Option Int) (p : Poly Int) :
    Ref (p.derivativeM A fu) (p.derivativeM B fu) := by
  unfold derivativeM
  dsimp only
  split
  · exact .refl _
  · split
    · exact .refl _
    · exact (derivLoopM_mono h _ _).bind (fun _ => .refl _)

theorem addTermM_mono (h : A.Le B) (p : Poly Int) (c : Int) (d : Nat) : Ref (p.addTermM A c d) (p.addTermM B c d) := by
  unfold addTermM; repeat mono3 h

theorem trySubTermM_mono (h : A.Le B) (n : Bool) (p : Poly Int) (c : Int) (d : Nat) :
    Ref (p.trySubTermM A n c d) (p.trySubTermM B n c d) := by
  unfold trySubTermM; repeat mono3 h

theorem mulM_mono (h : A.Le B) (p q : Poly Int) : Ref (p.mulM A q) (p.mulM B q) :=
  (sliceMulM_mono h _ _).bind (fun _ => .refl _)

end Poly

theorem Sparse.trySubTermM_mono (h : A.Le B) (n : Bool) (p : Sparse Int) (c : Int) (d : Nat) :
    Ref (p.trySubTermM A n c d) (p.trySubTermM B n c d) := by
  unfold Sparse.trySubTermM; repeat mono3 h

theorem arrayTrySubTermM_mono (h : A.Le B) (p : List Int) (c : Int) (d : Nat) :
    Ref (arrayTrySubTermM A p c d) (arrayTrySubTermM B p c d) := by
  unfold arrayTrySubTermM; repeat mono3 h

namespace Monomial

theorem trySubTermM_mono (h : A.Le B) (p : Monomial Int) (c : Int) (d : Nat) :
    Ref (p.trySubTermM A c d) (p.trySubTermM B c d) := by
  unfold trySubTermM; repeat mono3 h

theorem tryAddTermM_mono (h : A.Le B) (p : Monomial Int) (c : Int) (d : Nat) :
    Ref (p.tryAddTermM A c d) (p.tryAddTermM B c d) := by
  unfold tryAddTermM; repeat mono3 h

theorem derivativeM_mono (h : A.Le B) (fu : Nat → Option Int) (p : Monomial Int) :
    Ref (p.derivativeM A fu) (p.derivativeM B fu) := by
  unfold derivativeM; repeat mono3 h

theorem negM_mono (h : A.Le B) (p : Monomial Int) : Ref (p.negM A) (p.negM B) := by
  unfold negM; repeat mono3 h

theorem mulM_mono (h : A.Le B) (p q : Monomial Int) : Ref (p.mulM A q) (p.mulM B q) := by
  unfold mulM; repeat mono3 h

theorem mulScalarM_mono (h : A.Le B) (p : Monomial Int) (c : Int) : Ref (p.mulScalarM A c) (p.mulScalarM B c) := by
  unfold mulScalarM; repeat mono3 h

end Monomial

namespace LinearBinomial

theorem trySubTermM_mono (h : A.Le B) (p : LinearBinomial Int) (c : Int) (d : Nat) :
    Ref (p.trySubTermM A c d) (p.trySubTermM B c d) := by
  unfold trySubTermM; repeat mono3 h

theorem tryAddTermM_mono (h : A.Le B) (p : LinearBinomial Int) (c : Int) (d : Nat) :
    Ref (p.tryAddTermM A c d) (p.tryAddTermM B c d) := by
  unfold tryAddTermM; repeat mono3 h

theorem evalM_mono (h : A.Le B) (p : LinearBinomial Int) (x : Int) : Ref (p.evalM A x) (p.evalM B x) := by
  unfold evalM; repeat mono3 h

theorem negM_mono (h : A.Le B) (p : LinearBinomial Int) : Ref (p.negM A) (p.negM B) := by
  unfold negM; repeat mono3 h

theorem subM_mono (h : A.Le B) (p q : LinearBinomial Int) : Ref (p.subM A q) (p.subM B q) := by
  unfold subM; repeat mono3 h

theorem addM_mono (h : A.Le B) (p q : LinearBinomial Int) : Ref (p.addM A q) (p.addM B q) := by
  unfold addM; repeat mono3 h

theorem mulScalarM_mono (h : A.Le B) (p : LinearBinomial Int) (c : Int) : Ref (p.mulScalarM A c) (p.mulScalarM B c) := by
  unfold mulScalarM; repeat mono3 h

end LinearBinomial

namespace QuadraticTrinomial

theorem trySubTermM_mono (h : A.Le B) (p : QuadraticTrinomial Int) (c : Int) (d : Nat) :
    Ref (p.trySubTermM A c d) (p.trySubTermM B c d) := by
  unfold trySubTermM; repeat mono3 h

theorem tryAddTermM_mono (h : A.Le B) (p : QuadraticTrinomial Int) (c : Int) (d : Nat) :
    Ref (p.tryAddTermM A c d) (p.tryAddTermM B c d) := by
  unfold tryAddTermM; repeat mono3 h

theorem evalM_mono (h : A.Le B) (p : QuadraticTrinomial Int) (x : Int) : Ref (p.evalM A x) (p.evalM B x) := by
  unfold evalM; repeat mono3 h

theorem derivativeM_mono (h : A.Le B) (fu : Nat → Option Int) (p : QuadraticTrinomial Int) :
    Ref (p.derivativeM A fu) (p.derivativeM B fu) := by
  unfold derivativeM; repeat mono3 h

theorem negM_mono (h : A.Le B) (p : QuadraticTrinomial Int) : Ref (p.negM A) (p.negM B) := by
  unfold negM; repeat mono3 h

theorem subM_mono (h : A.Le B) (p q : QuadraticTrinomial Int) : Ref (p.subM A q) (p.subM B q) := by
  unfold subM; repeat mono3 h

theorem addM_mono (h : A.Le B) (p q : QuadraticTrinomial Int) : Ref (p.addM A q) (p.addM B q) := by
  unfold addM; repeat mono3 h

theorem mulScalarM_mono (h : A.Le B) (p : QuadraticTrinomial Int) (c : Int) : Ref (p.mulScalarM A c) (p.mulScalarM B c) := by
  unfold mulScalarM; repeat mono3 h

theorem discriminantM_mono (h : A.Le B) (p : QuadraticTrinomial Int) : Ref (p.discriminantM A) (p.discriminantM B) := by
  unfold discriminantM; repeat mono3 h

end QuadraticTrinomial

namespace ArrayPoly
variable {size : Nat}

theorem tryAddTermM_mono (h : A.Le B) (p : ArrayPoly Int size) (c : Int) (d : Nat) :
    Ref (p.tryAddTermM A c d) (p.tryAddTermM B c d) := by
  unfold tryAddTermM; repeat mono3 h

theorem evalM_mono (h : A.Le B) (p : ArrayPoly Int size) (x : Int) : Ref (p.evalM A x) (p.evalM B x) := by
  unfold evalM; repeat mono3 h

theorem derivLoopM_mono (h : A.Le B) : ∀ (l : List Int) (n : Nat) (d : Int), Ref (derivLoopM A l n d) (derivLoopM B l n d)
  | [], n, _ => by cases n <;> exact .refl _
  | x :: l, 0, d => .refl _
  | x :: l, n + 1, d =>
    (h.sub _ _).bind (fun d' => (h.mul _ _).bind (fun _ => (derivLoopM_mono h l n d').bind (fun _ => .refl _)))

theorem derivativeM_mono (h : A.Le B) (fu : Nat → Option Int) (p : ArrayPoly Int size) :
    Ref (p.derivativeM A fu) (p.derivativeM B fu) := by
  unfold derivativeM
  split
  · exact .refl _
  · split
    · exact (derivLoopM_mono h _ _ _).bind (fun _ => .refl _)
    · exact .refl _

end ArrayPoly

theorem intPowLoop_mono (h : A.Le B) : ∀ (e : Nat) (acc b : Int), Ref (intPowLoop A acc b e) (intPowLoop B acc b e) := by
  intro e
  induction e using Nat.strong_induction_on with
  | _ e ih =>
    intro acc b
    rw [intPowLoop.eq_def A, intPowLoop.eq_def B]
    split
    · exact h.mul _ _
    · split
      · exact (h.mul _ _).bind (fun _ => (h.mul _ _).bind (fun _ => ih _ (by omega) _ _))
      · exact (h.mul _ _).bind (fun _ => ih _ (by omega) _ _)

theorem intPow_mono (h : A.Le B) (b : Int) (e : Nat) : Ref (intPow A b e) (intPow B b e) := by
  unfold intPow
  split
  · exact .refl _
  · exact intPowLoop_mono h _ _ _

end

section
variable {A B : Arith2}

namespace Monomial

theorem evalM_mono (h : A.Le B) (p : Monomial Int) (x : Int) : Ref (p.evalM A x) (p.evalM B x) := by
  unfold evalM; repeat mono2 h

theorem integralM_mono (h : A.Le B) (fu : Nat → Option Int) (p : Monomial Int) :
    Ref (p.integralM A fu) (p.integralM B fu) := by
  unfold integralM; repeat mono2 h

theorem powM_mono (h : A.Le B) (p : Monomial Int) (n : Nat) : Ref (p.powM A n) (p.powM B n) := by
  unfold powM; repeat mono2 h

theorem divScalarM_mono (h : A.Le B) (p : Monomial Int) (c : Int) : Ref (p.divScalarM A c) (p.divScalarM B c) := by
  unfold divScalarM; repeat mono2 h

end Monomial

namespace LinearBinomial

theorem integralM_mono (h : A.Le B) (fu : Nat → Option Int) (p : LinearBinomial Int) :
    Ref (p.integralM A fu) (p.integralM B fu) := by
  unfold integralM; repeat mono2 h

theorem divScalarM_mono (h : A.Le B) (p : LinearBinomial Int) (c : Int) : Ref (p.divScalarM A c) (p.divScalarM B c) := by
  unfold divScalarM; repeat mono2 h

end LinearBinomial

namespace QuadraticTrinomial

theorem integralM_mono (h : A.Le B) (fu : Nat → Option Int) (p : QuadraticTrinomial Int) :
    Ref (p.integralM A fu) (p.integralM B fu) := by
  unfold integralM; repeat mono2 h

theorem divScalarM_mono (h : A.Le B) (p : QuadraticTrinomial Int) (c : Int) :
    Ref (p.divScalarM A c) (p.divScalarM B c) := by
  unfold divScalarM; repeat mono2 h

end QuadraticTrinomial

theorem ArrayPoly.integralM_mono {size : Nat} (h : A.Le B) (fu : Nat → Option Int) (p : ArrayPoly Int size) :
    Ref (p.integralM A fu) (p.integralM B fu) := by
  unfold ArrayPoly.integralM
  split
  · exact .refl _
  · exact (Poly.integLoopM_mono h _ _).bind (fun _ => .refl _)

end

/-! ## `abs`, square roots, printing -/

theorem ref_abs (t : IntTy) (hb : 1 ≤ t.bits) (v : Int) : Ref (absInt true t v) (absInt false t v) := by
  unfold absInt
  split
  · have := ref_result_wrap t hb |v|
    simpa [IntTy.result] using this
  · exact .refl _

theorem ref_absSqrt (w : Nat) (hw : 1 ≤ w) (fuel : Nat) (v : Int) : Ref (absSqrtI true w fuel v) (absSqrtI false w fuel v) :=
  (ref_abs ⟨true, w⟩ hw v).bind (fun _ => .refl _)

theorem QuadraticTrinomial.rootsM_agree (w : Nat) (hw : 1 ≤ w) (fuel : Nat) (p : QuadraticTrinomial Int) :
    Ref (p.rootsM (.machine true ⟨true, w⟩) true w fuel) (p.rootsM (.machine false ⟨true, w⟩) false w fuel) := by
  have h := machine_le_wrap ⟨true, w⟩ hw
  unfold QuadraticTrinomial.rootsM
  refine (discriminantM_mono h.toLe p).bind (fun d => (h.mul _ _).bind (fun a => (h.neg _).bind (fun nb =>
    (h.div _ _).bind (fun b => ?_))))
  split
  · exact .refl _
  · refine (ref_absSqrt w hw fuel d).bind (fun s => ?_)
    repeat mono2 h

theorem displayTerms_agree (t : IntTy) (hb : 1 ≤ t.bits) : ∀ (ts : List (Int × Nat)),
    Ref (displayTerms (intFmt true t) ts) (displayTerms (intFmt false t) ts) := by
  have hw : ∀ (ts : List (Int × Nat)), Ref (writeTrailingTerms (intFmt true t) ts) (writeTrailingTerms (intFmt false t) ts) := by
    intro ts
    induction ts with
    | nil => exact .refl _
    | cons u ts ih =>
      refine Ref.bind ?_ (fun _ => ih.bind (fun _ => .refl _))
      exact (ref_abs t hb u.1).bind (fun _ => .refl _)
  intro ts
  cases ts with
  | nil => exact .refl _
  | cons u ts => exact (hw ts).bind (fun _ => .refl _)

/-! ## Degrees -/

theorem USz.ref_result (w v : Nat) : Ref (USz.result ⟨w, true⟩ v) (USz.result ⟨w, false⟩ v) := by
  unfold USz.result Ref; split <;> simp

theorem USz.ref_sub (w a b : Nat) : Ref (USz.sub ⟨w, true⟩ a b) (USz.sub ⟨w, false⟩ a b) := by
  unfold USz.sub Ref; split <;> simp

theorem ref_negI32 (v : Int) : Ref (negI32U true v) (negI32U false v) := by
  unfold negI32U Ref; split <;> simp

theorem ref_shift {P : Type} {f g : Bool → P → Nat → Res P} (h : ∀ l p k, Ref (f l p k) (g l p k)) :
    ∀ (fuel : Nat) (l : Bool) (p : P) (r : Int), Ref (shiftU true f fuel l p r) (shiftU false g fuel l p r)
  | 0, _, _, _ => .refl _
  | fuel + 1, l, p, r => by
    unfold shiftU
    split
    · exact (ref_negI32 r).bind (fun _ => ref_shift h fuel _ _ _)
    · exact h _ _ _

/-- One step of a comparison of two functions of `usize`. -/
macro "monoU" : tactic => `(tactic| first
  | exact Ref.refl _
  | exact USz.ref_result _ _
  | exact USz.ref_sub _ _ _
  | refine Ref.bind ?_ (fun _ => ?_)
  | refine Ref.foldlM (fun _ _ => ?_) _ _
  | split)

section
variable {N : Type} (w : Nat)

theorem Monomial.mulU_agree [Mul N] (p q : Monomial N) : Ref (p.mulU ⟨w, true⟩ q) (p.mulU ⟨w, false⟩ q) := by
  unfold Monomial.mulU; repeat monoU

theorem Monomial.powU_agree [PowUsize N] (p : Monomial N) (n : Nat) : Ref (p.powU ⟨w, true⟩ n) (p.powU ⟨w, false⟩ n) := by
  unfold Monomial.powU; repeat monoU

theorem Monomial.integralU_agree [Zero N] [NumZero N] [Add N] [RDiv N] [FromUsizeExact N] (p : Monomial N) :
    Ref (p.integralU ⟨w, true⟩) (p.integralU ⟨w, false⟩) := by
  unfold Monomial.integralU; repeat monoU

theorem Monomial.shift_agree [Zero N] (l : Bool) (p : Monomial N) (k : Nat) :
    Ref (Monomial.shiftPosU ⟨w, true⟩ l p k) (Monomial.shiftPosU ⟨w, false⟩ l p k) := by
  unfold Monomial.shiftPosU; repeat monoU

theorem Sparse.mulU_agree [Zero N] [NumZero N] [Add N] [Mul N] (p q : Sparse N) :
    Ref (p.mulU ⟨w, true⟩ q) (p.mulU ⟨w, false⟩ q) := by
  unfold Sparse.mulU mapMulU mapMulInnerU; repeat monoU

theorem Sparse.powU_agree [Zero N] [NumZero N] [One N] [Add N] [Mul N] (p : Sparse N) (n : Nat) :
    Ref (p.powU ⟨w, true⟩ n) (p.powU ⟨w, false⟩ n) := by
  induction n using Nat.strong_induction_on generalizing p with
  | _ n ih =>
    rw [Sparse.powU.eq_def, Sparse.powU.eq_def ⟨w, false⟩]
    split
    · exact .refl _
    · split
      · exact .refl _
      · split
        · exact mulU_agree w _ _
        · split
          · exact (ih (n / 2) (by omega) p).bind (fun x => ih 2 (by omega) x)
          · exact (ih (n - 1) (by omega) p).bind (fun x => mulU_agree w _ _)

theorem Sparse.integralU_agree [RDiv N] [FromUsizeExact N] (p : Sparse N) :
    Ref (p.integralU ⟨w, true⟩) (p.integralU ⟨w, false⟩) := by
  unfold Sparse.integralU; repeat monoU

theorem Sparse.shift_agree (l : Bool) (p : Sparse N) (k : Nat) :
    Ref (Sparse.shiftPosU ⟨w, true⟩ l p k) (Sparse.shiftPosU ⟨w, false⟩ l p k) := by
  unfold Sparse.shiftPosU; repeat monoU

end

/-! ## Terms one after the other -/

/-- Every operation of `E` panics or does what the one of `E'` does. -/
structure Env.Le (E E' : Env) : Prop where
  ar : E.ar.Le E'.ar
  neg : E.canNegate = E'.canNegate
  bits : E.usz.bits = E'.usz.bits
  uadd : ∀ a b, Ref (E.usz.add a b) (E'.usz.add a b)
  usub : ∀ a b, Ref (E.usz.sub a b) (E'.usz.sub a b)
  alloc : ∀ n, Ref (E.alloc n) (E'.alloc n)

theorem Env.machine_le (t : IntTy) (hb : 1 ≤ t.bits) (w cap : Nat) : (Env.machine true t w cap).Le (.machine false t w cap) :=
  ⟨machine_le_wrap1 t hb, rfl, rfl, fun _ _ => USz.ref_result w _, fun _ _ => USz.ref_sub w _ _, fun _ => .refl _⟩

/-- One step of a comparison of two functions of an environment. -/
macro "monoE" h:ident : tactic => `(tactic| first
  | exact Ref.refl _
  | exact ($h).uadd _ _
  | exact ($h).usub _ _
  | exact ($h).alloc _
  | exact ($h).ar.add _ _
  | exact ($h).ar.sub _ _
  | exact ($h).ar.mul _ _
  | refine Ref.bind ?_ (fun _ => ?_)
  | refine Ref.foldlM (fun _ _ => ?_) _ _
  | refine Ref.modifyM (fun _ => ?_) _ _
  | split)

variable {E E' : Env}

theorem Poly.addTermE_mono (h : E.Le E') (p : Poly Int) (c : Int) (d : Nat) : Ref (p.addTermE E c d) (p.addTermE E' c d) := by
  unfold Poly.addTermE; repeat monoE h

theorem Poly.trySubTermE_mono (h : E.Le E') (p : Poly Int) (c : Int) (d : Nat) :
    Ref (p.trySubTermE E c d) (p.trySubTermE E' c d) := by
  unfold Poly.trySubTermE
  rw [h.neg]
  repeat monoE h

/-- A polynomial type whose mutations do less with less arithmetic. -/
class MonoMutPoly (S : Type) [MutPolyM S] : Prop where
  add : ∀ {E E' : Env}, E.Le E' → ∀ (s : S) c d, Ref (MutPolyM.tryAddTermM E s c d) (MutPolyM.tryAddTermM E' s c d)
  sub : ∀ {E E' : Env}, E.Le E' → ∀ (s : S) c d, Ref (MutPolyM.trySubTermM E s c d) (MutPolyM.trySubTermM E' s c d)

instance : MonoMutPoly (Poly Int) :=
  ⟨fun h s c d => (Poly.addTermE_mono h s c d).bind (fun _ => .refl _), fun h s c d => Poly.trySubTermE_mono h s c d⟩

instance : MonoMutPoly (Sparse Int) :=
  ⟨fun h s c d => (Sparse.addTermM_mono h.ar s c d).bind (fun _ => .refl _), fun {E E'} h s c d => by
    show Ref (s.trySubTermM E.ar E.canNegate c d) (s.trySubTermM E'.ar E'.canNegate c d)
    rw [h.neg]; exact Sparse.trySubTermM_mono h.ar _ s c d⟩

instance : MonoMutPoly (Monomial Int) :=
  ⟨fun h s c d => Monomial.tryAddTermM_mono h.ar s c d, fun h s c d => Monomial.trySubTermM_mono h.ar s c d⟩

instance : MonoMutPoly (LinearBinomial Int) :=
  ⟨fun h s c d => LinearBinomial.tryAddTermM_mono h.ar s c d, fun h s c d => LinearBinomial.trySubTermM_mono h.ar s c d⟩

instance : MonoMutPoly (QuadraticTrinomial Int) :=
  ⟨fun h s c d => QuadraticTrinomial.tryAddTermM_mono h.ar s c d,
    fun h s c d => QuadraticTrinomial.trySubTermM_mono h.ar s c d⟩

instance {size : Nat} : MonoMutPoly (ArrayPoly Int size) where
  add {E E'} h s c d := by
    show Ref (s.tryAddTermE E c d) (s.tryAddTermE E' c d)
    unfold ArrayPoly.tryAddTermE
    split_ifs
    · exact (h.ar.add _ _).bind (fun _ => .refl _)
    · exact .refl _
  sub {E E'} h s c d := by
    show Ref (s.trySubTermE E c d) (s.trySubTermE E' c d)
    unfold ArrayPoly.trySubTermE
    split_ifs
    · exact (h.ar.sub _ _).bind (fun _ => .refl _)
    · exact .refl _

section
variable {S : Type} [MutPolyM S] [MonoMutPoly S]

theorem addPolyM_mono (h : E.Le E') : ∀ (ts : List (Int × Nat)) (s : S), Ref (addPolyM E ts s) (addPolyM E' ts s)
  | [], _ => .refl _
  | (c, d) :: ts, s => (MonoMutPoly.add h s c d).bind (fun x => by
    obtain ⟨s', r⟩ := x
    cases r with
    | ok u => exact addPolyM_mono h ts s'
    | error e => exact .refl _)

theorem subPolyM_mono (h : E.Le E') : ∀ (ts : List (Int × Nat)) (s : S), Ref (subPolyM E ts s) (subPolyM E' ts s)
  | [], _ => .refl _
  | (c, d) :: ts, s => (MonoMutPoly.sub h s c d).bind (fun x => by
    obtain ⟨s', r⟩ := x
    cases r with
    | ok u => exact subPolyM_mono h ts s'
    | error e => exact .refl _)

theorem mulPolyVecInnerM_mono (h : E.Le E') (rc : Int) (rd : Nat) : ∀ (ts : List (Int × Nat)) (s : S),
    Ref (mulPolyVecInnerM E rc rd ts s) (mulPolyVecInnerM E' rc rd ts s)
  | [], _ => .refl _
  | (c, d) :: ts, s => (h.ar.mul _ _).bind (fun c' => (h.uadd _ _).bind (fun d' => (MonoMutPoly.add h s c' d').bind (fun x => by
    obtain ⟨s', r⟩ := x
    cases r with
    | ok u => exact mulPolyVecInnerM_mono h rc rd ts s'
    | error e => exact .refl _)))

theorem mulPolyVecM_mono (h : E.Le E') : ∀ (rhs lhs : List (Int × Nat)) (s : S),
    Ref (mulPolyVecM E rhs lhs s) (mulPolyVecM E' rhs lhs s)
  | [], _, _ => .refl _
  | (c, d) :: rhs, lhs, s => (mulPolyVecInnerM_mono h c d lhs s).bind (fun x => by
    obtain ⟨s', r⟩ := x
    cases r with
    | ok u => exact mulPolyVecM_mono h rhs lhs s'
    | error e => exact .refl _)

theorem polyAddSinkM_mono (h : E.Le E') (xs : List (List (Int × Nat))) (s : S) :
    Ref (polyAddSinkM E xs s) (polyAddSinkM E' xs s) := by
  unfold polyAddSinkM
  refine Ref.bind (Ref.foldlM (fun st x => ?_) xs _) (fun _ => .refl _)
  exact (addPolyM_mono h x st.1).bind (fun _ => .refl _)

theorem polySubSinkM_mono (h : E.Le E') (xs : List (List (Int × Nat))) (s : S) :
    Ref (polySubSinkM E xs s) (polySubSinkM E' xs s) := by
  unfold polySubSinkM
  refine Ref.bind (Ref.foldlM (fun st x => ?_) xs _) (fun _ => .refl _)
  exact (subPolyM_mono h x st.1).bind (fun _ => .refl _)

theorem fromStrLoopM_mono (h : E.Le E') (parse : List Char → Option Int) (str : List Char) : ∀ (f : Nat) (tok : Tokenizer)
    (s : S) (b : Bool), Ref (fromStrLoopM E parse str f tok s b) (fromStrLoopM E' parse str f tok s b)
  | 0, _, _, _ => .refl _
  | f + 1, tok, s, b => by
    unfold fromStrLoopM
    rw [h.bits]
    split
    · exact .refl _
    · refine (Ref.refl _).bind (fun sub => ?_)
      split
      · exact .refl _
      · exact fromStrLoopM_mono h parse str f _ s true
      · refine (MonoMutPoly.add h s _ _).bind (fun x => ?_)
        obtain ⟨s', r⟩ := x
        cases r with
        | error e => exact .refl _
        | ok u => exact fromStrLoopM_mono h parse str f _ s' true

theorem polyFromStrM_mono (h : E.Le E') (zero : S) (parse : List Char → Option Int) (str : List Char) :
    Ref (polyFromStrM E zero parse str) (polyFromStrM E' zero parse str) := fromStrLoopM_mono h parse str _ _ _ _

end

end Rustnomial
