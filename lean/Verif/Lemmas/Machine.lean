import Verif.Model.Machine
import Verif.Props.Checked
import Verif.Props.SparseDiv
import Verif.Props.Exact
import Verif.Props.Fixed

/-!
# Lemmas about machine arithmetic: a computation in less arithmetic panics or does the same
-/

open Polynomial

namespace Rustnomial

/-- `a` panics, or does what `b` does. -/
def Ref {α : Type} (a b : Res α) : Prop := a = .panic ∨ a = b

namespace Ref
variable {α β : Type}

theorem refl (a : Res α) : Ref a a := .inr rfl

theorem panic (b : Res α) : Ref .panic b := .inl rfl

theorem bind {a b : Res α} {f g : α → Res β} (h : Ref a b) (hf : ∀ x, Ref (f x) (g x)) :
    Ref (a >>= f) (b >>= g) := by
  rcases h with rfl | rfl
  · exact .inl rfl
  · cases a with
    | ok x => exact hf x
    | panic => exact .inl rfl
    | fuel => exact .inr rfl

theorem foldlM {f g : β → α → Res β} (h : ∀ b a, Ref (f b a) (g b a)) :
    ∀ (l : List α) (b : β), Ref (l.foldlM f b) (l.foldlM g b)
  | [], b => refl _
  | a :: l, b => by
    rw [List.foldlM_cons, List.foldlM_cons]
    exact (h b a).bind (fun b' => foldlM h l b')

theorem mapM {f g : α → Res β} (h : ∀ a, Ref (f a) (g a)) : ∀ l : List α, Ref (l.mapM f) (l.mapM g)
  | [] => refl _
  | a :: l => by
    rw [List.mapM_cons, List.mapM_cons]
    exact (h a).bind (fun b => (mapM h l).bind (fun bs => refl _))

theorem zipMutM {f g : α → β → Res α} (h : ∀ a b, Ref (f a b) (g a b)) :
    ∀ (l : List α) (m : List β), Ref (zipMutM f l m) (zipMutM g l m)
  | [], m => by cases m <;> exact refl _
  | a :: l, [] => refl _
  | a :: l, b :: m => (h a b).bind (fun z => (zipMutM h l m).bind (fun zs => refl _))

theorem upsertM (m : BMap Int) (k : Nat) {v w : Res Int} {f g : Int → Res Int} (hv : Ref v w)
    (hf : ∀ x, Ref (f x) (g x)) : Ref (m.upsertM k v f) (m.upsertM k w g) := by
  unfold BMap.upsertM
  cases m.get k with
  | none => exact hv.bind (fun x => refl _)
  | some val => exact (hf val).bind (fun x => refl _)

end Ref

/-- Every operation of `A` panics or does what the one of `B` does. -/
structure Arith.Le (A B : Arith) : Prop where
  add : ∀ a b, Ref (A.add a b) (B.add a b)
  sub : ∀ a b, Ref (A.sub a b) (B.sub a b)
  mul : ∀ a b, Ref (A.mul a b) (B.mul a b)
  neg : ∀ a, Ref (A.neg a) (B.neg a)

/-- The same with `/` and `upow`. -/
structure Arith2.Le (A B : Arith2) : Prop extends Arith.Le A.toArith B.toArith where
  div : ∀ a b, Ref (A.div a b) (B.div a b)
  upow : ∀ a b, Ref (A.upow a b) (B.upow a b)

theorem ref_checked (t : IntTy) (v : Int) : Ref (t.checked v) (.ok v) := by
  unfold IntTy.checked Ref; split <;> simp

theorem ref_result (t : IntTy) (v : Int) : Ref (t.result true v) (.ok v) := by
  simpa [IntTy.result] using ref_checked t v

theorem machine_le_exact (t : IntTy) : Arith2.Le (.machine true t) .exact where
  add a b := ref_result t _
  sub a b := ref_result t _
  mul a b := ref_result t _
  neg a := ref_result t _
  div a b := by
    simp only [Arith2.machine, Arith2.exact]
    split
    · exact .refl _
    · exact ref_checked t _
  upow a b := ref_result t _

section Mono
variable {A B : Arith}

/-- One step of a monotonicity proof. -/
macro "mono1" h:ident : tactic => `(tactic| first
  | exact Ref.refl _
  | exact ($h).add _ _
  | exact ($h).sub _ _
  | exact ($h).mul _ _
  | exact ($h).neg _
  | refine Ref.bind ?_ (fun _ => ?_)
  | refine Ref.foldlM (fun _ _ => ?_) _ _
  | refine Ref.mapM (fun _ => ?_) _
  | refine Ref.zipMutM (fun _ _ => ?_) _ _
  | refine Ref.upsertM _ _ ?_ (fun _ => ?_)
  | split)

theorem mapMulInnerM_mono (h : A.Le B) (d : Nat) (r : Int) (lhs : List (Nat × Int)) (terms : BMap Int) :
    Ref (mapMulInnerM A d r lhs terms) (mapMulInnerM B d r lhs terms) := by
  unfold mapMulInnerM mapMulStepM
  repeat mono1 h

theorem mapMulM_mono (h : A.Le B) (l r : BMap Int) : Ref (mapMulM A l r) (mapMulM B l r) := by
  unfold mapMulM
  refine Ref.foldlM (fun terms e => ?_) _ _
  split
  · exact Ref.refl _
  · exact mapMulInnerM_mono h _ _ _ _

theorem mapSubWScaleM_mono (h : A.Le B) (l r : BMap Int) (s : Int) :
    Ref (mapSubWScaleM A l r s) (mapSubWScaleM B l r s) := by
  unfold mapSubWScaleM
  repeat mono1 h

namespace Sparse

theorem addTermM_mono (h : A.Le B) (p : Sparse Int) (c : Int) (d : Nat) :
    Ref (p.addTermM A c d) (p.addTermM B c d) := by
  unfold addTermM
  repeat mono1 h

theorem derivativeM_mono (h : A.Le B) (fu : Nat → Option Int) (p : Sparse Int) :
    Ref (p.derivativeM A fu) (p.derivativeM B fu) := by
  unfold derivativeM
  repeat mono1 h

theorem mulM_mono (h : A.Le B) (p q : Sparse Int) : Ref (p.mulM A q) (p.mulM B q) :=
  (mapMulM_mono h _ _).bind (fun _ => .refl _)

theorem powM_mono (h : A.Le B) (p : Sparse Int) (n : Nat) : Ref (p.powM A n) (p.powM B n) := by
  induction n using Nat.strong_induction_on generalizing p with
  | _ n ih =>
    rw [powM.eq_def A p n, powM.eq_def B p n]
    split
    · exact .refl _
    · split
      · exact .refl _
      · split
        · exact mulM_mono h _ _
        · split
          · exact (ih (n / 2) (by omega) p).bind (fun x => ih 2 (by omega) x)
          · exact (ih (n - 1) (by omega) p).bind (fun x => mulM_mono h _ _)

theorem negM_mono (h : A.Le B) (p : Sparse Int) : Ref (p.negM A) (p.negM B) := by
  unfold negM
  repeat mono1 h

theorem subM_mono (h : A.Le B) (p q : Sparse Int) : Ref (p.subM A q) (p.subM B q) := by
  unfold subM
  repeat mono1 h

theorem subDenseM_mono (h : A.Le B) (p : Sparse Int) (q : Poly Int) : Ref (p.subDenseM A q) (p.subDenseM B q) := by
  unfold subDenseM
  repeat mono1 h

theorem addM_mono (h : A.Le B) (p q : Sparse Int) : Ref (p.addM A q) (p.addM B q) := by
  unfold addM
  repeat mono1 h

theorem addAssignM_mono (h : A.Le B) (p q : Sparse Int) : Ref (p.addAssignM A q) (p.addAssignM B q) := by
  unfold addAssignM
  repeat mono1 h

theorem mulScalarM_mono (h : A.Le B) (p : Sparse Int) (c : Int) : Ref (p.mulScalarM A c) (p.mulScalarM B c) := by
  unfold mulScalarM
  repeat mono1 h

theorem mulAssignScalarM_mono (h : A.Le B) (p : Sparse Int) (c : Int) :
    Ref (p.mulAssignScalarM A c) (p.mulAssignScalarM B c) := by
  unfold mulAssignScalarM
  repeat mono1 h

end Sparse

theorem vecSubWScaleM_mono (h : A.Le B) (l : List Int) (ld : Nat) (r : List Int) (rd : Nat) (s : Int) :
    Ref (vecSubWScaleM A l ld r rd s) (vecSubWScaleM B l ld r rd s) := by
  unfold vecSubWScaleM
  repeat mono1 h

theorem sliceMulLoopM_mono (h : A.Le B) (lhs : List Int) : ∀ (rest : List Int) (i : Nat) (terms : List Int),
    Ref (sliceMulLoopM A lhs rest i terms) (sliceMulLoopM B lhs rest i terms)
  | [], _, _ => .refl _
  | r :: rest, i, terms => by
    unfold sliceMulLoopM
    refine Ref.bind ?_ (fun x => sliceMulLoopM_mono h lhs rest _ x)
    unfold sliceMulStepM
    repeat mono1 h

theorem sliceMulM_mono (h : A.Le B) (l r : List Int) : Ref (sliceMulM A l r) (sliceMulM B l r) := by
  unfold sliceMulM
  refine (Ref.refl _).bind fun _ => (Ref.refl _).bind fun _ => (Ref.refl _).bind fun _ => ?_
  exact sliceMulLoopM_mono h _ _ _ _

namespace Poly

theorem mulRefM_mono (h : A.Le B) (p q : Poly Int) : Ref (p.mulRefM A q) (p.mulRefM B q) :=
  (sliceMulM_mono h _ _).bind (fun _ => .refl _)

theorem powM_mono (h : A.Le B) (p : Poly Int) (n : Nat) : Ref (p.powM A n) (p.powM B n) := by
  induction n using Nat.strong_induction_on generalizing p with
  | _ n ih =>
    rw [powM.eq_def A p n, powM.eq_def B p n]
    split
    · exact .refl _
    · split
      · exact .refl _
      · split
        · exact mulRefM_mono h _ _
        · split
          · exact (ih (n / 2) (by omega) p).bind (fun x => ih 2 (by omega) x)
          · exact (ih (n - 1) (by omega) p).bind (fun x => mulRefM_mono h _ _)

end Poly
end Mono

section Mono2
variable {A B : Arith2}

/-- One step of a monotonicity proof, with division and powers. -/
macro "mono2" h:ident : tactic => `(tactic| first
  | exact ($h).div _ _
  | exact ($h).upow _ _
  | mono1 $h)

namespace Sparse

theorem evalM_mono (h : A.Le B) (p : Sparse Int) (x : Int) : Ref (p.evalM A x) (p.evalM B x) := by
  unfold evalM
  repeat mono2 h

theorem integralM_mono (h : A.Le B) (fu : Nat → Option Int) (p : Sparse Int) :
    Ref (p.integralM A fu) (p.integralM B fu) := by
  unfold integralM
  repeat mono2 h

theorem divModLoopM_mono (h : A.Le B) (rhs : BMap Int) (rf : Int) (rd off : Nat) : ∀ (fuel : Nat) (s : Int) (d : Nat)
    (r : BMap Int) (q : Sparse Int),
    Ref (divModLoopM A rhs rf rd off fuel s d r q) (divModLoopM B rhs rf rd off fuel s d r q)
  | 0, _, _, _, _ => .refl _
  | fuel + 1, s, d, r, q => by
    unfold divModLoopM
    split
    · refine (mapSubWScaleM_mono h.toLe _ _ _).bind fun r' => (addTermM_mono h.toLe _ _ _).bind fun q' => ?_
      cases sparseFirstTerm r' with
      | zeroTerm => exact .refl _
      | term c d => exact (h.div _ _).bind fun s' => divModLoopM_mono h rhs rf rd off fuel _ _ _ _
    · exact .refl _

theorem divModM_mono (h : A.Le B) (fuel : Nat) (p b : Sparse Int) : Ref (divModM A fuel p b) (divModM B fuel p b) := by
  unfold divModM
  cases sparseFirstTerm b.terms with
  | zeroTerm => exact .refl _
  | term rf rd =>
    cases sparseFirstTerm p.terms with
    | zeroTerm => exact .refl _
    | term c d =>
      dsimp only
      split
      · exact .refl _
      · exact (h.div _ _).bind fun s => (divModLoopM_mono h _ _ _ _ _ _ _ _ _).bind fun _ => .refl _

theorem remLoopM_mono (h : A.Le B) (rhs : BMap Int) (rf : Int) (rd : Nat) : ∀ (fuel : Nat) (s : Int) (d : Nat)
    (r : BMap Int), Ref (remLoopM A rhs rf rd fuel s d r) (remLoopM B rhs rf rd fuel s d r)
  | 0, _, _, _ => .refl _
  | fuel + 1, s, d, r => by
    unfold remLoopM
    split
    · refine (mapSubWScaleM_mono h.toLe _ _ _).bind fun r' => ?_
      cases sparseFirstTerm r' with
      | zeroTerm => exact .refl _
      | term c d => exact (h.div _ _).bind fun s' => remLoopM_mono h rhs rf rd fuel _ _ _
    · exact .refl _

theorem remM_mono (h : A.Le B) (fuel : Nat) (p b : Sparse Int) : Ref (remM A fuel p b) (remM B fuel p b) := by
  unfold remM
  cases sparseFirstTerm b.terms with
  | zeroTerm => exact .refl _
  | term rf rd =>
    cases sparseFirstTerm p.terms with
    | zeroTerm => exact .refl _
    | term c d =>
      dsimp only
      split
      · exact .refl _
      · exact (h.div _ _).bind fun s => (remLoopM_mono h _ _ _ _ _ _ _).bind fun _ => .refl _

theorem divScalarM_mono (h : A.Le B) (p : Sparse Int) (c : Int) : Ref (p.divScalarM A c) (p.divScalarM B c) := by
  unfold divScalarM
  repeat mono2 h

theorem divAssignScalarM_mono (h : A.Le B) (p : Sparse Int) (c : Int) :
    Ref (p.divAssignScalarM A c) (p.divAssignScalarM B c) := by
  unfold divAssignScalarM
  repeat mono2 h

end Sparse

namespace Poly

theorem integLoopM_mono (h : A.Le B) : ∀ (l : List Int) (d : Int), Ref (integLoopM A l d) (integLoopM B l d)
  | [], _ => .refl _
  | _ :: l, _ => (h.div _ _).bind fun _ => (h.sub _ _).bind fun d' => (integLoopM_mono h l d').bind fun _ => .refl _

theorem integralM_mono (h : A.Le B) (fu : Nat → Option Int) (p : Poly Int) :
    Ref (p.integralM A fu) (p.integralM B fu) := by
  unfold integralM
  dsimp only
  split
  · exact .refl _
  · exact (integLoopM_mono h _ _).bind fun _ => .refl _

theorem divModLoopM_mono (h : A.Le B) (rhs : List Int) (rf : Int) (rd off : Nat) : ∀ (fuel : Nat) (c : Int) (d : Nat)
    (r q : List Int),
    Ref (divModLoopM A rhs rf rd off fuel c d r q) (divModLoopM B rhs rf rd off fuel c d r q)
  | 0, _, _, _, _ => .refl _
  | fuel + 1, c, d, r, q => by
    unfold divModLoopM
    split
    · refine (h.div _ _).bind fun s => (vecSubWScaleM_mono h.toLe _ _ _ _ _).bind fun r' =>
        (Ref.refl _).bind fun i => ?_
      split
      · cases firstTerm r' with
        | zeroTerm => exact .refl _
        | term c d => exact divModLoopM_mono h rhs rf rd off fuel _ _ _ _
      · exact .refl _
    · exact .refl _

theorem divModM_mono (h : A.Le B) (fuel : Nat) (p b : Poly Int) : Ref (divModM A fuel p b) (divModM B fuel p b) := by
  unfold divModM
  cases firstTerm b.terms with
  | zeroTerm => exact .refl _
  | term rf rd =>
    cases firstTerm p.terms with
    | zeroTerm => exact .refl _
    | term c d =>
      dsimp only
      split
      · exact .refl _
      · exact (divModLoopM_mono h _ _ _ _ _ _ _ _ _).bind fun _ => .refl _

theorem floorDivM_mono (h : A.Le B) (fuel : Nat) (p b : Poly Int) :
    Ref (floorDivM A fuel p b) (floorDivM B fuel p b) :=
  (divModM_mono h fuel p b).bind fun _ => .refl _

theorem remLoopM_mono (h : A.Le B) (st rhs : List Int) (rf : Int) (rd : Nat) : ∀ (fuel : Nat) (s : Int) (d : Nat)
    (r : List Int), Ref (remLoopM A st rhs rf rd fuel s d r) (remLoopM B st rhs rf rd fuel s d r)
  | 0, _, _, _ => .refl _
  | fuel + 1, s, d, r => by
    unfold remLoopM
    split
    · refine (vecSubWScaleM_mono h.toLe _ _ _ _ _).bind fun r' => ?_
      cases firstTerm st with
      | zeroTerm => exact .refl _
      | term c d => exact (h.div _ _).bind fun s' => remLoopM_mono h st rhs rf rd fuel _ _ _
    · exact .refl _

theorem remM_mono (h : A.Le B) (fuel : Nat) (p b : Poly Int) : Ref (remM A fuel p b) (remM B fuel p b) := by
  unfold remM
  cases firstTerm b.terms with
  | zeroTerm => exact .refl _
  | term rf rd =>
    cases firstTerm p.terms with
    | zeroTerm => exact .refl _
    | term c d =>
      dsimp only
      split
      · exact .refl _
      · exact (h.div _ _).bind fun s => (remLoopM_mono h _ _ _ _ _ _ _ _).bind fun _ => .refl _

theorem remAssignLoopM_mono (h : A.Le B) (rhs : List Int) (rf : Int) (rd : Nat) : ∀ (fuel : Nat) (s : Int) (d : Nat)
    (r : List Int), Ref (remAssignLoopM A rhs rf rd fuel s d r) (remAssignLoopM B rhs rf rd fuel s d r)
  | 0, _, _, _ => .refl _
  | fuel + 1, s, d, r => by
    unfold remAssignLoopM
    split
    · refine (vecSubWScaleM_mono h.toLe _ _ _ _ _).bind fun r' => ?_
      cases firstTerm r' with
      | zeroTerm => exact .refl _
      | term c d => exact (h.div _ _).bind fun s' => remAssignLoopM_mono h rhs rf rd fuel _ _ _
    · exact .refl _

theorem remAssignM_mono (h : A.Le B) (fuel : Nat) (p b : Poly Int) :
    Ref (remAssignM A fuel p b) (remAssignM B fuel p b) := by
  unfold remAssignM
  cases firstTerm b.terms with
  | zeroTerm => exact .refl _
  | term rf rd =>
    cases firstTerm p.terms with
    | zeroTerm => exact .refl _
    | term c d =>
      dsimp only
      split
      · exact .refl _
      · exact (h.div _ _).bind fun s => (remAssignLoopM_mono h _ _ _ _ _ _ _).bind fun _ => .refl _

theorem divScalarM_mono (h : A.Le B) (p : Poly Int) (c : Int) : Ref (p.divScalarM A c) (p.divScalarM B c) := by
  unfold divScalarM
  repeat mono2 h

theorem divAssignScalarM_mono (h : A.Le B) (p : Poly Int) (c : Int) :
    Ref (p.divAssignScalarM A c) (p.divAssignScalarM B c) := by
  unfold divAssignScalarM
  repeat mono2 h

end Poly
end Mono2

/-! ## With exact arithmetic the functions are those of the ideal model -/

section Exact

theorem upsertM_ok (m : BMap Int) (k : Nat) (v : Int) (f : Int → Int) {g : Int → Res Int} (h : ∀ x, g x = .ok (f x)) :
    m.upsertM k (.ok v) g = .ok (m.upsert k v f) := by
  unfold BMap.upsertM BMap.upsert
  cases m.get k with
  | none => rfl
  | some val => simp [h]

theorem mapMulM_exact (l r : BMap Int) : mapMulM .exact l r = .ok (mapMul l r) := by
  unfold mapMulM mapMul
  refine foldlM_ok _ _ _ (fun e _ m => ?_) _
  by_cases he : e.2 = 0
  · simp [he]
  · rw [if_neg he, if_neg (by simpa using he)]
    refine foldlM_ok _ _ _ (fun e' _ m => ?_) _
    exact upsertM_ok _ _ _ _ (fun x => rfl)

theorem mapSubWScaleM_exact (l r : BMap Int) (s : Int) : mapSubWScaleM .exact l r s = .ok (mapSubWScale l r s) := by
  unfold mapSubWScaleM mapSubWScale
  exact foldlM_ok _ _ _ (fun e _ m => upsertM_ok _ _ _ _ (fun x => rfl)) _

theorem vecSubWScaleM_exact (l : List Int) (ld : Nat) (r : List Int) (rd : Nat) (s : Int) :
    vecSubWScaleM .exact l ld r rd s = vecSubWScale l ld r rd s := by
  unfold vecSubWScaleM vecSubWScale
  congr 1; funext l1; congr 1; funext loc; congr 1; funext tail; congr 1; funext r1; congr 1; funext r2
  congr 1; funext rtail
  have := (chk_zipMutM (f := fun l r => Arith.exact.mul r s >>= fun x => Arith.exact.sub l x)
    (g := fun l r => l - r * s) (P := fun _ _ => True) (fun x y => Chk.ok _) tail rtail).1 (by simp)
  rw [this]; rfl

theorem exact2_div (a b : Int) : Arith2.exact.div a b = rdiv a b := rfl

namespace Sparse

theorem addTermM_exact (p : Sparse Int) (c : Int) (d : Nat) : p.addTermM .exact c d = .ok (p.addTerm c d) := by
  unfold addTermM addTerm
  by_cases hc : c = 0
  · simp [hc]
  · rw [if_neg hc, if_neg (by simpa using hc),
      upsertM_ok (g := fun val => Arith.exact.add val c) _ _ _ (· + c) (fun x => rfl)]; rfl

theorem mulM_exact (p q : Sparse Int) : p.mulM .exact q = .ok (p.mul q) := by
  unfold mulM; rw [mapMulM_exact]; rfl

theorem powM_exact (p : Sparse Int) (n : Nat) : p.powM .exact n = .ok (p.pow n) := by
  induction n using Nat.strong_induction_on generalizing p with
  | _ n ih =>
    rw [powM.eq_def, pow.eq_def p n]
    split
    · rfl
    · split
      · rfl
      · split
        · exact mulM_exact p p
        · split
          · rw [ih (n / 2) (by omega) p, Res.ok_bind, ih 2 (by omega)]
          · rw [ih (n - 1) (by omega) p, Res.ok_bind, mulM_exact]

theorem evalM_exact (p : Sparse Int) (x : Int) : p.evalM .exact x = .ok (p.eval x) := by
  unfold evalM eval
  exact foldlM_ok _ _ _ (fun e _ m => rfl) _

theorem derivativeM_exact (p : Sparse Int) : p.derivativeM .exact (fun n => some n) = p.derivative := by
  unfold derivativeM derivative
  congr 1
  congr 1
  funext m e
  by_cases h : e.2 ≠ 0 ∧ e.1 ≠ 0
  · rw [if_pos h, if_pos (by simpa using h)]; rfl
  · rw [if_neg h, if_neg (by simpa using h)]

theorem integralM_exact (p : Sparse Int) : p.integralM .exact (fun n => some n) = p.integral := rfl

theorem negM_exact (p : Sparse Int) : p.negM .exact = .ok p.neg := by
  unfold negM neg
  exact congrArg (· >>= fun terms => Res.ok (new terms))
    (foldlM_ok p.terms.entries _ (fun (terms : BMap Int) (e : Nat × Int) => terms.insert e.1 (-e.2)) (fun e _ m => rfl) _)

theorem subM_exact (p q : Sparse Int) : p.subM .exact q = .ok (p.sub q) := by
  unfold subM sub
  rw [foldlM_ok _ _ (fun m e => m.upsert e.1 (-e.2) (· - e.2)) (fun e _ m => upsertM_ok _ _ _ _ (fun x => rfl))]; rfl

theorem subDenseM_exact (p : Sparse Int) (q : Poly Int) : p.subDenseM .exact q = .ok (p.subDense q) := by
  unfold subDenseM subDense
  rw [foldlM_ok _ _ (fun m e => m.upsert e.2 (-e.1) (· - e.1)) (fun e _ m => upsertM_ok _ _ _ _ (fun x => rfl))]; rfl

theorem addM_exact (p q : Sparse Int) : p.addM .exact q = .ok (p.add q) := by
  unfold addM add
  dsimp only
  rw [foldlM_ok _ _ (fun m e => m.upsert e.1 e.2 (· + e.2)) (fun e _ m => upsertM_ok _ _ _ _ (fun x => rfl))]; rfl

theorem addAssignM_exact (p q : Sparse Int) : p.addAssignM .exact q = .ok (p.addAssign q) := by
  unfold addAssignM addAssign
  rw [foldlM_ok _ _ (fun m e => m.upsert e.1 e.2 (· + e.2)) (fun e _ m => upsertM_ok _ _ _ _ (fun x => rfl))]; rfl

theorem mulScalarM_exact (p : Sparse Int) (c : Int) : p.mulScalarM .exact c = .ok (p.mulScalar c) := by
  unfold mulScalarM mulScalar
  exact congrArg (· >>= fun terms => Res.ok (new terms))
    (foldlM_ok p.terms.entries _ (fun (terms : BMap Int) (e : Nat × Int) => terms.insert e.1 (e.2 * c)) (fun e _ m => rfl) _)

theorem divModLoopM_exact (rhs : BMap Int) (rf : Int) (rd off : Nat) : ∀ (fuel : Nat) (s : Int) (d : Nat)
    (r : BMap Int) (q : Sparse Int),
    divModLoopM .exact rhs rf rd off fuel s d r q = divModLoop rhs rf rd off fuel s d r q
  | 0, _, _, _, _ => rfl
  | fuel + 1, s, d, r, q => by
    unfold divModLoopM divModLoop
    split
    · show (mapSubWScaleM .exact r rhs s >>= fun r' => q.addTermM .exact s off >>= fun q' => _) = _
      rw [mapSubWScaleM_exact, Res.ok_bind, addTermM_exact, Res.ok_bind]
      dsimp only
      cases sparseFirstTerm (mapSubWScale r rhs s) with
      | zeroTerm => rfl
      | term c d =>
        simp only [divModLoopM_exact rhs rf rd off fuel, exact2_div]
    · rfl

theorem divModM_exact (fuel : Nat) (p b : Sparse Int) : p.divModM .exact fuel b = p.divMod fuel b := by
  unfold divModM divMod
  simp only [divModLoopM_exact, exact2_div]
  cases sparseFirstTerm b.terms with
  | zeroTerm => rfl
  | term rf rd => cases sparseFirstTerm p.terms <;> rfl

theorem remLoopM_exact (rhs : BMap Int) (rf : Int) (rd : Nat) : ∀ (fuel : Nat) (s : Int) (d : Nat)
    (r : BMap Int), remLoopM .exact rhs rf rd fuel s d r = remLoop rhs rf rd fuel s d r
  | 0, _, _, _ => rfl
  | fuel + 1, s, d, r => by
    unfold remLoopM remLoop
    split
    · show (mapSubWScaleM .exact r rhs s >>= fun r' => _) = _
      rw [mapSubWScaleM_exact, Res.ok_bind]
      dsimp only
      cases sparseFirstTerm (mapSubWScale r rhs s) with
      | zeroTerm => rfl
      | term c d =>
        simp only [remLoopM_exact rhs rf rd fuel, exact2_div]
    · rfl

theorem remM_exact (fuel : Nat) (p b : Sparse Int) : p.remM .exact fuel b = p.rem fuel b := by
  unfold remM rem
  simp only [remLoopM_exact, exact2_div]
  cases sparseFirstTerm b.terms with
  | zeroTerm => rfl
  | term rf rd => cases sparseFirstTerm p.terms <;> rfl

end Sparse

namespace Poly

theorem mulRefM_exact (p q : Poly Int) : p.mulRefM .exact q = p.mulRef q := (C56_exact p q 0 0).2.2.2.2.2.2.2.2.1

theorem powM_exact (p : Poly Int) (n : Nat) : p.powM .exact n = p.pow n := by
  induction n using Nat.strong_induction_on generalizing p with
  | _ n ih =>
    rw [powM.eq_def, pow.eq_def p n]
    split
    · rfl
    · split
      · rfl
      · split
        · exact mulRefM_exact p p
        · split
          · rw [ih (n / 2) (by omega) p]
            congr 1; funext h; exact ih 2 (by omega) h
          · rw [ih (n - 1) (by omega) p]
            congr 1; funext h; exact mulRefM_exact p h

theorem integLoopM_exact : ∀ (l : List Int) (d : Int), integLoopM .exact l d = integLoop l d
  | [], _ => rfl
  | x :: l, d => by
    unfold integLoopM integLoop
    rw [exact2_div]
    congr 1; funext t
    show (Res.ok (d - 1) >>= fun d' => integLoopM .exact l d' >>= _) = _
    rw [Res.ok_bind, integLoopM_exact l]

theorem integralM_exact (p : Poly Int) : p.integralM .exact (fun n => some n) = p.integral := by
  unfold integralM integral
  dsimp only
  rw [integLoopM_exact]; rfl

theorem divModLoopM_exact (rhs : List Int) (rf : Int) (rd off : Nat) : ∀ (fuel : Nat) (c : Int) (d : Nat)
    (r q : List Int), divModLoopM .exact rhs rf rd off fuel c d r q = divModLoop rhs rf rd off fuel c d r q
  | 0, _, _, _, _ => rfl
  | fuel + 1, c, d, r, q => by
    unfold divModLoopM divModLoop
    split
    · rw [exact2_div]
      congr 1; funext s
      show (vecSubWScaleM .exact r d rhs rd s >>= _) = _
      rw [vecSubWScaleM_exact]
      congr 1; funext r'; congr 1; funext i
      split
      · dsimp only
        cases firstTerm r' with
        | zeroTerm => rfl
        | term c d => exact divModLoopM_exact rhs rf rd off fuel _ _ _ _
      · rfl
    · rfl

theorem divModM_exact (fuel : Nat) (p b : Poly Int) : p.divModM .exact fuel b = p.divMod fuel b := by
  unfold divModM divMod
  simp only [divModLoopM_exact]
  cases firstTerm b.terms with
  | zeroTerm => rfl
  | term rf rd => cases firstTerm p.terms <;> rfl

theorem floorDivM_exact (fuel : Nat) (p b : Poly Int) : p.floorDivM .exact fuel b = p.floorDiv fuel b := by
  unfold floorDivM floorDiv
  rw [divModM_exact]

theorem remLoopM_exact (st rhs : List Int) (rf : Int) (rd : Nat) : ∀ (fuel : Nat) (s : Int) (d : Nat)
    (r : List Int), remLoopM .exact st rhs rf rd fuel s d r = remLoop st rhs rf rd fuel s d r
  | 0, _, _, _ => rfl
  | fuel + 1, s, d, r => by
    unfold remLoopM remLoop
    split
    · show (vecSubWScaleM .exact r d rhs rd s >>= _) = _
      rw [vecSubWScaleM_exact]
      congr 1; funext r'
      cases firstTerm st with
      | zeroTerm => rfl
      | term c d => simp only [remLoopM_exact st rhs rf rd fuel, exact2_div]
    · rfl

theorem remM_exact (fuel : Nat) (p b : Poly Int) : p.remM .exact fuel b = p.rem fuel b := by
  unfold remM rem
  simp only [remLoopM_exact, exact2_div]
  cases firstTerm b.terms with
  | zeroTerm => rfl
  | term rf rd => cases firstTerm p.terms <;> rfl

theorem remAssignLoopM_exact (rhs : List Int) (rf : Int) (rd : Nat) : ∀ (fuel : Nat) (s : Int) (d : Nat)
    (r : List Int), remAssignLoopM .exact rhs rf rd fuel s d r = remAssignLoop rhs rf rd fuel s d r
  | 0, _, _, _ => rfl
  | fuel + 1, s, d, r => by
    unfold remAssignLoopM remAssignLoop
    split
    · show (vecSubWScaleM .exact r d rhs rd s >>= _) = _
      rw [vecSubWScaleM_exact]
      congr 1; funext r'
      cases firstTerm r' with
      | zeroTerm => rfl
      | term c d => simp only [remAssignLoopM_exact rhs rf rd fuel, exact2_div]
    · rfl

theorem remAssignM_exact (fuel : Nat) (p b : Poly Int) : p.remAssignM .exact fuel b = p.remAssign fuel b := by
  unfold remAssignM remAssign
  simp only [remAssignLoopM_exact, exact2_div]
  cases firstTerm b.terms with
  | zeroTerm => rfl
  | term rf rd => cases firstTerm p.terms <;> rfl

end Poly
end Exact

/-! ## Exactly when a loop over the entries of a map panics -/

theorem chk_foldlM {α β : Type} {f : β → α → Res β} {g : β → α → β} : ∀ (l : List α) (P : List α → α → Prop) (b : β),
    (∀ l1 a l2, l = l1 ++ a :: l2 → Chk (P l1 a) (f (l1.foldl g b) a) (g (l1.foldl g b) a)) →
    Chk (∀ l1 a l2, l = l1 ++ a :: l2 → P l1 a) (l.foldlM f b) (l.foldl g b)
  | [], P, b, _ => (Chk.ok _).of_iff (by simp)
  | a :: l, P, b, h => by
    rw [List.foldlM_cons, List.foldl_cons]
    have h0 := h [] a l rfl
    have ht := chk_foldlM l (fun l1 => P (a :: l1)) (g b a) (fun l1 a' l2 e => h (a :: l1) a' l2 (by rw [e]; rfl))
    refine (h0.bind (fun _ => ht)).of_iff ?_
    constructor
    · rintro ⟨h1, h2⟩ l1 a' l2 e
      cases l1 with
      | nil => obtain ⟨rfl, rfl⟩ := List.cons.inj e; exact h1
      | cons x l1 => obtain ⟨rfl, e'⟩ := List.cons.inj e; exact h2 l1 a' l2 e'
    · exact fun H => ⟨H [] a l rfl, fun l1 a' l2 e => H (a :: l1) a' l2 (by rw [e]; rfl)⟩

/-- The same when the condition on an element does not depend on what came before. -/
theorem chk_foldlM' {α β : Type} {f : β → α → Res β} {g : β → α → β} (l : List α) (P : α → Prop) (b : β)
    (h : ∀ l1 a l2, l = l1 ++ a :: l2 → Chk (P a) (f (l1.foldl g b) a) (g (l1.foldl g b) a)) :
    Chk (∀ a ∈ l, P a) (l.foldlM f b) (l.foldl g b) := by
  refine (chk_foldlM l (fun _ => P) b h).of_iff ⟨fun H a ha => ?_, fun H l1 a l2 e => H a (by simp [e])⟩
  obtain ⟨l1, l2, e⟩ := List.append_of_mem ha
  exact H l1 a l2 e

theorem chk_upsertM {m : BMap Int} {k : Nat} {v : Res Int} {w : Int} {f : Int → Res Int} {g : Int → Int} {Pv : Prop}
    {Pf : Int → Prop} (hv : Chk Pv v w) (hf : ∀ x, Chk (Pf x) (f x) (g x)) :
    Chk ((m.get k).elim Pv Pf) (m.upsertM k v f) (m.upsert k w g) := by
  unfold BMap.upsertM BMap.upsert
  cases m.get k with
  | none => exact hv.map (fun v => m.insert k v)
  | some val => exact (hf val).map (fun v => m.insert k v)

theorem get_foldl_other {α : Type} (key : α → Nat) (step : BMap Int → α → BMap Int)
    (h : ∀ m a j, j ≠ key a → (step m a).get j = m.get j) : ∀ (l : List α) (m : BMap Int) (j : Nat),
    j ∉ l.map key → (l.foldl step m).get j = m.get j
  | [], _, _, _ => rfl
  | a :: l, m, j, hj => by
    rw [List.map_cons, List.mem_cons, not_or] at hj
    rw [List.foldl_cons, get_foldl_other key step h l _ j hj.2, h m a j hj.1]

theorem not_mem_prefix {α : Type} {key : α → Nat} {l l1 l2 : List α} {a : α} (hl : (l.map key).Nodup)
    (e : l = l1 ++ a :: l2) : key a ∉ l1.map key := by
  rw [e, List.map_append, List.nodup_append, List.map_cons] at hl
  intro h
  exact hl.2.2 _ h _ (by simp) rfl

/-- A loop which updates each key of its own at most once. -/
theorem chk_foldl_upsert {α : Type} (key : α → Nat) {v : α → Res Int} {w : α → Int} {f : α → Int → Res Int}
    {g : α → Int → Int} {Pv : α → Prop} {Pf : α → Int → Prop} (hv : ∀ a, Chk (Pv a) (v a) (w a))
    (hf : ∀ a x, Chk (Pf a x) (f a x) (g a x)) (l : List α) (hl : (l.map key).Nodup) (m : BMap Int) :
    Chk (∀ a ∈ l, (m.get (key a)).elim (Pv a) (Pf a))
      (l.foldlM (fun m a => m.upsertM (key a) (v a) (f a)) m)
      (l.foldl (fun m a => m.upsert (key a) (w a) (g a)) m) := by
  refine chk_foldlM' l _ m (fun l1 a l2 e => ?_)
  have := get_foldl_other key (fun m a => m.upsert (key a) (w a) (g a))
    (fun m a j hj => by rw [BMap.get_upsert, if_neg hj]) l1 m (key a) (not_mem_prefix hl e)
  have h := chk_upsertM (m := l1.foldl (fun m a => m.upsert (key a) (w a) (g a)) m) (k := key a) (hv a) (hf a)
  rwa [this] at h

/-- A loop which inserts a value computed from each element. -/
theorem chk_foldl_insert {α : Type} (key : α → Nat) {v : α → Res Int} {w : α → Int} {P : α → Prop}
    (hv : ∀ a, Chk (P a) (v a) (w a)) (l : List α) (m : BMap Int) :
    Chk (∀ a ∈ l, P a)
      (l.foldlM (fun m a => v a >>= fun x => Res.ok (m.insert (key a) x)) m)
      (l.foldl (fun m a => m.insert (key a) (w a)) m) :=
  chk_foldlM' l _ m (fun l1 a _ _ => (hv a).map (fun x => (l1.foldl (fun m a => m.insert (key a) (w a)) m).insert (key a) x))

/-- The values of a map, in terms of its polynomial. -/
theorem forall_entries (m : BMap Int) (P : Nat → Int → Prop) :
    (∀ e ∈ m.entries, P e.1 e.2) ↔ ∀ k v, m.get k = some v → P k v :=
  ⟨fun h k v hk => h (k, v) ((m.mem_entries k v).2 hk), fun h e he => h e.1 e.2 ((m.mem_entries e.1 e.2).1 he)⟩

theorem inRange_mapPoly (t : IntTy) (m : BMap Int) :
    (∀ e ∈ m.entries, t.InRange e.2) ↔ ∀ d, t.InRange ((entriesPoly m.entries).coeff d) := by
  rw [forall_entries m (fun _ v => t.InRange v)]
  constructor
  · intro h d
    rw [coeff_mapPoly]
    cases hd : m.get d with
    | none => exact t.zero_inRange
    | some v => exact h d v hd
  · intro h k v hk
    have := h k
    rw [coeff_mapPoly, hk] at this
    exact this

end Rustnomial
