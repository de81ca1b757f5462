import Verif.SpecRoomHistory
import Verif.Model.RoomHistory
import Verif.Props.FixedHistory
import Verif.Props.Stored

/-!
# C118: histories over machine integers with the answers of `try_sub_term` and what is stored
-/

open Polynomial

namespace Rustnomial

/-! ## Lengths do not depend on the arithmetic -/

theorem room_zipMutM {α β : Type} {f : α → β → Res α} : ∀ {xs : List α} {ys : List β} {zs : List α}, zipMutM f xs ys = .ok zs →
    zs.length = xs.length
  | [], _, zs, h => by cases h; rfl
  | x :: xs, [], zs, h => by cases h; rfl
  | x :: xs, y :: ys, zs, h => by
    rw [zipMutM] at h
    obtain ⟨z, _, h⟩ := Res.bind_eq_ok.1 h
    obtain ⟨l, h1, h⟩ := Res.bind_eq_ok.1 h
    cases h
    simp [room_zipMutM h1]

theorem room_modifyM {α : Type} {f : α → Res α} : ∀ {xs : List α} {i : Nat} {zs : List α}, modifyM f xs i = .ok zs → zs.length = xs.length
  | [], _, zs, h => by cases h
  | x :: xs, 0, zs, h => by
    rw [modifyM] at h
    obtain ⟨z, _, h⟩ := Res.bind_eq_ok.1 h
    cases h
    rfl
  | x :: xs, i + 1, zs, h => by
    rw [modifyM] at h
    obtain ⟨z, h1, h⟩ := Res.bind_eq_ok.1 h
    cases h
    simp [room_modifyM h1]

theorem room_sliceMulLoopM {A : Arith} {lhs : List Int} : ∀ {rhs : List Int} {i : Nat} {terms r : List Int},
    sliceMulLoopM A lhs rhs i terms = .ok r → r.length = terms.length
  | [], _, _, _, h => by cases h; rfl
  | x :: rhs, i, terms, r, h => by
    rw [sliceMulLoopM] at h
    obtain ⟨z, h1, h⟩ := Res.bind_eq_ok.1 h
    rw [room_sliceMulLoopM h]
    unfold sliceMulStepM at h1
    split at h1
    · cases h1; rfl
    · unfold sliceFrom at h1
      split at h1
      · rw [Res.ok_bind] at h1
        obtain ⟨l, h2, h3⟩ := Res.bind_eq_ok.1 h1
        cases h3
        have := room_zipMutM h2
        simp only [List.length_append, List.length_take, this, List.length_drop]
        omega
      · cases h1

theorem coreOf_descPoly (l : List Int) : coreLen l = coreOf (descPoly l) := by
  unfold coreOf
  split
  · next h => exact (coreLen_zero l).2 h
  · next h => exact coreLen_natDegree l h

theorem room_join {A B : List Int} {f : Int → Int → Res Int} (h : B.length ≤ A.length) {r : Poly Int} (e : (do
      let tail ← sliceFrom A (A.length - B.length)
      let tail ← zipMutM f tail B
      Res.ok (⟨A.take (A.length - B.length) ++ tail⟩ : Poly Int)) = .ok r) : r.terms.length = A.length := by
  rw [sliceFrom_ok (by omega), Res.ok_bind] at e
  obtain ⟨l, h2, h3⟩ := Res.bind_eq_ok.1 e
  cases h3
  have := room_zipMutM h2
  simp only [List.length_append, List.length_take, this, List.length_drop]
  omega

theorem room_shr (p : Poly Int) (k : Nat) (r : Poly Int) (h : p.shrAssignPos k = .ok r) : r.terms.length = p.terms.length - k := by
  obtain ⟨r', e, f⟩ := (C101_shift_length (N := Int) rfl p k).2.2.2
  unfold Poly.shrAssign at e
  rw [if_neg (by omega), Int.toNat_natCast, h] at e
  cases e
  exact f

theorem room_stepM (A : Arith) (cn : Bool) (p : Poly Int) (o : Op (Poly Int) Int) (hn : NoSubTerm o) (r : Poly Int)
    (h : p.stepM A cn o = .ok r) : r.terms.length = roomAfter (descPoly p.terms) p.terms.length (o.map Poly.withRoom) := by
  cases o with
  | addTerm c d =>
    obtain ⟨l, h1, h2⟩ := Res.bind_eq_ok.1 h
    cases h2
    have := room_modifyM h1
    show l.length = max p.terms.length (d + 1)
    rw [this]
    split
    · simp only [List.length_append, List.length_replicate]; omega
    · omega
  | trySubTerm c d => exact hn.elim
  | addAssign q =>
    show _ = max p.terms.length q.terms.length
    change p.addAssignM A q = .ok r at h
    unfold Poly.addAssignM at h
    split at h
    · rw [room_join (by omega) h]; omega
    · rw [room_join (by omega) h]; omega
  | subAssign q =>
    show _ = max p.terms.length q.terms.length
    change p.subM A q = .ok r at h
    unfold Poly.subM at h
    split at h
    · obtain ⟨a, h1, h⟩ := Res.bind_eq_ok.1 h
      obtain ⟨b, h2, h⟩ := Res.bind_eq_ok.1 h
      cases h
      have e1 := mapM_length _ _ _ h1
      have e2 := room_zipMutM h2
      simp only [List.length_append, e1, e2, List.length_take, List.length_drop]
      omega
    · rw [room_join (by omega) h]; omega
  | mulAssign q =>
    show _ = coreOf (descPoly p.terms) + coreOf (descPoly q.terms) - 1
    rw [← coreOf_descPoly, ← coreOf_descPoly, coreLen_eq, coreLen_eq]
    change p.mulM A q = .ok r at h
    obtain ⟨l, h1, h2⟩ := Res.bind_eq_ok.1 h
    cases h2
    unfold sliceMulM at h1
    rw [sliceFrom_ok (firstNonzeroIndex_le _), Res.ok_bind, sliceFrom_ok (firstNonzeroIndex_le _), Res.ok_bind] at h1
    obtain ⟨n, h2, h3⟩ := Res.bind_eq_ok.1 h1
    have := room_sliceMulLoopM h3
    unfold usub at h2
    split at h2
    · cases h2
      simp only [this, List.length_replicate, List.length_drop]
      omega
    · cases h2
  | mulAssignScalar c =>
    obtain ⟨l, h1, h2⟩ := Res.bind_eq_ok.1 h
    cases h2
    exact mapM_length _ _ _ h1
  | shlAssign k =>
    show _ = ((p.terms.length : Int) + k).toNat
    change p.shlAssign k = .ok r at h
    unfold Poly.shlAssign at h
    split at h
    · obtain ⟨a, h1, h⟩ := Res.bind_eq_ok.1 h
      rw [room_shr p a r h]
      unfold negI32 at h1
      split at h1
      · cases h1
      · cases h1; omega
    · cases h
      simp only [Poly.shlAssignPos, List.length_append, List.length_replicate]
      omega
  | shrAssign k =>
    show _ = ((p.terms.length : Int) - k).toNat
    change p.shrAssign k = .ok r at h
    unfold Poly.shrAssign at h
    split at h
    · obtain ⟨a, h1, h⟩ := Res.bind_eq_ok.1 h
      cases h
      unfold negI32 at h1
      split at h1
      · cases h1
      · cases h1
        simp only [Poly.shlAssignPos, List.length_append, List.length_replicate]
        omega
    · rw [room_shr p _ r h]; omega
  | trim =>
    cases h
    show _ = coreOf (descPoly p.terms)
    rw [← coreOf_descPoly, coreLen_eq]
    unfold Poly.trim
    dsimp only
    split
    · exact List.length_drop
    · omega
  | setToZero => cases h; rfl

/-! ## `Polynomial` -/

section
variable (t : IntTy)

theorem trySub_taken (chk cn : Bool) (p : Poly Int) (c : Int) (d : Nat) (h : ¬ RefusedDense cn p.terms.length (.trySubTerm c d : Op (Poly Int) Int)) :
    p.trySubTermM (.machine chk t) cn c d = (do
      let r ← p.addTermM (.machine chk t) (-c) d
      Res.ok (r, .ok ())) := by
  have hc : ∀ x, (Arith.machine chk t).sub x c = (Arith.machine chk t).add x (-c) := fun x => by
    show t.result chk (x - c) = t.result chk (x + -c)
    rw [sub_eq_add_neg]
  unfold Poly.trySubTermM Poly.addTermM
  simp only [hc]
  split
  · next hl =>
    have : cn = true := by
      by_contra hcn
      exact h ⟨by simpa using hcn, by omega⟩
    subst this
    simp only [Bool.not_true, Bool.false_eq_true, if_false]
    rw [bind_assoc]
    rfl
  · rw [bind_assoc]
    rfl

theorem trySub_refused (A : Arith) (cn : Bool) (p : Poly Int) (c : Int) (d : Nat)
    (h : RefusedDense cn p.terms.length (.trySubTerm c d : Op (Poly Int) Int)) :
    p.trySubTermM A cn c d = .ok (p, .error .canNotNegate) := by
  obtain ⟨rfl, hl⟩ := h
  unfold Poly.trySubTermM
  rw [if_pos (by omega)]
  rfl

theorem Op.map_map {P Q S N : Type} (f : P → Q) (g : Q → S) (o : Op P N) : (o.map f).map g = o.map fun x => g (f x) := by cases o <;> rfl

theorem refused_map {P Q : Type} (cn : Bool) (n : Nat) (f : P → Q) (o : Op P Int) : RefusedDense cn n (o.map f) ↔ RefusedDense cn n o := by
  cases o <;> exact Iff.rfl

theorem not_refused {P : Type} {cn : Bool} {n : Nat} {o : Op P Int} (h : NoSubTerm o) : ¬ RefusedDense cn n o := by
  cases o <;> first | exact id | exact h.elim

theorem room_addTerm {A : Arith} {p r : Poly Int} {c : Int} {d : Nat} (h : p.addTermM A c d = .ok r) :
    r.terms.length = max p.terms.length (d + 1) := room_stepM A true p (.addTerm c d) trivial r h

theorem stepLogM_eq (A : Arith) (cn : Bool) (p : Poly Int) (o : Op (Poly Int) Int) (h : NoSubTerm o) :
    p.stepLogM A cn o = (do
      let r ← p.stepM A cn o
      Res.ok (r, .ok ())) := by
  cases o <;> first | rfl | exact h.elim

theorem roomSpec_refused {cn : Bool} {p : Poly Int} {o : Op (Poly Int) Int} (h : RefusedDense cn p.terms.length o) :
    roomSpec cn p.withRoom (o.map Poly.withRoom) = (p.withRoom, .error .canNotNegate) :=
  if_pos ((refused_map _ _ _ o).2 h)

theorem roomSpec_taken {cn : Bool} {p : Poly Int} {o : Op (Poly Int) Int} (h : ¬ RefusedDense cn p.terms.length o) :
    roomSpec cn p.withRoom (o.map Poly.withRoom) =
      ((absStep (descPoly p.terms) (o.map fun q => descPoly q.terms), roomAfter (descPoly p.terms) p.terms.length (o.map Poly.withRoom)), .ok ()) := by
  refine (if_neg (fun h' => h ((refused_map _ _ _ o).1 h'))).trans ?_
  rw [Op.map_map]
  rfl

theorem dense_log_checked (p : Poly Int) (o : Op (Poly Int) Int) (hp : AllIn t p.terms)
    (ho : OperandsIn t (o.map fun q => descPoly q.terms)) :
    (RoomFits t p.withRoom (o.map Poly.withRoom) → ∃ r, p.stepLogM (.machine true t) t.canNegate o = .ok r ∧ AllIn t r.1.terms ∧
      (r.1.withRoom, r.2) = roomSpec t.canNegate p.withRoom (o.map Poly.withRoom)) ∧
    (¬ RoomFits t p.withRoom (o.map Poly.withRoom) → p.stepLogM (.machine true t) t.canNegate o = .panic) := by
  have hp' := (inRange_descPoly t p.terms).1 hp
  unfold RoomFits
  simp only [refused_map, Op.map_map]
  show (RefusedDense t.canNegate p.terms.length o ∨ OpFits t (MulFitsDown t) (descPoly p.terms) (o.map fun q => descPoly q.terms) → _) ∧ _
  by_cases hn : NoSubTerm o
  · have hr := not_refused (cn := t.canNegate) (n := p.terms.length) hn
    have h := dense_stepM_checked t p o hp' ho (.inr hn)
    rw [stepLogM_eq _ _ _ _ hn]
    refine ⟨fun H => ?_, fun H => by rw [h.2 fun H' => H (.inr H')]; rfl⟩
    obtain ⟨r, e, f⟩ := h.1 (H.resolve_left hr)
    refine ⟨(r, .ok ()), by rw [e]; rfl, ?_, ?_⟩
    · refine (inRange_descPoly t r.terms).2 ?_
      rw [f]
      exact absStep_inRange mulFitsDown_inRange hp' (H.resolve_left hr)
    · rw [roomSpec_taken hr]
      refine Prod.ext (Prod.ext f ?_) rfl
      exact room_stepM _ _ p o hn r e
  · obtain ⟨c, d, rfl⟩ : ∃ c d, o = .trySubTerm c d := by
      cases o <;> first | exact ⟨_, _, rfl⟩ | exact absurd trivial hn
    show (_ → ∃ r, p.trySubTermM _ _ c d = _ ∧ _) ∧ (_ → p.trySubTermM _ _ c d = _)
    by_cases hr : RefusedDense t.canNegate p.terms.length (.trySubTerm c d : Op (Poly Int) Int)
    · refine ⟨fun _ => ⟨_, trySub_refused _ _ p c d hr, hp, ?_⟩, fun H => absurd (.inl hr) H⟩
      rw [roomSpec_refused hr]
    · rw [trySub_taken t true _ p c d hr, roomSpec_taken hr]
      have h := dense_addTermM_chk t p (-c) d
      have e : OpFits t (MulFitsDown t) (descPoly p.terms) (.trySubTerm c d) ↔ t.InRange ((descPoly p.terms).coeff d + -c) := by
        rw [← term_fits_iff t hp' (-c) d, C_neg, neg_mul, ← sub_eq_add_neg]
        rfl
      refine ⟨fun H => ?_, fun H => by rw [h.2 fun H' => H (.inr (e.2 H'))]; rfl⟩
      have H' := H.resolve_left hr
      have ee := h.1 (e.1 H')
      have f : descPoly (p.addTerm (-c) d).terms = absStep (descPoly p.terms) (.trySubTerm c d) := by
        rw [C31_dense_add_term, C_neg, neg_mul, ← sub_eq_add_neg]
        rfl
      refine ⟨(p.addTerm (-c) d, .ok ()), by rw [ee]; rfl, ?_, Prod.ext (Prod.ext f (room_addTerm ee)) rfl⟩
      refine (inRange_descPoly t (p.addTerm (-c) d).terms).2 ?_
      rw [f]
      exact absStep_inRange mulFitsDown_inRange hp' H'

/-- C118 (`Polynomial`, overflow checks): a history of mutations of any length over any primitive integer type, signed or not, from any value and
with any operands of the type, in which refused terms are skipped.  It returns exactly when every step of the mathematical history with the
room stored is refused or fits; the polynomial, the number of stored coefficients and the answers of all steps are then those of the mathematical
history.  It panics otherwise. -/
theorem C118_dense_checked (ops : List (Op (Poly Int) Int)) (p : Poly Int) (hp : AllIn t p.terms)
    (ho : ∀ o ∈ ops, OperandsIn t (o.map fun q => descPoly q.terms)) :
    let specOps := ops.map (Op.map Poly.withRoom)
    (AllSafe (roomSpec t.canNegate) (RoomFits t) p.withRoom specOps →
      ∃ r, runLog (Poly.stepLogM (.machine true t) t.canNegate) p ops = .ok r ∧ AllIn t r.1.terms ∧
        (r.1.withRoom, r.2) = logRun (roomSpec t.canNegate) p.withRoom specOps) ∧
    (¬ AllSafe (roomSpec t.canNegate) (RoomFits t) p.withRoom specOps →
      runLog (Poly.stepLogM (.machine true t) t.canNegate) p ops = .panic) :=
  runLog_spec (inv := fun p : Poly Int => AllIn t p.terms) (ok := fun o : Op (Poly Int) Int => OperandsIn t (o.map fun q => descPoly q.terms))
    (dense_log_checked t) ops p hp ho

/-- Over `u8` (`2x + 9`): `x²` may not be subtracted, as nothing is stored there; after `<<= 1` there is room but `x³` is still refused, and a
subtraction below zero panics. -/
example :
    runLog (Poly.stepLogM (.machine true ⟨false, 8⟩) false) ⟨[2, 9]⟩ [.trySubTerm 1 2, .trySubTerm 2 1, .shlAssign 1, .trySubTerm 4 1, .trySubTerm 0 3] =
      .ok (⟨[0, 5, 0]⟩, [.error .canNotNegate, .ok (), .ok (), .ok (), .error .canNotNegate]) ∧
    runLog (Poly.stepLogM (.machine true ⟨false, 8⟩) false) ⟨[2, 9]⟩ [.shlAssign 1, .trySubTerm 1 2, .trySubTerm 1 0] = .panic := by decide

theorem coreOf_red (hb : 1 ≤ t.bits) {P : ℤ[X]} (hP : ∀ n, t.InRange (P.coeff n)) : coreOf (red t P) = coreOf P := by
  have h0 := red_eq_zero t hb hP
  unfold coreOf
  by_cases h : P = 0
  · rw [if_pos h, if_pos (h0.2 h)]
  · rw [if_neg h, if_neg fun h' => h (h0.1 h')]
    congr 1
    refine le_antisymm natDegree_map_le ?_
    refine le_natDegree_of_ne_zero fun hc => ?_
    have e : ∀ n, (red t P).coeff n = 0 → P.coeff n = 0 := by
      intro n hn
      have : red t (C (P.coeff n)) = 0 := by
        show (C (P.coeff n)).map _ = 0
        rw [map_C]
        have hn' : (Int.castRingHom (ZMod (2 ^ t.bits))) (P.coeff n) = 0 := by
          rw [← coeff_map]; exact hn
        rw [hn', C_0]
      have := (red_eq_zero t hb (P := C (P.coeff n)) (fun m => by
        rw [coeff_C]
        split
        · exact hP n
        · exact t.zero_inRange)).1 this
      exact C_eq_zero.1 this
    exact h (leadingCoeff_eq_zero.1 (e _ hc))

theorem modStored_fst {α : Type} (n : Nat) (o : Op (ℤ[X] × α) ℤ) : (o.modStored n).map Prod.fst = (o.map Prod.fst).modulo n := by cases o <;> rfl

theorem refused_mod (cn : Bool) (k n : Nat) (o : Op (ℤ[X] × Nat) ℤ) : RefusedDense cn k (o.modStored n) ↔ RefusedDense cn k o := by
  cases o <;> exact Iff.rfl

theorem roomAfter_mod (hb : 1 ≤ t.bits) (p : Poly Int) (o : Op (Poly Int) Int) (hp : ∀ n, t.InRange ((descPoly p.terms).coeff n))
    (ho : OperandsIn t (o.map fun q => descPoly q.terms)) (n : Nat) :
    roomAfter (red t (descPoly p.terms)) n ((o.map Poly.withRoom).modStored (2 ^ t.bits)) = roomAfter (descPoly p.terms) n (o.map Poly.withRoom) := by
  cases o with
  | mulAssign q =>
    show coreOf (red t (descPoly p.terms)) + coreOf (red t (descPoly q.terms)) - 1 = coreOf (descPoly p.terms) + coreOf (descPoly q.terms) - 1
    rw [coreOf_red t hb hp, coreOf_red t hb ho]
  | trim => exact coreOf_red t hb hp
  | _ => rfl

theorem roomSpec_mod_taken {cn : Bool} {p : Poly Int} {o : Op (Poly Int) Int} (hb : 1 ≤ t.bits) (hp : ∀ n, t.InRange ((descPoly p.terms).coeff n))
    (ho : OperandsIn t (o.map fun q => descPoly q.terms)) (h : ¬ RefusedDense cn p.terms.length o) :
    roomSpec cn (modState (2 ^ t.bits) p.withRoom) ((o.map Poly.withRoom).modStored (2 ^ t.bits)) =
      ((red t (absStep (descPoly p.terms) (o.map fun q => descPoly q.terms)),
        roomAfter (descPoly p.terms) p.terms.length (o.map Poly.withRoom)), .ok ()) := by
  refine (if_neg (fun h' => h ((refused_map _ _ _ o).1 ((refused_mod _ _ _ _).1 h')))).trans ?_
  rw [modStored_fst, Op.map_map, red_absStep, ← roomAfter_mod t hb p o hp ho]
  rfl

theorem dense_log_wrap (hb : 1 ≤ t.bits) (p : Poly Int) (o : Op (Poly Int) Int) (hp : AllIn t p.terms)
    (ho : OperandsIn t (o.map fun q => descPoly q.terms) ∧ NoMinShift o) :
    (SafeMod (modState (2 ^ t.bits) p.withRoom).1 (((o.map Poly.withRoom).modStored (2 ^ t.bits)).map Prod.fst) →
      ∃ r, p.stepLogM (.machine false t) t.canNegate o = .ok r ∧ AllIn t r.1.terms ∧
      (modState (2 ^ t.bits) r.1.withRoom, r.2) =
        roomSpec t.canNegate (modState (2 ^ t.bits) p.withRoom) ((o.map Poly.withRoom).modStored (2 ^ t.bits))) ∧
    (¬ SafeMod (modState (2 ^ t.bits) p.withRoom).1 (((o.map Poly.withRoom).modStored (2 ^ t.bits)).map Prod.fst) →
      p.stepLogM (.machine false t) t.canNegate o = .panic) := by
  have hp' := (inRange_descPoly t p.terms).1 hp
  rw [modStored_fst, Op.map_map]
  show (SafeMod (red t (descPoly p.terms)) ((o.map fun q => descPoly q.terms).modulo (2 ^ t.bits)) → _) ∧ (¬ SafeMod (red t (descPoly p.terms)) ((o.map fun q => descPoly q.terms).modulo (2 ^ t.bits)) → _)
  by_cases hn : NoSubTerm o
  · have hr := not_refused (cn := t.canNegate) (n := p.terms.length) hn
    have h := dense_stepM_wrap t hb p o hp' ho.1 ⟨.inr hn, ho.2⟩
    rw [stepLogM_eq _ _ _ _ hn]
    refine ⟨fun H => ?_, fun H => by rw [h.2 H]; rfl⟩
    obtain ⟨r, e, g, f⟩ := h.1 H
    refine ⟨(r, .ok ()), by rw [e]; rfl, (inRange_descPoly t r.terms).2 g, ?_⟩
    rw [roomSpec_mod_taken t hb hp' ho.1 hr]
    exact Prod.ext (Prod.ext f (room_stepM _ _ p o hn r e)) rfl
  · obtain ⟨c, d, rfl⟩ : ∃ c d, o = .trySubTerm c d := by
      cases o <;> first | exact ⟨_, _, rfl⟩ | exact absurd trivial hn
    show (_ → ∃ r, p.trySubTermM _ _ c d = _ ∧ _) ∧ (_ → p.trySubTermM _ _ c d = _)
    refine ⟨fun _ => ?_, fun H => absurd trivial H⟩
    by_cases hr : RefusedDense t.canNegate p.terms.length (.trySubTerm c d : Op (Poly Int) Int)
    · refine ⟨_, trySub_refused _ _ p c d hr, hp, ?_⟩
      exact (if_pos ((refused_mod _ _ _ _).2 ((refused_map _ _ _ (.trySubTerm c d)).2 hr))).symm
    · rw [trySub_taken t false _ p c d hr, roomSpec_mod_taken t hb hp' ho.1 hr]
      obtain ⟨r, e, f⟩ := C81_dense_add_term t hb p (-c) d hp
      refine ⟨(r, .ok ()), by rw [e]; rfl, f.1, Prod.ext (Prod.ext (f.red_eq.trans ?_) (room_addTerm e)) rfl⟩
      rw [C_neg, neg_mul, ← sub_eq_add_neg]
      rfl

/-- C118 (`Polynomial`, no overflow checks): a history without shifts by `i32::MIN`, refused terms skipped, over any primitive integer type.  It
returns exactly when, with all numbers modulo `2 ^ bits`, it never multiplies zero by zero, and panics otherwise; the polynomial modulo `2 ^ bits`,
the number of stored coefficients and the answers are those of the history of polynomials over the integers modulo `2 ^ bits`. -/
theorem C118_dense_wrap (hb : 1 ≤ t.bits) (ops : List (Op (Poly Int) Int)) (p : Poly Int) (hp : AllIn t p.terms)
    (ho : ∀ o ∈ ops, OperandsIn t (o.map fun q => descPoly q.terms) ∧ NoMinShift o) :
    let modulo : Poly Int → (ZMod (2 ^ t.bits))[X] × Nat := fun q => modState (2 ^ t.bits) q.withRoom
    let specOps := ops.map fun o => (o.map Poly.withRoom).modStored (2 ^ t.bits)
    let noZeroProduct : (ZMod (2 ^ t.bits))[X] × Nat → Op ((ZMod (2 ^ t.bits))[X] × Nat) (ZMod (2 ^ t.bits)) → Prop :=
      fun s o => SafeMod s.1 (o.map Prod.fst)
    (AllSafe (roomSpec t.canNegate) noZeroProduct (modulo p) specOps →
      ∃ r, runLog (Poly.stepLogM (.machine false t) t.canNegate) p ops = .ok r ∧ AllIn t r.1.terms ∧
        (modulo r.1, r.2) = logRun (roomSpec t.canNegate) (modulo p) specOps) ∧
    (¬ AllSafe (roomSpec t.canNegate) noZeroProduct (modulo p) specOps →
      runLog (Poly.stepLogM (.machine false t) t.canNegate) p ops = .panic) := by
  intro modulo specOps noZeroProduct
  exact runLog_spec (inv := fun p : Poly Int => AllIn t p.terms)
    (ok := fun o : Op (Poly Int) Int => OperandsIn t (o.map fun q => descPoly q.terms) ∧ NoMinShift o)
    (repr := modulo) (f := fun o => (o.map Poly.withRoom).modStored (2 ^ t.bits)) (safe := noZeroProduct)
    (dense_log_wrap t hb) ops p hp ho

/-- Without overflow checks the stored room decides as before, and below zero the coefficient wraps around. -/
example :
    runLog (Poly.stepLogM (.machine false ⟨false, 8⟩) false) ⟨[2, 9]⟩ [.trySubTerm 1 2, .shlAssign 1, .trySubTerm 3 2, .mulAssignScalar 128, .trim] =
      .ok (⟨[128, 128, 0]⟩, [.error .canNotNegate, .ok (), .ok (), .ok (), .ok ()]) := by decide

end

end Rustnomial
