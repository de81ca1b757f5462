import Verif.Model.MachineHistory
import Verif.Lemmas.MachineSink
import Verif.Props.History
import Verif.Props.MachineWrap
import Verif.Props.MachineBuild

/-!
# C106: any history of mutations over machine integers
-/

open Polynomial

namespace Rustnomial

/-! ## Specification -/

section
variable (t : IntTy)

/-- Products, and partial sums of products from the high end of the right factor down, are values of the type; the operands
are not both zero. -/
def MulFitsDown (P Q : ℤ[X]) : Prop :=
  (P ≠ 0 ∨ Q ≠ 0) ∧ (∀ i j, t.InRange (P.coeff i * Q.coeff j)) ∧
    ∀ d e, t.InRange (∑ x ∈ Finset.antidiagonal d with e ≤ x.2, P.coeff x.1 * Q.coeff x.2)

/-- Products, and partial sums of products from the low end of the right factor up, are values of the type. -/
def MulFitsUp (P Q : ℤ[X]) : Prop :=
  (∀ i j, t.InRange (P.coeff i * Q.coeff j)) ∧
    ∀ d e, t.InRange (∑ x ∈ Finset.antidiagonal d with x.2 ≤ e, P.coeff x.1 * Q.coeff x.2)

/-- One operation does not overflow: of products `mulFits`, of shifts that it is not by `i32::MIN`, of all others that the
coefficients of the result are values of the type. -/
def OpFits (mulFits : ℤ[X] → ℤ[X] → Prop) (P : ℤ[X]) : Op ℤ[X] ℤ → Prop
  | .mulAssign Q => mulFits P Q
  | .shlAssign k => k ≠ -2 ^ 31
  | .shrAssign k => k ≠ -2 ^ 31
  | o => ∀ n, t.InRange ((absStep P o).coeff n)

/-- No operation of the history overflows when its turn comes. -/
def FitsRun (mulFits : ℤ[X] → ℤ[X] → Prop) : ℤ[X] → List (Op ℤ[X] ℤ) → Prop
  | _, [] => True
  | P, o :: ops => OpFits t mulFits P o ∧ FitsRun mulFits (absStep P o) ops

/-- The operands are values of the type. -/
def OperandsIn : Op ℤ[X] ℤ → Prop
  | .addTerm c _ => t.InRange c
  | .trySubTerm c _ => t.InRange c
  | .addAssign Q => ∀ n, t.InRange (Q.coeff n)
  | .subAssign Q => ∀ n, t.InRange (Q.coeff n)
  | .mulAssign Q => ∀ n, t.InRange (Q.coeff n)
  | .mulAssignScalar c => t.InRange c
  | _ => True

/-- `try_sub_term` is not used. -/
def NoSubTerm {P N : Type} : Op P N → Prop
  | .trySubTerm _ _ => False
  | _ => True

/-- The operation with all numbers taken modulo `n`. -/
noncomputable def Op.modulo (n : Nat) : Op ℤ[X] ℤ → Op (ZMod n)[X] (ZMod n)
  | .addTerm c d => .addTerm c d
  | .trySubTerm c d => .trySubTerm c d
  | .addAssign Q => .addAssign (Q.map (Int.castRingHom _))
  | .subAssign Q => .subAssign (Q.map (Int.castRingHom _))
  | .mulAssign Q => .mulAssign (Q.map (Int.castRingHom _))
  | .mulAssignScalar c => .mulAssignScalar c
  | .shlAssign k => .shlAssign k
  | .shrAssign k => .shrAssign k
  | .trim => .trim
  | .setToZero => .setToZero

end

/-! ## Induction over the history -/

section
variable {t : IntTy}

theorem coeff_divX_iterate {R : Type} [Semiring R] (P : R[X]) (k n : Nat) : (divX^[k] P).coeff n = P.coeff (n + k) := by
  induction k generalizing n with
  | zero => simp
  | succ k ih => rw [Function.iterate_succ_apply', coeff_divX, ih]; congr 1; omega

theorem coeff_mul_X_pow_inRange {P : ℤ[X]} (h : ∀ n, t.InRange (P.coeff n)) (k n : Nat) : t.InRange ((P * X ^ k).coeff n) := by
  rw [coeff_mul_X_pow']
  split_ifs
  · exact h _
  · exact t.zero_inRange

theorem absStep_inRange {mf : ℤ[X] → ℤ[X] → Prop} (hmf : ∀ P Q, mf P Q → ∀ n, t.InRange ((P * Q).coeff n)) {P : ℤ[X]}
    (hP : ∀ n, t.InRange (P.coeff n)) {o : Op ℤ[X] ℤ} (h : OpFits t mf P o) : ∀ n, t.InRange ((absStep P o).coeff n) := by
  cases o with
  | mulAssign Q => exact hmf P Q h
  | shlAssign k =>
    intro n
    simp only [absStep]
    split_ifs
    · exact coeff_mul_X_pow_inRange hP _ n
    · rw [coeff_divX_iterate]; exact hP _
  | shrAssign k =>
    intro n
    simp only [absStep]
    split_ifs
    · rw [coeff_divX_iterate]; exact hP _
    · exact coeff_mul_X_pow_inRange hP _ n
  | _ => exact h

theorem mulFitsDown_inRange (P Q : ℤ[X]) (h : MulFitsDown t P Q) (n : Nat) : t.InRange ((P * Q).coeff n) := by
  have := h.2.2 n 0
  rwa [Finset.filter_true_of_mem (fun x _ => Nat.zero_le _), ← coeff_mul] at this

theorem mulFitsUp_inRange (P Q : ℤ[X]) (h : MulFitsUp t P Q) (n : Nat) : t.InRange ((P * Q).coeff n) := by
  have := h.2 n n
  rwa [Finset.filter_true_of_mem (fun x hx => by rw [Finset.mem_antidiagonal] at hx; omega), ← coeff_mul] at this

theorem run_checked {S : Type} {repr : S → ℤ[X]} {stepM : S → Op S ℤ → Res S} {mf : ℤ[X] → ℤ[X] → Prop}
    (hmf : ∀ P Q, mf P Q → ∀ n, t.InRange ((P * Q).coeff n)) {ok : Op S ℤ → Prop}
    (hstep : ∀ s o, (∀ n, t.InRange ((repr s).coeff n)) → OperandsIn t (o.map repr) → ok o →
      (OpFits t mf (repr s) (o.map repr) → ∃ r, stepM s o = .ok r ∧ repr r = absStep (repr s) (o.map repr)) ∧
      (¬ OpFits t mf (repr s) (o.map repr) → stepM s o = .panic)) :
    ∀ (ops : List (Op S ℤ)) (s : S), (∀ n, t.InRange ((repr s).coeff n)) → (∀ o ∈ ops, OperandsIn t (o.map repr)) →
      (∀ o ∈ ops, ok o) →
      (FitsRun t mf (repr s) (ops.map (Op.map repr)) → ∃ r, runOps stepM s ops = .ok r ∧
        repr r = absRun (repr s) (ops.map (Op.map repr)) ∧ ∀ n, t.InRange ((repr r).coeff n)) ∧
      (¬ FitsRun t mf (repr s) (ops.map (Op.map repr)) → runOps stepM s ops = .panic) := by
  intro ops
  induction ops with
  | nil => exact fun s hs _ _ => ⟨fun _ => ⟨s, rfl, rfl, hs⟩, fun h => absurd trivial h⟩
  | cons o ops ih =>
    intro s hs ho hk
    obtain ⟨h1, h2⟩ := hstep s o hs (ho o (by simp)) (hk o (by simp))
    rw [runOps, List.foldlM_cons]
    by_cases hf : OpFits t mf (repr s) (o.map repr)
    · obtain ⟨r, e, f⟩ := h1 hf
      have hr : ∀ n, t.InRange ((repr r).coeff n) := by rw [f]; exact absStep_inRange hmf hs hf
      rw [e, Res.ok_bind]
      have := ih r hr (fun o h => ho o (by simp [h])) (fun o h => hk o (by simp [h]))
      rw [f] at this
      exact ⟨fun h => this.1 h.2, fun h => this.2 fun h' => h ⟨hf, h'⟩⟩
    · rw [h2 hf]
      exact ⟨fun h => absurd h.1 hf, fun _ => rfl⟩

theorem red_absStep (P : ℤ[X]) (o : Op ℤ[X] ℤ) : red t (absStep P o) = absStep (red t P) (o.modulo (2 ^ t.bits)) := by
  have hd : ∀ k, red t (divX^[k] P) = divX^[k] (red t P) := by
    intro k
    ext n
    rw [coeff_divX_iterate]
    simp only [red, coe_mapRingHom, coeff_map, coeff_divX_iterate]
  cases o with
  | shlAssign k =>
    simp only [absStep, Op.modulo]
    split_ifs
    · rw [map_mul, map_pow]; simp [red]
    · exact hd _
  | shrAssign k =>
    simp only [absStep, Op.modulo]
    split_ifs
    · exact hd _
    · rw [map_mul, map_pow]; simp [red]
  | _ => simp [absStep, Op.modulo, red]

theorem run_wrap {S : Type} {repr : S → ℤ[X]} {stepM : S → Op S ℤ → Res S} (safe : (ZMod (2 ^ t.bits))[X] →
      Op (ZMod (2 ^ t.bits))[X] (ZMod (2 ^ t.bits)) → Prop) {ok : Op S ℤ → Prop}
    (hstep : ∀ s o, (∀ n, t.InRange ((repr s).coeff n)) → OperandsIn t (o.map repr) → ok o →
      (safe (red t (repr s)) ((o.map repr).modulo (2 ^ t.bits)) → ∃ r, stepM s o = .ok r ∧
        (∀ n, t.InRange ((repr r).coeff n)) ∧ red t (repr r) = red t (absStep (repr s) (o.map repr))) ∧
      (¬ safe (red t (repr s)) ((o.map repr).modulo (2 ^ t.bits)) → stepM s o = .panic))
    (run : (ZMod (2 ^ t.bits))[X] → List (Op (ZMod (2 ^ t.bits))[X] (ZMod (2 ^ t.bits))) → Prop)
    (hrun0 : ∀ P, run P []) (hrun : ∀ P o ops, run P (o :: ops) ↔ safe P o ∧ run (absStep P o) ops) :
    ∀ (ops : List (Op S ℤ)) (s : S) (P : ℤ[X]), red t P = red t (repr s) → (∀ n, t.InRange ((repr s).coeff n)) →
      (∀ o ∈ ops, OperandsIn t (o.map repr)) → (∀ o ∈ ops, ok o) →
      (run (red t P) (ops.map fun o => (o.map repr).modulo (2 ^ t.bits)) → ∃ r, runOps stepM s ops = .ok r ∧
        (∀ n, t.InRange ((repr r).coeff n)) ∧ red t (repr r) = red t (absRun P (ops.map (Op.map repr)))) ∧
      (¬ run (red t P) (ops.map fun o => (o.map repr).modulo (2 ^ t.bits)) → runOps stepM s ops = .panic) := by
  intro ops
  induction ops with
  | nil => exact fun s P hP hs _ _ => ⟨fun _ => ⟨s, rfl, hs, hP.symm⟩, fun h => absurd (hrun0 _) h⟩
  | cons o ops ih =>
    intro s P hP hs ho hk
    obtain ⟨h1, h2⟩ := hstep s o hs (ho o (by simp)) (hk o (by simp))
    rw [runOps, List.foldlM_cons, List.map_cons, hrun, hP]
    by_cases hf : safe (red t (repr s)) ((o.map repr).modulo (2 ^ t.bits))
    · obtain ⟨r, e, hr, f⟩ := h1 hf
      rw [e, Res.ok_bind]
      have hP' : red t (absStep P (o.map repr)) = red t (repr r) := by rw [f, red_absStep, red_absStep, hP]
      have := ih r (absStep P (o.map repr)) hP' hr (fun o h => ho o (by simp [h])) (fun o h => hk o (by simp [h]))
      rw [red_absStep, hP] at this
      exact ⟨fun h => this.1 h.2, fun h => this.2 fun h' => h ⟨hf, h'⟩⟩
    · rw [h2 hf]
      exact ⟨fun h => absurd h.1 hf, fun _ => rfl⟩

theorem wrap_of_red (hb : 1 ≤ t.bits) {P Q : ℤ[X]} (hP : ∀ n, t.InRange (P.coeff n)) (h : red t P = red t Q) (n : Nat) :
    P.coeff n = t.wrap (Q.coeff n) := by
  rw [← (red_eq_iff t P Q).1 h n, t.wrap_of_inRange hb _ (hP n)]

end

/-! ## One step -/

section
variable (t : IntTy)

theorem dense_trySub_eq (chk : Bool) (p : Poly Int) (c : Int) (d : Nat) :
    (do let r ← p.trySubTermM (.machine chk t) true c d
        Res.ok r.1) = p.addTermM (.machine chk t) (-c) d := by
  have h : ∀ x, (Arith.machine chk t).sub x c = (Arith.machine chk t).add x (-c) := fun x => by
    show t.result chk (x - c) = t.result chk (x + -c)
    rw [sub_eq_add_neg]
  unfold Poly.trySubTermM Poly.addTermM
  simp only [h, Bool.not_true, Bool.false_eq_true, if_false]
  split <;> rw [bind_assoc] <;> rfl

theorem dense_addTermM_chk (p : Poly Int) (c : Int) (d : Nat) :
    Chk (t.InRange ((descPoly p.terms).coeff d + c)) (p.addTermM (.machine true t) c d) (p.addTerm c d) := by
  set cap := max p.terms.length (d + 1)
  have h1 : p.terms.length ≤ cap := le_max_left _ _
  have h2 : d < cap := lt_of_lt_of_le (Nat.lt_succ_self d) (le_max_right _ _)
  have h := addTermE_chk (t := t) (w := cap) (cap := cap) Nat.lt_two_pow_self p c d h1
  rw [addTermE_room (t := t) (w := cap) (cap := cap) true Nat.lt_two_pow_self p c d h1 h2] at h
  exact ⟨fun hc => h.1 ⟨h2, hc⟩, fun hc => h.2 fun hc' => hc hc'.2⟩

theorem term_fits_iff {P : ℤ[X]} (hP : ∀ n, t.InRange (P.coeff n)) (c : Int) (d : Nat) :
    (∀ n, t.InRange ((P + C c * X ^ d).coeff n)) ↔ t.InRange (P.coeff d + c) := by
  constructor
  · intro h
    have := h d
    rwa [coeff_term_add, if_pos rfl] at this
  · intro h n
    rw [coeff_term_add]
    split_ifs
    · exact h
    · exact hP n

theorem dense_stepM_checked (p : Poly Int) (o : Op (Poly Int) Int) (hp : ∀ n, t.InRange ((descPoly p.terms).coeff n))
    (ho : OperandsIn t (o.map fun q => descPoly q.terms)) (hk : t.signed = true ∨ NoSubTerm o) :
    (OpFits t (MulFitsDown t) (descPoly p.terms) (o.map fun q => descPoly q.terms) →
      ∃ r, p.stepM (.machine true t) t.canNegate o = .ok r ∧
        descPoly r.terms = absStep (descPoly p.terms) (o.map fun q => descPoly q.terms)) ∧
    (¬ OpFits t (MulFitsDown t) (descPoly p.terms) (o.map fun q => descPoly q.terms) →
      p.stepM (.machine true t) t.canNegate o = .panic) := by
  have hp' : AllIn t p.terms := (inRange_descPoly t p.terms).2 hp
  cases o with
  | addTerm c d =>
    have h := dense_addTermM_chk t p c d
    have e : OpFits t (MulFitsDown t) (descPoly p.terms) (.addTerm c d) ↔ t.InRange ((descPoly p.terms).coeff d + c) :=
      term_fits_iff t hp c d
    exact ⟨fun H => ⟨_, h.1 (e.1 H), C31_dense_add_term p c d⟩, fun H => h.2 fun H' => H (e.2 H')⟩
  | trySubTerm c d =>
    have hs : t.canNegate = true := hk.resolve_right id
    have h := dense_addTermM_chk t p (-c) d
    rw [← dense_trySub_eq] at h
    have e : OpFits t (MulFitsDown t) (descPoly p.terms) (.trySubTerm c d) ↔ t.InRange ((descPoly p.terms).coeff d + -c) := by
      rw [← term_fits_iff t hp (-c) d, C_neg, neg_mul, ← sub_eq_add_neg]
      rfl
    rw [hs]
    refine ⟨fun H => ⟨_, h.1 (e.1 H), ?_⟩, fun H => h.2 fun H' => H (e.2 H')⟩
    rw [C31_dense_add_term, C_neg, neg_mul, ← sub_eq_add_neg]
    rfl
  | addAssign q =>
    have h := C56_add t p q hp' ((inRange_descPoly t q.terms).2 ho)
    exact ⟨fun H => let ⟨r, e, f, _⟩ := (h.1 H).2; ⟨r, e, f⟩, fun H => (h.2 H).2⟩
  | subAssign q =>
    have h := C56_sub t p q hp'
    exact ⟨fun H => let ⟨r, e, _, f, _⟩ := h.1 H; ⟨r, e, f⟩, fun H => (h.2 H).1⟩
  | mulAssign q =>
    by_cases hz : descPoly p.terms ≠ 0 ∨ descPoly q.terms ≠ 0
    · have h := C56_mul t p q hz
      exact ⟨fun H => let ⟨r, e, f, _⟩ := (h.1 H.2).1; ⟨r, e, f⟩, fun H => (h.2 fun H' => H ⟨hz, H'⟩).1⟩
    · refine ⟨fun H => absurd H.1 hz, fun _ => ?_⟩
      push Not at hz
      exact (C56_mul_zero_zero true t p q hz.1 hz.2).1
  | mulAssignScalar c =>
    have h := C56_mul_scalar t p c
    rw [mul_comm] at h
    exact ⟨fun H => let ⟨r, e, f, _⟩ := (h.1 H).2; ⟨r, e, f⟩, fun H => (h.2 H).2⟩
  | shlAssign k => exact ⟨fun H => dense_step_ok rfl p (.shlAssign k) H, fun H => dense_step_panic p (.shlAssign k) H⟩
  | shrAssign k => exact ⟨fun H => dense_step_ok rfl p (.shrAssign k) H, fun H => dense_step_panic p (.shrAssign k) H⟩
  | trim => exact ⟨fun _ => dense_step_ok rfl p .trim trivial, fun H => absurd hp H⟩
  | setToZero =>
    exact ⟨fun _ => dense_step_ok rfl p .setToZero trivial, fun H => absurd (fun n => by
      show t.InRange ((0 : ℤ[X]).coeff n)
      rw [coeff_zero]; exact t.zero_inRange) H⟩

theorem sparse_trySub_chk (hb : 1 ≤ t.bits) (hs : t.signed = true) (chk : Bool) (p : Sparse Int) (c : Int) (d : Nat)
    (hp : ∀ n, t.InRange ((entriesPoly p.terms.entries).coeff n)) (hc : t.InRange c) :
    (do let r ← p.trySubTermM (.machine chk t) t.canNegate c d
        Res.ok r.1) = (do
        let v ← t.result chk ((entriesPoly p.terms.entries).coeff d - c)
        Res.ok (if c = 0 then p else ⟨p.terms.insert d v⟩)) := by
  have h := (sparseSignedSubSink (t := t) (w := 0) (cap := 0) chk hb hs).ok p c d trivial hp hc trivial trivial
  have h' : p.trySubTermM (.machine chk t) t.canNegate c d = _ := h
  rw [h', bind_assoc, neg_one_mul, ← sub_eq_add_neg]
  rfl

theorem sparse_put (hb : 1 ≤ t.bits) (hs : t.signed = true) (p : Sparse Int) (c : Int) (d : Nat) (v : Int)
    (hv : c = 0 → v = (entriesPoly p.terms.entries).coeff d) (n : Nat) :
    (entriesPoly (if c = 0 then p else ⟨p.terms.insert d v⟩ : Sparse Int).terms.entries).coeff n =
      if n = d then v else (entriesPoly p.terms.entries).coeff n :=
  (sparseSignedSubSink (t := t) (w := 0) (cap := 0) true hb hs).coeff_put p c d v trivial trivial trivial hv n

theorem sparse_stepM_checked (hb : 1 ≤ t.bits) (p : Sparse Int) (o : Op (Sparse Int) Int)
    (hp : ∀ n, t.InRange ((entriesPoly p.terms.entries).coeff n))
    (ho : OperandsIn t (o.map fun q => entriesPoly q.terms.entries)) (hk : t.signed = true ∨ NoSubTerm o) :
    (OpFits t (MulFitsUp t) (entriesPoly p.terms.entries) (o.map fun q => entriesPoly q.terms.entries) →
      ∃ r, p.stepM (.machine true t) t.canNegate o = .ok r ∧
        entriesPoly r.terms.entries = absStep (entriesPoly p.terms.entries) (o.map fun q => entriesPoly q.terms.entries)) ∧
    (¬ OpFits t (MulFitsUp t) (entriesPoly p.terms.entries) (o.map fun q => entriesPoly q.terms.entries) →
      p.stepM (.machine true t) t.canNegate o = .panic) := by
  have hp' := (inRange_mapPoly t p.terms).2 hp
  cases o with
  | addTerm c d =>
    have h := C76_sparse_add_term (t := t) p c d hp' ho
    have e : OpFits t (MulFitsUp t) (entriesPoly p.terms.entries) (.addTerm c d) ↔
      t.InRange ((entriesPoly p.terms.entries).coeff d + c) := term_fits_iff t hp c d
    exact ⟨fun H => h.1 (e.1 H), fun H => h.2 fun H' => H (e.2 H')⟩
  | trySubTerm c d =>
    have hs : t.signed = true := hk.resolve_right id
    have e : OpFits t (MulFitsUp t) (entriesPoly p.terms.entries) (.trySubTerm c d) ↔
        t.InRange ((entriesPoly p.terms.entries).coeff d - c) := by
      rw [sub_eq_add_neg, ← term_fits_iff t hp (-c) d, C_neg, neg_mul, ← sub_eq_add_neg]
      rfl
    have h := chk_result t ((entriesPoly p.terms.entries).coeff d - c)
    show (_ → ∃ r, (do let r ← p.trySubTermM (.machine true t) t.canNegate c d
                       Res.ok r.1) = _ ∧ _) ∧ (_ → (do let r ← p.trySubTermM (.machine true t) t.canNegate c d
                                                       Res.ok r.1) = _)
    rw [sparse_trySub_chk t hb hs true p c d hp ho]
    refine ⟨fun H => ?_, fun H => by rw [h.2 fun H' => H (e.2 H')]; rfl⟩
    rw [h.1 (e.1 H), Res.ok_bind]
    refine ⟨_, rfl, ?_⟩
    ext n
    rw [sparse_put t hb hs p c d _ (fun h => by rw [h, sub_zero])]
    show _ = (entriesPoly p.terms.entries - C c * X ^ d).coeff n
    rw [sub_eq_add_neg, sub_eq_add_neg, ← neg_mul, ← C_neg, coeff_term_add]
  | addAssign q =>
    have h := C76_sparse_add (t := t) p q hp' ((inRange_mapPoly t q.terms).2 ho)
    exact ⟨fun H => let ⟨_, r, _, e, _, f⟩ := h.1 H; ⟨r, e, f⟩, fun H => (h.2 H).2⟩
  | subAssign q => exact C76_sparse_sub (t := t) p q hp'
  | mulAssign q => exact C76_sparse_mul (t := t) p q
  | mulAssignScalar c =>
    have h := C76_sparse_mul_scalar (t := t) p c
    rw [mul_comm] at h
    exact ⟨fun H => let ⟨_, r, _, e, _, f⟩ := h.1 H; ⟨r, e, f⟩, fun H => (h.2 H).2⟩
  | shlAssign k =>
    refine ⟨fun H => sparse_step_ok rfl p (.shlAssign k) H, fun H => ?_⟩
    have : k = -2 ^ 31 := by simpa [OpFits, Op.map] using H
    rw [this]; exact (C15_sparse_shift_false p).1
  | shrAssign k =>
    refine ⟨fun H => sparse_step_ok rfl p (.shrAssign k) H, fun H => ?_⟩
    have : k = -2 ^ 31 := by simpa [OpFits, Op.map] using H
    rw [this]; exact (C15_sparse_shift_false p).2
  | trim => exact ⟨fun _ => sparse_step_ok rfl p .trim trivial, fun H => absurd hp H⟩
  | setToZero =>
    exact ⟨fun _ => sparse_step_ok rfl p .setToZero trivial, fun H => absurd (fun n => by
      show t.InRange ((0 : ℤ[X]).coeff n)
      rw [coeff_zero]; exact t.zero_inRange) H⟩

/-- Without overflow checks only a product of two operands that are both zero modulo `2 ^ bits` ends a dense history. -/
def SafeMod {R : Type} [Ring R] (P : R[X]) : Op R[X] R → Prop
  | .mulAssign Q => P ≠ 0 ∨ Q ≠ 0
  | _ => True

theorem red_eq_zero (hb : 1 ≤ t.bits) {P : ℤ[X]} (hP : ∀ n, t.InRange (P.coeff n)) : red t P = 0 ↔ P = 0 := by
  constructor
  · intro h
    ext n
    rw [wrap_of_red hb hP (Q := 0) (by rw [h, map_zero]) n, coeff_zero, t.wrap_zero]
  · rintro rfl; exact map_zero _

theorem modulo_eq (P : ℤ[X]) : P.map (Int.castRingHom (ZMod (2 ^ t.bits))) = red t P := rfl

theorem dense_stepM_wrap (hb : 1 ≤ t.bits) (p : Poly Int) (o : Op (Poly Int) Int)
    (hp : ∀ n, t.InRange ((descPoly p.terms).coeff n)) (ho : OperandsIn t (o.map fun q => descPoly q.terms))
    (hk : (t.signed = true ∨ NoSubTerm o) ∧ NoMinShift o) :
    (SafeMod (red t (descPoly p.terms)) ((o.map fun q => descPoly q.terms).modulo (2 ^ t.bits)) →
      ∃ r, p.stepM (.machine false t) t.canNegate o = .ok r ∧ (∀ n, t.InRange ((descPoly r.terms).coeff n)) ∧
        red t (descPoly r.terms) = red t (absStep (descPoly p.terms) (o.map fun q => descPoly q.terms))) ∧
    (¬ SafeMod (red t (descPoly p.terms)) ((o.map fun q => descPoly q.terms).modulo (2 ^ t.bits)) →
      p.stepM (.machine false t) t.canNegate o = .panic) := by
  have hp' : AllIn t p.terms := (inRange_descPoly t p.terms).2 hp
  have fin : ∀ {m : Res (Poly Int)} {P : ℤ[X]}, (∃ r, m = .ok r ∧ IsWrapOf t r P) →
      ∃ r, m = .ok r ∧ (∀ n, t.InRange ((descPoly r.terms).coeff n)) ∧ red t (descPoly r.terms) = red t P :=
    fun ⟨r, e, f⟩ => ⟨r, e, (inRange_descPoly t r.terms).1 f.1, f.red_eq⟩
  have exact' : ∀ o : Op (Poly Int) Int, (∃ r, p.step o = .ok r ∧
      descPoly r.terms = absStep (descPoly p.terms) (o.map fun q => descPoly q.terms)) →
      OpFits t (MulFitsDown t) (descPoly p.terms) (o.map fun q => descPoly q.terms) →
      ∃ r, p.step o = .ok r ∧ (∀ n, t.InRange ((descPoly r.terms).coeff n)) ∧
        red t (descPoly r.terms) = red t (absStep (descPoly p.terms) (o.map fun q => descPoly q.terms)) :=
    fun o ⟨r, e, f⟩ H => ⟨r, e, by rw [f]; exact absStep_inRange mulFitsDown_inRange hp H, by rw [f]⟩
  cases o with
  | addTerm c d => exact ⟨fun _ => fin (C81_dense_add_term t hb p c d hp'), fun H => absurd trivial H⟩
  | trySubTerm c d =>
    have hs : t.canNegate = true := hk.1.resolve_right id
    have h := C81_dense_add_term t hb p (-c) d hp'
    rw [← dense_trySub_eq, C_neg, neg_mul, ← sub_eq_add_neg] at h
    rw [hs]
    exact ⟨fun _ => fin h, fun H => absurd trivial H⟩
  | addAssign q =>
    exact ⟨fun _ => fin (C57_linear t hb p q 0 hp' ((inRange_descPoly t q.terms).2 ho)).2.2.1, fun H => absurd trivial H⟩
  | subAssign q =>
    exact ⟨fun _ => fin (C57_linear t hb p q 0 hp' ((inRange_descPoly t q.terms).2 ho)).2.2.2.1, fun H => absurd trivial H⟩
  | mulAssign q =>
    have e : SafeMod (red t (descPoly p.terms)) (Op.mulAssign (red t (descPoly q.terms))) ↔
        (descPoly p.terms ≠ 0 ∨ descPoly q.terms ≠ 0) := by
      show red t _ ≠ 0 ∨ red t _ ≠ 0 ↔ _
      rw [ne_eq, ne_eq, red_eq_zero t hb hp, red_eq_zero t hb ho]
    refine ⟨fun H => fin (C57_mul t hb p q (e.1 H)).1, fun H => ?_⟩
    have hz : ¬ (descPoly p.terms ≠ 0 ∨ descPoly q.terms ≠ 0) := fun h => H (e.2 h)
    rw [not_or, not_not, not_not] at hz
    exact (C56_mul_zero_zero false t p q hz.1 hz.2).1
  | mulAssignScalar c =>
    have h := (C57_linear t hb p p c hp' hp').2.2.2.2.2.2
    rw [mul_comm] at h
    exact ⟨fun _ => fin h, fun H => absurd trivial H⟩
  | shlAssign k =>
    exact ⟨fun _ => exact' (.shlAssign k) (dense_step_ok rfl p (.shlAssign k) hk.2) hk.2, fun H => absurd trivial H⟩
  | shrAssign k =>
    exact ⟨fun _ => exact' (.shrAssign k) (dense_step_ok rfl p (.shrAssign k) hk.2) hk.2, fun H => absurd trivial H⟩
  | trim => exact ⟨fun _ => exact' .trim (dense_step_ok rfl p .trim trivial) hp, fun H => absurd trivial H⟩
  | setToZero =>
    exact ⟨fun _ => exact' .setToZero (dense_step_ok rfl p .setToZero trivial) (fun n => by
      show t.InRange ((0 : ℤ[X]).coeff n)
      rw [coeff_zero]; exact t.zero_inRange), fun H => absurd trivial H⟩

theorem sparse_stepM_wrap (hb : 1 ≤ t.bits) (p : Sparse Int) (o : Op (Sparse Int) Int)
    (hp : ∀ n, t.InRange ((entriesPoly p.terms.entries).coeff n))
    (ho : OperandsIn t (o.map fun q => entriesPoly q.terms.entries))
    (hk : (t.signed = true ∨ NoSubTerm o) ∧ NoMinShift o) :
    ∃ r, p.stepM (.machine false t) t.canNegate o = .ok r ∧ (∀ n, t.InRange ((entriesPoly r.terms.entries).coeff n)) ∧
      red t (entriesPoly r.terms.entries) =
        red t (absStep (entriesPoly p.terms.entries) (o.map fun q => entriesPoly q.terms.entries)) := by
  have hp' := (inRange_mapPoly t p.terms).2 hp
  have fin : ∀ {m : Res (Sparse Int)} {P : ℤ[X]}, (∃ r, m = .ok r ∧ IsWrapOfS t r P) →
      ∃ r, m = .ok r ∧ (∀ n, t.InRange ((entriesPoly r.terms.entries).coeff n)) ∧
        red t (entriesPoly r.terms.entries) = red t P :=
    fun ⟨r, e, f⟩ => ⟨r, e, (inRange_mapPoly t r.terms).1 f.1, f.red_eq⟩
  have exact' : ∀ o : Op (Sparse Int) Int, NoMinShift o →
      OpFits t (MulFitsUp t) (entriesPoly p.terms.entries) (o.map fun q => entriesPoly q.terms.entries) →
      ∃ r, p.step o = .ok r ∧ (∀ n, t.InRange ((entriesPoly r.terms.entries).coeff n)) ∧
        red t (entriesPoly r.terms.entries) =
          red t (absStep (entriesPoly p.terms.entries) (o.map fun q => entriesPoly q.terms.entries)) := by
    intro o h H
    obtain ⟨r, e, f⟩ := sparse_step_ok rfl p o h
    exact ⟨r, e, by rw [f]; exact absStep_inRange mulFitsUp_inRange hp H, by rw [f]⟩
  cases o with
  | addTerm c d => exact fin (C81_sparse_add_sub t hb p p ⟨[]⟩ c d hp' hp' ho).2.2.2.2
  | trySubTerm c d =>
    have hs : t.signed = true := hk.1.resolve_right id
    have h := sparse_trySub_chk t hb hs false p c d hp ho
    refine ⟨_, h.trans rfl, ?_⟩
    have hc : ∀ n, (entriesPoly (if c = 0 then p else ⟨p.terms.insert d (t.wrap ((entriesPoly p.terms.entries).coeff d - c))⟩ :
        Sparse Int).terms.entries).coeff n = t.wrap ((entriesPoly p.terms.entries - C c * X ^ d).coeff n) := by
      intro n
      rw [sparse_put t hb hs p c d _ (fun h => by rw [h, sub_zero, t.wrap_of_inRange hb _ (hp d)]),
        sub_eq_add_neg, sub_eq_add_neg, ← neg_mul, ← C_neg, coeff_term_add]
      split_ifs
      · rfl
      · rw [t.wrap_of_inRange hb _ (hp n)]
    refine ⟨fun n => by rw [hc]; exact t.wrap_inRange hb _, (red_eq_iff t _ _).2 fun n => ?_⟩
    rw [hc, t.wrap_of_inRange hb _ (t.wrap_inRange hb _)]
    rfl
  | addAssign q => exact fin (C81_sparse_add_sub t hb p q ⟨[]⟩ 0 0 hp' ((inRange_mapPoly t q.terms).2 ho) t.zero_inRange).2.1
  | subAssign q => exact fin (C81_sparse_add_sub t hb p q ⟨[]⟩ 0 0 hp' ((inRange_mapPoly t q.terms).2 ho) t.zero_inRange).2.2.1
  | mulAssign q => exact fin (C81_sparse_mul t hb p q)
  | mulAssignScalar c =>
    have h := (C81_sparse_scalar t hb p c).2.2
    rw [mul_comm] at h
    exact fin h
  | shlAssign k => exact exact' (.shlAssign k) hk.2 hk.2
  | shrAssign k => exact exact' (.shrAssign k) hk.2 hk.2
  | trim => exact exact' .trim trivial hp
  | setToZero => exact exact' .setToZero trivial (fun n => by
      show t.InRange ((0 : ℤ[X]).coeff n)
      rw [coeff_zero]; exact t.zero_inRange)

/-! ## C106 -/

/-- No product of the history has both operands zero when its turn comes. -/
def NoZeroProduct {R : Type} [Ring R] : R[X] → List (Op R[X] R) → Prop
  | _, [] => True
  | P, o :: ops => SafeMod P o ∧ NoZeroProduct (absStep P o) ops

/-- C106 (`Polynomial`, overflow checks): a history of mutations of any length over a machine type, from any value and with
any operands of the type, returns exactly when no step of the same history of mathematical polynomials overflows; the result
is then the mathematical one, and it panics otherwise.  `try_sub_term` of an unsigned type is left to C30 and C104. -/
theorem C106_dense_checked (ops : List (Op (Poly Int) Int)) (p : Poly Int) (hp : AllIn t p.terms)
    (ho : ∀ o ∈ ops, OperandsIn t (o.map fun q => descPoly q.terms)) (hs : ∀ o ∈ ops, t.signed = true ∨ NoSubTerm o) :
    let specOps := ops.map fun o => o.map fun q => descPoly q.terms
    (FitsRun t (MulFitsDown t) (descPoly p.terms) specOps →
      ∃ r, runOps (Poly.stepM (.machine true t) t.canNegate) p ops = .ok r ∧
        descPoly r.terms = absRun (descPoly p.terms) specOps ∧ AllIn t r.terms) ∧
    (¬ FitsRun t (MulFitsDown t) (descPoly p.terms) specOps →
      runOps (Poly.stepM (.machine true t) t.canNegate) p ops = .panic) := by
  have h := run_checked (t := t) (repr := fun q : Poly Int => descPoly q.terms)
    (stepM := Poly.stepM (.machine true t) t.canNegate) mulFitsDown_inRange (ok := fun o => t.signed = true ∨ NoSubTerm o)
    (dense_stepM_checked t) ops p ((inRange_descPoly t p.terms).1 hp) ho hs
  refine ⟨fun H => ?_, h.2⟩
  obtain ⟨r, e, f, g⟩ := h.1 H
  exact ⟨r, e, f, (inRange_descPoly t r.terms).2 g⟩

/-- `(50x + 1) += 77x`, `*= (x - 1)` over `i8`: `127x² - 126x - 1`; one more `x` overflows. -/
example :
    runOps (Poly.stepM (.machine true ⟨true, 8⟩) true) ⟨[50, 1]⟩ [.addTerm 77 1, .mulAssign ⟨[1, -1]⟩] = .ok ⟨[127, -126, -1]⟩ ∧
    runOps (Poly.stepM (.machine true ⟨true, 8⟩) true) ⟨[50, 1]⟩ [.addTerm 78 1, .mulAssign ⟨[1, -1]⟩] = .panic := by decide

example : OperandsIn ⟨true, 8⟩ (Op.map (fun q : Poly Int => descPoly q.terms) (.addTerm 77 1)) := by
  show IntTy.InRange _ _
  decide

/-- C106 (`SparsePolynomial`, overflow checks): as for `Polynomial`; products are summed from the low end, and zero may be
multiplied by zero. -/
theorem C106_sparse_checked (hb : 1 ≤ t.bits) (ops : List (Op (Sparse Int) Int)) (p : Sparse Int)
    (hp : ∀ e ∈ p.terms.entries, t.InRange e.2)
    (ho : ∀ o ∈ ops, OperandsIn t (o.map fun q => entriesPoly q.terms.entries))
    (hs : ∀ o ∈ ops, t.signed = true ∨ NoSubTerm o) :
    let specOps := ops.map fun o => o.map fun q => entriesPoly q.terms.entries
    (FitsRun t (MulFitsUp t) (entriesPoly p.terms.entries) specOps →
      ∃ r, runOps (Sparse.stepM (.machine true t) t.canNegate) p ops = .ok r ∧
        entriesPoly r.terms.entries = absRun (entriesPoly p.terms.entries) specOps ∧ ∀ e ∈ r.terms.entries, t.InRange e.2) ∧
    (¬ FitsRun t (MulFitsUp t) (entriesPoly p.terms.entries) specOps →
      runOps (Sparse.stepM (.machine true t) t.canNegate) p ops = .panic) := by
  have h := run_checked (t := t) (repr := fun q : Sparse Int => entriesPoly q.terms.entries)
    (stepM := Sparse.stepM (.machine true t) t.canNegate) mulFitsUp_inRange (ok := fun o => t.signed = true ∨ NoSubTerm o)
    (sparse_stepM_checked t hb) ops p ((inRange_mapPoly t p.terms).1 hp) ho hs
  refine ⟨fun H => ?_, h.2⟩
  obtain ⟨r, e, f, g⟩ := h.1 H
  exact ⟨r, e, f, (inRange_mapPoly t r.terms).2 g⟩

/-- Over `u8` the same history of sparse polynomials: `200x³ += 55x³` fits, `<<= 2`, `>>= 1` keep it, `*= 2` overflows. -/
example :
    (do
      let r ← runOps (Sparse.stepM (.machine true ⟨false, 8⟩) false) (Sparse.fromVec [200, 0, 0, 0])
        [.addTerm 55 3, .shlAssign 2, .shrAssign 1]
      Res.ok r.terms.entries) = .ok [(4, 255)] ∧
    (do
      let r ← runOps (Sparse.stepM (.machine true ⟨false, 8⟩) false) (Sparse.fromVec [200, 0, 0, 0])
        [.addTerm 55 3, .shlAssign 2, .mulAssignScalar 2]
      Res.ok r.terms.entries) = .panic := by decide

/-- C106 (`Polynomial`, no overflow checks): a history without shifts by `i32::MIN` returns exactly when, with all numbers taken
modulo `2 ^ bits`, it never multiplies zero by zero; the result then holds the coefficients of the mathematical result of the
whole history, reduced to the type once at the end.  It panics otherwise. -/
theorem C106_dense_wrap (hb : 1 ≤ t.bits) (ops : List (Op (Poly Int) Int)) (p : Poly Int) (hp : AllIn t p.terms)
    (ho : ∀ o ∈ ops, OperandsIn t (o.map fun q => descPoly q.terms))
    (hs : ∀ o ∈ ops, (t.signed = true ∨ NoSubTerm o) ∧ NoMinShift o) :
    let specOps := ops.map fun o => o.map fun q => descPoly q.terms
    let modOps := specOps.map fun o => o.modulo (2 ^ t.bits)
    let P := (descPoly p.terms).map (Int.castRingHom (ZMod (2 ^ t.bits)))
    (NoZeroProduct P modOps → ∃ r, runOps (Poly.stepM (.machine false t) t.canNegate) p ops = .ok r ∧
      IsWrapOf t r (absRun (descPoly p.terms) specOps)) ∧
    (¬ NoZeroProduct P modOps → runOps (Poly.stepM (.machine false t) t.canNegate) p ops = .panic) := by
  have h := run_wrap (t := t) (repr := fun q : Poly Int => descPoly q.terms)
    (stepM := Poly.stepM (.machine false t) t.canNegate) SafeMod
    (ok := fun o => (t.signed = true ∨ NoSubTerm o) ∧ NoMinShift o) (dense_stepM_wrap t hb) NoZeroProduct
    (fun _ => trivial) (fun _ _ _ => Iff.rfl) ops p (descPoly p.terms) rfl ((inRange_descPoly t p.terms).1 hp) ho hs
  simp only [List.map_map]
  refine ⟨fun H => ?_, fun H => h.2 H⟩
  obtain ⟨r, e, g, f⟩ := h.1 H
  exact ⟨r, e, (inRange_descPoly t r.terms).2 g, wrap_of_red hb g f⟩

/-- Overflow on the way does not matter without overflow checks: `100 + 100 - 100 = 100` over `i8`.  But `16 * 16 = 0`, and
`0 * 0` panics. -/
example :
    runOps (Poly.stepM (.machine false ⟨true, 8⟩) true) ⟨[100]⟩ [.addAssign ⟨[100]⟩, .subAssign ⟨[100]⟩] = .ok ⟨[100]⟩ ∧
    runOps (Poly.stepM (.machine true ⟨true, 8⟩) true) ⟨[100]⟩ [.addAssign ⟨[100]⟩, .subAssign ⟨[100]⟩] = .panic ∧
    runOps (Poly.stepM (.machine false ⟨true, 8⟩) true) ⟨[16]⟩ [.mulAssignScalar 16, .mulAssign ⟨[0]⟩] = .panic ∧
    runOps (Poly.step (N := Int)) ⟨[16]⟩ [.mulAssignScalar 16, .mulAssign ⟨[0]⟩] = .ok ⟨[]⟩ := by decide

/-- C106 (`SparsePolynomial`, no overflow checks): a history without shifts by `i32::MIN` always returns, and the result holds
the coefficients of the mathematical result of the whole history, reduced to the type once at the end. -/
theorem C106_sparse_wrap (hb : 1 ≤ t.bits) (ops : List (Op (Sparse Int) Int)) (p : Sparse Int)
    (hp : ∀ e ∈ p.terms.entries, t.InRange e.2)
    (ho : ∀ o ∈ ops, OperandsIn t (o.map fun q => entriesPoly q.terms.entries))
    (hs : ∀ o ∈ ops, (t.signed = true ∨ NoSubTerm o) ∧ NoMinShift o) :
    ∃ r, runOps (Sparse.stepM (.machine false t) t.canNegate) p ops = .ok r ∧
      IsWrapOfS t r (absRun (entriesPoly p.terms.entries) (ops.map fun o => o.map fun q => entriesPoly q.terms.entries)) := by
  have h := run_wrap (t := t) (repr := fun q : Sparse Int => entriesPoly q.terms.entries)
    (stepM := Sparse.stepM (.machine false t) t.canNegate) (fun _ _ => True)
    (ok := fun o => (t.signed = true ∨ NoSubTerm o) ∧ NoMinShift o)
    (fun s o h1 h2 h3 => ⟨fun _ => sparse_stepM_wrap t hb s o h1 h2 h3, fun H => absurd trivial H⟩) (fun _ _ => True)
    (fun _ => trivial) (fun _ _ _ => by simp) ops p (entriesPoly p.terms.entries) rfl ((inRange_mapPoly t p.terms).1 hp) ho hs
  obtain ⟨r, e, g, f⟩ := h.1 trivial
  exact ⟨r, e, (inRange_mapPoly t r.terms).2 g, wrap_of_red hb g f⟩

/-- Sparse: `100x² - 100x² - 100x² = -100x²`, by `try_sub_term` over `i8`, then `*= x² + 2` gives `-100x⁴ - 200x²`, that is
`-100x⁴ + 56x²`. -/
example :
    (do
      let r ← runOps (Sparse.stepM (.machine false ⟨true, 8⟩) true) (Sparse.fromVec [100, 0, 0])
        [.trySubTerm 100 2, .trySubTerm 100 2, .mulAssign (Sparse.fromVec [1, 0, 2])]
      Res.ok r.terms.entries) = .ok [(2, 56), (4, -100)] := by decide

end

end Rustnomial
