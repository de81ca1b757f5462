import Verif.Props.Interchange
import Verif.Props.Mutation
import Verif.Model.History
import Mathlib.Algebra.Polynomial.Inductions

/-!
# Any history of mutations behaves like an abstract polynomial (C53)
-/

open Polynomial

set_option linter.unusedSectionVars false

namespace Rustnomial

/-- Specification: the effect of one operation on a mathematical polynomial.  `divX` removes the constant
term and lowers every degree by one. -/
noncomputable def absStep {R : Type} [Ring R] (P : R[X]) : Op R[X] R → R[X]
  | .addTerm c d => P + C c * X ^ d
  | .trySubTerm c d => P - C c * X ^ d
  | .addAssign Q => P + Q
  | .subAssign Q => P - Q
  | .mulAssign Q => P * Q
  | .mulAssignScalar c => C c * P
  | .shlAssign k => if 0 ≤ k then P * X ^ k.toNat else divX^[(-k).toNat] P
  | .shrAssign k => if 0 ≤ k then divX^[k.toNat] P else P * X ^ (-k).toNat
  | .trim => P
  | .setToZero => 0

/-- Specification: the effect of a sequence of operations. -/
noncomputable def absRun {R : Type} [Ring R] (P : R[X]) (ops : List (Op R[X] R)) : R[X] :=
  ops.foldl absStep P

/-- The same operation with another operand type. -/
def Op.map {P Q N : Type} (f : P → Q) : Op P N → Op Q N
  | .addTerm c d => .addTerm c d
  | .trySubTerm c d => .trySubTerm c d
  | .addAssign q => .addAssign (f q)
  | .subAssign q => .subAssign (f q)
  | .mulAssign q => .mulAssign (f q)
  | .mulAssignScalar c => .mulAssignScalar c
  | .shlAssign k => .shlAssign k
  | .shrAssign k => .shrAssign k
  | .trim => .trim
  | .setToZero => .setToZero

/-- The operation does not shift by `i32::MIN` and does not multiply zero by zero. -/
def SafeStep {R : Type} [Ring R] (P : R[X]) : Op R[X] R → Prop
  | .mulAssign Q => P ≠ 0 ∨ Q ≠ 0
  | .shlAssign k => k ≠ -2 ^ 31
  | .shrAssign k => k ≠ -2 ^ 31
  | _ => True

/-- Every operation of the history is safe when its turn comes. -/
def SafeRun {R : Type} [Ring R] : R[X] → List (Op R[X] R) → Prop
  | _, [] => True
  | P, o :: ops => SafeStep P o ∧ SafeRun (absStep P o) ops

/-- No shift by `i32::MIN`. -/
def NoMinShift {P N : Type} : Op P N → Prop
  | .shlAssign k => k ≠ -2 ^ 31
  | .shrAssign k => k ≠ -2 ^ 31
  | _ => True

theorem IsShiftRight.divX {R : Type} [Semiring R] {P Q : R[X]} {k : Nat} (h : IsShiftRight P Q k) :
    Q = Polynomial.divX^[k] P := by
  ext d
  rw [h]
  clear h
  induction k generalizing d with
  | zero => simp
  | succ k ih => rw [Function.iterate_succ_apply', coeff_divX, ← ih]; congr 1; omega

section
variable {R : Type} [CommRing R] [NumZero R] [LawfulNumZero R] [CanNegate R]

theorem dense_step_ok (hn : CanNegate.canNegate R = true) (p : Poly R) (o : Op (Poly R) R)
    (hs : SafeStep (descPoly p.terms) (o.map fun q => descPoly q.terms)) :
    ∃ r, p.step o = .ok r ∧
      descPoly r.terms = absStep (descPoly p.terms) (o.map fun q => descPoly q.terms) := by
  cases o with
  | addTerm c d => exact ⟨_, rfl, C31_dense_add_term p c d⟩
  | trySubTerm c d =>
    obtain ⟨r, e, f⟩ := (C29_dense p c d).2.1 (.inl hn)
    exact ⟨r, by rw [Poly.step, e], f⟩
  | addAssign q => exact C08_dense_add_assign p q
  | subAssign q => exact C09_dense_sub p q
  | mulAssign q => exact (C11_dense_mul_partial p q hs).1
  | mulAssignScalar c => exact ⟨_, rfl, C13_dense_mul_assign_scalar p c⟩
  | shlAssign k =>
    obtain ⟨r, e, f, g⟩ := (C14_dense_shift_assign_partial p k hs).1
    refine ⟨r, e, ?_⟩
    simp only [absStep, Op.map]
    split_ifs with hk
    · exact f hk
    · exact (g (by omega)).divX
  | shrAssign k =>
    obtain ⟨r, e, f, g⟩ := (C14_dense_shift_assign_partial p k hs).2
    refine ⟨r, e, ?_⟩
    simp only [absStep, Op.map]
    split_ifs with hk
    · exact (f hk).divX
    · exact g (by omega)
  | trim => exact ⟨_, rfl, by rw [← (C01_trim_idempotent p).2.2]; exact C01_new_same_polynomial _⟩
  | setToZero => exact ⟨_, rfl, (C02_dense_zero p).2.2.2⟩

theorem dense_step_panic (p : Poly R) (o : Op (Poly R) R)
    (hs : ¬ SafeStep (descPoly p.terms) (o.map fun q => descPoly q.terms)) : p.step o = .panic := by
  cases o with
  | mulAssign q =>
    refine ((C11_dense_mul_panics_iff p q).1).2 ?_
    simpa [SafeStep, Op.map] using hs
  | shlAssign k =>
    have : k = -2 ^ 31 := by simpa [SafeStep, Op.map] using hs
    subst this
    show p.shlAssign _ = _
    rw [Poly.shlAssign, if_pos (by decide), negI32_min]; rfl
  | shrAssign k =>
    have : k = -2 ^ 31 := by simpa [SafeStep, Op.map] using hs
    subst this
    show p.shrAssign _ = _
    rw [Poly.shrAssign, if_pos (by decide), negI32_min]; rfl
  | _ => exact absurd trivial hs

/-- C53 (Polynomial): a history of mutations of any length, from any value (trimmed or not) and with any
operands, returns exactly when it never multiplies zero by zero and never shifts by `i32::MIN`, and then
every observation of the final value is the one of the mathematical polynomial obtained by the same
history. -/
theorem C53_dense_history_partial (hn : CanNegate.canNegate R = true) [BEq R] [LawfulBEq R]
    (ops : List (Op (Poly R) R)) (p : Poly R) :
    let specOps := ops.map fun o => o.map fun q => descPoly q.terms
    (SafeRun (descPoly p.terms) specOps → ∃ r, runOps Poly.step p ops = .ok r ∧
      let P := absRun (descPoly p.terms) specOps
      r.degree.toWithBot = P.degree ∧ (∀ d, (r.termWithDegree d).poly = C (P.coeff d) * X ^ d) ∧
      (∀ x, r.eval x = P.eval x) ∧ IsTermListOf r.termsAsVec P ∧
      (∀ q : Poly R, r.eq q = true ↔ P = descPoly q.terms)) ∧
    (¬ SafeRun (descPoly p.terms) specOps → runOps Poly.step p ops = .panic) := by
  intro specOps
  have key : ∀ (ops : List (Op (Poly R) R)) (p : Poly R),
      (SafeRun (descPoly p.terms) (ops.map fun o => o.map fun q => descPoly q.terms) →
        ∃ r, runOps Poly.step p ops = .ok r ∧
          descPoly r.terms = absRun (descPoly p.terms) (ops.map fun o => o.map fun q => descPoly q.terms)) ∧
      (¬ SafeRun (descPoly p.terms) (ops.map fun o => o.map fun q => descPoly q.terms) →
        runOps Poly.step p ops = .panic) := by
    intro ops
    induction ops with
    | nil => intro p; exact ⟨fun _ => ⟨p, rfl, rfl⟩, fun h => absurd trivial h⟩
    | cons o ops ih =>
      intro p
      rw [runOps, List.foldlM_cons]
      by_cases hs : SafeStep (descPoly p.terms) (o.map fun q => descPoly q.terms)
      · obtain ⟨r, e, f⟩ := dense_step_ok hn p o hs
        rw [e, Res.ok_bind]
        have := ih r
        rw [f] at this
        refine ⟨fun h => this.1 h.2, fun h => this.2 fun h' => h ⟨hs, h'⟩⟩
      · rw [dense_step_panic p o hs]
        exact ⟨fun h => absurd h.1 hs, fun _ => rfl⟩
  refine ⟨fun h => ?_, (key ops p).2⟩
  obtain ⟨r, e, f⟩ := (key ops p).1 h
  refine ⟨r, e, ?_⟩
  simp only [specOps]
  rw [← f]
  refine ⟨C02_dense_degree r, fun d => ?_, C06_dense_eval r, ?_, C05_dense_eq r⟩
  · by_cases h0 : (descPoly r.terms).coeff d = 0
    · rw [(C04_dense_term r d).1 h0, h0]; simp [Term.poly]
    · rw [(C04_dense_term r d).2 h0]; rfl
  · rw [(C03_dense_terms r).2]; exact (C03_dense_terms r).1

theorem sparse_step_ok (hn : CanNegate.canNegate R = true) (p : Sparse R) (o : Op (Sparse R) R)
    (hs : NoMinShift o) :
    ∃ r, p.step o = .ok r ∧ entriesPoly r.terms.entries
      = absStep (entriesPoly p.terms.entries) (o.map fun q => entriesPoly q.terms.entries) := by
  cases o with
  | addTerm c d => exact ⟨_, rfl, C31_sparse_add_term p c d⟩
  | trySubTerm c d =>
    obtain ⟨r, e, f⟩ := (C29_sparse p c d).2.1 (.inl hn)
    exact ⟨r, by rw [Sparse.step, e], f⟩
  | addAssign q => exact ⟨_, rfl, (C25_sparse_add p q).2⟩
  | subAssign q => exact ⟨_, rfl, C25_sparse_sub p q⟩
  | mulAssign q => exact ⟨_, rfl, C26_sparse_mul p q⟩
  | mulAssignScalar c => exact ⟨_, rfl, (C13_sparse_mul_scalar p c).2⟩
  | shlAssign k =>
    obtain ⟨r, e, f, g⟩ := (C15_sparse_shift_partial p k hs).1
    refine ⟨r, e, ?_⟩
    simp only [absStep, Op.map]
    split_ifs with hk
    · exact f hk
    · exact (g (by omega)).divX
  | shrAssign k =>
    obtain ⟨r, e, f, g⟩ := (C15_sparse_shift_partial p k hs).2
    refine ⟨r, e, ?_⟩
    simp only [absStep, Op.map]
    split_ifs with hk
    · exact (f hk).divX
    · exact g (by omega)
  | trim => exact ⟨_, rfl, (C01_sparse_trim p).1⟩
  | setToZero => exact ⟨_, rfl, (C02_sparse_zero p).2.2.2⟩

/-- C53 (SparsePolynomial): as for Polynomial; the only excluded operation is a shift by `i32::MIN`.
Evaluation is `C07`: exact for exponents below the bound of the power function. -/
theorem C53_sparse_history_partial (hn : CanNegate.canNegate R = true) [BEq R] [LawfulBEq R] [PowUsize R]
    [hl : LawfulPowUsize R] (ops : List (Op (Sparse R) R)) (p : Sparse R) (hs : ∀ o ∈ ops, NoMinShift o) :
    ∃ r, runOps Sparse.step p ops = .ok r ∧
      let P := absRun (entriesPoly p.terms.entries) (ops.map fun o => o.map fun q => entriesPoly q.terms.entries)
      r.degree.toWithBot = P.degree ∧ (∀ d, (r.termWithDegree d).poly = C (P.coeff d) * X ^ d) ∧
      ((∀ d, P.coeff d ≠ 0 → d < hl.bound) → ∀ x, r.eval x = P.eval x) ∧ IsTermListOf r.termsAsVec P ∧
      (∀ q : Sparse R, r.eq q = true ↔ P = entriesPoly q.terms.entries) := by
  have key : ∀ (ops : List (Op (Sparse R) R)) (p : Sparse R), (∀ o ∈ ops, NoMinShift o) →
      ∃ r, runOps Sparse.step p ops = .ok r ∧ entriesPoly r.terms.entries
        = absRun (entriesPoly p.terms.entries) (ops.map fun o => o.map fun q => entriesPoly q.terms.entries) := by
    intro ops
    induction ops with
    | nil => intro p _; exact ⟨p, rfl, rfl⟩
    | cons o ops ih =>
      intro p hs
      obtain ⟨r, e, f⟩ := sparse_step_ok hn p o (hs o (by simp))
      obtain ⟨r', e', f'⟩ := ih r (fun o ho => hs o (by simp [ho]))
      refine ⟨r', ?_, ?_⟩
      · rw [runOps, List.foldlM_cons, e, Res.ok_bind]; exact e'
      · rw [f', f]; rfl
  obtain ⟨r, e, f⟩ := key ops p hs
  refine ⟨r, e, ?_⟩
  simp only
  rw [← f]
  refine ⟨C02_sparse_degree r, fun d => ?_, fun hb x => ?_, ?_, C05_sparse_eq r⟩
  · by_cases h0 : (entriesPoly r.terms.entries).coeff d = 0
    · rw [(C04_sparse_term r d).1 h0, h0]; simp [Term.poly]
    · rw [(C04_sparse_term r d).2 h0]; rfl
  · rw [sparse_eval_sum, eval_eq_sum]
    unfold Polynomial.sum
    refine Finset.sum_congr rfl fun k hk => ?_
    simp only [LawfulPowUsize.upow_eq x k (hb k (mem_support_iff.1 hk))]
  · rw [(C03_sparse_terms r).2]; exact (C03_sparse_terms r).1

/-- C53, independence of the representation: two histories which differ only in how the start value and
the operands are represented end the same way. -/
theorem C53_dense_representation (hn : CanNegate.canNegate R = true) [BEq R] [LawfulBEq R]
    (ops ops' : List (Op (Poly R) R)) (p p' : Poly R) (h : p.eq p' = true)
    (hops : ops.map (fun o => o.map fun q => descPoly q.terms)
      = ops'.map (fun o => o.map fun q => descPoly q.terms)) :
    SameOutcome (fun a b => a.eq b = true) (runOps Poly.step p ops) (runOps Poly.step p' ops') := by
  have hp : descPoly p.terms = descPoly p'.terms := (C05_dense_eq _ _).1 h
  obtain ⟨h1, h2⟩ := C53_dense_history_partial hn ops p
  obtain ⟨h1', h2'⟩ := C53_dense_history_partial hn ops' p'
  rw [← hp, ← hops] at h1' h2'
  by_cases hs : SafeRun (descPoly p.terms) (ops.map fun o => o.map fun q => descPoly q.terms)
  · obtain ⟨r, e, _, _, _, _, g⟩ := h1 hs
    obtain ⟨r', e', _, _, _, _, g'⟩ := h1' hs
    refine .of_ok e e' ((g r').2 ?_)
    exact (g' r').1 ((C05_dense_eq _ _).2 rfl)
  · rw [h2 hs, h2' hs]; trivial

/-- C53, the two types: the same history on a Polynomial and on a SparsePolynomial gives values which
print, iterate and compare alike, unless the dense one panics on `0 * 0`. -/
theorem C53_dense_sparse_partial (hn : CanNegate.canNegate R = true) [BEq R] [LawfulBEq R]
    [PowUsize R] [hl : LawfulPowUsize R] (ops : List (Op (Poly R) R)) (ops' : List (Op (Sparse R) R))
    (p : Poly R) (s : Sparse R) (h : SamePoly p s)
    (hops : ops.map (fun o => o.map fun q => descPoly q.terms)
      = ops'.map (fun o => o.map fun q => entriesPoly q.terms.entries))
    (hs : ∀ o ∈ ops', NoMinShift o) :
    Agree (fun a b => a.termsAsVec = b.termsAsVec ∧ a.degree = b.degree ∧
      ∀ F : NumFmt R, a.display F = b.display F) (runOps Poly.step p ops) (runOps Sparse.step s ops') := by
  intro a b ha hb
  obtain ⟨h1, h2⟩ := C53_dense_history_partial hn ops p
  obtain ⟨r', e', _, _, _, _, g'⟩ := C53_sparse_history_partial hn ops' s hs
  by_cases hsafe : SafeRun (descPoly p.terms) (ops.map fun o => o.map fun q => descPoly q.terms)
  · obtain ⟨r, e, _, _, _, _, g⟩ := h1 hsafe
    rw [ha] at e; rw [hb] at e'
    have e := Res.ok.inj e
    have e' := Res.ok.inj e'
    subst e e'
    have k1 := (g a).1 ((C05_dense_eq _ _).2 rfl)
    have k2 := (g' b).1 ((C05_sparse_eq _ _).2 rfl)
    have hab : SamePoly a b := by
      rw [SamePoly, ← k1, ← k2, hops, h]
    obtain ⟨q1, _, q3, _, _, q6⟩ := C28_queries a b hab
    exact ⟨q3, q1, q6⟩
  · rw [h2 hsafe] at ha; cases ha

end

example : runOps Poly.step (⟨[0, 1]⟩ : Poly ℤ)
    [.addTerm 2 3, .subAssign ⟨[2, 0, 0, 1]⟩, .addAssign ⟨[0, 0, 0, 0, 1, 5]⟩, .shlAssign 1, .mulAssign ⟨[0, 2]⟩]
    = .ok ⟨[2, 10, 0]⟩ := by decide

end Rustnomial
