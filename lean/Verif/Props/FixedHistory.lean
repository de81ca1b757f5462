import Verif.Model.FixedHistory
import Verif.Props.Assign
import Verif.Props.MachineFixed
import Verif.Props.MachineHistory

/-!
# C107: any history of mutations of the fixed-size types, with the result of every step
-/

open Polynomial

namespace Rustnomial

/-! ## Specification -/

section
variable {R : Type} [Ring R]

/-- What a `Result` of an operation is when the term was taken. -/
abbrev taken : Except TryAddError Unit := .ok ()

open Classical in
/-- Terms whose degree the type accepts are added or subtracted; others leave the polynomial and give the error `e`. -/
noncomputable def termSpec (accepts : R[X] → Nat → Prop) (e : TryAddError) (P : R[X]) :
    TermOp R → R[X] × Except TryAddError Unit
  | .tryAddTerm c d => if accepts P d then (P + C c * X ^ d, taken) else (P, .error e)
  | .trySubTerm c d => if accepts P d then (P - C c * X ^ d, taken) else (P, .error e)
  | .setToZero => (0, taken)

/-- A polynomial with room for the degrees below `size`. -/
noncomputable def arraySpec (size : Nat) : R[X] → TermOp R → R[X] × Except TryAddError Unit :=
  termSpec (fun _ d => d < size) .degreeOutOfBounds

/-- A polynomial of degree at most `n`. -/
noncomputable def boundedSpec (n : Nat) (P : R[X]) : BoundedOp R[X] R → R[X] × Except TryAddError Unit
  | .term o => termSpec (fun _ d => d ≤ n) .degreeOutOfBounds P o
  | .addAssign Q => (P + Q, taken)
  | .subAssign Q => (P - Q, taken)
  | .mulAssignScalar c => (C c * P, taken)
  | .shrAssign k => (divX^[k] P, taken)

/-- A polynomial of one term: another term is accepted only when it has the same degree or there is none yet. -/
noncomputable def monomialSpec (P : R[X]) : MonomialOp R[X] R → R[X] × Except TryAddError Unit
  | .term o => termSpec (fun P d => P = 0 ∨ d = P.natDegree) .tooManyTerms P o
  | .mulAssign Q => (P * Q, taken)
  | .mulAssignScalar c => (C c * P, taken)
  | .shlAssign k => (if 0 ≤ k then P * X ^ k.toNat else divX^[(-k).toNat] P, taken)
  | .shrAssign k => (if 0 ≤ k then divX^[k.toNat] P else P * X ^ (-k).toNat, taken)

end

/-- The final state and the results of all operations. -/
def logRun {Q O : Type} (spec : Q → O → Q × Except TryAddError Unit) : Q → List O → Q × List (Except TryAddError Unit)
  | q, [] => (q, [])
  | q, o :: ops => ((logRun spec (spec q o).1 ops).1, (spec q o).2 :: (logRun spec (spec q o).1 ops).2)

/-- Every operation of the history satisfies `safe` when its turn comes. -/
def AllSafe {Q O : Type} (spec : Q → O → Q × Except TryAddError Unit) (safe : Q → O → Prop) : Q → List O → Prop
  | _, [] => True
  | q, o :: ops => safe q o ∧ AllSafe spec safe (spec q o).1 ops

/-- The same operation with other operands and numbers. -/
def TermOp.map {N M : Type} (g : N → M) : TermOp N → TermOp M
  | .tryAddTerm c d => .tryAddTerm (g c) d
  | .trySubTerm c d => .trySubTerm (g c) d
  | .setToZero => .setToZero

/-- The same operation with other operands and numbers. -/
def BoundedOp.map {P Q N M : Type} (f : P → Q) (g : N → M) : BoundedOp P N → BoundedOp Q M
  | .term o => .term (o.map g)
  | .addAssign q => .addAssign (f q)
  | .subAssign q => .subAssign (f q)
  | .mulAssignScalar c => .mulAssignScalar (g c)
  | .shrAssign k => .shrAssign k

/-- The same operation with other operands and numbers. -/
def MonomialOp.map {P Q N M : Type} (f : P → Q) (g : N → M) : MonomialOp P N → MonomialOp Q M
  | .term o => .term (o.map g)
  | .mulAssign q => .mulAssign (f q)
  | .mulAssignScalar c => .mulAssignScalar (g c)
  | .shlAssign k => .shlAssign k
  | .shrAssign k => .shrAssign k

/-- No shift by `i32::MIN`. -/
def MonomialOp.NotMin {P N : Type} : MonomialOp P N → Prop
  | .shlAssign k => k ≠ -2 ^ 31
  | .shrAssign k => k ≠ -2 ^ 31
  | _ => True

/-- The coefficient of the term is a value of the type. -/
def TermOp.In (t : IntTy) : TermOp ℤ → Prop
  | .tryAddTerm c _ => t.InRange c
  | .trySubTerm c _ => t.InRange c
  | .setToZero => True

/-- The operands are values of the type. -/
def BoundedOp.In {P : Type} (t : IntTy) (repr : P → ℤ[X]) : BoundedOp P ℤ → Prop
  | .term o => o.In t
  | .addAssign q => ∀ n, t.InRange ((repr q).coeff n)
  | .subAssign q => ∀ n, t.InRange ((repr q).coeff n)
  | .mulAssignScalar c => t.InRange c
  | .shrAssign _ => True

/-- The operands are values of the type. -/
def MonomialOp.In {P : Type} (t : IntTy) (repr : P → ℤ[X]) : MonomialOp P ℤ → Prop
  | .term o => o.In t
  | .mulAssign q => ∀ n, t.InRange ((repr q).coeff n)
  | .mulAssignScalar c => t.InRange c
  | _ => True

/-- All coefficients are values of the type after the operation. -/
def FitsAfter {O : Type} (t : IntTy) (spec : ℤ[X] → O → ℤ[X] × Except TryAddError Unit) (P : ℤ[X]) (o : O) : Prop :=
  ∀ n, t.InRange ((spec P o).1.coeff n)

/-! ## Induction over the history -/

theorem runLog_spec {S O Q O' : Type} {step : S → O → Res (S × Except TryAddError Unit)} {repr : S → Q} {f : O → O'}
    {spec : Q → O' → Q × Except TryAddError Unit} {safe : Q → O' → Prop} {inv : S → Prop} {ok : O → Prop}
    (hstep : ∀ s o, inv s → ok o →
      (safe (repr s) (f o) → ∃ r, step s o = .ok r ∧ inv r.1 ∧ (repr r.1, r.2) = spec (repr s) (f o)) ∧
      (¬ safe (repr s) (f o) → step s o = .panic)) :
    ∀ (ops : List O) (s : S), inv s → (∀ o ∈ ops, ok o) →
      (AllSafe spec safe (repr s) (ops.map f) → ∃ r, runLog step s ops = .ok r ∧ inv r.1 ∧
        (repr r.1, r.2) = logRun spec (repr s) (ops.map f)) ∧
      (¬ AllSafe spec safe (repr s) (ops.map f) → runLog step s ops = .panic) := by
  intro ops
  induction ops with
  | nil => exact fun s hs _ => ⟨fun _ => ⟨_, rfl, hs, rfl⟩, fun h => absurd trivial h⟩
  | cons o ops ih =>
    intro s hs ho
    obtain ⟨h1, h2⟩ := hstep s o hs (ho o (by simp))
    by_cases hf : safe (repr s) (f o)
    · obtain ⟨r, e, hr, g⟩ := h1 hf
      have g1 : repr r.1 = (spec (repr s) (f o)).1 := congrArg Prod.fst g
      have g2 : r.2 = (spec (repr s) (f o)).2 := congrArg Prod.snd g
      obtain ⟨i1, i2⟩ := ih r.1 hr (fun o h => ho o (by simp [h]))
      rw [runLog, e, Res.ok_bind]
      rw [g1] at i1 i2
      refine ⟨fun h => ?_, fun h => ?_⟩
      · obtain ⟨q, e', hq, g'⟩ := i1 h.2
        rw [e', Res.ok_bind]
        refine ⟨_, rfl, hq, ?_⟩
        rw [List.map_cons, logRun, ← g', g2]
      · rw [i2 fun h' => h ⟨hf, h'⟩]; rfl
    · rw [runLog, h2 hf]
      exact ⟨fun h => absurd h.1 hf, fun _ => rfl⟩

theorem allSafe_true {Q O : Type} (spec : Q → O → Q × Except TryAddError Unit) : ∀ (ops : List O) (q : Q),
    AllSafe spec (fun _ _ => True) q ops
  | [], _ => trivial
  | _ :: ops, _ => ⟨trivial, allSafe_true spec ops _⟩

theorem allSafe_const {Q O : Type} (spec : Q → O → Q × Except TryAddError Unit) (P : O → Prop) : ∀ (ops : List O) (q : Q),
    AllSafe spec (fun _ o => P o) q ops ↔ ∀ o ∈ ops, P o
  | [], _ => by simp [AllSafe]
  | o :: ops, q => by rw [AllSafe, allSafe_const spec P ops]; simp

/-! ## Exact arithmetic -/

section
variable {R : Type} [CommRing R]

/-- C107 (`ArrayPolynomial`): a history of mutations never panics; the final polynomial and the result of every step are those
of the mathematical history, whose terms of degree `size` or more are refused. -/
theorem C107_array {size : Nat} (ops : List (TermOp R)) (p : ArrayPoly R size) :
    ∃ r, runLog ArrayPoly.step p ops = .ok r ∧
      (descPoly r.1.coefficients, r.2) = logRun (arraySpec size) (descPoly p.coefficients) ops := by
  have h := runLog_spec (step := ArrayPoly.step) (repr := fun p : ArrayPoly R size => descPoly p.coefficients) (f := id)
    (spec := arraySpec size) (safe := fun _ _ => True) (inv := fun _ => True) (ok := fun _ => True) (fun s o _ _ => by
      refine ⟨fun _ => ?_, fun h => absurd trivial h⟩
      have key := fun c d => C29_array s c d
      cases o with
      | tryAddTerm c d =>
        refine ⟨_, rfl, trivial, ?_⟩
        by_cases hd : d < size
        · obtain ⟨r, e, f⟩ := ((key c d).1 hd).1
          simp only [id, arraySpec, termSpec, if_pos hd, e, f]
        · simp only [id, arraySpec, termSpec, if_neg hd, ((key c d).2 (not_lt.1 hd)).1]
      | trySubTerm c d =>
        refine ⟨_, rfl, trivial, ?_⟩
        by_cases hd : d < size
        · obtain ⟨r, e, f⟩ := ((key c d).1 hd).2
          simp only [id, arraySpec, termSpec, if_pos hd, e, f]
        · simp only [id, arraySpec, termSpec, if_neg hd, ((key c d).2 (not_lt.1 hd)).2]
      | setToZero =>
        refine ⟨_, rfl, trivial, ?_⟩
        simp only [id, arraySpec, termSpec, ArrayPoly.zero]
        congr 1
        ext n
        rw [coeff_descPoly]
        simp) ops p trivial (fun _ _ => trivial)
  rw [List.map_id] at h
  obtain ⟨r, e, _, f⟩ := h.1 (allSafe_true _ _ _)
  exact ⟨r, e, f⟩

theorem linear_step_exact (s : LinearBinomial R) (o : BoundedOp (LinearBinomial R) R) :
    ∃ r, s.step o = .ok r ∧ (r.1.poly, r.2) = boundedSpec 1 s.poly (o.map LinearBinomial.poly id) := by
  cases o with
  | term o =>
    cases o with
    | tryAddTerm c d =>
      refine ⟨_, rfl, ?_⟩
      by_cases hd : d ≤ 1
      · obtain ⟨r, e, f⟩ := ((C29_binomial s c d).1 hd).1
        simp only [id, boundedSpec, BoundedOp.map, TermOp.map, termSpec, if_pos hd, e, f]
      · simp only [id, boundedSpec, BoundedOp.map, TermOp.map, termSpec, if_neg hd, ((C29_binomial s c d).2 (not_le.1 hd)).1]
    | trySubTerm c d =>
      refine ⟨_, rfl, ?_⟩
      by_cases hd : d ≤ 1
      · obtain ⟨r, e, f⟩ := ((C29_binomial s c d).1 hd).2
        simp only [id, boundedSpec, BoundedOp.map, TermOp.map, termSpec, if_pos hd, e, f]
      · simp only [id, boundedSpec, BoundedOp.map, TermOp.map, termSpec, if_neg hd, ((C29_binomial s c d).2 (not_le.1 hd)).2]
    | setToZero =>
      exact ⟨_, rfl, Prod.ext (by
        simp [LinearBinomial.setToZero, LinearBinomial.poly, boundedSpec, BoundedOp.map, TermOp.map, termSpec]) rfl⟩
  | addAssign q => exact ⟨_, rfl, Prod.ext (C51_in_place s q (⟨0, 0, 0⟩ : QuadraticTrinomial R) ⟨0, 0, 0⟩).1 rfl⟩
  | subAssign q => exact ⟨_, rfl, Prod.ext (C51_in_place s q (⟨0, 0, 0⟩ : QuadraticTrinomial R) ⟨0, 0, 0⟩).2.1 rfl⟩
  | mulAssignScalar c =>
    exact ⟨_, rfl, Prod.ext (C13_fixed_mul_assign_scalar (⟨0, 0⟩ : Monomial R) s (⟨0, 0, 0⟩ : QuadraticTrinomial R) c).2.1 rfl⟩
  | shrAssign k =>
    refine ⟨_, rfl, Prod.ext ?_ rfl⟩
    show (s.shrAssign k).poly = _
    rw [(C15_binomial_shr s k).2]
    exact (C15_binomial_shr s k).1.divX

theorem quadratic_step_exact (s : QuadraticTrinomial R) (o : BoundedOp (QuadraticTrinomial R) R) :
    ∃ r, s.step o = .ok r ∧ (r.1.poly, r.2) = boundedSpec 2 s.poly (o.map QuadraticTrinomial.poly id) := by
  cases o with
  | term o =>
    cases o with
    | tryAddTerm c d =>
      refine ⟨_, rfl, ?_⟩
      by_cases hd : d ≤ 2
      · obtain ⟨r, e, f⟩ := ((C29_trinomial s c d).1 hd).1
        simp only [id, boundedSpec, BoundedOp.map, TermOp.map, termSpec, if_pos hd, e, f]
      · simp only [id, boundedSpec, BoundedOp.map, TermOp.map, termSpec, if_neg hd, ((C29_trinomial s c d).2 (not_le.1 hd)).1]
    | trySubTerm c d =>
      refine ⟨_, rfl, ?_⟩
      by_cases hd : d ≤ 2
      · obtain ⟨r, e, f⟩ := ((C29_trinomial s c d).1 hd).2
        simp only [id, boundedSpec, BoundedOp.map, TermOp.map, termSpec, if_pos hd, e, f]
      · simp only [id, boundedSpec, BoundedOp.map, TermOp.map, termSpec, if_neg hd, ((C29_trinomial s c d).2 (not_le.1 hd)).2]
    | setToZero =>
      exact ⟨_, rfl, Prod.ext (by
        simp [QuadraticTrinomial.setToZero, QuadraticTrinomial.poly, boundedSpec, BoundedOp.map, TermOp.map, termSpec]) rfl⟩
  | addAssign q => exact ⟨_, rfl, Prod.ext (C51_in_place (⟨0, 0⟩ : LinearBinomial R) ⟨0, 0⟩ s q).2.2.1 rfl⟩
  | subAssign q => exact ⟨_, rfl, Prod.ext (C51_in_place (⟨0, 0⟩ : LinearBinomial R) ⟨0, 0⟩ s q).2.2.2 rfl⟩
  | mulAssignScalar c =>
    exact ⟨_, rfl, Prod.ext (C13_fixed_mul_assign_scalar (⟨0, 0⟩ : Monomial R) (⟨0, 0⟩ : LinearBinomial R) s c).2.2 rfl⟩
  | shrAssign k =>
    refine ⟨_, rfl, Prod.ext ?_ rfl⟩
    show (s.shrAssign k).poly = _
    rw [(C15_trinomial_shr s k).2]
    exact (C15_trinomial_shr s k).1.divX

theorem monomial_accepts_iff (m : Monomial R) (d : Nat) : (m.poly = 0 ∨ d = m.deg) ↔ (m.poly = 0 ∨ d = m.poly.natDegree) := by
  by_cases h : m.poly = 0
  · simp [h]
  · have hc : m.coefficient ≠ 0 := fun hc => h (by rw [Monomial.poly, hc, C_0, zero_mul])
    rw [Monomial.poly, natDegree_C_mul_X_pow _ _ hc]

variable [NumZero R] [LawfulNumZero R]

theorem monomial_step_exact (s : Monomial R) (o : MonomialOp (Monomial R) R) :
    (o.NotMin → ∃ r, s.step o = .ok r ∧ (r.1.poly, r.2) = monomialSpec s.poly (o.map Monomial.poly id)) ∧
    (¬ o.NotMin → s.step o = .panic) := by
  cases o with
  | term o =>
    refine ⟨fun _ => ?_, fun h => absurd trivial h⟩
    cases o with
    | tryAddTerm c d =>
      refine ⟨_, rfl, ?_⟩
      by_cases hd : s.poly = 0 ∨ d = s.deg
      · obtain ⟨r, e, f⟩ := ((C29_monomial s c d).1 hd).1
        rw [monomial_accepts_iff] at hd
        simp only [id, monomialSpec, MonomialOp.map, TermOp.map, termSpec, if_pos hd, e, f]
      · have e := ((C29_monomial s c d).2 hd).1
        rw [monomial_accepts_iff] at hd
        simp only [id, monomialSpec, MonomialOp.map, TermOp.map, termSpec, if_neg hd, e]
    | trySubTerm c d =>
      refine ⟨_, rfl, ?_⟩
      by_cases hd : s.poly = 0 ∨ d = s.deg
      · obtain ⟨r, e, f⟩ := ((C29_monomial s c d).1 hd).2
        rw [monomial_accepts_iff] at hd
        simp only [id, monomialSpec, MonomialOp.map, TermOp.map, termSpec, if_pos hd, e, f]
      · have e := ((C29_monomial s c d).2 hd).2
        rw [monomial_accepts_iff] at hd
        simp only [id, monomialSpec, MonomialOp.map, TermOp.map, termSpec, if_neg hd, e]
    | setToZero =>
      exact ⟨_, rfl, Prod.ext (C02_fixed_zero s (⟨0, 0⟩ : LinearBinomial R) (⟨0, 0, 0⟩ : QuadraticTrinomial R)).2.1 rfl⟩
  | mulAssign q =>
    exact ⟨fun _ => ⟨_, rfl, Prod.ext (C50_monomial_mul_in_place s q).1 rfl⟩, fun h => absurd trivial h⟩
  | mulAssignScalar c =>
    exact ⟨fun _ => ⟨_, rfl, Prod.ext (C13_fixed_mul_assign_scalar s (⟨0, 0⟩ : LinearBinomial R)
      (⟨0, 0, 0⟩ : QuadraticTrinomial R) c).1 rfl⟩, fun h => absurd trivial h⟩
  | shlAssign k =>
    refine ⟨fun h => ?_, fun h => ?_⟩
    · obtain ⟨r, e, f, g⟩ := (C15_monomial_shift_assign_partial s k h).1
      refine ⟨(r, taken), by rw [Monomial.step, e]; rfl, Prod.ext ?_ rfl⟩
      show r.poly = if _ then _ else _
      split_ifs with hk
      · exact f hk
      · exact (g (not_le.1 hk)).divX
    · have hk : k = -2 ^ 31 := by simpa [MonomialOp.NotMin] using h
      rw [Monomial.step, hk, (C15_monomial_shift_assign_false s).1]; rfl
  | shrAssign k =>
    refine ⟨fun h => ?_, fun h => ?_⟩
    · obtain ⟨r, e, f, g⟩ := (C15_monomial_shift_assign_partial s k h).2
      refine ⟨(r, taken), by rw [Monomial.step, e]; rfl, Prod.ext ?_ rfl⟩
      show r.poly = if _ then _ else _
      split_ifs with hk
      · exact (f hk).divX
      · exact g (not_le.1 hk)
    · have hk : k = -2 ^ 31 := by simpa [MonomialOp.NotMin] using h
      rw [Monomial.step, hk, (C15_monomial_shift_assign_false s).2]; rfl

omit [NumZero R] [LawfulNumZero R] in
/-- C107 (`LinearBinomial`): a history of mutations never panics; the final polynomial and the result of every step are those
of the mathematical history, whose terms of degree above one are refused. -/
theorem C107_binomial (ops : List (BoundedOp (LinearBinomial R) R)) (b : LinearBinomial R) :
    ∃ r, runLog LinearBinomial.step b ops = .ok r ∧
      (r.1.poly, r.2) = logRun (boundedSpec 1) b.poly (ops.map (BoundedOp.map LinearBinomial.poly id)) := by
  obtain ⟨r, e, _, f⟩ := (runLog_spec (step := LinearBinomial.step) (repr := LinearBinomial.poly (R := R))
    (f := BoundedOp.map LinearBinomial.poly id) (spec := boundedSpec 1) (safe := fun _ _ => True) (inv := fun _ => True)
    (ok := fun _ => True) (fun s o _ _ => ⟨fun _ => let ⟨r, e, f⟩ := linear_step_exact s o; ⟨r, e, trivial, f⟩,
      fun h => absurd trivial h⟩) ops b trivial (fun _ _ => trivial)).1 (allSafe_true _ _ _)
  exact ⟨r, e, f⟩

omit [NumZero R] [LawfulNumZero R] in
/-- C107 (`QuadraticTrinomial`): the same with terms of degree above two refused. -/
theorem C107_trinomial (ops : List (BoundedOp (QuadraticTrinomial R) R)) (b : QuadraticTrinomial R) :
    ∃ r, runLog QuadraticTrinomial.step b ops = .ok r ∧
      (r.1.poly, r.2) = logRun (boundedSpec 2) b.poly (ops.map (BoundedOp.map QuadraticTrinomial.poly id)) := by
  obtain ⟨r, e, _, f⟩ := (runLog_spec (step := QuadraticTrinomial.step) (repr := QuadraticTrinomial.poly (R := R))
    (f := BoundedOp.map QuadraticTrinomial.poly id) (spec := boundedSpec 2) (safe := fun _ _ => True) (inv := fun _ => True)
    (ok := fun _ => True) (fun s o _ _ => ⟨fun _ => let ⟨r, e, f⟩ := quadratic_step_exact s o; ⟨r, e, trivial, f⟩,
      fun h => absurd trivial h⟩) ops b trivial (fun _ _ => trivial)).1 (allSafe_true _ _ _)
  exact ⟨r, e, f⟩

/-- C107 (`Monomial`): a history of mutations panics exactly when it contains a shift by `i32::MIN`; otherwise the final polynomial
and the result of every step are those of the mathematical history, where a term of another degree than the one held is
refused. -/
theorem C107_monomial (ops : List (MonomialOp (Monomial R) R)) (m : Monomial R) :
    ((∀ o ∈ ops, o.NotMin) → ∃ r, runLog Monomial.step m ops = .ok r ∧
      (r.1.poly, r.2) = logRun monomialSpec m.poly (ops.map (MonomialOp.map Monomial.poly id))) ∧
    (¬ (∀ o ∈ ops, o.NotMin) → runLog Monomial.step m ops = .panic) := by
  have h := runLog_spec (step := Monomial.step) (repr := Monomial.poly (R := R))
    (f := MonomialOp.map Monomial.poly id) (spec := monomialSpec) (safe := fun _ o => o.NotMin) (inv := fun _ => True)
    (ok := fun _ => True) (fun s o _ _ => by
      have h := monomial_step_exact s o
      have e : (o.map Monomial.poly id).NotMin ↔ o.NotMin := by cases o <;> exact Iff.rfl
      rw [e]
      exact ⟨fun H => let ⟨r, e, f⟩ := h.1 H; ⟨r, e, trivial, f⟩, h.2⟩) ops m trivial (fun _ _ => trivial)
  rw [allSafe_const] at h
  have e : (∀ o ∈ ops.map (MonomialOp.map Monomial.poly id), o.NotMin) ↔ ∀ o ∈ ops, o.NotMin := by
    rw [List.forall_mem_map]
    exact forall₂_congr fun o _ => by cases o <;> exact Iff.rfl
  rw [e] at h
  exact ⟨fun H => let ⟨r, e, _, f⟩ := h.1 H; ⟨r, e, f⟩, h.2⟩

end

/-- The second term is refused and the history goes on: `(5x) += 2x, += x² (refused), -= 1, >>= 1` is `7`. -/
example : runLog LinearBinomial.step (⟨5, 0⟩ : LinearBinomial ℤ)
    [.term (.tryAddTerm 2 1), .term (.tryAddTerm 1 2), .term (.trySubTerm 1 0), .shrAssign 1] =
      .ok (⟨0, 7⟩, [.ok (), .error .degreeOutOfBounds, .ok (), .ok ()]) := by rfl

/-- `5x³` refuses `x²`; after subtracting `5x³` it accepts it. -/
example : runLog Monomial.step (⟨5, 3⟩ : Monomial ℤ)
    [.term (.tryAddTerm 1 2), .term (.trySubTerm 5 3), .term (.tryAddTerm 1 2), .shlAssign 4, .mulAssign ⟨3, 1⟩] =
      .ok (⟨3, 7⟩, [.error .tooManyTerms, .ok (), .ok (), .ok (), .ok ()]) ∧
    runLog Monomial.step (⟨5, 3⟩ : Monomial ℤ) [.mulAssignScalar 0, .shrAssign (-2 ^ 31)] = .panic := by
  constructor <;> rfl

/-! ## Machine integers: one step -/

section
variable {t : IntTy} {S : Type} {repr : S → ℤ[X]} {σ : Int} {e : TryAddError}
  {stepM : S → Int → Nat → Res (S × Except TryAddError Unit)}

open Classical in
theorem sink_step_checked (K : Sink t true S repr σ e stepM) (hi : ∀ s, K.inv s) (hd : ∀ d, K.dom d) (s : S) (c : Int) (d : Nat)
    (hs : ∀ n, t.InRange ((repr s).coeff n)) (hc : t.InRange c) {A : Prop} (hA : K.acc s c d ↔ A)
    {N : ℤ[X] × Except TryAddError Unit} (hN : N = if A then (repr s + C (σ * c) * X ^ d, taken) else (repr s, .error e)) :
    ((∀ n, t.InRange (N.1.coeff n)) → ∃ r, stepM s c d = .ok r ∧ (repr r.1, r.2) = N) ∧
    (¬ (∀ n, t.InRange (N.1.coeff n)) → stepM s c d = .panic) := by
  by_cases h : A
  · rw [if_pos h] at hN
    subst hN
    have hk := K.ok s c d (hi s) hs hc (hd d) (hA.2 h)
    have hv := chk_result t ((repr s).coeff d + σ * c)
    simp only [term_fits_iff t hs]
    refine ⟨fun H => ?_, fun H => by rw [hk, hv.2 H]; rfl⟩
    rw [hk, hv.1 H, Res.ok_bind]
    refine ⟨_, rfl, Prod.ext ?_ rfl⟩
    ext n
    simp only
    rw [K.coeff_put s c d _ (hi s) (hd d) (hA.2 h) (fun h => by rw [h, mul_zero, add_zero]), coeff_term_add]
  · rw [if_neg h] at hN
    subst hN
    exact ⟨fun _ => ⟨_, K.err s c d (hi s) (hd d) (fun h' => h (hA.1 h')), rfl⟩, fun H => absurd hs H⟩

open Classical in
theorem sink_step_wrap (hb : 1 ≤ t.bits) (K : Sink t false S repr σ e stepM) (hi : ∀ s, K.inv s) (hd : ∀ d, K.dom d) (s : S)
    (c : Int) (d : Nat) (hs : ∀ n, t.InRange ((repr s).coeff n)) (hc : t.InRange c) {A : Prop}
    (hA : K.acc s c d ↔ A) :
    ∃ r, stepM s c d = .ok r ∧ (∀ n, t.InRange ((repr r.1).coeff n)) ∧
      (red t (repr r.1), r.2) = if A then (red t (repr s + C (σ * c) * X ^ d), taken) else (red t (repr s), .error e) := by
  by_cases h : A
  · rw [if_pos h, K.ok s c d (hi s) hs hc (hd d) (hA.2 h)]
    have hn : ∀ n, (repr (K.put s c d (t.wrap ((repr s).coeff d + σ * c)))).coeff n =
        t.wrap ((repr s + C (σ * c) * X ^ d).coeff n) := by
      intro n
      rw [K.coeff_put s c d _ (hi s) (hd d) (hA.2 h) (fun h => by rw [h, mul_zero, add_zero, t.wrap_of_inRange hb _ (hs d)]),
        coeff_term_add]
      split_ifs
      · rfl
      · rw [t.wrap_of_inRange hb _ (hs n)]
    refine ⟨_, rfl, fun n => by rw [hn]; exact t.wrap_inRange hb _, Prod.ext ((red_eq_iff t _ _).2 fun n => ?_) rfl⟩
    rw [hn, t.wrap_of_inRange hb _ (t.wrap_inRange hb _)]
  · rw [if_neg h]
    exact ⟨_, K.err s c d (hi s) (hd d) (fun h' => h (hA.1 h')), hs, rfl⟩

end

section
variable (t : IntTy)

theorem wrapPoly_red (hb : 1 ≤ t.bits) {P Q : ℤ[X]} (h : WrapPoly t P Q) :
    (∀ n, t.InRange (P.coeff n)) ∧ red t P = red t Q :=
  ⟨fun n => by rw [h n]; exact t.wrap_inRange hb _,
    (red_eq_iff t P Q).2 fun n => by rw [h n, t.wrap_of_inRange hb _ (t.wrap_inRange hb _)]⟩

theorem red_term_add (P : ℤ[X]) (c : Int) (d : Nat) :
    red t (P + C (1 * c) * X ^ d) = red t P + C (c : ZMod (2 ^ t.bits)) * X ^ d := by
  simp [red]

theorem red_term_sub (P : ℤ[X]) (c : Int) (d : Nat) :
    red t (P + C (-1 * c) * X ^ d) = red t P - C (c : ZMod (2 ^ t.bits)) * X ^ d := by
  simp [red, sub_eq_add_neg]

theorem red_divX (k : Nat) (P : ℤ[X]) : red t (divX^[k] P) = divX^[k] (red t P) := by
  ext n
  rw [coeff_divX_iterate]
  simp only [red, coe_mapRingHom, coeff_map, coeff_divX_iterate]

theorem divX_inRange {P : ℤ[X]} (h : ∀ n, t.InRange (P.coeff n)) (k n : Nat) : t.InRange ((divX^[k] P).coeff n) := by
  rw [coeff_divX_iterate]; exact h _

theorem zero_coeff_inRange (n : Nat) : t.InRange ((0 : ℤ[X]).coeff n) := by rw [coeff_zero]; exact t.zero_inRange

theorem linear_stepM_checked (s : LinearBinomial Int) (o : BoundedOp (LinearBinomial Int) Int)
    (hs : ∀ n, t.InRange (s.poly.coeff n)) (ho : o.In t LinearBinomial.poly) :
    (FitsAfter t (boundedSpec 1) s.poly (o.map LinearBinomial.poly id) →
      ∃ r, s.stepM (.machine true t) o = .ok r ∧ (r.1.poly, r.2) = boundedSpec 1 s.poly (o.map LinearBinomial.poly id)) ∧
    (¬ FitsAfter t (boundedSpec 1) s.poly (o.map LinearBinomial.poly id) → s.stepM (.machine true t) o = .panic) := by
  have fin : ∀ {m : Res (LinearBinomial Int)} {P : ℤ[X]},
      (((∀ n, t.InRange (P.coeff n)) → ∃ r, m = .ok r ∧ r.poly = P) ∧ (¬ (∀ n, t.InRange (P.coeff n)) → m = .panic)) →
      ((∀ n, t.InRange (P.coeff n)) → ∃ r, (m >>= fun r => Res.ok (r, taken)) = .ok r ∧ (r.1.poly, r.2) = (P, taken)) ∧
      (¬ (∀ n, t.InRange (P.coeff n)) → (m >>= fun r => Res.ok (r, taken)) = .panic) := by
    intro m P h
    refine ⟨fun H => ?_, fun H => by rw [h.2 H]; rfl⟩
    obtain ⟨r, e, f⟩ := h.1 H
    exact ⟨(r, taken), by rw [e]; rfl, Prod.ext f rfl⟩
  have ops := fun b c => C79_linear_ops t s b c
  cases o with
  | term o =>
    cases o with
    | tryAddTerm c d =>
      exact sink_step_checked (A := d ≤ 1) (linearAddSink (t := t) (w := 0) (cap := 0) true) (fun _ => trivial) (fun _ => trivial) s c d hs ho
        Iff.rfl (by simp only [boundedSpec, BoundedOp.map, TermOp.map, termSpec, id, one_mul]; split_ifs <;> rfl)
    | trySubTerm c d =>
      exact sink_step_checked (A := d ≤ 1) (linearSubSink (t := t) (w := 0) (cap := 0) true) (fun _ => trivial) (fun _ => trivial) s c d hs ho
        Iff.rfl (by simp only [boundedSpec, BoundedOp.map, TermOp.map, termSpec, id, neg_mul, one_mul, C_neg, ← sub_eq_add_neg]; split_ifs <;> rfl)
    | setToZero =>
      refine ⟨fun _ => ?_, fun H => absurd (zero_coeff_inRange t) H⟩
      exact linear_step_exact s (.term .setToZero)
  | addAssign q => exact fin (ops q 0).2.1
  | subAssign q => exact fin (ops q 0).2.2.1
  | mulAssignScalar c =>
    have h := fin (ops s c).2.2.2
    rw [mul_comm] at h
    exact h
  | shrAssign k => exact ⟨fun _ => linear_step_exact s (.shrAssign k), fun H => absurd (divX_inRange t hs k) H⟩

theorem quadratic_stepM_checked (s : QuadraticTrinomial Int) (o : BoundedOp (QuadraticTrinomial Int) Int)
    (hs : ∀ n, t.InRange (s.poly.coeff n)) (ho : o.In t QuadraticTrinomial.poly) :
    (FitsAfter t (boundedSpec 2) s.poly (o.map QuadraticTrinomial.poly id) →
      ∃ r, s.stepM (.machine true t) o = .ok r ∧ (r.1.poly, r.2) = boundedSpec 2 s.poly (o.map QuadraticTrinomial.poly id)) ∧
    (¬ FitsAfter t (boundedSpec 2) s.poly (o.map QuadraticTrinomial.poly id) → s.stepM (.machine true t) o = .panic) := by
  have fin : ∀ {m : Res (QuadraticTrinomial Int)} {P : ℤ[X]},
      (((∀ n, t.InRange (P.coeff n)) → ∃ r, m = .ok r ∧ r.poly = P) ∧ (¬ (∀ n, t.InRange (P.coeff n)) → m = .panic)) →
      ((∀ n, t.InRange (P.coeff n)) → ∃ r, (m >>= fun r => Res.ok (r, taken)) = .ok r ∧ (r.1.poly, r.2) = (P, taken)) ∧
      (¬ (∀ n, t.InRange (P.coeff n)) → (m >>= fun r => Res.ok (r, taken)) = .panic) := by
    intro m P h
    refine ⟨fun H => ?_, fun H => by rw [h.2 H]; rfl⟩
    obtain ⟨r, e, f⟩ := h.1 H
    exact ⟨(r, taken), by rw [e]; rfl, Prod.ext f rfl⟩
  have ops := fun b c => C79_quadratic_ops t s b c
  cases o with
  | term o =>
    cases o with
    | tryAddTerm c d =>
      exact sink_step_checked (A := d ≤ 2) (quadraticAddSink (t := t) (w := 0) (cap := 0) true) (fun _ => trivial) (fun _ => trivial) s c d hs ho
        Iff.rfl (by simp only [boundedSpec, BoundedOp.map, TermOp.map, termSpec, id, one_mul]; split_ifs <;> rfl)
    | trySubTerm c d =>
      exact sink_step_checked (A := d ≤ 2) (quadraticSubSink (t := t) (w := 0) (cap := 0) true) (fun _ => trivial) (fun _ => trivial) s c d hs ho
        Iff.rfl (by simp only [boundedSpec, BoundedOp.map, TermOp.map, termSpec, id, neg_mul, one_mul, C_neg, ← sub_eq_add_neg]; split_ifs <;> rfl)
    | setToZero =>
      refine ⟨fun _ => ?_, fun H => absurd (zero_coeff_inRange t) H⟩
      exact quadratic_step_exact s (.term .setToZero)
  | addAssign q => exact fin (ops q 0).2.1
  | subAssign q => exact fin (ops q 0).2.2.1
  | mulAssignScalar c =>
    have h := fin (ops s c).2.2.2
    rw [mul_comm] at h
    exact h
  | shrAssign k => exact ⟨fun _ => quadratic_step_exact s (.shrAssign k), fun H => absurd (divX_inRange t hs k) H⟩

theorem array_stepM_checked {size : Nat} (w cap : Nat) (s : ArrayPoly Int size) (o : TermOp Int)
    (hs : ∀ n, t.InRange ((descPoly s.coefficients).coeff n)) (ho : o.In t) :
    (FitsAfter t (arraySpec size) (descPoly s.coefficients) o →
      ∃ r, s.stepM (.machine true t w cap) o = .ok r ∧
        (descPoly r.1.coefficients, r.2) = arraySpec size (descPoly s.coefficients) o) ∧
    (¬ FitsAfter t (arraySpec size) (descPoly s.coefficients) o → s.stepM (.machine true t w cap) o = .panic) := by
  cases o with
  | tryAddTerm c d =>
    exact sink_step_checked (A := d < size) (arrayAddSink (t := t) (w := w) (cap := cap) (size := size) true) (fun _ => trivial)
      (fun _ => trivial) s c d hs ho Iff.rfl (by simp only [arraySpec, termSpec, one_mul]; split_ifs <;> rfl)
  | trySubTerm c d =>
    exact sink_step_checked (A := d < size) (arraySubSink (t := t) (w := w) (cap := cap) (size := size) true) (fun _ => trivial)
      (fun _ => trivial) s c d hs ho Iff.rfl
      (by simp only [arraySpec, termSpec, neg_mul, one_mul, C_neg, ← sub_eq_add_neg]; split_ifs <;> rfl)
  | setToZero =>
    refine ⟨fun _ => ⟨_, rfl, Prod.ext ?_ rfl⟩, fun H => absurd (zero_coeff_inRange t) H⟩
    ext n
    show (descPoly (ArrayPoly.zero : ArrayPoly Int size).coefficients).coeff n = (0 : ℤ[X]).coeff n
    rw [coeff_descPoly]
    simp [ArrayPoly.zero]

theorem monomial_fits (c : Int) (k : Nat) : (∀ n, t.InRange ((C c * X ^ k : ℤ[X]).coeff n)) ↔ t.InRange c := by
  constructor
  · intro h
    have := h k
    rwa [coeff_C_mul_X_pow, if_pos rfl] at this
  · intro h n
    rw [coeff_C_mul_X_pow]
    split_ifs
    · exact h
    · exact t.zero_inRange

theorem monomial_sink_acc (s : Monomial Int) (d : Nat) :
    (s.isZeroPoly = true ∨ d = s.deg) ↔ (s.poly = 0 ∨ d = s.poly.natDegree) := by
  rw [← monomial_accepts_iff, monomial_isZeroPoly, s.poly_eq_zero]

theorem monomial_stepM_checked (s : Monomial Int) (o : MonomialOp (Monomial Int) Int)
    (hs : ∀ n, t.InRange (s.poly.coeff n)) (ho : o.In t Monomial.poly) :
    (FitsAfter t monomialSpec s.poly (o.map Monomial.poly id) ∧ (o.map Monomial.poly id : MonomialOp ℤ[X] ℤ).NotMin →
      ∃ r, s.stepM (.machine true t) o = .ok r ∧ (r.1.poly, r.2) = monomialSpec s.poly (o.map Monomial.poly id)) ∧
    (¬ (FitsAfter t monomialSpec s.poly (o.map Monomial.poly id) ∧ (o.map Monomial.poly id : MonomialOp ℤ[X] ℤ).NotMin) →
      s.stepM (.machine true t) o = .panic) := by
  have fin : ∀ {m : Res (Monomial Int)} {P : ℤ[X]} {a : Int} {k : Nat}, P = C a * X ^ k →
      ((t.InRange a → ∃ r, m = .ok r ∧ r.poly = P) ∧ (¬ t.InRange a → m = .panic)) →
      ((∀ n, t.InRange (P.coeff n)) ∧ True → ∃ r, (m >>= fun r => Res.ok (r, taken)) = .ok r ∧ (r.1.poly, r.2) = (P, taken)) ∧
      (¬ ((∀ n, t.InRange (P.coeff n)) ∧ True) → (m >>= fun r => Res.ok (r, taken)) = .panic) := by
    intro m P a k hP h
    rw [and_true]
    simp only [hP, monomial_fits] at h ⊢
    refine ⟨fun H => ?_, fun H => by rw [h.2 H]; rfl⟩
    obtain ⟨r, e, f⟩ := h.1 H
    exact ⟨(r, taken), by rw [e]; rfl, Prod.ext f rfl⟩
  have ops := fun b c => C79_monomial_ops t s b c 0 (by norm_num)
  cases o with
  | term o =>
    show (_ ∧ True → _) ∧ (¬ (_ ∧ True) → _)
    rw [and_true]
    cases o with
    | tryAddTerm c d =>
      exact sink_step_checked (monomialAddSink (t := t) (w := 0) (cap := 0) true) (fun _ => trivial) (fun _ => trivial) s c d hs ho
        (monomial_sink_acc s d) (by simp only [monomialSpec, MonomialOp.map, TermOp.map, termSpec, id, one_mul]; split_ifs <;> rfl)
    | trySubTerm c d =>
      exact sink_step_checked (monomialSubSink (t := t) (w := 0) (cap := 0) true) (fun _ => trivial) (fun _ => trivial) s c d hs ho
        (monomial_sink_acc s d)
        (by simp only [monomialSpec, MonomialOp.map, TermOp.map, termSpec, id, neg_mul, one_mul, C_neg, ← sub_eq_add_neg]; split_ifs <;> rfl)
    | setToZero =>
      refine ⟨fun _ => ?_, fun H => absurd (zero_coeff_inRange t) H⟩
      exact (monomial_step_exact s (.term .setToZero)).1 trivial
  | mulAssign q =>
    exact fin (P := s.poly * q.poly) (a := s.coefficient * q.coefficient) (k := s.deg + q.deg)
      (by simp only [Monomial.poly, C_mul]; ring) (ops q 0).2.1
  | mulAssignScalar c =>
    have h := fin (m := s.mulScalarM (.machine true t) c) (P := s.poly * C c) (a := s.coefficient * c) (k := s.deg)
      (by simp only [Monomial.poly, C_mul]; ring) (ops s c).2.2.1
    rw [mul_comm] at h
    exact h
  | shlAssign k =>
    have h := monomial_step_exact s (.shlAssign k)
    refine ⟨fun H => h.1 H.2, fun H => h.2 fun H' => H ⟨?_, H'⟩⟩
    intro n
    show t.InRange (coeff (if _ then _ else _) n)
    split_ifs
    · exact coeff_mul_X_pow_inRange hs _ n
    · exact divX_inRange t hs _ n
  | shrAssign k =>
    have h := monomial_step_exact s (.shrAssign k)
    refine ⟨fun H => h.1 H.2, fun H => h.2 fun H' => H ⟨?_, H'⟩⟩
    intro n
    show t.InRange (coeff (if _ then _ else _) n)
    split_ifs
    · exact divX_inRange t hs _ n
    · exact coeff_mul_X_pow_inRange hs _ n

theorem linear_stepM_wrap (hb : 1 ≤ t.bits) (s : LinearBinomial Int) (o : BoundedOp (LinearBinomial Int) Int)
    (hs : ∀ n, t.InRange (s.poly.coeff n)) (ho : o.In t LinearBinomial.poly) :
    ∃ r, s.stepM (.machine false t) o = .ok r ∧ (∀ n, t.InRange (r.1.poly.coeff n)) ∧
      (red t r.1.poly, r.2) = boundedSpec 1 (red t s.poly) (o.map (fun q => red t q.poly) Int.cast) := by
  have fin : ∀ {m : Res (LinearBinomial Int)} {P : ℤ[X]} {Q : (ZMod (2 ^ t.bits))[X]}, red t P = Q →
      (∃ r, m = .ok r ∧ WrapPoly t r.poly P) →
      ∃ r, (m >>= fun r => Res.ok (r, taken)) = .ok r ∧ (∀ n, t.InRange (r.1.poly.coeff n)) ∧ (red t r.1.poly, r.2) = (Q, taken) := by
    rintro m P Q rfl ⟨r, e, f⟩
    have := wrapPoly_red t hb f
    exact ⟨(r, taken), by rw [e]; rfl, this.1, Prod.ext this.2 rfl⟩
  have ops := fun b c => C81_linear t s b c 0
  cases o with
  | term o =>
    cases o with
    | tryAddTerm c d =>
      have h := sink_step_wrap (A := d ≤ 1) hb (linearAddSink (t := t) (w := 0) (cap := 0) false) (fun _ => trivial)
        (fun _ => trivial) s c d hs ho Iff.rfl
      rw [red_term_add] at h
      exact h
    | trySubTerm c d =>
      have h := sink_step_wrap (A := d ≤ 1) hb (linearSubSink (t := t) (w := 0) (cap := 0) false) (fun _ => trivial)
        (fun _ => trivial) s c d hs ho Iff.rfl
      rw [red_term_sub] at h
      exact h
    | setToZero =>
      obtain ⟨r, e, f⟩ := linear_step_exact s (.term .setToZero)
      have f1 : r.1.poly = 0 := congrArg Prod.fst f
      have f2 : r.2 = taken := congrArg Prod.snd f
      exact ⟨r, e, by rw [f1]; exact zero_coeff_inRange t, by rw [f1, f2, map_zero]; rfl⟩
  | addAssign q => exact fin (map_add _ _ _) (ops q 0).2.1
  | subAssign q => exact fin (map_sub _ _ _) (ops q 0).2.2.1
  | mulAssignScalar c => exact fin (by rw [map_mul, mul_comm]; simp [red]) (ops s c).2.2.2.1
  | shrAssign k =>
    obtain ⟨r, e, f⟩ := linear_step_exact s (.shrAssign k)
    have f1 : r.1.poly = divX^[k] s.poly := congrArg Prod.fst f
    have f2 : r.2 = taken := congrArg Prod.snd f
    exact ⟨r, e, by rw [f1]; exact divX_inRange t hs k, by rw [f1, f2, red_divX]; rfl⟩

theorem quadratic_stepM_wrap (hb : 1 ≤ t.bits) (s : QuadraticTrinomial Int) (o : BoundedOp (QuadraticTrinomial Int) Int)
    (hs : ∀ n, t.InRange (s.poly.coeff n)) (ho : o.In t QuadraticTrinomial.poly) :
    ∃ r, s.stepM (.machine false t) o = .ok r ∧ (∀ n, t.InRange (r.1.poly.coeff n)) ∧
      (red t r.1.poly, r.2) = boundedSpec 2 (red t s.poly) (o.map (fun q => red t q.poly) Int.cast) := by
  have fin : ∀ {m : Res (QuadraticTrinomial Int)} {P : ℤ[X]} {Q : (ZMod (2 ^ t.bits))[X]}, red t P = Q →
      (∃ r, m = .ok r ∧ WrapPoly t r.poly P) →
      ∃ r, (m >>= fun r => Res.ok (r, taken)) = .ok r ∧ (∀ n, t.InRange (r.1.poly.coeff n)) ∧ (red t r.1.poly, r.2) = (Q, taken) := by
    rintro m P Q rfl ⟨r, e, f⟩
    have := wrapPoly_red t hb f
    exact ⟨(r, taken), by rw [e]; rfl, this.1, Prod.ext this.2 rfl⟩
  have ops := fun b c => C81_quadratic t s b c 0
  cases o with
  | term o =>
    cases o with
    | tryAddTerm c d =>
      have h := sink_step_wrap (A := d ≤ 2) hb (quadraticAddSink (t := t) (w := 0) (cap := 0) false) (fun _ => trivial)
        (fun _ => trivial) s c d hs ho Iff.rfl
      rw [red_term_add] at h
      exact h
    | trySubTerm c d =>
      have h := sink_step_wrap (A := d ≤ 2) hb (quadraticSubSink (t := t) (w := 0) (cap := 0) false) (fun _ => trivial)
        (fun _ => trivial) s c d hs ho Iff.rfl
      rw [red_term_sub] at h
      exact h
    | setToZero =>
      obtain ⟨r, e, f⟩ := quadratic_step_exact s (.term .setToZero)
      have f1 : r.1.poly = 0 := congrArg Prod.fst f
      have f2 : r.2 = taken := congrArg Prod.snd f
      exact ⟨r, e, by rw [f1]; exact zero_coeff_inRange t, by rw [f1, f2, map_zero]; rfl⟩
  | addAssign q => exact fin (map_add _ _ _) (ops q 0).2.1
  | subAssign q => exact fin (map_sub _ _ _) (ops q 0).2.2.1
  | mulAssignScalar c => exact fin (by rw [map_mul, mul_comm]; simp [red]) (ops s c).2.2.2.1
  | shrAssign k =>
    obtain ⟨r, e, f⟩ := quadratic_step_exact s (.shrAssign k)
    have f1 : r.1.poly = divX^[k] s.poly := congrArg Prod.fst f
    have f2 : r.2 = taken := congrArg Prod.snd f
    exact ⟨r, e, by rw [f1]; exact divX_inRange t hs k, by rw [f1, f2, red_divX]; rfl⟩

theorem array_stepM_wrap {size : Nat} (hb : 1 ≤ t.bits) (w cap : Nat) (s : ArrayPoly Int size) (o : TermOp Int)
    (hs : ∀ n, t.InRange ((descPoly s.coefficients).coeff n)) (ho : o.In t) :
    ∃ r, s.stepM (.machine false t w cap) o = .ok r ∧ (∀ n, t.InRange ((descPoly r.1.coefficients).coeff n)) ∧
      (red t (descPoly r.1.coefficients), r.2) = arraySpec size (red t (descPoly s.coefficients)) (o.map Int.cast) := by
  cases o with
  | tryAddTerm c d =>
    have h := sink_step_wrap (A := d < size) hb (arrayAddSink (t := t) (w := w) (cap := cap) (size := size) false)
      (fun _ => trivial) (fun _ => trivial) s c d hs ho Iff.rfl
    rw [red_term_add] at h
    exact h
  | trySubTerm c d =>
    have h := sink_step_wrap (A := d < size) hb (arraySubSink (t := t) (w := w) (cap := cap) (size := size) false)
      (fun _ => trivial) (fun _ => trivial) s c d hs ho Iff.rfl
    rw [red_term_sub] at h
    exact h
  | setToZero =>
    have h0 : descPoly (ArrayPoly.zero : ArrayPoly Int size).coefficients = 0 := by
      ext n
      rw [coeff_descPoly]
      simp [ArrayPoly.zero]
    exact ⟨_, rfl, by rw [h0]; exact zero_coeff_inRange t, Prod.ext (by simp only [h0, map_zero]; rfl) rfl⟩

theorem monomial_red_acc (hb : 1 ≤ t.bits) (s : Monomial Int) (hs : ∀ n, t.InRange (s.poly.coeff n)) (d : Nat) :
    (s.isZeroPoly = true ∨ d = s.deg) ↔ (red t s.poly = 0 ∨ d = (red t s.poly).natDegree) := by
  rw [monomial_sink_acc, red_eq_zero t hb hs]
  by_cases h : s.poly = 0
  · simp [h]
  · have h' : red t s.poly ≠ 0 := fun H => h ((red_eq_zero t hb hs).1 H)
    have hc : s.coefficient ≠ 0 := fun hc => h (by rw [Monomial.poly, hc, C_0, zero_mul])
    have e : red t s.poly = C (s.coefficient : ZMod (2 ^ t.bits)) * X ^ s.deg := by
      rw [Monomial.poly, map_mul, map_pow]; simp [red]
    have hc' : (s.coefficient : ZMod (2 ^ t.bits)) ≠ 0 := fun hc => h' (by rw [e, hc, C_0, zero_mul])
    rw [e, natDegree_C_mul_X_pow _ _ hc', Monomial.poly, natDegree_C_mul_X_pow _ _ hc]

theorem monomial_stepM_wrap (hb : 1 ≤ t.bits) (s : Monomial Int) (o : MonomialOp (Monomial Int) Int)
    (hs : ∀ n, t.InRange (s.poly.coeff n)) (ho : o.In t Monomial.poly) :
    (o.NotMin → ∃ r, s.stepM (.machine false t) o = .ok r ∧ (∀ n, t.InRange (r.1.poly.coeff n)) ∧
      (red t r.1.poly, r.2) = monomialSpec (red t s.poly) (o.map (fun q => red t q.poly) Int.cast)) ∧
    (¬ o.NotMin → s.stepM (.machine false t) o = .panic) := by
  have fin : ∀ {m : Res (Monomial Int)} {P : ℤ[X]} {Q : (ZMod (2 ^ t.bits))[X]}, red t P = Q →
      (∃ r, m = .ok r ∧ WrapPoly t r.poly P) →
      ∃ r, (m >>= fun r => Res.ok (r, taken)) = .ok r ∧ (∀ n, t.InRange (r.1.poly.coeff n)) ∧ (red t r.1.poly, r.2) = (Q, taken) := by
    rintro m P Q rfl ⟨r, e, f⟩
    have := wrapPoly_red t hb f
    exact ⟨(r, taken), by rw [e]; rfl, this.1, Prod.ext this.2 rfl⟩
  have redX : ∀ (P : ℤ[X]) (k : Nat), red t (P * X ^ k) = red t P * X ^ k := fun P k => by
    rw [map_mul, map_pow]; simp [red]
  cases o with
  | term o =>
    refine ⟨fun _ => ?_, fun h => absurd trivial h⟩
    cases o with
    | tryAddTerm c d =>
      have h := sink_step_wrap hb (monomialAddSink (t := t) (w := 0) (cap := 0) false) (fun _ => trivial)
        (fun _ => trivial) s c d hs ho (monomial_red_acc t hb s hs d)
      rw [red_term_add] at h
      exact h
    | trySubTerm c d =>
      have h := sink_step_wrap hb (monomialSubSink (t := t) (w := 0) (cap := 0) false) (fun _ => trivial)
        (fun _ => trivial) s c d hs ho (monomial_red_acc t hb s hs d)
      rw [red_term_sub] at h
      exact h
    | setToZero =>
      obtain ⟨r, e, f⟩ := (monomial_step_exact s (.term .setToZero)).1 trivial
      have f1 : r.1.poly = 0 := congrArg Prod.fst f
      have f2 : r.2 = taken := congrArg Prod.snd f
      exact ⟨r, e, by rw [f1]; exact zero_coeff_inRange t, by rw [f1, f2, map_zero]; rfl⟩
  | mulAssign q =>
    refine ⟨fun _ => fin (map_mul _ _ _) ⟨_, rfl, ?_⟩, fun h => absurd trivial h⟩
    rw [show s.poly * q.poly = C (s.coefficient * q.coefficient) * X ^ (s.deg + q.deg) by
      simp only [Monomial.poly, C_mul]; ring]
    exact wrapPoly_monomial t _ _
  | mulAssignScalar c =>
    refine ⟨fun _ => fin (P := s.poly * C c) (by rw [map_mul, mul_comm]; simp [red]) ⟨_, rfl, ?_⟩, fun h => absurd trivial h⟩
    rw [show s.poly * C c = C (s.coefficient * c) * X ^ s.deg by simp only [Monomial.poly, C_mul]; ring]
    exact wrapPoly_monomial t _ _
  | shlAssign k =>
    have h := monomial_step_exact s (.shlAssign k)
    refine ⟨fun H => ?_, h.2⟩
    obtain ⟨r, e, f⟩ := h.1 H
    have f1 : r.1.poly = if 0 ≤ k then s.poly * X ^ k.toNat else divX^[(-k).toNat] s.poly := congrArg Prod.fst f
    have f2 : r.2 = taken := congrArg Prod.snd f
    refine ⟨r, e, fun n => ?_, Prod.ext ?_ f2⟩
    · rw [f1]
      split_ifs
      · exact coeff_mul_X_pow_inRange hs _ n
      · exact divX_inRange t hs _ n
    · show red t r.1.poly = if 0 ≤ k then _ else _
      rw [f1]
      split_ifs
      · exact redX _ _
      · exact red_divX t _ _
  | shrAssign k =>
    have h := monomial_step_exact s (.shrAssign k)
    refine ⟨fun H => ?_, h.2⟩
    obtain ⟨r, e, f⟩ := h.1 H
    have f1 : r.1.poly = if 0 ≤ k then divX^[k.toNat] s.poly else s.poly * X ^ (-k).toNat := congrArg Prod.fst f
    have f2 : r.2 = taken := congrArg Prod.snd f
    refine ⟨r, e, fun n => ?_, Prod.ext ?_ f2⟩
    · rw [f1]
      split_ifs
      · exact divX_inRange t hs _ n
      · exact coeff_mul_X_pow_inRange hs _ n
    · show red t r.1.poly = if 0 ≤ k then _ else _
      rw [f1]
      split_ifs
      · exact red_divX t _ _
      · exact redX _ _

/-! ## C107 on machine integers -/

theorem fits_of_spec {S O O' : Type} {step : S → O → Res (S × Except TryAddError Unit)} {repr : S → ℤ[X]} {f : O → O'}
    {spec : ℤ[X] → O' → ℤ[X] × Except TryAddError Unit} {s : S} {o : O} {safe : Prop} (hsafe : safe → FitsAfter t spec (repr s) (f o))
    (h : (safe → ∃ r, step s o = .ok r ∧ (repr r.1, r.2) = spec (repr s) (f o)) ∧ (¬ safe → step s o = .panic)) :
    (safe → ∃ r, step s o = .ok r ∧ (∀ n, t.InRange ((repr r.1).coeff n)) ∧ (repr r.1, r.2) = spec (repr s) (f o)) ∧
    (¬ safe → step s o = .panic) := by
  refine ⟨fun H => ?_, h.2⟩
  obtain ⟨r, e, g⟩ := h.1 H
  have g1 : repr r.1 = (spec (repr s) (f o)).1 := congrArg Prod.fst g
  exact ⟨r, e, by rw [g1]; exact hsafe H, g⟩

/-- C107 (`LinearBinomial`, overflow checks): from a value of the type and with operands of the type a history returns exactly
when all coefficients are values of the type after every step of the mathematical history; final value and results are then the
mathematical ones.  It panics otherwise. -/
theorem C107_binomial_checked (ops : List (BoundedOp (LinearBinomial Int) Int)) (b : LinearBinomial Int)
    (hb : ∀ n, t.InRange (b.poly.coeff n)) (ho : ∀ o ∈ ops, o.In t LinearBinomial.poly) :
    let specOps := ops.map (BoundedOp.map LinearBinomial.poly id)
    (AllSafe (boundedSpec 1) (FitsAfter t (boundedSpec 1)) b.poly specOps →
      ∃ r, runLog (LinearBinomial.stepM (.machine true t)) b ops = .ok r ∧ (∀ n, t.InRange (r.1.poly.coeff n)) ∧
        (r.1.poly, r.2) = logRun (boundedSpec 1) b.poly specOps) ∧
    (¬ AllSafe (boundedSpec 1) (FitsAfter t (boundedSpec 1)) b.poly specOps →
      runLog (LinearBinomial.stepM (.machine true t)) b ops = .panic) :=
  runLog_spec (repr := LinearBinomial.poly) (step := LinearBinomial.stepM (.machine true t)) (f := BoundedOp.map LinearBinomial.poly id)
    (inv := fun s => ∀ n, t.InRange (s.poly.coeff n)) (ok := fun o => o.In t LinearBinomial.poly)
    (fun s o hs ho => fits_of_spec t (repr := LinearBinomial.poly) (step := LinearBinomial.stepM (.machine true t))
      (f := BoundedOp.map LinearBinomial.poly id) id (linear_stepM_checked t s o hs ho)) ops b hb ho

/-- C107 (`QuadraticTrinomial`, overflow checks). -/
theorem C107_trinomial_checked (ops : List (BoundedOp (QuadraticTrinomial Int) Int)) (b : QuadraticTrinomial Int)
    (hb : ∀ n, t.InRange (b.poly.coeff n)) (ho : ∀ o ∈ ops, o.In t QuadraticTrinomial.poly) :
    let specOps := ops.map (BoundedOp.map QuadraticTrinomial.poly id)
    (AllSafe (boundedSpec 2) (FitsAfter t (boundedSpec 2)) b.poly specOps →
      ∃ r, runLog (QuadraticTrinomial.stepM (.machine true t)) b ops = .ok r ∧ (∀ n, t.InRange (r.1.poly.coeff n)) ∧
        (r.1.poly, r.2) = logRun (boundedSpec 2) b.poly specOps) ∧
    (¬ AllSafe (boundedSpec 2) (FitsAfter t (boundedSpec 2)) b.poly specOps →
      runLog (QuadraticTrinomial.stepM (.machine true t)) b ops = .panic) :=
  runLog_spec (repr := QuadraticTrinomial.poly) (step := QuadraticTrinomial.stepM (.machine true t)) (f := BoundedOp.map QuadraticTrinomial.poly id)
    (inv := fun s => ∀ n, t.InRange (s.poly.coeff n)) (ok := fun o => o.In t QuadraticTrinomial.poly)
    (fun s o hs ho => fits_of_spec t (repr := QuadraticTrinomial.poly) (step := QuadraticTrinomial.stepM (.machine true t))
      (f := BoundedOp.map QuadraticTrinomial.poly id) id (quadratic_stepM_checked t s o hs ho)) ops b hb ho

/-- C107 (`ArrayPolynomial`, overflow checks). -/
theorem C107_array_checked {size : Nat} (w cap : Nat) (ops : List (TermOp Int)) (p : ArrayPoly Int size)
    (hp : ∀ n, t.InRange ((descPoly p.coefficients).coeff n)) (ho : ∀ o ∈ ops, o.In t) :
    (AllSafe (arraySpec size) (FitsAfter t (arraySpec size)) (descPoly p.coefficients) ops →
      ∃ r, runLog (ArrayPoly.stepM (.machine true t w cap)) p ops = .ok r ∧
        (∀ n, t.InRange ((descPoly r.1.coefficients).coeff n)) ∧
        (descPoly r.1.coefficients, r.2) = logRun (arraySpec size) (descPoly p.coefficients) ops) ∧
    (¬ AllSafe (arraySpec size) (FitsAfter t (arraySpec size)) (descPoly p.coefficients) ops →
      runLog (ArrayPoly.stepM (.machine true t w cap)) p ops = .panic) := by
  have h := runLog_spec (repr := fun p : ArrayPoly Int size => descPoly p.coefficients) (f := id)
    (step := ArrayPoly.stepM (.machine true t w cap))
    (inv := fun s => ∀ n, t.InRange ((descPoly s.coefficients).coeff n)) (ok := fun o => o.In t)
    (fun s o hs ho => fits_of_spec t (repr := fun p : ArrayPoly Int size => descPoly p.coefficients) (f := id)
      (step := ArrayPoly.stepM (.machine true t w cap)) id (array_stepM_checked t w cap s o hs ho)) ops p hp ho
  rwa [List.map_id] at h

/-- C107 (`Monomial`, overflow checks): as above, and no shift may be by `i32::MIN`. -/
theorem C107_monomial_checked (ops : List (MonomialOp (Monomial Int) Int)) (m : Monomial Int)
    (hm : ∀ n, t.InRange (m.poly.coeff n)) (ho : ∀ o ∈ ops, o.In t Monomial.poly) :
    let specOps := ops.map (MonomialOp.map Monomial.poly id)
    let safe := fun P (o : MonomialOp ℤ[X] ℤ) => FitsAfter t monomialSpec P o ∧ o.NotMin
    (AllSafe monomialSpec safe m.poly specOps →
      ∃ r, runLog (Monomial.stepM (.machine true t)) m ops = .ok r ∧ (∀ n, t.InRange (r.1.poly.coeff n)) ∧
        (r.1.poly, r.2) = logRun monomialSpec m.poly specOps) ∧
    (¬ AllSafe monomialSpec safe m.poly specOps → runLog (Monomial.stepM (.machine true t)) m ops = .panic) :=
  runLog_spec (repr := Monomial.poly) (step := Monomial.stepM (.machine true t)) (f := MonomialOp.map Monomial.poly id)
    (safe := fun P o => FitsAfter t monomialSpec P o ∧ o.NotMin)
    (inv := fun s => ∀ n, t.InRange (s.poly.coeff n)) (ok := fun o => o.In t Monomial.poly)
    (fun s o hs ho => fits_of_spec t (repr := Monomial.poly) (step := Monomial.stepM (.machine true t))
      (f := MonomialOp.map Monomial.poly id) And.left (monomial_stepM_checked t s o hs ho)) ops m hm ho

/-- C107 (`LinearBinomial`, no overflow checks): a history returns; the coefficients are values of the type, and the final value
and the results are, modulo `2 ^ bits`, those of the history of polynomials over the integers modulo `2 ^ bits`. -/
theorem C107_binomial_wrap (hb : 1 ≤ t.bits) (ops : List (BoundedOp (LinearBinomial Int) Int)) (b : LinearBinomial Int)
    (hi : ∀ n, t.InRange (b.poly.coeff n)) (ho : ∀ o ∈ ops, o.In t LinearBinomial.poly) :
    let modulo := mapRingHom (Int.castRingHom (ZMod (2 ^ t.bits)))
    ∃ r, runLog (LinearBinomial.stepM (.machine false t)) b ops = .ok r ∧ (∀ n, t.InRange (r.1.poly.coeff n)) ∧
      (modulo r.1.poly, r.2) =
        logRun (boundedSpec 1) (modulo b.poly) (ops.map (BoundedOp.map (fun q => modulo q.poly) Int.cast)) :=
  (runLog_spec (repr := fun q : LinearBinomial Int => red t q.poly) (inv := fun s => ∀ n, t.InRange (s.poly.coeff n))
    (ok := fun o => o.In t LinearBinomial.poly) (safe := fun _ _ => True)
    (fun s o hs ho => ⟨fun _ => linear_stepM_wrap t hb s o hs ho, fun h => absurd trivial h⟩) ops b hi ho).1 (allSafe_true _ _ _)

/-- C107 (`QuadraticTrinomial`, no overflow checks). -/
theorem C107_trinomial_wrap (hb : 1 ≤ t.bits) (ops : List (BoundedOp (QuadraticTrinomial Int) Int)) (b : QuadraticTrinomial Int)
    (hi : ∀ n, t.InRange (b.poly.coeff n)) (ho : ∀ o ∈ ops, o.In t QuadraticTrinomial.poly) :
    let modulo := mapRingHom (Int.castRingHom (ZMod (2 ^ t.bits)))
    ∃ r, runLog (QuadraticTrinomial.stepM (.machine false t)) b ops = .ok r ∧ (∀ n, t.InRange (r.1.poly.coeff n)) ∧
      (modulo r.1.poly, r.2) =
        logRun (boundedSpec 2) (modulo b.poly) (ops.map (BoundedOp.map (fun q => modulo q.poly) Int.cast)) :=
  (runLog_spec (repr := fun q : QuadraticTrinomial Int => red t q.poly) (inv := fun s => ∀ n, t.InRange (s.poly.coeff n))
    (ok := fun o => o.In t QuadraticTrinomial.poly) (safe := fun _ _ => True)
    (fun s o hs ho => ⟨fun _ => quadratic_stepM_wrap t hb s o hs ho, fun h => absurd trivial h⟩) ops b hi ho).1
    (allSafe_true _ _ _)

/-- C107 (`ArrayPolynomial`, no overflow checks). -/
theorem C107_array_wrap {size : Nat} (hb : 1 ≤ t.bits) (w cap : Nat) (ops : List (TermOp Int)) (p : ArrayPoly Int size)
    (hp : ∀ n, t.InRange ((descPoly p.coefficients).coeff n)) (ho : ∀ o ∈ ops, o.In t) :
    let modulo := mapRingHom (Int.castRingHom (ZMod (2 ^ t.bits)))
    ∃ r, runLog (ArrayPoly.stepM (.machine false t w cap)) p ops = .ok r ∧
      (∀ n, t.InRange ((descPoly r.1.coefficients).coeff n)) ∧
      (modulo (descPoly r.1.coefficients), r.2) =
        logRun (arraySpec size) (modulo (descPoly p.coefficients)) (ops.map (TermOp.map Int.cast)) :=
  (runLog_spec (repr := fun p : ArrayPoly Int size => red t (descPoly p.coefficients))
    (inv := fun s => ∀ n, t.InRange ((descPoly s.coefficients).coeff n)) (ok := fun o => o.In t) (safe := fun _ _ => True)
    (fun s o hs ho => ⟨fun _ => array_stepM_wrap t hb w cap s o hs ho, fun h => absurd trivial h⟩) ops p hp ho).1
    (allSafe_true _ _ _)

/-- C107 (`Monomial`, no overflow checks): a history without shifts by
`i32::MIN` returns what the history of polynomials over the integers modulo `2 ^ bits` gives — in particular a product that
wraps to zero makes room for a term of any degree. -/
theorem C107_monomial_wrap (hb : 1 ≤ t.bits) (ops : List (MonomialOp (Monomial Int) Int)) (m : Monomial Int)
    (hm : ∀ n, t.InRange (m.poly.coeff n)) (ho : ∀ o ∈ ops, o.In t Monomial.poly) (hk : ∀ o ∈ ops, o.NotMin) :
    let modulo := mapRingHom (Int.castRingHom (ZMod (2 ^ t.bits)))
    ∃ r, runLog (Monomial.stepM (.machine false t)) m ops = .ok r ∧ (∀ n, t.InRange (r.1.poly.coeff n)) ∧
      (modulo r.1.poly, r.2) =
        logRun monomialSpec (modulo m.poly) (ops.map (MonomialOp.map (fun q => modulo q.poly) Int.cast)) :=
  (runLog_spec (repr := fun q : Monomial Int => red t q.poly) (inv := fun s => ∀ n, t.InRange (s.poly.coeff n))
    (ok := fun o => o.In t Monomial.poly ∧ o.NotMin) (safe := fun _ _ => True)
    (fun s o hs ho => ⟨fun _ => (monomial_stepM_wrap t hb s o hs ho.1).1 ho.2, fun h => absurd trivial h⟩) ops m hm
    (fun o h => ⟨ho o h, hk o h⟩)).1 (allSafe_true _ _ _)

/-- Over `i8`: `(100x + 1) += 27x` fits, refuses `x²`, and `*= 2` then overflows: a panic with overflow checks; without them
`127 * 2 = -2`. -/
example :
    runLog (LinearBinomial.stepM (.machine true ⟨true, 8⟩)) ⟨100, 1⟩ [.term (.tryAddTerm 27 1), .term (.tryAddTerm 1 2)] =
      .ok (⟨127, 1⟩, [.ok (), .error .degreeOutOfBounds]) ∧
    runLog (LinearBinomial.stepM (.machine true ⟨true, 8⟩)) ⟨100, 1⟩ [.term (.tryAddTerm 27 1), .mulAssignScalar 2] = .panic ∧
    runLog (LinearBinomial.stepM (.machine false ⟨true, 8⟩)) ⟨100, 1⟩ [.term (.tryAddTerm 27 1), .mulAssignScalar 2] =
      .ok (⟨-2, 2⟩, [.ok (), .ok ()]) := by
  refine ⟨?_, ?_, ?_⟩ <;> rfl

/-- `16x * 16x` wraps to zero over `u8`; the monomial then takes `3x⁷`, which it refuses when nothing wraps. -/
example :
    runLog (Monomial.stepM (.machine false ⟨false, 8⟩)) ⟨16, 1⟩ [.mulAssign ⟨16, 1⟩, .term (.tryAddTerm 3 7)] =
      .ok (⟨3, 7⟩, [.ok (), .ok ()]) ∧
    runLog (Monomial.stepM (.machine false ⟨false, 8⟩)) ⟨16, 1⟩ [.mulAssign ⟨15, 1⟩, .term (.tryAddTerm 3 7)] =
      .ok (⟨240, 2⟩, [.ok (), .error .tooManyTerms]) := by
  refine ⟨?_, ?_⟩ <;> rfl

example : (∀ n, IntTy.InRange ⟨true, 8⟩ ((⟨100, 1⟩ : LinearBinomial Int).poly.coeff n)) ∧
    BoundedOp.In ⟨true, 8⟩ LinearBinomial.poly (.term (.tryAddTerm 27 1)) :=
  ⟨(linear_fits (e := rfl)).2 (by decide), by show IntTy.InRange _ _; decide⟩

end

end Rustnomial
