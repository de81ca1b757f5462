import Verif.SpecFloatHistory
import Verif.Props.FloatShape
import Verif.Props.FloatExact

/-!
# Any history of mutations in floating point (C112)
-/

open Polynomial

namespace Rustnomial
namespace Fl
variable {f : FlFmt}

/-- Both sides as polynomials in `X`. -/
local macro "poly_eq" : tactic => `(tactic|
  (simp only [descPoly_cons, descPoly_nil, map_neg, map_ofNat, map_one, map_zero, List.length_cons, List.length_nil]; ring))

theorem coeff_divX_iter (P : ℚ[X]) (n k : Nat) : (divX^[n] P).coeff k = P.coeff (k + n) := by
  induction n generalizing k with
  | zero => simp
  | succ n ih => rw [Function.iterate_succ_apply', coeff_divX, ih]; congr 1; omega

/-- The bound of one step grows with the error before it. -/
theorem errStep_mono {S : Type} (val : S → ℚ[X]) (len : S → Nat) (P P' : ℚ[X]) (E : Nat → ℚ)
    (hE : ∀ k, |P'.coeff k - P.coeff k| ≤ E k) (o : OpDiv S (Fl f)) (k : Nat) :
    |(absStepDiv P' (o.exact val)).coeff k - (absStepDiv P (o.exact val)).coeff k| + errStep val len P' (fun _ => 0) o k ≤
      errStep val len P E o k := by
  have hu := uro_nonneg (f := f)
  have hE0 : ∀ k, 0 ≤ E k := fun k => (abs_nonneg _).trans (hE k)
  have habs : ∀ k, |P'.coeff k| ≤ |P.coeff k| + E k := fun k => by
    have := abs_sub_abs_le_abs_sub (P'.coeff k) (P.coeff k)
    linarith [hE k]
  rcases o with (⟨c, d⟩ | ⟨c, d⟩ | q | q | q | c | s | s | _ | _) | c
  · simp only [OpDiv.exact, absStepDiv, absStep, errStep, coeff_add, add_sub_add_right_eq_sub, zero_add, add_zero]
    have h1 : |P'.coeff d + c.toRat| ≤ |P.coeff d + c.toRat| + E d := by
      have := abs_sub_abs_le_abs_sub (P'.coeff d + c.toRat) (P.coeff d + c.toRat)
      rw [add_sub_add_right_eq_sub] at this
      linarith [hE d]
    have := hE k
    split_ifs
    · linarith [mul_le_mul_of_nonneg_left h1 hu]
    · linarith
  · simp only [OpDiv.exact, absStepDiv, absStep, errStep, coeff_sub, sub_sub_sub_cancel_right, zero_add, add_zero]
    have h1 : |P'.coeff d - c.toRat| ≤ |P.coeff d - c.toRat| + E d := by
      have := abs_sub_abs_le_abs_sub (P'.coeff d - c.toRat) (P.coeff d - c.toRat)
      rw [sub_sub_sub_cancel_right] at this
      linarith [hE d]
    have := hE k
    split_ifs
    · linarith [mul_le_mul_of_nonneg_left h1 hu]
    · linarith
  · simp only [OpDiv.exact, absStepDiv, absStep, errStep, coeff_add, add_sub_add_right_eq_sub, zero_add, add_zero]
    have h1 : |P'.coeff k + (val q).coeff k| ≤ |P.coeff k + (val q).coeff k| + E k := by
      have := abs_sub_abs_le_abs_sub (P'.coeff k + (val q).coeff k) (P.coeff k + (val q).coeff k)
      rw [add_sub_add_right_eq_sub] at this
      linarith [hE k]
    linarith [mul_le_mul_of_nonneg_left h1 hu, hE k]
  · simp only [OpDiv.exact, absStepDiv, absStep, errStep, coeff_sub, sub_sub_sub_cancel_right, zero_add, add_zero]
    have h1 : |P'.coeff k - (val q).coeff k| ≤ |P.coeff k - (val q).coeff k| + E k := by
      have := abs_sub_abs_le_abs_sub (P'.coeff k - (val q).coeff k) (P.coeff k - (val q).coeff k)
      rw [sub_sub_sub_cancel_right] at this
      linarith [hE k]
    linarith [mul_le_mul_of_nonneg_left h1 hu, hE k]
  · simp only [OpDiv.exact, absStepDiv, absStep, errStep, zero_mul, Finset.sum_const_zero, zero_add, add_zero]
    have h1 : |(P' * val q).coeff k - (P * val q).coeff k| ≤
        ∑ x ∈ Finset.antidiagonal k, E x.1 * |(val q).coeff x.2| := by
      rw [coeff_mul, coeff_mul, ← Finset.sum_sub_distrib]
      refine (Finset.abs_sum_le_sum_abs _ _).trans (Finset.sum_le_sum fun x _ => ?_)
      rw [← sub_mul, abs_mul]
      exact mul_le_mul_of_nonneg_right (hE _) (abs_nonneg _)
    have h2 : (∑ x ∈ Finset.antidiagonal k, |P'.coeff x.1| * |(val q).coeff x.2|) ≤
        ∑ x ∈ Finset.antidiagonal k, (|P.coeff x.1| + E x.1) * |(val q).coeff x.2| :=
      Finset.sum_le_sum fun x _ => mul_le_mul_of_nonneg_right (habs _) (abs_nonneg _)
    have h3 : 0 ≤ (1 + uro f) ^ (len q + 1) - 1 := sub_nonneg.2 (one_le_pow₀ (by linarith))
    linarith [mul_le_mul_of_nonneg_left h2 h3]
  · simp only [OpDiv.exact, absStepDiv, absStep, errStep, coeff_C_mul, zero_mul, zero_add, add_zero]
    have h1 : |c.toRat * P'.coeff k - c.toRat * P.coeff k| ≤ E k * |c.toRat| := by
      rw [← mul_sub, abs_mul, mul_comm]
      exact mul_le_mul_of_nonneg_right (hE _) (abs_nonneg _)
    have h2 := mul_le_mul_of_nonneg_left (mul_le_mul_of_nonneg_right (habs k) (abs_nonneg c.toRat)) hu
    linarith
  · simp only [OpDiv.exact, absStepDiv, absStep, errStep]
    split_ifs with h1 h2
    · rw [coeff_mul_X_pow', coeff_mul_X_pow', if_pos h2, if_pos h2, add_zero]; exact hE _
    · rw [coeff_mul_X_pow', coeff_mul_X_pow', if_neg h2, if_neg h2]; simp
    · rw [coeff_divX_iter, coeff_divX_iter, add_zero]; exact hE _
  · simp only [OpDiv.exact, absStepDiv, absStep, errStep]
    split_ifs with h1 h2
    · rw [coeff_divX_iter, coeff_divX_iter, add_zero]; exact hE _
    · rw [coeff_mul_X_pow', coeff_mul_X_pow', if_pos h2, if_pos h2, add_zero]; exact hE _
    · rw [coeff_mul_X_pow', coeff_mul_X_pow', if_neg h2, if_neg h2]; simp
  · simpa [OpDiv.exact, absStepDiv, absStep, errStep] using hE k
  · simp [OpDiv.exact, absStepDiv, absStep, errStep]
  · simp only [OpDiv.exact, absStepDiv, errStep, coeff_mul_C, zero_div, zero_add, add_zero]
    have h1 : |P'.coeff k * c.toRat⁻¹ - P.coeff k * c.toRat⁻¹| ≤ E k / |c.toRat| := by
      rw [← sub_mul, abs_mul, abs_inv, ← div_eq_mul_inv]
      exact div_le_div_of_nonneg_right (hE _) (abs_nonneg _)
    have h2 := mul_le_mul_of_nonneg_left (div_le_div_of_nonneg_right (habs k) (abs_nonneg c.toRat)) hu
    linarith

/-- From one step to a history. -/
theorem run_error {S : Type} (val : S → ℚ[X]) (len : S → Nat) (fin : S → Prop) (step : S → OpDiv S (Fl f) → Res S)
    (ok : OpDiv S (Fl f) → Prop)
    (hl : ∀ s o s', ok o → step s o = .ok s' → fin s → fin s' → ∀ k,
      |(val s').coeff k - (absStepDiv (val s) (o.exact val)).coeff k| ≤ errStep val len (val s) (fun _ => 0) o k)
    (ops : List (OpDiv S (Fl f))) (hok : ∀ o ∈ ops, ok o) (P : ℚ[X]) (E : Nat → ℚ) (s r : S)
    (hE : ∀ k, |(val s).coeff k - P.coeff k| ≤ E k) (h : runOps step s ops = .ok r) (hf : FiniteRun fin step s ops) (k : Nat) :
    |(val r).coeff k - (absRunDiv P (ops.map (OpDiv.exact val))).coeff k| ≤ errRun val len P E ops k := by
  induction ops generalizing P E s with
  | nil => cases h; exact hE k
  | cons o ops ih =>
    rw [runOps, List.foldlM_cons] at h
    obtain ⟨s', h1, h2⟩ := Res.bind_eq_ok.1 h
    have hf2 := hf.2 s' h1
    refine ih (fun o ho => hok o (by simp [ho])) _ _ s' (fun j => ?_) h2 hf2
    have hfs : fin s' := by cases ops with
      | nil => exact hf2
      | cons => exact hf2.1
    have hloc := hl s o s' (hok o (by simp)) h1 hf.1 hfs j
    have hm := errStep_mono val len P (val s) E hE o j
    have := abs_sub_le ((val s').coeff j) ((absStepDiv (val s) (o.exact val)).coeff j)
      ((absStepDiv P (o.exact val)).coeff j)
    linarith

theorem dense_local (p : Poly (Fl f)) (o : OpDiv (Poly (Fl f)) (Fl f)) (r : Poly (Fl f)) (hs : o.ShiftOk)
    (hd : o.DivisorOk) (h : p.stepDiv o = .ok r) (hp : FloatSink.AllFinite p) (hr : FloatSink.AllFinite r) (k : Nat) :
    |(FloatSink.ratPoly r).coeff k - (absStepDiv (FloatSink.ratPoly p) (o.exact FloatSink.ratPoly)).coeff k| ≤
      errStep FloatSink.ratPoly (fun q => q.terms.length) (FloatSink.ratPoly p) (fun _ => 0) o k := by
  rcases o with (⟨c, d⟩ | ⟨c, d⟩ | q | q | q | c | s | s | _ | _) | c
  · cases h
    simpa [errStep, OpDiv.exact, absStepDiv, absStep] using (((C91_try_add p _ c d).1 rfl).1 hr).2.2 k
  · cases h
    have h2 : p.trySubTerm c d = ((p.trySubTerm c d).1, .ok ()) :=
      Prod.ext rfl (C91_outcomes c d p ⟨.empty⟩ ⟨0, 0⟩ ⟨0, 0⟩ ⟨0, 0, 0⟩ (size := 0) ⟨[], rfl⟩).1.2
    simpa [errStep, OpDiv.exact, absStepDiv, absStep] using (((C91_try_sub p _ c d).1 h2).1 hr).2.2 k
  · obtain ⟨r', e, h2⟩ := (C67_add p q).2
    obtain rfl : r' = r := Res.ok.inj (e.symm.trans h)
    simpa [FloatSink.ratPoly, errStep, OpDiv.exact, absStepDiv, absStep, coeff_sub, coeff_add] using h2 hr k
  · obtain ⟨r', e, h2⟩ := (C67_sub p q).1
    obtain rfl : r' = r := Res.ok.inj (e.symm.trans h)
    simpa [FloatSink.ratPoly, errStep, OpDiv.exact, absStepDiv, absStep, coeff_sub] using h2 hr k
  · have := C68_mul_error p q r (.inl h) hr k
    rw [coeff_sub] at this
    refine this.trans (le_of_eq ?_)
    simp only [errStep, zero_mul, Finset.sum_const_zero, zero_add, add_zero]
    rw [coeff_mul]
    simp only [coeff_dense_abs]
    rfl
  · cases h
    have := (C67_mul_scalar p c).2 hr k
    rw [coeff_sub, coeff_mul_C, abs_mul] at this
    simpa [FloatSink.ratPoly, errStep, OpDiv.exact, absStepDiv, absStep, coeff_C_mul, mul_comm, mul_left_comm] using this
  · have hs : -2 ^ 31 < s ∧ s < 2 ^ 31 := hs
    simp only [errStep, ite_self, OpDiv.exact, absStepDiv, absStep]
    rw [abs_nonpos_iff, sub_eq_zero]
    congr 1
    split_ifs with h0
    · obtain ⟨n, rfl⟩ := Int.eq_ofNat_of_zero_le h0
      obtain ⟨r', e, _, e2, _⟩ := (C92_dense_shift p n (by omega)).1
      obtain rfl : r' = r := Res.ok.inj (e.symm.trans h)
      exact e2
    · obtain ⟨n, hn⟩ : ∃ n : Nat, s = -n := ⟨(-s).toNat, by omega⟩
      subst hn
      obtain ⟨r', e, e1, e2, _⟩ := (C92_dense_shift p n (by omega)).2.2.1
      obtain rfl : r' = r := Res.ok.inj ((e1 (by omega)).symm.trans h)
      simpa using e2.divX
  · have hs : -2 ^ 31 < s ∧ s < 2 ^ 31 := hs
    simp only [errStep, ite_self, OpDiv.exact, absStepDiv, absStep]
    rw [abs_nonpos_iff, sub_eq_zero]
    congr 1
    split_ifs with h0
    · obtain ⟨n, rfl⟩ := Int.eq_ofNat_of_zero_le h0
      obtain ⟨r', e, _, e2, _⟩ := (C92_dense_shift p n (by omega)).2.2.1
      obtain rfl : r' = r := Res.ok.inj (e.symm.trans h)
      exact e2.divX
    · obtain ⟨n, hn⟩ : ∃ n : Nat, s = -n := ⟨(-s).toNat, by omega⟩
      subst hn
      obtain ⟨r', e, e1, e2, _⟩ := (C92_dense_shift p n (by omega)).1
      obtain rfl : r' = r := Res.ok.inj ((e1 (by omega)).symm.trans h)
      simpa using e2
  · cases h
    have := (C92_trim [] p ⟨.empty⟩).2.1.2
    simp only [errStep, OpDiv.exact, absStepDiv, absStep]
    rw [this]; simp
  · cases h
    simp only [errStep, OpDiv.exact, absStepDiv, absStep]
    rw [show FloatSink.ratPoly p.setToZero = 0 by simp [FloatSink.ratPoly, Poly.setToZero]]
    simp
  · obtain ⟨r', e, h2⟩ := (C67_div_scalar p c hd.1 hd.2).2
    obtain rfl : r' = r := Res.ok.inj (e.symm.trans h)
    have := h2 hp hr k
    rw [coeff_sub, coeff_mul_C, abs_mul] at this
    simpa [FloatSink.ratPoly, errStep, OpDiv.exact, absStepDiv, coeff_mul_C, abs_inv, div_eq_mul_inv, abs_mul] using this

theorem sparse_local (p : Sparse (Fl f)) (o : OpDiv (Sparse (Fl f)) (Fl f)) (r : Sparse (Fl f)) (hs : o.ShiftOk)
    (hd : o.DivisorOk) (h : p.stepDiv o = .ok r) (hp : p.AllFinite) (hr : r.AllFinite) (k : Nat) :
    |r.ratPoly.coeff k - (absStepDiv p.ratPoly (o.exact Sparse.ratPoly)).coeff k| ≤
      errStep Sparse.ratPoly (fun q => q.terms.entries.length) p.ratPoly (fun _ => 0) o k := by
  rcases o with (⟨c, d⟩ | ⟨c, d⟩ | q | q | q | c | s | s | _ | _) | c
  · cases h
    simpa [errStep, OpDiv.exact, absStepDiv, absStep, FloatSink.ratPoly] using (((C91_try_add p _ c d).1 rfl).1 hr).2.2 k
  · cases h
    have h2 : p.trySubTerm c d = ((p.trySubTerm c d).1, .ok ()) :=
      Prod.ext rfl (C91_outcomes c d ⟨[]⟩ p ⟨0, 0⟩ ⟨0, 0⟩ ⟨0, 0, 0⟩ (size := 0) ⟨[], rfl⟩).2.1.2
    simpa [errStep, OpDiv.exact, absStepDiv, absStep, FloatSink.ratPoly] using (((C91_try_sub p _ c d).1 h2).1 hr).2.2 k
  · cases h
    simpa [errStep, OpDiv.exact, absStepDiv, absStep, coeff_sub, coeff_add] using (C85_add p q).2 hr k
  · cases h
    simpa [errStep, OpDiv.exact, absStepDiv, absStep, coeff_sub] using (C85_sub p q ⟨[]⟩).1 hr k
  · cases h
    have := C85_mul_error p q hr k
    rw [coeff_sub] at this
    refine this.trans (le_of_eq ?_)
    simp only [errStep, zero_mul, Finset.sum_const_zero, zero_add, add_zero]
    rw [coeff_mul]
    simp only [coeff_sparse_abs]
  · cases h
    have := (C85_mul_scalar p c).2 hr k
    rw [abs_mul] at this
    simpa [errStep, OpDiv.exact, absStepDiv, absStep, coeff_C_mul, mul_comm, mul_left_comm] using this
  · have hs : -2 ^ 31 < s ∧ s < 2 ^ 31 := hs
    simp only [errStep, ite_self, OpDiv.exact, absStepDiv, absStep]
    rw [abs_nonpos_iff, sub_eq_zero]
    congr 1
    split_ifs with h0
    · obtain ⟨n, rfl⟩ := Int.eq_ofNat_of_zero_le h0
      obtain ⟨r', e, _, _, e2⟩ := (C92_sparse_shift p n (by omega)).1
      obtain rfl : r' = r := Res.ok.inj (e.symm.trans h)
      exact e2
    · obtain ⟨n, hn⟩ : ∃ n : Nat, s = -n := ⟨(-s).toNat, by omega⟩
      subst hn
      obtain ⟨r', e, e1, _, e2⟩ := (C92_sparse_shift p n (by omega)).2
      obtain rfl : r' = r := Res.ok.inj ((e1 (by omega)).symm.trans h)
      simpa using e2.divX
  · have hs : -2 ^ 31 < s ∧ s < 2 ^ 31 := hs
    simp only [errStep, ite_self, OpDiv.exact, absStepDiv, absStep]
    rw [abs_nonpos_iff, sub_eq_zero]
    congr 1
    split_ifs with h0
    · obtain ⟨n, rfl⟩ := Int.eq_ofNat_of_zero_le h0
      obtain ⟨r', e, _, _, e2⟩ := (C92_sparse_shift p n (by omega)).2
      obtain rfl : r' = r := Res.ok.inj (e.symm.trans h)
      exact e2.divX
    · obtain ⟨n, hn⟩ : ∃ n : Nat, s = -n := ⟨(-s).toNat, by omega⟩
      subst hn
      obtain ⟨r', e, e1, _, e2⟩ := (C92_sparse_shift p n (by omega)).1
      obtain rfl : r' = r := Res.ok.inj ((e1 (by omega)).symm.trans h)
      simpa using e2
  · cases h
    have := (C92_trim [] ⟨[]⟩ p).2.2.1.2
    simp only [errStep, OpDiv.exact, absStepDiv, absStep]
    rw [this]; simp
  · cases h
    simp only [errStep, OpDiv.exact, absStepDiv, absStep]
    rw [show p.setToZero.ratPoly = 0 by simp [Sparse.ratPoly, Sparse.setToZero, BMap.empty, entriesPoly]]
    simp
  · obtain ⟨r', e, h2⟩ := (C85_div_scalar p c hp hd.1 hd.2).2
    obtain rfl : r' = r := Res.ok.inj (e.symm.trans h)
    have := h2 hr k
    rw [abs_div] at this
    simpa [errStep, OpDiv.exact, absStepDiv, coeff_mul_C, div_eq_mul_inv] using this

/-- C112 (Polynomial): any history of mutations in floating point, from data known up to `E`.  If every value on the way
is finite, each coefficient of the result is within the running bound of the exact history. -/
theorem C112_dense_error (ops : List (OpDiv (Poly (Fl f)) (Fl f))) (hs : ∀ o ∈ ops, o.ShiftOk ∧ o.DivisorOk)
    (p r : Poly (Fl f)) (P : ℚ[X]) (E : Nat → ℚ) (hE : ∀ k, |(FloatSink.ratPoly p).coeff k - P.coeff k| ≤ E k)
    (h : runOps Poly.stepDiv p ops = .ok r) (hf : FiniteRun FloatSink.AllFinite Poly.stepDiv p ops) (k : Nat) :
    |(FloatSink.ratPoly r).coeff k - (absRunDiv P (ops.map (OpDiv.exact FloatSink.ratPoly))).coeff k| ≤
      errRun FloatSink.ratPoly (fun q => q.terms.length) P E ops k :=
  run_error _ _ _ _ (fun o => o.ShiftOk ∧ o.DivisorOk)
    (fun s o s' ho e h1 h2 k => dense_local s o s' ho.1 ho.2 e h1 h2 k) ops hs P E p r hE h hf k

/-- Adding `0.2`, multiplying by `x + 3`, dividing by 3, dropping the constant term. -/
def exOps : List (OpDiv (Poly (Fl binary64)) (Fl binary64)) :=
  [.op (.addTerm (div (ofNat 2) (ofNat 10)) 0), .op (.mulAssign ⟨[1, ofNat 3]⟩), .divAssignScalar (ofNat 3),
    .op (.shrAssign 1)]

/-- `0.1x + 1` -/
def exP : Poly (Fl binary64) := ⟨[div 1 (ofNat 10), 1]⟩

theorem _root_.Rustnomial.FiniteRun.cons {S O : Type} {fin : S → Prop} {step : S → O → Res S} {s s' : S} {o : O} {ops : List O} (h : fin s)
    (e : step s o = .ok s') (h' : FiniteRun fin step s' ops) : FiniteRun fin step s (o :: ops) :=
  ⟨h, fun t ht => by rw [e] at ht; cases ht; exact h'⟩

/-- The value a step returns. -/
def stepVal {S O : Type} (step : S → O → Res S) (s : S) (o : O) : S := match step s o with | .ok t => t | _ => s

theorem exOps_finite : FiniteRun FloatSink.AllFinite Poly.stepDiv exP exOps := by
  have h : ∀ (p : Poly (Fl binary64)) (o : OpDiv (Poly (Fl binary64)) (Fl binary64)) (ops : List (OpDiv (Poly (Fl binary64)) (Fl binary64))),
      (∀ c ∈ p.terms, c.isFinite = true) → p.stepDiv o = .ok (stepVal Poly.stepDiv p o) →
      FiniteRun FloatSink.AllFinite Poly.stepDiv (stepVal Poly.stepDiv p o) ops →
      FiniteRun FloatSink.AllFinite Poly.stepDiv p (o :: ops) := fun p o ops h1 h2 h3 => .cons h1 h2 h3
  refine h _ _ _ (by decide +kernel) (by decide +kernel) (h _ _ _ (by decide +kernel) (by decide +kernel)
    (h _ _ _ (by decide +kernel) (by decide +kernel) (h _ _ _ (by decide +kernel) (by decide +kernel) ?_)))
  show ∀ c ∈ _, _
  decide +kernel

example : (∀ o ∈ exOps, o.ShiftOk ∧ o.DivisorOk) ∧ FiniteRun FloatSink.AllFinite Poly.stepDiv exP exOps ∧
    ((runOps Poly.stepDiv exP exOps).bind fun r => .ok (r.terms.map toRat)) =
      .ok [4803839602528529 / 144115188075855872, 1 / 2] := by
  refine ⟨?_, exOps_finite, by decide +kernel⟩
  simp only [exOps, List.forall_mem_cons, List.not_mem_nil, false_imp_iff, implies_true, OpDiv.ShiftOk, OpDiv.DivisorOk]
  decide +kernel
-- the bound for adding a term twice to data known up to `e`
example (P : ℚ[X]) (e : ℚ) (c : Fl f) (val : Poly (Fl f) → ℚ[X]) (len : Poly (Fl f) → Nat) :
    errRun val len P (fun _ => e) [.op (.addTerm c 0), .op (.addTerm c 0)] 0 =
      e + uro f * (|P.coeff 0 + c.toRat| + e) +
        uro f * (|P.coeff 0 + c.toRat + c.toRat| + (e + uro f * (|P.coeff 0 + c.toRat| + e))) := by
  simp [errRun, errStep, absStepDiv, OpDiv.exact, absStep]

/-- C112 (SparsePolynomial): the same. -/
theorem C112_sparse_error (ops : List (OpDiv (Sparse (Fl f)) (Fl f))) (hs : ∀ o ∈ ops, o.ShiftOk ∧ o.DivisorOk)
    (p r : Sparse (Fl f)) (P : ℚ[X]) (E : Nat → ℚ) (hE : ∀ k, |p.ratPoly.coeff k - P.coeff k| ≤ E k)
    (h : runOps Sparse.stepDiv p ops = .ok r) (hf : FiniteRun Sparse.AllFinite Sparse.stepDiv p ops) (k : Nat) :
    |r.ratPoly.coeff k - (absRunDiv P (ops.map (OpDiv.exact Sparse.ratPoly))).coeff k| ≤
      errRun Sparse.ratPoly (fun q => q.terms.entries.length) P E ops k :=
  run_error _ _ _ _ (fun o => o.ShiftOk ∧ o.DivisorOk)
    (fun s o s' ho e h1 h2 k => sparse_local s o s' ho.1 ho.2 e h1 h2 k) ops hs P E p r hE h hf k

/-- `4x^9 - 6x`, divided by 7, times `x^70`, minus `0.1`. -/
def exOps' : List (OpDiv (Sparse (Fl binary64)) (Fl binary64)) :=
  [.divAssignScalar (ofNat 7), .op (.mulAssign ⟨BMap.empty.insert 70 1⟩), .op (.trySubTerm (div 1 (ofNat 10)) 0)]

example : (∀ o ∈ exOps', o.ShiftOk ∧ o.DivisorOk) ∧ FiniteRun Sparse.AllFinite Sparse.stepDiv exY exOps' ∧
    ((runOps Sparse.stepDiv exY exOps').bind fun r => .ok (r.terms.entries.map fun e => (e.1, e.2.toRat))) =
      .ok [(0, -3602879701896397 / 36028797018963968), (71, -7720456504063707 / 9007199254740992),
        (79, 5146971002709138 / 9007199254740992)] := by
  refine ⟨?_, ?_, by decide +kernel⟩
  · simp only [exOps', List.forall_mem_cons, List.not_mem_nil, false_imp_iff, implies_true, OpDiv.ShiftOk, OpDiv.DivisorOk]
    decide +kernel
  · have h : ∀ (p : Sparse (Fl binary64)) (o : OpDiv (Sparse (Fl binary64)) (Fl binary64))
        (ops : List (OpDiv (Sparse (Fl binary64)) (Fl binary64))),
        p.AllFinite → (match p.stepDiv o with | .ok _ => true | _ => false) = true →
        FiniteRun Sparse.AllFinite Sparse.stepDiv (stepVal Sparse.stepDiv p o) ops →
        FiniteRun Sparse.AllFinite Sparse.stepDiv p (o :: ops) := fun p o ops h1 h2 h3 =>
      .cons h1 (by unfold stepVal; revert h2; cases p.stepDiv o <;> simp) h3
    refine h _ _ _ (by decide +kernel) (by decide +kernel) (h _ _ _ (by decide +kernel) (by decide +kernel)
      (h _ _ _ (by decide +kernel) (by decide +kernel) ?_))
    show Sparse.AllFinite _
    decide +kernel

theorem dense_int_of {r : Poly (Fl f)} (h : FloatSink.AllFinite r) (hn : ∀ k, ∃ n : ℤ, (FloatSink.ratPoly r).coeff k = n) :
    ∀ c ∈ r.terms, c.IntValued := by
  intro c hc
  obtain ⟨k, hk⟩ := coeff_of_mem r.terms c hc toRat
  exact ⟨h c hc, by rw [← hk]; exact hn k⟩

theorem sparse_int_of {r : Sparse (Fl f)} (h : r.AllFinite) (hn : ∀ k, ∃ n : ℤ, r.ratPoly.coeff k = n) :
    ∀ k c, r.terms.get k = some c → c.IntValued := by
  intro k c hc
  refine ⟨h (k, c) ((BMap.mem_entries ..).2 hc), ?_⟩
  have := hn k
  rwa [coeff_rat, hc] at this

theorem int_add_mono {P : ℚ[X]} (h : ∀ k, ∃ n : ℤ, P.coeff k = n) {c : ℚ} (hc : ∃ n : ℤ, c = n) (d k : Nat) :
    (∃ n : ℤ, (P + C c * X ^ d).coeff k = (n : ℚ)) ∧ ∃ n : ℤ, (P - C c * X ^ d).coeff k = (n : ℚ) := by
  obtain ⟨n, hn⟩ := h k
  obtain ⟨m, rfl⟩ := hc
  rw [coeff_add, coeff_sub, coeff_mono, hn]
  split_ifs
  · exact ⟨⟨n + m, by push_cast; rfl⟩, ⟨n - m, by push_cast; rfl⟩⟩
  · exact ⟨⟨n, by simp⟩, ⟨n, by simp⟩⟩

/-- One operation on whole numbers (dense). -/
theorem dense_whole_step (hp : 1 ≤ f.p) (hw : f.p + f.q ≤ f.w) (p : Poly (Fl f)) (hpi : ∀ c ∈ p.terms, c.IntValued)
    (o : OpDiv (Poly (Fl f)) (Fl f)) (hs : o.ShiftOk) (hd : o.DivisorOk)
    (hwo : o.Whole fun q => ∀ c ∈ q.terms, c.IntValued)
    (hb : OpWhole f (FloatSink.ratPoly p) (o.exact FloatSink.ratPoly))
    (hz : ∀ Q, o.exact FloatSink.ratPoly = .op (.mulAssign Q) → FloatSink.ratPoly p ≠ 0 ∨ Q ≠ 0) :
    ∃ r, p.stepDiv o = .ok r ∧ (∀ c ∈ r.terms, c.IntValued) ∧
      FloatSink.ratPoly r = absStepDiv (FloatSink.ratPoly p) (o.exact FloatSink.ratPoly) := by
  have hpf : FloatSink.AllFinite p := fun c hc => (hpi c hc).1
  have hpn : ∀ k, ∃ n : ℤ, (FloatSink.ratPoly p).coeff k = n := fun k => dense_coeff_int hpi k
  rcases o with (⟨c, d⟩ | ⟨c, d⟩ | q | q | q | c | s | s | _ | _) | c
  · obtain ⟨h1, h2⟩ := ((C91_try_add p (p.addTerm c d) c d).1 rfl).2.2 hp hw hpf hwo (hpn d) hb
    exact ⟨_, rfl, dense_int_of h1 fun k => by rw [h2]; exact (int_add_mono hpn hwo.2 d k).1, h2⟩
  · have h0 : p.trySubTerm c d = ((p.trySubTerm c d).1, .ok ()) :=
      Prod.ext rfl (C91_outcomes c d p ⟨.empty⟩ ⟨0, 0⟩ ⟨0, 0⟩ ⟨0, 0, 0⟩ (size := 0) ⟨[], rfl⟩).1.2
    obtain ⟨h1, h2⟩ := ((C91_try_sub p _ c d).1 h0).2.2 hp hw hpf hwo (hpn d) hb
    exact ⟨_, rfl, dense_int_of h1 fun k => by rw [h2]; exact (int_add_mono hpn hwo.2 d k).2, h2⟩
  · exact ((C87_dense_add_sub hp hw p q hpi hwo).1 fun k => by rw [coeff_add]; exact hb k).2
  · exact ((C87_dense_add_sub hp hw p q hpi hwo).2 fun k => by rw [coeff_sub]; exact hb k).1
  · have hq : FloatSink.AllFinite q := fun c hc => (hwo c hc).1
    have hne := hz _ rfl
    obtain ⟨r, e⟩ := (C68_mul_panics_iff p q).2.2 (by
      rintro ⟨h1, h2⟩
      have zero : ∀ t : Poly (Fl f), FloatSink.AllFinite t → (∀ c ∈ t.terms, isZero c = true) → FloatSink.ratPoly t = 0 := by
        intro t ht h0
        ext k
        rcases coeff_cases t.terms k with ⟨x, hx, h3⟩ | h3
        · rw [coeff_zero]; exact (h3 toRat).trans ((isZero_iff_toRat (ht x hx)).1 (h0 x hx))
        · rw [coeff_zero]; exact h3 toRat
      exact hne.elim (fun h => h (zero p hpf h1)) fun h => h (zero q hq h2))
    obtain ⟨h1, h2⟩ := C87_dense_mul hp hw p q r hpi hwo (fun k => by
      rw [coeff_mul]; simp only [coeff_dense_abs]; exact hb k) (.inl e)
    exact ⟨r, e, h1, h2⟩
  · obtain ⟨h1, h2⟩ := ((C87_dense_scalar hp hw p c hpi hwo).1 fun k => by rw [coeff_mul_C]; exact hb k).2
    exact ⟨_, rfl, h1, h2.trans (mul_comm _ _)⟩
  · have hs : -2 ^ 31 < s ∧ s < 2 ^ 31 := hs
    simp only [OpDiv.exact, absStepDiv, absStep]
    split_ifs with h0
    · obtain ⟨n, rfl⟩ := Int.eq_ofNat_of_zero_le h0
      obtain ⟨r, e, _, e2, e3⟩ := (C92_dense_shift p n (by omega)).1
      exact ⟨r, e, fun c hc => (e3 c hc).elim (hpi c) fun h => h ▸ ⟨rfl, 0, by simp [toRat_fin_zero, show (0 : Fl f) = .fin false 0 from rfl]⟩, e2⟩
    · obtain ⟨n, hn⟩ : ∃ n : Nat, s = -n := ⟨(-s).toNat, by omega⟩
      subst hn
      obtain ⟨r, e, e1, e2, e3⟩ := (C92_dense_shift p n (by omega)).2.2.1
      exact ⟨r, e1 (by omega), fun c hc => hpi c (e3 c hc), by simpa using e2.divX⟩
  · have hs : -2 ^ 31 < s ∧ s < 2 ^ 31 := hs
    simp only [OpDiv.exact, absStepDiv, absStep]
    split_ifs with h0
    · obtain ⟨n, rfl⟩ := Int.eq_ofNat_of_zero_le h0
      obtain ⟨r, e, e1, e2, e3⟩ := (C92_dense_shift p n (by omega)).2.2.1
      exact ⟨r, e, fun c hc => hpi c (e3 c hc), e2.divX⟩
    · obtain ⟨n, hn⟩ : ∃ n : Nat, s = -n := ⟨(-s).toNat, by omega⟩
      subst hn
      obtain ⟨r, e, e1, e2, e3⟩ := (C92_dense_shift p n (by omega)).1
      exact ⟨r, e1 (by omega), fun c hc => (e3 c hc).elim (hpi c) fun h => h ▸ ⟨rfl, 0, by simp [toRat_fin_zero, show (0 : Fl f) = .fin false 0 from rfl]⟩, by simpa using e2⟩
  · have h2 := (C92_trim [] p ⟨.empty⟩).2.1
    refine ⟨_, rfl, fun c hc => hpi c ?_, h2.2⟩
    obtain ⟨⟨zs, h3, _⟩, _⟩ := (C92_trim p.terms p ⟨.empty⟩).1
    rw [h2.1] at hc
    rw [h3]; simp [hc]
  · refine ⟨_, rfl, ?_, ?_⟩
    · simp [Poly.setToZero]
    · simp [FloatSink.ratPoly, Poly.setToZero, OpDiv.exact, absStepDiv, absStep]
  · refine ((C87_dense_scalar hp hw p c hpi hwo).2 _ hd.2 ?_ fun k => ?_).2
    · simp only [absStepDiv, OpDiv.exact]
      rw [mul_assoc, ← C_mul, inv_mul_cancel₀ hd.2, C_1, mul_one]; rfl
    · simp only [absStepDiv, OpDiv.exact, coeff_mul_C, ← div_eq_mul_inv]; exact hb k

/-- One operation on whole numbers (sparse). -/
theorem sparse_whole_step (hp : 1 ≤ f.p) (hw : f.p + f.q ≤ f.w) (p : Sparse (Fl f))
    (hpi : ∀ k c, p.terms.get k = some c → c.IntValued)
    (o : OpDiv (Sparse (Fl f)) (Fl f)) (hs : o.ShiftOk) (hd : o.DivisorOk)
    (hwo : o.Whole fun q => ∀ k c, q.terms.get k = some c → c.IntValued)
    (hb : OpWhole f p.ratPoly (o.exact Sparse.ratPoly)) :
    ∃ r, p.stepDiv o = .ok r ∧ (∀ k c, r.terms.get k = some c → c.IntValued) ∧
      r.ratPoly = absStepDiv p.ratPoly (o.exact Sparse.ratPoly) := by
  have hpe : ∀ e ∈ p.terms.entries, e.2.IntValued := fun e he => hpi e.1 e.2 ((BMap.mem_entries ..).1 he)
  have hpf : p.AllFinite := fun e he => (hpe e he).1
  have hpn : ∀ k, ∃ n : ℤ, p.ratPoly.coeff k = n := fun k => sparse_coeff_int hpi k
  have hentries : ∀ r : Sparse (Fl f), (∀ e ∈ r.terms.entries, ∃ e' ∈ p.terms.entries, e'.2 = e.2) →
      ∀ k c, r.terms.get k = some c → c.IntValued := by
    intro r hr k c hc
    obtain ⟨e', h1, h2⟩ := hr (k, c) ((BMap.mem_entries ..).2 hc)
    rw [show c = e'.2 from h2.symm]; exact hpe e' h1
  rcases o with (⟨c, d⟩ | ⟨c, d⟩ | q | q | q | c | s | s | _ | _) | c
  · obtain ⟨h1, h2⟩ := ((C91_try_add p (p.addTerm c d) c d).1 rfl).2.2 hp hw hpf hwo (hpn d) hb
    exact ⟨_, rfl, sparse_int_of h1 fun k => by
      rw [show (p.addTerm c d).ratPoly = _ from h2]; exact (int_add_mono hpn hwo.2 d k).1, h2⟩
  · have h0 : p.trySubTerm c d = ((p.trySubTerm c d).1, .ok ()) :=
      Prod.ext rfl (C91_outcomes c d ⟨[]⟩ p ⟨0, 0⟩ ⟨0, 0⟩ ⟨0, 0, 0⟩ (size := 0) ⟨[], rfl⟩).2.1.2
    obtain ⟨h1, h2⟩ := ((C91_try_sub p _ c d).1 h0).2.2 hp hw hpf hwo (hpn d) hb
    exact ⟨_, rfl, sparse_int_of h1 fun k => by
      rw [show (p.trySubTerm c d).1.ratPoly = _ from h2]; exact (int_add_mono hpn hwo.2 d k).2, h2⟩
  · exact ⟨_, rfl, ((C87_sparse_add_sub hp hw p q ⟨[]⟩ hpi hwo (by simp)).1 fun k => by rw [coeff_add]; exact hb k).2⟩
  · exact ⟨_, rfl, (C87_sparse_add_sub hp hw p q ⟨[]⟩ hpi hwo (by simp)).2.1 fun k => by rw [coeff_sub]; exact hb k⟩
  · exact ⟨_, rfl, C87_sparse_mul hp hw p q hpi hwo fun k => by
      rw [coeff_mul]; simp only [coeff_sparse_abs]; exact hb k⟩
  · obtain ⟨h1, h2⟩ := ((C87_sparse_scalar hp hw p c hpi hwo).1 fun k => hb k).2
    exact ⟨_, rfl, h1, h2.trans (mul_comm _ _)⟩
  · have hs : -2 ^ 31 < s ∧ s < 2 ^ 31 := hs
    simp only [OpDiv.exact, absStepDiv, absStep]
    split_ifs with h0
    · obtain ⟨n, rfl⟩ := Int.eq_ofNat_of_zero_le h0
      obtain ⟨r, e, _, e3, e2⟩ := (C92_sparse_shift p n (by omega)).1
      exact ⟨r, e, hentries r (by rw [e3]; simp only [List.mem_map]; rintro _ ⟨x, hx, rfl⟩; exact ⟨x, hx, rfl⟩), e2⟩
    · obtain ⟨n, hn⟩ : ∃ n : Nat, s = -n := ⟨(-s).toNat, by omega⟩
      subst hn
      obtain ⟨r, e, e1, e3, e2⟩ := (C92_sparse_shift p n (by omega)).2
      exact ⟨r, e1 (by omega), hentries r (by
        rw [e3]; simp only [List.mem_map, List.mem_filter]; rintro _ ⟨x, hx, rfl⟩; exact ⟨x, hx.1, rfl⟩), by simpa using e2.divX⟩
  · have hs : -2 ^ 31 < s ∧ s < 2 ^ 31 := hs
    simp only [OpDiv.exact, absStepDiv, absStep]
    split_ifs with h0
    · obtain ⟨n, rfl⟩ := Int.eq_ofNat_of_zero_le h0
      obtain ⟨r, e, e1, e3, e2⟩ := (C92_sparse_shift p n (by omega)).2
      exact ⟨r, e, hentries r (by
        rw [e3]; simp only [List.mem_map, List.mem_filter]; rintro _ ⟨x, hx, rfl⟩; exact ⟨x, hx.1, rfl⟩), e2.divX⟩
    · obtain ⟨n, hn⟩ : ∃ n : Nat, s = -n := ⟨(-s).toNat, by omega⟩
      subst hn
      obtain ⟨r, e, e1, e3, e2⟩ := (C92_sparse_shift p n (by omega)).1
      exact ⟨r, e1 (by omega), hentries r (by
        rw [e3]; simp only [List.mem_map]; rintro _ ⟨x, hx, rfl⟩; exact ⟨x, hx, rfl⟩), by simpa using e2⟩
  · have h2 := (C92_trim [] ⟨[]⟩ p).2.2.1
    exact ⟨_, rfl, hentries _ (by rw [h2.1]; intro e he; exact ⟨e, (List.mem_filter.1 he).1, rfl⟩), h2.2⟩
  · refine ⟨_, rfl, hentries _ (by simp [Sparse.setToZero, BMap.empty]), ?_⟩
    simp [Sparse.ratPoly, Sparse.setToZero, BMap.empty, entriesPoly, OpDiv.exact, absStepDiv, absStep]
  · refine ((C87_sparse_scalar hp hw p c hpi hwo).2 _ hd.2 ?_ fun k => ?_).2
    · simp only [absStepDiv, OpDiv.exact]
      rw [mul_assoc, ← C_mul, inv_mul_cancel₀ hd.2, C_1, mul_one]
    · simp only [absStepDiv, OpDiv.exact, coeff_mul_C, ← div_eq_mul_inv]; exact hb k

/-- C112 (Polynomial): a history of mutations on whole numbers, whose results stay below `2^p` and whose quotients are
whole, is exact.  It returns exactly when it never multiplies zero by zero. -/
theorem C112_dense_whole (hp : 1 ≤ f.p) (hw : f.p + f.q ≤ f.w) (ops : List (OpDiv (Poly (Fl f)) (Fl f)))
    (hs : ∀ o ∈ ops, o.ShiftOk ∧ o.DivisorOk ∧ o.Whole fun q => ∀ c ∈ q.terms, c.IntValued)
    (p : Poly (Fl f)) (hpi : ∀ c ∈ p.terms, c.IntValued)
    (hb : WholeRun f (FloatSink.ratPoly p) (ops.map (OpDiv.exact FloatSink.ratPoly))) :
    (NeverZeroTimesZero (FloatSink.ratPoly p) (ops.map (OpDiv.exact FloatSink.ratPoly)) →
      ∃ r, runOps Poly.stepDiv p ops = .ok r ∧ (∀ c ∈ r.terms, c.IntValued) ∧
        FloatSink.ratPoly r = absRunDiv (FloatSink.ratPoly p) (ops.map (OpDiv.exact FloatSink.ratPoly))) ∧
    (¬ NeverZeroTimesZero (FloatSink.ratPoly p) (ops.map (OpDiv.exact FloatSink.ratPoly)) →
      runOps Poly.stepDiv p ops = .panic) := by
  induction ops generalizing p with
  | nil => exact ⟨fun _ => ⟨p, rfl, hpi, rfl⟩, fun h => absurd trivial h⟩
  | cons o ops ih =>
    rw [runOps, List.foldlM_cons]
    obtain ⟨h1, h2, h3⟩ := hs o (by simp)
    by_cases hz : ∀ Q, o.exact FloatSink.ratPoly = .op (.mulAssign Q) → FloatSink.ratPoly p ≠ 0 ∨ Q ≠ 0
    · obtain ⟨r, e, e1, e2⟩ := dense_whole_step hp hw p hpi o h1 h2 h3 hb.1 hz
      have := ih (fun o ho => hs o (by simp [ho])) r e1 (by rw [e2]; exact hb.2)
      rw [e2] at this
      rw [e, Res.ok_bind]
      exact ⟨fun h => this.1 h.2, fun h => this.2 fun h' => h ⟨hz, h'⟩⟩
    · refine ⟨fun h => absurd h.1 hz, fun _ => ?_⟩
      push Not at hz
      obtain ⟨Q, hQ, hp0, hQ0⟩ := hz
      rcases o with (⟨c, d⟩ | ⟨c, d⟩ | q | q | q | c | s | s | _ | _) | c <;> simp only [OpDiv.exact, OpDiv.op.injEq, reduceCtorEq] at hQ
      cases hQ
      have zero : ∀ t : Poly (Fl f), (∀ c ∈ t.terms, c.IntValued) → FloatSink.ratPoly t = 0 → ∀ c ∈ t.terms, isZero c = true := by
        intro t ht h0 c hc
        obtain ⟨k, hk⟩ := coeff_of_mem t.terms c hc toRat
        rw [isZero_iff_toRat (ht c hc).1, ← hk]
        exact (congrArg (fun P => Polynomial.coeff P k) h0).trans (coeff_zero k)
      have : p.mul q = .panic := (C68_mul_panics_iff p q).1.2 ⟨zero p hpi hp0, zero q h3 hQ0⟩
      show (p.mul q >>= _) = _
      rw [this]; rfl

/-- `(3x^2 - 5x + 7)(2x - 1) · 4 / 2`, shifted. -/
def exOpsW : List (OpDiv (Poly (Fl binary64)) (Fl binary64)) :=
  [.op (.mulAssign exV), .op (.mulAssignScalar (ofNat 4)), .divAssignScalar (ofNat 2), .op (.shlAssign 3)]

theorem ofNat_toRat_two : (ofNat 2 : Fl binary64).toRat = 2 ∧ (ofNat 4 : Fl binary64).toRat = 4 := by decide +kernel

example : (∀ o ∈ exOpsW, o.ShiftOk ∧ o.DivisorOk ∧ o.Whole fun q => ∀ c ∈ q.terms, c.IntValued) ∧
    WholeRun binary64 (FloatSink.ratPoly exW) (exOpsW.map (OpDiv.exact FloatSink.ratPoly)) ∧
    NeverZeroTimesZero (FloatSink.ratPoly exW) (exOpsW.map (OpDiv.exact FloatSink.ratPoly)) ∧
    runOps Poly.stepDiv exW exOpsW = .ok ⟨[ofNat 12, -ofNat 26, ofNat 38, -ofNat 14, 0, 0, 0]⟩ := by
  have hW : FloatSink.ratPoly exW = descPoly ([3, -5, 7] : List ℚ) := congrArg descPoly exW_rat
  have hV : FloatSink.ratPoly exV = descPoly ([2, -1] : List ℚ) := congrArg descPoly exV_rat
  have hprod : descPoly [3, -5, 7] * descPoly [2, -1] = descPoly ([6, -13, 19, -7] : List ℚ) := by poly_eq
  have hb : ∀ k, |(descPoly ([6, -13, 19, -7] : List ℚ)).coeff k| < 20 :=
    coeff_lt_of_forall (by norm_num) (by decide +kernel)
  have hn : ∀ k, ∃ n : ℤ, (descPoly ([6, -13, 19, -7] : List ℚ)).coeff k = n := fun k => by
    have := dense_coeff_int (l := ([ofNat 6, -ofNat 13, ofNat 19, -ofNat 7] : List (Fl binary64)))
      (fun c hc => intValued_of (by revert c; decide +kernel)) k
    rwa [show ([ofNat 6, -ofNat 13, ofNat 19, -ofNat 7] : List (Fl binary64)).map toRat = [6, -13, 19, -7] by decide +kernel] at this
  have h4 := ofNat_toRat_two.2
  have h2 := ofNat_toRat_two.1
  have hpow : (100 : ℚ) < 2 ^ binary64.p := by decide +kernel
  refine ⟨?_, ⟨fun k => ?_, fun k => ?_, fun k => ?_, trivial, trivial⟩, ⟨?_, ?_, ?_, ?_, trivial⟩, by decide +kernel⟩
  · simp only [exOpsW, List.forall_mem_cons, List.not_mem_nil, false_imp_iff, implies_true, OpDiv.ShiftOk, OpDiv.DivisorOk,
      OpDiv.Whole, and_true, true_and]
    exact ⟨exV_int, intValued_of (by decide +kernel), ⟨by decide +kernel, intValued_of (by decide +kernel)⟩, by decide⟩
  · have h1 : ∑ x ∈ Finset.antidiagonal k, |(FloatSink.ratPoly exW).coeff x.1| * |(FloatSink.ratPoly exV).coeff x.2| =
        (descPoly ([3, 5, 7] : List ℚ) * descPoly [2, 1]).coeff k := by
      rw [coeff_mul, ← exW_abs, ← exV_abs]
      simp only [coeff_dense_abs]; rfl
    refine h1.trans_lt ?_
    rw [show descPoly [3, 5, 7] * descPoly [2, 1] = descPoly ([6, 13, 19, 7] : List ℚ) by poly_eq]
    exact (le_abs_self _).trans_lt (coeff_lt_of_forall (by decide) (by decide +kernel) k)
  · simp only [OpDiv.exact, absStepDiv, absStep]
    rw [hW, hV, hprod, abs_mul, h4]
    have := hb k
    norm_num
    linarith
  · simp only [OpDiv.exact, absStepDiv, absStep]
    rw [hW, hV, hprod, coeff_C_mul, h4, h2]
    obtain ⟨n, hn⟩ := hn k
    have := hb k
    rw [show 4 * (descPoly ([6, -13, 19, -7] : List ℚ)).coeff k / 2 = 2 * (descPoly ([6, -13, 19, -7] : List ℚ)).coeff k by ring]
    refine ⟨⟨2 * n, by rw [hn]; push_cast; rfl⟩, ?_⟩
    rw [abs_mul]
    norm_num
    linarith
  · intro Q _
    refine .inl fun h => ?_
    have := congrArg (fun P => Polynomial.coeff P 0) (hW.symm.trans h)
    simp [coeff_descPoly] at this
  all_goals (intro Q h; simp [OpDiv.exact] at h)
-- zero times zero
example : runOps Poly.stepDiv exW [.op .setToZero, .op (.mulAssign ⟨[0]⟩)] = .panic := by decide +kernel

/-- C112 (SparsePolynomial): the same; it always returns. -/
theorem C112_sparse_whole (hp : 1 ≤ f.p) (hw : f.p + f.q ≤ f.w) (ops : List (OpDiv (Sparse (Fl f)) (Fl f)))
    (hs : ∀ o ∈ ops, o.ShiftOk ∧ o.DivisorOk ∧ o.Whole fun q => ∀ k c, q.terms.get k = some c → c.IntValued)
    (p : Sparse (Fl f)) (hpi : ∀ k c, p.terms.get k = some c → c.IntValued)
    (hb : WholeRun f p.ratPoly (ops.map (OpDiv.exact Sparse.ratPoly))) :
    ∃ r, runOps Sparse.stepDiv p ops = .ok r ∧ (∀ k c, r.terms.get k = some c → c.IntValued) ∧
      r.ratPoly = absRunDiv p.ratPoly (ops.map (OpDiv.exact Sparse.ratPoly)) := by
  induction ops generalizing p with
  | nil => exact ⟨p, rfl, hpi, rfl⟩
  | cons o ops ih =>
    rw [runOps, List.foldlM_cons]
    obtain ⟨h1, h2, h3⟩ := hs o (by simp)
    obtain ⟨r, e, e1, e2⟩ := sparse_whole_step hp hw p hpi o h1 h2 h3 hb.1
    have := ih (fun o ho => hs o (by simp [ho])) r e1 (by rw [e2]; exact hb.2)
    rw [e2] at this
    rw [e, Res.ok_bind]
    exact this

/-- `4x^9 - 6x`, shifted down and divided by 2. -/
def exOpsW' : List (OpDiv (Sparse (Fl binary64)) (Fl binary64)) := [.op (.shrAssign 1), .divAssignScalar (ofNat 2)]

example : (∀ o ∈ exOpsW', o.ShiftOk ∧ o.DivisorOk ∧ o.Whole fun q => ∀ k c, q.terms.get k = some c → c.IntValued) ∧
    WholeRun binary64 exY.ratPoly (exOpsW'.map (OpDiv.exact Sparse.ratPoly)) ∧
    (runOps Sparse.stepDiv exY exOpsW').bind (fun r => .ok (r.terms.entries.map fun e => (e.1, e.2.toRat))) =
      .ok [(0, -3), (8, 2)] := by
  have h2 := ofNat_toRat_two.1
  refine ⟨?_, ⟨trivial, fun k => ?_, trivial⟩, by decide +kernel⟩
  · simp only [exOpsW', List.forall_mem_cons, List.not_mem_nil, false_imp_iff, implies_true, OpDiv.ShiftOk, OpDiv.DivisorOk,
      OpDiv.Whole, and_true, true_and]
    exact ⟨by decide, by decide +kernel, intValued_of (by decide +kernel)⟩
  · simp only [OpDiv.exact, absStepDiv, absStep]
    rw [if_pos (by decide), coeff_divX_iter, h2, exY_rat]
    have hpow : (100 : ℚ) < 2 ^ binary64.p := by decide +kernel
    simp only [coeff_sub, coeff_C_mul, coeff_X_pow, coeff_X]
    split_ifs
    · exact ⟨⟨-1, by norm_num⟩, by norm_num; linarith⟩
    · exact ⟨⟨2, by norm_num⟩, by norm_num; linarith⟩
    · exact ⟨⟨-3, by norm_num⟩, by norm_num; linarith⟩
    · exact ⟨⟨0, by norm_num⟩, by norm_num⟩

theorem dense_step_returns (p : Poly (Fl f)) (o : OpDiv (Poly (Fl f)) (Fl f)) (h1 : o.ShiftOk)
    (h2 : ∀ q, o = .op (.mulAssign q) → (∀ c ∈ p.terms, isZero c = true) → ¬ ∀ c ∈ q.terms, isZero c = true) :
    ∃ r, p.stepDiv o = .ok r := by
  rcases o with (⟨c, d⟩ | ⟨c, d⟩ | q | q | q | c | k | k | _ | _) | c
  · exact ⟨_, rfl⟩
  · exact ⟨_, rfl⟩
  · exact (C67_add p q).2.imp fun _ h => h.1
  · exact (C67_sub p q).1.imp fun _ h => h.1
  · exact (C68_mul_panics_iff p q).2.2 fun h => h2 q rfl h.1 h.2
  · exact ⟨_, rfl⟩
  · have hs : -2 ^ 31 < k ∧ k < 2 ^ 31 := h1
    rcases Int.le_total 0 k with h0 | h0
    · obtain ⟨n, rfl⟩ := Int.eq_ofNat_of_zero_le h0
      exact (C92_dense_shift p n (by omega)).1.imp fun _ h => h.1
    · obtain ⟨n, hn⟩ : ∃ n : Nat, k = -n := ⟨(-k).toNat, by omega⟩
      subst hn
      rcases Nat.eq_zero_or_pos n with rfl | hn
      · exact (C92_dense_shift p 0 (by omega)).1.imp fun _ h => h.1
      · exact (C92_dense_shift p n (by omega)).2.2.1.imp fun _ h => h.2.1 hn
  · have hs : -2 ^ 31 < k ∧ k < 2 ^ 31 := h1
    rcases Int.le_total 0 k with h0 | h0
    · obtain ⟨n, rfl⟩ := Int.eq_ofNat_of_zero_le h0
      exact (C92_dense_shift p n (by omega)).2.2.1.imp fun _ h => h.1
    · obtain ⟨n, hn⟩ : ∃ n : Nat, k = -n := ⟨(-k).toNat, by omega⟩
      subst hn
      rcases Nat.eq_zero_or_pos n with rfl | hn
      · exact (C92_dense_shift p 0 (by omega)).2.2.1.imp fun _ h => h.1
      · exact (C92_dense_shift p n (by omega)).1.imp fun _ h => h.2.1 hn
  · exact ⟨_, rfl⟩
  · exact ⟨_, rfl⟩
  · show ∃ r, p.divAssignScalar c = .ok r
    unfold Poly.divAssignScalar
    rw [mapM_rdiv]
    exact ⟨_, rfl⟩

/-- C112: which histories return, whatever the numbers (also NaN and infinities), if no shift is by `i32::MIN`.  On a
`Polynomial` the only panic is a product of two values with no coefficient but zeros; on a `SparsePolynomial` there is
none. -/
theorem C112_returns (ops : List (OpDiv (Poly (Fl f)) (Fl f))) (ops' : List (OpDiv (Sparse (Fl f)) (Fl f)))
    (p : Poly (Fl f)) (s : Sparse (Fl f)) :
    ((∀ o ∈ ops, o.ShiftOk) →
      ((∃ r, runOps Poly.stepDiv p ops = .ok r) ∨ runOps Poly.stepDiv p ops = .panic) ∧
      (runOps Poly.stepDiv p ops = .panic ↔ ∃ pre q suf t, ops = pre ++ .op (.mulAssign q) :: suf ∧
        runOps Poly.stepDiv p pre = .ok t ∧ (∀ c ∈ t.terms, isZero c = true) ∧ ∀ c ∈ q.terms, isZero c = true)) ∧
    ((∀ o ∈ ops', o.ShiftOk) → ∃ r, runOps Sparse.stepDiv s ops' = .ok r) := by
  constructor
  · intro h
    induction ops generalizing p with
    | nil => exact ⟨.inl ⟨p, rfl⟩, by simp [runOps]⟩
    | cons o ops ih =>
      by_cases hz : ∃ q, o = .op (.mulAssign q) ∧ (∀ c ∈ p.terms, isZero c = true) ∧ ∀ c ∈ q.terms, isZero c = true
      · obtain ⟨q, rfl, h1, h2⟩ := hz
        have e : runOps Poly.stepDiv p (.op (.mulAssign q) :: ops) = .panic := by
          rw [runOps, List.foldlM_cons]
          show (p.mul q >>= _) = _
          rw [(C68_mul_panics_iff p q).1.2 ⟨h1, h2⟩]; rfl
        exact ⟨.inr e, ⟨fun _ => ⟨[], q, ops, p, rfl, rfl, h1, h2⟩, fun _ => e⟩⟩
      · obtain ⟨r, e⟩ := dense_step_returns p o (h o (by simp)) fun q hq h1 h2 => hz ⟨q, hq, h1, h2⟩
        have e' : ∀ l, runOps Poly.stepDiv p (o :: l) = runOps Poly.stepDiv r l := fun l => by
          rw [runOps, List.foldlM_cons, e, Res.ok_bind]; rfl
        obtain ⟨h1, h2⟩ := ih r fun o ho => h o (by simp [ho])
        rw [e', h2]
        rw [h2] at h1
        refine ⟨h1, ⟨?_, ?_⟩⟩
        · rintro ⟨pre, q, suf, t, rfl, e2, h3⟩
          exact ⟨o :: pre, q, suf, t, rfl, by rw [e']; exact e2, h3⟩
        · rintro ⟨pre, q, suf, t, e1, e2, h3⟩
          cases pre with
          | nil =>
            obtain ⟨rfl, rfl⟩ := List.cons.inj e1
            cases e2
            exact absurd ⟨q, rfl, h3⟩ hz
          | cons o' pre =>
            obtain ⟨rfl, rfl⟩ := List.cons.inj e1
            exact ⟨pre, q, suf, t, rfl, by rw [← e']; exact e2, h3⟩
  · intro h
    induction ops' generalizing s with
    | nil => exact ⟨s, rfl⟩
    | cons o ops ih =>
      have h1 := h o (by simp)
      have step : ∃ r, s.stepDiv o = .ok r := by
        rcases o with (⟨c, d⟩ | ⟨c, d⟩ | q | q | q | c | k | k | _ | _) | c
        · exact ⟨_, rfl⟩
        · exact ⟨_, rfl⟩
        · exact ⟨_, rfl⟩
        · exact ⟨_, rfl⟩
        · exact ⟨_, rfl⟩
        · exact ⟨_, rfl⟩
        · have hs : -2 ^ 31 < k ∧ k < 2 ^ 31 := h1
          rcases Int.le_total 0 k with h0 | h0
          · obtain ⟨n, rfl⟩ := Int.eq_ofNat_of_zero_le h0
            exact (C92_sparse_shift s n (by omega)).1.imp fun _ h => h.1
          · obtain ⟨n, hn⟩ : ∃ n : Nat, k = -n := ⟨(-k).toNat, by omega⟩
            subst hn
            rcases Nat.eq_zero_or_pos n with rfl | hn
            · exact (C92_sparse_shift s 0 (by omega)).1.imp fun _ h => h.1
            · exact (C92_sparse_shift s n (by omega)).2.imp fun _ h => h.2.1 hn
        · have hs : -2 ^ 31 < k ∧ k < 2 ^ 31 := h1
          rcases Int.le_total 0 k with h0 | h0
          · obtain ⟨n, rfl⟩ := Int.eq_ofNat_of_zero_le h0
            exact (C92_sparse_shift s n (by omega)).2.imp fun _ h => h.1
          · obtain ⟨n, hn⟩ : ∃ n : Nat, k = -n := ⟨(-k).toNat, by omega⟩
            subst hn
            rcases Nat.eq_zero_or_pos n with rfl | hn
            · exact (C92_sparse_shift s 0 (by omega)).2.imp fun _ h => h.1
            · exact (C92_sparse_shift s n (by omega)).1.imp fun _ h => h.2.1 hn
        · exact ⟨_, rfl⟩
        · exact ⟨_, rfl⟩
        · show ∃ r, s.divAssignScalar c = .ok r
          unfold Sparse.divAssignScalar
          rw [foldlM_ok _ _ (fun (m : BMap (Fl f)) e => m.insert e.1 (div e.2 c))]
          · exact ⟨_, rfl⟩
          · exact fun e _ m => rfl
      obtain ⟨r, e⟩ := step
      obtain ⟨r', e'⟩ := ih r fun o ho => h o (by simp [ho])
      exact ⟨r', by rw [runOps, List.foldlM_cons, e, Res.ok_bind]; exact e'⟩

-- infinite coefficients times zero is zero
example : (∀ o ∈ exOps, o.ShiftOk) ∧
    runOps Poly.stepDiv exP [.divAssignScalar 0, .op (.mulAssign ⟨[0]⟩)] = .ok ⟨[0]⟩ ∧
    runOps Poly.stepDiv exP ([.op (.shrAssign 2)] ++ .op (.mulAssign ⟨[-0, 0]⟩) :: [.op .trim]) = .panic := by
  refine ⟨?_, by decide +kernel, by decide +kernel⟩
  simp only [exOps, List.forall_mem_cons, List.not_mem_nil, false_imp_iff, implies_true, OpDiv.ShiftOk]
  decide

end Fl
end Rustnomial
