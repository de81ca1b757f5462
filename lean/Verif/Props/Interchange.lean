import Verif.Props.Congruence

/-!
# Dense and sparse polynomials are interchangeable (C28)
-/

open Polynomial

set_option linter.unusedSectionVars false

namespace Rustnomial

/-- A dense and a sparse value denote the same polynomial. -/
def SamePoly {R : Type} [Semiring R] (p : Poly R) (s : Sparse R) : Prop :=
  descPoly p.terms = entriesPoly s.terms.entries

/-- If both computations return, the results are related. -/
def Agree {α β : Type} (rel : α → β → Prop) (x : Res α) (y : Res β) : Prop :=
  ∀ a b, x = .ok a → y = .ok b → rel a b

section
variable {R : Type} [CommRing R] [NumZero R] [LawfulNumZero R]

/-- C28: `Polynomial::from(v)` and `SparsePolynomial::from(v)` denote the same polynomial; so do values
built from the same terms. -/
theorem C28_from_vec (l : List R) (ts : List (R × Nat)) :
    SamePoly (Poly.fromVec l) (Sparse.fromVec l) ∧ SamePoly (Poly.fromTerms ts) (Sparse.fromTerms ts) ∧
    SamePoly (Poly.zero : Poly R) Sparse.zero := by
  refine ⟨?_, ?_, ?_⟩
  · rw [SamePoly, C28_sparse_from_vec, Poly.fromVec, C01_new_same_polynomial]
  · rw [SamePoly, C31_sparse_from_terms, C31_dense_from_terms]
  · rw [SamePoly, (C02_dense_zero Poly.zero).2.2.1, (C02_sparse_zero Sparse.zero).2.2.1]

/-- C28: queries, iteration and printing of related values give identical answers. -/
theorem C28_queries (p : Poly R) (s : Sparse R) (h : SamePoly p s) :
    p.degree = s.degree ∧ p.isZeroPoly = s.isZeroPoly ∧ p.termsAsVec = s.termsAsVec ∧
    p.orderedTermIter = s.orderedTermIter ∧ (∀ d, p.termWithDegree d = s.termWithDegree d) ∧
    (∀ F : NumFmt R, p.display F = s.display F) := by
  have hd : p.degree = s.degree := toWithBot_inj (by rw [C02_dense_degree, C02_sparse_degree, h])
  have hi : p.orderedTermIter = s.orderedTermIter :=
    termList_unique (C03_dense_terms p).1 (h ▸ (C03_sparse_terms s).1)
  refine ⟨hd, by rw [Poly.isZeroPoly, hd, Sparse.isZeroPoly], hi, hi, fun d => ?_, fun F => ?_⟩
  · by_cases h0 : (descPoly p.terms).coeff d = 0
    · rw [(C04_dense_term p d).1 h0, (C04_sparse_term s d).1 (h ▸ h0)]
    · rw [(C04_dense_term p d).2 h0, (C04_sparse_term s d).2 (h ▸ h0), h]
  · rw [Poly.display, hi, Sparse.display]

/-- C28: evaluation of related values agrees, as long as the exponents are below the bound up to which
the power function used by the sparse type is exact (`C07_sparse_eval_false`). -/
theorem C28_eval_partial [PowUsize R] [hl : LawfulPowUsize R] (p : Poly R) (s : Sparse R) (h : SamePoly p s)
    (x : R) (hb : ∀ d, (descPoly p.terms).coeff d ≠ 0 → d < hl.bound) : p.eval x = s.eval x := by
  rw [C06_dense_eval, h, sparse_eval_sum, eval_eq_sum]
  unfold Polynomial.sum
  refine Finset.sum_congr rfl fun k hk => ?_
  simp only [LawfulPowUsize.upow_eq x k (hb k (by rw [h]; exact mem_support_iff.1 hk))]

/-- C28: the operations preserve the relation.  Where the dense operation returns unconditionally, so it
is stated; a dense product of two zeros panics where the sparse one returns. -/
theorem C28_arith_partial (p q : Poly R) (s t : Sparse R) (h : SamePoly p s) (h' : SamePoly q t) :
    (∃ r, p.add q = .ok r ∧ SamePoly r (s.add t)) ∧
    (∃ r, p.addAssign q = .ok r ∧ SamePoly r (s.addAssign t)) ∧
    (∃ r, p.sub q = .ok r ∧ SamePoly r (s.sub t) ∧ SamePoly r (s.subDense q)) ∧
    SamePoly p.neg s.neg ∧
    (∀ r, p.mul q = .ok r → SamePoly r (s.mul t)) ∧
    (p.mul q = .panic ↔ s.isZeroPoly = true ∧ t.isZeroPoly = true) ∧
    (∀ n r, p.pow n = .ok r → SamePoly r (s.pow n)) ∧
    (∀ c, SamePoly (p.mulScalar c) (s.mulScalar c) ∧ SamePoly (p.mulAssignScalar c) (s.mulAssignScalar c)) ∧
    (∀ c d, SamePoly (p.addTerm c d) (s.addTerm c d)) ∧
    SamePoly p.trim s.trim ∧ SamePoly p.setToZero s.setToZero := by
  unfold SamePoly at *
  refine ⟨?_, ?_, ?_, ?_, fun r hr => ?_, ?_, fun n r hr => ?_, fun c => ⟨?_, ?_⟩, fun c d => ?_, ?_, ?_⟩
  · obtain ⟨r, e, f⟩ := C08_dense_add p q
    exact ⟨r, e, by rw [f, (C25_sparse_add s t).1, h, h']⟩
  · obtain ⟨r, e, f⟩ := C08_dense_add_assign p q
    exact ⟨r, e, by rw [f, (C25_sparse_add s t).2, h, h']⟩
  · obtain ⟨r, e, f⟩ := C09_dense_sub p q
    exact ⟨r, e, by rw [f, C25_sparse_sub, h, h'], by rw [f, C25_sparse_sub_dense, h]⟩
  · rw [(C10_dense_neg p).1, C10_sparse_neg, h]
  · have hne : descPoly p.terms ≠ 0 ∨ descPoly q.terms ≠ 0 := by
      by_contra hc
      simp only [ne_eq, not_or, not_not] at hc
      rw [((C11_dense_mul_panics_iff p q).1).2 hc] at hr
      cases hr
    obtain ⟨r', e, f⟩ := (C11_dense_mul_partial p q hne).1
    rw [hr] at e; rw [Res.ok.inj e, f, C26_sparse_mul, h, h']
  · rw [(C11_dense_mul_panics_iff p q).1, C02_sparse_is_zero, C02_sparse_is_zero, h, h']
  · rw [C12_dense_pow_sound p n r hr, C26_sparse_pow, h]
  · rw [C13_dense_mul_scalar, (C13_sparse_mul_scalar s c).1, h]
  · rw [C13_dense_mul_assign_scalar, (C13_sparse_mul_scalar s c).2, h]
  · rw [C31_dense_add_term, C31_sparse_add_term, h]
  · rw [(C01_sparse_trim s).1, ← (C01_trim_idempotent p).2.2, C01_new_same_polynomial, h]
  · rw [(C02_dense_zero p).2.2.2, (C02_sparse_zero s).2.2.2]

/-- C28: shifts.  The in-place shifts have the same outcome (also for `i32::MIN`); the others agree
whenever the dense one returns. -/
theorem C28_shift_partial (p : Poly R) (s : Sparse R) (h : SamePoly p s) (k : Int) :
    SameOutcome SamePoly (p.shlAssign k) (s.shl k) ∧ SameOutcome SamePoly (p.shrAssign k) (s.shr k) ∧
    Agree SamePoly (p.shl k) (s.shl k) ∧ Agree SamePoly (p.shr k) (s.shr k) := by
  have hmin := C15_sparse_shift_false s
  by_cases hk : k = -2 ^ 31
  · subst hk
    rw [hmin.1, hmin.2]
    refine ⟨?_, ?_, ?_, ?_⟩
    · rw [Poly.shlAssign, if_pos (by decide), negI32_min]; trivial
    · rw [Poly.shrAssign, if_pos (by decide), negI32_min]; trivial
    · intro a b _ hb; cases hb
    · intro a b _ hb; cases hb
  · obtain ⟨⟨r, e, a1, a2⟩, ⟨u, f, b1, b2⟩⟩ := C14_dense_shift_assign_partial p k hk
    obtain ⟨⟨r', e', a1', a2'⟩, ⟨u', f', b1', b2'⟩⟩ := C15_sparse_shift_partial s k hk
    have hsp : descPoly p.terms = entriesPoly s.terms.entries := h
    rw [hsp] at a1 a2 b1 b2
    refine ⟨.of_ok e e' ?_, .of_ok f f' ?_, ?_, ?_⟩
    · unfold SamePoly
      by_cases hs : 0 ≤ k
      · rw [a1 hs, a1' hs]
      · exact (a2 (by omega)).unique (a2' (by omega))
    · unfold SamePoly
      by_cases hs : 0 ≤ k
      · exact (b1 hs).unique (b1' hs)
      · rw [b2 (by omega), b2' (by omega)]
    · intro a b ha hb
      rw [e'] at hb
      rw [← Res.ok.inj hb]
      unfold SamePoly
      by_cases hs : 0 ≤ k
      · obtain ⟨v, hv, hv'⟩ := (C14_dense_shl p k).1 hs
        rw [ha] at hv; rw [Res.ok.inj hv, hv', a1' hs, hsp]
      · refine IsShiftRight.unique (P := entriesPoly s.terms.entries) ?_ (a2' (by omega))
        rw [← hsp]
        rw [Poly.shl, if_pos (by omega), negI32_ok hk, Res.ok_bind] at ha
        exact shrPos_sound p _ a ha
    · intro a b ha hb
      rw [f'] at hb
      rw [← Res.ok.inj hb]
      unfold SamePoly
      by_cases hs : 0 ≤ k
      · refine IsShiftRight.unique (P := entriesPoly s.terms.entries) ?_ (b1' hs)
        rw [← hsp]
        rw [Poly.shr, if_neg (by omega)] at ha
        exact shrPos_sound p _ a ha
      · obtain ⟨v, hv, hv'⟩ := (C14_dense_shl p k).2 (by omega) hk
        rw [ha] at hv; rw [Res.ok.inj hv, hv', b2' (by omega), hsp]

/-- C28: derivatives agree whenever both return. -/
theorem C28_derivative_partial [FromUsizeCont R] [LawfulFromUsizeCont R] [FromUsizeExact R]
    [LawfulFromUsizeExact R] (p : Poly R) (s : Sparse R) (h : SamePoly p s) :
    Agree SamePoly p.derivative s.derivative := by
  intro a b ha hb
  unfold SamePoly at *
  obtain hp | ⟨r, e, f⟩ := C16_dense_derivative p
  · rw [ha] at hp; cases hp
  · rw [ha] at e; rw [Res.ok.inj e, f, h]
    by_cases hd : ∃ d, d ≠ 0 ∧ (entriesPoly s.terms.entries).coeff d ≠ 0 ∧ (tryFromExact d : Option R) = none
    · rw [(C17_sparse_derivative s).1 hd] at hb; cases hb
    · obtain ⟨r', e', f'⟩ := (C17_sparse_derivative s).2 (fun d h1 h2 h3 => hd ⟨d, h1, h2, h3⟩)
      rw [hb] at e'; rw [Res.ok.inj e', f']

/-- C28: with conversions that never fail (as far as they are used) both derivatives return. -/
theorem C28_derivative_total [FromUsizeCont R] [LawfulFromUsizeCont R] [FromUsizeExact R]
    [LawfulFromUsizeExact R] (hc : ∀ n, (tryFromCont n : Option R) ≠ none)
    (hx : ∀ n, (tryFromExact n : Option R) ≠ none) (p : Poly R) (s : Sparse R) (h : SamePoly p s) :
    SameOutcome SamePoly p.derivative s.derivative := by
  obtain ⟨r', e', f'⟩ := (C17_sparse_derivative s).2 (fun d _ _ => hx d)
  obtain hp | ⟨r, e, f⟩ := C16_dense_derivative p
  · exact absurd ((C16_dense_derivative_panics_iff p).1 hp) (hc _)
  · exact .of_ok e e' (C28_derivative_partial p s h r r' e e')

/-- C28 is false as stated: `0 * 0` panics for Polynomial and returns for SparsePolynomial, and a right
shift of an untrimmed Polynomial panics where that of the SparsePolynomial returns. -/
theorem C28_false :
    (SamePoly (Poly.zero : Poly ℤ) Sparse.zero ∧ (Poly.zero : Poly ℤ).mul Poly.zero = .panic ∧
      ((Sparse.zero : Sparse ℤ).mul Sparse.zero).terms.entries = []) ∧
    (SamePoly (⟨[0, 0, 3]⟩ : Poly ℤ) (Sparse.fromVec [3]) ∧ (⟨[0, 0, 3]⟩ : Poly ℤ).shr 2 = .panic ∧
      ∃ r, (Sparse.fromVec [(3 : ℤ)]).shr 2 = .ok r) := by
  refine ⟨⟨(C28_from_vec [] []).2.2, by decide, rfl⟩, ?_, by decide, ⟨_, rfl⟩⟩
  rw [SamePoly, C28_sparse_from_vec]
  simp [descPoly]

example : (Sparse.fromVec [(1 : ℤ), 0, 2]).orderedTermIter = [(1, 2), (2, 0)] ∧
    (Poly.fromVec [(1 : ℤ), 0, 2]).orderedTermIter = [(1, 2), (2, 0)] := by decide

end
end Rustnomial
