import Verif.Props.DenseCalc
import Verif.Props.ArrayPoly

/-!
# C17, C18: exactly when derivative and integral of the types panic
-/

open Polynomial

set_option linter.unusedSectionVars false

namespace Rustnomial

/-- C17: the derivative of a quadratic trinomial panics precisely if 2 has no representation in the coefficient type. -/
theorem C17_trinomial_derivative_panics_iff {R : Type} [CommRing R] [FromUsizeExact R] (t : QuadraticTrinomial R) :
    t.derivative = .panic ↔ (tryFromExact 2 : Option R) = none := by
  unfold QuadraticTrinomial.derivative
  cases (tryFromExact 2 : Option R) <;> simp

section
variable {K : Type} [Field K] [CharZero K] [NumZero K] [LawfulNumZero K] [RDiv K] [LawfulRDiv K]
  [FromUsizeExact K] [LawfulFromUsizeExact K] [FromUsizeCont K] [LawfulFromUsizeCont K]

/-- C18 (Monomial): the integral panics precisely if the monomial is not zero and its degree plus one is not representable. -/
theorem C18_monomial_integral_panics_iff (m : Monomial K) :
    m.integral = .panic ↔ m.poly ≠ 0 ∧ (tryFromExact (m.deg + 1) : Option K) = none := by
  constructor
  · intro h
    by_contra hn
    obtain ⟨r, h1, -⟩ := C18_monomial_integral m fun h0 e => hn ⟨h0, e⟩
    rw [h1] at h; cases h
  · rintro ⟨h0, h1⟩
    have hz : m.coefficient ≠ 0 := fun e => h0 ((m.poly_eq_zero).2 e)
    unfold Monomial.integral Monomial.degree
    rw [if_neg (by simpa using hz)]
    simp only [h1]

/-- C18 (LinearBinomial): precisely if 2 is not representable. -/
theorem C18_binomial_integral_panics_iff (b : LinearBinomial K) : b.integral = .panic ↔ (tryFromCont 2 : Option K) = none := by
  constructor
  · intro h
    by_contra hn
    obtain ⟨r, h1, -⟩ := C18_binomial_integral b hn
    rw [h1] at h; cases h
  · intro h
    unfold LinearBinomial.integral
    rw [h]

/-- C18 (QuadraticTrinomial): precisely if 2 or 3 is not representable. -/
theorem C18_trinomial_integral_panics_iff (t : QuadraticTrinomial K) :
    t.integral = .panic ↔ (tryFromExact 2 : Option K) = none ∨ (tryFromExact 3 : Option K) = none := by
  constructor
  · intro h
    by_contra hn
    rw [not_or] at hn
    obtain ⟨r, h1, -⟩ := C18_trinomial_integral t hn.1 hn.2
    rw [h1] at h; cases h
  · intro h
    unfold QuadraticTrinomial.integral
    cases h3 : (tryFromExact 3 : Option K) with
    | none => rfl
    | some w =>
      rw [h3] at h
      have h2 := h.resolve_right (by simp)
      have hne : w ≠ 0 := by rw [LawfulFromUsizeExact.tryFromExact_eq _ _ h3, Nat.cast_ne_zero]; omega
      simp only [LawfulRDiv.rdiv_eq _ _ hne, Res.ok_bind, h2]

/-- C18 (Polynomial): precisely if the number of coefficients up to the leading one is not representable. -/
theorem C18_dense_integral_panics_iff (p : Poly K) :
    p.integral = .panic ↔ (tryFromCont (Poly.new p.terms).terms.length : Option K) = none := by
  constructor
  · intro h
    by_contra hn
    obtain ⟨r, h1, -⟩ := C18_dense_integral p hn
    rw [h1] at h; cases h
  · intro h
    have hlen : p.terms.length - firstNonzeroIndex p.terms = (p.terms.dropWhile isZero).length := by
      have := firstNonzeroIndex_add p.terms; omega
    rw [new_terms] at h
    unfold Poly.integral
    simp only [hlen, h]

/-- C52 (ArrayPolynomial): precisely if the size is not representable. -/
theorem C52_array_integral_panics_iff {size : Nat} (p : ArrayPoly K size) :
    p.integral = .panic ↔ (tryFromCont size : Option K) = none := by
  constructor
  · intro h
    by_contra hn
    obtain ⟨r, h1, -⟩ := C52_array_integral p hn
    rw [h1] at h; cases h
  · intro h
    unfold ArrayPoly.integral
    rw [h]

/-- C18 (SparsePolynomial): precisely if for some stored term, even one with the coefficient zero, the degree plus one is not
representable. -/
theorem C18_sparse_integral_panics_iff (p : Sparse K) :
    p.integral = .panic ↔ ∃ e ∈ p.terms.entries, (tryFromExact (e.1 + 1) : Option K) = none := by
  constructor
  · intro h
    by_contra hn
    obtain ⟨r, h1, -⟩ := C18_sparse_integral p fun e he h0 => hn ⟨e, he, h0⟩
    rw [h1] at h; cases h
  · rintro ⟨e, he, h0⟩
    unfold Sparse.integral
    rw [foldlM_panic _ _ (fun e _ m => ?_) ⟨e, he, fun m => by simp only [h0]⟩]
    · rfl
    · cases hx : (tryFromExact (e.1 + 1) : Option K) with
      | none => exact .inl rfl
      | some d =>
        have hne : d ≠ 0 := by rw [LawfulFromUsizeExact.tryFromExact_eq _ _ hx, Nat.cast_ne_zero]; omega
        exact .inr ⟨m.insert (e.1 + 1) (e.2 / d), by simp only [LawfulRDiv.rdiv_eq _ _ hne, Res.ok_bind]⟩

end

/-- Hypotheses met: a conversion that represents the numbers up to 2 only, as `f32` does up to `2 ^ 24`. -/
example : let _ : FromUsizeExact ℚ := ⟨fun n => if n ≤ 2 then some (n : ℚ) else none⟩
    (⟨6, 5, 6⟩ : QuadraticTrinomial ℚ).integral = .panic ∧ (⟨6, 5, 6⟩ : QuadraticTrinomial ℚ).derivative = .ok ⟨0, 12, 5⟩ ∧
    ((Sparse.fromVec [6, (5 : ℚ)]).integral >>= fun r => .ok r.orderedTermIter) = .ok [(3, 2), (5, 1)] ∧
    ((⟨.ofList [(2, 0)]⟩ : Sparse ℚ).integral >>= fun r => .ok r.orderedTermIter) = .panic ∧
    ((⟨0, 2⟩ : Monomial ℚ).integral >>= fun r => .ok r.orderedTermIter) = .ok [] ∧
    ((⟨1, 2⟩ : Monomial ℚ).integral >>= fun r => .ok r.orderedTermIter) = .panic := by decide +kernel

end Rustnomial
