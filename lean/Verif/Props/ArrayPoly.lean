import Verif.Props.Mutation

/-!
# ArrayPolynomial (C52)
-/

open Polynomial

set_option linter.unusedSectionVars false

namespace Rustnomial

section
variable {R : Type} [Semiring R] [NumZero R] [LawfulNumZero R] {size : Nat}

/-- C52: the observers of `ArrayPolynomial` agree with the polynomial with the stored
coefficients. -/
theorem C52_array_observers (p : ArrayPoly R size) (d : Nat) (x : R) :
    p.degree.toWithBot = (descPoly p.coefficients).degree ∧
    (p.isZeroPoly = true ↔ descPoly p.coefficients = 0) ∧
    ((descPoly p.coefficients).coeff d = 0 → p.termWithDegree d = .zeroTerm) ∧
    ((descPoly p.coefficients).coeff d ≠ 0 →
      p.termWithDegree d = .term ((descPoly p.coefficients).coeff d) d) ∧
    p.eval x = (descPoly p.coefficients).eval x ∧
    descPoly (ArrayPoly.zero : ArrayPoly R size).coefficients = 0 :=
  ⟨C02_dense_degree ⟨p.coefficients⟩, C02_dense_is_zero ⟨p.coefficients⟩,
    (C04_dense_term ⟨p.coefficients⟩ d).1, (C04_dense_term ⟨p.coefficients⟩ d).2,
    C06_dense_eval ⟨p.coefficients⟩ x, descPoly_replicate_zero size⟩

/-- C52: `try_add_term` and `try_sub_term` add and subtract the term when its degree is below the size, and
otherwise report the degree and change nothing. -/
theorem C52_array_try_terms {R : Type} [Ring R] (p : ArrayPoly R size) (c : R) (d : Nat) :
    (d < size →
      (∃ r, p.tryAddTerm c d = (r, .ok ()) ∧
        descPoly r.coefficients = descPoly p.coefficients + C c * X ^ d) ∧
      (∃ r, p.trySubTerm c d = (r, .ok ()) ∧
        descPoly r.coefficients = descPoly p.coefficients - C c * X ^ d)) ∧
    (size ≤ d → p.tryAddTerm c d = (p, .error .degreeOutOfBounds) ∧
      p.trySubTerm c d = (p, .error .degreeOutOfBounds)) := C29_array p c d

example : (⟨[1, 2, 3], rfl⟩ : ArrayPoly ℤ 3).tryAddTerm 5 1 = (⟨[1, 7, 3], rfl⟩, .ok ()) ∧
    (⟨[1, 2, 3], rfl⟩ : ArrayPoly ℤ 3).trySubTerm 5 3 = (⟨[1, 2, 3], rfl⟩, .error .degreeOutOfBounds) := ⟨rfl, rfl⟩

/-- C52: `==` (componentwise on arrays of one size) is equality of polynomials. -/
theorem C52_array_eq [BEq R] [LawfulBEq R] (p q : ArrayPoly R size) :
    p.eq q = true ↔ descPoly p.coefficients = descPoly q.coefficients := by
  unfold ArrayPoly.eq
  rw [beq_iff_eq]
  constructor
  · intro h; rw [h]
  · intro h
    exact descPoly_ext_of_length (p.length_eq.trans q.length_eq.symm) h

end

section
variable {R : Type} [CommRing R] {size : Nat}

theorem arrayDerivLoop_eq (l : List R) : ∀ (slots : Nat) (d : R),
    ArrayPoly.derivLoop l slots d = Poly.derivLoop (l.take slots) d := by
  induction l with
  | nil => intro slots d; cases slots <;> simp [ArrayPoly.derivLoop, Poly.derivLoop]
  | cons a l ih =>
    intro slots d
    cases slots with
    | zero => simp [ArrayPoly.derivLoop, Poly.derivLoop]
    | succ n => simp [ArrayPoly.derivLoop, Poly.derivLoop, ih, mul_comm]

/-- C52: `derivative` panics exactly if `SIZE` is not representable, and otherwise stores the formal
derivative, in an array of the same size. -/
theorem C52_array_derivative [FromUsizeCont R] [LawfulFromUsizeCont R] (p : ArrayPoly R size) :
    (p.derivative = .panic ↔ (tryFromCont size : Option R) = none) ∧
    ∀ r, p.derivative = .ok r →
      r.length = size ∧ descPoly r = Polynomial.derivative (descPoly p.coefficients) := by
  unfold ArrayPoly.derivative
  cases h : (tryFromCont size : Option R) with
  | none => simp
  | some d =>
    have hd := LawfulFromUsizeCont.tryFromCont_eq _ _ h
    have hl := p.length_eq
    constructor
    · simp only [reduceCtorEq, iff_false]; split <;> simp
    · intro r hr
      simp only at hr
      split at hr
      · rename_i hs
        simp only [Res.ok.injEq] at hr
        subst hr
        rw [arrayDerivLoop_eq]
        obtain ⟨n, hn⟩ : ∃ n, size = n + 1 := ⟨size - 1, by omega⟩
        have hne : p.coefficients ≠ [] := by intro e; rw [e] at hl; simp at hl; omega
        obtain ⟨ini, c, hc⟩ : ∃ ini c, p.coefficients = ini ++ [c] :=
          ⟨_, _, (List.dropLast_append_getLast hne).symm⟩
        have hi : ini.length = n := by rw [hc] at hl; simp at hl; omega
        have ht : p.coefficients.take (size - 1) = ini := by
          rw [hc, hn, Nat.add_sub_cancel, ← hi, List.take_left']
          rfl
        rw [ht]
        refine ⟨by simp [derivLoop_length, hi, hn], ?_⟩
        rw [descPoly_cons, C_0, zero_mul, zero_add, hc, hd, hn, ← hi]
        exact derivLoop_poly ini c
      · rename_i hs
        have h0 : p.coefficients = [] := by
          apply List.eq_nil_of_length_eq_zero; omega
        simp only [Res.ok.injEq] at hr
        subst hr
        exact ⟨by simp; omega, by simp [h0]⟩

end

/-- C52: over a field of characteristic zero `integral` differentiates back to the polynomial and
has constant term zero, whenever `SIZE` is representable. -/
theorem C52_array_integral {K : Type} [Field K] [CharZero K] [NumZero K] [LawfulNumZero K] [RDiv K]
    [LawfulRDiv K] [FromUsizeCont K] [LawfulFromUsizeCont K] {size : Nat} (p : ArrayPoly K size)
    (h : (tryFromCont size : Option K) ≠ none) :
    ∃ r, p.integral = .ok r ∧ Polynomial.derivative (descPoly r.terms) = descPoly p.coefficients ∧
      (descPoly r.terms).coeff 0 = 0 := by
  unfold ArrayPoly.integral
  cases hc : (tryFromCont size : Option K) with
  | none => exact absurd hc h
  | some d =>
    have hd := LawfulFromUsizeCont.tryFromCont_eq _ _ hc
    obtain ⟨ts, h1, _, h3⟩ := integLoop_ok p.coefficients (0 : K)
    rw [p.length_eq] at h1
    refine ⟨⟨ts ++ [0]⟩, by simp [hd, h1], h3, ?_⟩
    simp [descPoly_append, descPoly_cons]

/-! ### `ordered_term_iter` / `terms_as_vec` -/

section
variable {R : Type} [Semiring R] [NumZero R] [LawfulNumZero R]

/-- C52, `ordered_term_iter` for `SIZE = 2`: the non-zero terms.  Missing: every other size; for
`SIZE = 1` a wrong degree is reported and for `SIZE ≥ 3` it panics as soon as a coefficient of index
`≥ 2` is non-zero, see `C52_array_terms_false_one` and `C52_array_terms_false_panic`. -/
theorem C52_array_terms_partial (p : ArrayPoly R 2) :
    ∃ ts, p.orderedTermIter = .ok ts ∧ IsTermListOf ts (descPoly p.coefficients) := by
  obtain ⟨l, hl⟩ := p
  obtain ⟨a, b, rfl⟩ : ∃ a b, l = [a, b] := by
    match l, hl with
    | [a, b], _ => exact ⟨a, b, rfl⟩
  refine ⟨descTerms [a, b], ?_, isTermListOf_descTerms _⟩
  unfold ArrayPoly.orderedTermIter
  cases h0 : isZero a <;> cases h1 : isZero b <;>
    simp [List.zipIdx_cons, List.foldlM_cons, h0, h1, usub, descTerms]

/-- C52 is false for `SIZE = 1`: the constant term is reported with degree 1. -/
theorem C52_array_terms_false_one (c : R) (hc : c ≠ 0) :
    (⟨[c], rfl⟩ : ArrayPoly R 1).orderedTermIter = .ok [(c, 1)] ∧
    ¬ IsTermListOf [(c, 1)] (descPoly [c]) := by
  constructor
  · have : isZero c = false := by simpa using hc
    simp [ArrayPoly.orderedTermIter, List.zipIdx_cons, List.foldlM_cons, this, usub]
  · intro h
    have := (h.2 c 1).1 (by simp)
    exact hc (by simpa [descPoly_cons] using this.2.symm)

/-- C52 is false for every `SIZE ≥ 3`: if any coefficient other than the two leading ones is
non-zero, `ordered_term_iter` and `terms_as_vec` panic (index out of range of `1 - index`). -/
theorem C52_array_terms_false_panic {size : Nat} (p : ArrayPoly R size) (i : Nat) (hi : 2 ≤ i)
    (c : R) (hc : c ≠ 0) (hp : p.coefficients[i]? = some c) : p.orderedTermIter = .panic := by
  unfold ArrayPoly.orderedTermIter
  apply foldlM_panic
  · intro e _ m
    split
    · simp
    · unfold usub; split <;> simp
  · refine ⟨(c, i), ?_, fun m => ?_⟩
    · rw [List.mem_zipIdx_iff_getElem?]; exact hp
    · have : isZero c = false := by simpa using hc
      simp only [this]
      have h1 : ¬ i ≤ 1 := by omega
      simp [usub, h1]

end

example : (⟨[1, 2, 3], rfl⟩ : ArrayPoly ℤ 3).derivative = .ok [0, 2, 2] ∧
    (⟨[1, 2, 3], rfl⟩ : ArrayPoly ℤ 3).eval 10 = 123 ∧
    (⟨[0, 2, 3], rfl⟩ : ArrayPoly ℤ 3).orderedTermIter = .panic ∧
    (⟨[0, 2, 3], rfl⟩ : ArrayPoly ℤ 3).degree = .num 1 := by decide

end Rustnomial
