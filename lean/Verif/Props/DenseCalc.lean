import Verif.Props.DenseShift
import Mathlib.Algebra.CharP.Defs
import Mathlib.Algebra.CharZero.Defs
import Mathlib.Tactic.FieldSimp

/-!
# Dense polynomials: derivative and integral (C16, C18)
-/

open Polynomial

set_option linter.unusedSectionVars false

namespace Rustnomial

section
variable {R : Type} [CommRing R]

theorem derivLoop_length (l : List R) : ∀ d, (Poly.derivLoop l d).length = l.length := by
  induction l with
  | nil => intro d; rfl
  | cons a l ih => intro d; simp [Poly.derivLoop, ih]

theorem derivLoop_poly (l : List R) (c : R) :
    descPoly (Poly.derivLoop l ((l.length + 1 : Nat) : R)) = derivative (descPoly (l ++ [c])) := by
  induction l with
  | nil => simp [Poly.derivLoop, descPoly_cons]
  | cons a l ih =>
    have e : (((a :: l).length + 1 : Nat) : R) - 1 = ((l.length + 1 : Nat) : R) := by
      push_cast [List.length_cons]; ring
    simp only [Poly.derivLoop, e, List.cons_append, descPoly_cons, derivative_add, ← ih,
      derivLoop_length]
    congr 1
    rw [derivative_C_mul, derivative_X_pow, List.length_append, List.length_singleton,
      Nat.add_sub_cancel, C_mul]
    simp [mul_assoc]

variable [NumZero R] [LawfulNumZero R] [FromUsizeCont R]

/-- C16 (exact panic condition): the derivative panics precisely if the number of coefficients up
to the leading one, i.e. degree + 1 (0 for the zero polynomial), has no representation in `N`. -/
theorem C16_dense_derivative_panics_iff (p : Poly R) :
    p.derivative = .panic ↔ (tryFromCont (Poly.new p.terms).terms.length : Option R) = none := by
  unfold Poly.derivative
  have hlen : p.terms.length - firstNonzeroIndex p.terms = (Poly.new p.terms).terms.length := by
    rw [new_terms]; have := firstNonzeroIndex_add p.terms; omega
  simp only [hlen]
  cases h : (tryFromCont (Poly.new p.terms).terms.length : Option R) with
  | none => simp
  | some d => simp; split <;> simp

/-- C16: whenever `derivative` returns, it returns the formal derivative; it never hangs. -/
theorem C16_dense_derivative [LawfulFromUsizeCont R] (p : Poly R) :
    p.derivative = .panic ∨
    ∃ r, p.derivative = .ok r ∧ descPoly r.terms = derivative (descPoly p.terms) := by
  have hlen : p.terms.length - firstNonzeroIndex p.terms = (p.terms.dropWhile isZero).length := by
    have := firstNonzeroIndex_add p.terms; omega
  unfold Poly.derivative
  simp only [hlen, drop_firstNonzeroIndex]
  cases h : (tryFromCont (p.terms.dropWhile isZero).length : Option R) with
  | none => simp
  | some d =>
    right
    have hd := LawfulFromUsizeCont.tryFromCont_eq _ _ h
    rw [← descPoly_dropWhile p.terms]
    cases hl : p.terms.dropWhile isZero with
    | nil => exact ⟨_, rfl, by simp [Poly.zero]⟩
    | cons x xs =>
      refine ⟨_, rfl, ?_⟩
      obtain ⟨ini, last, he⟩ : ∃ ini last, x :: xs = ini ++ [last] :=
        ⟨_, _, (List.dropLast_append_getLast (List.cons_ne_nil x xs)).symm⟩
      rw [hd, hl, he, List.dropLast_concat]
      have := derivLoop_poly ini last
      simpa using this

end

/-- The documented panic condition of `derivative` is "N can not losslessly encode the numbers from
0 to the degree".  With `u8` coefficients (`try_from_usize_cont` succeeds up to 255,
src/numerics.rs 381-399, see C41), `x^255` has all of 0..=255 representable, yet `derivative`
panics: the documented condition is not the actual one. -/
theorem C16_dense_derivative_documented_panic_false :
    let _ : FromUsizeCont (ZMod 256) := ⟨fun n => if n ≤ 255 then some (n : ZMod 256) else none⟩
    let p : Poly (ZMod 256) := ⟨1 :: List.replicate 255 0⟩
    p.degree = .num 255 ∧ (∀ n ≤ 255, ∃ v, (tryFromCont n : Option (ZMod 256)) = some v ∧ v.val = n) ∧
    p.derivative = .panic := by
  intro _ p
  have hn : (Poly.new p.terms).terms.length = 256 := by
    rw [new_terms, List.dropWhile_cons, if_neg (by decide), List.length_cons, List.length_replicate]
  refine ⟨?_, ?_, ?_⟩
  · unfold Poly.degree
    rw [denseDegree_eq]
    rw [List.dropWhile_cons, if_neg (by decide)]
    simp only [List.length_replicate]
  · intro n hn
    refine ⟨n, if_pos hn, ?_⟩
    rw [ZMod.val_natCast, Nat.mod_eq_of_lt (by omega)]
  · rw [C16_dense_derivative_panics_iff, hn]
    exact if_neg (by omega)

example : (⟨[0, 4, 1, 5]⟩ : Poly ℤ).derivative = .ok ⟨[8, 1]⟩ ∧
    (⟨[7]⟩ : Poly ℤ).derivative = .ok ⟨[]⟩ := by decide

/-! ## C18 – integral -/

section
variable {K : Type} [Field K] [CharZero K] [RDiv K] [LawfulRDiv K]

theorem integLoop_ok (l : List K) (c : K) :
    ∃ ts, Poly.integLoop l ((l.length : Nat) : K) = .ok ts ∧ ts.length = l.length ∧
      derivative (descPoly (ts ++ [c])) = descPoly l := by
  induction l with
  | nil => exact ⟨[], rfl, rfl, by simp [descPoly_cons]⟩
  | cons a l ih =>
    obtain ⟨ts, h1, h2, h3⟩ := ih
    have hne : (((a :: l).length : Nat) : K) ≠ 0 := by
      rw [Nat.cast_ne_zero]; simp
    have e : (((a :: l).length : Nat) : K) - 1 = (l.length : K) := by
      push_cast [List.length_cons]; ring
    refine ⟨a / ((a :: l).length : Nat) :: ts, ?_, by simp [h2], ?_⟩
    · simp only [Poly.integLoop, LawfulRDiv.rdiv_eq _ _ hne, e, h1, Res.ok_bind]
    · rw [List.cons_append, descPoly_cons, derivative_add, h3, descPoly_cons]
      congr 1
      rw [derivative_C_mul, derivative_X_pow, List.length_append, List.length_singleton, h2,
        Nat.add_sub_cancel, ← mul_assoc]
      congr 1
      rw [← C_mul]
      congr 1
      rw [List.length_cons] at hne ⊢
      field_simp

variable [NumZero K] [LawfulNumZero K] [FromUsizeCont K] [LawfulFromUsizeCont K]

/-- C18 (Polynomial): if degree + 1 is representable, `integral` returns a polynomial with constant
term zero whose derivative is `p`. -/
theorem C18_dense_integral (p : Poly K)
    (h : (tryFromCont (Poly.new p.terms).terms.length : Option K) ≠ none) :
    ∃ r, p.integral = .ok r ∧ derivative (descPoly r.terms) = descPoly p.terms ∧
      (descPoly r.terms).coeff 0 = 0 := by
  have hlen : p.terms.length - firstNonzeroIndex p.terms = (p.terms.dropWhile isZero).length := by
    have := firstNonzeroIndex_add p.terms; omega
  rw [new_terms] at h
  unfold Poly.integral
  simp only [hlen, drop_firstNonzeroIndex]
  cases hc : (tryFromCont (p.terms.dropWhile isZero).length : Option K) with
  | none => exact absurd hc h
  | some d =>
    have hd := LawfulFromUsizeCont.tryFromCont_eq _ _ hc
    obtain ⟨ts, h1, _, h3⟩ := integLoop_ok (p.terms.dropWhile isZero) (0 : K)
    refine ⟨⟨ts ++ [0]⟩, by simp [hd, h1], ?_, ?_⟩
    · rw [h3, descPoly_dropWhile]
    · simp [descPoly_append, descPoly_cons]

/-- C18 (Polynomial): `derivative(integral(p)) == p` through the API, when the conversions of
degree + 2 succeed (always, for exact unbounded types). -/
theorem C18_dense_derivative_integral [DecidableEq K] (p : Poly K)
    (h : ∀ n, (tryFromCont n : Option K) ≠ none) :
    ∃ r s, p.integral = .ok r ∧ r.derivative = .ok s ∧ s.eq p = true := by
  obtain ⟨r, hr, hd, _⟩ := C18_dense_integral p (h _)
  rcases C16_dense_derivative r with hp | ⟨s, hs, hds⟩
  · exact absurd ((C16_dense_derivative_panics_iff r).1 hp) (h _)
  · exact ⟨r, s, hr, hs, (C05_dense_eq s p).2 (hds.trans hd)⟩

end

example : (⟨[1, 2, 5]⟩ : Poly ℚ).integral = .ok ⟨[1 / 3, 1, 5, 0]⟩ := by decide +kernel

theorem integLoop_int (l : List ℤ) :
    ∃ ts, Poly.integLoop l ((l.length : Nat) : ℤ) = .ok ts ∧ ts.length = l.length ∧
      ∀ d, (descPoly ts).coeff d = ((descPoly l).coeff d).tdiv (d + 1) := by
  induction l with
  | nil => exact ⟨[], rfl, rfl, by simp⟩
  | cons a l ih =>
    obtain ⟨ts, h1, h2, h3⟩ := ih
    have hne : (((a :: l).length : Nat) : ℤ) ≠ 0 := by simp; omega
    have e : (((a :: l).length : Nat) : ℤ) - 1 = (l.length : ℤ) := by simp
    refine ⟨a.tdiv ((a :: l).length : Nat) :: ts, ?_, by simp [h2], ?_⟩
    · simp only [Poly.integLoop, rdiv, e, h1, if_neg hne, Res.ok_bind]
    · intro d
      simp only [descPoly_cons, coeff_add, coeff_C_mul, coeff_X_pow, h2, h3]
      by_cases hd : d = l.length
      · subst hd; simp [coeff_descPoly_of_le le_rfl]
      · simp [hd]

theorem integral_eq {R : Type} [CommRing R] [NumZero R] [LawfulNumZero R] [FromUsizeCont R] [RDiv R]
    (p : Poly R) (h : ∀ n, (tryFromCont n : Option R) = some (n : R)) :
    ∃ l, descPoly l = descPoly p.terms ∧ p.integral = (do
      let ts ← Poly.integLoop l ((l.length : Nat) : R)
      .ok ⟨ts ++ [0]⟩) := by
  have hlen : p.terms.length - firstNonzeroIndex p.terms = (p.terms.dropWhile isZero).length := by
    have := firstNonzeroIndex_add p.terms; omega
  refine ⟨p.terms.dropWhile isZero, descPoly_dropWhile _, ?_⟩
  unfold Poly.integral
  simp only [hlen, drop_firstNonzeroIndex, h]

/-- C18 (Polynomial over exact integers): the coefficient of `x^(d+1)` in the integral is the
truncated quotient of the coefficient of `x^d` by `d+1`, and the constant term is zero. -/
theorem C18_dense_integral_int (p : Poly ℤ) :
    ∃ r, p.integral = .ok r ∧ (descPoly r.terms).coeff 0 = 0 ∧
      ∀ d, (descPoly r.terms).coeff (d + 1) = ((descPoly p.terms).coeff d).tdiv (d + 1) := by
  obtain ⟨l, hl, hi⟩ := integral_eq p (fun n => by simp [tryFromCont])
  obtain ⟨ts, h1, _, h3⟩ := integLoop_int l
  refine ⟨⟨ts ++ [0]⟩, ?_, ?_, ?_⟩
  · rw [hi]; simp [h1]
  · simp [descPoly_append, descPoly_cons]
  · intro d
    have : descPoly (ts ++ [0]) = descPoly ts * X := by simp [descPoly_append, descPoly_cons]
    rw [this, coeff_mul_X, h3, hl]

/-- C18 does not extend to integer coefficients: division truncates, so the derivative of the
integral of `x` is `0`. -/
theorem C18_dense_integral_integers_false :
    (⟨[1, 0]⟩ : Poly ℤ).integral = .ok ⟨[0, 0, 0]⟩ ∧ (⟨[0, 0, 0]⟩ : Poly ℤ).derivative = .ok ⟨[]⟩ ∧
    (⟨[]⟩ : Poly ℤ).eq ⟨[1, 0]⟩ = false := by decide

end Rustnomial
