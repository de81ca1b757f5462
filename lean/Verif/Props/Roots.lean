import Verif.Model.FindRoots
import Verif.SpecFixed
import Mathlib.Data.Complex.Basic
import Mathlib.Algebra.Polynomial.Eval.Defs
import Mathlib.Algebra.Polynomial.Roots
import Mathlib.Tactic.FieldSimp
import Mathlib.Tactic.LinearCombination
import Mathlib.Algebra.Order.Ring.Pow

/-!
# C43, C44, C45, C46, C49: closed formulas for roots and factors
-/

set_option linter.unusedVariables false

open Polynomial

namespace Rustnomial

/-- The complex number a `num::Complex` of idealised floats denotes. -/
noncomputable def Cplx.toC (z : Cplx ℝ) : ℂ := ⟨z.re, z.im⟩

/-! ## Quadratics -/

theorem trinomialRoots_real (a b c : ℝ) :
    trinomialRoots a b c =
      if b * b - a * c * 4 = 0 then .ok (.twoRealRoots (-b / (a * 2)) (-b / (a * 2)))
      else if b * b - a * c * 4 > 0 then
        .ok (.twoRealRoots (-b / (a * 2) + √|b * b - a * c * 4| / (a * 2))
          (-b / (a * 2) - √|b * b - a * c * 4| / (a * 2)))
      else .ok (.twoComplexRoots ⟨-b / (a * 2), √|b * b - a * c * 4| / (a * 2)⟩
        ⟨-b / (a * 2), -(√|b * b - a * c * 4| / (a * 2))⟩) := by
  by_cases h0 : b * b - a * c * 4 = 0
  · simp [trinomialRoots, discriminantTrinomial, rdiv, absSqrt, isPositive, isZero, h0]
  · simp [trinomialRoots, discriminantTrinomial, rdiv, absSqrt, isPositive, isZero, h0]

theorem not_isZero {N : Type} [Zero N] [NumZero N] [LawfulNumZero N] {a : N} (h : a ≠ 0) :
    isZero a = false := by simpa using h

theorem quad_factor {K : Type} [Field K] {a b c r s : K} (h1 : b = -(a * (r + s))) (h2 : c = a * (r * s)) :
    C a * X ^ 2 + C b * X + C c = C a * (X - C r) * (X - C s) := by
  subst h1 h2
  simp only [C_neg, C_mul, C_add]
  ring

/-- **C43**, non-negative discriminant: `roots()` returns two real numbers and the trinomial is the
product over them; equal exactly when the discriminant is zero. -/
theorem C43_real_roots (t : QuadraticTrinomial ℝ) (ha : t.c0 ≠ 0)
    (hd : 0 ≤ t.c1 ^ 2 - 4 * t.c0 * t.c2) :
    ∃ r s, t.roots = .ok (.twoRealRoots r s) ∧ t.poly = C t.c0 * (X - C r) * (X - C s) ∧
      (r = s ↔ t.c1 ^ 2 - 4 * t.c0 * t.c2 = 0) := by
  obtain ⟨a, b, c⟩ := t
  simp only at ha hd ⊢
  have hD : b * b - a * c * 4 = b ^ 2 - 4 * a * c := by ring
  have h2a : a * 2 ≠ 0 := by simpa using ha
  show ∃ r s, trinomialRoots a b c = _ ∧ C a * X ^ 2 + C b * X + C c = _ ∧ _
  rw [trinomialRoots_real, hD]
  by_cases h0 : b ^ 2 - 4 * a * c = 0
  · rw [if_pos h0]
    refine ⟨_, _, rfl, quad_factor ?_ ?_, ?_⟩
    · field_simp; ring
    · field_simp
      linear_combination (-1) * h0
    · simp [h0]
  · rw [if_neg h0, if_pos (lt_of_le_of_ne hd (Ne.symm h0)), abs_of_nonneg hd]
    have hs : √(b ^ 2 - 4 * a * c) ^ 2 = b ^ 2 - 4 * a * c := Real.sq_sqrt hd
    have hs0 : √(b ^ 2 - 4 * a * c) ≠ 0 := by
      intro h; rw [h] at hs; exact h0 (by linarith)
    generalize √(b ^ 2 - 4 * a * c) = k at hs hs0 ⊢
    refine ⟨_, _, rfl, quad_factor ?_ ?_, ?_⟩
    · field_simp; ring
    · field_simp
      linear_combination hs
    · simp only [h0, iff_false]
      intro h
      have : k / (a * 2) = 0 := by linarith
      rcases div_eq_zero_iff.1 this with h | h
      · exact hs0 h
      · exact h2a h

/-- **C43**, negative discriminant: `roots()` returns two distinct conjugate complex numbers and
the trinomial is the product over them. -/
theorem C43_complex_roots (t : QuadraticTrinomial ℝ) (ha : t.c0 ≠ 0)
    (hd : t.c1 ^ 2 - 4 * t.c0 * t.c2 < 0) :
    ∃ z w, t.roots = .ok (.twoComplexRoots z w) ∧ w.toC = (starRingEnd ℂ) z.toC ∧ z.toC ≠ w.toC ∧
      t.poly.map (algebraMap ℝ ℂ) = C (t.c0 : ℂ) * (X - C z.toC) * (X - C w.toC) := by
  obtain ⟨a, b, c⟩ := t
  simp only at ha hd ⊢
  have hD : b * b - a * c * 4 = b ^ 2 - 4 * a * c := by ring
  have h2a : a * 2 ≠ 0 := by simpa using ha
  show ∃ z w, trinomialRoots a b c = _ ∧ _ ∧ _ ∧ (C a * X ^ 2 + C b * X + C c : ℝ[X]).map _ = _
  rw [trinomialRoots_real, hD, if_neg hd.ne, if_neg (not_lt.2 hd.le), abs_of_neg hd]
  have hs : √(-(b ^ 2 - 4 * a * c)) ^ 2 = -(b ^ 2 - 4 * a * c) := Real.sq_sqrt (by linarith)
  have hs0 : √(-(b ^ 2 - 4 * a * c)) ≠ 0 := by
    intro h; rw [h] at hs; linarith
  generalize √(-(b ^ 2 - 4 * a * c)) = k at hs hs0 ⊢
  refine ⟨_, _, rfl, ?_, ?_, ?_⟩
  · apply Complex.ext <;> simp [Cplx.toC]
  · intro h
    have := congrArg Complex.im h
    simp only [Cplx.toC] at this
    have : k / (a * 2) = 0 := by linarith
    rcases div_eq_zero_iff.1 this with h | h
    · exact hs0 h
    · exact h2a h
  · simp only [Polynomial.map_add, Polynomial.map_mul, Polynomial.map_pow, map_C, map_X,
      Complex.coe_algebraMap]
    apply quad_factor
    · apply Complex.ext
      · simp [Cplx.toC]; field_simp; ring
      · simp [Cplx.toC]
    · apply Complex.ext
      · simp [Cplx.toC]; field_simp; linear_combination (-1) * hs
      · simp [Cplx.toC, mul_comm]

-- Non-vacuity: both cases occur.
example : ∃ r s, (⟨1, -3, 2⟩ : QuadraticTrinomial ℝ).roots = .ok (.twoRealRoots r s) ∧ r ≠ s := by
  obtain ⟨r, s, h, _, he⟩ := C43_real_roots ⟨1, -3, 2⟩ (by norm_num) (by norm_num)
  exact ⟨r, s, h, fun h => by have := he.1 h; norm_num at this⟩
example : ∃ z w, (⟨1, 0, 1⟩ : QuadraticTrinomial ℝ).roots = .ok (.twoComplexRoots z w) := by
  obtain ⟨z, w, h, _⟩ := C43_complex_roots ⟨1, 0, 1⟩ (by norm_num) (by norm_num)
  exact ⟨z, w, h⟩

/-- **C43** for exact integers: when the divisions by `2a` are exact and the discriminant is a
perfect square the roots are right. -/
theorem C43_int_exact (a b c u v : ℤ) (ha : a ≠ 0) (hb : b = a * 2 * u) (hv : 0 ≤ a * v)
    (hD : b ^ 2 - 4 * a * c = (a * 2 * v) ^ 2) :
    ∃ r s, (⟨a, b, c⟩ : QuadraticTrinomial ℤ).roots = .ok (.twoRealRoots r s) ∧
      (⟨a, b, c⟩ : QuadraticTrinomial ℤ).poly = C a * (X - C r) * (X - C s) := by
  have h2a : a * 2 ≠ 0 := by simpa using ha
  have hdiv : rdiv (-b) (a * 2) = .ok (-u) := by
    show (if a * 2 = 0 then Res.panic else .ok (Int.tdiv (-b) (a * 2))) = _
    rw [if_neg h2a, hb, show -(a * 2 * u) = -u * (a * 2) by ring, Int.mul_tdiv_cancel _ h2a]
  have hDD : discriminantTrinomial a b c = (a * 2 * v) ^ 2 := by
    rw [← hD]; simp [discriminantTrinomial]; ring
  have hc : c = a * (u * u - v * v) := by
    have h4 : (4 * a) * c = (4 * a) * (a * (u * u - v * v)) := by
      rw [hb] at hD; linear_combination -hD
    exact mul_left_cancel₀ (by simpa using ha) h4
  have hsq : absSqrt ((a * 2 * v) ^ 2) = .ok (a * 2 * v) := by
    show Res.ok (((a * 2 * v) ^ 2).natAbs.sqrt : ℤ) = _
    rw [Int.natAbs_pow, Nat.sqrt_eq', Int.natAbs_of_nonneg (by linarith)]
  have hdiv2 : rdiv (a * 2 * v) (a * 2) = .ok v := by
    show (if a * 2 = 0 then Res.panic else .ok (Int.tdiv (a * 2 * v) (a * 2))) = _
    rw [if_neg h2a, Int.mul_tdiv_cancel_left _ h2a]
  have hpoly : ∀ r s : ℤ, r + s = -(2 * u) → r * s = u * u - v * v →
      (⟨a, b, c⟩ : QuadraticTrinomial ℤ).poly = C a * (X - C r) * (X - C s) := by
    intro r s h1 h2
    show C a * X ^ 2 + C b * X + C c = _
    rw [show b = -(a * (r + s)) by rw [h1, hb]; ring, show c = a * (r * s) by rw [h2, hc]]
    simp only [C_neg, C_mul, C_add]
    ring
  have hroots : (⟨a, b, c⟩ : QuadraticTrinomial ℤ).roots =
      if (a * 2 * v) ^ 2 = 0 then .ok (.twoRealRoots (-u) (-u))
      else .ok (.twoRealRoots (-u + v) (-u - v)) := by
    show trinomialRoots a b c = _
    unfold trinomialRoots
    dsimp only
    rw [hDD, show a * ((2 : ℕ) : ℤ) = a * 2 from rfl, hdiv, Res.ok_bind, hsq, Res.ok_bind, hdiv2,
      Res.ok_bind]
    by_cases hz : (a * 2 * v) ^ 2 = 0
    · rw [if_pos (by simpa using hz), if_pos hz]
    · rw [if_neg (by simpa using hz), if_neg hz, if_pos]
      have : 0 < (a * 2 * v) ^ 2 := lt_of_le_of_ne (sq_nonneg _) (Ne.symm hz)
      simpa [isPositive] using this
  rw [hroots]
  by_cases hz : (a * 2 * v) ^ 2 = 0
  · rw [if_pos hz]
    have hv0 : v = 0 := by
      rcases mul_eq_zero.1 (pow_eq_zero_iff (by norm_num) |>.1 hz) with h | h
      · exact absurd h h2a
      · exact h
    exact ⟨_, _, rfl, hpoly _ _ (by ring) (by rw [hv0]; ring)⟩
  · rw [if_neg hz]
    exact ⟨_, _, rfl, hpoly _ _ (by ring) (by ring)⟩

example : (⟨1, -4, 3⟩ : QuadraticTrinomial ℤ).roots = .ok (.twoRealRoots 3 1) := by decide +kernel

/-- Integer coefficients otherwise: the truncating divisions spoil the roots even when they are
integers.  `x^2 - 3x + 2 = (x - 1)(x - 2)` is reported to have the double root `1`. -/
theorem C43_int_truncates :
    (⟨1, -3, 2⟩ : QuadraticTrinomial ℤ).roots = .ok (.twoRealRoots 1 1) ∧
    (⟨1, -3, 2⟩ : QuadraticTrinomial ℤ).poly = C 1 * (X - C 1) * (X - C 2) ∧
    (⟨1, -3, 2⟩ : QuadraticTrinomial ℤ).poly ≠ C 1 * (X - C 1) * (X - C 1) := by
  refine ⟨by decide +kernel, ?_, ?_⟩
  · show C (1 : ℤ) * X ^ 2 + C (-3) * X + C 2 = _
    rw [show (-3 : ℤ) = -(1 + 2) by norm_num, show (2 : ℤ) = 1 * 2 by norm_num]
    simp only [C_neg, C_mul, C_add, C_1]
    ring
  · intro h
    have h := congrArg (Polynomial.eval 2) h
    simp [QuadraticTrinomial.poly] at h

/-- **C43**, zero leading coefficient: with integers `roots()` panics (division by zero). -/
theorem C43_int_zero_leading (b c : ℤ) : (⟨0, b, c⟩ : QuadraticTrinomial ℤ).roots = .panic := by
  show trinomialRoots 0 b c = _
  simp [trinomialRoots, rdiv]

/-- **C44**, positive leading coefficient: the first of the two real roots is the largest.  Missing
for the full claim: negative leading coefficients, for which it is false (`C44_false`). -/
theorem C44_order_partial (t : QuadraticTrinomial ℝ) (ha : 0 < t.c0) (r s : ℝ)
    (h : t.roots = .ok (.twoRealRoots r s)) : s ≤ r := by
  obtain ⟨a, b, c⟩ := t
  change trinomialRoots a b c = _ at h
  simp only at ha
  rw [trinomialRoots_real] at h
  split at h
  · injection h with h; injection h with h1 h2; rw [← h1, ← h2]
  · split at h
    · injection h with h; injection h with h1 h2
      rw [← h1, ← h2]
      have : 0 ≤ √|b * b - a * c * 4| / (a * 2) := by positivity
      linarith
    · cases h

/-- **C44** is false for every negative leading coefficient and positive discriminant: the *smaller*
root comes first. -/
theorem C44_false (t : QuadraticTrinomial ℝ) (ha : t.c0 < 0) (hd : 0 < t.c1 ^ 2 - 4 * t.c0 * t.c2) :
    ∃ r s, t.roots = .ok (.twoRealRoots r s) ∧ r < s := by
  obtain ⟨a, b, c⟩ := t
  simp only at ha hd
  have hD : b * b - a * c * 4 = b ^ 2 - 4 * a * c := by ring
  show ∃ r s, trinomialRoots a b c = _ ∧ _
  rw [trinomialRoots_real, hD, if_neg hd.ne', if_pos hd, abs_of_pos hd]
  refine ⟨_, _, rfl, ?_⟩
  have : √(b ^ 2 - 4 * a * c) / (a * 2) < 0 := div_neg_of_pos_of_neg (Real.sqrt_pos.2 hd) (by linarith)
  linarith

example : ∃ r s, (⟨-1, 0, 1⟩ : QuadraticTrinomial ℝ).roots = .ok (.twoRealRoots r s) ∧ r < s :=
  C44_false ⟨-1, 0, 1⟩ (by norm_num) (by norm_num)
example : (⟨-1, 0, 1⟩ : QuadraticTrinomial ℤ).roots = .ok (.twoRealRoots (-1) 1) := by decide +kernel

/-! ## Factors -/

/-- **C45**, `real_factors`: `Some` exactly for a non-negative discriminant, and then the product
of what is returned is the trinomial. -/
theorem C45_real_factors (t : QuadraticTrinomial ℝ) (ha : t.c0 ≠ 0) :
    (0 ≤ t.c1 ^ 2 - 4 * t.c0 * t.c2 → ∃ f g, t.realFactors = .ok (some (t.c0, f, g)) ∧
      C t.c0 * f.poly * g.poly = t.poly) ∧
    (t.c1 ^ 2 - 4 * t.c0 * t.c2 < 0 → t.realFactors = .ok none) := by
  constructor
  · intro hd
    obtain ⟨r, s, h, hp, _⟩ := C43_real_roots t ha hd
    refine ⟨.new 1 (-r), .new 1 (-s), ?_, ?_⟩
    · rw [QuadraticTrinomial.realFactors, h, Res.ok_bind]
    · rw [hp]
      simp only [LinearBinomial.poly, LinearBinomial.new, C_1, C_neg]
      ring
  · intro hd
    obtain ⟨z, w, h, _⟩ := C43_complex_roots t ha hd
    rw [QuadraticTrinomial.realFactors, h, Res.ok_bind]

/-- The binomial over `ℂ` a `LinearBinomial<Complex<N>>` denotes. -/
noncomputable def cbinPoly (f : LinearBinomial (Cplx ℝ)) : ℂ[X] := C f.c0.toC * X + C f.c1.toC

/-- **C45**, `complex_factors` with non-negative discriminant: the product is the trinomial.
Missing for the full claim: negative discriminants, see `C45_complex_factors_iff`. -/
theorem C45_complex_factors_partial (t : QuadraticTrinomial ℝ) (ha : t.c0 ≠ 0)
    (hd : 0 ≤ t.c1 ^ 2 - 4 * t.c0 * t.c2) :
    ∃ f g, t.complexFactors = .ok (t.c0, f, g) ∧
      C (t.c0 : ℂ) * cbinPoly f * cbinPoly g = t.poly.map (algebraMap ℝ ℂ) := by
  obtain ⟨r, s, h, hp, _⟩ := C43_real_roots t ha hd
  refine ⟨.new ⟨1, 0⟩ ⟨-r, 0⟩, .new ⟨1, 0⟩ ⟨-s, 0⟩, ?_, ?_⟩
  · rw [QuadraticTrinomial.complexFactors, h, Res.ok_bind]
  · have e1 : (⟨1, 0⟩ : Cplx ℝ).toC = 1 := by apply Complex.ext <;> simp [Cplx.toC]
    have e2 : ∀ x : ℝ, (⟨-x, 0⟩ : Cplx ℝ).toC = -(x : ℂ) := by
      intro x; apply Complex.ext <;> simp [Cplx.toC]
    rw [hp]
    simp only [cbinPoly, LinearBinomial.new, e1, e2, C_1, C_neg, Polynomial.map_mul, Polynomial.map_sub,
      map_C, map_X, Complex.coe_algebraMap]
    ring

/-- **C45**, `complex_factors` with negative discriminant: the factors are `x + z` and `x + w`
instead of `x - z` and `x - w`, so the product is the trinomial exactly when the linear coefficient
is zero. -/
theorem C45_complex_factors_iff (t : QuadraticTrinomial ℝ) (ha : t.c0 ≠ 0)
    (hd : t.c1 ^ 2 - 4 * t.c0 * t.c2 < 0) :
    ∃ f g, t.complexFactors = .ok (t.c0, f, g) ∧
      (C (t.c0 : ℂ) * cbinPoly f * cbinPoly g = t.poly.map (algebraMap ℝ ℂ) ↔ t.c1 = 0) := by
  obtain ⟨z, w, h, _, _, hp⟩ := C43_complex_roots t ha hd
  refine ⟨.new ⟨1, -0⟩ z, .new ⟨1, -0⟩ w, ?_, ?_⟩
  · rw [QuadraticTrinomial.complexFactors, h, Res.ok_bind]
  · have e1 : (⟨1, -0⟩ : Cplx ℝ).toC = 1 := by apply Complex.ext <;> simp [Cplx.toC]
    have hac : (t.c0 : ℂ) ≠ 0 := by exact_mod_cast ha
    have hc1 : (t.c1 : ℂ) = -(t.c0 * (z.toC + w.toC)) := by
      have := congrArg (fun p => Polynomial.coeff p 1) hp
      simp only [QuadraticTrinomial.poly, Polynomial.map_add, Polynomial.map_mul, Polynomial.map_pow,
        map_C, map_X, Complex.coe_algebraMap] at this
      have e : C (t.c0 : ℂ) * (X - C z.toC) * (X - C w.toC) =
          C (t.c0 : ℂ) * X ^ 2 + C (-(t.c0 * (z.toC + w.toC))) * X + C (t.c0 * (z.toC * w.toC)) :=
        (quad_factor rfl rfl).symm
      rw [e] at this
      simpa [coeff_X, coeff_C, coeff_X_pow] using this
    have hf : C (t.c0 : ℂ) * cbinPoly (.new ⟨1, -0⟩ z) * cbinPoly (.new ⟨1, -0⟩ w) =
        t.poly.map (algebraMap ℝ ℂ) - C (2 * t.c1 : ℂ) * X := by
      rw [hp, hc1]
      simp only [cbinPoly, LinearBinomial.new, e1, C_1, C_neg, C_mul, C_add]
      rw [show (C (2 : ℂ)) = 2 from rfl]
      ring
    rw [hf, sub_eq_self]
    constructor
    · intro h0
      have := congrArg (fun p => Polynomial.coeff p 1) h0
      simpa using this
    · intro h0; rw [h0]; simp

/-- **C45** is false: the complex factors of `x^2 + 2x + 2` do not multiply back. -/
theorem C45_false : ∃ f g, (⟨1, 2, 2⟩ : QuadraticTrinomial ℝ).complexFactors = .ok (1, f, g) ∧
    C (1 : ℂ) * cbinPoly f * cbinPoly g ≠
      (⟨1, 2, 2⟩ : QuadraticTrinomial ℝ).poly.map (algebraMap ℝ ℂ) := by
  obtain ⟨f, g, h, hi⟩ := C45_complex_factors_iff ⟨1, 2, 2⟩ (by norm_num) (by norm_num)
  refine ⟨f, g, h, fun hc => ?_⟩
  have := hi.1 (by simpa using hc)
  norm_num at this

/-! ## `ArrayPolynomial<N, 3>` and `<N, 2>` behave as the dedicated types -/

/-- The methods of `ArrayPolynomial<N, 3>` give the same roots and factor coefficients as those of
`QuadraticTrinomial<N>`, so C43-C45 carry over (with their exceptions). -/
theorem C45_array_same (p : ArrayPoly ℝ 3) (a b c : ℝ) (hp : p.coefficients = [a, b, c]) :
    p.roots3 = (⟨a, b, c⟩ : QuadraticTrinomial ℝ).roots ∧
    p.discriminant = .ok (⟨a, b, c⟩ : QuadraticTrinomial ℝ).discriminant ∧
    p.realFactors = (do
      let r ← (⟨a, b, c⟩ : QuadraticTrinomial ℝ).realFactors
      .ok (r.map fun (k, f, g) => (k, ⟨[f.c0, f.c1], rfl⟩, ⟨[g.c0, g.c1], rfl⟩))) ∧
    p.complexFactors = (do
      let (k, f, g) ← (⟨a, b, c⟩ : QuadraticTrinomial ℝ).complexFactors
      .ok (k, ⟨[f.c0, f.c1], rfl⟩, ⟨[g.c0, g.c1], rfl⟩)) := by
  have h3 : p.roots3 = trinomialRoots a b c := by rw [ArrayPoly.roots3, hp]
  refine ⟨h3, by rw [ArrayPoly.discriminant, hp]; rfl, ?_, ?_⟩
  · rw [ArrayPoly.realFactors, hp]
    dsimp only
    rw [h3, QuadraticTrinomial.realFactors, QuadraticTrinomial.roots]
    dsimp only
    rw [trinomialRoots_real]
    split <;> [rfl; (split <;> rfl)]
  · rw [ArrayPoly.complexFactors, hp]
    dsimp only
    rw [h3, QuadraticTrinomial.complexFactors, QuadraticTrinomial.roots]
    dsimp only
    rw [trinomialRoots_real]
    split <;> [rfl; (split <;> rfl)]

/-! ## Linear binomials and monomials -/

/-- **C49**, `LinearBinomial::root` over a field: `InfiniteRoots` exactly for the zero polynomial,
`NoRoots` exactly for a non-zero constant, otherwise the unique root. -/
theorem C49_binomial_root {K : Type} [Field K] [NumZero K] [LawfulNumZero K] [RDiv K] [LawfulRDiv K]
    (b : LinearBinomial K) :
    (b.root = .ok .infiniteRoots ↔ b.poly = 0) ∧
    (b.root = .ok .noRoots ↔ ∃ k, k ≠ 0 ∧ b.poly = C k) ∧
    (b.c0 ≠ 0 → ∃ r, b.root = .ok (.oneRealRoot r) ∧ ∀ x, b.poly.IsRoot x ↔ x = r) := by
  obtain ⟨c0, c1⟩ := b
  have hp : (⟨c0, c1⟩ : LinearBinomial K).poly = C c0 * X + C c1 := rfl
  have hcoef : ∀ k, C c0 * X + C c1 = C k ↔ c0 = 0 ∧ c1 = k := by
    intro k
    constructor
    · intro h
      have h1 := congrArg (fun p => Polynomial.coeff p 1) h
      have h0 := congrArg (fun p => Polynomial.coeff p 0) h
      simp [coeff_C] at h1 h0
      exact ⟨h1, h0⟩
    · rintro ⟨rfl, rfl⟩; simp
  rw [hp]
  unfold LinearBinomial.root
  dsimp only
  by_cases h0 : c0 = 0
  · by_cases h1 : c1 = 0
    · subst h0 h1
      refine ⟨by simp [isZero_zero], ?_, by simp⟩
      simp only [isZero_zero, if_true, Res.ok.injEq, reduceCtorEq, false_iff, not_exists, not_and]
      exact fun k hk h => hk ((hcoef k).1 h).2.symm
    · subst h0
      have hz : isZero c1 = false := by simpa using h1
      rw [if_pos isZero_zero, hz]
      refine ⟨by simp [h1], by simpa using h1, by simp⟩
  · have hz : isZero c0 = false := by simpa using h0
    rw [hz, LawfulRDiv.rdiv_eq _ _ h0]
    refine ⟨?_, ?_, fun _ => ⟨-c1 / c0, rfl, fun x => ?_⟩⟩
    · have := hcoef 0
      rw [C_0] at this
      rw [this]
      simp [h0]
    · constructor
      · intro h; simp at h
      · rintro ⟨k, hk, h⟩
        exact absurd ((hcoef k).1 h).1 h0
    · simp only [IsRoot.def, eval_add, eval_mul, eval_C, eval_X]
      constructor
      · intro h; field_simp; linear_combination h
      · rintro rfl; field_simp; ring

example : (⟨2, 6⟩ : LinearBinomial ℚ).root = .ok (.oneRealRoot (-3)) := by decide +kernel

/-- **C49**, `ArrayPolynomial<N, 2>::root` is the same function. -/
theorem C49_array_root {N : Type} [Zero N] [NumZero N] [Neg N] [RDiv N] (p : ArrayPoly N 2) (a b : N)
    (hp : p.coefficients = [a, b]) : p.root = (⟨a, b⟩ : LinearBinomial N).root := by
  rw [ArrayPoly.root, hp]; rfl

/-- **C49**, integer coefficients: the root is truncated towards zero, so it is a root exactly when
the division is exact. -/
theorem C49_binomial_root_int (c0 c1 : ℤ) (h : c0 ≠ 0) :
    ∃ r, (⟨c0, c1⟩ : LinearBinomial ℤ).root = .ok (.oneRealRoot r) ∧
      ((⟨c0, c1⟩ : LinearBinomial ℤ).poly.IsRoot r ↔ c0 ∣ c1) := by
  have hz := not_isZero h
  refine ⟨(-c1).tdiv c0, ?_, ?_⟩
  · simp [LinearBinomial.root, hz, rdiv, h]
  · simp only [LinearBinomial.poly, IsRoot.def, eval_add, eval_mul, eval_C, eval_X]
    constructor
    · intro he; exact ⟨-((-c1).tdiv c0), by linear_combination he⟩
    · rintro ⟨k, rfl⟩
      rw [show -(c0 * k) = c0 * -k by ring, Int.mul_tdiv_cancel_left _ h]
      ring

/-- **C49**, `Monomial::root`: `InfiniteRoots` exactly for the zero polynomial, `NoRoots` exactly for
a non-zero constant, and otherwise `0`, which is the only root. -/
theorem C49_monomial_root {R : Type} [CommRing R] [IsDomain R] [NumZero R] [LawfulNumZero R]
    (m : Monomial R) :
    (m.root = .infiniteRoots ↔ m.poly = 0) ∧
    (m.root = .noRoots ↔ ∃ k, k ≠ 0 ∧ m.poly = C k) ∧
    (m.root = .oneRealRoot 0 ↔ m.poly ≠ 0 ∧ m.poly.natDegree ≠ 0) ∧
    (m.poly ≠ 0 → m.poly.natDegree ≠ 0 → ∀ x, m.poly.IsRoot x ↔ x = 0) := by
  obtain ⟨c, d⟩ := m
  have hp : (⟨c, d⟩ : Monomial R).poly = C c * X ^ d := rfl
  rw [hp]
  by_cases h0 : c = 0
  · subst h0
    have hdeg : (⟨0, d⟩ : Monomial R).root = .infiniteRoots := by
      simp [Monomial.root, Monomial.degree, isZero_zero]
    rw [hdeg]
    refine ⟨by simp, ?_, by simp, by simp⟩
    simp only [reduceCtorEq, false_iff, not_exists, not_and]
    intro k hk h
    rw [C_0, zero_mul] at h
    exact hk (C_eq_zero.1 h.symm)
  · have hz : isZero c = false := by simpa using h0
    have hne : C c * X ^ d ≠ 0 := by simpa using h0
    have hnd : (C c * X ^ d).natDegree = d := natDegree_C_mul_X_pow d c h0
    cases d with
    | zero =>
      have hr : (⟨c, 0⟩ : Monomial R).root = .noRoots := by
        simp [Monomial.root, Monomial.degree, hz]
      rw [hr]
      simp [h0]
    | succ d =>
      have hr : (⟨c, d + 1⟩ : Monomial R).root = .oneRealRoot 0 := by
        simp [Monomial.root, Monomial.degree, hz]
      rw [hr]
      refine ⟨by simp [h0], ?_, by simp [h0, hnd], ?_⟩
      · simp only [reduceCtorEq, false_iff, not_exists, not_and]
        intro k hk h
        have := congrArg natDegree h
        rw [hnd, natDegree_C] at this
        omega
      · intro _ _ x
        simp [h0]

example : (⟨1, 2⟩ : Monomial ℤ).root = .oneRealRoot 0 := by decide

end Rustnomial
