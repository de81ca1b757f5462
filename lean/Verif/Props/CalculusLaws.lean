import Verif.Model.Macros
import Verif.Props.Laws
import Verif.Props.Mutation
import Verif.Props.DenseCalc
import Mathlib.Algebra.Polynomial.Derivative

/-!
# Laws of differentiation and integration, as the operations of the library satisfy them (C108)
-/

open Polynomial

set_option linter.unusedSectionVars false

namespace Rustnomial

/-- In characteristic zero a polynomial is given by its derivative and its constant term. -/
theorem eq_of_derivative_eq {K : Type} [Field K] [CharZero K] {F G : K[X]}
    (h : Polynomial.derivative F = Polynomial.derivative G) (h0 : F.coeff 0 = G.coeff 0) : F = G := by
  have h1 : Polynomial.derivative (F - G) = 0 := by rw [derivative_sub, h, sub_self]
  have h2 := derivative_eq_zero.1 h1
  have h3 := eq_C_of_natDegree_eq_zero h2
  rw [coeff_sub, h0, sub_self, C_0] at h3
  exact sub_eq_zero.1 h3

/-! ## Polynomial -/

section Dense
variable {R : Type} [CommRing R] [NumZero R] [LawfulNumZero R] [BEq R] [LawfulBEq R] [FromUsizeCont R]
  [LawfulFromUsizeCont R]

omit [BEq R] [LawfulBEq R] in
theorem derivative_ok {p r : Poly R} (h : p.derivative = .ok r) :
    descPoly r.terms = Polynomial.derivative (descPoly p.terms) := by
  rcases C16_dense_derivative p with hp | ⟨r', h1, h2⟩
  · rw [h] at hp; cases hp
  · rw [h] at h1; rw [Res.ok.inj h1]; exact h2

omit [BEq R] [LawfulBEq R] in
theorem derivative_total (ht : ∀ n, (tryFromCont n : Option R) ≠ none) (p : Poly R) :
    ∃ r, p.derivative = .ok r ∧ descPoly r.terms = Polynomial.derivative (descPoly p.terms) := by
  rcases C16_dense_derivative p with hp | h
  · exact absurd ((C16_dense_derivative_panics_iff p).1 hp) (ht _)
  · exact h

theorem mul_total {p q : Poly R} (h : descPoly p.terms ≠ 0 ∨ descPoly q.terms ≠ 0) :
    ∃ r, p.mul q = .ok r ∧ descPoly r.terms = descPoly p.terms * descPoly q.terms :=
  (C11_dense_mul_partial p q h).1

/-- C108 (Polynomial): differentiation is linear, for all values and scalars, over a coefficient type
whose conversion from `usize` does not fail. -/
theorem C108_dense_derivative_linear (ht : ∀ n, (tryFromCont n : Option R) ≠ none) (p q : Poly R) (c : R) :
    ResEq Poly.eq (do let s ← p.add q; s.derivative)
      (do let a ← p.derivative; let b ← q.derivative; a.add b) ∧
    ResEq Poly.eq (do let s ← p.sub q; s.derivative)
      (do let a ← p.derivative; let b ← q.derivative; a.sub b) ∧
    ResEq Poly.eq p.neg.derivative (do let a ← p.derivative; .ok a.neg) ∧
    ResEq Poly.eq (p.mulScalar c).derivative (do let a ← p.derivative; .ok (a.mulScalar c)) := by
  obtain ⟨a, ha, ea⟩ := derivative_total ht p
  obtain ⟨b, hb, eb⟩ := derivative_total ht q
  refine ⟨?_, ?_, ?_, ?_⟩
  · obtain ⟨s, hs, es⟩ := C08_dense_add p q
    obtain ⟨d, hd, ed⟩ := derivative_total ht s
    obtain ⟨u, hu, eu⟩ := C08_dense_add a b
    refine ⟨d, u, by simp [hs, hd], by simp [ha, hb, hu], ?_⟩
    rw [C05_dense_eq, ed, es, eu, ea, eb, derivative_add]
  · obtain ⟨s, hs, es⟩ := C09_dense_sub p q
    obtain ⟨d, hd, ed⟩ := derivative_total ht s
    obtain ⟨u, hu, eu⟩ := C09_dense_sub a b
    refine ⟨d, u, by simp [hs, hd], by simp [ha, hb, hu], ?_⟩
    rw [C05_dense_eq, ed, es, eu, ea, eb, derivative_sub]
  · obtain ⟨d, hd, ed⟩ := derivative_total ht p.neg
    refine ⟨d, a.neg, hd, by simp [ha], ?_⟩
    rw [C05_dense_eq, ed, (C10_dense_neg p).1, (C10_dense_neg a).1, ea, derivative_neg]
  · obtain ⟨d, hd, ed⟩ := derivative_total ht (p.mulScalar c)
    refine ⟨d, a.mulScalar c, hd, by simp [ha], ?_⟩
    rw [C05_dense_eq, ed, C13_dense_mul_scalar, C13_dense_mul_scalar, ea, derivative_C_mul]

/-- C108 (Polynomial): the product rule `(pq)' = p'q + pq'`. Whenever both sides return they are `==`,
for every coefficient type; for factors other than zero both sides do return (a product of two zero
polynomials panics, C11). -/
theorem C108_dense_product_rule (p q : Poly R) :
    ResAgree Poly.eq (do let m ← p.mul q; m.derivative)
      (do let a ← p.derivative; let b ← q.derivative; let u ← a.mul q; let v ← p.mul b; u.add v) ∧
    ((∀ n, (tryFromCont n : Option R) ≠ none) → p.isZeroPoly = false → q.isZeroPoly = false →
      ResEq Poly.eq (do let m ← p.mul q; m.derivative)
        (do let a ← p.derivative; let b ← q.derivative; let u ← a.mul q; let v ← p.mul b; u.add v)) := by
  constructor
  · intro r s hr hs
    obtain ⟨m, hm, hd⟩ := Res.bind_eq_ok.1 hr
    obtain ⟨a, ha, hs⟩ := Res.bind_eq_ok.1 hs
    obtain ⟨b, hb, hs⟩ := Res.bind_eq_ok.1 hs
    obtain ⟨u, hu, hs⟩ := Res.bind_eq_ok.1 hs
    obtain ⟨v, hv, hs⟩ := Res.bind_eq_ok.1 hs
    rw [C05_dense_eq, derivative_ok hd, mul_ok hm, add_ok hs, mul_ok hu, mul_ok hv, derivative_ok ha,
      derivative_ok hb, derivative_mul]
  · intro ht hp hq
    have hp : descPoly p.terms ≠ 0 := fun h => by rw [(C02_dense_is_zero p).2 h] at hp; cases hp
    have hq : descPoly q.terms ≠ 0 := fun h => by rw [(C02_dense_is_zero q).2 h] at hq; cases hq
    obtain ⟨m, hm, em⟩ := mul_total (p := p) (q := q) (Or.inl hp)
    obtain ⟨d, hd, ed⟩ := derivative_total ht m
    obtain ⟨a, ha, ea⟩ := derivative_total ht p
    obtain ⟨b, hb, eb⟩ := derivative_total ht q
    obtain ⟨u, hu, eu⟩ := mul_total (p := a) (q := q) (Or.inr hq)
    obtain ⟨v, hv, ev⟩ := mul_total (p := p) (q := b) (Or.inl hp)
    obtain ⟨w, hw, ew⟩ := C08_dense_add u v
    refine ⟨d, w, by simp [hm, hd], by simp [ha, hb, hu, hv, hw], ?_⟩
    rw [C05_dense_eq, ed, em, ew, eu, ev, ea, eb, derivative_mul]

/-- C108 (Polynomial): the power rule `(pⁿ⁺¹)' = (n + 1) pⁿ p'`, for every exponent. -/
theorem C108_dense_power_rule (p : Poly R) (n : Nat) :
    ResAgree Poly.eq (do let m ← p.pow (n + 1); m.derivative)
      (do let a ← p.derivative; let u ← p.pow n; let v ← u.mul a; .ok (v.mulScalar ((n + 1 : Nat) : R))) ∧
    ([NoZeroDivisors R] → (∀ n, (tryFromCont n : Option R) ≠ none) → p.isZeroPoly = false →
      ResEq Poly.eq (do let m ← p.pow (n + 1); m.derivative)
        (do let a ← p.derivative; let u ← p.pow n; let v ← u.mul a; .ok (v.mulScalar ((n + 1 : Nat) : R)))) := by
  constructor
  · intro r s hr hs
    obtain ⟨m, hm, hd⟩ := Res.bind_eq_ok.1 hr
    obtain ⟨a, ha, hs⟩ := Res.bind_eq_ok.1 hs
    obtain ⟨u, hu, hs⟩ := Res.bind_eq_ok.1 hs
    obtain ⟨v, hv, hs⟩ := Res.bind_eq_ok.1 hs
    cases hs
    rw [C05_dense_eq, derivative_ok hd, C12_dense_pow_sound p _ m hm, C13_dense_mul_scalar, mul_ok hv,
      C12_dense_pow_sound p _ u hu, derivative_ok ha, derivative_pow_succ]
    push_cast; ring
  · intro _ ht hp
    have hp : descPoly p.terms ≠ 0 := fun h => by rw [(C02_dense_is_zero p).2 h] at hp; cases hp
    obtain ⟨m, hm, em⟩ := C12_dense_pow_partial p (n + 1) hp
    obtain ⟨d, hd, ed⟩ := derivative_total ht m
    obtain ⟨a, ha, ea⟩ := derivative_total ht p
    obtain ⟨u, hu, eu⟩ := C12_dense_pow_partial p n hp
    obtain ⟨v, hv, ev⟩ := mul_total (p := u) (q := a) (Or.inl (by rw [eu]; exact pow_ne_zero _ hp))
    refine ⟨d, _, by simp [hm, hd], by simp only [ha, hu, hv, Res.ok_bind]; rfl, ?_⟩
    rw [C05_dense_eq, ed, em, C13_dense_mul_scalar, ev, eu, ea, derivative_pow_succ]
    push_cast; ring

/-- C108 (macros): `polynomial!(c₀, …, cₖ)` is the polynomial with these coefficients in descending
order, stored without leading zeros; `derivative!` of them is its derivative whenever it returns, and it
returns whenever the conversion from `usize` does not fail. -/
theorem C108_macros_derivative (xs : List R) :
    descPoly (polynomialMacro xs).terms = descPoly xs ∧
    (∀ x, (polynomialMacro xs).terms.head? = some x → x ≠ 0) ∧
    (∀ r, derivativeMacro xs = .ok r →
      ∀ i, (descPoly r.terms).coeff i = (descPoly xs).coeff (i + 1) * ((i : R) + 1)) ∧
    ((∀ n, (tryFromCont n : Option R) ≠ none) → ∃ r, derivativeMacro xs = .ok r) := by
  refine ⟨C01_new_same_polynomial xs, ?_, ?_, ?_⟩
  · intro x hx h0
    rw [polynomialMacro, new_terms] at hx
    cases h : xs.dropWhile isZero with
    | nil => rw [h] at hx; cases hx
    | cons v vs =>
      rw [h] at hx
      have hv : v ≠ 0 := by simpa using dropWhile_head_not h
      cases hx; exact hv h0
  · intro r hr i
    rw [derivative_ok hr, coeff_derivative, polynomialMacro, C01_new_same_polynomial]
  · intro ht
    obtain ⟨r, hr, _⟩ := derivative_total ht (polynomialMacro xs)
    exact ⟨r, hr⟩

end Dense

example : (∃ r s, derivativeMacro [(1 : ℤ), 2, 3] = .ok r ∧ r.terms = [2, 2] ∧
    derivativeMacro [(0 : ℤ), 5] = .ok s ∧ s.terms = []) ∧ (polynomialMacro [(0 : ℤ), 0, 4, 0]).terms = [4, 0] :=
  ⟨⟨_, _, rfl, by decide, rfl, by decide⟩, by decide⟩

example : (do let m ← (⟨[1, -2]⟩ : Poly ℤ).pow 3; m.derivative) = .ok ⟨[3, -12, 12]⟩ := by decide +kernel

section DenseIntegral
variable {K : Type} [Field K] [CharZero K] [NumZero K] [LawfulNumZero K] [BEq K] [LawfulBEq K] [RDiv K]
  [LawfulRDiv K] [FromUsizeCont K] [LawfulFromUsizeCont K]

theorem dense_integral_eval (i : Poly K) (a b : K) :
    (⟨i⟩ : Integral (Poly K)).eval a b = (descPoly i.terms).eval b - (descPoly i.terms).eval a :=
  (C19_integral_eval (⟨i⟩ : Integral (Poly K)) trivial a b a).1

/-- C108 (Polynomial): integration is linear, for all values and scalars, over a field of
characteristic zero whose conversion from `usize` does not fail. -/
theorem C108_dense_integral_linear (ht : ∀ n, (tryFromCont n : Option K) ≠ none) (p q : Poly K) (c : K) :
    ResEq Poly.eq (do let s ← p.add q; s.integral)
      (do let a ← p.integral; let b ← q.integral; a.add b) ∧
    ResEq Poly.eq (do let s ← p.sub q; s.integral)
      (do let a ← p.integral; let b ← q.integral; a.sub b) ∧
    ResEq Poly.eq p.neg.integral (do let a ← p.integral; .ok a.neg) ∧
    ResEq Poly.eq (p.mulScalar c).integral (do let a ← p.integral; .ok (a.mulScalar c)) := by
  obtain ⟨a, ha, ea, za⟩ := C18_dense_integral p (ht _)
  obtain ⟨b, hb, eb, zb⟩ := C18_dense_integral q (ht _)
  refine ⟨?_, ?_, ?_, ?_⟩
  · obtain ⟨s, hs, es⟩ := C08_dense_add p q
    obtain ⟨d, hd, ed, zd⟩ := C18_dense_integral s (ht _)
    obtain ⟨u, hu, eu⟩ := C08_dense_add a b
    refine ⟨d, u, by simp [hs, hd], by simp [ha, hb, hu], ?_⟩
    rw [C05_dense_eq]
    apply eq_of_derivative_eq
    · rw [ed, es, eu, derivative_add, ea, eb]
    · rw [zd, eu, coeff_add, za, zb, add_zero]
  · obtain ⟨s, hs, es⟩ := C09_dense_sub p q
    obtain ⟨d, hd, ed, zd⟩ := C18_dense_integral s (ht _)
    obtain ⟨u, hu, eu⟩ := C09_dense_sub a b
    refine ⟨d, u, by simp [hs, hd], by simp [ha, hb, hu], ?_⟩
    rw [C05_dense_eq]
    apply eq_of_derivative_eq
    · rw [ed, es, eu, derivative_sub, ea, eb]
    · rw [zd, eu, coeff_sub, za, zb, sub_zero]
  · obtain ⟨d, hd, ed, zd⟩ := C18_dense_integral p.neg (ht _)
    refine ⟨d, a.neg, hd, by simp [ha], ?_⟩
    rw [C05_dense_eq]
    apply eq_of_derivative_eq
    · rw [ed, (C10_dense_neg p).1, (C10_dense_neg a).1, derivative_neg, ea]
    · rw [zd, (C10_dense_neg a).1, coeff_neg, za, neg_zero]
  · obtain ⟨d, hd, ed, zd⟩ := C18_dense_integral (p.mulScalar c) (ht _)
    refine ⟨d, a.mulScalar c, hd, by simp [ha], ?_⟩
    rw [C05_dense_eq]
    apply eq_of_derivative_eq
    · rw [ed, C13_dense_mul_scalar, C13_dense_mul_scalar, derivative_C_mul, ea]
    · rw [zd, C13_dense_mul_scalar, coeff_C_mul, za, mul_zero]

/-- C108 (Polynomial): the fundamental theorem. The definite integral of the derivative of `p` from `a`
to `b` is `p(b) - p(a)`, every one of the values being computed by the library. -/
theorem C108_dense_fundamental (ht : ∀ n, (tryFromCont n : Option K) ≠ none) (p : Poly K) :
    ∃ d i, p.derivative = .ok d ∧ d.integral = .ok i ∧
      ∀ a b : K, (⟨i⟩ : Integral (Poly K)).eval a b = p.eval b - p.eval a := by
  obtain ⟨d, hd, ed⟩ := derivative_total ht p
  obtain ⟨i, hi, ei, zi⟩ := C18_dense_integral d (ht _)
  refine ⟨d, i, hd, hi, fun a b => ?_⟩
  have e : descPoly i.terms = descPoly p.terms - C ((descPoly p.terms).coeff 0) := by
    apply eq_of_derivative_eq
    · rw [ei, ed, derivative_sub, derivative_C, sub_zero]
    · rw [zi]; simp
  rw [dense_integral_eval, C06_dense_eval, C06_dense_eval, e]
  simp

/-- C108 (Polynomial): integration by parts, for all factors other than zero. -/
theorem C108_dense_by_parts (ht : ∀ n, (tryFromCont n : Option K) ≠ none) (p q : Poly K)
    (hp : p.isZeroPoly = false) (hq : q.isZeroPoly = false) :
    ∃ p' q' u v iu iv, p.derivative = .ok p' ∧ q.derivative = .ok q' ∧ p'.mul q = .ok u ∧ p.mul q' = .ok v ∧
      u.integral = .ok iu ∧ v.integral = .ok iv ∧
      ∀ a b : K, (⟨iv⟩ : Integral (Poly K)).eval a b
        = p.eval b * q.eval b - p.eval a * q.eval a - (⟨iu⟩ : Integral (Poly K)).eval a b := by
  have hp : descPoly p.terms ≠ 0 := fun h => by rw [(C02_dense_is_zero p).2 h] at hp; cases hp
  have hq : descPoly q.terms ≠ 0 := fun h => by rw [(C02_dense_is_zero q).2 h] at hq; cases hq
  obtain ⟨p', h1, e1⟩ := derivative_total ht p
  obtain ⟨q', h2, e2⟩ := derivative_total ht q
  obtain ⟨u, hu, eu⟩ := mul_total (p := p') (q := q) (Or.inr hq)
  obtain ⟨v, hv, ev⟩ := mul_total (p := p) (q := q') (Or.inl hp)
  obtain ⟨iu, hiu, eiu, ziu⟩ := C18_dense_integral u (ht _)
  obtain ⟨iv, hiv, eiv, ziv⟩ := C18_dense_integral v (ht _)
  refine ⟨p', q', u, v, iu, iv, h1, h2, hu, hv, hiu, hiv, fun a b => ?_⟩
  have e : descPoly iv.terms = descPoly p.terms * descPoly q.terms
      - C ((descPoly p.terms).coeff 0 * (descPoly q.terms).coeff 0) - descPoly iu.terms := by
    apply eq_of_derivative_eq
    · rw [eiv, ev, e2, derivative_sub, derivative_sub, derivative_C, eiu, eu, e1, derivative_mul]; ring
    · rw [ziv, coeff_sub, coeff_sub, ziu, mul_coeff_zero, coeff_C_zero]; ring
  rw [dense_integral_eval, dense_integral_eval, e]
  simp only [C06_dense_eval, eval_sub, eval_mul, eval_C]
  ring

/-- C108 (macros): `integral!(c₀, …, cₖ)` returns an antiderivative of the polynomial with these
coefficients, with constant term zero; and differentiating it gives the polynomial back. -/
theorem C108_macros_integral (ht : ∀ n, (tryFromCont n : Option K) ≠ none) (xs : List K) :
    ∃ i, integralMacro xs = .ok i ∧ (descPoly i.inner.terms).coeff 0 = 0 ∧
      (∀ j, (descPoly i.inner.terms).coeff (j + 1) * ((j : K) + 1) = (descPoly xs).coeff j) ∧
      ∃ d, i.inner.derivative = .ok d ∧ d.eq (polynomialMacro xs) = true := by
  obtain ⟨i, hi, ei, zi⟩ := C18_dense_integral (Poly.new xs) (ht _)
  obtain ⟨d, hd, ed⟩ := derivative_total ht i
  have hx : descPoly (Poly.new xs).terms = descPoly xs := C01_new_same_polynomial xs
  refine ⟨⟨i⟩, by simp [integralMacro, hi], zi, fun j => ?_, d, hd, ?_⟩
  · rw [← hx, ← ei, coeff_derivative]; rfl
  · rw [C05_dense_eq, ed, ei]; rfl

end DenseIntegral

example : (do let i ← integralMacro [(5 : ℚ), 2, 0]; .ok (i.inner.terms, i.eval (0 : ℚ) 1))
    = .ok ([5 / 3, 1, 0, 0], 8 / 3) := by decide +kernel

/-- The hypotheses are met: the product of `x + 2` and `3x² - 1` over ℚ. -/
example := C108_dense_by_parts (K := ℚ) (by simp [tryFromCont]) ⟨[1, 2]⟩ ⟨[3, 0, -1]⟩ (by decide +kernel)
  (by decide +kernel)

/-! ## SparsePolynomial -/

section Sparse
variable {R : Type} [CommRing R] [NumZero R] [LawfulNumZero R] [BEq R] [LawfulBEq R] [FromUsizeExact R]
  [LawfulFromUsizeExact R]

theorem sparse_mulScalar_poly {R : Type} [CommRing R] [NumZero R] [LawfulNumZero R] (p : Sparse R) (c : R) :
    entriesPoly (p.mulScalar c).terms.entries = C c * entriesPoly p.terms.entries :=
  (C13_sparse_mul_scalar p c).1

omit [BEq R] [LawfulBEq R] in
theorem sparse_derivative_total (ht : ∀ n, (tryFromExact n : Option R) ≠ none) (p : Sparse R) :
    ∃ r, p.derivative = .ok r ∧
      entriesPoly r.terms.entries = Polynomial.derivative (entriesPoly p.terms.entries) :=
  (C17_sparse_derivative p).2 (fun d _ _ => ht d)

/-- C108 (SparsePolynomial): the derivative is linear and satisfies the product and the power rule, for
all values, scalars and exponents. -/
theorem C108_sparse_derivative_laws (ht : ∀ n, (tryFromExact n : Option R) ≠ none) (p q : Sparse R) (c : R)
    (n : Nat) :
    ResEq Sparse.eq (p.add q).derivative (do let a ← p.derivative; let b ← q.derivative; .ok (a.add b)) ∧
    ResEq Sparse.eq (p.sub q).derivative (do let a ← p.derivative; let b ← q.derivative; .ok (a.sub b)) ∧
    ResEq Sparse.eq p.neg.derivative (do let a ← p.derivative; .ok a.neg) ∧
    ResEq Sparse.eq (p.mulScalar c).derivative (do let a ← p.derivative; .ok (a.mulScalar c)) ∧
    ResEq Sparse.eq (p.mul q).derivative
      (do let a ← p.derivative; let b ← q.derivative; .ok ((a.mul q).add (p.mul b))) ∧
    ResEq Sparse.eq (p.pow (n + 1)).derivative
      (do let a ← p.derivative; .ok (((p.pow n).mul a).mulScalar ((n + 1 : Nat) : R))) := by
  obtain ⟨a, ha, ea⟩ := sparse_derivative_total ht p
  obtain ⟨b, hb, eb⟩ := sparse_derivative_total ht q
  have hadd : ∀ p q : Sparse R, entriesPoly (p.add q).terms.entries =
    entriesPoly p.terms.entries + entriesPoly q.terms.entries := fun p q => (C25_sparse_add p q).1
  refine ⟨?_, ?_, ?_, ?_, ?_, ?_⟩
  · obtain ⟨d, hd, ed⟩ := sparse_derivative_total ht (p.add q)
    exact ⟨d, _, hd, by simp [ha, hb]; rfl, by rw [C05_sparse_eq, ed, hadd, hadd, ea, eb, derivative_add]⟩
  · obtain ⟨d, hd, ed⟩ := sparse_derivative_total ht (p.sub q)
    exact ⟨d, _, hd, by simp [ha, hb]; rfl,
      by rw [C05_sparse_eq, ed, C25_sparse_sub, C25_sparse_sub, ea, eb, derivative_sub]⟩
  · obtain ⟨d, hd, ed⟩ := sparse_derivative_total ht p.neg
    exact ⟨d, _, hd, by simp [ha]; rfl, by rw [C05_sparse_eq, ed, C10_sparse_neg, C10_sparse_neg, ea, derivative_neg]⟩
  · obtain ⟨d, hd, ed⟩ := sparse_derivative_total ht (p.mulScalar c)
    exact ⟨d, _, hd, by simp [ha]; rfl,
      by rw [C05_sparse_eq, ed, sparse_mulScalar_poly, sparse_mulScalar_poly, ea, derivative_C_mul]⟩
  · obtain ⟨d, hd, ed⟩ := sparse_derivative_total ht (p.mul q)
    exact ⟨d, _, hd, by simp [ha, hb]; rfl,
      by rw [C05_sparse_eq, ed, hadd, C26_sparse_mul, C26_sparse_mul, C26_sparse_mul, ea, eb, derivative_mul]⟩
  · obtain ⟨d, hd, ed⟩ := sparse_derivative_total ht (p.pow (n + 1))
    refine ⟨d, _, hd, by simp only [ha, Res.ok_bind]; rfl, ?_⟩
    rw [C05_sparse_eq, ed, sparse_mulScalar_poly, C26_sparse_mul, C26_sparse_pow, C26_sparse_pow, ea,
      derivative_pow_succ]
    push_cast; ring

end Sparse

section SparseIntegral
variable {K : Type} [Field K] [CharZero K] [NumZero K] [LawfulNumZero K] [BEq K] [LawfulBEq K] [RDiv K]
  [LawfulRDiv K] [FromUsizeExact K] [LawfulFromUsizeExact K]

/-- C108 (SparsePolynomial): integration is linear. -/
theorem C108_sparse_integral_linear (ht : ∀ n, (tryFromExact n : Option K) ≠ none) (p q : Sparse K) (c : K) :
    ResEq Sparse.eq (p.add q).integral (do let a ← p.integral; let b ← q.integral; .ok (a.add b)) ∧
    ResEq Sparse.eq (p.sub q).integral (do let a ← p.integral; let b ← q.integral; .ok (a.sub b)) ∧
    ResEq Sparse.eq p.neg.integral (do let a ← p.integral; .ok a.neg) ∧
    ResEq Sparse.eq (p.mulScalar c).integral (do let a ← p.integral; .ok (a.mulScalar c)) := by
  obtain ⟨a, ha, ea, za⟩ := C18_sparse_integral p (fun _ _ => ht _)
  obtain ⟨b, hb, eb, zb⟩ := C18_sparse_integral q (fun _ _ => ht _)
  have hadd : ∀ p q : Sparse K, entriesPoly (p.add q).terms.entries =
    entriesPoly p.terms.entries + entriesPoly q.terms.entries := fun p q => (C25_sparse_add p q).1
  refine ⟨?_, ?_, ?_, ?_⟩
  · obtain ⟨d, hd, ed, zd⟩ := C18_sparse_integral (p.add q) (fun _ _ => ht _)
    refine ⟨d, _, hd, by simp only [ha, hb, Res.ok_bind]; rfl, ?_⟩
    rw [C05_sparse_eq]
    apply eq_of_derivative_eq
    · rw [ed, hadd, hadd, derivative_add, ea, eb]
    · rw [zd, hadd, coeff_add, za, zb, add_zero]
  · obtain ⟨d, hd, ed, zd⟩ := C18_sparse_integral (p.sub q) (fun _ _ => ht _)
    refine ⟨d, _, hd, by simp only [ha, hb, Res.ok_bind]; rfl, ?_⟩
    rw [C05_sparse_eq]
    apply eq_of_derivative_eq
    · rw [ed, C25_sparse_sub, C25_sparse_sub, derivative_sub, ea, eb]
    · rw [zd, C25_sparse_sub, coeff_sub, za, zb, sub_zero]
  · obtain ⟨d, hd, ed, zd⟩ := C18_sparse_integral p.neg (fun _ _ => ht _)
    refine ⟨d, _, hd, by simp only [ha, Res.ok_bind]; rfl, ?_⟩
    rw [C05_sparse_eq]
    apply eq_of_derivative_eq
    · rw [ed, C10_sparse_neg, C10_sparse_neg, derivative_neg, ea]
    · rw [zd, C10_sparse_neg, coeff_neg, za, neg_zero]
  · obtain ⟨d, hd, ed, zd⟩ := C18_sparse_integral (p.mulScalar c) (fun _ _ => ht _)
    refine ⟨d, _, hd, by simp only [ha, Res.ok_bind]; rfl, ?_⟩
    rw [C05_sparse_eq]
    apply eq_of_derivative_eq
    · rw [ed, sparse_mulScalar_poly, sparse_mulScalar_poly, derivative_C_mul, ea]
    · rw [zd, sparse_mulScalar_poly, coeff_C_mul, za, mul_zero]

/-- C108 (SparsePolynomial): integrating the derivative gives the polynomial back up to its constant
term, which `replace_c` restores. -/
theorem C108_sparse_integral_derivative [PowUsize K] (ht : ∀ n, (tryFromExact n : Option K) ≠ none)
    (p : Sparse K) :
    ∃ d i, p.derivative = .ok d ∧ d.integral = .ok i ∧
      ((⟨i⟩ : Integral (Sparse K)).replaceC ((entriesPoly p.terms.entries).coeff 0)).eq p = true := by
  obtain ⟨d, hd, ed⟩ := sparse_derivative_total ht p
  obtain ⟨i, hi, ei, zi⟩ := C18_sparse_integral d (fun _ _ => ht _)
  refine ⟨d, i, hd, hi, ?_⟩
  rw [C05_sparse_eq]
  have e : entriesPoly ((⟨i⟩ : Integral (Sparse K)).replaceC ((entriesPoly p.terms.entries).coeff 0)).terms.entries
      = entriesPoly i.terms.entries + C ((entriesPoly p.terms.entries).coeff 0) := by
    rw [Integral.replaceC]
    exact (C31_sparse_add_term i _ 0).trans (by simp)
  rw [e]
  apply eq_of_derivative_eq
  · rw [derivative_add, derivative_C, add_zero, ei, ed]
  · rw [coeff_add, zi, zero_add, coeff_C_zero]

/-- C108 (SparsePolynomial): the fundamental theorem, for exponents below the bound up to which the
power function of the coefficient type is exact (C07). -/
theorem C108_sparse_fundamental_partial [PowUsize K] [hl : LawfulPowUsize K]
    (ht : ∀ n, (tryFromExact n : Option K) ≠ none) (p : Sparse K)
    (hp : ∀ e ∈ p.terms.entries, e.1 < hl.bound) :
    ∃ d i, p.derivative = .ok d ∧ d.integral = .ok i ∧
      ((∀ e ∈ i.terms.entries, e.1 < hl.bound) →
        ∀ a b : K, (⟨i⟩ : Integral (Sparse K)).eval a b = p.eval b - p.eval a) := by
  obtain ⟨d, hd, ed⟩ := sparse_derivative_total ht p
  obtain ⟨i, hi, ei, zi⟩ := C18_sparse_integral d (fun _ _ => ht _)
  refine ⟨d, i, hd, hi, fun hb a b => ?_⟩
  have e : entriesPoly i.terms.entries
      = entriesPoly p.terms.entries - C ((entriesPoly p.terms.entries).coeff 0) := by
    apply eq_of_derivative_eq
    · rw [ei, ed, derivative_sub, derivative_C, sub_zero]
    · rw [zi]; simp
  have h1 : (⟨i⟩ : Integral (Sparse K)).eval a b
      = (entriesPoly i.terms.entries).eval b - (entriesPoly i.terms.entries).eval a :=
    congrArg₂ (· - ·) (C07_sparse_eval_partial i b hb) (C07_sparse_eval_partial i a hb)
  rw [h1, C07_sparse_eval_partial p a hp, C07_sparse_eval_partial p b hp, e]
  simp

end SparseIntegral

example : (do
    let d ← (Sparse.fromVec [(3 : ℚ), 0, 1, 7]).derivative
    let i ← d.integral
    .ok ((⟨i⟩ : Integral (Sparse ℚ)).eval (1 : ℚ) 2,
      ((⟨i⟩ : Integral (Sparse ℚ)).replaceC (7 : ℚ)).eq (Sparse.fromVec [(3 : ℚ), 0, 1, 7]))) = .ok (22, true) := by
  decide +kernel

end Rustnomial
