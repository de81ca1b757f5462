import Verif.Props.CalculusLaws
import Verif.Props.DenseShift
import Mathlib.Algebra.Polynomial.Degree.Domain

/-!
# The degree of a result, from the degrees of the operands (C110)
-/

open Polynomial

set_option linter.unusedSectionVars false

namespace Rustnomial

theorem Degree.num_iff {R : Type} [Semiring R] {d : Degree} {P : R[X]} (h : d.toWithBot = P.degree) (n : Nat) :
    d = .num n ↔ P.degree = n := by
  rw [← h]
  cases d with
  | negInf => simp [Degree.toWithBot]
  | num m => simp [Degree.toWithBot]

theorem Degree.negInf_iff {R : Type} [Semiring R] {d : Degree} {P : R[X]} (h : d.toWithBot = P.degree) :
    d = .negInf ↔ P = 0 := by
  rw [← degree_eq_bot, ← h]
  cases d <;> simp [Degree.toWithBot]

theorem Degree.toWithBot_inj {d e : Degree} (h : d.toWithBot = e.toWithBot) : d = e := by
  cases d <;> cases e <;> simp [Degree.toWithBot] at h ⊢
  exact h

/-- The degree of the derivative in characteristic zero. -/
theorem degree_derivative_succ {R : Type} [CommRing R] [NoZeroDivisors R] [CharZero R] {P : R[X]} {n : Nat}
    (h : P.degree = ((n + 1 : Nat) : WithBot ℕ)) : (Polynomial.derivative P).degree = (n : WithBot ℕ) := by
  have h1 : P.natDegree = n + 1 := natDegree_eq_of_degree_eq_some h
  have h2 := degree_derivative (p := P) (by omega)
  rw [h2, h1]; rfl

theorem degree_of_derivative {K : Type} [Field K] [CharZero K] {F P : K[X]} {n : Nat}
    (h : Polynomial.derivative F = P) (hd : P.degree = n) : F.degree = ((n + 1 : Nat) : WithBot ℕ) := by
  have hP : P ≠ 0 := by rintro rfl; simp at hd
  have hF : F.natDegree ≠ 0 := fun h0 => hP (by rw [← h, derivative_eq_zero.2 h0])
  have h2 := degree_derivative hF
  rw [h, hd] at h2
  have h3 : n = F.natDegree - 1 := WithBot.coe_injective h2
  rw [degree_eq_natDegree (fun h0 => hF (by rw [h0, natDegree_zero]))]
  congr 1; omega

/-- The degree after a shift to the right. -/
theorem IsShiftRight.degree {R : Type} [CommRing R] {P Q : R[X]} {k i : Nat} (h : IsShiftRight P Q k)
    (hP : P.degree = i) :
    (k ≤ i → Q.degree = ((i - k : Nat) : WithBot ℕ)) ∧ (i < k → Q = 0) := by
  constructor
  · intro hk
    apply degree_eq_of_le_of_coeff_ne_zero
    · rw [degree_le_iff_coeff_zero]
      intro m hm
      have hm : i - k < m := by exact_mod_cast hm
      rw [h m]
      exact coeff_eq_zero_of_degree_lt (by rw [hP]; exact_mod_cast (by omega))
    · rw [h, Nat.sub_add_cancel hk]
      exact coeff_ne_zero_of_eq_degree hP
  · intro hk
    ext d
    rw [h d, coeff_zero]
    exact coeff_eq_zero_of_degree_lt (by rw [hP]; exact_mod_cast (by omega))

/-! ## Polynomial -/

section Dense
variable {R : Type} [CommRing R] [NumZero R] [LawfulNumZero R]

/-- C110 (Polynomial): the degree of a sum or difference is at most the larger of the two degrees, and is
the larger one when they differ; negation keeps the degree. -/
theorem C110_dense_add_degree (p q : Poly R) :
    p.neg.degree = p.degree ∧
    (∃ s, p.add q = .ok s ∧ s.degree.toWithBot ≤ max p.degree.toWithBot q.degree.toWithBot ∧
      (p.degree.toWithBot < q.degree.toWithBot → s.degree = q.degree) ∧
      (q.degree.toWithBot < p.degree.toWithBot → s.degree = p.degree)) ∧
    (∃ s, p.sub q = .ok s ∧ s.degree.toWithBot ≤ max p.degree.toWithBot q.degree.toWithBot ∧
      (p.degree.toWithBot < q.degree.toWithBot → s.degree = q.degree) ∧
      (q.degree.toWithBot < p.degree.toWithBot → s.degree = p.degree)) := by
  obtain ⟨s, hs, es⟩ := C08_dense_add p q
  obtain ⟨t, ht, et⟩ := C09_dense_sub p q
  refine ⟨?_, ⟨s, hs, ?_, ?_, ?_⟩, ⟨t, ht, ?_, ?_, ?_⟩⟩
  · apply Degree.toWithBot_inj
    rw [C02_dense_degree, C02_dense_degree, (C10_dense_neg p).1, degree_neg]
  · simp only [C02_dense_degree, es]; exact degree_add_le _ _
  · intro h; apply Degree.toWithBot_inj
    simp only [C02_dense_degree, es] at h ⊢; exact degree_add_eq_right_of_degree_lt h
  · intro h; apply Degree.toWithBot_inj
    simp only [C02_dense_degree, es] at h ⊢; exact degree_add_eq_left_of_degree_lt h
  · simp only [C02_dense_degree, et]; exact degree_sub_le _ _
  · intro h; apply Degree.toWithBot_inj
    simp only [C02_dense_degree, et] at h ⊢; exact degree_sub_eq_right_of_degree_lt h
  · intro h; apply Degree.toWithBot_inj
    simp only [C02_dense_degree, et] at h ⊢; exact degree_sub_eq_left_of_degree_lt h

/-- C110 (Polynomial): degrees add in a product and multiply in a power, over a domain; over any ring the
degree of a product is at most the sum. -/
theorem C110_dense_mul_degree (p q : Poly R) (i j : Nat) (hp : p.degree = .num i) (hq : q.degree = .num j) :
    (∃ r, p.mul q = .ok r ∧ r.degree.toWithBot ≤ ((i + j : Nat) : WithBot ℕ) ∧
      ([NoZeroDivisors R] → r.degree = .num (i + j))) ∧
    ([NoZeroDivisors R] → ∀ n, ∃ r, p.pow n = .ok r ∧ r.degree = .num (n * i)) := by
  have hp' := (Degree.num_iff (C02_dense_degree p) i).1 hp
  have hq' := (Degree.num_iff (C02_dense_degree q) j).1 hq
  have hp0 : descPoly p.terms ≠ 0 := fun h => by rw [h] at hp'; simp at hp'
  obtain ⟨r, hr, er⟩ := (C11_dense_mul_partial p q (Or.inl hp0)).1
  refine ⟨⟨r, hr, ?_, ?_⟩, ?_⟩
  · rw [C02_dense_degree, er]
    refine (degree_mul_le _ _).trans ?_
    rw [hp', hq']; exact le_rfl
  · intro _
    rw [Degree.num_iff (C02_dense_degree r), er, degree_mul, hp', hq']; rfl
  · intro _ n
    have : Nontrivial R := by
      by_contra hc
      rw [not_nontrivial_iff_subsingleton] at hc
      exact hp0 (Subsingleton.elim _ _)
    obtain ⟨r, hr, er⟩ := C12_dense_pow_partial p n hp0
    refine ⟨r, hr, ?_⟩
    rw [Degree.num_iff (C02_dense_degree r), er, degree_pow, hp', nsmul_eq_mul]; rfl

/-- C110 (Polynomial): `>> k` of a value without leading zeros lowers the degree by `k`, or gives zero. -/
theorem C110_dense_shr_degree (p : Poly R) (hp : p.trim = p) (i : Nat) (hi : p.degree = .num i) (k : Nat) :
    ∃ r, p.shr (k : Int) = .ok r ∧ (k ≤ i → r.degree = .num (i - k)) ∧ (i < k → r.degree = .negInf) := by
  rw [Degree.num_iff (C02_dense_degree _)] at hi
  obtain ⟨r, hr, er⟩ := C14_dense_shr_trimmed p hp k
  refine ⟨r, hr, fun hk => ?_, fun hk => ?_⟩
  · rw [Degree.num_iff (C02_dense_degree _)]; exact (er.degree hi).1 hk
  · rw [Degree.negInf_iff (C02_dense_degree _)]; exact (er.degree hi).2 hk

/-- C110 (Polynomial): `<< k` raises the degree by `k`. -/
theorem C110_dense_shl_degree (p : Poly R) (i : Nat) (hp : p.degree = .num i) (k : Nat) :
    ∃ r, p.shl (k : Int) = .ok r ∧ r.degree = .num (i + k) := by
  have hp' := (Degree.num_iff (C02_dense_degree p) i).1 hp
  have : Nontrivial R := by
    by_contra hc
    rw [not_nontrivial_iff_subsingleton] at hc
    rw [Subsingleton.elim (descPoly p.terms) 0] at hp'; simp at hp'
  obtain ⟨r, hr, er⟩ := (C14_dense_shl p k).1 (by omega)
  refine ⟨r, hr, ?_⟩
  rw [Degree.num_iff (C02_dense_degree r), er, degree_mul_X_pow, hp']; simp

/-- C110 (Polynomial): differentiation lowers the degree by one and makes constants vanish, in a domain
of characteristic zero. -/
theorem C110_dense_derivative_degree [NoZeroDivisors R] [CharZero R] [FromUsizeCont R] [LawfulFromUsizeCont R]
    (p r : Poly R) (h : p.derivative = .ok r) :
    (∀ n, p.degree = .num (n + 1) → r.degree = .num n) ∧
    (p.degree = .num 0 → r.degree = .negInf) ∧ (p.degree = .negInf → r.degree = .negInf) := by
  have e := derivative_ok h
  refine ⟨fun n hn => ?_, fun h0 => ?_, fun h0 => ?_⟩
  · rw [Degree.num_iff (C02_dense_degree _)] at hn ⊢
    rw [e]; exact degree_derivative_succ hn
  · rw [Degree.num_iff (C02_dense_degree _)] at h0
    rw [Degree.negInf_iff (C02_dense_degree _), e, eq_C_of_degree_eq_zero h0, derivative_C]
  · rw [Degree.negInf_iff (C02_dense_degree _)] at h0 ⊢
    rw [e, h0, derivative_zero]

end Dense

section DenseIntegral
variable {K : Type} [Field K] [CharZero K] [NumZero K] [LawfulNumZero K] [RDiv K] [LawfulRDiv K]
  [FromUsizeCont K] [LawfulFromUsizeCont K]

/-- C110 (Polynomial): integration raises the degree by one, and keeps zero. -/
theorem C110_dense_integral_degree (p : Poly K)
    (h : (tryFromCont (Poly.new p.terms).terms.length : Option K) ≠ none) :
    ∃ r, p.integral = .ok r ∧ (∀ n, p.degree = .num n → r.degree = .num (n + 1)) ∧
      (p.degree = .negInf → r.degree = .negInf) := by
  obtain ⟨r, hr, e, z⟩ := C18_dense_integral p h
  refine ⟨r, hr, fun n hn => ?_, fun h0 => ?_⟩
  · rw [Degree.num_iff (C02_dense_degree _)] at hn ⊢
    exact degree_of_derivative e hn
  · rw [Degree.negInf_iff (C02_dense_degree _)] at h0 ⊢
    apply eq_of_derivative_eq
    · rw [e, h0, derivative_zero]
    · rw [z, coeff_zero]

end DenseIntegral

example : (do let s ← (⟨[1, 2, 0]⟩ : Poly ℤ).mul ⟨[0, 3, 4]⟩; .ok s.degree) = .ok (.num 3) ∧
    (do let s ← (⟨[1, 2, 0]⟩ : Poly ℤ).add ⟨[-1, 3, 4]⟩; .ok s.degree) = .ok (.num 1) ∧
    (do let s ← (⟨[1, 2, 0]⟩ : Poly ℤ).derivative; .ok s.degree) = .ok (.num 1) ∧
    (do let s ← (⟨[1, 2, 0]⟩ : Poly ℤ).pow 4; .ok s.degree) = .ok (.num 8) ∧
    (do let s ← (⟨[1, 2, 0]⟩ : Poly ℚ).integral; .ok s.degree) = .ok (.num 3) := by decide +kernel

/-! ## SparsePolynomial -/

section Sparse
variable {R : Type} [CommRing R] [NumZero R] [LawfulNumZero R]

/-- C110 (SparsePolynomial): sums, differences, negation. -/
theorem C110_sparse_add_degree (p q : Sparse R) :
    p.neg.degree = p.degree ∧
    (p.add q).degree.toWithBot ≤ max p.degree.toWithBot q.degree.toWithBot ∧
    (p.degree.toWithBot < q.degree.toWithBot → (p.add q).degree = q.degree) ∧
    (q.degree.toWithBot < p.degree.toWithBot → (p.add q).degree = p.degree) ∧
    (p.sub q).degree.toWithBot ≤ max p.degree.toWithBot q.degree.toWithBot ∧
    (p.degree.toWithBot < q.degree.toWithBot → (p.sub q).degree = q.degree) ∧
    (q.degree.toWithBot < p.degree.toWithBot → (p.sub q).degree = p.degree) := by
  have ha := (C25_sparse_add p q).1
  have hs := C25_sparse_sub p q
  refine ⟨?_, ?_, ?_, ?_, ?_, ?_, ?_⟩
  · apply Degree.toWithBot_inj
    rw [C02_sparse_degree, C02_sparse_degree, C10_sparse_neg, degree_neg]
  · simp only [C02_sparse_degree, ha]; exact degree_add_le _ _
  · intro h; apply Degree.toWithBot_inj
    simp only [C02_sparse_degree, ha] at h ⊢; exact degree_add_eq_right_of_degree_lt h
  · intro h; apply Degree.toWithBot_inj
    simp only [C02_sparse_degree, ha] at h ⊢; exact degree_add_eq_left_of_degree_lt h
  · simp only [C02_sparse_degree, hs]; exact degree_sub_le _ _
  · intro h; apply Degree.toWithBot_inj
    simp only [C02_sparse_degree, hs] at h ⊢; exact degree_sub_eq_right_of_degree_lt h
  · intro h; apply Degree.toWithBot_inj
    simp only [C02_sparse_degree, hs] at h ⊢; exact degree_sub_eq_left_of_degree_lt h

/-- C110 (SparsePolynomial): products, powers and shifts. A product with zero has degree `-∞`. -/
theorem C110_sparse_mul_degree [NoZeroDivisors R] (p q : Sparse R) :
    (∀ i j, p.degree = .num i → q.degree = .num j → (p.mul q).degree = .num (i + j)) ∧
    (p.degree = .negInf ∨ q.degree = .negInf → (p.mul q).degree = .negInf) ∧
    (∀ i n, p.degree = .num i → (p.pow n).degree = .num (n * i)) ∧
    (∀ i k, p.degree = .num i → ∃ r, p.shl (k : Nat) = .ok r ∧ r.degree = .num (i + k)) := by
  refine ⟨fun i j hi hj => ?_, fun h => ?_, fun i n hi => ?_, fun i k hi => ?_⟩
  · rw [Degree.num_iff (C02_sparse_degree _)] at hi hj ⊢
    rw [C26_sparse_mul, degree_mul, hi, hj]; rfl
  · rw [Degree.negInf_iff (C02_sparse_degree _), Degree.negInf_iff (C02_sparse_degree _)] at h
    rw [Degree.negInf_iff (C02_sparse_degree _), C26_sparse_mul, mul_eq_zero]; exact h
  · rw [Degree.num_iff (C02_sparse_degree _)] at hi ⊢
    have : Nontrivial R := by
      by_contra hc
      rw [not_nontrivial_iff_subsingleton] at hc
      rw [Subsingleton.elim (entriesPoly p.terms.entries) 0] at hi; simp at hi
    rw [C26_sparse_pow, degree_pow, hi, nsmul_eq_mul]; rfl
  · rw [Degree.num_iff (C02_sparse_degree _)] at hi
    have : Nontrivial R := by
      by_contra hc
      rw [not_nontrivial_iff_subsingleton] at hc
      rw [Subsingleton.elim (entriesPoly p.terms.entries) 0] at hi; simp at hi
    obtain ⟨⟨r, hr, er, _⟩, _⟩ := C15_sparse_shift_partial p (k : Int) (by omega)
    refine ⟨r, hr, ?_⟩
    rw [Degree.num_iff (C02_sparse_degree _), er (by omega), degree_mul_X_pow, hi]; simp

/-- C110 (SparsePolynomial): `>> k` lowers the degree by `k`, or gives zero. -/
theorem C110_sparse_shr_degree (p : Sparse R) (i : Nat) (hi : p.degree = .num i) (k : Nat) :
    ∃ r, p.shr (k : Int) = .ok r ∧ (k ≤ i → r.degree = .num (i - k)) ∧ (i < k → r.degree = .negInf) := by
  rw [Degree.num_iff (C02_sparse_degree _)] at hi
  obtain ⟨_, r, hr, er, _⟩ := C15_sparse_shift_partial p (k : Int) (by omega)
  have er := er (by omega)
  simp only [Int.toNat_natCast] at er
  refine ⟨r, hr, fun hk => ?_, fun hk => ?_⟩
  · rw [Degree.num_iff (C02_sparse_degree _)]; exact (er.degree hi).1 hk
  · rw [Degree.negInf_iff (C02_sparse_degree _)]; exact (er.degree hi).2 hk

/-- C110 (SparsePolynomial): differentiation. -/
theorem C110_sparse_derivative_degree [NoZeroDivisors R] [CharZero R] [FromUsizeExact R] [LawfulFromUsizeExact R]
    (ht : ∀ n, (tryFromExact n : Option R) ≠ none) (p : Sparse R) :
    ∃ r, p.derivative = .ok r ∧ (∀ n, p.degree = .num (n + 1) → r.degree = .num n) ∧
    (p.degree = .num 0 → r.degree = .negInf) ∧ (p.degree = .negInf → r.degree = .negInf) := by
  obtain ⟨r, hr, e⟩ := sparse_derivative_total ht p
  refine ⟨r, hr, fun n hn => ?_, fun h0 => ?_, fun h0 => ?_⟩
  · rw [Degree.num_iff (C02_sparse_degree _)] at hn ⊢
    rw [e]; exact degree_derivative_succ hn
  · rw [Degree.num_iff (C02_sparse_degree _)] at h0
    rw [Degree.negInf_iff (C02_sparse_degree _), e, eq_C_of_degree_eq_zero h0, derivative_C]
  · rw [Degree.negInf_iff (C02_sparse_degree _)] at h0 ⊢
    rw [e, h0, derivative_zero]

/-- C110 (SparsePolynomial): integration. -/
theorem C110_sparse_integral_degree {K : Type} [Field K] [CharZero K] [NumZero K] [LawfulNumZero K] [RDiv K]
    [LawfulRDiv K] [FromUsizeExact K] [LawfulFromUsizeExact K] (ht : ∀ n, (tryFromExact n : Option K) ≠ none)
    (p : Sparse K) :
    ∃ r, p.integral = .ok r ∧ (∀ n, p.degree = .num n → r.degree = .num (n + 1)) ∧
      (p.degree = .negInf → r.degree = .negInf) := by
  obtain ⟨r, hr, e, z⟩ := C18_sparse_integral p (fun _ _ => ht _)
  refine ⟨r, hr, fun n hn => ?_, fun h0 => ?_⟩
  · rw [Degree.num_iff (C02_sparse_degree _)] at hn ⊢
    exact degree_of_derivative e hn
  · rw [Degree.negInf_iff (C02_sparse_degree _)] at h0 ⊢
    apply eq_of_derivative_eq
    · rw [e, h0, derivative_zero]
    · rw [z, coeff_zero]

end Sparse

example : ((Sparse.fromVec [(1 : ℤ), 0, 2]).mul (Sparse.fromVec [(0 : ℤ), 3, 4])).degree = .num 3 ∧
    ((Sparse.fromVec [(1 : ℤ), 0, 2]).sub (Sparse.fromVec [(1 : ℤ), 3, 4])).degree = .num 1 ∧
    ((Sparse.fromVec [(1 : ℤ), 0, 2]).pow 3).degree = .num 6 := by decide +kernel

/-! ## Fixed-size types -/

section Fixed
variable {R : Type} [CommRing R] [NumZero R] [LawfulNumZero R]

/-- C110 (Monomial): products, negation and shifts of monomials. -/
theorem C110_monomial_degree [NoZeroDivisors R] (a b : Monomial R) (i j : Nat) (ha : a.degree = .num i)
    (hb : b.degree = .num j) :
    (a.mul b).degree = .num (i + j) ∧ a.neg.degree = .num i ∧
    (∀ k : Nat, ∃ r, a.shl (k : Int) = .ok r ∧ r.degree = .num (i + k)) ∧
    (∀ k : Nat, ∃ r, a.shr (k : Int) = .ok r ∧ (k ≤ i → r.degree = .num (i - k)) ∧
      (i < k → r.degree = .negInf)) := by
  have hnt : Nontrivial R := by
    by_contra hc
    rw [not_nontrivial_iff_subsingleton] at hc
    rw [Degree.num_iff (C02_monomial_degree _), Subsingleton.elim a.poly 0] at ha; simp at ha
  rw [Degree.num_iff (C02_monomial_degree _)] at ha hb
  refine ⟨?_, ?_, fun k => ?_, fun k => ?_⟩
  · rw [Degree.num_iff (C02_monomial_degree _), C50_monomial_mul, degree_mul, ha, hb]; rfl
  · rw [Degree.num_iff (C02_monomial_degree _), (C10_monomial_neg a).1, degree_neg, ha]
  · obtain ⟨⟨r, hr, er, _⟩, _⟩ := C15_monomial_shift_partial a (k : Int) (by omega)
    refine ⟨r, hr, ?_⟩
    rw [Degree.num_iff (C02_monomial_degree _), er (by omega), degree_mul_X_pow, ha]; simp
  · obtain ⟨_, r, hr, er, _⟩ := C15_monomial_shift_partial a (k : Int) (by omega)
    have er := er (by omega)
    simp only [Int.toNat_natCast] at er
    refine ⟨r, hr, fun hk => ?_, fun hk => ?_⟩
    · rw [Degree.num_iff (C02_monomial_degree _)]; exact (er.degree ha).1 hk
    · rw [Degree.negInf_iff (C02_monomial_degree _)]; exact (er.degree ha).2 hk

/-- C110 (LinearBinomial, QuadraticTrinomial): the derivative of a linear binomial is a constant; of a
quadratic trinomial of degree `n + 1` it has degree `n`, in a domain of characteristic zero. -/
theorem C110_fixed_derivative_degree [NoZeroDivisors R] [CharZero R] [FromUsizeExact R] [LawfulFromUsizeExact R]
    (m : Monomial R) (b : LinearBinomial R) (t : QuadraticTrinomial R) :
    (∀ r, m.derivative = .ok r → (∀ n, m.degree = .num (n + 1) → r.degree = .num n) ∧
      (m.degree = .num 0 ∨ m.degree = .negInf → r.degree = .negInf)) ∧
    ((∀ n, b.degree = .num (n + 1) → b.derivative.degree = .num n) ∧
      (b.degree = .num 0 ∨ b.degree = .negInf → b.derivative.degree = .negInf)) ∧
    (∀ r, t.derivative = .ok r → (∀ n, t.degree = .num (n + 1) → r.degree = .num n) ∧
      (t.degree = .num 0 ∨ t.degree = .negInf → r.degree = .negInf)) := by
  have key : ∀ (d e : Degree) (P : R[X]), d.toWithBot = P.degree → e.toWithBot = (Polynomial.derivative P).degree →
      (∀ n, d = .num (n + 1) → e = .num n) ∧ (d = .num 0 ∨ d = .negInf → e = .negInf) := by
    intro d e P hd he
    refine ⟨fun n hn => ?_, fun h0 => ?_⟩
    · rw [Degree.num_iff hd] at hn
      rw [Degree.num_iff he]; exact degree_derivative_succ hn
    · rw [Degree.num_iff hd, Degree.negInf_iff hd] at h0
      rw [Degree.negInf_iff he]
      rcases h0 with h0 | h0
      · rw [eq_C_of_degree_eq_zero h0, derivative_C]
      · rw [h0, derivative_zero]
  refine ⟨fun r hr => ?_, ?_, fun r hr => ?_⟩
  · refine key _ _ m.poly (C02_monomial_degree _) ?_
    rw [C02_monomial_degree]
    by_cases h : m.poly ≠ 0 ∧ m.deg ≠ 0 ∧ (tryFromExact m.deg : Option R) = none
    · rw [(C17_monomial_derivative m).1 h.1 h.2.1 h.2.2] at hr; cases hr
    · obtain ⟨r', h1, h2⟩ := (C17_monomial_derivative m).2 (fun h1 h2 h3 => h ⟨h1, h2, h3⟩)
      rw [hr] at h1; cases h1; rw [h2]
  · refine key _ _ b.poly (C02_binomial_degree _) ?_
    rw [C02_binomial_degree, C17_binomial_derivative]
  · refine key _ _ t.poly (C02_trinomial_degree _) ?_
    rw [C02_trinomial_degree]
    by_cases h : (tryFromExact 2 : Option R) = none
    · simp [QuadraticTrinomial.derivative, h] at hr
    · obtain ⟨r', h1, h2⟩ := C17_trinomial_derivative t h
      rw [hr] at h1; cases h1; rw [h2]

/-- C110 (LinearBinomial, QuadraticTrinomial): sums, differences, negation. -/
theorem C110_fixed_sum_degree (a b : LinearBinomial R) (s t : QuadraticTrinomial R) :
    (a.neg.degree = a.degree ∧ (a.add b).degree.toWithBot ≤ max a.degree.toWithBot b.degree.toWithBot ∧
      (a.degree.toWithBot < b.degree.toWithBot → (a.add b).degree = b.degree) ∧
      (b.degree.toWithBot < a.degree.toWithBot → (a.add b).degree = a.degree) ∧
      (a.sub b).degree.toWithBot ≤ max a.degree.toWithBot b.degree.toWithBot ∧
      (a.degree.toWithBot < b.degree.toWithBot → (a.sub b).degree = b.degree) ∧
      (b.degree.toWithBot < a.degree.toWithBot → (a.sub b).degree = a.degree)) ∧
    (s.neg.degree = s.degree ∧ (s.add t).degree.toWithBot ≤ max s.degree.toWithBot t.degree.toWithBot ∧
      (s.degree.toWithBot < t.degree.toWithBot → (s.add t).degree = t.degree) ∧
      (t.degree.toWithBot < s.degree.toWithBot → (s.add t).degree = s.degree) ∧
      (s.sub t).degree.toWithBot ≤ max s.degree.toWithBot t.degree.toWithBot ∧
      (s.degree.toWithBot < t.degree.toWithBot → (s.sub t).degree = t.degree) ∧
      (t.degree.toWithBot < s.degree.toWithBot → (s.sub t).degree = s.degree)) := by
  have key : ∀ (n d e x y : Degree) (P Q : R[X]), d.toWithBot = P.degree → e.toWithBot = Q.degree → n.toWithBot = (-P).degree →
      x.toWithBot = (P + Q).degree → y.toWithBot = (P - Q).degree →
      n = d ∧ x.toWithBot ≤ max d.toWithBot e.toWithBot ∧ (d.toWithBot < e.toWithBot → x = e) ∧ (e.toWithBot < d.toWithBot → x = d) ∧
      y.toWithBot ≤ max d.toWithBot e.toWithBot ∧ (d.toWithBot < e.toWithBot → y = e) ∧ (e.toWithBot < d.toWithBot → y = d) := by
    have inj : ∀ {d e : Degree}, d.toWithBot = e.toWithBot → d = e := by
      intro d e h
      cases d <;> cases e <;> simp_all [Degree.toWithBot]
    intro n d e x y P Q hd he hn hx hy
    refine ⟨inj (by rw [hn, degree_neg, hd]), ?_, fun h => inj ?_, fun h => inj ?_, ?_, fun h => inj ?_, fun h => inj ?_⟩
    · rw [hx, hd, he]; exact degree_add_le _ _
    · rw [hd, he] at h; rw [hx, he, degree_add_eq_right_of_degree_lt h]
    · rw [hd, he] at h; rw [hx, hd, degree_add_eq_left_of_degree_lt h]
    · rw [hy, hd, he]; exact degree_sub_le _ _
    · rw [hd, he] at h; rw [hy, he, degree_sub_eq_right_of_degree_lt h]
    · rw [hd, he] at h; rw [hy, hd, degree_sub_eq_left_of_degree_lt h]
  refine ⟨key _ _ _ _ _ a.poly b.poly (C02_binomial_degree _) (C02_binomial_degree _) ?_ ?_ ?_,
    key _ _ _ _ _ s.poly t.poly (C02_trinomial_degree _) (C02_trinomial_degree _) ?_ ?_ ?_⟩
  · rw [C02_binomial_degree, (C10_binomial_neg a).1]
  · rw [C02_binomial_degree, (C51_binomial_add_sub a b).1]
  · rw [C02_binomial_degree, (C51_binomial_add_sub a b).2]
  · rw [C02_trinomial_degree, (C10_trinomial_neg s).1]
  · rw [C02_trinomial_degree, (C51_trinomial_add_sub s t).1]
  · rw [C02_trinomial_degree, (C51_trinomial_add_sub s t).2]

/-- C110 (LinearBinomial, QuadraticTrinomial): `>> k` and `>>= k` lower the degree by `k`, or give zero. -/
theorem C110_fixed_shr_degree (b : LinearBinomial R) (t : QuadraticTrinomial R) (i k : Nat) :
    (b.degree = .num i → b.shrAssign k = b.shr k ∧ (k ≤ i → (b.shr k).degree = .num (i - k)) ∧ (i < k → (b.shr k).degree = .negInf)) ∧
    (t.degree = .num i → t.shrAssign k = t.shr k ∧ (k ≤ i → (t.shr k).degree = .num (i - k)) ∧ (i < k → (t.shr k).degree = .negInf)) := by
  refine ⟨fun h => ?_, fun h => ?_⟩
  · rw [Degree.num_iff (C02_binomial_degree _)] at h
    obtain ⟨h1, h2⟩ := C15_binomial_shr b k
    rw [Degree.num_iff (C02_binomial_degree _), Degree.negInf_iff (C02_binomial_degree _)]
    exact ⟨h2, h1.degree h⟩
  · rw [Degree.num_iff (C02_trinomial_degree _)] at h
    obtain ⟨h1, h2⟩ := C15_trinomial_shr t k
    rw [Degree.num_iff (C02_trinomial_degree _), Degree.negInf_iff (C02_trinomial_degree _)]
    exact ⟨h2, h1.degree h⟩

/-- C110 (Monomial): the degree of a power, for exponents below the bound up to which `upow` is exponentiation (C50). -/
theorem C110_monomial_pow_degree [NoZeroDivisors R] [PowUsize R] [hl : LawfulPowUsize R] (m : Monomial R) (i n : Nat) (h : n < hl.bound)
    (hm : m.degree = .num i) : (m.pow n).degree = .num (n * i) := by
  rw [Degree.num_iff (C02_monomial_degree _)] at hm ⊢
  have : Nontrivial R := by
    by_contra hc
    rw [not_nontrivial_iff_subsingleton] at hc
    rw [Subsingleton.elim m.poly 0] at hm; simp at hm
  rw [C50_monomial_pow_partial m n h, degree_pow, hm, nsmul_eq_mul]
  rfl

/-- C110 (Monomial, LinearBinomial, QuadraticTrinomial): the integral has degree one more; that of zero is zero. -/
theorem C110_fixed_integral_degree {K : Type} [Field K] [CharZero K] [NumZero K] [LawfulNumZero K] [RDiv K] [LawfulRDiv K]
    [FromUsizeExact K] [LawfulFromUsizeExact K] [FromUsizeCont K] [LawfulFromUsizeCont K]
    (he : ∀ n, (tryFromExact n : Option K) ≠ none) (hc : (tryFromCont 2 : Option K) ≠ none)
    (m : Monomial K) (b : LinearBinomial K) (t : QuadraticTrinomial K) :
    (∃ r, m.integral = .ok r ∧ (∀ n, m.degree = .num n → r.degree = .num (n + 1)) ∧ (m.degree = .negInf → r.degree = .negInf)) ∧
    (∃ r, b.integral = .ok r ∧ (∀ n, b.degree = .num n → r.degree = .num (n + 1)) ∧ (b.degree = .negInf → r.degree = .negInf)) ∧
    (∃ r, t.integral = .ok r ∧ (∀ n, t.degree = .num n → r.degree = .num (n + 1)) ∧ (t.degree = .negInf → r.degree = .negInf)) := by
  have key : ∀ (d e : Degree) (P F : K[X]), d.toWithBot = P.degree → e.toWithBot = F.degree → Polynomial.derivative F = P → F.coeff 0 = 0 →
      (∀ n, d = .num n → e = .num (n + 1)) ∧ (d = .negInf → e = .negInf) := by
    intro d e P F hd he h z
    refine ⟨fun n hn => ?_, fun h0 => ?_⟩
    · rw [Degree.num_iff hd] at hn
      rw [Degree.num_iff he]; exact degree_of_derivative h hn
    · rw [Degree.negInf_iff hd] at h0
      rw [Degree.negInf_iff he]
      apply eq_of_derivative_eq
      · rw [h, h0, derivative_zero]
      · rw [z, coeff_zero]
  refine ⟨?_, ?_, ?_⟩
  · obtain ⟨r, hr, e, z⟩ := C18_monomial_integral m (fun _ => he _)
    exact ⟨r, hr, key _ _ _ _ (C02_monomial_degree _) (C02_sparse_degree _) e z⟩
  · obtain ⟨r, hr, e, z⟩ := C18_binomial_integral b hc
    exact ⟨r, hr, key _ _ _ _ (C02_binomial_degree _) (C02_dense_degree _) e z⟩
  · obtain ⟨r, hr, e, z⟩ := C18_trinomial_integral t (he _) (he _)
    exact ⟨r, hr, key _ _ _ _ (C02_trinomial_degree _) (C02_dense_degree _) e z⟩

end Fixed

example : ((⟨2, 3⟩ : LinearBinomial ℤ).sub ⟨2, 1⟩).degree = .num 0 ∧ ((⟨0, 3⟩ : LinearBinomial ℤ).add ⟨2, 1⟩).degree = .num 1 ∧
    ((⟨2, 3, 4⟩ : QuadraticTrinomial ℤ).sub ⟨2, 3, 4⟩).degree = .negInf ∧ ((⟨2, 3, 4⟩ : QuadraticTrinomial ℤ).shr 1).degree = .num 1 ∧
    ((⟨0, 3, 4⟩ : QuadraticTrinomial ℤ).shr 2).degree = .negInf ∧ ((⟨2, 3⟩ : Monomial ℤ).pow 4).degree = .num 12 ∧
    (⟨6, 4⟩ : LinearBinomial ℚ).integral = .ok ⟨[3, 4, 0]⟩ := by decide +kernel

example : ((⟨3, 4⟩ : Monomial ℤ).mul ⟨-2, 5⟩).degree = .num 9 ∧ (⟨3, 4⟩ : Monomial ℤ).derivative = .ok ⟨12, 3⟩ ∧
    (⟨0, 7⟩ : LinearBinomial ℤ).derivative.degree = .negInf ∧
    (⟨[0, 5]⟩ : Poly ℤ).degree = .num 0 := by decide +kernel

end Rustnomial
