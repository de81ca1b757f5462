import Verif.SpecFixed
import Verif.Props.SparseBasic

/-!
# Monomial, LinearBinomial, QuadraticTrinomial: observers, calculus, algebra
(C02 – C05, C07, C10, C13, C15, C17, C18, C50, C51)
-/

open Polynomial

set_option linter.unusedSectionVars false

namespace Rustnomial

section
variable {R : Type} [Semiring R]

theorem LinearBinomial.poly_eq (b : LinearBinomial R) : b.poly = descPoly b.coefficients := by
  simp [LinearBinomial.poly, LinearBinomial.coefficients, descPoly_cons]

theorem QuadraticTrinomial.poly_eq (t : QuadraticTrinomial R) : t.poly = descPoly t.coefficients := by
  simp [QuadraticTrinomial.poly, QuadraticTrinomial.coefficients, descPoly_cons, add_assoc]

theorem Monomial.poly_eq_zero (m : Monomial R) : m.poly = 0 ↔ m.coefficient = 0 := by
  rw [Monomial.poly, C_mul_X_pow_eq_monomial, monomial_eq_zero_iff]

theorem Monomial.coeff_poly (m : Monomial R) (d : Nat) :
    m.poly.coeff d = if d = m.deg then m.coefficient else 0 := by
  rw [Monomial.poly, coeff_C_mul, coeff_X_pow]; split <;> simp

end

section
variable {R : Type} [Semiring R] [NumZero R] [LawfulNumZero R]

/-! ## C02 – degree -/

/-- C02 (Monomial): the stale degree of a zero monomial is ignored. -/
theorem C02_monomial_degree (m : Monomial R) : m.degree.toWithBot = m.poly.degree := by
  unfold Monomial.degree Monomial.poly
  by_cases h : m.coefficient = 0
  · simp [h, Degree.toWithBot]
  · have hz : isZero m.coefficient = false := by simpa using h
    rw [degree_C_mul_X_pow _ h]; simp [hz, Degree.toWithBot]

/-- C02 (LinearBinomial). -/
theorem C02_binomial_degree (b : LinearBinomial R) : b.degree.toWithBot = b.poly.degree := by
  have : b.degree = (⟨b.coefficients⟩ : Poly R).degree := by
    unfold Poly.degree
    rw [denseDegree_eq]
    unfold LinearBinomial.degree LinearBinomial.coefficients
    cases h0 : isZero b.c0 <;> cases h1 : isZero b.c1 <;> simp [h0, h1]
  rw [this, C02_dense_degree, b.poly_eq]

/-- C02 (QuadraticTrinomial). -/
theorem C02_trinomial_degree (t : QuadraticTrinomial R) : t.degree.toWithBot = t.poly.degree := by
  have : t.degree = (⟨t.coefficients⟩ : Poly R).degree := by
    unfold Poly.degree
    rw [denseDegree_eq]
    unfold QuadraticTrinomial.degree QuadraticTrinomial.coefficients
    cases h0 : isZero t.c0 <;> cases h1 : isZero t.c1 <;> cases h2 : isZero t.c2 <;>
      simp [h0, h1, h2]
  rw [this, C02_dense_degree, t.poly_eq]

/-- C02: `is_zero()` of the three types. -/
theorem C02_fixed_is_zero (m : Monomial R) (b : LinearBinomial R) (t : QuadraticTrinomial R) :
    (m.isZeroPoly = true ↔ m.poly = 0) ∧ (b.isZeroPoly = true ↔ b.poly = 0) ∧
    (t.isZeroPoly = true ↔ t.poly = 0) := by
  refine ⟨?_, ?_, ?_⟩
  · rw [← Polynomial.degree_eq_bot, ← C02_monomial_degree]
    unfold Monomial.isZeroPoly Degree.isZeroPoly
    cases m.degree <;> simp [Degree.toWithBot]
  · rw [← Polynomial.degree_eq_bot, ← C02_binomial_degree]
    unfold LinearBinomial.isZeroPoly Degree.isZeroPoly
    cases b.degree <;> simp [Degree.toWithBot]
  · rw [← Polynomial.degree_eq_bot, ← C02_trinomial_degree]
    unfold QuadraticTrinomial.isZeroPoly Degree.isZeroPoly
    cases t.degree <;> simp [Degree.toWithBot]

/-- C02: `zero()` and `set_to_zero()` of the three types give the zero polynomial. -/
theorem C02_fixed_zero (m : Monomial R) (b : LinearBinomial R) (t : QuadraticTrinomial R) :
    (Monomial.zero : Monomial R).poly = 0 ∧ m.setToZero.poly = 0 ∧
    (LinearBinomial.zero : LinearBinomial R).poly = 0 ∧ b.setToZero.poly = 0 ∧
    (QuadraticTrinomial.zero : QuadraticTrinomial R).poly = 0 ∧ t.setToZero.poly = 0 := by
  simp [Monomial.poly, Monomial.zero, Monomial.new, Monomial.setToZero, LinearBinomial.poly,
    LinearBinomial.zero, LinearBinomial.new, LinearBinomial.setToZero, QuadraticTrinomial.poly,
    QuadraticTrinomial.zero, QuadraticTrinomial.new, QuadraticTrinomial.setToZero]

example : (⟨0, 7⟩ : Monomial ℤ).degree = .negInf ∧ (⟨3, 7⟩ : Monomial ℤ).degree = .num 7 ∧
    (⟨0, 7⟩ : LinearBinomial ℤ).degree = .num 0 ∧ (⟨0, 2, 0⟩ : QuadraticTrinomial ℤ).degree = .num 1 := by
  decide

/-! ## C03 – term iteration -/

/-- C03 (Monomial). -/
theorem C03_monomial_terms (m : Monomial R) :
    IsTermListOf m.orderedTermIter m.poly ∧ m.termsAsVec = m.orderedTermIter := by
  refine ⟨?_, rfl⟩
  unfold Monomial.orderedTermIter
  by_cases h : m.coefficient = 0
  · rw [if_pos (by simpa using h), (m.poly_eq_zero).2 h]
    refine ⟨List.Pairwise.nil, fun c d => ?_⟩
    simp only [List.not_mem_nil, coeff_zero, false_iff, not_and]
    exact fun hc h0 => hc h0.symm
  · rw [if_neg (by simpa using h)]
    refine ⟨List.pairwise_singleton _ _, fun c d => ?_⟩
    rw [List.mem_singleton, Prod.mk.injEq, m.coeff_poly]
    constructor
    · rintro ⟨rfl, rfl⟩; exact ⟨h, if_pos rfl⟩
    · rintro ⟨hc, hd⟩
      split at hd
      · rename_i e; exact ⟨hd.symm, e⟩
      · exact absurd hd.symm hc

/-- C03 (LinearBinomial). -/
theorem C03_binomial_terms (b : LinearBinomial R) :
    IsTermListOf b.orderedTermIter b.poly ∧ b.termsAsVec = b.orderedTermIter := by
  refine ⟨?_, rfl⟩
  rw [b.poly_eq]
  have : b.orderedTermIter = descTerms b.coefficients :=
    zipIdx_filterMap_eq b.coefficients 1 0 rfl
  rw [this]; exact isTermListOf_descTerms _

/-- C03 (QuadraticTrinomial). -/
theorem C03_trinomial_terms (t : QuadraticTrinomial R) :
    IsTermListOf t.orderedTermIter t.poly ∧ t.termsAsVec = t.orderedTermIter := by
  refine ⟨?_, rfl⟩
  rw [t.poly_eq]
  have : t.orderedTermIter = descTerms t.coefficients :=
    zipIdx_filterMap_eq t.coefficients 2 0 rfl
  rw [this]; exact isTermListOf_descTerms _

example : (⟨0, 7⟩ : Monomial ℤ).orderedTermIter = [] ∧ (⟨0, 7⟩ : LinearBinomial ℤ).orderedTermIter = [(7, 0)] ∧
    (⟨4, 0, -1⟩ : QuadraticTrinomial ℤ).orderedTermIter = [(4, 2), (-1, 0)] := by decide

/-! ## C04 – coefficient access -/

/-- C04 (Monomial). -/
theorem C04_monomial_term (m : Monomial R) (d : Nat) :
    (m.poly.coeff d = 0 → m.termWithDegree d = .zeroTerm) ∧
    (m.poly.coeff d ≠ 0 → m.termWithDegree d = .term (m.poly.coeff d) d) := by
  rw [m.coeff_poly]
  unfold Monomial.termWithDegree Term.new
  by_cases h : d = m.deg
  · simp only [if_pos h]
    constructor
    · intro e; rw [if_pos (by simpa using e)]
    · intro e; rw [if_neg (by simpa using e), h]
  · simp [h]

/-- C04 (LinearBinomial). -/
theorem C04_binomial_term (b : LinearBinomial R) (d : Nat) :
    (b.poly.coeff d = 0 → b.termWithDegree d = .zeroTerm) ∧
    (b.poly.coeff d ≠ 0 → b.termWithDegree d = .term (b.poly.coeff d) d) := by
  rw [b.poly_eq]; exact C04_dense_term ⟨b.coefficients⟩ d

/-- C04 (QuadraticTrinomial). -/
theorem C04_trinomial_term (t : QuadraticTrinomial R) (d : Nat) :
    (t.poly.coeff d = 0 → t.termWithDegree d = .zeroTerm) ∧
    (t.poly.coeff d ≠ 0 → t.termWithDegree d = .term (t.poly.coeff d) d) := by
  rw [t.poly_eq]; exact C04_dense_term ⟨t.coefficients⟩ d

example : (⟨5, 7⟩ : Monomial ℤ).termWithDegree 7 = .term 5 7 ∧ (⟨5, 7⟩ : Monomial ℤ).termWithDegree 6 = .zeroTerm ∧
    (⟨1, 7⟩ : LinearBinomial ℤ).termWithDegree 0 = .term 7 0 ∧
    (⟨4, 0, -1⟩ : QuadraticTrinomial ℤ).termWithDegree 2 = .term 4 2 ∧
    (⟨4, 0, -1⟩ : QuadraticTrinomial ℤ).termWithDegree 3 = .zeroTerm := by decide

/-! ## C05 – equality -/

/-- C05 (Monomial): zero monomials are equal whatever their stored degrees. -/
theorem C05_monomial_eq [BEq R] [LawfulBEq R] (m n : Monomial R) :
    m.eq n = true ↔ m.poly = n.poly := by
  unfold Monomial.eq Monomial.asTerm Term.new
  by_cases h : m.coefficient = 0
  · rw [if_pos (by simpa using h)]
    by_cases h' : n.coefficient = 0
    · rw [if_pos (by simpa using h'), (m.poly_eq_zero).2 h, (n.poly_eq_zero).2 h']; simp
    · rw [if_neg (by simpa using h'), (m.poly_eq_zero).2 h]
      simp only [Bool.false_eq_true, false_iff]
      exact fun e => h' ((n.poly_eq_zero).1 e.symm)
  · rw [if_neg (by simpa using h)]
    by_cases h' : n.coefficient = 0
    · rw [if_pos (by simpa using h'), (n.poly_eq_zero).2 h']
      simp only [Bool.false_eq_true, false_iff]
      exact fun e => h ((m.poly_eq_zero).1 e)
    · rw [if_neg (by simpa using h')]
      simp only [Bool.and_eq_true, beq_iff_eq]
      constructor
      · rintro ⟨h1, h2⟩; rw [Monomial.poly, Monomial.poly, h1, h2]
      · intro e
        have hd : m.deg = n.deg := by
          have := congrArg natDegree e
          rwa [Monomial.poly, Monomial.poly, natDegree_C_mul_X_pow _ _ h,
            natDegree_C_mul_X_pow _ _ h'] at this
        refine ⟨?_, hd⟩
        have := congrArg (fun P => P.coeff m.deg) e
        simpa [m.coeff_poly, n.coeff_poly, hd] using this

/-- C05 (LinearBinomial). -/
theorem C05_binomial_eq [BEq R] [LawfulBEq R] (a b : LinearBinomial R) :
    a.eq b = true ↔ a.poly = b.poly := by
  unfold LinearBinomial.eq
  simp only [Bool.and_eq_true, beq_iff_eq]
  constructor
  · rintro ⟨h1, h2⟩; rw [LinearBinomial.poly, LinearBinomial.poly, h1, h2]
  · intro h
    constructor
    · simpa [LinearBinomial.poly, coeff_C] using congrArg (fun P => P.coeff 1) h
    · simpa [LinearBinomial.poly, coeff_C] using congrArg (fun P => P.coeff 0) h

/-- C05 (QuadraticTrinomial). -/
theorem C05_trinomial_eq [BEq R] [LawfulBEq R] (a b : QuadraticTrinomial R) :
    a.eq b = true ↔ a.poly = b.poly := by
  unfold QuadraticTrinomial.eq
  simp only [Bool.and_eq_true, beq_iff_eq]
  constructor
  · rintro ⟨⟨h1, h2⟩, h3⟩; rw [QuadraticTrinomial.poly, QuadraticTrinomial.poly, h1, h2, h3]
  · intro h
    refine ⟨⟨?_, ?_⟩, ?_⟩
    · simpa [QuadraticTrinomial.poly, coeff_C, coeff_X] using congrArg (fun P => P.coeff 2) h
    · simpa [QuadraticTrinomial.poly, coeff_C, coeff_X, coeff_X_pow] using congrArg (fun P => P.coeff 1) h
    · simpa [QuadraticTrinomial.poly, coeff_C, coeff_X, coeff_X_pow] using congrArg (fun P => P.coeff 0) h

/-- C05: `==` is an equivalence relation on the three types. -/
theorem C05_fixed_equivalence [BEq R] [LawfulBEq R] :
    Equivalence (fun p q : Monomial R => p.eq q = true) ∧
    Equivalence (fun p q : LinearBinomial R => p.eq q = true) ∧
    Equivalence (fun p q : QuadraticTrinomial R => p.eq q = true) := by
  refine ⟨?_, ?_, ?_⟩
  · simp only [C05_monomial_eq]; exact ⟨fun _ => rfl, fun h => h.symm, fun h h' => h.trans h'⟩
  · simp only [C05_binomial_eq]; exact ⟨fun _ => rfl, fun h => h.symm, fun h h' => h.trans h'⟩
  · simp only [C05_trinomial_eq]; exact ⟨fun _ => rfl, fun h => h.symm, fun h h' => h.trans h'⟩

example : (⟨0, 7⟩ : Monomial ℤ).eq ⟨0, 3⟩ = true ∧ (⟨1, 7⟩ : Monomial ℤ).eq ⟨1, 3⟩ = false ∧
    (⟨1, 7⟩ : LinearBinomial ℤ).eq ⟨0, 7⟩ = false := by decide

end

/-! ## C07 – evaluation -/

section
variable {R : Type} [CommSemiring R]

/-- C07 (LinearBinomial). -/
theorem C07_binomial_eval (b : LinearBinomial R) (x : R) : b.eval x = b.poly.eval x := by
  simp only [LinearBinomial.eval, LinearBinomial.poly, eval_add, eval_mul, eval_C, eval_X]; ring

/-- C07 (QuadraticTrinomial). -/
theorem C07_trinomial_eval (t : QuadraticTrinomial R) (x : R) : t.eval x = t.poly.eval x := by
  simp only [QuadraticTrinomial.eval, QuadraticTrinomial.poly, eval_add, eval_mul, eval_C, eval_X,
    eval_pow]
  ring

/-- C07 (Monomial), missing: degrees at or above the bound under which `upow` is exponentiation
(2^32 for integers, 2^31 for floats); there it is false, see `C07_monomial_eval_false`. -/
theorem C07_monomial_eval_partial [PowUsize R] [hl : LawfulPowUsize R] (m : Monomial R) (x : R)
    (h : m.deg < hl.bound) : m.eval x = m.poly.eval x := by
  rw [Monomial.eval, LawfulPowUsize.upow_eq _ _ h]; simp [Monomial.poly]

end

/-- C07 is false for monomials as stated: `x^(2^32)` at 2 with integer coefficients gives 1. -/
theorem C07_monomial_eval_false (n : Nat) (hn : n = 2 ^ 32) :
    let m : Monomial ℤ := ⟨1, n⟩
    m.eval 2 = 1 ∧ m.poly.eval 2 ≠ 1 := by
  intro m
  constructor
  · have h0 : n % 2 ^ 32 = 0 := by rw [hn]; exact Nat.mod_self _
    show (1 : ℤ) * (2 : ℤ) ^ (n % 2 ^ 32) = 1
    rw [h0]; rfl
  · have hne : n ≠ 0 := by rw [hn]; norm_num
    have : m.poly.eval 2 = (2 : ℤ) ^ n := by simp [m, Monomial.poly]
    rw [this]
    exact ne_of_gt (one_lt_pow₀ (by norm_num) hne)

example : (⟨2, 3⟩ : Monomial ℤ).eval 5 = 250 ∧ (⟨2, 3⟩ : LinearBinomial ℤ).eval 5 = 13 ∧
    (⟨2, 3, 4⟩ : QuadraticTrinomial ℤ).eval 5 = 69 := by decide

/-! ## C10 – negation -/

section
variable {R : Type} [Ring R]

/-- C10 (Monomial). -/
theorem C10_monomial_neg (m : Monomial R) : m.neg.poly = -m.poly ∧ m.neg.neg = m := by
  cases m; simp [Monomial.neg, Monomial.poly, Monomial.new]

/-- C10 (LinearBinomial). -/
theorem C10_binomial_neg (b : LinearBinomial R) :
    b.neg.poly = -b.poly ∧ b.neg.neg = b ∧ (b.add b.neg).poly = 0 := by
  cases b; refine ⟨?_, ?_, ?_⟩ <;>
  simp [LinearBinomial.neg, LinearBinomial.poly, LinearBinomial.new, LinearBinomial.add]
  abel

/-- C10 (QuadraticTrinomial). -/
theorem C10_trinomial_neg (t : QuadraticTrinomial R) :
    t.neg.poly = -t.poly ∧ t.neg.neg = t ∧ (t.add t.neg).poly = 0 := by
  cases t; refine ⟨?_, ?_, ?_⟩ <;>
  simp [QuadraticTrinomial.neg, QuadraticTrinomial.poly, QuadraticTrinomial.new, QuadraticTrinomial.add]
  abel

example : (⟨4, 0, -1⟩ : QuadraticTrinomial ℤ).neg = ⟨-4, 0, 1⟩ := by decide

/-! ## C51 – addition and subtraction -/

/-- C51 (LinearBinomial). -/
theorem C51_binomial_add_sub (a b : LinearBinomial R) :
    (a.add b).poly = a.poly + b.poly ∧ (a.sub b).poly = a.poly - b.poly := by
  constructor <;>
  simp only [LinearBinomial.add, LinearBinomial.sub, LinearBinomial.poly, LinearBinomial.new, C_add,
    C_sub, add_mul, sub_mul] <;> abel

/-- C51 (QuadraticTrinomial). -/
theorem C51_trinomial_add_sub (a b : QuadraticTrinomial R) :
    (a.add b).poly = a.poly + b.poly ∧ (a.sub b).poly = a.poly - b.poly := by
  constructor <;>
  simp only [QuadraticTrinomial.add, QuadraticTrinomial.sub, QuadraticTrinomial.poly,
    QuadraticTrinomial.new, C_add, C_sub, add_mul, sub_mul] <;> abel

example : (⟨4, 0, -1⟩ : QuadraticTrinomial ℤ).add ⟨1, 2, 3⟩ = ⟨5, 2, 2⟩ ∧
    (⟨4, 0⟩ : LinearBinomial ℤ).sub ⟨1, 2⟩ = ⟨3, -2⟩ := by decide

end

/-! ## C13 – scaling -/

section
variable {R : Type} [CommSemiring R]

/-- C13 (three types): scalar multiplication. -/
theorem C13_fixed_mul_scalar (m : Monomial R) (b : LinearBinomial R) (t : QuadraticTrinomial R) (c : R) :
    (m.mulScalar c).poly = C c * m.poly ∧ (b.mulScalar c).poly = C c * b.poly ∧
    (t.mulScalar c).poly = C c * t.poly := by
  refine ⟨?_, ?_, ?_⟩
  · simp only [Monomial.mulScalar, Monomial.poly, Monomial.new, C_mul]; ring
  · simp only [LinearBinomial.mulScalar, LinearBinomial.poly, LinearBinomial.new, C_mul]; ring
  · simp only [QuadraticTrinomial.mulScalar, QuadraticTrinomial.poly, QuadraticTrinomial.new, C_mul]; ring

end

/-- C13 (three types): scalar division over a field. -/
theorem C13_fixed_div_scalar {K : Type} [Field K] [RDiv K] [LawfulRDiv K] (m : Monomial K)
    (b : LinearBinomial K) (t : QuadraticTrinomial K) (c : K) (hc : c ≠ 0) :
    (∃ r, m.divScalar c = .ok r ∧ C c * r.poly = m.poly) ∧
    (∃ r, b.divScalar c = .ok r ∧ C c * r.poly = b.poly) ∧
    (∃ r, t.divScalar c = .ok r ∧ C c * r.poly = t.poly) := by
  have key : ∀ a : K, (C c : K[X]) * C (a / c) = C a := by
    intro a; rw [← C_mul, mul_div_cancel₀ _ hc]
  refine ⟨⟨_, by rw [Monomial.divScalar, LawfulRDiv.rdiv_eq _ _ hc]; rfl, ?_⟩,
    ⟨_, by rw [LinearBinomial.divScalar, LawfulRDiv.rdiv_eq _ _ hc, LawfulRDiv.rdiv_eq _ _ hc]; rfl, ?_⟩,
    ⟨_, by rw [QuadraticTrinomial.divScalar, LawfulRDiv.rdiv_eq _ _ hc, LawfulRDiv.rdiv_eq _ _ hc,
      LawfulRDiv.rdiv_eq _ _ hc]; rfl, ?_⟩⟩
  · simp only [Monomial.poly, Monomial.new, ← mul_assoc, key]
  · simp only [LinearBinomial.poly, LinearBinomial.new, mul_add, ← mul_assoc, key]
  · simp only [QuadraticTrinomial.poly, QuadraticTrinomial.new, mul_add, ← mul_assoc, key]

/-- C13 (three types, integers): division by a non-zero scalar truncates every coefficient; division
by zero panics. -/
theorem C13_fixed_div_scalar_int (m : Monomial ℤ) (b : LinearBinomial ℤ) (t : QuadraticTrinomial ℤ) (c : ℤ) :
    (c ≠ 0 → (∃ r, m.divScalar c = .ok r ∧ ∀ d, r.poly.coeff d = (m.poly.coeff d).tdiv c) ∧
      (∃ r, b.divScalar c = .ok r ∧ ∀ d, r.poly.coeff d = (b.poly.coeff d).tdiv c) ∧
      (∃ r, t.divScalar c = .ok r ∧ ∀ d, r.poly.coeff d = (t.poly.coeff d).tdiv c)) ∧
    m.divScalar 0 = .panic ∧ b.divScalar 0 = .panic ∧ t.divScalar 0 = .panic := by
  refine ⟨fun hc => ⟨?_, ?_, ?_⟩, rfl, rfl, rfl⟩
  · refine ⟨⟨m.coefficient.tdiv c, m.deg⟩, by simp [Monomial.divScalar, rdiv, hc, Monomial.new], fun d => ?_⟩
    rw [Monomial.coeff_poly, Monomial.coeff_poly]; simp only; split <;> simp
  · refine ⟨⟨b.c0.tdiv c, b.c1.tdiv c⟩, by simp [LinearBinomial.divScalar, rdiv, hc, LinearBinomial.new], fun d => ?_⟩
    rw [LinearBinomial.poly_eq, LinearBinomial.poly_eq, coeff_descPoly, coeff_descPoly]
    rcases d with _ | _ | d <;> simp [LinearBinomial.coefficients]
  · refine ⟨⟨t.c0.tdiv c, t.c1.tdiv c, t.c2.tdiv c⟩,
      by simp [QuadraticTrinomial.divScalar, rdiv, hc, QuadraticTrinomial.new], fun d => ?_⟩
    rw [QuadraticTrinomial.poly_eq, QuadraticTrinomial.poly_eq, coeff_descPoly, coeff_descPoly]
    rcases d with _ | _ | _ | d <;> simp [QuadraticTrinomial.coefficients]

example : (⟨7, 3⟩ : Monomial ℤ).divScalar 2 = .ok ⟨3, 3⟩ ∧
    (⟨4, 0, -1⟩ : QuadraticTrinomial ℤ).mulScalar 3 = ⟨12, 0, -3⟩ := by decide

/-! ## C15 – shifts -/

section
variable {R : Type} [Semiring R]

theorem monomial_shlPos (m : Monomial R) (k : Nat) : (m.shlPos k).poly = m.poly * X ^ k := by
  simp [Monomial.shlPos, Monomial.poly, Monomial.new, pow_add, mul_assoc]

theorem monomial_shrPos (m : Monomial R) (k : Nat) : IsShiftRight m.poly (m.shrPos k).poly k := by
  intro d
  unfold Monomial.shrPos
  split
  · rename_i h
    rw [Monomial.coeff_poly, Monomial.coeff_poly, if_neg (by omega : ¬ d + k = m.deg)]
    exact ite_self _
  · rename_i h
    rw [Monomial.coeff_poly, Monomial.coeff_poly]
    show (if d = m.deg - k then m.coefficient else 0) = _
    by_cases hd : d = m.deg - k
    · rw [if_pos hd, if_pos (by omega)]
    · rw [if_neg hd, if_neg (by omega)]

/-- C15 (Monomial), missing: `k = i32::MIN`, where negating `k` overflows (false there, see
`C15_monomial_shift_false`). -/
theorem C15_monomial_shift_partial (m : Monomial R) (k : Int) (hk : k ≠ -2 ^ 31) :
    (∃ r, m.shl k = .ok r ∧ (0 ≤ k → r.poly = m.poly * X ^ k.toNat) ∧
      (k < 0 → IsShiftRight m.poly r.poly (-k).toNat)) ∧
    (∃ r, m.shr k = .ok r ∧ (0 ≤ k → IsShiftRight m.poly r.poly k.toNat) ∧
      (k < 0 → r.poly = m.poly * X ^ (-k).toNat)) := by
  unfold Monomial.shl Monomial.shr
  by_cases h : k < 0
  · simp only [if_pos h, negI32_ok hk, Res.ok_bind]
    exact ⟨⟨_, rfl, fun h' => by omega, fun _ => monomial_shrPos _ _⟩,
      ⟨_, rfl, fun h' => by omega, fun _ => monomial_shlPos _ _⟩⟩
  · simp only [if_neg h]
    exact ⟨⟨_, rfl, fun _ => monomial_shlPos _ _, fun h' => absurd h' h⟩,
      ⟨_, rfl, fun _ => monomial_shrPos _ _, fun h' => absurd h' h⟩⟩

/-- C15 is false for the shift amount `i32::MIN`: every shift by it panics. -/
theorem C15_monomial_shift_false (m : Monomial R) :
    m.shl (-2 ^ 31) = .panic ∧ m.shr (-2 ^ 31) = .panic := by
  have h : (-2 ^ 31 : Int) < 0 := by norm_num
  unfold Monomial.shl Monomial.shr
  simp only [if_pos h, negI32_min]
  exact ⟨rfl, rfl⟩

/-- C15 (LinearBinomial): `>>` and `>>=` are the quotient by `x^k`. -/
theorem C15_binomial_shr (b : LinearBinomial R) (k : Nat) :
    IsShiftRight b.poly (b.shr k).poly k ∧ b.shrAssign k = b.shr k := by
  constructor
  · intro d
    rw [LinearBinomial.poly_eq, LinearBinomial.poly_eq, coeff_descPoly, coeff_descPoly]
    rcases k with _ | _ | k <;> rcases d with _ | _ | d <;>
      simp [LinearBinomial.coefficients, LinearBinomial.shr, LinearBinomial.new, LinearBinomial.zero]
    rw [List.getElem?_eq_none (by simp; omega)]; rfl
  · rcases k with _ | _ | k <;>
      simp [LinearBinomial.shr, LinearBinomial.shrAssign, LinearBinomial.new, LinearBinomial.zero]

/-- C15 (QuadraticTrinomial): `>>` and `>>=` are the quotient by `x^k`. -/
theorem C15_trinomial_shr (t : QuadraticTrinomial R) (k : Nat) :
    IsShiftRight t.poly (t.shr k).poly k ∧ t.shrAssign k = t.shr k := by
  constructor
  · intro d
    rw [QuadraticTrinomial.poly_eq, QuadraticTrinomial.poly_eq, coeff_descPoly, coeff_descPoly]
    rcases k with _ | _ | _ | k <;> rcases d with _ | _ | _ | d <;>
      simp [QuadraticTrinomial.coefficients, QuadraticTrinomial.shr, QuadraticTrinomial.new,
        QuadraticTrinomial.zero]
    all_goals rw [List.getElem?_eq_none (by simp; omega)]; rfl
  · rcases k with _ | _ | _ | k <;>
      simp [QuadraticTrinomial.shr, QuadraticTrinomial.shrAssign, QuadraticTrinomial.new,
        QuadraticTrinomial.zero]

example : (⟨7, 3⟩ : Monomial ℤ).shr 2 = .ok ⟨7, 1⟩ ∧ (⟨7, 3⟩ : Monomial ℤ).shr 4 = .ok ⟨0, 0⟩ ∧
    (⟨7, 3⟩ : Monomial ℤ).shl (-2) = .ok ⟨7, 1⟩ ∧
    (⟨4, 5, 6⟩ : QuadraticTrinomial ℤ).shr 1 = ⟨0, 4, 5⟩ := by decide

end

/-! ## C17, C18 – derivative and integral -/

section
variable {R : Type} [CommSemiring R] [NumZero R] [LawfulNumZero R] [FromUsizeExact R]

/-- C17 (Monomial): the derivative panics exactly if the monomial is non-zero and its degree is
positive and not representable; otherwise it is the formal derivative. -/
theorem C17_monomial_derivative [LawfulFromUsizeExact R] (m : Monomial R) :
    (m.poly ≠ 0 → m.deg ≠ 0 → (tryFromExact m.deg : Option R) = none → m.derivative = .panic) ∧
    ((m.poly ≠ 0 → m.deg ≠ 0 → (tryFromExact m.deg : Option R) ≠ none) →
      ∃ r, m.derivative = .ok r ∧ r.poly = Polynomial.derivative m.poly) := by
  have hz : (Monomial.zero : Monomial R).poly = 0 := by
    simp [Monomial.zero, Monomial.new, Monomial.poly]
  unfold Monomial.derivative Monomial.degree
  by_cases h : m.coefficient = 0
  · have hp := (m.poly_eq_zero).2 h
    rw [if_pos (by simpa using h)]
    exact ⟨fun h' => absurd hp h', fun _ => ⟨_, rfl, by rw [hz, hp, derivative_zero]⟩⟩
  · have hp : m.poly ≠ 0 := fun e => h ((m.poly_eq_zero).1 e)
    rw [if_neg (by simpa using h)]
    cases hd : m.deg with
    | zero =>
      refine ⟨fun _ h' => absurd rfl h', fun _ => ⟨_, rfl, ?_⟩⟩
      rw [hz, Monomial.poly, hd]; simp
    | succ n =>
      constructor
      · intro _ _ ht
        simp [ht]
      · intro ht
        have := ht hp (by simp)
        cases hx : (tryFromExact (n + 1) : Option R) with
        | none => exact absurd hx this
        | some v =>
          refine ⟨Monomial.new (m.coefficient * v) n, by simp [hx], ?_⟩
          have hv := LawfulFromUsizeExact.tryFromExact_eq _ _ hx
          rw [Monomial.poly, Monomial.poly, hd, derivative_C_mul, derivative_X_pow]
          simp [Monomial.new, hv, mul_assoc]

/-- C17 (LinearBinomial): the formal derivative, never a panic. -/
theorem C17_binomial_derivative (b : LinearBinomial R) :
    b.derivative.poly = Polynomial.derivative b.poly := by
  simp [LinearBinomial.derivative, LinearBinomial.poly, LinearBinomial.new]

/-- C17 (QuadraticTrinomial): the formal derivative whenever 2 is representable. -/
theorem C17_trinomial_derivative [LawfulFromUsizeExact R] (t : QuadraticTrinomial R)
    (h2 : (tryFromExact 2 : Option R) ≠ none) :
    ∃ r, t.derivative = .ok r ∧ r.poly = Polynomial.derivative t.poly := by
  unfold QuadraticTrinomial.derivative
  cases hx : (tryFromExact 2 : Option R) with
  | none => exact absurd hx h2
  | some v =>
    refine ⟨_, rfl, ?_⟩
    have hv := LawfulFromUsizeExact.tryFromExact_eq _ _ hx
    have e : (C 2 : R[X]) = 1 + 1 := by rw [← one_add_one_eq_two, C_add, C_1]
    simp [QuadraticTrinomial.poly, QuadraticTrinomial.new, hv, mul_assoc, e]

end

example : (⟨5, 3⟩ : Monomial ℤ).derivative = .ok ⟨15, 2⟩ ∧ (⟨5, 0⟩ : Monomial ℤ).derivative = .ok ⟨0, 0⟩ ∧
    (⟨4, 5, 6⟩ : QuadraticTrinomial ℤ).derivative = .ok ⟨0, 8, 5⟩ := by decide

section
variable {K : Type} [Field K] [CharZero K] [NumZero K] [LawfulNumZero K] [RDiv K] [LawfulRDiv K]
  [FromUsizeExact K] [LawfulFromUsizeExact K] [FromUsizeCont K] [LawfulFromUsizeCont K]

/-- C18 (Monomial): the integral differentiates to the monomial and has constant term zero. -/
theorem C18_monomial_integral (m : Monomial K)
    (h : m.poly ≠ 0 → (tryFromExact (m.deg + 1) : Option K) ≠ none) :
    ∃ r, m.integral = .ok r ∧ Polynomial.derivative (entriesPoly r.terms.entries) = m.poly ∧
      (entriesPoly r.terms.entries).coeff 0 = 0 := by
  unfold Monomial.integral Monomial.degree
  by_cases hz : m.coefficient = 0
  · rw [if_pos (by simpa using hz)]
    refine ⟨_, rfl, ?_, ?_⟩
    · rw [(m.poly_eq_zero).2 hz]; simp [Sparse.zero, Sparse.new, mapPoly_empty]
    · simp [Sparse.zero, Sparse.new, mapPoly_empty]
  · have hp : m.poly ≠ 0 := fun e => hz ((m.poly_eq_zero).1 e)
    rw [if_neg (by simpa using hz)]
    cases hx : (tryFromExact (m.deg + 1) : Option K) with
    | none => exact absurd hx (h hp)
    | some v =>
      have hv := LawfulFromUsizeExact.tryFromExact_eq _ _ hx
      have hne : v ≠ 0 := by rw [hv, Nat.cast_ne_zero]; omega
      simp only [hx, LawfulRDiv.rdiv_eq _ _ hne, Res.ok_bind]
      refine ⟨_, rfl, ?_, ?_⟩
      · rw [C31_sparse_from_terms, termsPoly_cons, termsPoly_nil, add_zero, derivative_C_mul,
          derivative_X_pow, Monomial.poly, Nat.add_sub_cancel, ← mul_assoc]
        congr 1
        have hne' : ((m.deg + 1 : Nat) : K) ≠ 0 := by rw [Nat.cast_ne_zero]; omega
        rw [hv, ← C_mul, div_mul_cancel₀ _ hne']
      · rw [C31_sparse_from_terms, termsPoly_cons, termsPoly_nil, add_zero]; simp

/-- C18 (LinearBinomial). -/
theorem C18_binomial_integral (b : LinearBinomial K) (h : (tryFromCont 2 : Option K) ≠ none) :
    ∃ r, b.integral = .ok r ∧ Polynomial.derivative (descPoly r.terms) = b.poly ∧
      (descPoly r.terms).coeff 0 = 0 := by
  unfold LinearBinomial.integral
  cases hx : (tryFromCont 2 : Option K) with
  | none => exact absurd hx h
  | some v =>
    have hv := LawfulFromUsizeCont.tryFromCont_eq _ _ hx
    have hne : v ≠ 0 := by rw [hv, Nat.cast_ne_zero]; omega
    simp only [LawfulRDiv.rdiv_eq _ _ hne, Res.ok_bind]
    refine ⟨_, rfl, ?_, ?_⟩
    · rw [C01_new_same_polynomial]
      simp only [descPoly_cons, descPoly_nil, List.length_cons, List.length_nil, LinearBinomial.poly]
      have : (C (b.c0 / v) : K[X]) * C 2 = C b.c0 := by
        rw [← C_mul]; congr 1; rw [hv]; push_cast; exact div_mul_cancel₀ _ (by norm_num)
      simp only [derivative_add, derivative_C_mul, derivative_X_pow]
      simp only [← this]
      simp; ring
    · rw [C01_new_same_polynomial]; simp [descPoly_cons]

/-- C18 (QuadraticTrinomial). -/
theorem C18_trinomial_integral (t : QuadraticTrinomial K) (h2 : (tryFromExact 2 : Option K) ≠ none)
    (h3 : (tryFromExact 3 : Option K) ≠ none) :
    ∃ r, t.integral = .ok r ∧ Polynomial.derivative (descPoly r.terms) = t.poly ∧
      (descPoly r.terms).coeff 0 = 0 := by
  unfold QuadraticTrinomial.integral
  cases hx : (tryFromExact 2 : Option K) with
  | none => exact absurd hx h2
  | some v =>
  cases hy : (tryFromExact 3 : Option K) with
  | none => exact absurd hy h3
  | some w =>
    have hv := LawfulFromUsizeExact.tryFromExact_eq _ _ hx
    have hw := LawfulFromUsizeExact.tryFromExact_eq _ _ hy
    have hne : v ≠ 0 := by rw [hv, Nat.cast_ne_zero]; omega
    have hne' : w ≠ 0 := by rw [hw, Nat.cast_ne_zero]; omega
    simp only [LawfulRDiv.rdiv_eq _ _ hne, LawfulRDiv.rdiv_eq _ _ hne', Res.ok_bind]
    refine ⟨_, rfl, ?_, ?_⟩
    · rw [C01_new_same_polynomial]
      simp only [descPoly_cons, descPoly_nil, List.length_cons, List.length_nil, QuadraticTrinomial.poly]
      have e3 : (C (t.c0 / w) : K[X]) * C 3 = C t.c0 := by
        rw [← C_mul]; congr 1; rw [hw]; push_cast; exact div_mul_cancel₀ _ (by norm_num)
      have e2 : (C (t.c1 / v) : K[X]) * C 2 = C t.c1 := by
        rw [← C_mul]; congr 1; rw [hv]; push_cast; exact div_mul_cancel₀ _ (by norm_num)
      simp only [derivative_add, derivative_C_mul, derivative_X_pow]
      simp only [← e3, ← e2]
      simp; ring
    · rw [C01_new_same_polynomial]; simp [descPoly_cons]

end

example : (⟨6, 5, 6⟩ : QuadraticTrinomial ℚ).integral = .ok ⟨[2, 5 / 2, 6, 0]⟩ := by decide +kernel
example : (⟨5, 6⟩ : LinearBinomial ℚ).integral = .ok ⟨[5 / 2, 6, 0]⟩ := by decide +kernel

/-! ## C50 – monomial algebra -/

section
variable {R : Type} [CommSemiring R]

/-- C50: multiplication of monomials. -/
theorem C50_monomial_mul (m n : Monomial R) : (m.mul n).poly = m.poly * n.poly := by
  simp only [Monomial.mul, Monomial.poly, Monomial.new, C_mul]; ring

/-- C50: `From<N>` makes the constant polynomial. -/
theorem C50_monomial_from_scalar (a : R) : (Monomial.ofScalar a).poly = C a := by
  simp [Monomial.ofScalar, Monomial.poly, Monomial.new]

/-- C50: powers of monomials.  Missing: exponents at or above the bound under which `upow` is
exponentiation; false there, see `C50_monomial_pow_false`. -/
theorem C50_monomial_pow_partial [PowUsize R] [hl : LawfulPowUsize R] (m : Monomial R) (n : Nat)
    (h : n < hl.bound) : (m.pow n).poly = m.poly ^ n := by
  simp only [Monomial.pow, Monomial.poly, Monomial.new, LawfulPowUsize.upow_eq _ _ h, C_pow]; ring

end

/-- C50 is false for large exponents: `(2x)^(2^32)` with integer coefficients has coefficient 1. -/
theorem C50_monomial_pow_false (n : Nat) (hn : n = 2 ^ 32) :
    let m : Monomial ℤ := ⟨2, 1⟩
    (m.pow n).poly ≠ m.poly ^ n := by
  intro m h
  have h0 : n % 2 ^ 32 = 0 := by rw [hn]; exact Nat.mod_self _
  have hne : n ≠ 0 := by rw [hn]; norm_num
  have hp : m.pow n = ⟨1, n⟩ := by
    show (⟨(2 : ℤ) ^ (n % 2 ^ 32), 1 * n⟩ : Monomial ℤ) = ⟨1, n⟩
    rw [h0, one_mul, pow_zero]
  have := congrArg (fun P => P.coeff n) h
  rw [hp] at this
  simp only [m, Monomial.poly, mul_pow, ← C_pow, pow_one, coeff_C_mul, coeff_X_pow, if_true,
    mul_one] at this
  exact absurd this.symm (ne_of_gt (one_lt_pow₀ (by norm_num) hne))

example : Monomial.ofScalar (-7 : ℤ) = ⟨-7, 0⟩ ∧ (Monomial.ofScalar (0 : ℤ)).degree = .negInf := by decide
example : (⟨2, 3⟩ : Monomial ℤ).mul ⟨-5, 4⟩ = ⟨-10, 7⟩ ∧ (⟨2, 3⟩ : Monomial ℤ).pow 5 = ⟨32, 15⟩ := by decide

end Rustnomial
