import Verif.Props.DenseBasic
import Verif.Props.SparseBasic
import Verif.Props.Fixed
import Verif.Props.Mutation
import Verif.Props.Interchange

/-!
# Laws stated through the operators alone (C10, C13, C19, C28)
-/

namespace Rustnomial
open Polynomial

/-! ## C10 -/

/-- C10 (SparsePolynomial): negating twice gives back an equal polynomial, and `p + (-p)`, `p += -p` are zero. -/
theorem C10_sparse_neg_laws {R : Type} [Ring R] [NumZero R] [LawfulNumZero R] [BEq R] [LawfulBEq R] (p : Sparse R) :
    p.neg.neg.eq p = true ∧ (p.add p.neg).isZeroPoly = true ∧ (p.addAssign p.neg).isZeroPoly = true := by
  refine ⟨?_, ?_, ?_⟩
  · rw [C05_sparse_eq, C10_sparse_neg, C10_sparse_neg, neg_neg]
  · rw [C02_sparse_is_zero, (C25_sparse_add p p.neg).1, C10_sparse_neg, add_neg_cancel]
  · rw [C02_sparse_is_zero, (C25_sparse_add p p.neg).2, C10_sparse_neg, add_neg_cancel]

example : ((Sparse.fromVec [1, 0, (-3 : ℤ)]).add (Sparse.fromVec [1, 0, -3]).neg).terms.entries
    = [(0, 0), (2, 0)] := by decide

/-! ## C13 -/

/-- C13 (Polynomial, integers): `p /= c` with `c ≠ 0` divides every coefficient, truncating toward zero. -/
theorem C13_dense_div_assign_scalar_int (p : Poly ℤ) (c : ℤ) (hc : c ≠ 0) :
    ∃ r, p.divAssignScalar c = .ok r ∧ r.terms.length = p.terms.length ∧
      ∀ d, (descPoly r.terms).coeff d = ((descPoly p.terms).coeff d).tdiv c := by
  refine ⟨_, by rw [Poly.divAssignScalar, mapM_rdiv_int _ _ hc]; rfl, by simp, fun d => ?_⟩
  rw [coeff_descPoly, coeff_descPoly, ← List.map_reverse]
  rw [List.getD_eq_getElem?_getD, List.getD_eq_getElem?_getD, List.getElem?_map]
  cases p.terms.reverse[d]? <;> simp

example : (⟨[4, -7, 2]⟩ : Poly ℤ).divAssignScalar 5 = .ok ⟨[0, -1, 0]⟩ := by decide

/-- C13 (Polynomial): over a field, `(p / c) * c == p`, in all four combinations of the operators. -/
theorem C13_dense_div_mul_scalar {K : Type} [Field K] [NumZero K] [LawfulNumZero K] [RDiv K] [LawfulRDiv K] [BEq K]
    [LawfulBEq K] (p : Poly K) (c : K) (hc : c ≠ 0) :
    (∃ r, p.divScalar c = .ok r ∧ (r.mulScalar c).eq p = true ∧ (r.mulAssignScalar c).eq p = true) ∧
    (∃ r, p.divAssignScalar c = .ok r ∧ (r.mulScalar c).eq p = true ∧ (r.mulAssignScalar c).eq p = true) := by
  obtain ⟨⟨r, h1, h2⟩, ⟨s, h3, h4⟩⟩ := C13_dense_div_scalar p c hc
  refine ⟨⟨r, h1, ?_, ?_⟩, ⟨s, h3, ?_, ?_⟩⟩
  · rw [C05_dense_eq, C13_dense_mul_scalar, h2]
  · rw [C05_dense_eq, C13_dense_mul_assign_scalar, h2]
  · rw [C05_dense_eq, C13_dense_mul_scalar, h4]
  · rw [C05_dense_eq, C13_dense_mul_assign_scalar, h4]

/-- C13 (SparsePolynomial): over a field, `(p / c) * c == p`, in all four combinations of the operators. -/
theorem C13_sparse_div_mul_scalar {K : Type} [Field K] [NumZero K] [LawfulNumZero K] [RDiv K] [LawfulRDiv K] [BEq K]
    [LawfulBEq K] (p : Sparse K) (c : K) (hc : c ≠ 0) :
    (∃ r, p.divScalar c = .ok r ∧ (r.mulScalar c).eq p = true ∧ (r.mulAssignScalar c).eq p = true) ∧
    (∃ r, p.divAssignScalar c = .ok r ∧ (r.mulScalar c).eq p = true ∧ (r.mulAssignScalar c).eq p = true) := by
  obtain ⟨⟨r, h1, h2⟩, ⟨s, h3, h4⟩⟩ := C13_sparse_div_scalar p c hc
  refine ⟨⟨r, h1, ?_, ?_⟩, ⟨s, h3, ?_, ?_⟩⟩
  · rw [C05_sparse_eq, (C13_sparse_mul_scalar r c).1, h2]
  · rw [C05_sparse_eq, (C13_sparse_mul_scalar r c).2, h2]
  · rw [C05_sparse_eq, (C13_sparse_mul_scalar s c).1, h4]
  · rw [C05_sparse_eq, (C13_sparse_mul_scalar s c).2, h4]

/-- C13 (fixed-size types): over a field, `(p / c) * c == p`. -/
theorem C13_fixed_div_mul_scalar {K : Type} [Field K] [NumZero K] [LawfulNumZero K] [RDiv K] [LawfulRDiv K] [BEq K]
    [LawfulBEq K] (m : Monomial K) (b : LinearBinomial K) (t : QuadraticTrinomial K) (c : K) (hc : c ≠ 0) :
    (∃ r, m.divScalar c = .ok r ∧ (r.mulScalar c).eq m = true) ∧
    (∃ r, b.divScalar c = .ok r ∧ (r.mulScalar c).eq b = true) ∧
    (∃ r, t.divScalar c = .ok r ∧ (r.mulScalar c).eq t = true) := by
  obtain ⟨⟨r, h1, h2⟩, ⟨s, h3, h4⟩, ⟨u, h5, h6⟩⟩ := C13_fixed_div_scalar m b t c hc
  refine ⟨⟨r, h1, ?_⟩, ⟨s, h3, ?_⟩, ⟨u, h5, ?_⟩⟩
  · rw [C05_monomial_eq, (C13_fixed_mul_scalar r s u c).1, h2]
  · rw [C05_binomial_eq, (C13_fixed_mul_scalar r s u c).2.1, h4]
  · rw [C05_trinomial_eq, (C13_fixed_mul_scalar r s u c).2.2, h6]

example : ((⟨[1, 2]⟩ : Poly ℚ).divScalar 3 >>= fun r => .ok (r.mulScalar 3)) = .ok ⟨[1, 2]⟩ := by decide +kernel

/-- C13 (integers): dividing by the scalar zero panics precisely if at least one coefficient is stored, zero or not,
in both spellings and both types. -/
theorem C13_div_scalar_zero_iff (p : Poly ℤ) (s : Sparse ℤ) :
    (p.divScalar 0 = .panic ↔ p.terms ≠ []) ∧ (p.divAssignScalar 0 = .panic ↔ p.terms ≠ []) ∧
    (s.divScalar 0 = .panic ↔ s.terms.entries ≠ []) ∧ (s.divAssignScalar 0 = .panic ↔ s.terms.entries ≠ []) := by
  refine ⟨?_, ?_, ?_, ?_⟩
  · unfold Poly.divScalar
    cases p.terms <;> simp [List.mapM_cons, rdiv]
  · unfold Poly.divAssignScalar
    cases p.terms <;> simp [List.mapM_cons, rdiv]
  · unfold Sparse.divScalar
    cases s.terms.entries <;> simp [List.foldlM_cons, rdiv]
  · unfold Sparse.divAssignScalar
    cases s.terms.entries <;> simp [List.foldlM_cons, rdiv]

example : (⟨[0]⟩ : Poly ℤ).divScalar 0 = .panic ∧ (⟨[]⟩ : Poly ℤ).divScalar 0 = .ok ⟨[]⟩ := by decide

/-! ## C28 -/

/-- C28 (field): dividing related values by a non-zero scalar gives related values, in both spellings. -/
theorem C28_div_scalar {K : Type} [Field K] [NumZero K] [LawfulNumZero K] [RDiv K] [LawfulRDiv K]
    (p : Poly K) (s : Sparse K) (h : SamePoly p s) (c : K) (hc : c ≠ 0) :
    (∃ r t, p.divScalar c = .ok r ∧ s.divScalar c = .ok t ∧ SamePoly r t) ∧
    (∃ r t, p.divAssignScalar c = .ok r ∧ s.divAssignScalar c = .ok t ∧ SamePoly r t) := by
  have hC : (C c : K[X]) ≠ 0 := by simpa using hc
  obtain ⟨⟨r, h1, h2⟩, ⟨r', h1', h2'⟩⟩ := C13_dense_div_scalar p c hc
  obtain ⟨⟨t, h3, h4⟩, ⟨t', h3', h4'⟩⟩ := C13_sparse_div_scalar s c hc
  exact ⟨⟨r, t, h1, h3, mul_left_cancel₀ hC (by rw [h2, h4]; exact h)⟩,
    ⟨r', t', h1', h3', mul_left_cancel₀ hC (by rw [h2', h4']; exact h)⟩⟩

/-- C28 (integers): the same for truncating division. -/
theorem C28_div_scalar_int (p : Poly ℤ) (s : Sparse ℤ) (h : SamePoly p s) (c : ℤ) (hc : c ≠ 0) :
    (∃ r t, p.divScalar c = .ok r ∧ s.divScalar c = .ok t ∧ SamePoly r t) ∧
    (∃ r t, p.divAssignScalar c = .ok r ∧ s.divAssignScalar c = .ok t ∧ SamePoly r t) := by
  obtain ⟨r, h1, h2⟩ := C13_dense_div_scalar_int p c hc
  obtain ⟨r', h1', _, h2'⟩ := C13_dense_div_assign_scalar_int p c hc
  obtain ⟨⟨t, h3, h4⟩, ⟨t', h3', h4'⟩⟩ := C13_sparse_div_scalar_int s c hc
  have h : descPoly p.terms = entriesPoly s.terms.entries := h
  refine ⟨⟨r, t, h1, h3, ?_⟩, ⟨r', t', h1', h3', ?_⟩⟩
  · ext d; rw [h2, h4, h]
  · ext d; rw [h2', h4', h]

/-- C28 fails for the scalar 0: a Polynomial panics on a stored zero that the SparsePolynomial does not store. -/
theorem C28_div_scalar_zero_false :
    SamePoly (⟨[0]⟩ : Poly ℤ) Sparse.zero ∧ (⟨[0]⟩ : Poly ℤ).divScalar 0 = .panic ∧
    (Sparse.zero : Sparse ℤ).divScalar 0 = .ok Sparse.zero := by
  refine ⟨by simp [SamePoly, Sparse.zero, BMap.empty, descPoly_cons], by decide, rfl⟩

/-! ## C19 -/

/-- C19 is false for SparsePolynomial with exponents beyond the range of `upow`: the integral of `2^32 * x^(2^32-1)` is
`x^(2^32)`, whose derivative is right, but the definite integral from 1 to 2 comes out as 0. -/
theorem C19_sparse_integral_false (n : Nat) (hn : n = 2 ^ 32) :
    let p : Sparse ℤ := ⟨BMap.empty.insert (n - 1) (n : ℤ)⟩
    ∃ r, p.integral = .ok r ∧
      Polynomial.derivative (entriesPoly r.terms.entries) = entriesPoly p.terms.entries ∧
      (⟨r⟩ : Integral (Sparse ℤ)).eval (1 : ℤ) 2 = 0 ∧
      0 < (entriesPoly r.terms.entries).eval 2 - (entriesPoly r.terms.entries).eval 1 := by
  intro p
  have hn0 : n ≠ 0 := by rw [hn]; norm_num
  have hn1 : n - 1 + 1 = n := by omega
  refine ⟨⟨BMap.empty.insert n 1⟩, ?_, ?_, ?_, ?_⟩
  · show (do
      let terms ← [((n - 1, (n : ℤ)))].foldlM (fun (terms : BMap ℤ) (e : Nat × ℤ) =>
        match (tryFromExact (e.1 + 1) : Option ℤ) with
        | none => Res.panic
        | some d => do
          let v ← rdiv e.2 d
          .ok (BMap.insert terms (e.1 + 1) v)) .empty
      (.ok (Sparse.new terms) : Res (Sparse ℤ))) = _
    have hc : ((n - 1 : Nat) : ℤ) + 1 = n := by exact_mod_cast hn1
    simp [List.foldlM_cons, tryFromExact, hn1, rdiv, hn0, hc, Sparse.new]
  · show Polynomial.derivative (entriesPoly [(n, (1 : ℤ))]) = entriesPoly [(n - 1, (n : ℤ))]
    simp [Polynomial.derivative_X_pow]
  · have h0 : n % 2 ^ 32 = 0 := by rw [hn]; exact Nat.mod_self _
    show ((0 : ℤ) + 1 * (2 : ℤ) ^ (n % 2 ^ 32)) - ((0 : ℤ) + 1 * (1 : ℤ) ^ (n % 2 ^ 32)) = 0
    rw [h0]; rfl
  · show 0 < (entriesPoly [(n, (1 : ℤ))]).eval 2 - (entriesPoly [(n, (1 : ℤ))]).eval 1
    simp only [entriesPoly_cons, entriesPoly_nil, add_zero, map_one, one_mul, eval_pow, eval_X, one_pow]
    have := one_lt_pow₀ (by norm_num : (1 : ℤ) < 2) hn0
    linarith

end Rustnomial
