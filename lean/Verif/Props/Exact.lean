import Verif.Props.DenseMul
import Verif.Props.DenseShift
import Verif.Props.DenseDiv
import Verif.Props.SparseBasic
import Verif.Props.SparseDiv
import Verif.Props.Fixed
import Verif.Props.Roots
import Verif.Props.Cubic

/-!
# C58 – C64: the complete behaviour of the operations that do not do what one expects

Where the natural property is false of the code (C07, C11, C12, C14, C15, C21, C22, C27, C44, C46, C50), the
theorems below say for *every* input what happens: which inputs panic, which diverge (`fuel` for every
amount of fuel) and what is returned for all the others.
-/

set_option linter.unusedSectionVars false

open Polynomial

namespace Rustnomial

/-! ## C58 – dense product and power -/

section
variable {R : Type} [CommRing R] [NumZero R] [LawfulNumZero R]

/-- C58: the product of two dense polynomials panics when both are zero; otherwise it is the product. -/
theorem C58_dense_mul_outcome (p q : Poly R) :
    (descPoly p.terms = 0 ∧ descPoly q.terms = 0 → p.mul q = .panic ∧ p.mulRef q = .panic) ∧
    (¬ (descPoly p.terms = 0 ∧ descPoly q.terms = 0) →
      ∃ r s, p.mul q = .ok r ∧ p.mulRef q = .ok s ∧
        descPoly r.terms = descPoly p.terms * descPoly q.terms ∧
        descPoly s.terms = descPoly p.terms * descPoly q.terms) := by
  refine ⟨fun h => ⟨(C11_dense_mul_panics_iff p q).1.2 h, (C11_dense_mul_panics_iff p q).2.2 h⟩, fun h => ?_⟩
  obtain ⟨⟨r, h1, h2⟩, ⟨s, h3, h4⟩⟩ := C11_dense_mul_partial p q (by tauto)
  exact ⟨r, s, h1, h3, h2, h4⟩

/-- C58: over a domain, `pow` panics for the zero polynomial and exponents from 2 on; otherwise it is the
power. -/
theorem C58_dense_pow_outcome [NoZeroDivisors R] (p : Poly R) (n : Nat) :
    (descPoly p.terms = 0 ∧ 2 ≤ n → p.pow n = .panic) ∧
    (¬ (descPoly p.terms = 0 ∧ 2 ≤ n) →
      ∃ r, p.pow n = .ok r ∧ descPoly r.terms = descPoly p.terms ^ n) := by
  refine ⟨fun h => (C12_dense_pow_zero_false p h.1 n).2.2 h.2, fun h => ?_⟩
  by_cases hp : descPoly p.terms = 0
  · obtain ⟨h0, h1, _⟩ := C12_dense_pow_zero_false p hp n
    have hn : n = 0 ∨ n = 1 := by
      by_contra hc
      exact h ⟨hp, by omega⟩
    rcases hn with hn | hn
    · exact ⟨_, h0 hn, C12_dense_pow_sound p n _ (h0 hn)⟩
    · exact ⟨_, h1 hn, C12_dense_pow_sound p n _ (h1 hn)⟩
  · exact C12_dense_pow_partial p n hp

end

example : (⟨[0]⟩ : Poly ℤ).pow 1 = .ok ⟨[]⟩ ∧ (⟨[0]⟩ : Poly ℤ).pow 5 = .panic ∧
    (⟨[1, 1]⟩ : Poly ℤ).pow 3 = .ok ⟨[1, 3, 3, 1]⟩ := by decide +kernel

/-! ## C59 – dense division over a field -/

section
variable {K : Type} [Field K] [NumZero K] [LawfulNumZero K] [RDiv K] [LawfulRDiv K]

/-- C59: what the four spellings of division do for every dividend and divisor over a field.  A zero divisor
panics.  `div_mod`, `floor_div`, `%=` then always return the Euclidean quotient and remainder; `%` returns
its left operand when that has lower degree, and otherwise never returns. -/
theorem C59_dense_division_outcome (p b : Poly K) :
    (descPoly b.terms = 0 → ∀ fuel, p.divMod fuel b = .panic ∧ p.floorDiv fuel b = .panic ∧
      p.rem fuel b = .panic ∧ p.remAssign fuel b = .panic) ∧
    (descPoly b.terms ≠ 0 →
      (∀ fuel, p.terms.length + 1 ≤ fuel → ∃ q r s, p.divMod fuel b = .ok (q, r) ∧
        p.floorDiv fuel b = .ok q ∧ p.remAssign fuel b = .ok s ∧
        descPoly q.terms = descPoly p.terms / descPoly b.terms ∧
        descPoly r.terms = descPoly p.terms % descPoly b.terms ∧
        descPoly s.terms = descPoly p.terms % descPoly b.terms) ∧
      ((descPoly p.terms).degree < (descPoly b.terms).degree → ∀ fuel, p.rem fuel b = .ok p) ∧
      ((descPoly b.terms).degree ≤ (descPoly p.terms).degree → ∀ fuel, p.rem fuel b = .fuel)) := by
  refine ⟨fun h fuel => C24_dense_zero_divisor p b h fuel, fun h => ⟨fun fuel hf => ?_, fun hd fuel =>
    C22_dense_rem_partial p b hd fuel, fun hd fuel => C22_dense_rem_diverges
      (fun x y hy => ⟨_, LawfulRDiv.rdiv_eq x y hy⟩) p b h hd fuel⟩⟩
  obtain ⟨q, r, h1, _, _, h4, h5⟩ := C20_dense_div_mod p b h fuel hf
  obtain ⟨s, h6, h7⟩ := C23_dense_rem_assign p b h fuel hf
  exact ⟨q, r, s, h1, by simp [Poly.floorDiv, h1], h6, h4, h5, h7⟩

end

/-! ## C60 – dense division of integer polynomials -/

/-- C60: over the integers `div_mod` and `%=` panic for a zero divisor; otherwise they return, within
`length + 1` iterations, exactly when a quotient and a remainder of smaller degree exist in ℤ[x] – and then
return those – and never return when they do not exist. -/
theorem C60_int_division_outcome (p b : Poly ℤ) :
    (descPoly b.terms = 0 → ∀ fuel, p.divMod fuel b = .panic ∧ p.remAssign fuel b = .panic) ∧
    (descPoly b.terms ≠ 0 →
      (∀ Q T : ℤ[X], descPoly p.terms = Q * descPoly b.terms + T → T.degree < (descPoly b.terms).degree →
        ∀ fuel, p.terms.length + 1 ≤ fuel → ∃ q r s, p.divMod fuel b = .ok (q, r) ∧
          p.remAssign fuel b = .ok s ∧ descPoly q.terms = Q ∧ descPoly r.terms = T ∧ descPoly s.terms = T) ∧
      ((¬ ∃ Q T : ℤ[X], descPoly p.terms = Q * descPoly b.terms + T ∧ T.degree < (descPoly b.terms).degree) →
        ∀ fuel, p.divMod fuel b = .fuel ∧ p.remAssign fuel b = .fuel)) := by
  refine ⟨fun h fuel => ⟨(C24_dense_zero_divisor p b h fuel).1, (C24_dense_zero_divisor p b h fuel).2.2.2⟩,
    fun h => ⟨fun Q T hQ hT fuel hf => ?_, fun hn fuel => ?_⟩⟩
  · obtain ⟨s, h1, h2⟩ := C23_dense_rem_assign_int p b h Q T hQ hT fuel hf
    obtain ⟨q, r, h3, h4, h5⟩ := divMod_ok p b (fun rf rd h x => by
      have := (firstTerm_poly h).1
      rw [int_rdiv this, Int.mul_tdiv_cancel_left _ this]) h hQ hT fuel hf
    exact ⟨q, r, s, h3, h1, h4, h5, h2⟩
  · have h1 := (C21_dense_div_mod_int_partial p b h).2 hn fuel
    rcases C23_dense_rem_assign_agrees (fun x y h => ⟨_, int_rdiv h⟩) p b fuel with
      ⟨h', _⟩ | ⟨_, h'⟩ | ⟨_, _, _, h', _, _⟩
    · rw [h1] at h'; cases h'
    · exact ⟨h1, h'⟩
    · rw [h1] at h'; cases h'

example : (⟨[2, 3, 1]⟩ : Poly ℤ).divMod 4 ⟨[1, 1]⟩ = .ok (⟨[2, 1]⟩, ⟨[]⟩) := by decide

/-! ## C61 – sparse division -/

section
variable {K : Type} [Field K] [NumZero K] [LawfulNumZero K] [RDiv K] [LawfulRDiv K]

/-- C61: what `div_mod` and `%` do for every pair of SparsePolynomials over a field: panic for a zero
divisor, `(0, a)` when `deg a < deg b`, the Euclidean quotient and remainder when the degrees are equal, and
no return when `deg a > deg b`. -/
theorem C61_sparse_division_outcome (p b : Sparse K) :
    (entriesPoly b.terms.entries = 0 → ∀ fuel, p.divMod fuel b = .panic ∧ p.rem fuel b = .panic) ∧
    (entriesPoly b.terms.entries ≠ 0 →
      ((entriesPoly p.terms.entries).degree < (entriesPoly b.terms.entries).degree →
        ∀ fuel, p.divMod fuel b = .ok (Sparse.zero, p) ∧ p.rem fuel b = .ok p) ∧
      ((entriesPoly p.terms.entries).degree = (entriesPoly b.terms.entries).degree →
        ∀ fuel, 2 ≤ fuel → ∃ q r, p.divMod fuel b = .ok (q, r) ∧ p.rem fuel b = .ok r ∧
          entriesPoly q.terms.entries = entriesPoly p.terms.entries / entriesPoly b.terms.entries ∧
          entriesPoly r.terms.entries = entriesPoly p.terms.entries % entriesPoly b.terms.entries) ∧
      ((entriesPoly b.terms.entries).degree < (entriesPoly p.terms.entries).degree →
        ∀ fuel, p.divMod fuel b = .fuel ∧ p.rem fuel b = .fuel)) :=
  ⟨fun h fuel => C24_sparse_zero_divisor p b h fuel, fun h =>
    ⟨fun hd fuel => C27_sparse_div_mod_small_partial p b hd fuel,
     fun hd fuel hf => C27_sparse_div_mod_equal_partial p b h hd fuel hf,
     fun hd fuel => C27_sparse_div_mod_diverges (fun x y hy => ⟨_, LawfulRDiv.rdiv_eq x y hy⟩) p b h hd fuel⟩⟩

end

/-! ## C62 – shifts, for every `i32` -/

section
variable {R : Type} [CommSemiring R] [NumZero R] [LawfulNumZero R]

/-- C62 (dense, `<<` and `<<=`): for every shift amount.  `<<=` panics for `i32::MIN` only.  `<<` moreover
panics for a negative amount `-k` when `k` exceeds the number of coefficients after trimming but not
before. -/
theorem C62_dense_shl_outcome (p : Poly R) (k : Int) (hk : -2 ^ 31 ≤ k) :
    (k = -2 ^ 31 → p.shlAssign k = .panic ∧ p.shl k = .panic) ∧
    (k ≠ -2 ^ 31 → k < 0 →
      (∃ r, p.shlAssign k = .ok r ∧ IsShiftRight (descPoly p.terms) (descPoly r.terms) (-k).toNat) ∧
      ((Poly.new p.terms).terms.length < (-k).toNat ∧ (-k).toNat ≤ p.terms.length → p.shl k = .panic) ∧
      (¬ ((Poly.new p.terms).terms.length < (-k).toNat ∧ (-k).toNat ≤ p.terms.length) →
        ∃ r, p.shl k = .ok r ∧ IsShiftRight (descPoly p.terms) (descPoly r.terms) (-k).toNat)) ∧
    (0 ≤ k → ∃ r s, p.shlAssign k = .ok r ∧ p.shl k = .ok s ∧
      descPoly r.terms = descPoly p.terms * X ^ k.toNat ∧
      descPoly s.terms = descPoly p.terms * X ^ k.toNat) := by
  have hmin : (-2 ^ 31 : Int) < 0 := by norm_num
  refine ⟨?_, ?_, ?_⟩
  · rintro rfl
    simp [Poly.shlAssign, Poly.shl, hmin, negI32]
  · intro hne hneg
    obtain ⟨r, h1, _, h2⟩ := (C14_dense_shift_assign_partial p k hne).1
    refine ⟨⟨r, h1, h2 hneg⟩, ?_, ?_⟩
    · intro h
      have := (C14_dense_shr_panics_iff p (-k).toNat).2 h
      rw [Int.toNat_of_nonneg (by omega)] at this
      unfold Poly.shl negI32
      unfold Poly.shr at this
      rw [if_pos hneg, if_neg hne]
      rw [if_neg (by omega)] at this
      exact this
    · intro h
      obtain ⟨s, h3, h4⟩ := (C14_dense_shr_partial p (-k).toNat (by omega)).2 (by omega) (by omega)
      rw [Int.toNat_of_nonneg (by omega), neg_neg] at h3
      exact ⟨s, h3, h4⟩
  · intro h0
    obtain ⟨r, h1, h2, _⟩ := (C14_dense_shift_assign_partial p k (by omega)).1
    obtain ⟨s, h3, h4⟩ := (C14_dense_shl p k).1 h0
    exact ⟨r, s, h1, h3, h2 h0, h4⟩

/-- C62 (dense, `>>` and `>>=`): for every shift amount.  `>>=` panics for `i32::MIN` only; `>>` also when
the amount exceeds the number of coefficients after trimming but not before. -/
theorem C62_dense_shr_outcome (p : Poly R) (k : Int) (hk : -2 ^ 31 ≤ k) :
    (k = -2 ^ 31 → p.shrAssign k = .panic ∧ p.shr k = .panic) ∧
    (k ≠ -2 ^ 31 → k < 0 → ∃ r s, p.shrAssign k = .ok r ∧ p.shr k = .ok s ∧
      descPoly r.terms = descPoly p.terms * X ^ (-k).toNat ∧
      descPoly s.terms = descPoly p.terms * X ^ (-k).toNat) ∧
    (0 ≤ k →
      (∃ r, p.shrAssign k = .ok r ∧ IsShiftRight (descPoly p.terms) (descPoly r.terms) k.toNat) ∧
      ((Poly.new p.terms).terms.length < k.toNat ∧ k.toNat ≤ p.terms.length → p.shr k = .panic) ∧
      (¬ ((Poly.new p.terms).terms.length < k.toNat ∧ k.toNat ≤ p.terms.length) →
        ∃ r, p.shr k = .ok r ∧ IsShiftRight (descPoly p.terms) (descPoly r.terms) k.toNat)) := by
  have hmin : (-2 ^ 31 : Int) < 0 := by norm_num
  refine ⟨?_, ?_, ?_⟩
  · rintro rfl
    simp [Poly.shrAssign, Poly.shr, hmin, negI32]
  · intro hne hneg
    obtain ⟨r, h1, _, h2⟩ := (C14_dense_shift_assign_partial p k hne).2
    obtain ⟨s, h3, h4⟩ := (C14_dense_shl p k).2 hneg hne
    exact ⟨r, s, h1, h3, h2 hneg, h4⟩
  · intro h0
    have hcast : ((k.toNat : Nat) : Int) = k := Int.toNat_of_nonneg h0
    obtain ⟨r, h1, h2, _⟩ := (C14_dense_shift_assign_partial p k (by omega)).2
    refine ⟨⟨r, h1, h2 h0⟩, fun h => ?_, fun h => ?_⟩
    · rw [← hcast]; exact (C14_dense_shr_panics_iff p k.toNat).2 h
    · obtain ⟨s, h3, h4⟩ := (C14_dense_shr_partial p k.toNat (by omega)).1
      rw [hcast] at h3
      exact ⟨s, h3, h4⟩

/-- C62 (SparsePolynomial): shifts panic for `i32::MIN` and are exact for every other amount. -/
theorem C62_sparse_shift_outcome (p : Sparse R) (k : Int) :
    (k = -2 ^ 31 → p.shl k = .panic ∧ p.shr k = .panic) ∧
    (k ≠ -2 ^ 31 → ∃ r s, p.shl k = .ok r ∧ p.shr k = .ok s ∧
      (0 ≤ k → entriesPoly r.terms.entries = entriesPoly p.terms.entries * X ^ k.toNat ∧
        IsShiftRight (entriesPoly p.terms.entries) (entriesPoly s.terms.entries) k.toNat) ∧
      (k < 0 → IsShiftRight (entriesPoly p.terms.entries) (entriesPoly r.terms.entries) (-k).toNat ∧
        entriesPoly s.terms.entries = entriesPoly p.terms.entries * X ^ (-k).toNat)) := by
  refine ⟨?_, fun hk => ?_⟩
  · rintro rfl; exact C15_sparse_shift_false p
  · obtain ⟨⟨r, h1, h2, h3⟩, ⟨s, h4, h5, h6⟩⟩ := C15_sparse_shift_partial p k hk
    exact ⟨r, s, h1, h4, fun h => ⟨h2 h, h5 h⟩, fun h => ⟨h3 h, h6 h⟩⟩

/-- C62 (Monomial). -/
theorem C62_monomial_shift_outcome (m : Monomial R) (k : Int) :
    (k = -2 ^ 31 → m.shl k = .panic ∧ m.shr k = .panic) ∧
    (k ≠ -2 ^ 31 → ∃ r s, m.shl k = .ok r ∧ m.shr k = .ok s ∧
      (0 ≤ k → r.poly = m.poly * X ^ k.toNat ∧ IsShiftRight m.poly s.poly k.toNat) ∧
      (k < 0 → IsShiftRight m.poly r.poly (-k).toNat ∧ s.poly = m.poly * X ^ (-k).toNat)) := by
  refine ⟨?_, fun hk => ?_⟩
  · rintro rfl; exact C15_monomial_shift_false m
  · obtain ⟨⟨r, h1, h2, h3⟩, ⟨s, h4, h5, h6⟩⟩ := C15_monomial_shift_partial m k hk
    exact ⟨r, s, h1, h4, fun h => ⟨h2 h, h5 h⟩, fun h => ⟨h3 h, h6 h⟩⟩

end

/-! ## C63 – evaluation and powers with any exponent -/

/-- The polynomial with every exponent reduced modulo `2^32`. -/
noncomputable def truncExponents {R : Type} [Semiring R] (P : R[X]) : R[X] :=
  P.sum fun n c => C c * X ^ (n % 2 ^ 32)

section
variable {R : Type} [CommSemiring R]

theorem truncExponents_add (P Q : R[X]) : truncExponents (P + Q) = truncExponents P + truncExponents Q :=
  Polynomial.sum_add_index _ _ _ (by simp) (by intros; simp [add_mul])

theorem truncExponents_term (c : R) (n : Nat) : truncExponents (C c * X ^ n) = C c * X ^ (n % 2 ^ 32) := by
  unfold truncExponents
  rw [C_mul_X_pow_eq_monomial, sum_monomial_index _ _ (by simp)]

theorem truncExponents_zero : truncExponents (0 : R[X]) = 0 := by simp [truncExponents]

end

/-- C63: evaluating an integer SparsePolynomial or Monomial gives the value of the polynomial whose exponents
are reduced modulo `2^32`, for every exponent. -/
theorem C63_eval_exact (p : Sparse ℤ) (m : Monomial ℤ) (x : ℤ) :
    p.eval x = (truncExponents (entriesPoly p.terms.entries)).eval x ∧
    m.eval x = (truncExponents m.poly).eval x := by
  constructor
  · unfold Sparse.eval
    have key : ∀ (l : List (Nat × ℤ)) (s : ℤ),
        l.foldl (fun sum e => sum + e.2 * upow x e.1) s = s + (truncExponents (entriesPoly l)).eval x := by
      intro l
      induction l with
      | nil => intro s; simp [truncExponents_zero]
      | cons e l ih =>
        intro s
        rw [List.foldl_cons, ih, entriesPoly_cons, truncExponents_add, truncExponents_term, eval_add]
        have : (upow x e.1 : ℤ) = x ^ (e.1 % 2 ^ 32) := rfl
        rw [this]
        simp only [eval_mul, eval_C, eval_pow, eval_X]
        ring
    rw [key, zero_add]
  · have h : m.poly = C m.coefficient * X ^ m.deg := rfl
    rw [h, truncExponents_term]
    simp only [eval_mul, eval_C, eval_pow, eval_X]
    rfl

/-- C63: a power of an integer Monomial has the right degree, and the coefficient raised to the exponent
modulo `2^32`. -/
theorem C63_monomial_pow_exact (m : Monomial ℤ) (n : Nat) :
    (m.pow n).poly = C (m.coefficient ^ (n % 2 ^ 32)) * X ^ (m.deg * n) := rfl

example : (truncExponents (C 3 * X ^ (2 ^ 32 + 2)) : ℤ[X]) = C 3 * X ^ 2 := by
  rw [truncExponents_term]; norm_num

/-! ## C64 – order of quadratic roots, correctness of cubic roots -/

/-- C64: the two real roots of a quadratic come largest first exactly when the leading coefficient is
positive or the roots coincide. -/
theorem C64_quadratic_order (t : QuadraticTrinomial ℝ) (ha : t.c0 ≠ 0) (r s : ℝ)
    (h : t.roots = .ok (.twoRealRoots r s)) : s ≤ r ↔ 0 < t.c0 ∨ r = s := by
  constructor
  · intro hsr
    rcases lt_or_gt_of_ne ha with hneg | hpos
    · right
      have hd : 0 ≤ t.c1 ^ 2 - 4 * t.c0 * t.c2 := by
        by_contra hc
        obtain ⟨z, w, h1, _⟩ := C43_complex_roots t ha (not_le.1 hc)
        rw [h1] at h
        cases h
      rcases hd.eq_or_lt with h0 | hlt
      · obtain ⟨r', s', h1, _, h2⟩ := C43_real_roots t ha hd
        rw [h1] at h
        injection h with h; injection h with e1 e2
        rw [← e1, ← e2]; exact h2.2 h0.symm
      · obtain ⟨r', s', h1, h2⟩ := C44_false t hneg hlt
        rw [h1] at h
        injection h with h; injection h with e1 e2
        rw [e1, e2] at h2
        exact absurd hsr (not_le.2 h2)
    · exact .inl hpos
  · rintro (hpos | rfl)
    · exact C44_order_partial t hpos r s h
    · exact le_rfl

/-- C64: for a cubic over the reals, the first of the three numbers returned is a root exactly when the
discriminant is not positive or the cubic is symmetric about its inflection point. -/
theorem C64_cubic_root_iff (a b c d : ℝ) (ha : a ≠ 0) :
    ∃ x, ((∃ r s, cubicRoots a b c d = .ok (.threeRealRoots x r s)) ∨
        ∃ z w, cubicRoots a b c d = .ok (.threeComplexRoots ⟨x, 0⟩ z w)) ∧
      ((C a * X ^ 3 + C b * X ^ 2 + C c * X + C d : ℝ[X]).IsRoot x ↔
        (18 * a * b * c * d - 4 * b ^ 3 * d + b ^ 2 * c ^ 2 - 4 * a * c ^ 3 - 27 * a ^ 2 * d ^ 2 ≤ 0 ∨
          2 * b ^ 3 - 9 * a * b * c + 27 * a ^ 2 * d = 0)) := by
  by_cases hc : 18 * a * b * c * d - 4 * b ^ 3 * d + b ^ 2 * c ^ 2 - 4 * a * c ^ 3 - 27 * a ^ 2 * d ^ 2 ≤ 0 ∨
      2 * b ^ 3 - 9 * a * b * c + 27 * a ^ 2 * d = 0
  · rcases C46_cubic_partial a b c d ha hc with ⟨x, r, s, h1, h2⟩ | ⟨x, z, w, h1, _, _, h2⟩
    · refine ⟨x, .inl ⟨r, s, h1⟩, iff_of_true ?_ hc⟩
      rw [h2]; simp [IsRoot]
    · refine ⟨x, .inr ⟨z, w, h1⟩, iff_of_true ?_ hc⟩
      have := congrArg (Polynomial.eval (x : ℂ)) h2
      rw [eval_map_algebraMap] at this
      simp only [eval_mul, eval_sub, eval_X, eval_C, sub_self, mul_zero, zero_mul] at this
      have h3 : (aeval (x : ℂ)) (C a * X ^ 3 + C b * X ^ 2 + C c * X + C d : ℝ[X]) =
          ((Polynomial.eval x (C a * X ^ 3 + C b * X ^ 2 + C c * X + C d : ℝ[X]) : ℝ) : ℂ) := by
        simp
      rw [h3] at this
      exact_mod_cast this
  · obtain ⟨x, h1, h2⟩ := C46_false a b c d ha (by push Not at hc; exact hc.1) (by push Not at hc; exact hc.2)
    exact ⟨x, h1, iff_of_false h2 hc⟩

end Rustnomial
