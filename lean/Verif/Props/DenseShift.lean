import Verif.Props.DenseBasic

/-!
# Dense polynomials: shifts (C14)
-/

open Polynomial

namespace Rustnomial

section
variable {R : Type} [Semiring R]

theorem coeff_descPoly_take (l : List R) (k d : Nat) :
    (descPoly (l.take (l.length - k))).coeff d = (descPoly l).coeff (d + k) := by
  rw [coeff_descPoly, coeff_descPoly, List.getD_eq_getElem?_getD, List.getD_eq_getElem?_getD,
    List.reverse_take, List.getElem?_drop]
  by_cases hk : k ≤ l.length
  · have : l.length - (l.length - k) + d = d + k := by omega
    rw [this]
  · have h1 : l.reverse[d + k]? = none := by simp; omega
    have h2 : l.reverse[l.length - (l.length - k) + d]? = none := by simp; omega
    rw [h1, h2]

theorem descPoly_append_zeros (l : List R) (k : Nat) :
    descPoly (l ++ List.replicate k 0) = descPoly l * X ^ k := by
  rw [descPoly_append]; simp

/-- `Q` is the quotient of `P` by `X^k`: the coefficients of degree `≥ k`, moved down. -/
def IsShiftRight (P Q : R[X]) (k : Nat) : Prop := ∀ d, Q.coeff d = P.coeff (d + k)

/-- `IsShiftRight` really is division by `X^k`: `P = Q * X^k + (terms of degree < k)`. -/
theorem IsShiftRight.spec {P Q : R[X]} {k : Nat} (h : IsShiftRight P Q k) :
    ∃ L : R[X], P = Q * X ^ k + L ∧ L.degree < k := by
  classical
  refine ⟨∑ i ∈ Finset.range k, C (P.coeff i) * X ^ i, ?_, ?_⟩
  · ext n
    rw [coeff_add, coeff_mul_X_pow', finsetSum_coeff]
    simp only [coeff_C_mul, coeff_X_pow, mul_ite, mul_one, mul_zero, Finset.sum_ite_eq,
      Finset.mem_range]
    by_cases hn : k ≤ n
    · rw [if_pos hn, if_neg (by omega), h, Nat.sub_add_cancel hn, add_zero]
    · rw [if_neg hn, if_pos (by omega), zero_add]
  · rw [degree_lt_iff_coeff_zero]
    intro m hm
    rw [finsetSum_coeff]
    simp only [coeff_C_mul, coeff_X_pow, mul_ite, mul_one, mul_zero, Finset.sum_ite_eq,
      Finset.mem_range]
    rw [if_neg (by omega)]

/-! ### `<<=` and `>>=`: the full claim holds except for `i32::MIN` -/

/-- C14: `p <<= k` multiplies by `x^k` for `k ≥ 0` and divides by `x^(-k)` for `k < 0`; `p >>= k`
the other way round.  Missing: `k = i32::MIN`, where negating `k` overflows. -/
theorem C14_dense_shift_assign_partial (p : Poly R) (k : Int) (hk : k ≠ -2 ^ 31) :
    (∃ r, p.shlAssign k = .ok r ∧
      (0 ≤ k → descPoly r.terms = descPoly p.terms * X ^ k.toNat) ∧
      (k < 0 → IsShiftRight (descPoly p.terms) (descPoly r.terms) (-k).toNat)) ∧
    (∃ r, p.shrAssign k = .ok r ∧
      (0 ≤ k → IsShiftRight (descPoly p.terms) (descPoly r.terms) k.toNat) ∧
      (k < 0 → descPoly r.terms = descPoly p.terms * X ^ (-k).toNat)) := by
  have hr : ∀ j : Nat, ∃ r, p.shrAssignPos j = .ok r ∧
      IsShiftRight (descPoly p.terms) (descPoly r.terms) j := by
    intro j
    unfold Poly.shrAssignPos
    by_cases h : j > p.terms.length
    · refine ⟨⟨[]⟩, by simp [h], fun d => ?_⟩
      rw [coeff_descPoly_of_le (l := p.terms) (by omega)]; simp
    · refine ⟨⟨p.terms.take (p.terms.length - j)⟩, by simp [h, sliceRange], fun d => ?_⟩
      exact coeff_descPoly_take _ _ _
  have hl : ∀ j : Nat, descPoly (p.shlAssignPos j).terms = descPoly p.terms * X ^ j :=
    fun j => descPoly_append_zeros _ _
  unfold Poly.shlAssign Poly.shrAssign
  by_cases h : k < 0
  · obtain ⟨r, h1, h2⟩ := hr (-k).toNat
    exact ⟨⟨r, by simp [h, negI32_ok hk, h1], fun h' => absurd h (by omega), fun _ => h2⟩,
      ⟨p.shlAssignPos (-k).toNat, by simp [h, negI32_ok hk], fun h' => absurd h (by omega), fun _ => hl _⟩⟩
  · obtain ⟨r, h1, h2⟩ := hr k.toNat
    exact ⟨⟨p.shlAssignPos k.toNat, by simp [h], fun _ => hl _, fun h' => absurd h' h⟩,
      ⟨r, by simp [h, h1], fun _ => h2, fun h' => absurd h' h⟩⟩

variable [NumZero R] [LawfulNumZero R]

/-- C14: `p << k` for `k ≥ 0` and `p >> k` for `k < 0` (not `i32::MIN`) multiply by a power of
`x`, for every representation of `p`. -/
theorem C14_dense_shl (p : Poly R) (k : Int) :
    (0 ≤ k → ∃ r, p.shl k = .ok r ∧ descPoly r.terms = descPoly p.terms * X ^ k.toNat) ∧
    (k < 0 → k ≠ -2 ^ 31 →
      ∃ r, p.shr k = .ok r ∧ descPoly r.terms = descPoly p.terms * X ^ (-k).toNat) := by
  have hl : ∀ j : Nat, ∃ r, p.shlPos j = .ok r ∧ descPoly r.terms = descPoly p.terms * X ^ j := by
    intro j
    refine ⟨⟨p.terms.dropWhile isZero ++ List.replicate j 0⟩, ?_, ?_⟩
    · simp [Poly.shlPos, sliceFrom, firstNonzeroIndex_le, drop_firstNonzeroIndex]
    · rw [descPoly_append_zeros, descPoly_dropWhile]
  unfold Poly.shl Poly.shr
  constructor
  · intro h
    obtain ⟨r, h1, h2⟩ := hl k.toNat
    exact ⟨r, by rw [if_neg (by omega), h1], h2⟩
  · intro h hk
    obtain ⟨r, h1, h2⟩ := hl (-k).toNat
    exact ⟨r, by simp [h, negI32_ok hk, h1], h2⟩

theorem shrPos_ok (p : Poly R) (k : Nat)
    (h : p.terms.length < k ∨ k ≤ (Poly.new p.terms).terms.length) :
    ∃ r, p.shrPos k = .ok r ∧ IsShiftRight (descPoly p.terms) (descPoly r.terms) k := by
  unfold Poly.shrPos
  by_cases hk : k > p.terms.length
  · refine ⟨⟨[]⟩, by simp [hk], fun d => ?_⟩
    rw [coeff_descPoly_of_le (l := p.terms) (by omega)]; simp
  · have hle : k ≤ (Poly.new p.terms).terms.length := by rcases h with h | h <;> omega
    rw [new_terms] at hle
    have hadd := firstNonzeroIndex_add p.terms
    have hb : firstNonzeroIndex p.terms ≤ p.terms.length - k := by omega
    refine ⟨⟨(p.terms.take (p.terms.length - k)).drop (firstNonzeroIndex p.terms)⟩,
      by simp [hk, sliceRange, hb], fun d => ?_⟩
    have hdrop : (p.terms.take (p.terms.length - k)).drop (firstNonzeroIndex p.terms)
        = (p.terms.dropWhile isZero).take ((p.terms.dropWhile isZero).length - k) := by
      rw [List.drop_take, drop_firstNonzeroIndex]; congr 1; omega
    rw [hdrop, coeff_descPoly_take, descPoly_dropWhile]

/-- C14, missing: `k = i32::MIN`, and values with leading zeros whose trimmed length is smaller
than the shift.  `p >> k` (`k ≥ 0`) and `p << k` (`k < 0`) divide by the power of `x` when the shift is
at most the trimmed length or exceeds the stored length; in particular for every trimmed `p`. -/
theorem C14_dense_shr_partial (p : Poly R) (k : Nat)
    (h : p.terms.length < k ∨ k ≤ (Poly.new p.terms).terms.length) :
    (∃ r, p.shr (k : Int) = .ok r ∧ IsShiftRight (descPoly p.terms) (descPoly r.terms) k) ∧
    (0 < k → k < 2 ^ 31 → ∃ r, p.shl (-(k : Int)) = .ok r ∧
      IsShiftRight (descPoly p.terms) (descPoly r.terms) k) := by
  obtain ⟨r, h1, h2⟩ := shrPos_ok p k h
  refine ⟨⟨r, ?_, h2⟩, fun h0 hlt => ⟨r, ?_, h2⟩⟩
  · unfold Poly.shr; rw [if_neg (by omega)]; simpa using h1
  · unfold Poly.shl negI32
    rw [if_pos (by omega), if_neg (by omega)]
    simpa using h1

/-- C14 for trimmed values (in particular everything built by `new`): no extra condition. -/
theorem C14_dense_shr_trimmed (p : Poly R) (hp : p.trim = p) (k : Nat) :
    ∃ r, p.shr (k : Int) = .ok r ∧ IsShiftRight (descPoly p.terms) (descPoly r.terms) k := by
  refine (C14_dense_shr_partial p k ?_).1
  have : (Poly.new p.terms).terms = p.terms := by
    have h2 : Poly.new p.terms = p.trim := rfl
    rw [h2, hp]
  rw [this]; omega

end

/-- C14: the exact condition under which `p >> k` (`k ≥ 0`) panics, for any coefficient type. -/
theorem C14_dense_shr_panics_iff {N : Type} [Zero N] [NumZero N] (p : Poly N) (k : Nat) :
    p.shr (k : Int) = .panic ↔ (Poly.new p.terms).terms.length < k ∧ k ≤ p.terms.length := by
  unfold Poly.shr Poly.shrPos
  rw [if_neg (by omega), new_terms]
  have hadd := firstNonzeroIndex_add p.terms
  simp only [Int.toNat_natCast, sliceRange]
  by_cases hk : k > p.terms.length
  · simp [hk]
  · by_cases hb : firstNonzeroIndex p.terms ≤ p.terms.length - k
    · simp [hk, hb]; omega
    · simp [hk, hb]; omega

/-- C14 is false as stated: an un-trimmed value (as produced by `a - b`) makes `>>` panic, and
`i32::MIN` panics for every value and all four operators. -/
theorem C14_dense_shift_false :
    ((⟨[1, 2, 7]⟩ : Poly ℤ).sub ⟨[1, 2, 4]⟩ = .ok ⟨[0, 0, 3]⟩ ∧
      (⟨[0, 0, 3]⟩ : Poly ℤ).shr 2 = .panic ∧ (⟨[0, 0, 3]⟩ : Poly ℤ).shl (-2) = .panic) ∧
    (∀ p : Poly ℤ, p.shl (-2 ^ 31) = .panic ∧ p.shr (-2 ^ 31) = .panic ∧
      p.shlAssign (-2 ^ 31) = .panic ∧ p.shrAssign (-2 ^ 31) = .panic) := by
  refine ⟨by decide, fun p => ?_⟩
  simp [Poly.shl, Poly.shr, Poly.shlAssign, Poly.shrAssign, negI32]

example : (⟨[1, 2, 3]⟩ : Poly ℤ).shl 2 = .ok ⟨[1, 2, 3, 0, 0]⟩ ∧
    (⟨[1, 2, 3]⟩ : Poly ℤ).shr 1 = .ok ⟨[1, 2]⟩ ∧ (⟨[1, 2, 3]⟩ : Poly ℤ).shl (-1) = .ok ⟨[1, 2]⟩ ∧
    (⟨[0, 2, 3]⟩ : Poly ℤ).shr 2 = .ok ⟨[]⟩ ∧ (⟨[0, 0, 3]⟩ : Poly ℤ).shrAssign 2 = .ok ⟨[0]⟩ ∧
    (⟨[1, 2, 3]⟩ : Poly ℤ).trim = ⟨[1, 2, 3]⟩ := by decide

end Rustnomial
