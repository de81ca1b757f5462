import Verif.Props.Fixed
import Verif.Props.FindRoots

/-!
# C63: what evaluation and powers of monomials return for every exponent

`upow` keeps the low 32 bits of the exponent, as `u32` for the integer types and as `i32` for the float types.
-/

open Polynomial

namespace Rustnomial

theorem pow_mod_eq_iff (x : ℤ) (k : Nat) :
    x ^ (k % 2 ^ 32) = x ^ k ↔ k < 2 ^ 32 ∨ x = 1 ∨ x = -1 ∨ (x = 0 ∧ k % 2 ^ 32 ≠ 0) := by
  have hle : k % 2 ^ 32 ≤ k := Nat.mod_le _ _
  constructor
  · intro h
    by_contra hc
    push Not at hc
    obtain ⟨h1, h2, h3, h4⟩ := hc
    by_cases h0 : x = 0
    · subst h0
      rw [h4 rfl, pow_zero, zero_pow (by omega)] at h
      exact one_ne_zero h
    · have hab : 1 < x.natAbs := by omega
      have h5 : x.natAbs ^ (k % 2 ^ 32) = x.natAbs ^ k := by rw [← Int.natAbs_pow, h, Int.natAbs_pow]
      have := Nat.pow_right_injective hab h5
      omega
  · rintro (h | rfl | rfl | ⟨rfl, h⟩)
    · rw [Nat.mod_eq_of_lt h]
    · simp
    · conv_rhs => rw [← Nat.mod_add_div k (2 ^ 32), pow_add, pow_mul]
      norm_num
    · rw [zero_pow h, zero_pow (by omega)]

/-- C63 (Monomial over the integers, every degree): the degree is taken modulo 2^32, and the value is right exactly
when the degree is below 2^32, the coefficient is zero, or the point is 1, -1 or 0 (0 unless the truncated degree
is 0). -/
theorem C63_monomial_eval_right_iff (m : Monomial ℤ) (x : ℤ) :
    m.eval x = m.coefficient * x ^ (m.deg % 2 ^ 32) ∧
    (m.eval x = m.poly.eval x ↔ m.coefficient = 0 ∨ m.deg < 2 ^ 32 ∨ x = 1 ∨ x = -1 ∨
      (x = 0 ∧ m.deg % 2 ^ 32 ≠ 0)) := by
  have h1 : m.eval x = m.coefficient * x ^ (m.deg % 2 ^ 32) := rfl
  have h2 : m.poly.eval x = m.coefficient * x ^ m.deg := by simp [Monomial.poly]
  refine ⟨h1, ?_⟩
  rw [h1, h2, mul_eq_mul_left_iff, pow_mod_eq_iff]
  tauto

-- the degree 2^32 + 3 acts as 3
example : (⟨5, 2 ^ 32 + 3⟩ : Monomial ℤ).eval 2 = 40 := by decide +kernel

theorem asI32_le (k : Nat) : asI32 k ≤ k := by
  have := Nat.mod_le k (2 ^ 32)
  unfold asI32
  split <;> omega

theorem asI32_eq_iff (k : Nat) : asI32 k = k ↔ k < 2 ^ 31 := by
  have := Nat.mod_le k (2 ^ 32)
  unfold asI32
  constructor
  · intro h
    split at h <;> omega
  · intro h
    rw [if_pos (by omega)]
    omega

theorem zpow_asI32_eq_iff {K : Type} [Field K] [LinearOrder K] [IsStrictOrderedRing K] {x : K} (hx : x ≠ 0)
    (k : Nat) : x ^ asI32 k = x ^ k ↔ k < 2 ^ 31 ∨ x = 1 ∨ x = -1 := by
  constructor
  · intro h
    by_contra hc
    push Not at hc
    obtain ⟨h1, h2, h3⟩ := hc
    have habs : |x| ^ asI32 k = |x| ^ (k : ℤ) := by rw [← abs_zpow, h, zpow_natCast, abs_pow]
    have hpos : 0 < |x| := abs_pos.2 hx
    have hne : |x| ≠ 1 := fun e => by
      rcases eq_or_eq_neg_of_abs_eq e with e | e
      · exact h2 e
      · exact h3 e
    exact not_lt.2 h1 ((asI32_eq_iff k).1 (zpow_right_injective₀ hpos hne habs))
  · rintro (h | rfl | rfl)
    · rw [(asI32_eq_iff k).2 h, zpow_natCast]
    · simp
    · rw [neg_one_zpow_eq_ite, neg_one_pow_eq_ite]
      have : Even (asI32 k) ↔ Even k := by
        unfold asI32
        rw [Nat.even_iff, Int.even_iff]
        split <;> omega
      simp [this]

/-- C63 (Monomial over idealised floats, every degree): the degree is taken as an `i32`, so a degree whose bit 31 is
set acts as a negative exponent; at a non-zero point the value is right exactly when the degree is below 2^31, the
coefficient is zero, or the point is 1 or -1. -/
theorem C63_monomial_eval_float (m : Monomial ℝ) (x : ℝ) (hx : x ≠ 0) :
    m.eval x = m.coefficient * x ^ asI32 m.deg ∧
    (m.eval x = m.poly.eval x ↔ m.coefficient = 0 ∨ m.deg < 2 ^ 31 ∨ x = 1 ∨ x = -1) := by
  have h1 : m.eval x = m.coefficient * x ^ asI32 m.deg := rfl
  have h2 : m.poly.eval x = m.coefficient * x ^ m.deg := by simp [Monomial.poly]
  refine ⟨h1, ?_⟩
  rw [h1, h2, mul_eq_mul_left_iff, zpow_asI32_eq_iff hx]
  tauto

-- the degree 2^32 - 1 acts as -1: 6 x^(2^32 - 1) at 2 gives 3
example : (⟨6, 2 ^ 32 - 1⟩ : Monomial ℝ).eval 2 = 3 := by
  have : asI32 (2 ^ 32 - 1) = -1 := by decide
  rw [(C63_monomial_eval_float _ _ (by norm_num)).1, this]
  norm_num

/-- C63 (`pow` of a monomial over the integers, every exponent): the coefficient is raised to the exponent modulo
2^32 while the degree is multiplied by the full exponent; the result is the power exactly when the exponent is below
2^32 or the coefficient is 1, -1, or 0 (0 unless the truncated exponent is 0). -/
theorem C63_monomial_pow_right_iff (m : Monomial ℤ) (n : Nat) :
    m.pow n = ⟨m.coefficient ^ (n % 2 ^ 32), m.deg * n⟩ ∧
    ((m.pow n).poly = m.poly ^ n ↔ n < 2 ^ 32 ∨ m.coefficient = 1 ∨ m.coefficient = -1 ∨
      (m.coefficient = 0 ∧ n % 2 ^ 32 ≠ 0)) := by
  have h1 : m.pow n = ⟨m.coefficient ^ (n % 2 ^ 32), m.deg * n⟩ := rfl
  refine ⟨h1, ?_⟩
  rw [h1, ← pow_mod_eq_iff]
  simp only [Monomial.poly]
  rw [mul_pow, ← C_pow, ← pow_mul]
  constructor
  · intro h
    have := congrArg (fun q => Polynomial.coeff q (m.deg * n)) h
    simpa only [coeff_C_mul, coeff_X_pow_self, mul_one] using this
  · intro h; rw [h]

example : (⟨-3, 2⟩ : Monomial ℤ).pow 5 = ⟨-243, 10⟩ ∧ (⟨7, 1⟩ : Monomial ℤ).pow (2 ^ 32) = ⟨1, 2 ^ 32⟩ := by
  decide +kernel

end Rustnomial
