import Verif.Model.FloatRoots
import Verif.Props.FloatEval
import Mathlib.Analysis.Real.Sqrt
import Mathlib.Tactic.Rify

/-!
# Lemmas about the rounded square root
-/

namespace Rustnomial

/-- The rational number that stands for `√n`. -/
theorem sqrt_sticky (n t : Nat) :
    ((4 * n ≤ t * t ↔ 2 * (4 * n).sqrt + (if (4 * n).sqrt * (4 * n).sqrt = 4 * n then 0 else 1) ≤ 2 * t) ∧
     (t * t ≤ 4 * n ↔ 2 * t ≤ 2 * (4 * n).sqrt + (if (4 * n).sqrt * (4 * n).sqrt = 4 * n then 0 else 1))) := by
  have h1 := Nat.sqrt_le (4 * n)
  have h2 : 4 * n < ((4 * n).sqrt + 1) * ((4 * n).sqrt + 1) := Nat.lt_succ_sqrt _
  generalize (4 * n).sqrt = r at *
  split
  · rename_i he
    rw [← he]
    constructor
    · rw [Nat.mul_self_le_mul_self_iff]; omega
    · rw [Nat.mul_self_le_mul_self_iff]; omega
  · rename_i he
    constructor
    · constructor
      · intro h
        have : r * r < t * t := by omega
        have := Nat.mul_self_lt_mul_self_iff.1 this
        omega
      · intro h
        have : r + 1 ≤ t := by omega
        have := Nat.mul_self_le_mul_self this
        omega
    · constructor
      · intro h
        have : t * t < (r + 1) * (r + 1) := by omega
        have := Nat.mul_self_lt_mul_self_iff.1 this
        omega
      · intro h
        have : t ≤ r := by omega
        have := Nat.mul_self_le_mul_self this
        omega

/-- `√n` and the rational number that stands for it lie on the same side of every multiple of one half. -/
theorem sqrt_side (n : Nat) : ∃ num : Nat, roundSqrt p n = roundRat p num 4 ∧ num / 4 ≤ n.sqrt ∧ n.sqrt ≤ num / 4 ∧
    ∀ t : Nat, (2 * √(n : ℝ) ≤ t ↔ 2 * (num / 4 : ℝ) ≤ t) ∧ ((t : ℝ) ≤ 2 * √(n : ℝ) ↔ (t : ℝ) ≤ 2 * (num / 4 : ℝ)) := by
  refine ⟨2 * (4 * n).sqrt + (if (4 * n).sqrt * (4 * n).sqrt = 4 * n then 0 else 1), rfl, ?_, ?_, fun t => ?_⟩
  · have h := (sqrt_sticky n (2 * ((2 * (4 * n).sqrt + (if (4 * n).sqrt * (4 * n).sqrt = 4 * n then 0 else 1)) / 4))).2
    generalize 2 * (4 * n).sqrt + (if (4 * n).sqrt * (4 * n).sqrt = 4 * n then 0 else 1) = num at *
    have := h.2 (by omega)
    rw [Nat.le_sqrt]
    nlinarith
  · have h := (sqrt_sticky n (2 * n.sqrt)).2
    generalize 2 * (4 * n).sqrt + (if (4 * n).sqrt * (4 * n).sqrt = 4 * n then 0 else 1) = num at *
    have := h.1 (by have := Nat.sqrt_le n; nlinarith)
    omega
  · obtain ⟨h1, h2⟩ := sqrt_sticky n t
    generalize 2 * (4 * n).sqrt + (if (4 * n).sqrt * (4 * n).sqrt = 4 * n then 0 else 1) = num at *
    have hs : (2 * √(n : ℝ)) ^ 2 = 4 * n := by rw [mul_pow, Real.sq_sqrt (by positivity)]; norm_num
    have h0 : 0 ≤ 2 * √(n : ℝ) := by positivity
    have ht : (0 : ℝ) ≤ t := by positivity
    constructor
    · have e1 : 2 * √(n : ℝ) ≤ t ↔ 4 * n ≤ t * t := by
        rw [← pow_le_pow_iff_left₀ h0 ht (two_ne_zero), hs, sq]
        exact_mod_cast Iff.rfl
      have e2 : 2 * (num / 4 : ℝ) ≤ t ↔ num ≤ 2 * t := by
        have : 2 * (num / 4 : ℝ) ≤ t ↔ (num : ℝ) ≤ 2 * t := by constructor <;> intro h <;> linarith
        rw [this]; exact_mod_cast Iff.rfl
      rw [e1, e2, h1]
    · have e1 : (t : ℝ) ≤ 2 * √(n : ℝ) ↔ t * t ≤ 4 * n := by
        rw [← pow_le_pow_iff_left₀ ht h0 (two_ne_zero), hs, sq]
        exact_mod_cast Iff.rfl
      have e2 : (t : ℝ) ≤ 2 * (num / 4 : ℝ) ↔ 2 * t ≤ num := by
        have : (t : ℝ) ≤ 2 * (num / 4 : ℝ) ↔ (2 * t : ℝ) ≤ num := by constructor <;> intro h <;> linarith
        rw [this]; exact_mod_cast Iff.rfl
      rw [e1, e2, h2]

theorem abs_sub_le_iff_mid (a b x : ℝ) : |a - x| ≤ |b - x| ↔ 0 ≤ (b - a) * (a + b - 2 * x) := by
  rw [← sq_le_sq]
  constructor <;> intro h <;> nlinarith

theorem mid_side {a b x y : ℝ} (h1 : 2 * x ≤ a + b ↔ 2 * y ≤ a + b) (h2 : a + b ≤ 2 * x ↔ a + b ≤ 2 * y) :
    |a - x| ≤ |b - x| ↔ |a - y| ≤ |b - y| := by
  rw [abs_sub_le_iff_mid, abs_sub_le_iff_mid]
  rcases lt_trichotomy a b with hab | hab | hab
  · rw [mul_nonneg_iff_of_pos_left (by linarith), mul_nonneg_iff_of_pos_left (by linarith), sub_nonneg, sub_nonneg, h1]
  · simp [hab]
  · have e : ∀ z : ℝ, 0 ≤ (b - a) * (a + b - 2 * z) ↔ a + b ≤ 2 * z := by
      intro z
      constructor
      · intro h
        by_contra hc
        push Not at hc
        nlinarith
      · intro h
        nlinarith
    rw [e, e, h2]

/-- The rounded root is a nearest number of `p` significant bits. -/
theorem roundSqrt_nearest {p n m : Nat} (hp : 1 ≤ p) (hm : Representable p m) :
    |(roundSqrt p n : ℝ) - √(n : ℝ)| ≤ |(m : ℝ) - √(n : ℝ)| := by
  obtain ⟨num, he, _, _, hs⟩ := sqrt_side (p := p) n
  have h := roundRat_nearest (num := num) (den := 4) hp (by norm_num) hm
  rw [he]
  obtain ⟨h1, h2⟩ := hs (roundRat p num 4 + m)
  push_cast at h1 h2
  rw [mid_side h1 h2]
  have h' := (Rat.cast_le (K := ℝ)).2 h
  push_cast at h'
  exact h'

/-- Of two numbers equally near, the rounded root is the one with the even significand. -/
theorem roundSqrt_tie {p n m : Nat} (hp : 1 ≤ p) (hm : Representable p m) (hne : m ≠ roundSqrt p n)
    (heq : |(m : ℝ) - √(n : ℝ)| = |(roundSqrt p n : ℝ) - √(n : ℝ)|) (t : Nat) (ht : 2 ^ t ∣ m) :
    2 ^ (t + 1) ∣ roundSqrt p n := by
  obtain ⟨num, he, _, _, hs⟩ := sqrt_side (p := p) n
  rw [he] at hne heq ⊢
  refine roundRat_tie hp (by norm_num) hm hne ?_ t ht
  obtain ⟨h1, h2⟩ := hs (roundRat p num 4 + m)
  push_cast at h1 h2
  have h3 := (mid_side h1 h2).1 heq.ge
  obtain ⟨h1, h2⟩ := hs (m + roundRat p num 4)
  push_cast at h1 h2
  have h4 := (mid_side h1 h2).1 heq.le
  apply Rat.cast_injective (α := ℝ)
  push_cast
  exact le_antisymm h4 h3

theorem representable_roundSqrt {p n : Nat} (hp : 1 ≤ p) : Representable p (roundSqrt p n) :=
  representable_roundRat hp (by norm_num)

/-- Relative error of the rounded root of a number that is not tiny. -/
theorem roundSqrt_error {p n : Nat} (hn : 2 ^ (2 * p) ≤ n) :
    |(roundSqrt p n : ℝ) - √(n : ℝ)| ≤ √(n : ℝ) / 2 ^ p := by
  obtain ⟨num, he, hlo, hhi, hs⟩ := sqrt_side (p := p) n
  obtain ⟨e, k, hee, hr, h1, h2, hk⟩ := roundRat_mul (p := p) (num := num) (den := 4) (by norm_num)
  have hsq : num / 4 = n.sqrt := le_antisymm hlo hhi
  have hge : 2 ^ p ≤ n.sqrt := by
    rw [Nat.le_sqrt, ← pow_add]
    convert hn using 2
    ring
  have hsz : p < (num / 4).size := by
    rw [Nat.lt_size, hsq]; exact hge
  have hpow : 2 ^ e * 2 ^ p ≤ 2 * n.sqrt := by
    rw [← pow_add, hee, Nat.sub_add_cancel hsz.le, ← hsq]
    have : 2 ^ ((num / 4).size - 1) ≤ num / 4 := by
      rw [← Nat.lt_size]; omega
    calc 2 ^ (num / 4).size = 2 * 2 ^ ((num / 4).size - 1) := by rw [← pow_succ']; congr 1; omega
      _ ≤ _ := by omega
  have hsr : (n.sqrt : ℝ) ≤ √(n : ℝ) := Real.nat_sqrt_le_real_sqrt
  have hpow' : (2 : ℝ) ^ e * 2 ^ p ≤ 2 * n.sqrt := by exact_mod_cast hpow
  have hb : |(roundSqrt p n : ℝ) - √(n : ℝ)| ≤ 2 ^ e / 2 := by
    rw [he, hr, abs_le]
    constructor
    · have h4 := (hs (2 * (k * 2 ^ e) + 2 ^ e)).1.2 (by
        push_cast
        have : (num : ℝ) * 2 ≤ 2 * (k * (4 * 2 ^ e)) + 4 * 2 ^ e := by rw [mul_comm]; exact_mod_cast h2
        linarith)
      push_cast at h4 ⊢
      linarith
    · rcases Nat.lt_or_ge (2 * (k * 2 ^ e)) (2 ^ e) with hlt | hge'
      · have : (2 * (k * 2 ^ e) : ℝ) < 2 ^ e := by exact_mod_cast hlt
        have := Real.sqrt_nonneg (n : ℝ)
        push_cast
        linarith
      · have h4 := (hs (2 * (k * 2 ^ e) - 2 ^ e)).2.2 (by
          rw [Nat.cast_sub hge']
          push_cast
          have : 2 * (k * (4 * 2 ^ e)) ≤ (2 * num + 4 * 2 ^ e : ℝ) := by exact_mod_cast h1
          linarith)
        rw [Nat.cast_sub hge'] at h4
        push_cast at h4 ⊢
        linarith
  refine hb.trans ?_
  rw [div_le_div_iff₀ (by norm_num) (by positivity)]
  linarith

end Rustnomial
