import Verif.SpecFloatFactors
import Verif.Props.FloatRoots
import Verif.Props.FloatFixed

/-!
# C94: factors of quadratics over floats
-/

set_option linter.unusedSectionVars false

namespace Rustnomial
namespace Fl
open Polynomial
variable {f : FlFmt}

/-! ## Real arithmetic -/

theorem sq_core {x x0 e h : ℝ} (h1 : |x - x0| ≤ e) (h0 : |x0| ≤ h) :
    |x * x - x0 * x0| ≤ e * (2 * h + e) ∧ |x| ≤ h + e := by
  have he : 0 ≤ e := (abs_nonneg _).trans h1
  have h2 : |x| ≤ h + e := by
    have := abs_sub_abs_le_abs_sub x x0
    linarith
  refine ⟨?_, h2⟩
  rw [show x * x - x0 * x0 = (x - x0) * (x + x0) by ring, abs_mul]
  exact mul_le_mul h1 (by linarith [abs_add_le x x0]) (abs_nonneg _) he

/-- The last step of the bound for the constant coefficient. -/
theorem const_core {u η A g h S : ℝ} (hu : 0 ≤ u) (hu1 : u ≤ 1 / 16) (hη : 0 ≤ η) (hA : 0 < A) (hg : 0 ≤ g)
    (hh : A * h = 11 / 20 * g) (hS : S ≤ g ^ 2) :
    A * ((u * h + η) * (2 * h + (u * h + η)) +
      ((2 * u + u ^ 2) * h + η) * (2 * h + ((2 * u + u ^ 2) * h + η)) +
      (2 * u + u ^ 2) * (h + ((2 * u + u ^ 2) * h + η)) ^ 2 + (3 * u * S + 6 * η) / (4 * A ^ 2)) ≤
    4 * u * g ^ 2 / A + 3 * g * η + 3 * A * η ^ 2 + 2 * η / A := by
  have hu2 : u ^ 2 ≤ 1 / 16 * u := by nlinarith
  set v := 2 * u + u ^ 2 with hv
  have hv0 : 0 ≤ v := by positivity
  have hv1 : v ≤ 33 / 16 * u := by linarith
  have hv2 : v ≤ 33 / 256 := by linarith
  set t := A * η with ht
  have ht0 : 0 ≤ t := by positivity
  set k := 11 / 20 * g with hk
  have hk0 : 0 ≤ k := by positivity
  have key : (u * k + t) * (2 * k + (u * k + t)) + (v * k + t) * (2 * k + (v * k + t)) +
      v * (k + (v * k + t)) ^ 2 + (3 * u * S + 6 * η) / 4 ≤ 4 * u * g ^ 2 + 3 * g * t + 3 * t ^ 2 + 2 * η := by
    have e1 : (u * k + t) * (2 * k + (u * k + t)) + (v * k + t) * (2 * k + (v * k + t)) + v * (k + (v * k + t)) ^ 2 =
        (2 * u + u ^ 2 + 2 * v + v ^ 2 + v * (1 + v) ^ 2) * k ^ 2 +
        (4 + 2 * u + 2 * v + 2 * v * (1 + v)) * (k * t) + (2 + v) * t ^ 2 := by ring
    rw [e1]
    have v2 : v ^ 2 ≤ 33 / 256 * v := by nlinarith
    have v3 : v * v ^ 2 ≤ 33 / 256 * v := by nlinarith
    have c1 : 2 * u + u ^ 2 + 2 * v + v ^ 2 + v * (1 + v) ^ 2 ≤ 10 * u := by
      have : v * (1 + v) ^ 2 = v + 2 * v ^ 2 + v * v ^ 2 := by ring
      rw [this]; linarith
    have c2 : 4 + 2 * u + 2 * v + 2 * v * (1 + v) ≤ 5 := by nlinarith
    have c3 : 2 + v ≤ 3 := by linarith
    have k2 : k ^ 2 = 121 / 400 * g ^ 2 := by rw [hk]; ring
    have d1 := mul_le_mul_of_nonneg_right c1 (sq_nonneg k)
    have d2 := mul_le_mul_of_nonneg_right c2 (mul_nonneg hk0 ht0)
    have d3 := mul_le_mul_of_nonneg_right c3 (sq_nonneg t)
    have d4 := mul_le_mul_of_nonneg_left hS hu
    have d5 : k * t = 11 / 20 * (g * t) := by rw [hk]; ring
    have d6 : 0 ≤ g * t := mul_nonneg hg ht0
    have d7 : 0 ≤ u * g ^ 2 := by positivity
    rw [k2] at d1 ⊢
    rw [d5] at d2 ⊢
    nlinarith
  rw [← hh] at key
  have hA' : A ≠ 0 := hA.ne'
  refine le_of_mul_le_mul_left (?_ : A * _ ≤ A * _) hA
  refine le_trans (le_of_eq ?_) (key.trans (le_of_eq ?_))
  · rw [ht]; field_simp; try ring
  · rw [ht]; field_simp

/-- The last step of the bound for the linear coefficient. -/
theorem lin_core {u η A g h : ℝ} (hu : 0 ≤ u) (hu1 : u ≤ 1 / 16) (hη : 0 ≤ η) (hA : 0 < A) (hg : 0 ≤ g)
    (hh : A * h = 11 / 20 * g) :
    A * (2 * (u * h + η) + 2 * u * (h + ((2 * u + u ^ 2) * h + η))) ≤ 3 * u * g + 3 * A * η := by
  have e : A * (2 * (u * h + η) + 2 * u * (h + ((2 * u + u ^ 2) * h + η))) =
      (2 * u + 2 * u * (1 + (2 * u + u ^ 2))) * (A * h) + (2 + 2 * u) * (A * η) := by ring
  rw [e, hh]
  have hu2 : u ^ 2 ≤ 1 / 16 * u := by nlinarith
  have hu3 : u * (2 * u + u ^ 2) ≤ 33 / 256 * u := by nlinarith
  have c1 : 2 * u + 2 * u * (1 + (2 * u + u ^ 2)) ≤ 5 * u := by nlinarith
  have c2 : 2 + 2 * u ≤ 3 := by linarith
  have h1 : 0 ≤ A * η := by positivity
  have h2 := mul_le_mul_of_nonneg_right c1 (by positivity : 0 ≤ 11 / 20 * g)
  have h3 := mul_le_mul_of_nonneg_right c2 h1
  have h4 : 0 ≤ u * g := by positivity
  nlinarith

theorem abs_pair (x y : ℝ) {M : ℝ} (hx : |x| ≤ M) (hy : |y| ≤ M) : |x + y| + |x - y| ≤ 2 * M := by
  rw [abs_le] at hx hy
  rcases abs_cases (x + y) with ⟨h, -⟩ | ⟨h, -⟩ <;> rcases abs_cases (x - y) with ⟨h', -⟩ | ⟨h', -⟩ <;>
    rw [h, h'] <;> linarith

theorem sq_diff_core {x y M : ℝ} (hx : |x| ≤ M) (hy : |y| ≤ M) : |(x + y) * (x - y)| ≤ M ^ 2 := by
  rw [show (x + y) * (x - y) = x ^ 2 - y ^ 2 by ring, abs_le]
  have q1 := sq_le_sq' (neg_le_of_abs_le hx) (le_of_abs_le hx)
  have q2 := sq_le_sq' (neg_le_of_abs_le hy) (le_of_abs_le hy)
  constructor <;> linarith [sq_nonneg x, sq_nonneg y]

theorem pert_core {u p m δ₁ δ₂ : ℝ} (hu : 0 ≤ u) (h1 : |δ₁| ≤ u * |p|) (h2 : |δ₂| ≤ u * |m|) :
    |δ₁ * m + p * δ₂ + δ₁ * δ₂| ≤ (2 * u + u ^ 2) * |p * m| := by
  refine (abs_add_le _ _).trans ?_
  have t1 : |δ₁ * m| ≤ u * (|p| * |m|) := by
    rw [abs_mul, ← mul_assoc]; exact mul_le_mul_of_nonneg_right h1 (abs_nonneg _)
  have t2 : |p * δ₂| ≤ u * (|p| * |m|) := by
    rw [abs_mul]
    have := mul_le_mul_of_nonneg_left h2 (abs_nonneg p)
    linarith
  have t3 : |δ₁ * δ₂| ≤ u ^ 2 * (|p| * |m|) := by
    rw [abs_mul]
    have := mul_le_mul h1 h2 (abs_nonneg _) (mul_nonneg hu (abs_nonneg p))
    linarith
  have t4 := abs_add_le (δ₁ * m) (p * δ₂)
  rw [abs_mul p m]
  linarith

theorem factor_core {u η A B C S D β σ g : ℝ} (hu : 0 ≤ u) (hu1 : u ≤ 1 / 16) (hη : 0 ≤ η) (hA : A ≠ 0)
    (hS : S = B * B + 4 * |A * C|) (hg : g = √(S + 6 * η))
    (hD : |D - (B * B - 4 * A * C)| ≤ 3 * u * S + 6 * η)
    (hβ : |β - -B / (A * 2)| ≤ u * |-B / (A * 2)| + η)
    (hσ : |σ - √|D| / (A * 2)| ≤ (2 * u + u ^ 2) * |√|D| / (A * 2)| + η) :
    (|A * (2 * β) + B| ≤ 3 * u * g + 3 * |A| * η ∧
      (D < 0 → |A * (β * β + σ * σ) - C| ≤ 4 * u * g ^ 2 / |A| + 3 * g * η + 3 * |A| * η ^ 2 + 2 * η / |A|)) ∧
    ∀ δ₁ δ₂, |δ₁| ≤ u * |β + σ| → |δ₂| ≤ u * |β - σ| →
      |A * ((β + σ + δ₁) + (β - σ + δ₂)) + B| ≤ 3 * u * g + 3 * |A| * η ∧
      (0 ≤ D → |A * ((β + σ + δ₁) * (β - σ + δ₂)) - C| ≤
        4 * u * g ^ 2 / |A| + 3 * g * η + 3 * |A| * η ^ 2 + 2 * η / |A|) := by
  have hA0 : 0 < |A| := abs_pos.2 hA
  have hS0 : 0 ≤ S := by
    have := mul_self_nonneg B
    have := abs_nonneg (A * C)
    rw [hS]; linarith
  have hg0 : 0 ≤ g := by rw [hg]; exact Real.sqrt_nonneg _
  have hg2 : g ^ 2 = S + 6 * η := by rw [hg, Real.sq_sqrt (by linarith)]
  have hSg : S ≤ g ^ 2 := by rw [hg2]; linarith
  set h := 11 / 20 * g / |A| with hh
  have hAh : |A| * h = 11 / 20 * g := by rw [hh]; field_simp
  have hden : |A * 2| = 2 * |A| := by rw [abs_mul, abs_of_pos (by norm_num : (0 : ℝ) < 2), mul_comm]
  have hbound : ∀ x : ℝ, x * x ≤ (11 / 10 * g) ^ 2 → |x / (A * 2)| ≤ h := by
    intro x hx
    have hx' : |x| ≤ 11 / 10 * g := abs_le_of_sq_le_sq (by rw [sq]; exact hx) (by positivity)
    rw [abs_div, hden, hh, div_le_div_iff₀ (by positivity) hA0]
    nlinarith
  have hb0 : |-B / (A * 2)| ≤ h := hbound _ (by
    have : B * B ≤ S := by rw [hS]; linarith [abs_nonneg (A * C)]
    nlinarith)
  have hDabs : |D| ≤ (11 / 10 * g) ^ 2 := by
    have h1 : |B * B - 4 * A * C| ≤ S := by
      rw [hS, abs_le]
      have h2 := mul_self_nonneg B
      have h3 := abs_le.1 (le_refl |A * C|)
      constructor <;> nlinarith [h3.1, h3.2]
    have h2 := abs_sub_abs_le_abs_sub D (B * B - 4 * A * C)
    have h3 : u * S ≤ 1 / 16 * S := mul_le_mul_of_nonneg_right hu1 hS0
    nlinarith
  have hsD : √|D| * √|D| = |D| := Real.mul_self_sqrt (abs_nonneg _)
  have hs0 : |√|D| / (A * 2)| ≤ h := hbound _ (by rw [hsD]; exact hDabs)
  have hβ' : |β - -B / (A * 2)| ≤ u * h + η := hβ.trans (by nlinarith)
  have hv : 0 ≤ 2 * u + u ^ 2 := by positivity
  have hσ' : |σ - √|D| / (A * 2)| ≤ (2 * u + u ^ 2) * h + η := hσ.trans (by nlinarith)
  have hh0 : 0 ≤ h := by rw [hh]; positivity
  obtain ⟨b1, b2⟩ := sq_core hβ' hb0
  obtain ⟨s1, s2⟩ := sq_core hσ' hs0
  have hM : |β| ≤ h + ((2 * u + u ^ 2) * h + η) := b2.trans (by nlinarith [sq_nonneg u])
  have hM0 : 0 ≤ h + ((2 * u + u ^ 2) * h + η) := (abs_nonneg _).trans hM
  have lin := lin_core hu hu1 hη hA0 hg0 hAh
  have con := const_core hu hu1 hη hA0 hg0 hAh hSg
  have mid : |A| * |2 * (β - -B / (A * 2))| ≤ |A| * (2 * (u * h + η)) := by
    refine mul_le_mul_of_nonneg_left ?_ hA0.le
    rw [abs_mul, abs_of_pos (by norm_num : (0 : ℝ) < 2)]
    linarith
  have hD4 : |D / (4 * A ^ 2) - (B * B - 4 * A * C) / (4 * A ^ 2)| ≤ (3 * u * S + 6 * η) / (4 * |A| ^ 2) := by
    rw [← sub_div, abs_div, sq_abs, abs_of_pos (by positivity : 0 < 4 * A ^ 2)]
    exact div_le_div_of_nonneg_right hD (by positivity)
  have hbb : -B / (A * 2) * (-B / (A * 2)) - (B * B - 4 * A * C) / (4 * A ^ 2) = C / A := by
    field_simp; ring
  have hss : √|D| / (A * 2) * (√|D| / (A * 2)) = |D| / (4 * A ^ 2) := by
    rw [div_mul_div_comm, hsD]; congr 1; ring
  have ratio : A * (C / A) = C := by field_simp
  -- the product before the last rounding
  have prod : ∀ ε : ℝ, (ε = 1 ∨ ε = -1) → ε * |D| = D →
      |(β * β - ε * (σ * σ)) - C / A| ≤ (u * h + η) * (2 * h + (u * h + η)) +
        ((2 * u + u ^ 2) * h + η) * (2 * h + ((2 * u + u ^ 2) * h + η)) + (3 * u * S + 6 * η) / (4 * |A| ^ 2) := by
    intro ε hε hεD
    have e : (β * β - ε * (σ * σ)) - C / A = (β * β - -B / (A * 2) * (-B / (A * 2))) -
        ε * (σ * σ - √|D| / (A * 2) * (√|D| / (A * 2))) -
        (D / (4 * A ^ 2) - (B * B - 4 * A * C) / (4 * A ^ 2)) := by
      rw [hss, ← hbb]
      have : D / (4 * A ^ 2) = ε * (|D| / (4 * A ^ 2)) := by rw [← mul_div_assoc, hεD]
      rw [this]; ring
    rw [e]
    have hε1 : |ε * (σ * σ - √|D| / (A * 2) * (√|D| / (A * 2)))| =
        |σ * σ - √|D| / (A * 2) * (√|D| / (A * 2))| := by
      rw [abs_mul]
      rcases hε with rfl | rfl <;> simp
    refine (abs_sub _ _).trans (add_le_add ((abs_sub _ _).trans (add_le_add b1 ?_)) hD4)
    rw [hε1]; exact s1
  refine ⟨⟨?_, ?_⟩, ?_⟩
  · refine le_trans ?_ lin
    rw [show A * (2 * β) + B = A * (2 * (β - -B / (A * 2))) by field_simp; ring, abs_mul]
    refine mid.trans (mul_le_mul_of_nonneg_left ?_ hA0.le)
    have : 0 ≤ 2 * u * (h + ((2 * u + u ^ 2) * h + η)) := by positivity
    linarith
  · intro hneg
    have := prod (-1) (Or.inr rfl) (by rw [abs_of_neg hneg]; ring)
    refine le_trans ?_ con
    rw [show A * (β * β + σ * σ) - C = A * ((β * β - -1 * (σ * σ)) - C / A) by rw [mul_sub, ratio]; ring, abs_mul]
    refine mul_le_mul_of_nonneg_left (this.trans ?_) hA0.le
    have : 0 ≤ (2 * u + u ^ 2) * (h + ((2 * u + u ^ 2) * h + η)) ^ 2 := by positivity
    linarith
  · intro δ₁ δ₂ h1 h2
    constructor
    · refine le_trans ?_ lin
      rw [show A * ((β + σ + δ₁) + (β - σ + δ₂)) + B = A * (2 * (β - -B / (A * 2)) + (δ₁ + δ₂)) by field_simp; ring,
        abs_mul]
      refine mul_le_mul_of_nonneg_left ((abs_add_le _ _).trans (add_le_add ?_ ?_)) hA0.le
      · rw [abs_mul, abs_of_pos (by norm_num : (0 : ℝ) < 2)]
        linarith
      · refine (abs_add_le _ _).trans ((add_le_add h1 h2).trans ?_)
        rw [← mul_add]
        have := mul_le_mul_of_nonneg_left (abs_pair β σ hM s2) hu
        linarith
    · intro hpos
      have h3 := prod 1 (Or.inl rfl) (by rw [abs_of_nonneg hpos]; ring)
      refine le_trans ?_ con
      have e : A * ((β + σ + δ₁) * (β - σ + δ₂)) - C =
          A * (((β * β - 1 * (σ * σ)) - C / A) + (δ₁ * (β - σ) + (β + σ) * δ₂ + δ₁ * δ₂)) := by
        linear_combination ratio
      rw [e, abs_mul]
      refine mul_le_mul_of_nonneg_left ((abs_add_le _ _).trans ?_) hA0.le
      have h4 := sq_diff_core hM s2
      have h5 := pert_core hu h1 h2
      exact (add_le_add h3 (h5.trans (mul_le_mul_of_nonneg_left h4 hv))).trans_eq (add_right_comm _ _ _)

/-! ## The shape of the computed roots -/

theorem roots_parts (hp : 4 ≤ f.p) (hq : 2 * f.p ≤ f.q) (hw : f.p + f.q < f.w) (a b c : Fl f)
    (ha : a.Valid) (ha0 : a.toRat ≠ 0) (ha2 : |a.toRat| * 2 ≤ maxFinite f) (r : Roots (Fl f))
    (hr : (QuadraticTrinomial.new a b c).roots = .ok r) (w₁ w₂ : ℂ) (hw12 : FinitePair r w₁ w₂) :
    b.isFinite = true ∧ c.isFinite = true ∧ ∃ D β σ : ℝ,
      |D - ((b.toRat : ℝ) * b.toRat - 4 * a.toRat * c.toRat)| ≤
        3 * uro f * ((b.toRat : ℝ) * b.toRat + 4 * |(a.toRat : ℝ) * c.toRat|) + 6 * eta f ∧
      |β - -(b.toRat : ℝ) / ((a.toRat : ℝ) * 2)| ≤ uro f * |-(b.toRat : ℝ) / ((a.toRat : ℝ) * 2)| + eta f ∧
      |σ - √|D| / ((a.toRat : ℝ) * 2)| ≤
        (2 * (uro f : ℝ) + (uro f : ℝ) ^ 2) * |√|D| / ((a.toRat : ℝ) * 2)| + eta f ∧
      ((0 ≤ D ∧ (∃ x y, r = .twoRealRoots x y) ∧ ∃ δ₁ δ₂ : ℝ, |δ₁| ≤ uro f * |β + σ| ∧ |δ₂| ≤ uro f * |β - σ| ∧
        w₁ = ((β + σ + δ₁ : ℝ) : ℂ) ∧ w₂ = ((β - σ + δ₂ : ℝ) : ℂ)) ∨
       (D < 0 ∧ (∃ x y, r = .twoComplexRoots x y) ∧ w₁ = ⟨β, σ⟩ ∧ w₂ = ⟨β, -σ⟩)) := by
  have haf : a.isFinite = true := by
    cases a with
    | fin s m => rfl
    | _ => exact absurd rfl ha0
  have h2c : ((2 : Nat) : Fl f) = fin false (2 ^ 1 * 2 ^ f.q) :=
    ofNat_small hp hw (Nat.pow_le_pow_right (n := 2) (i := 1) (by norm_num) (by omega))
  have h2r : ((2 : Nat) : Fl f).toRat = 2 := by
    rw [h2c, toRat]
    have : (2 : ℚ) ^ f.q ≠ 0 := by positivity
    push_cast
    field_simp
    try simp
  have hQf : (a * ((2 : Nat) : Fl f)).isFinite = true :=
    (C65_no_overflow (by omega) (by omega) a _ haf (by rw [h2c]; rfl)).2.1 (by
      rw [h2r, abs_mul, abs_of_pos (by norm_num : (0 : ℚ) < 2)]; exact ha2)
  have hQ : (a * ((2 : Nat) : Fl f)).toRat = a.toRat * 2 := by
    rw [h2c] at hQf ⊢
    rw [mul_pow2 (by omega) ha 1 hQf, pow_one]
  have hQ0 : (a * ((2 : Nat) : Fl f)).toRat ≠ 0 := by rw [hQ]; exact mul_ne_zero ha0 (by norm_num)
  change trinomialRoots a b c = _ at hr
  rw [trinomialRoots_fl] at hr
  generalize hD : discriminantTrinomial a b c = D at hr
  generalize a * ((2 : Nat) : Fl f) = Q at *
  have hDf : D.isFinite = true := by
    by_cases h1 : isZero D = true
    · obtain ⟨s, rfl⟩ := isZero_iff.1 h1
      rfl
    · simp only [if_neg h1] at hr
      have key : (div (sqrt (abs D)) Q).isFinite = true := by
        by_cases h2 : isPositive D = true
        · simp only [if_pos h2] at hr
          cases hr
          exact (finite_of_add hw12.1).2
        · simp only [if_neg h2] at hr
          cases hr
          exact hw12.2.1
      exact finite_of_sqrt (x := D) rfl (finite_of_div key)
  obtain ⟨-, hbf, hcf, hDe⟩ := disc_error hp hw a b c (by rw [hD]; exact hDf)
  rw [hD] at hDe
  refine ⟨hbf, hcf, ?_⟩
  have hA : (a.toRat : ℝ) ≠ 0 := by exact_mod_cast ha0
  have hu : (0 : ℝ) ≤ (uro f : ℝ) := by exact_mod_cast uro_nonneg
  have hη : (0 : ℝ) ≤ (eta f : ℝ) := by exact_mod_cast eta_nonneg
  have hβ : ∀ {β : Fl f}, div (-b) Q = β → β.isFinite = true →
      |(β.toRat : ℝ) - -(b.toRat : ℝ) / ((a.toRat : ℝ) * 2)| ≤
        uro f * |-(b.toRat : ℝ) / ((a.toRat : ℝ) * 2)| + eta f := by
    rintro β rfl h
    have h1 := div_error (by rw [isFinite_neg]; exact hbf) hQf hQ0 h
    rw [hQ, toRat_neg] at h1
    have h2 := (Rat.cast_le (K := ℝ)).2 h1
    push_cast at h2
    exact h2
  have hσ : ∀ {σ : Fl f}, div (sqrt (abs D)) Q = σ → σ.isFinite = true →
      |(σ.toRat : ℝ) - √|(D.toRat : ℝ)| / ((a.toRat : ℝ) * 2)| ≤
        (2 * (uro f : ℝ) + (uro f : ℝ) ^ 2) * |√|(D.toRat : ℝ)| / ((a.toRat : ℝ) * 2)| + eta f := by
    rintro σ rfl h
    have hf := finite_of_div h
    have h1 := div_error hf hQf hQ0 h
    rw [hQ] at h1
    have h2 := (Rat.cast_le (K := ℝ)).2 h1
    push_cast at h2
    have h3 := C83_sqrt_error hq D _ hDf rfl hf
    push_cast at h3
    generalize ((sqrt (abs D)).toRat : ℝ) = q at *
    generalize ((div (sqrt (abs D)) Q).toRat : ℝ) = s' at *
    have h4 : |q / ((a.toRat : ℝ) * 2) - √|(D.toRat : ℝ)| / ((a.toRat : ℝ) * 2)| ≤
        uro f * |√|(D.toRat : ℝ)| / ((a.toRat : ℝ) * 2)| := by
      rw [← sub_div, abs_div, abs_div, abs_of_nonneg (Real.sqrt_nonneg |(D.toRat : ℝ)|), ← mul_div_assoc]
      exact div_le_div_of_nonneg_right h3 (abs_nonneg _)
    have h5 := abs_sub_abs_le_abs_sub (q / ((a.toRat : ℝ) * 2)) (√|(D.toRat : ℝ)| / ((a.toRat : ℝ) * 2))
    have h6 := abs_sub_le s' (q / ((a.toRat : ℝ) * 2)) (√|(D.toRat : ℝ)| / ((a.toRat : ℝ) * 2))
    have h7 : uro f * |q / ((a.toRat : ℝ) * 2)| ≤
        uro f * ((1 + uro f) * |√|(D.toRat : ℝ)| / ((a.toRat : ℝ) * 2)|) :=
      mul_le_mul_of_nonneg_left (by linarith) hu
    nlinarith
  by_cases h1 : isZero D = true
  · rw [if_pos h1] at hr
    cases hr
    obtain ⟨hf, -, rfl, rfl⟩ := hw12
    have hD0 : (D.toRat : ℝ) = 0 := by
      have := (isZero_iff_toRat hDf).1 h1
      rw [this]; simp
    refine ⟨D.toRat, (div (-b) Q).toRat, 0, hDe, hβ rfl hf, ?_, Or.inl ⟨hD0.ge, ⟨_, _, rfl⟩, 0, 0, ?_, ?_, ?_, ?_⟩⟩
    · rw [hD0]; simp [hη]
    · simp; positivity
    · simp; positivity
    · apply Complex.ext <;> simp
    · apply Complex.ext <;> simp
  rw [if_neg h1] at hr
  by_cases h2 : isPositive D = true
  · rw [if_pos h2] at hr
    cases hr
    obtain ⟨hf1, hf2, rfl, rfl⟩ := hw12
    have hd : (0 : ℝ) < D.toRat := by exact_mod_cast (isPositive_iff hDf).1 h2
    obtain ⟨g1, g2⟩ := finite_of_add hf1
    have e1 := (Rat.cast_le (K := ℝ)).2 (add_error hf1)
    have e2 := (Rat.cast_le (K := ℝ)).2 (sub_error hf2)
    push_cast at e1 e2
    refine ⟨D.toRat, (div (-b) Q).toRat, (div (sqrt (abs D)) Q).toRat, hDe, hβ rfl g1, hσ rfl g2,
      Or.inl ⟨hd.le, ⟨_, _, rfl⟩, _, _, e1, e2, ?_, ?_⟩⟩
    · apply Complex.ext <;> simp
    · apply Complex.ext <;> simp
  · rw [if_neg h2] at hr
    cases hr
    obtain ⟨g1, g2, -, -, rfl, rfl⟩ := hw12
    have hd : (D.toRat : ℝ) < 0 := by
      have h3 : ¬ (0 : ℚ) < D.toRat := fun h => h2 ((isPositive_iff hDf).2 h)
      have h4 : D.toRat ≠ 0 := fun h => h1 ((isZero_iff_toRat hDf).2 h)
      have h5 : D.toRat < 0 := lt_of_le_of_ne (not_lt.1 h3) h4
      exact_mod_cast h5
    refine ⟨D.toRat, (div (-b) Q).toRat, (div (sqrt (abs D)) Q).toRat, hDe, hβ rfl g1, hσ rfl g2,
      Or.inr ⟨hd, ⟨_, _, rfl⟩, rfl, ?_⟩⟩
    simp only [toRat_neg]
    apply Complex.ext <;> simp

/-- C94: the quadratic with leading coefficient `a` whose roots are the two which `roots` returns differs from
`ax² + bx + c` by at most `3ug + 3|a|η` in the linear coefficient and by at most
`4ug²/|a| + 3gη + 3|a|η² + 2η/|a|` in the constant one, where `g² = b² + 4|ac| + 6η`. -/
theorem C94_roots_backward (hp : 4 ≤ f.p) (hq : 2 * f.p ≤ f.q) (hw : f.p + f.q < f.w) (a b c : Fl f)
    (ha : a.Valid) (ha0 : a.toRat ≠ 0) (ha2 : |a.toRat| * 2 ≤ maxFinite f) (r : Roots (Fl f))
    (hr : (QuadraticTrinomial.new a b c).roots = .ok r) (w₁ w₂ : ℂ) (hw12 : FinitePair r w₁ w₂) (g : ℝ)
    (hg : g = √((b.toRat : ℝ) ^ 2 + 4 * |(a.toRat : ℝ) * c.toRat| + 6 * eta f)) :
    ‖(a.toRat : ℂ) * (w₁ + w₂) + b.toRat‖ ≤ 3 * uro f * g + 3 * |(a.toRat : ℝ)| * eta f ∧
    ‖(a.toRat : ℂ) * (w₁ * w₂) - c.toRat‖ ≤ 4 * uro f * g ^ 2 / |(a.toRat : ℝ)| + 3 * g * eta f +
      3 * |(a.toRat : ℝ)| * (eta f : ℝ) ^ 2 + 2 * eta f / |(a.toRat : ℝ)| := by
  obtain ⟨-, -, D, β, σ, hD, hβ, hσ, hcase⟩ := roots_parts hp hq hw a b c ha ha0 ha2 r hr w₁ w₂ hw12
  have hA : (a.toRat : ℝ) ≠ 0 := by exact_mod_cast ha0
  have hu : (0 : ℝ) ≤ (uro f : ℝ) := by exact_mod_cast uro_nonneg
  have hη : (0 : ℝ) ≤ (eta f : ℝ) := by exact_mod_cast eta_nonneg
  obtain ⟨⟨k1, k2⟩, k3⟩ := factor_core (g := g) hu (uro_le hp) hη hA rfl (by rw [hg, sq]) hD hβ hσ
  rcases hcase with ⟨hd, -, δ₁, δ₂, e1, e2, rfl, rfl⟩ | ⟨hd, -, rfl, rfl⟩
  · obtain ⟨q1, q2⟩ := k3 δ₁ δ₂ e1 e2
    constructor
    · refine le_trans (le_of_eq ?_) q1
      rw [← Real.norm_eq_abs, ← Complex.norm_real]
      push_cast
      rfl
    · refine le_trans (le_of_eq ?_) (q2 hd)
      rw [← Real.norm_eq_abs, ← Complex.norm_real]
      push_cast
      rfl
  · have m1 : (⟨β, σ⟩ + ⟨β, -σ⟩ : ℂ) = ((2 * β : ℝ) : ℂ) := by
      apply Complex.ext <;> simp
      ring
    have m2 : (⟨β, σ⟩ * ⟨β, -σ⟩ : ℂ) = ((β * β + σ * σ : ℝ) : ℂ) := by
      apply Complex.ext <;> simp
      ring
    rw [m1, m2]
    constructor
    · refine le_trans (le_of_eq ?_) k1
      rw [← Real.norm_eq_abs, ← Complex.norm_real]
      push_cast
      rfl
    · refine le_trans (le_of_eq ?_) (k2 hd)
      rw [← Real.norm_eq_abs, ← Complex.norm_real]
      push_cast
      rfl

/-! ## Factors -/

theorem roots_kind (a b c : Fl f) :
    (∃ x y, (QuadraticTrinomial.new a b c).roots = .ok (.twoRealRoots x y)) ∨
    (∃ x y, (QuadraticTrinomial.new a b c).roots = .ok (.twoComplexRoots x y)) := by
  have he : (QuadraticTrinomial.new a b c).roots = _ := trinomialRoots_fl a b c
  rw [he]
  split
  · exact Or.inl ⟨_, _, rfl⟩
  · split
    · exact Or.inl ⟨_, _, rfl⟩
    · exact Or.inr ⟨_, _, rfl⟩

theorem monic_product {R : Type} [CommRing R] (k x y : R) :
    let P : R[X] := Polynomial.C k * (Polynomial.C 1 * X + Polynomial.C x) * (Polynomial.C 1 * X + Polynomial.C y)
    P.coeff 2 = k ∧ P.coeff 1 = k * (x + y) ∧ P.coeff 0 = k * (x * y) ∧ ∀ n, 2 < n → P.coeff n = 0 := by
  intro P
  have hP : P = Polynomial.C k * X ^ 2 + Polynomial.C (k * (x + y)) * X + Polynomial.C (k * (x * y)) := by
    simp only [P, map_mul, map_add, map_one]
    ring
  have hc : ∀ n, P.coeff n = if n = 0 then k * (x * y) else if n = 1 then k * (x + y) else if n = 2 then k else 0 := by
    intro n
    rw [hP]
    rcases n with _ | _ | _ | n
    all_goals simp [coeff_X]
  refine ⟨by rw [hc]; simp, by rw [hc]; simp, by rw [hc]; simp, fun n hn => ?_⟩
  rw [hc, if_neg (by omega), if_neg (by omega), if_neg (by omega)]

/-- C94: `real_factors` never panics.  It returns `None` exactly when `roots` finds two complex roots, and otherwise
the leading coefficient with two factors `x - x₁` and `x - x₂` for the two real roots, to the bit. -/
theorem C94_real_factors_shape (a b c : Fl f) :
    ((QuadraticTrinomial.new a b c).realFactors = .ok none ↔
      ∃ z₁ z₂, (QuadraticTrinomial.new a b c).roots = .ok (.twoComplexRoots z₁ z₂)) ∧
    (∀ k l m, (QuadraticTrinomial.new a b c).realFactors = .ok (some (k, l, m)) ↔
      k = a ∧ l.c0 = 1 ∧ m.c0 = 1 ∧
        ∃ x₁ x₂, (QuadraticTrinomial.new a b c).roots = .ok (.twoRealRoots x₁ x₂) ∧ l.c1 = -x₁ ∧ m.c1 = -x₂) := by
  unfold QuadraticTrinomial.realFactors
  rcases roots_kind a b c with ⟨x, y, h⟩ | ⟨x, y, h⟩ <;> rw [h] <;> rw [Res.ok_bind] <;> dsimp only
  · constructor
    · constructor
      · intro h; cases h
      · rintro ⟨_, _, h⟩; cases h
    · intro k l m
      constructor
      · intro h
        cases h
        exact ⟨rfl, rfl, rfl, _, _, rfl, rfl, rfl⟩
      · rintro ⟨rfl, h1, h2, x₁, x₂, h3, h4, h5⟩
        cases h3
        cases l; cases m
        simp only at h1 h2 h4 h5
        subst h1 h2 h4 h5
        rfl
  · constructor
    · exact ⟨fun _ => ⟨_, _, rfl⟩, fun _ => rfl⟩
    · intro k l m
      constructor
      · intro h; cases h
      · rintro ⟨_, _, _, _, _, h, _⟩; cases h

/-- C94: the exact product of the leading coefficient and the two factors which `real_factors` returns has the
leading coefficient `a` and differs from `ax² + bx + c` by at most `3ug + 3|a|η` in the linear coefficient and by at
most `4ug²/|a| + 3gη + 3|a|η² + 2η/|a|` in the constant one, where `g² = b² + 4|ac| + 6η`. -/
theorem C94_real_factors (hp : 4 ≤ f.p) (hq : 2 * f.p ≤ f.q) (hw : f.p + f.q < f.w) (a b c : Fl f)
    (ha : a.Valid) (ha0 : a.toRat ≠ 0) (ha2 : |a.toRat| * 2 ≤ maxFinite f) (k : Fl f) (l m : LinearBinomial (Fl f))
    (h : (QuadraticTrinomial.new a b c).realFactors = .ok (some (k, l, m))) (hl : l.AllFinite) (hm : m.AllFinite)
    (P : ℚ[X]) (hP : P = C k.toRat * l.ratPoly * m.ratPoly) (g : ℝ)
    (hg : g = √((b.toRat : ℝ) ^ 2 + 4 * |(a.toRat : ℝ) * c.toRat| + 6 * eta f)) :
    P.coeff 2 = a.toRat ∧ (∀ n, 2 < n → P.coeff n = 0) ∧
    |(P.coeff 1 : ℝ) - b.toRat| ≤ 3 * uro f * g + 3 * |(a.toRat : ℝ)| * eta f ∧
    |(P.coeff 0 : ℝ) - c.toRat| ≤ 4 * uro f * g ^ 2 / |(a.toRat : ℝ)| + 3 * g * eta f +
      3 * |(a.toRat : ℝ)| * (eta f : ℝ) ^ 2 + 2 * eta f / |(a.toRat : ℝ)| := by
  obtain ⟨rfl, hl0, hm0, x, y, hr, hx, hy⟩ := ((C94_real_factors_shape a b c).2 k l m).1 h
  have hxf : x.isFinite = true := by rw [← isFinite_neg, ← hx]; exact hl.2
  have hyf : y.isFinite = true := by rw [← isFinite_neg, ← hy]; exact hm.2
  obtain ⟨k1, k2⟩ := C94_roots_backward hp hq hw k b c ha ha0 ha2 _ hr ⟨(x.toRat : ℝ), 0⟩ ⟨(y.toRat : ℝ), 0⟩
    ⟨hxf, hyf, rfl, rfl⟩ g hg
  unfold LinearBinomial.ratPoly at hP
  rw [hl0, hm0, hx, hy, toRat_one, toRat_neg, toRat_neg] at hP
  obtain ⟨q2, q1, q0, qn⟩ := monic_product k.toRat (-x.toRat) (-y.toRat)
  rw [← hP] at q2 q1 q0 qn
  refine ⟨q2, qn, ?_, ?_⟩
  · refine le_trans (le_of_eq ?_) k1
    rw [q1, show (⟨(x.toRat : ℝ), 0⟩ : ℂ) = ((x.toRat : ℝ) : ℂ) from rfl,
      show (⟨(y.toRat : ℝ), 0⟩ : ℂ) = ((y.toRat : ℝ) : ℂ) from rfl, abs_sub_comm, ← Real.norm_eq_abs, ← Complex.norm_real]
    congr 1
    push_cast
    ring
  · refine le_trans (le_of_eq ?_) k2
    rw [q0, show (⟨(x.toRat : ℝ), 0⟩ : ℂ) = ((x.toRat : ℝ) : ℂ) from rfl,
      show (⟨(y.toRat : ℝ), 0⟩ : ℂ) = ((y.toRat : ℝ) : ℂ) from rfl, ← Real.norm_eq_abs, ← Complex.norm_real]
    congr 1
    push_cast
    ring

/-- C94: when the exact discriminant is larger than its error bound, `real_factors` returns factors exactly for a
positive one. -/
theorem C94_classify (hp : 4 ≤ f.p) (hw : f.p + f.q < f.w) (a b c : Fl f)
    (hf : (QuadraticTrinomial.new a b c).discriminant.isFinite = true) (S Δ : ℝ)
    (hS : S = (b.toRat : ℝ) ^ 2 + 4 * |(a.toRat : ℝ) * c.toRat|)
    (hΔ : Δ = (b.toRat : ℝ) ^ 2 - 4 * a.toRat * c.toRat) (h : 3 * uro f * S + 6 * eta f < |Δ|) :
    (0 < Δ → ∃ l m, (QuadraticTrinomial.new a b c).realFactors = .ok (some (a, l, m))) ∧
    (Δ < 0 → (QuadraticTrinomial.new a b c).realFactors = .ok none) := by
  obtain ⟨h1, h2⟩ := C84_classify hp hw a b c hf S Δ hS hΔ h
  refine ⟨fun h0 => ?_, fun h0 => (C94_real_factors_shape a b c).1.2 (h2 h0)⟩
  obtain ⟨x, y, hr⟩ := h1 h0
  exact ⟨⟨1, -x⟩, ⟨1, -y⟩, ((C94_real_factors_shape a b c).2 _ _ _).2 ⟨rfl, rfl, rfl, x, y, hr, rfl, rfl⟩⟩

/-- C94: the factors of `k(x-r)(x-s)` for small integers multiply back exactly. -/
theorem C94_whole (hp : 4 ≤ f.p) (hq : 1 ≤ f.q) (hw : f.p + f.q < f.w) (a b c : Fl f) (k r s : ℤ)
    (ha : a.isFinite = true) (hb : b.isFinite = true) (hc : c.isFinite = true) (hk : k ≠ 0)
    (hak : a.toRat = k) (hbk : b.toRat = (-(k * (r + s)) : ℤ)) (hck : c.toRat = (k * r * s : ℤ))
    (hk2 : 4 * k ^ 2 < 2 ^ f.p) (hr2 : 4 * (k * r) ^ 2 < 2 ^ f.p) (hs2 : 4 * (k * s) ^ 2 < 2 ^ f.p) :
    ∃ l m, (QuadraticTrinomial.new a b c).realFactors = .ok (some (a, l, m)) ∧ l.AllFinite ∧ m.AllFinite ∧
      C a.toRat * l.ratPoly * m.ratPoly = (QuadraticTrinomial.new a b c).ratPoly := by
  obtain ⟨x, y, hroot, hxf, hyf, hx, hy⟩ := C84_integer_roots hp hq hw a b c k r s ha hb hc hk hak hbk hck hk2 hr2 hs2
  have h1f : (1 : Fl f).isFinite = true := rfl
  refine ⟨⟨1, -x⟩, ⟨1, -y⟩, ((C94_real_factors_shape a b c).2 _ _ _).2 ⟨rfl, rfl, rfl, x, y, hroot, rfl, rfl⟩,
    ⟨h1f, by rw [isFinite_neg]; exact hxf⟩, ⟨h1f, by rw [isFinite_neg]; exact hyf⟩, ?_⟩
  simp only [LinearBinomial.ratPoly, QuadraticTrinomial.ratPoly, QuadraticTrinomial.new]
  rw [toRat_one, toRat_neg, toRat_neg, hak, hbk, hck]
  have hsum : x.toRat + y.toRat = r + s ∧ x.toRat * y.toRat = r * s := by
    rw [hx, hy]
    have : ((max r s : ℤ) + (min r s : ℤ) : ℤ) = r + s := max_add_min r s
    have h' : ((max r s : ℤ) * (min r s : ℤ) : ℤ) = r * s := max_mul_min r s
    split
    · exact ⟨by exact_mod_cast this, by exact_mod_cast h'⟩
    · exact ⟨by rw [add_comm]; exact_mod_cast this, by rw [mul_comm]; exact_mod_cast h'⟩
  have e1 : ((-(k * (r + s)) : ℤ) : ℚ) = -(k * (x.toRat + y.toRat)) := by rw [hsum.1]; push_cast; ring
  have e2 : ((k * r * s : ℤ) : ℚ) = k * (x.toRat * y.toRat) := by rw [hsum.2]; push_cast; ring
  rw [e1, e2]
  simp only [map_mul, map_neg, map_add, map_one]
  ring

/-- C94, `complex_factors`: it never panics, and the exact product of what it returns has the leading coefficient
`a`, a constant coefficient close to `c`, and a linear coefficient close to `b` when the roots are real.  Missing for
the full claim: when the roots are complex the linear coefficient is close to `-b`, the factors being `x + z` for
the roots `z`. -/
theorem C94_complex_factors_partial (hp : 4 ≤ f.p) (hq : 2 * f.p ≤ f.q) (hw : f.p + f.q < f.w) (a b c : Fl f)
    (ha : a.Valid) (ha0 : a.toRat ≠ 0) (ha2 : |a.toRat| * 2 ≤ maxFinite f) (g : ℝ)
    (hg : g = √((b.toRat : ℝ) ^ 2 + 4 * |(a.toRat : ℝ) * c.toRat| + 6 * eta f)) :
    ∃ l m, (QuadraticTrinomial.new a b c).complexFactors = .ok (a, l, m) ∧
    (CplxFinite l → CplxFinite m → ∀ P : ℂ[X], P = C (a.toRat : ℂ) * l.flcPoly * m.flcPoly →
      P.coeff 2 = a.toRat ∧ (∀ n, 2 < n → P.coeff n = 0) ∧
      ‖P.coeff 0 - c.toRat‖ ≤ 4 * uro f * g ^ 2 / |(a.toRat : ℝ)| + 3 * g * eta f +
        3 * |(a.toRat : ℝ)| * (eta f : ℝ) ^ 2 + 2 * eta f / |(a.toRat : ℝ)| ∧
      ((∃ x y, (QuadraticTrinomial.new a b c).roots = .ok (.twoRealRoots x y)) →
        ‖P.coeff 1 - b.toRat‖ ≤ 3 * uro f * g + 3 * |(a.toRat : ℝ)| * eta f) ∧
      ((∃ x y, (QuadraticTrinomial.new a b c).roots = .ok (.twoComplexRoots x y)) →
        ‖P.coeff 1 + b.toRat‖ ≤ 3 * uro f * g + 3 * |(a.toRat : ℝ)| * eta f)) := by
  have hone : ∀ i : Fl f, i.toRat = 0 → (⟨1, i⟩ : Cplx (Fl f)).flC = 1 := by
    intro i hi
    rw [Cplx.flC]
    apply Complex.ext <;> simp [hi, toRat_one]
  have hz : (0 : Fl f).toRat = 0 := toRat_zero
  rcases roots_kind a b c with ⟨x, y, hr⟩ | ⟨x, y, hr⟩
  · refine ⟨.new ⟨1, 0⟩ ⟨-x, 0⟩, .new ⟨1, 0⟩ ⟨-y, 0⟩, ?_, ?_⟩
    · rw [QuadraticTrinomial.complexFactors, hr]; rfl
    rintro ⟨-, -, hl, -⟩ ⟨-, -, hm, -⟩ P hP
    have hxf : x.isFinite = true := by rw [← isFinite_neg]; exact hl
    have hyf : y.isFinite = true := by rw [← isFinite_neg]; exact hm
    obtain ⟨k1, k2⟩ := C94_roots_backward hp hq hw a b c ha ha0 ha2 _ hr ⟨(x.toRat : ℝ), 0⟩ ⟨(y.toRat : ℝ), 0⟩
      ⟨hxf, hyf, rfl, rfl⟩ g hg
    have hc : ∀ z : Fl f, (⟨-z, 0⟩ : Cplx (Fl f)).flC = -⟨(z.toRat : ℝ), 0⟩ := by
      intro z
      rw [Cplx.flC]
      apply Complex.ext <;> simp [toRat_neg, hz]
    simp only [LinearBinomial.flcPoly, LinearBinomial.new, hone 0 hz, hc] at hP
    obtain ⟨q2, q1, q0, qn⟩ := monic_product (a.toRat : ℂ) (-⟨(x.toRat : ℝ), 0⟩) (-⟨(y.toRat : ℝ), 0⟩)
    rw [← hP] at q2 q1 q0 qn
    refine ⟨q2, qn, ?_, fun _ => ?_, ?_⟩
    · refine le_trans (le_of_eq ?_) k2
      rw [q0, neg_mul_neg]
    · refine le_trans (le_of_eq ?_) k1
      rw [q1, ← norm_neg]
      congr 1
      ring
    · rintro ⟨_, _, h⟩
      rw [hr] at h
      cases h
  · refine ⟨.new ⟨1, -0⟩ x, .new ⟨1, -0⟩ y, ?_, ?_⟩
    · rw [QuadraticTrinomial.complexFactors, hr]; rfl
    rintro ⟨-, -, hl, hl'⟩ ⟨-, -, hm, hm'⟩ P hP
    obtain ⟨k1, k2⟩ := C94_roots_backward hp hq hw a b c ha ha0 ha2 _ hr x.flC y.flC
      ⟨hl, hl', hm, hm', rfl, rfl⟩ g hg
    simp only [LinearBinomial.flcPoly, LinearBinomial.new, hone (-0) (by rw [toRat_neg, hz, neg_zero])] at hP
    obtain ⟨q2, q1, q0, qn⟩ := monic_product (a.toRat : ℂ) x.flC y.flC
    rw [← hP] at q2 q1 q0 qn
    refine ⟨q2, qn, ?_, ?_, fun _ => ?_⟩
    · rw [q0]; exact k2
    · rintro ⟨_, _, h⟩
      rw [hr] at h
      cases h
    · rw [q1]; exact k1

/-- C94: `ArrayPolynomial<N, 3>` gives the same coefficients as `QuadraticTrinomial<N>`. -/
theorem C94_array (a b c : Fl f) (p : ArrayPoly (Fl f) 3) (hp : p.coefficients = [a, b, c]) :
    (p.realFactors = .ok none ↔ (QuadraticTrinomial.new a b c).realFactors = .ok none) ∧
    (∀ k l m, (QuadraticTrinomial.new a b c).realFactors = .ok (some (k, l, m)) →
      ∃ l' m', p.realFactors = .ok (some (k, l', m')) ∧ l'.coefficients = [l.c0, l.c1] ∧
        m'.coefficients = [m.c0, m.c1]) ∧
    (∀ k l m, (QuadraticTrinomial.new a b c).complexFactors = .ok (k, l, m) →
      ∃ l' m', p.complexFactors = .ok (k, l', m') ∧ l'.coefficients = [l.c0, l.c1] ∧
        m'.coefficients = [m.c0, m.c1]) := by
  have h3 : p.roots3 = (QuadraticTrinomial.new a b c).roots := by rw [ArrayPoly.roots3, hp]; rfl
  unfold ArrayPoly.realFactors ArrayPoly.complexFactors QuadraticTrinomial.realFactors QuadraticTrinomial.complexFactors
  rw [hp]
  dsimp only
  rw [h3]
  rcases roots_kind a b c with ⟨x, y, hr⟩ | ⟨x, y, hr⟩ <;> rw [hr] <;> rw [Res.ok_bind, Res.ok_bind, Res.ok_bind, Res.ok_bind] <;> dsimp only
  · refine ⟨⟨fun h => by (cases h), fun h => by (cases h)⟩, ?_, ?_⟩
    · intro k l m h
      cases h
      exact ⟨_, _, rfl, rfl, rfl⟩
    · intro k l m h
      cases h
      exact ⟨_, _, rfl, rfl, rfl⟩
  · refine ⟨⟨fun _ => rfl, fun _ => rfl⟩, ?_, ?_⟩
    · intro k l m h
      cases h
    · intro k l m h
      cases h
      exact ⟨_, _, rfl, rfl, rfl⟩

/-- C94 (false as a claim about complex factors): those of `x² + 2x + 2` are `x + (-1 + i)` and `x + (-1 - i)`,
whose product is `x² - 2x + 2`. -/
theorem C94_complex_false :
    (QuadraticTrinomial.new (1 : Fl binary64) (ofNat 2) (ofNat 2)).complexFactors =
      .ok (1, ⟨⟨1, -0⟩, ⟨-1, 1⟩⟩, ⟨⟨1, -0⟩, ⟨-1, -1⟩⟩) := by
  decide +kernel

/-- C94 (false as a claim about relative accuracy): the real factors of `x² + 2^28 x + 1` are `x` and `x + 2^28`,
whose product has no constant coefficient. -/
theorem C94_constant_false :
    (QuadraticTrinomial.new (1 : Fl binary64) (ofNat (2 ^ 28)) 1).realFactors =
      .ok (some (1, ⟨1, -0⟩, ⟨1, ofNat (2 ^ 28)⟩)) := by
  decide +kernel

-- inputs that meet the hypotheses of `C94_real_factors` and of `C94_roots_backward`: `x² - 3x + 1`
example : (match (QuadraticTrinomial.new 1 (-ofNat 3) 1 : QuadraticTrinomial (Fl binary64)).realFactors with
    | .ok (some (_, l, m)) => l.c1.isFinite && m.c1.isFinite && decide (l.c1.toRat ≠ m.c1.toRat)
    | _ => false) = true := by decide +kernel
-- and of `C94_complex_factors_partial` with complex roots: `x² + x + 1`
example : (match (QuadraticTrinomial.new 1 1 1 : QuadraticTrinomial (Fl binary64)).complexFactors with
    | .ok (_, l, m) => l.c1.re.isFinite && l.c1.im.isFinite && m.c1.re.isFinite && m.c1.im.isFinite &&
        decide (l.c1.im.toRat ≠ 0)
    | _ => false) = true := by decide +kernel
-- `C94_whole` for `3(x-2)(x+5) = 3x² + 9x - 30`
example : (QuadraticTrinomial.new (ofNat 3) (ofNat 9) (-ofNat 30) : QuadraticTrinomial (Fl binary64)).realFactors =
    .ok (some (ofNat 3, ⟨1, -ofNat 2⟩, ⟨1, ofNat 5⟩)) := by decide +kernel
-- `C94_classify`: `x² + x + 1` has no real factors
example : (QuadraticTrinomial.new 1 1 1 : QuadraticTrinomial (Fl binary64)).realFactors = .ok none := by decide +kernel
-- `C94_array`
example : ((⟨[ofNat 3, ofNat 9, -ofNat 30], rfl⟩ : ArrayPoly (Fl binary64) 3).realFactors.bind fun r =>
    .ok (r.map fun (k, l, m) => (k, l.coefficients, m.coefficients))) =
    .ok (some (ofNat 3, [1, -ofNat 2], [1, ofNat 5])) := by decide +kernel

end Fl
end Rustnomial
