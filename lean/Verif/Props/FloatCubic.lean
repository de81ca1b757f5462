import Verif.SpecFloatCubic
import Verif.Props.FloatFactors
import Verif.Props.FloatFindRoots
import Verif.Props.FloatExact

/-!
# C95: roots of cubics over floats
-/

set_option linter.unusedSectionVars false

namespace Rustnomial
namespace Fl
open Polynomial
variable {f : FlFmt}

/-- The coefficients of the quadratic that is left after the first root. -/
theorem deflated_core {u η T A1 A2 x b' B c' m c : ℝ} (hu : 0 ≤ u) (hu1 : u ≤ 1 / 16) (hT : 0 < T)
    (h1 : |A1| ≤ T) (h2 : |A2| ≤ T ^ 2) (hx : |x| ≤ T) (hη1 : η ≤ u * T) (hη2 : η ≤ u * T ^ 2)
    (e1 : |b' - A1| ≤ u * |A1| + η) (e2 : |B - (b' + x)| ≤ u * |b' + x|) (e3 : |c' - A2| ≤ u * |A2| + η)
    (e4 : |m - B * x| ≤ u * |B * x| + η) (e5 : |c - (c' + m)| ≤ u * |c' + m|) :
    |B - (A1 + x)| ≤ 5 * u * T ∧ |B| ≤ 7 / 3 * T ∧ |c - (A2 + B * x)| ≤ 10 * u * T ^ 2 ∧ |c| ≤ 4 * T ^ 2 := by
  have hT2 : 0 < T ^ 2 := by positivity
  have uT : u * T ≤ 1 / 16 * T := mul_le_mul_of_nonneg_right hu1 hT.le
  have uT2 : u * T ^ 2 ≤ 1 / 16 * T ^ 2 := mul_le_mul_of_nonneg_right hu1 hT2.le
  have a1 : |b' - A1| ≤ 2 * (u * T) := by
    have := mul_le_mul_of_nonneg_left h1 hu
    linarith
  have a2 : |b' + x| ≤ 17 / 8 * T := by
    have : b' + x = (b' - A1) + A1 + x := by ring
    rw [this]
    have := abs_add_three (b' - A1) A1 x
    linarith
  have a3 : |B - (A1 + x)| ≤ 33 / 8 * (u * T) := by
    have : B - (A1 + x) = (B - (b' + x)) + (b' - A1) := by ring
    rw [this]
    have := abs_add_le (B - (b' + x)) (b' - A1)
    have := mul_le_mul_of_nonneg_left a2 hu
    linarith
  have a4 : |B| ≤ 7 / 3 * T := by
    have : B = (B - (A1 + x)) + A1 + x := by ring
    rw [this]
    have := abs_add_three (B - (A1 + x)) A1 x
    linarith
  have a5 : |B * x| ≤ 7 / 3 * T ^ 2 := by
    rw [abs_mul]
    calc |B| * |x| ≤ (7 / 3 * T) * T := mul_le_mul a4 hx (abs_nonneg _) (by positivity)
      _ = 7 / 3 * T ^ 2 := by ring
  have a6 : |m - B * x| ≤ 10 / 3 * (u * T ^ 2) := by
    have := mul_le_mul_of_nonneg_left a5 hu
    linarith
  have a7 : |c' - A2| ≤ 2 * (u * T ^ 2) := by
    have := mul_le_mul_of_nonneg_left h2 hu
    linarith
  have a8 : |c' + m| ≤ 3667 / 1000 * T ^ 2 := by
    have : c' + m = (c' - A2) + A2 + ((m - B * x) + B * x) := by ring
    rw [this]
    have := abs_add_three (c' - A2) A2 ((m - B * x) + B * x)
    have := abs_add_le (m - B * x) (B * x)
    linarith
  have a9 : |c - (A2 + B * x)| ≤ 10 * (u * T ^ 2) := by
    have : c - (A2 + B * x) = (c - (c' + m)) + (c' - A2) + (m - B * x) := by ring
    rw [this]
    have := abs_add_three (c - (c' + m)) (c' - A2) (m - B * x)
    have := mul_le_mul_of_nonneg_left a8 hu
    have : 0 ≤ u * T ^ 2 := by positivity
    linarith
  have a10 : |c| ≤ 4 * T ^ 2 := by
    have : c = (c - (A2 + B * x)) + A2 + B * x := by ring
    rw [this]
    have := abs_add_three (c - (A2 + B * x)) A2 (B * x)
    linarith
  have : 0 ≤ u * T := by positivity
  exact ⟨by linarith, a4, by linarith, a10⟩

/-- The sizes of the errors of the quadratic. -/
theorem quad_sizes {u η T B c g : ℝ} (hu : 0 ≤ u) (hu1 : u ≤ 1 / 16) (hη : 0 ≤ η) (hT : 0 < T)
    (hη1 : η ≤ u * T) (hη2 : η ≤ u * T ^ 2) (hB : |B| ≤ 7 / 3 * T) (hc : |c| ≤ 4 * T ^ 2)
    (hg : g = √(B ^ 2 + 4 * |1 * c| + 6 * η)) :
    3 * u * g + 3 * |(1 : ℝ)| * η ≤ 18 * u * T ∧
    4 * u * g ^ 2 / |(1 : ℝ)| + 3 * g * η + 3 * |(1 : ℝ)| * η ^ 2 + 2 * η / |(1 : ℝ)| ≤ 106 * u * T ^ 2 := by
  have hT2 : 0 < T ^ 2 := by positivity
  have uT2 : u * T ^ 2 ≤ 1 / 16 * T ^ 2 := mul_le_mul_of_nonneg_right hu1 hT2.le
  have hB2 : B ^ 2 ≤ 49 / 9 * T ^ 2 := by
    have := sq_le_sq' (neg_le_of_abs_le hB) (le_of_abs_le hB)
    nlinarith
  have h0 : 0 ≤ B ^ 2 + 4 * |1 * c| + 6 * η := by positivity
  have hg2 : g ^ 2 ≤ 22 * T ^ 2 := by
    rw [hg, Real.sq_sqrt h0, one_mul]
    linarith
  have hg0 : 0 ≤ g := by rw [hg]; exact Real.sqrt_nonneg _
  have hg1 : g ≤ 5 * T := by
    by_contra h
    push Not at h
    nlinarith
  have a1 := mul_le_mul_of_nonneg_left hg1 hu
  have a2 := mul_le_mul_of_nonneg_left hg2 hu
  have a3 : g * η ≤ 5 * (u * T ^ 2) := by
    calc g * η ≤ (5 * T) * (u * T) := mul_le_mul hg1 hη1 hη (by positivity)
      _ = 5 * (u * T ^ 2) := by ring
  have a4 : η ^ 2 ≤ 1 / 16 * (u * T ^ 2) := by
    calc η ^ 2 = η * η := sq η
      _ ≤ (u * T) * (u * T) := mul_le_mul hη1 hη1 hη (by positivity)
      _ = u * (u * T ^ 2) := by ring
      _ ≤ 1 / 16 * (u * T ^ 2) := mul_le_mul_of_nonneg_right hu1 (by positivity)
  have : 0 ≤ u * T ^ 2 := by positivity
  rw [abs_one]
  constructor
  · linarith
  · linarith

section
variable [Cbrt (Fl f)]

/-- `cubic_roots` takes a first root `x` and solves the quadratic `X² + BX + C`. -/
theorem cubic_parts (a b c d : Fl f) (r : Roots (Fl f)) (hr : cubicRoots a b c d = .ok r) (w₁ w₂ w₃ : ℂ)
    (hw : FiniteTriple r w₁ w₂ w₃) :
    ∃ (x : Fl f) (r₂ : Roots (Fl f)), x.isFinite = true ∧ w₁ = ((x.toRat : ℝ) : ℂ) ∧
      (QuadraticTrinomial.new 1 (div b a + x) (div c a + (div b a + x) * x)).roots = .ok r₂ ∧ FinitePair r₂ w₂ w₃ := by
  unfold cubicRoots at hr
  simp only [rdiv_eq, Res.ok_bind, show ∀ x : Fl f, absSqrt x = .ok (sqrt (abs x)) from fun _ => rfl] at hr
  generalize (cbrt _ + cbrt _ + div (-b) (((3 : Nat) : Fl f) * a) : Fl f) = x at hr
  obtain ⟨r₂, hr₂, ⟨y, z, rfl⟩ | ⟨y, z, rfl⟩⟩ := trinomial_two (1 : Fl f) (div b a + x) (div c a + (div b a + x) * x)
  · rw [hr₂] at hr
    cases hr
    obtain ⟨⟨h1, h2, h3⟩, rfl, rfl, rfl⟩ := hw
    exact ⟨x, _, h1, rfl, hr₂, h2, h3, rfl, rfl⟩
  · rw [hr₂] at hr
    cases hr
    obtain ⟨⟨h1, _, h2, h3, h4, h5⟩, rfl, rfl, rfl⟩ := hw
    refine ⟨x, _, h1, ?_, hr₂, h2, h3, h4, h5, rfl, rfl⟩
    rw [Cplx.flC]
    apply Complex.ext
    · simp
    · simp [toRat_zero]

/-- C95: for every implementation of the cube root, the three roots which `cubic_roots` returns are, when finite,
those of the polynomial shifted to have the first of them as a root: with `P = aX³ + bX² + cX + d`, the polynomial
`P - P(w₁)` is `a((X - w₁)(X - w₂)(X - w₃) + E₂X² + E₁X + E₀)`, where `|E₂| ≤ 24uT`, `|E₁| ≤ 140uT²` and
`|E₀| ≤ 125uT³` for every `T` that bounds `|w₁|`, `|b/a|` and `√|c/a|` and is not in the range of underflow. -/
theorem C95_cubic_backward (hp : 4 ≤ f.p) (hq : 2 * f.p ≤ f.q) (hw : f.p + f.q < f.w) (a b c d : Fl f)
    (ha0 : a.toRat ≠ 0) (r : Roots (Fl f)) (hr : cubicRoots a b c d = .ok r) (w₁ w₂ w₃ : ℂ)
    (h3 : FiniteTriple r w₁ w₂ w₃) (T : ℝ) (hT : 0 < T) (hw1 : ‖w₁‖ ≤ T)
    (hb : |(b.toRat : ℝ)| ≤ |(a.toRat : ℝ)| * T) (hc : |(c.toRat : ℝ)| ≤ |(a.toRat : ℝ)| * T ^ 2)
    (hη1 : (eta f : ℝ) ≤ uro f * T) (hη2 : (eta f : ℝ) ≤ uro f * T ^ 2) (P : ℂ → ℂ)
    (hP : ∀ z, P z = a.toRat * z ^ 3 + b.toRat * z ^ 2 + c.toRat * z + d.toRat) :
    w₁.im = 0 ∧ ∃ E₂ E₁ E₀ : ℂ,
      (∀ z, P z - P w₁ = a.toRat * ((z - w₁) * (z - w₂) * (z - w₃) + E₂ * z ^ 2 + E₁ * z + E₀)) ∧
      ‖E₂‖ ≤ 24 * uro f * T ∧ ‖E₁‖ ≤ 140 * uro f * T ^ 2 ∧ ‖E₀‖ ≤ 125 * uro f * T ^ 3 := by
  obtain ⟨x, r₂, hxf, rfl, hr₂, h2⟩ := cubic_parts a b c d r hr w₁ w₂ w₃ h3
  refine ⟨by simp, ?_⟩
  have haf : a.isFinite = true := by
    cases a with
    | fin s m => rfl
    | _ => exact absurd rfl ha0
  have h1v : (1 : Fl f).Valid := by
    refine ⟨⟨1, f.q, Nat.one_lt_two_pow (by omega), by simp⟩, ?_⟩
    exact Nat.pow_lt_pow_right (by norm_num) (by omega)
  have h1m : |(1 : Fl f).toRat| * 2 ≤ maxFinite f := by
    have h4 : (2 : ℚ) ^ 2 ≤ 2 ^ f.p := pow_le_pow_right₀ (by norm_num) (by omega)
    have := (int_valid (f := f) hw.le (n := 2) (by norm_num at h4 ⊢; linarith)).2
    rw [toRat_one]
    norm_num at this ⊢
    exact this
  have h10 : (1 : Fl f).toRat ≠ 0 := by rw [toRat_one]; norm_num
  generalize hB : div b a + x = B at *
  generalize hC : div c a + B * x = C' at *
  obtain ⟨hBf, hCf, -⟩ := roots_parts hp hq hw 1 B C' h1v h10 h1m r₂ hr₂ w₂ w₃ h2
  obtain ⟨k1, k2⟩ := C94_roots_backward hp hq hw 1 B C' h1v h10 h1m r₂ hr₂ w₂ w₃ h2 _ rfl
  have hA : (a.toRat : ℝ) ≠ 0 := by exact_mod_cast ha0
  have hA0 : 0 < |(a.toRat : ℝ)| := abs_pos.2 hA
  have hu : (0 : ℝ) ≤ (uro f : ℝ) := by exact_mod_cast uro_nonneg
  have hη : (0 : ℝ) ≤ (eta f : ℝ) := by exact_mod_cast eta_nonneg
  have hu1 := uro_le (f := f) hp
  have hBf' : (div b a + x).isFinite = true := by rw [hB]; exact hBf
  have hCf' : (div c a + B * x).isFinite = true := by rw [hC]; exact hCf
  have hbf := (finite_of_add hBf').1
  have hcf := finite_of_add hCf'
  have e1 := (Rat.cast_le (K := ℝ)).2 (div_error (finite_of_div hbf) haf ha0 hbf)
  have e2 := (Rat.cast_le (K := ℝ)).2 (add_error hBf')
  have e3 := (Rat.cast_le (K := ℝ)).2 (div_error (finite_of_div hcf.1) haf ha0 hcf.1)
  have e4 := (Rat.cast_le (K := ℝ)).2 (mul_error hcf.2)
  have e5 := (Rat.cast_le (K := ℝ)).2 (add_error hCf')
  rw [hB] at e2
  rw [hC] at e5
  push_cast at e1 e2 e3 e4 e5
  have hx : |(x.toRat : ℝ)| ≤ T := by
    rw [Complex.norm_real] at hw1
    exact hw1
  have hb1 : |(b.toRat : ℝ) / a.toRat| ≤ T := by
    rw [abs_div, div_le_iff₀ hA0]; linarith
  have hc1 : |(c.toRat : ℝ) / a.toRat| ≤ T ^ 2 := by
    rw [abs_div, div_le_iff₀ hA0]; linarith
  obtain ⟨d1, d2, d3, d4⟩ := deflated_core hu hu1 hT hb1 hc1 hx hη1 hη2 e1 e2 e3 e4 e5
  have hone : ((1 : Fl f).toRat : ℝ) = 1 := by rw [toRat_one]; simp
  have honeC : ((1 : Fl f).toRat : ℂ) = 1 := by rw [toRat_one]; simp
  rw [hone] at k1 k2
  rw [honeC, one_mul] at k1 k2
  obtain ⟨q1, q2⟩ := quad_sizes (B := (B.toRat : ℝ)) (c := (C'.toRat : ℝ)) hu hu1 hη hT hη1 hη2 d2 d4 rfl
  have k1 := k1.trans q1
  have k2 := k2.trans q2
  clear q1 q2
  generalize hρ1 : w₂ + w₃ + (B.toRat : ℂ) = ρ₁ at k1
  generalize hρ0 : w₂ * w₃ - (C'.toRat : ℂ) = ρ₀ at k2
  have hAC : (a.toRat : ℂ) ≠ 0 := by exact_mod_cast ha0
  have n1 : ‖((b.toRat : ℂ) / a.toRat + x.toRat) - B.toRat‖ ≤ 5 * uro f * T := by
    rw [norm_sub_rev]
    refine le_trans (le_of_eq ?_) d1
    rw [← Real.norm_eq_abs, ← Complex.norm_real]
    push_cast
    rfl
  have n2 : ‖((c.toRat : ℂ) / a.toRat + B.toRat * x.toRat) - C'.toRat‖ ≤ 10 * uro f * T ^ 2 := by
    rw [norm_sub_rev]
    refine le_trans (le_of_eq ?_) d3
    rw [← Real.norm_eq_abs, ← Complex.norm_real]
    push_cast
    rfl
  have nx : ‖(x.toRat : ℂ)‖ ≤ T := by
    have : (x.toRat : ℂ) = ((x.toRat : ℝ) : ℂ) := by push_cast; rfl
    rw [this]; exact hw1
  generalize hν1 : ((b.toRat : ℂ) / a.toRat + x.toRat) - B.toRat = ν₁ at n1
  generalize hν0 : ((c.toRat : ℂ) / a.toRat + B.toRat * x.toRat) - C'.toRat = ν₀ at n2
  have hxc : (((x.toRat : ℝ)) : ℂ) = (x.toRat : ℂ) := by push_cast; rfl
  rw [hxc]
  have hT2 : 0 < T ^ 2 := by positivity
  have hT3 : 0 < T ^ 3 := by positivity
  have uT : 0 ≤ (uro f : ℝ) * T := by positivity
  have uT2 : 0 ≤ (uro f : ℝ) * T ^ 2 := by positivity
  have uT3 : 0 ≤ (uro f : ℝ) * T ^ 3 := by positivity
  have m1 : ‖(x.toRat : ℂ) * ρ₁‖ ≤ 18 * (uro f * T ^ 2) := by
    rw [norm_mul]
    calc ‖(x.toRat : ℂ)‖ * ‖ρ₁‖ ≤ T * (18 * uro f * T) := mul_le_mul nx k1 (norm_nonneg _) hT.le
      _ = 18 * (uro f * T ^ 2) := by ring
  have m2 : ‖(x.toRat : ℂ) * (x.toRat * ν₁)‖ ≤ 5 * (uro f * T ^ 3) := by
    rw [norm_mul, norm_mul]
    calc ‖(x.toRat : ℂ)‖ * (‖(x.toRat : ℂ)‖ * ‖ν₁‖) ≤ T * (T * (5 * uro f * T)) :=
          mul_le_mul nx (mul_le_mul nx n1 (norm_nonneg _) hT.le) (by positivity) hT.le
      _ = 5 * (uro f * T ^ 3) := by ring
  have m3 : ‖(x.toRat : ℂ) * ν₀‖ ≤ 10 * (uro f * T ^ 3) := by
    rw [norm_mul]
    calc ‖(x.toRat : ℂ)‖ * ‖ν₀‖ ≤ T * (10 * uro f * T ^ 2) := mul_le_mul nx n2 (norm_nonneg _) hT.le
      _ = 10 * (uro f * T ^ 3) := by ring
  have m4 : ‖(x.toRat : ℂ) * ρ₀‖ ≤ 106 * (uro f * T ^ 3) := by
    rw [norm_mul]
    calc ‖(x.toRat : ℂ)‖ * ‖ρ₀‖ ≤ T * (106 * uro f * T ^ 2) := mul_le_mul nx k2 (norm_nonneg _) hT.le
      _ = 106 * (uro f * T ^ 3) := by ring
  refine ⟨ν₁ + ρ₁, ν₀ - ρ₀ - x.toRat * ρ₁, x.toRat * ρ₀ - x.toRat * ν₀ - x.toRat * (x.toRat * ν₁),
    fun z => ?_, ?_, ?_, ?_⟩
  · rw [hP, hP, ← hν1, ← hν0, ← hρ1, ← hρ0]
    field_simp
    ring
  · have := norm_add_le ν₁ ρ₁
    linarith
  · have := norm_sub_le (ν₀ - ρ₀) (x.toRat * ρ₁)
    have := norm_sub_le ν₀ ρ₀
    linarith
  · have := norm_sub_le (x.toRat * ρ₀ - x.toRat * ν₀) (x.toRat * (x.toRat * ν₁) : ℂ)
    have := norm_sub_le (x.toRat * ρ₀ : ℂ) (x.toRat * ν₀)
    linarith

/-- A finite float with a whole value. -/
def Whole (x : Fl f) (n : ℤ) : Prop := x.isFinite = true ∧ x.toRat = n

theorem Whole.add (hp : 1 ≤ f.p) (hw : f.p + f.q ≤ f.w) {x y : Fl f} {a b : ℤ} (hx : Whole x a) (hy : Whole y b)
    (h : |a + b| < 2 ^ f.p) : Whole (x + y) (a + b) := by
  have := int_add hp hw hx.1 hy.1 hx.2 hy.2 (by exact_mod_cast h)
  exact ⟨this.1, by rw [this.2]; push_cast; rfl⟩

theorem Whole.neg {x : Fl f} {a : ℤ} (hx : Whole x a) : Whole (-x) (-a) :=
  ⟨by rw [isFinite_neg]; exact hx.1, by rw [toRat_neg, hx.2]; push_cast; rfl⟩

theorem Whole.sub (hp : 1 ≤ f.p) (hw : f.p + f.q ≤ f.w) {x y : Fl f} {a b : ℤ} (hx : Whole x a) (hy : Whole y b)
    (h : |a - b| < 2 ^ f.p) : Whole (x - y) (a - b) := by
  have := Whole.add hp hw hx hy.neg (by rw [← sub_eq_add_neg]; exact h)
  rw [← sub_eq_add_neg] at this
  exact this

theorem Whole.mul (hp : 1 ≤ f.p) (hw : f.p + f.q ≤ f.w) {x y : Fl f} {a b : ℤ} (hx : Whole x a) (hy : Whole y b)
    (h : |a * b| < 2 ^ f.p) : Whole (x * y) (a * b) := by
  have := int_mul hp hw hx.1 hy.1 hx.2 hy.2 (by exact_mod_cast h)
  exact ⟨this.1, by rw [this.2]; push_cast; rfl⟩

theorem Whole.div (hp : 1 ≤ f.p) (hw : f.p + f.q ≤ f.w) {x y : Fl f} {a b n : ℤ} (hx : Whole x a) (hy : Whole y b)
    (hb : b ≠ 0) (hn : a = n * b) (h : |n| < 2 ^ f.p) : Whole (div x y) n := by
  have hbq : (b : ℚ) ≠ 0 := by exact_mod_cast hb
  have := int_div hp hw hx.1 hy.1 (by rw [hy.2]; exact hbq) (n := n)
    (by rw [hx.2, hy.2, hn]; push_cast; field_simp) (by exact_mod_cast h)
  exact ⟨this.1.1, this.2⟩

theorem Whole.zero {x : Fl f} (hx : Whole x 0) : isZero x = true :=
  (isZero_iff_toRat hx.1).2 (by rw [hx.2]; simp)

theorem Whole.of_zero {x : Fl f} (hx : isZero x = true) : Whole x 0 := by
  obtain ⟨s, rfl⟩ := isZero_iff.1 hx
  exact ⟨rfl, by rw [toRat_fin_zero]; simp⟩

theorem Whole.small (hp : 4 ≤ f.p) (hw : f.p + f.q < f.w) {n : Nat} (h : n ≤ 2 ^ f.p) : Whole ((n : Nat) : Fl f) n := by
  rw [show ((n : Nat) : Fl f) = fin false (n * 2 ^ f.q) from ofNat_small hp hw h]
  refine ⟨rfl, ?_⟩
  rw [toRat]
  have : (2 : ℚ) ^ f.q ≠ 0 := by positivity
  push_cast
  field_simp
  try simp

/-- C95: the triple root of `k(x-r)³` for small integers is computed exactly, for every cube root with `∛0 = 0`. -/
theorem C95_triple_root (hp : 4 ≤ f.p) (hq : 1 ≤ f.q) (hw : f.p + f.q < f.w)
    (hcb : ∀ z : Fl f, isZero z = true → isZero (cbrt z) = true) (a b c d : Fl f) (k r : ℤ) (hk : k ≠ 0)
    (ha : a.isFinite = true) (hb : b.isFinite = true) (hc : c.isFinite = true) (hd : d.isFinite = true)
    (hak : a.toRat = k) (hbk : b.toRat = (-(3 * k * r) : ℤ)) (hck : c.toRat = (3 * k * r ^ 2 : ℤ))
    (hdk : d.toRat = (-(k * r ^ 3) : ℤ)) (hsize : 9 * k ^ 2 * (|r| ^ 3 + 1) < 2 ^ f.p) :
    ∃ x y z, cubicRoots a b c d = .ok (.threeRealRoots x y z) ∧ (x.isFinite = true ∧ x.toRat = r) ∧
      (y.isFinite = true ∧ y.toRat = r) ∧ (z.isFinite = true ∧ z.toRat = r) := by
  have hp1 : 1 ≤ f.p := by omega
  have hw' : f.p + f.q ≤ f.w := hw.le
  have hA : Whole a k := ⟨ha, hak⟩
  have hB : Whole b (-(3 * k * r)) := ⟨hb, hbk⟩
  have hC : Whole c (3 * k * r ^ 2) := ⟨hc, hck⟩
  have hD : Whole d (-(k * r ^ 3)) := ⟨hd, hdk⟩
  have hk1 : 1 ≤ |k| := Int.one_le_abs hk
  have hk2 : k ^ 2 = |k| ^ 2 := (sq_abs k).symm
  have hr0 := abs_nonneg r
  have hkk : |k| ≤ k ^ 2 := by rw [hk2]; nlinarith
  have hk21 : 1 ≤ k ^ 2 := by linarith
  -- every integer that occurs is bounded by the size hypothesis
  have bound : ∀ n : ℤ, |n| ≤ 9 * k ^ 2 * (|r| ^ 3 + 1) → |n| < 2 ^ f.p := fun n h => lt_of_le_of_lt h hsize
  have r1 : |r| ≤ |r| ^ 3 + 1 := by nlinarith [sq_nonneg (|r| - 1), mul_nonneg hr0 (sq_nonneg (|r| - 1))]
  have r2 : |r| ^ 2 ≤ |r| ^ 3 + 1 := by nlinarith [sq_nonneg (|r| - 1), mul_nonneg hr0 (sq_nonneg (|r| - 1))]
  have r3 : |r| ^ 3 ≤ |r| ^ 3 + 1 := by linarith
  have r0 : 1 ≤ |r| ^ 3 + 1 := by have := pow_nonneg hr0 3; linarith
  have bd : ∀ (m K R : ℤ), 0 ≤ m → m ≤ 9 → 0 ≤ K → K ≤ k ^ 2 → 0 ≤ R → R ≤ |r| ^ 3 + 1 →
      m * K * R ≤ 9 * k ^ 2 * (|r| ^ 3 + 1) := by
    intro m K R h1 h2 h3 h4 h5 h6
    exact mul_le_mul (mul_le_mul h2 h4 h3 (by norm_num)) h6 h5 (by positivity)
  have sz : ∀ (n m K R : ℤ), |n| = m * K * R → 0 ≤ m → m ≤ 9 → 0 ≤ K → K ≤ k ^ 2 → 0 ≤ R → R ≤ |r| ^ 3 + 1 →
      |n| < 2 ^ f.p := fun n m K R h h1 h2 h3 h4 h5 h6 => bound n (by rw [h]; exact bd m K R h1 h2 h3 h4 h5 h6)
  have h16 : (16 : Nat) ≤ 2 ^ f.p := by
    calc (16 : Nat) = 2 ^ 4 := by norm_num
      _ ≤ 2 ^ f.p := Nat.pow_le_pow_right (by norm_num) hp
  have h3 : Whole ((3 : Nat) : Fl f) 3 := by exact_mod_cast Whole.small hp hw (n := 3) (by omega)
  have h6 : Whole ((6 : Nat) : Fl f) 6 := by exact_mod_cast Whole.small hp hw (n := 6) (by omega)
  have hone : Whole (1 : Fl f) 1 := ⟨rfl, by rw [toRat_one]; simp⟩
  have k0 : 0 ≤ k ^ 2 := by positivity
  have ak0 := abs_nonneg k
  have ar2 : 0 ≤ |r| ^ 2 := by positivity
  have ar3 : 0 ≤ |r| ^ 3 := by positivity
  have e3a := Whole.mul hp1 hw' h3 hA (sz _ 3 |k| 1 (by rw [abs_mul]; norm_num) (by norm_num) (by norm_num) ak0 hkk
    (by norm_num) r0)
  have h3k : (3 * k : ℤ) ≠ 0 := by omega
  have ep := Whole.div hp1 hw' hB.neg e3a h3k (n := r) (by ring)
    (sz _ 1 1 |r| (by ring) (by norm_num) (by norm_num) (by norm_num) hk21 hr0 r1)
  have epp := Whole.mul hp1 hw' ep ep (sz _ 1 1 (|r| ^ 2) (by rw [abs_mul]; ring) (by norm_num) (by norm_num)
    (by norm_num) hk21 ar2 r2)
  have eppp := Whole.mul hp1 hw' epp ep (sz _ 1 1 (|r| ^ 3) (by rw [abs_mul, abs_mul]; ring) (by norm_num) (by norm_num)
    (by norm_num) hk21 ar3 r3)
  have ebc := Whole.mul hp1 hw' hB hC (sz _ 9 (k ^ 2) (|r| ^ 3) (by
    rw [show -(3 * k * r) * (3 * k * r ^ 2) = -(9 * k ^ 2 * r ^ 3) by ring, abs_neg, abs_mul, abs_mul, abs_of_nonneg k0,
      abs_pow]; norm_num) (by norm_num) (by norm_num) k0 le_rfl ar3 r3)
  have e3ad := Whole.mul hp1 hw' e3a hD (sz _ 3 (k ^ 2) (|r| ^ 3) (by
    rw [show 3 * k * -(k * r ^ 3) = -(3 * k ^ 2 * r ^ 3) by ring, abs_neg, abs_mul, abs_mul, abs_of_nonneg k0,
      abs_pow]; norm_num) (by norm_num) (by norm_num) k0 le_rfl ar3 r3)
  have enum := Whole.sub hp1 hw' ebc e3ad (sz _ 6 (k ^ 2) (|r| ^ 3) (by
    rw [show -(3 * k * r) * (3 * k * r ^ 2) - 3 * k * -(k * r ^ 3) = -(6 * k ^ 2 * r ^ 3) by ring, abs_neg, abs_mul,
      abs_mul, abs_of_nonneg k0, abs_pow]; norm_num) (by norm_num) (by norm_num) k0 le_rfl ar3 r3)
  have eaa := Whole.mul hp1 hw' hA hA (sz _ 1 (k ^ 2) 1 (by rw [← sq, abs_of_nonneg k0]; ring) (by norm_num)
    (by norm_num) k0 le_rfl (by norm_num) r0)
  have e6aa := Whole.mul hp1 hw' h6 eaa (sz _ 6 (k ^ 2) 1 (by
    rw [← sq, abs_mul, abs_of_nonneg k0]; norm_num) (by norm_num) (by norm_num) k0 le_rfl (by norm_num) r0)
  have h6k : (6 * (k * k) : ℤ) ≠ 0 := by positivity
  have eq0 := Whole.div hp1 hw' enum e6aa h6k (n := -r ^ 3) (by ring)
    (sz _ 1 1 (|r| ^ 3) (by rw [abs_neg, abs_pow]; ring) (by norm_num) (by norm_num) (by norm_num) hk21 ar3 r3)
  have h0p : |(0 : ℤ)| < 2 ^ f.p := by simp
  have eq := Whole.add hp1 hw' eppp eq0 (by rw [show r * r * r + -r ^ 3 = 0 by ring]; exact h0p)
  rw [show r * r * r + -r ^ 3 = 0 by ring] at eq
  have er := Whole.div hp1 hw' hC e3a h3k (n := r ^ 2) (by ring)
    (sz _ 1 1 (|r| ^ 2) (by rw [abs_pow]; ring) (by norm_num) (by norm_num) (by norm_num) hk21 ar2 r2)
  have es := Whole.sub hp1 hw' er epp (by rw [show r ^ 2 - r * r = 0 by ring]; exact h0p)
  rw [show r ^ 2 - r * r = 0 by ring] at es
  have ess := Whole.mul hp1 hw' es es (by rw [mul_zero]; exact h0p)
  rw [mul_zero] at ess
  have esss := Whole.mul hp1 hw' ess es (by rw [mul_zero]; exact h0p)
  rw [mul_zero] at esss
  have eqq := Whole.mul hp1 hw' eq eq (by rw [mul_zero]; exact h0p)
  rw [mul_zero] at eqq
  have edisc := Whole.add hp1 hw' eqq esss (by rw [add_zero]; exact h0p)
  rw [add_zero] at edisc
  unfold cubicRoots
  simp only [rdiv_eq, Res.ok_bind, show ∀ x : Fl f, absSqrt x = .ok (sqrt (abs x)) from fun _ => rfl]
  generalize ((3 : Nat) : Fl f) * a = a3 at *
  generalize div (-b) a3 = p at *
  generalize p * p = pp at *
  generalize pp * p = ppp at *
  generalize b * c - a3 * d = num at *
  generalize ((6 : Nat) : Fl f) * (a * a) = den at *
  generalize div num den = q0 at *
  generalize ppp + q0 = q at *
  generalize div c a3 = r' at *
  generalize r' - pp = s at *
  generalize q * q + s * s * s = D at *
  have hsq : Whole (sqrt (abs D)) 0 := by
    obtain ⟨t, rfl⟩ := isZero_iff.1 edisc.zero
    have h0 : roundSqrt f.p (0 * 2 ^ f.q) = 0 := by simp [roundSqrt, roundRat]
    have h1 : sqrt (abs (fin t 0 : Fl f)) = pack false 0 := by
      change pack false (roundSqrt f.p (0 * 2 ^ f.q)) = _
      rw [h0]
    rw [h1, show (pack false 0 : Fl f) = fin false 0 by simp [pack]]
    exact Whole.of_zero (isZero_iff.2 ⟨_, rfl⟩)
  have ek1 := Whole.add hp1 hw' eq hsq (by rw [add_zero]; exact h0p)
  have ek2 := Whole.sub hp1 hw' eq hsq (by rw [sub_zero]; exact h0p)
  rw [add_zero] at ek1
  rw [sub_zero] at ek2
  have c1 := Whole.of_zero (hcb _ ek1.zero)
  have c2 := Whole.of_zero (hcb _ ek2.zero)
  have c12 := Whole.add hp1 hw' c1 c2 (by rw [add_zero]; exact h0p)
  have ex := Whole.add hp1 hw' c12 ep (sz _ 1 1 |r| (by ring_nf) (by norm_num) (by norm_num) (by norm_num) hk21 hr0 r1)
  rw [show (0 + 0 + r : ℤ) = r by ring] at ex
  generalize cbrt (q + sqrt (abs D)) + cbrt (q - sqrt (abs D)) + p = x at *
  have eb' := Whole.div hp1 hw' hB hA hk (n := -(3 * r)) (by ring)
    (sz _ 3 1 |r| (by rw [abs_neg, abs_mul]; norm_num) (by norm_num) (by norm_num) (by norm_num) hk21 hr0 r1)
  have eb := Whole.add hp1 hw' eb' ex (sz _ 2 1 |r| (by
    rw [show -(3 * r) + r = -(2 * r) by ring, abs_neg, abs_mul]; norm_num) (by norm_num) (by norm_num) (by norm_num) hk21
    hr0 r1)
  rw [show -(3 * r) + r = -(2 * r) by ring] at eb
  have ec' := Whole.div hp1 hw' hC hA hk (n := 3 * r ^ 2) (by ring)
    (sz _ 3 1 (|r| ^ 2) (by rw [abs_mul, abs_pow]; norm_num) (by norm_num) (by norm_num) (by norm_num) hk21 ar2 r2)
  have ebx := Whole.mul hp1 hw' eb ex (sz _ 2 1 (|r| ^ 2) (by
    rw [show -(2 * r) * r = -(2 * r ^ 2) by ring, abs_neg, abs_mul, abs_pow]; norm_num) (by norm_num) (by norm_num)
    (by norm_num) hk21 ar2 r2)
  have ec := Whole.add hp1 hw' ec' ebx (sz _ 1 1 (|r| ^ 2) (by
    rw [show 3 * r ^ 2 + -(2 * r) * r = r ^ 2 by ring, abs_pow]; ring) (by norm_num) (by norm_num) (by norm_num) hk21
    ar2 r2)
  rw [show 3 * r ^ 2 + -(2 * r) * r = r ^ 2 by ring] at ec
  have h4r : 4 * (1 * r) ^ 2 < 2 ^ f.p := by
    have := sz (4 * r ^ 2) 4 1 (|r| ^ 2) (by rw [abs_mul, abs_pow]; norm_num) (by norm_num) (by norm_num) (by norm_num)
      hk21 ar2 r2
    rw [abs_of_nonneg (by positivity)] at this
    rw [one_mul]; exact this
  obtain ⟨y, z, hyz, hyf, hzf, hy, hz⟩ := C84_integer_roots hp hq hw 1 (div b a + x) (div c a + (div b a + x) * x) 1 r r
    hone.1 eb.1 ec.1 one_ne_zero hone.2 (by rw [eb.2]; push_cast; ring) (by rw [ec.2]; push_cast; ring)
    (by have : (16 : ℤ) ≤ 2 ^ f.p := by exact_mod_cast h16
        linarith) h4r h4r
  change trinomialRoots 1 (div b a + x) (div c a + (div b a + x) * x) = _ at hyz
  rw [hyz]
  refine ⟨x, y, z, rfl, ⟨ex.1, ex.2⟩, ⟨hyf, ?_⟩, ⟨hzf, ?_⟩⟩
  · rw [hy]; simp
  · rw [hz]; simp

omit [Cbrt (Fl f)] in
theorem coefAt_finite_dense {p : Poly (Fl f)} (h : ∀ x ∈ p.terms, x.isFinite = true) (k : Nat) :
    (p.coefAt k).isFinite = true := by
  unfold Poly.coefAt plusZero
  split
  · rfl
  · rw [List.getD_eq_getElem?_getD]
    cases hg : p.terms.reverse[k]? with
    | none => rfl
    | some x => exact h x (by simpa using List.mem_of_getElem? hg)

omit [Cbrt (Fl f)] in
theorem coefAt_finite_sparse {p : Sparse (Fl f)} (h : ∀ e ∈ p.terms.entries, e.2.isFinite = true) (k : Nat) :
    (p.coefAt k).isFinite = true := by
  unfold Sparse.coefAt plusZero
  split
  · rfl
  · cases hg : p.terms.get k with
    | none => rfl
    | some x => exact h (k, x) ((BMap.mem_entries ..).2 hg)

theorem outcome_cubic {oracle : List (Fl f) → List (Fl f)} {rnd eval : Fl f → Fl f} {c : Nat → Fl f} {out : Roots (Fl f)}
    {P : ℚ[X]} (h : RootsOutcome oracle rnd eval c out (.num 3)) (hc : ∀ k, (c k).toRat = P.coeff k)
    (h012 : P.coeff 0 ≠ 0 ∨ P.coeff 1 ≠ 0 ∨ P.coeff 2 ≠ 0) :
    ∃ r, cubicRoots (c 3) (c 2) (c 1) (c 0) = .ok r ∧ out = r.many := by
  have h : if ∀ k, k < 2 + 1 → isZero (c k) = true then out = .manyRealRoots [0]
    else ∃ r, cubicRoots (c 3) (c 2) (c 1) (c 0) = .ok r ∧ out = r.many := h
  rwa [if_neg] at h
  intro hz
  have h0 : ∀ k, k < 3 → P.coeff k = 0 := fun k hk => by
    obtain ⟨s, hs⟩ := isZero_iff.1 (hz k hk)
    rw [← hc k, hs, toRat_fin_zero]
  rcases h012 with h | h | h
  · exact h (h0 0 (by norm_num))
  · exact h (h0 1 (by norm_num))
  · exact h (h0 2 (by norm_num))

/-- `roots()` of a polynomial of degree three that is not a single term is the cubic formula on its coefficients. -/
theorem cubic_driver (hp : 4 ≤ f.p) (hw : f.p + f.q < f.w)
    (oracle : List (Fl f) → List (Fl f)) (rnd : Fl f → Fl f) (fuel : Nat) (hfuel : 4 ≤ fuel) (P : ℚ[X])
    (hP : P.natDegree = 3) (h012 : P.coeff 0 ≠ 0 ∨ P.coeff 1 ≠ 0 ∨ P.coeff 2 ≠ 0) (res : Res (Roots (Fl f)))
    (hres : (∃ p : Poly (Fl f), (∀ x ∈ p.terms, x.Valid ∧ x.isFinite = true) ∧ descPoly (p.terms.map toRat) = P ∧
        res = p.roots oracle rnd fuel) ∨
      (∃ (_ : PowUsize (Fl f)) (p : Sparse (Fl f)), (∀ e ∈ p.terms.entries, e.2.Valid ∧ e.2.isFinite = true) ∧
        p.ratPoly = P ∧ res = p.roots oracle rnd fuel)) :
    ∃ (a b c d : Fl f) (r : Roots (Fl f)), a.toRat = P.coeff 3 ∧ b.toRat = P.coeff 2 ∧ c.toRat = P.coeff 1 ∧
      d.toRat = P.coeff 0 ∧ (a.isFinite = true ∧ b.isFinite = true ∧ c.isFinite = true ∧ d.isFinite = true) ∧
      cubicRoots a b c d = .ok r ∧ res = .ok r.many := by
  rcases hres with ⟨p, hx, he, rfl⟩ | ⟨_, p, hx, he, rfl⟩
  · have hd : p.degree = .num 3 :=
      degree_of_nat (by norm_num) hP (by rw [← he]; exact (C86_dense p p fun c hc => (hx c hc).2).1)
    have hc := fun k => coefAt_dense p k
    rw [he] at hc
    rcases C90_dense_roots (by omega) (by omega) oracle rnd p (fun x h => (hx x h).1) with ⟨out, h3, h4, _⟩ | ⟨⟨d, h5, h6⟩, _⟩
    · rw [hd] at h3 h4
      rw [h4 fuel (fun d h => by cases h; exact hfuel)]
      obtain ⟨r, h5, h6⟩ := outcome_cubic h3 hc h012
      exact ⟨_, _, _, _, r, hc 3, hc 2, hc 1, hc 0,
        ⟨coefAt_finite_dense (fun x h => (hx x h).2) 3, coefAt_finite_dense (fun x h => (hx x h).2) 2,
          coefAt_finite_dense (fun x h => (hx x h).2) 1, coefAt_finite_dense (fun x h => (hx x h).2) 0⟩, h5, by rw [h6]⟩
    · rw [hd] at h5; cases h5; omega
  · have hd : p.degree = .num 3 :=
      degree_of_nat (by norm_num) hP (by rw [← he]; exact (C85_degree p fun c hc => (hx c hc).2).1)
    have hc := fun k => coefAt_sparse p k
    rw [he] at hc
    rcases C90_sparse_roots (by omega) (by omega) oracle rnd p (fun x h => (hx x h).1) with ⟨out, h3, h4, _⟩ | ⟨⟨d, h5, h6⟩, _⟩
    · rw [hd] at h3 h4
      rw [h4 fuel (fun d h => by cases h; exact hfuel)]
      obtain ⟨r, h5, h6⟩ := outcome_cubic h3 hc h012
      exact ⟨_, _, _, _, r, hc 3, hc 2, hc 1, hc 0,
        ⟨coefAt_finite_sparse (fun x h => (hx x h).2) 3, coefAt_finite_sparse (fun x h => (hx x h).2) 2,
          coefAt_finite_sparse (fun x h => (hx x h).2) 1, coefAt_finite_sparse (fun x h => (hx x h).2) 0⟩, h5, by rw [h6]⟩
    · rw [hd] at h5; cases h5; omega

/-- C95: `roots()` of a polynomial of degree three (other than `a x³`) returns three numbers, and when they are finite
they are the roots of a polynomial close to `P - P(w₁)`. -/
theorem C95_roots (hp : 4 ≤ f.p) (hq : 2 * f.p ≤ f.q) (hw : f.p + f.q < f.w)
    (oracle : List (Fl f) → List (Fl f)) (rnd : Fl f → Fl f) (fuel : Nat) (hfuel : 4 ≤ fuel) (P : ℚ[X])
    (hP : P.natDegree = 3) (h012 : P.coeff 0 ≠ 0 ∨ P.coeff 1 ≠ 0 ∨ P.coeff 2 ≠ 0) (res : Res (Roots (Fl f)))
    (hres : (∃ p : Poly (Fl f), (∀ x ∈ p.terms, x.Valid ∧ x.isFinite = true) ∧ descPoly (p.terms.map toRat) = P ∧
        res = p.roots oracle rnd fuel) ∨
      (∃ (_ : PowUsize (Fl f)) (p : Sparse (Fl f)), (∀ e ∈ p.terms.entries, e.2.Valid ∧ e.2.isFinite = true) ∧
        p.ratPoly = P ∧ res = p.roots oracle rnd fuel)) :
    ∃ r, res = .ok r.many ∧ ((∃ x y z, r = .threeRealRoots x y z) ∨ ∃ x y z, r = .threeComplexRoots x y z) ∧
      ∀ w₁ w₂ w₃ : ℂ, FiniteTriple r w₁ w₂ w₃ → w₁.im = 0 ∧
        ∀ T : ℝ, 0 < T → ‖w₁‖ ≤ T → |(P.coeff 2 : ℝ)| ≤ |(P.coeff 3 : ℝ)| * T →
          |(P.coeff 1 : ℝ)| ≤ |(P.coeff 3 : ℝ)| * T ^ 2 → (eta f : ℝ) ≤ uro f * T → (eta f : ℝ) ≤ uro f * T ^ 2 →
          ∃ E₂ E₁ E₀ : ℂ,
            (∀ z : ℂ, aeval z P - aeval w₁ P = P.coeff 3 * ((z - w₁) * (z - w₂) * (z - w₃) + E₂ * z ^ 2 + E₁ * z + E₀)) ∧
            ‖E₂‖ ≤ 24 * uro f * T ∧ ‖E₁‖ ≤ 140 * uro f * T ^ 2 ∧ ‖E₀‖ ≤ 125 * uro f * T ^ 3 := by
  obtain ⟨a, b, c, d, r, ha, hb, hc, hd, _, hr, hout⟩ := cubic_driver hp hw oracle rnd fuel hfuel P hP h012 res hres
  have hP0 : P ≠ 0 := by rintro rfl; simp at hP
  have hP3 : P.coeff 3 ≠ 0 := by
    have := leadingCoeff_ne_zero.2 hP0
    rwa [leadingCoeff, hP] at this
  have key := C95_cubic_backward hp hq hw a b c d (by rw [ha]; exact hP3) r hr
  rw [ha, hb, hc, hd] at key
  have ev : ∀ z : ℂ, aeval z P = P.coeff 3 * z ^ 3 + P.coeff 2 * z ^ 2 + P.coeff 1 * z + P.coeff 0 := by
    intro z
    rw [aeval_eq_sum_range, hP]
    simp only [Finset.sum_range_succ, Finset.sum_range_zero, Rat.smul_def]
    ring
  obtain ⟨r', hr', hthree⟩ := cubic_three a b c d
  rw [hr] at hr'
  cases hr'
  refine ⟨r, hout, hthree, fun w₁ w₂ w₃ h3 => ?_⟩
  have hi : w₁.im = 0 := by
    obtain ⟨x, r₂, hxf, rfl, hr₂, h2⟩ := cubic_parts a b c d r hr w₁ w₂ w₃ h3
    simp
  exact ⟨hi, fun T hT hw1 h2 h1 e1 e2 => (key w₁ w₂ w₃ h3 T hT hw1 h2 h1 e1 e2 (fun z => aeval z P) ev).2⟩

/-- C95: `roots()` of `k(x-r)³` for small integers is exactly the list of three `r`s, for every cube root with
`∛0 = 0`. -/
theorem C95_roots_triple (hp : 4 ≤ f.p) (hq : 1 ≤ f.q) (hw : f.p + f.q < f.w)
    (hcb : ∀ z : Fl f, isZero z = true → isZero (cbrt z) = true)
    (oracle : List (Fl f) → List (Fl f)) (rnd : Fl f → Fl f) (fuel : Nat) (hfuel : 4 ≤ fuel) (k r : ℤ) (hk : k ≠ 0)
    (hr : r ≠ 0) (hsize : 9 * k ^ 2 * (|r| ^ 3 + 1) < 2 ^ f.p) (P : ℚ[X])
    (hP : P = C (k : ℚ) * (X - C (r : ℚ)) ^ 3) (res : Res (Roots (Fl f)))
    (hres : (∃ p : Poly (Fl f), (∀ x ∈ p.terms, x.Valid ∧ x.isFinite = true) ∧ descPoly (p.terms.map toRat) = P ∧
        res = p.roots oracle rnd fuel) ∨
      (∃ (_ : PowUsize (Fl f)) (p : Sparse (Fl f)), (∀ e ∈ p.terms.entries, e.2.Valid ∧ e.2.isFinite = true) ∧
        p.ratPoly = P ∧ res = p.roots oracle rnd fuel)) :
    ∃ x y z, res = .ok (.manyRealRoots [x, y, z]) ∧ (x.isFinite = true ∧ x.toRat = r) ∧
      (y.isFinite = true ∧ y.toRat = r) ∧ (z.isFinite = true ∧ z.toRat = r) := by
  have hkq : (k : ℚ) ≠ 0 := by exact_mod_cast hk
  have hrq : (r : ℚ) ≠ 0 := by exact_mod_cast hr
  have hcube : P = C (k : ℚ) * X ^ 3 + C (-(3 * k * r) : ℚ) * X ^ 2 + C (3 * k * r ^ 2 : ℚ) * X + C (-(k * r ^ 3) : ℚ) := by
    rw [hP]
    simp only [map_neg, map_mul, map_pow, map_ofNat]
    ring
  have hdeg : P.natDegree = 3 := by rw [hcube]; exact natDegree_cubic hkq
  obtain ⟨c0, c1, c2, c3⟩ : P.coeff 0 = (-(k * r ^ 3) : ℤ) ∧ P.coeff 1 = (3 * k * r ^ 2 : ℤ) ∧
      P.coeff 2 = (-(3 * k * r) : ℤ) ∧ P.coeff 3 = k := by
    rw [hcube]
    push_cast
    refine ⟨?_, ?_, ?_, ?_⟩ <;> simp only [coeff_add, coeff_C_mul, coeff_X_pow, coeff_X, coeff_C] <;> norm_num
  obtain ⟨a, b, c, d, out, ha, hb, hc, hd, hf, hr, hout⟩ := cubic_driver hp hw oracle rnd fuel hfuel P hdeg
    (.inl (by rw [c0]; push_cast; exact neg_ne_zero.2 (mul_ne_zero hkq (pow_ne_zero 3 hrq)))) res hres
  obtain ⟨x, y, z, h1, h2⟩ := C95_triple_root hp hq hw hcb a b c d k r hk hf.1 hf.2.1 hf.2.2.1 hf.2.2.2
    (ha.trans c3) (hb.trans c2) (hc.trans c1) (hd.trans c0) hsize
  rw [hr] at h1
  cases h1
  exact ⟨x, y, z, hout, h2⟩

end

/-! ## The first root is not always one -/

theorem cube_between {y z lo hi : ℚ} (h : |y ^ 3 - z| ≤ |z| / 100) (hlo : lo ^ 3 ≤ z - |z| / 100)
    (hhi : z + |z| / 100 ≤ hi ^ 3) : lo ≤ y ∧ y ≤ hi := by
  have := abs_le.1 h
  refine ⟨?_, ?_⟩
  · exact (Odd.strictMono_pow (R := ℚ) (n := 3) ⟨1, rfl⟩).le_iff_le.1 (by show lo ^ 3 ≤ y ^ 3; linarith)
  · exact (Odd.strictMono_pow (R := ℚ) (n := 3) ⟨1, rfl⟩).le_iff_le.1 (by show y ^ 3 ≤ hi ^ 3; linarith)

/-- C95 (the first root is not always accurate): `x³ - 7x + 6 = (x-1)(x-2)(x+3)` has three real roots, but
with every reasonable cube root the first number returned is one where the polynomial is at least 1. -/
theorem C95_first_false [Cbrt (Fl binary64)]
    (hcb : ∀ z : Fl binary64, z.isFinite = true → (cbrt z).isFinite = true ∧ |(cbrt z).toRat ^ 3 - z.toRat| ≤ |z.toRat| / 100) :
    ∃ x : Fl binary64, ((∃ y z, cubicRoots 1 0 (-ofNat 7) (ofNat 6) = .ok (.threeRealRoots x y z)) ∨
        ∃ y z, cubicRoots 1 0 (-ofNat 7) (ofNat 6) = .ok (.threeComplexRoots ⟨x, 0⟩ y z)) ∧
      x.isFinite = true ∧ 1 ≤ x.toRat ^ 3 - 7 * x.toRat + 6 := by
  unfold cubicRoots
  simp only [rdiv_eq, Res.ok_bind, show ∀ x : Fl binary64, absSqrt x = .ok (sqrt (abs x)) from fun _ => rfl]
  generalize hk1 : _ + _ + sqrt _ = k₁
  generalize hk2 : _ + _ - sqrt _ = k₂
  generalize hp0 : div (-0) (((3 : Nat) : Fl binary64) * 1) = p₀
  have f1 : k₁.isFinite = true ∧ -1076 / 1000 ≤ k₁.toRat ∧ k₁.toRat ≤ -1075 / 1000 := by
    rw [← hk1]; decide +kernel
  have f2 : k₂.isFinite = true ∧ -4925 / 1000 ≤ k₂.toRat ∧ k₂.toRat ≤ -4924 / 1000 := by
    rw [← hk2]; decide +kernel
  have f3 : p₀.isFinite = true ∧ p₀.toRat = 0 := by
    rw [← hp0]; decide +kernel
  clear hk1 hk2 hp0
  obtain ⟨g1, e1⟩ := hcb k₁ f1.1
  obtain ⟨g2, e2⟩ := hcb k₂ f2.1
  have n1 : |k₁.toRat| = -k₁.toRat := abs_of_nonpos (by linarith [f1.2.2])
  have n2 : |k₂.toRat| = -k₂.toRat := abs_of_nonpos (by linarith [f2.2.2])
  have b1 := cube_between (lo := -103 / 100) (hi := -102 / 100) e1 (by rw [n1]; linarith [f1.2.1]) (by rw [n1]; linarith [f1.2.2])
  have b2 := cube_between (lo := -171 / 100) (hi := -169 / 100) e2 (by rw [n2]; linarith [f2.2.1]) (by rw [n2]; linarith [f2.2.2])
  have hmax : (10 : ℚ) ≤ maxFinite binary64 := by decide +kernel
  have hu : uro binary64 ≤ 1 / 100 := by unfold uro; decide +kernel
  have hs := (C65_no_overflow (f := binary64) (by decide) (by decide) _ _ g1 g2).1 (by rw [abs_le]; constructor <;> linarith [b1.1, b1.2, b2.1, b2.2])
  have es := add_error hs
  have i1 : |(cbrt k₁).toRat + (cbrt k₂).toRat| ≤ 3 := by rw [abs_le]; constructor <;> linarith [b1.1, b1.2, b2.1, b2.2]
  have i2 := abs_le.1 (es.trans (mul_le_mul hu i1 (abs_nonneg _) (by norm_num)))
  generalize cbrt k₁ + cbrt k₂ = t at *
  have ht := (C65_no_overflow (f := binary64) (by decide) (by decide) t p₀ hs f3.1).1
    (by rw [f3.2, abs_le]; constructor <;> linarith [b1.1, b1.2, b2.1, b2.2, i2.1, i2.2])
  have et := add_error ht
  rw [f3.2, add_zero] at et
  have i3 : |t.toRat| ≤ 3 := by rw [abs_le]; constructor <;> linarith [b1.1, b1.2, b2.1, b2.2, i2.1, i2.2]
  have i4 := abs_le.1 (et.trans (mul_le_mul hu i3 (abs_nonneg _) (by norm_num)))
  generalize t + p₀ = x at *
  have x1 : -29 / 10 ≤ x.toRat := by linarith [b1.1, b2.1, i2.1, i4.1]
  have x2 : x.toRat ≤ -25 / 10 := by linarith [b1.2, b2.2, i2.2, i4.2]
  have hval : 1 ≤ x.toRat ^ 3 - 7 * x.toRat + 6 := by
    generalize x.toRat = v at *
    nlinarith [mul_nonneg (sub_nonneg.2 x1) (sub_nonneg.2 x2), mul_nonneg (mul_nonneg (sub_nonneg.2 x1) (sub_nonneg.2 x2))
      (show (0 : ℚ) ≤ v + 29 / 10 by linarith)]
  obtain ⟨r, hr, ⟨y, z, rfl⟩ | ⟨y, z, rfl⟩⟩ := trinomial_two (1 : Fl binary64) (div 0 1 + x) (div (-ofNat 7) 1 + (div 0 1 + x) * x)
  · rw [hr]; exact ⟨x, .inl ⟨y, z, rfl⟩, ht, hval⟩
  · rw [hr]; exact ⟨x, .inr ⟨y, z, rfl⟩, ht, hval⟩


/-! ## Examples -/

section
local instance triCbrt : Cbrt (Fl binary64) := ⟨fun x => x⟩

-- the cubics of the crate's tests with a triple root
example : cubicRoots (1 : Fl binary64) (ofNat 6) (ofNat 12) (ofNat 8) = .ok (.threeRealRoots (-ofNat 2) (-ofNat 2) (-ofNat 2)) := by
  decide +kernel
example : cubicRoots (ofNat 2 : Fl binary64) (ofNat 12) (ofNat 24) (ofNat 16) =
    .ok (.threeRealRoots (-ofNat 2) (-ofNat 2) (-ofNat 2)) := by decide +kernel
-- the hypotheses of `C95_triple_root` for the second one
example : (∀ z : Fl binary64, isZero z = true → isZero (cbrt z) = true) ∧ (ofNat 2 : Fl binary64).toRat = (2 : ℤ) ∧
    (ofNat 12 : Fl binary64).toRat = (-(3 * 2 * -2) : ℤ) ∧ (ofNat 24 : Fl binary64).toRat = (3 * 2 * (-2) ^ 2 : ℤ) ∧
    (ofNat 16 : Fl binary64).toRat = (-(2 * (-2) ^ 3) : ℤ) ∧ 9 * 2 ^ 2 * (|(-2 : ℤ)| ^ 3 + 1) < 2 ^ binary64.p :=
  ⟨fun _ h => h, by decide +kernel, by decide +kernel, by decide +kernel, by decide +kernel, by decide⟩
example : (⟨[ofNat 2, ofNat 12, ofNat 24, ofNat 16]⟩ : Poly (Fl binary64)).roots (fun _ => []) (fun x => x) 4 =
    .ok (.manyRealRoots [-ofNat 2, -ofNat 2, -ofNat 2]) := by decide +kernel
-- `x³ - x/3 + 1/10` has inexact coefficients, and the roots returned are finite
example : (match cubicRoots (1 : Fl binary64) 0 (div (-1) (ofNat 3)) (div 1 (ofNat 10)) with
    | .ok (.threeRealRoots x y z) => x.isFinite && y.isFinite && z.isFinite
    | .ok (.threeComplexRoots x y z) => x.re.isFinite && y.re.isFinite && y.im.isFinite && z.re.isFinite && z.im.isFinite
    | _ => false) = true := by decide +kernel
end

theorem cube_floor (n : Nat) : ∃ m : Nat, m ^ 3 ≤ n ∧ n < (m + 1) ^ 3 := by
  have h : ∃ m : Nat, n < (m + 1) ^ 3 := ⟨n, lt_of_lt_of_le (Nat.lt_succ_self n) (Nat.le_self_pow (by norm_num) _)⟩
  classical
  refine ⟨Nat.find h, ?_, Nat.find_spec h⟩
  rcases Nat.eq_zero_or_pos (Nat.find h) with h0 | h0
  · rw [h0]; simp
  · have := Nat.find_min h (m := Nat.find h - 1) (by omega)
    rw [Nat.sub_add_cancel h0] at this
    omega

theorem cube_floor_close {a m q : Nat} (hq : 15 ≤ q) (h1 : m ^ 3 ≤ a * 2 ^ (2 * q)) (h2 : a * 2 ^ (2 * q) < (m + 1) ^ 3) :
    |(m : ℚ) ^ 3 - (a : ℚ) * 2 ^ (2 * q)| ≤ (a : ℚ) * 2 ^ (2 * q) / 100 := by
  rcases Nat.eq_zero_or_pos a with rfl | ha
  · have : m = 0 := by simpa using h1
    subst this; simp
  have hn : 2 ^ 30 ≤ a * 2 ^ (2 * q) :=
    (Nat.pow_le_pow_right (by norm_num) (by omega)).trans (Nat.le_mul_of_pos_left _ ha)
  have hm : 1024 ≤ m := by
    by_contra hc
    have : (m + 1) ^ 3 ≤ 1024 ^ 3 := Nat.pow_le_pow_left (by omega) 3
    norm_num at this hn
    omega
  have e1 : ((m : ℚ)) ^ 3 ≤ a * 2 ^ (2 * q) := by exact_mod_cast h1
  have e2 : (a : ℚ) * 2 ^ (2 * q) ≤ (m + 1) ^ 3 := by exact_mod_cast h2.le
  have hmq : (1024 : ℚ) ≤ m := by exact_mod_cast hm
  generalize (a : ℚ) * 2 ^ (2 * q) = n at *
  clear h1 h2 hn
  rw [abs_of_nonpos (by linarith)]
  nlinarith [mul_le_mul_of_nonneg_left hmq (sq_nonneg (m : ℚ)), mul_le_mul_of_nonneg_left hmq (show (0 : ℚ) ≤ m by linarith)]

/-- The cube root rounded towards zero to a whole number of units `2^-q`. -/
noncomputable def floorCbrt (f : FlFmt) : Fl f → Fl f
  | .fin s a => .fin s (Classical.choose (cube_floor (a * 2 ^ (2 * f.q))))
  | x => x

-- a cube root that meets the hypothesis of `C95_first_false`
example : letI : Cbrt (Fl binary64) := ⟨floorCbrt binary64⟩
    ∀ z : Fl binary64, z.isFinite = true → (cbrt z).isFinite = true ∧ |(cbrt z).toRat ^ 3 - z.toRat| ≤ |z.toRat| / 100 := by
  intro z hz
  obtain ⟨s, a, rfl⟩ := isFinite_iff.1 hz
  refine ⟨rfl, ?_⟩
  change |(fin s (Classical.choose (cube_floor (a * 2 ^ (2 * binary64.q)))) : Fl binary64).toRat ^ 3 - _| ≤ _
  obtain ⟨h1, h2⟩ := Classical.choose_spec (cube_floor (a * 2 ^ (2 * binary64.q)))
  generalize Classical.choose (cube_floor (a * 2 ^ (2 * binary64.q))) = m at *
  have hq : 15 ≤ binary64.q := by decide
  rw [abs_toRat, toRat, toRat]
  generalize binary64.q = q at *
  have key : |(m : ℚ) ^ 3 / 2 ^ (3 * q) - (a : ℚ) / 2 ^ q| ≤ (a : ℚ) / 2 ^ q / 100 := by
    have h0 := cube_floor_close hq h1 h2
    have : (m : ℚ) ^ 3 / 2 ^ (3 * q) - a / 2 ^ q = ((m : ℚ) ^ 3 - a * 2 ^ (2 * q)) / 2 ^ (3 * q) := by
      rw [sub_div, pow_mul', pow_mul' 2 2]
      have : (2 : ℚ) ^ q ≠ 0 := by positivity
      generalize (2 : ℚ) ^ q = E at *
      field_simp
    rw [this, abs_div, abs_of_pos (show (0 : ℚ) < 2 ^ (3 * q) by positivity), div_le_iff₀ (by positivity)]
    refine h0.trans_eq ?_
    rw [pow_mul', pow_mul' 2 3]
    have : (2 : ℚ) ^ q ≠ 0 := by positivity
    generalize (2 : ℚ) ^ q = E at *
    field_simp
  have e : ((if s = true then (-1 : ℚ) else 1) * (m / 2 ^ q)) ^ 3 - (if s = true then -1 else 1) * (a / 2 ^ q) =
      (if s = true then -1 else 1) * ((m : ℚ) ^ 3 / 2 ^ (3 * q) - a / 2 ^ q) := by
    have : (if s = true then (-1 : ℚ) else 1) ^ 3 = if s = true then -1 else 1 := by cases s <;> norm_num
    rw [mul_pow, this, div_pow, ← pow_mul, mul_comm q 3]
    ring
  rw [e, abs_mul, sign_abs, one_mul]
  exact key

end Fl
end Rustnomial
