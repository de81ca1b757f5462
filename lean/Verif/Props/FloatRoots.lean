import Verif.SpecFloatRoots
import Verif.Lemmas.FloatSqrt
import Verif.Props.FloatDiv
import Mathlib.Analysis.Complex.Norm
import Mathlib.Analysis.Complex.Basic
import Mathlib.Tactic.LinearCombination

/-!
# C83, C84: roots of linear and quadratic polynomials over floats
-/

set_option linter.unusedSectionVars false

namespace Rustnomial
namespace Fl
variable {f : FlFmt}

/-! ## C83 – square roots and roots of linear binomials -/

theorem absSqrt_fin (s : Bool) (a : Nat) :
    absSqrt (fin s a : Fl f) = .ok (pack false (roundSqrt f.p (a * 2 ^ f.q))) := rfl

theorem abs_toRat (s : Bool) (a : Nat) : |(fin s a : Fl f).toRat| = a / 2 ^ f.q := by
  rw [toRat, abs_mul, sign_abs, one_mul, abs_of_nonneg (by positivity)]

theorem sqrt_units (s : Bool) (a : Nat) :
    √((|(fin s a : Fl f).toRat| : ℚ) : ℝ) = √((a * 2 ^ f.q : Nat) : ℝ) / 2 ^ f.q := by
  rw [abs_toRat]
  have h : (((a : ℚ) / 2 ^ f.q : ℚ) : ℝ) = ((a * 2 ^ f.q : Nat) : ℝ) / (2 ^ f.q) ^ 2 := by
    have : (2 : ℝ) ^ f.q ≠ 0 := by positivity
    push_cast
    field_simp
  rw [h, Real.sqrt_div (by positivity), Real.sqrt_sq (by positivity)]

theorem roundSqrt_lt (hp : 2 ≤ f.p) (hw : f.q + 2 ≤ f.w) {a : Nat} (ha : a < 2 ^ f.w) :
    roundSqrt f.p (a * 2 ^ f.q) < 2 ^ f.w := by
  have hrep : Representable f.p (2 ^ (f.w - 1)) := ⟨1, f.w - 1, Nat.one_lt_two_pow (by omega), by simp⟩
  have h := roundSqrt_nearest (n := a * 2 ^ f.q) (by omega) hrep
  have hle : √((a * 2 ^ f.q : Nat) : ℝ) ≤ ((2 ^ (f.w - 1) : Nat) : ℝ) := by
    rw [Real.sqrt_le_left (by positivity)]
    have : a * 2 ^ f.q ≤ (2 ^ (f.w - 1)) ^ 2 := by
      calc a * 2 ^ f.q ≤ 2 ^ f.w * 2 ^ f.q := Nat.mul_le_mul_right _ ha.le
        _ = 2 ^ (f.w + f.q) := by rw [pow_add]
        _ ≤ 2 ^ ((f.w - 1) * 2) := Nat.pow_le_pow_right (by norm_num) (by omega)
        _ = _ := by rw [pow_mul]
    exact_mod_cast this
  have hlt : 2 ^ (f.w - 1) < 2 ^ f.w := Nat.pow_lt_pow_right (by norm_num) (by omega)
  refine lt_of_le_of_lt ?_ hlt
  by_contra hc
  have hc' : ((2 ^ (f.w - 1) : Nat) : ℝ) < roundSqrt f.p (a * 2 ^ f.q) := by exact_mod_cast not_le.1 hc
  rw [abs_of_pos (by linarith), abs_of_nonneg (by linarith)] at h
  linarith

/-- C83: `abs_sqrt` of a finite float is a finite non-negative number of the format, no number of the format is
nearer to the exact root, and of two equally near ones it is the even one. -/
theorem C83_sqrt (hp : 2 ≤ f.p) (hw : f.q + 2 ≤ f.w) (x : Fl f) (hx : x.isFinite = true) (hv : x.Valid) :
    ∃ r : Fl f, absSqrt x = .ok r ∧ r.isFinite = true ∧ r.Valid ∧ 0 ≤ r.toRat ∧
      (∀ z : Fl f, z.Valid → z.isFinite = true →
        |(r.toRat : ℝ) - √((|x.toRat| : ℚ) : ℝ)| ≤ |(z.toRat : ℝ) - √((|x.toRat| : ℚ) : ℝ)|) ∧
      (∀ z : Fl f, z.Valid → z.isFinite = true → z.toRat ≠ r.toRat →
        |(z.toRat : ℝ) - √((|x.toRat| : ℚ) : ℝ)| = |(r.toRat : ℝ) - √((|x.toRat| : ℚ) : ℝ)| →
        ∀ t, 2 ^ t ∣ z.units → 2 ^ (t + 1) ∣ r.units) := by
  obtain ⟨s, a, rfl⟩ := isFinite_iff.1 hx
  have hlt := roundSqrt_lt hp hw hv.2
  have hfin : (pack false (roundSqrt f.p (a * 2 ^ f.q)) : Fl f) = fin false (roundSqrt f.p (a * 2 ^ f.q)) :=
    pack_eq_fin (pack_isFinite.2 hlt)
  have hpos : (0 : ℝ) < 2 ^ f.q := by positivity
  have hr0 : ∀ m : Nat, (((fin false m : Fl f).toRat : ℚ) : ℝ) = (m : ℝ) / 2 ^ f.q := by
    intro m; simp [toRat]
  have hdist : ∀ m : Nat, |(((fin false m : Fl f).toRat : ℚ) : ℝ) - √((a * 2 ^ f.q : Nat) : ℝ) / 2 ^ f.q| =
      |(m : ℝ) - √((a * 2 ^ f.q : Nat) : ℝ)| / 2 ^ f.q := by
    intro m
    rw [hr0, ← sub_div, abs_div, abs_of_pos hpos]
  have hneg : ∀ m : Nat, |(((fin true m : Fl f).toRat : ℚ) : ℝ) - √((a * 2 ^ f.q : Nat) : ℝ) / 2 ^ f.q| =
      (m : ℝ) / 2 ^ f.q + √((a * 2 ^ f.q : Nat) : ℝ) / 2 ^ f.q := by
    intro m
    have h1 : (((fin true m : Fl f).toRat : ℚ) : ℝ) = -((m : ℝ) / 2 ^ f.q) := by simp [toRat]
    have h2 : 0 ≤ √((a * 2 ^ f.q : Nat) : ℝ) / 2 ^ f.q := by positivity
    have h3 : 0 ≤ (m : ℝ) / 2 ^ f.q := by positivity
    rw [h1, abs_of_nonpos (by linarith)]
    ring
  have hz0 := roundSqrt_nearest (p := f.p) (n := a * 2 ^ f.q) (m := 0) (by omega) ⟨0, 0, by positivity, by simp⟩
  have hz0' := div_le_div_of_nonneg_right hz0 hpos.le
  rw [← hdist, ← hdist, hr0 0] at hz0'
  have hs0 : 0 ≤ √((a * 2 ^ f.q : Nat) : ℝ) / 2 ^ f.q := by positivity
  rw [Nat.cast_zero, zero_div, zero_sub, abs_neg, abs_of_nonneg hs0] at hz0'
  refine ⟨_, absSqrt_fin s a, ?_⟩
  rw [hfin, sqrt_units]
  refine ⟨rfl, ⟨representable_roundSqrt (by omega), hlt⟩, by simp [toRat]; positivity, ?_, ?_⟩
  · intro z hz hzf
    obtain ⟨t, m, rfl⟩ := isFinite_iff.1 hzf
    cases t with
    | false =>
      rw [hdist, hdist]
      exact div_le_div_of_nonneg_right (roundSqrt_nearest (by omega) hz.1) hpos.le
    | true =>
      rw [hneg]
      have h3 : 0 ≤ (m : ℝ) / 2 ^ f.q := by positivity
      linarith
  · intro z hz hzf hne heq t ht
    obtain ⟨sg, m, rfl⟩ := isFinite_iff.1 hzf
    have hsame : (fin sg m : Fl f).toRat = (fin false m : Fl f).toRat := by
      cases sg with
      | false => rfl
      | true =>
        rw [hneg] at heq
        have h3 : 0 ≤ (m : ℝ) / 2 ^ f.q := by positivity
        have h4 : (m : ℝ) / 2 ^ f.q = 0 := by linarith
        have h5 : m = 0 := by
          rw [div_eq_zero_iff] at h4
          rcases h4 with h4 | h4
          · exact_mod_cast h4
          · exact absurd h4 hpos.ne'
        rw [h5]; simp [toRat]
    rw [hsame] at heq hne
    rw [hdist, hdist, div_left_inj' hpos.ne'] at heq
    refine roundSqrt_tie (by omega) hz.1 ?_ heq t ht
    rintro rfl
    exact hne rfl

-- the root of 2 is 6369051672525773 / 2^52, the root of 9 is exact, also of -9 (absolute value)
example : absSqrt (ofNat 2 : Fl binary64) = .ok (div (ofNat 6369051672525773) (ofNat (2 ^ 52))) ∧
    absSqrt (-ofNat 9 : Fl binary64) = .ok (ofNat 3) ∧ (ofNat 2 : Fl binary64).isFinite = true ∧
    absSqrt (fin true 0 : Fl binary64) = .ok (fin false 0) := by decide +kernel
example : ∀ x y : Fl binary64, (x + y).Valid := fun x y => (C65_closed (by decide) x y).1

/-- C83: relative error of `abs_sqrt`, without any underflow term. -/
theorem C83_sqrt_error (hq : 2 * f.p ≤ f.q) (x r : Fl f) (hx : x.isFinite = true)
    (h : absSqrt x = .ok r) (hr : r.isFinite = true) :
    |(r.toRat : ℝ) - √((|x.toRat| : ℚ) : ℝ)| ≤ (uro f : ℝ) * √((|x.toRat| : ℚ) : ℝ) := by
  obtain ⟨s, a, rfl⟩ := isFinite_iff.1 hx
  rw [absSqrt_fin] at h
  cases h
  rw [toRat_pack hr, sqrt_units]
  have hpos : (0 : ℝ) < 2 ^ f.q := by positivity
  rcases Nat.eq_zero_or_pos a with rfl | ha
  · simp [roundSqrt, roundRat]
  · have hn : 2 ^ (2 * f.p) ≤ a * 2 ^ f.q :=
      (Nat.pow_le_pow_right (by norm_num) hq).trans (Nat.le_mul_of_pos_left _ ha)
    have := div_le_div_of_nonneg_right (roundSqrt_error hn) hpos.le
    rw [← abs_of_pos hpos, ← abs_div, sub_div, abs_of_pos hpos] at this
    simp only [Bool.false_eq_true, if_false, one_mul]
    unfold uro
    push_cast at this ⊢
    refine this.trans (le_of_eq ?_)
    ring

/-- C83: the root of a linear binomial with finite coefficients and non-zero leading coefficient is a number
of the format nearest to the exact root `-b/a`, unless it overflows. -/
theorem C83_linear_root (hp : 1 ≤ f.p) (a b z : Fl f) (ha : a.isFinite = true) (hb : b.isFinite = true)
    (ha0 : a.toRat ≠ 0) (hz : z.Valid) (hzf : z.isFinite = true) :
    ∃ r : Fl f, (LinearBinomial.new a b).root = .ok (.oneRealRoot r) ∧
      (r.isFinite = true → |r.toRat - -b.toRat / a.toRat| ≤ |z.toRat - -b.toRat / a.toRat|) := by
  have h0 : isZero a = false := by
    rw [Bool.eq_false_iff]
    intro h
    exact ha0 ((isZero_iff_toRat ha).1 h)
  refine ⟨div (-b) a, ?_, fun h => ?_⟩
  · show (if isZero a = true then _ else _) = _
    rw [h0]
    rfl
  · have := (C65_nearest hp (-b) a z hz hzf).2.2.2 (by rw [isFinite_neg]; exact hb) ha ha0 h
    rwa [toRat_neg] at this

example : (LinearBinomial.new (ofNat 3) (ofNat 1) : LinearBinomial (Fl binary64)).root =
    .ok (.oneRealRoot (div (-ofNat 1) (ofNat 3))) ∧ (div (-ofNat 1) (ofNat 3) : Fl binary64).isFinite = true ∧
    (div (-ofNat 1) (ofNat 3) : Fl binary64).toRat ≠ -1 / 3 := by decide +kernel

/-! ## C84 – roots of quadratic trinomials -/

theorem ofNat_small (hp : 4 ≤ f.p) (hw : f.p + f.q < f.w) {n : Nat} (h : n ≤ 2 ^ f.p) :
    (ofNat n : Fl f) = fin false (n * 2 ^ f.q) := by
  have hrep : Representable f.p n := by
    rcases h.lt_or_eq with h | rfl
    · exact ⟨n, 0, h, by simp⟩
    · exact ⟨1, f.p, Nat.one_lt_two_pow (by omega), by simp⟩
  rw [ofNat, roundNat_of_representable hrep]
  refine pack_eq_fin (pack_isFinite.2 ?_)
  calc n * 2 ^ f.q ≤ 2 ^ f.p * 2 ^ f.q := Nat.mul_le_mul_right _ h
    _ = 2 ^ (f.p + f.q) := by rw [pow_add]
    _ < 2 ^ f.w := Nat.pow_lt_pow_right (by norm_num) hw

/-- Multiplication by a power of two is exact. -/
theorem mul_pow2 (hp : 1 ≤ f.p) {x : Fl f} (hv : x.Valid) (k : Nat)
    (h : (x * fin false (2 ^ k * 2 ^ f.q)).isFinite = true) :
    (x * fin false (2 ^ k * 2 ^ f.q)).toRat = x.toRat * 2 ^ k := by
  obtain ⟨hx, -⟩ := finite_of_mul h
  obtain ⟨s, a, rfl⟩ := isFinite_iff.1 hx
  have e : (fin s a * fin false (2 ^ k * 2 ^ f.q) : Fl f) = pack s (a * 2 ^ k) := by
    rw [mul_def]
    simp only [mul]
    have := roundRat_scale (p := f.p) (num := a * 2 ^ k) (den := 1) (c := 2 ^ f.q) (by positivity)
    rw [one_mul, mul_assoc] at this
    have hfit : FitsIn f.p (a * 2 ^ k) := by
      obtain ⟨m, e, hm, rfl⟩ := hv.1
      exact ⟨m, e + k, hm, by rw [pow_add]; ring⟩
    rw [this, roundRat_fits hp hfit]
    simp
  rw [e] at h ⊢
  rw [toRat_pack h, toRat]
  push_cast
  ring

theorem finite_of_div {x y : Fl f} (h : (div x y).isFinite = true) : x.isFinite = true := by
  cases x <;> cases y <;> simp_all [div, isFinite]

theorem finite_of_sqrt {x r : Fl f} (h : absSqrt x = .ok r) (hr : r.isFinite = true) : x.isFinite = true := by
  cases x with
  | nan => cases h; simp [sqrt, abs, isFinite] at hr
  | inf s => cases h; simp [sqrt, abs, isFinite] at hr
  | fin s a => rfl

/-- Error of the discriminant. -/
theorem disc_core {u η A B C t1 t2 D' : ℝ} (hu : 0 ≤ u) (hu1 : u ≤ 1 / 16) (hη : 0 ≤ η)
    (h1 : |t1 - B * B| ≤ u * |B * B| + η) (h2 : |t2 - A * C| ≤ u * |A * C| + η)
    (h3 : |D' - (t1 - t2 * 4)| ≤ u * |t1 - t2 * 4|) :
    |D' - (B * B - 4 * A * C)| ≤ 3 * u * (B * B + 4 * |A * C|) + 6 * η := by
  have hB : |B * B| = B * B := abs_of_nonneg (mul_self_nonneg B)
  rw [hB] at h1
  have hBB := mul_self_nonneg B
  have hAC := abs_nonneg (A * C)
  have e1 : |D' - (B * B - 4 * A * C)| ≤ |D' - (t1 - t2 * 4)| + |t1 - B * B| + 4 * |t2 - A * C| := by
    have : D' - (B * B - 4 * A * C) = (D' - (t1 - t2 * 4)) + (t1 - B * B) + -(4 * (t2 - A * C)) := by ring
    rw [this]
    refine (abs_add_le _ _).trans ?_
    have h4 := abs_add_le (D' - (t1 - t2 * 4)) (t1 - B * B)
    rw [abs_neg, abs_mul, abs_of_pos (by norm_num : (0 : ℝ) < 4)]
    linarith
  have e2 : |t1 - t2 * 4| ≤ (B * B + 4 * |A * C|) + |t1 - B * B| + 4 * |t2 - A * C| := by
    have : t1 - t2 * 4 = (t1 - B * B) + -(4 * (t2 - A * C)) + (B * B + -(4 * (A * C))) := by ring
    rw [this]
    refine (abs_add_le _ _).trans ?_
    have h4 := abs_add_le (t1 - B * B) (-(4 * (t2 - A * C)))
    have h5 := abs_add_le (B * B) (-(4 * (A * C)))
    rw [hB] at h5
    rw [abs_neg, abs_mul, abs_of_pos (by norm_num : (0 : ℝ) < 4)] at h4 h5
    linarith
  have e3 : u * |t1 - t2 * 4| ≤ u * ((B * B + 4 * |A * C|) + (u * (B * B) + η) + 4 * (u * |A * C| + η)) :=
    mul_le_mul_of_nonneg_left (by linarith) hu
  have e4 : u * (u * (B * B + 4 * |A * C|)) ≤ 1 / 16 * (u * (B * B + 4 * |A * C|)) :=
    mul_le_mul_of_nonneg_right hu1 (by positivity)
  have e5 : u * η ≤ 1 / 16 * η := mul_le_mul_of_nonneg_right hu1 hη
  have e6 : 0 ≤ u * (B * B + 4 * |A * C|) := by positivity
  nlinarith

/-- The complex square root of a real number. -/
noncomputable def csq (d : ℝ) : ℂ := if 0 ≤ d then ⟨√d, 0⟩ else ⟨0, √(-d)⟩

theorem csq_sq (d : ℝ) : csq d * csq d = d := by
  unfold csq
  split
  · rename_i h
    apply Complex.ext <;> simp [Real.mul_self_sqrt h]
  · rename_i h
    apply Complex.ext <;> simp [Real.mul_self_sqrt (by linarith : 0 ≤ -d)]

theorem norm_mk (x y : ℝ) : ‖(⟨x, y⟩ : ℂ)‖ = √(x * x + y * y) := by
  rw [Complex.norm_def, Complex.normSq_mk]

theorem sqrt_sub_le {x y : ℝ} (hx : 0 ≤ x) (hy : 0 ≤ y) : |√x - √y| ≤ √|x - y| := by
  apply Real.le_sqrt_of_sq_le
  rw [sq_abs]
  have h : |x - y| = |√x - √y| * (√x + √y) := by
    rw [← abs_of_nonneg (by positivity : 0 ≤ √x + √y), ← abs_mul]
    congr 1
    have h1 := Real.mul_self_sqrt hx
    have h2 := Real.mul_self_sqrt hy
    linear_combination -h1 + h2
  rw [h, ← sq_abs, sq]
  apply mul_le_mul_of_nonneg_left _ (abs_nonneg _)
  have h1 := Real.sqrt_nonneg x
  have h2 := Real.sqrt_nonneg y
  rw [abs_le]
  constructor <;> linarith

theorem csq_sub (x y : ℝ) : ‖csq x - csq y‖ ≤ √|x - y| := by
  unfold csq
  by_cases hx : 0 ≤ x <;> by_cases hy : 0 ≤ y
  · rw [if_pos hx, if_pos hy]
    have : ((⟨√x, 0⟩ : ℂ) - ⟨√y, 0⟩) = ⟨√x - √y, 0⟩ := by apply Complex.ext <;> simp
    rw [this, norm_mk, mul_zero, add_zero, Real.sqrt_mul_self_eq_abs]
    exact sqrt_sub_le hx hy
  · rw [if_pos hx, if_neg hy]
    push Not at hy
    have : ((⟨√x, 0⟩ : ℂ) - ⟨0, √(-y)⟩) = ⟨√x, -√(-y)⟩ := by apply Complex.ext <;> simp
    rw [this, norm_mk, neg_mul_neg, Real.mul_self_sqrt hx, Real.mul_self_sqrt (by linarith),
      abs_of_nonneg (by linarith)]
    exact le_of_eq (by congr 1)
  · rw [if_neg hx, if_pos hy]
    push Not at hx
    have : ((⟨0, √(-x)⟩ : ℂ) - ⟨√y, 0⟩) = ⟨-√y, √(-x)⟩ := by apply Complex.ext <;> simp
    rw [this, norm_mk, neg_mul_neg, Real.mul_self_sqrt hy, Real.mul_self_sqrt (by linarith),
      abs_of_nonpos (by linarith)]
    exact le_of_eq (by congr 1; ring)
  · rw [if_neg hx, if_neg hy]
    push Not at hx hy
    have : ((⟨0, √(-x)⟩ : ℂ) - ⟨0, √(-y)⟩) = ⟨0, √(-x) - √(-y)⟩ := by apply Complex.ext <;> simp
    rw [this, norm_mk, mul_zero, zero_add, Real.sqrt_mul_self_eq_abs]
    refine (sqrt_sub_le (by linarith) (by linarith)).trans (le_of_eq ?_)
    rw [abs_sub_comm]
    congr 2; ring

/-- Error of the two quotients. -/
theorem quot_core {u η A B S E D' b' s' q : ℝ} (hu : 0 ≤ u) (hA : A ≠ 0) (hS : 0 ≤ S) (hE : 0 ≤ E)
    (hB : B * B ≤ S) (hD : |D'| ≤ S + E) (h1 : |b' - -B / (A * 2)| ≤ u * |-B / (A * 2)| + η)
    (h2 : |q - (√|D'|)| ≤ u * √|D'|) (h3 : |s' - q / (A * 2)| ≤ u * |q / (A * 2)| + η) :
    |b' - -B / (A * 2)| ≤ u * (√S / (2 * |A|)) + η ∧
    |s' - √|D'| / (A * 2)| ≤ (2 * u + u ^ 2) * ((√S + √E) / (2 * |A|)) + η ∧
    |b'| ≤ (1 + u) * (√S / (2 * |A|)) + η ∧ |s'| ≤ (1 + u) ^ 2 * ((√S + √E) / (2 * |A|)) + η := by
  have hA' : 0 < 2 * |A| := by positivity
  have hBS : |B| ≤ √S := by
    apply Real.abs_le_sqrt
    rw [sq]; exact hB
  have hDS : √|D'| ≤ √S + √E := by
    refine (Real.sqrt_le_sqrt hD).trans (Real.sqrt_le_iff.2 ⟨by positivity, ?_⟩)
    have h4 := Real.sq_sqrt hS
    have h5 := Real.sq_sqrt hE
    have h6 : 0 ≤ √S * √E := by positivity
    nlinarith
  have hab : ∀ x : ℝ, |x / (A * 2)| = |x| / (2 * |A|) := by
    intro x
    rw [abs_div, abs_mul, abs_of_pos (by norm_num : (0 : ℝ) < 2), mul_comm]
  have hb0 : |-B / (A * 2)| ≤ √S / (2 * |A|) := by
    rw [hab, abs_neg]
    exact div_le_div_of_nonneg_right hBS hA'.le
  have hd0 : √|D'| / (2 * |A|) ≤ (√S + √E) / (2 * |A|) := div_le_div_of_nonneg_right hDS hA'.le
  have hq : |q| ≤ (1 + u) * √|D'| := by
    have h4 := abs_sub_abs_le_abs_sub q √|D'|
    rw [abs_of_nonneg (Real.sqrt_nonneg |D'|)] at h4
    linarith
  have hq' : |q / (A * 2)| ≤ (1 + u) * (√|D'| / (2 * |A|)) := by
    rw [hab, ← mul_div_assoc]
    exact div_le_div_of_nonneg_right hq hA'.le
  have hqd : |q / (A * 2) - √|D'| / (A * 2)| ≤ u * (√|D'| / (2 * |A|)) := by
    rw [← sub_div, hab, ← mul_div_assoc]
    exact div_le_div_of_nonneg_right h2 hA'.le
  have c1 : |b' - -B / (A * 2)| ≤ u * (√S / (2 * |A|)) + η :=
    h1.trans (by linarith [mul_le_mul_of_nonneg_left hb0 hu])
  have c2 : |s' - √|D'| / (A * 2)| ≤ (2 * u + u ^ 2) * ((√S + √E) / (2 * |A|)) + η := by
    have h4 := abs_sub_le s' (q / (A * 2)) (√|D'| / (A * 2))
    have h5 := mul_le_mul_of_nonneg_left hq' hu
    have h6 := mul_le_mul_of_nonneg_left hd0 (by positivity : 0 ≤ 2 * u + u ^ 2)
    nlinarith
  refine ⟨c1, c2, ?_, ?_⟩
  · have := abs_sub_abs_le_abs_sub b' (-B / (A * 2))
    linarith
  · have h4 := abs_sub_abs_le_abs_sub s' (√|D'| / (A * 2))
    rw [hab, abs_of_nonneg (Real.sqrt_nonneg |D'|)] at h4
    nlinarith

theorem total_core {u η g h m : ℝ} (hu : 0 ≤ u) (hu1 : u ≤ 1 / 16) (hη : 0 ≤ η) (hg : 0 ≤ g) (hh : 0 ≤ h)
    (hm : 0 < m) :
    (u * (g / m) + η) + ((2 * u + u ^ 2) * ((g + h) / m) + η) + h / m +
      u * (((1 + u) * (g / m) + η) + ((1 + u) ^ 2 * ((g + h) / m) + η)) ≤ (6 * u * g + 2 * h) / m + 3 * η := by
  rw [add_div, add_div, mul_div_assoc, mul_div_assoc]
  have hg' : 0 ≤ g / m := by positivity
  have hh' : 0 ≤ h / m := by positivity
  generalize g / m = G at *
  generalize h / m = H at *
  have h1 : u * u ≤ 1 / 16 * u := mul_le_mul_of_nonneg_right hu1 hu
  have h1' : u * u * u ≤ 1 / 16 * (u * u) := by nlinarith
  have a1 : (5 * u + 4 * (u * u) + u * u * u) * G ≤ 6 * u * G := mul_le_mul_of_nonneg_right (by nlinarith) hg'
  have a2 : (1 + 3 * u + 3 * (u * u) + u * u * u) * H ≤ 2 * H := mul_le_mul_of_nonneg_right (by nlinarith) hh'
  have a3 : (2 + 2 * u) * η ≤ 3 * η := mul_le_mul_of_nonneg_right (by linarith) hη
  nlinarith

/-- The direction of the complex square root of a real number. -/
noncomputable def cdir (d : ℝ) : ℂ := if 0 ≤ d then 1 else Complex.I

theorem csq_eq (d : ℝ) : csq d = cdir d * (√|d| : ℝ) := by
  unfold csq cdir
  split
  · rename_i h
    rw [abs_of_nonneg h]
    apply Complex.ext <;> simp
  · rename_i h
    rw [abs_of_neg (not_le.1 h)]
    apply Complex.ext <;> simp

theorem norm_cdir (d : ℝ) : ‖cdir d‖ = 1 := by
  unfold cdir
  split <;> simp

/-- Distance of a computed root from the exact one. -/
theorem dist_core {A B D' D β σ e1 e2 e3 h : ℝ} (w s : ℂ) (hs : ‖s‖ = 1) (hA : A ≠ 0)
    (h1 : |β - -B / (A * 2)| ≤ e1) (h2 : |σ - √|D'| / (A * 2)| ≤ e2)
    (h3 : ‖w - (β + s * (cdir D' * σ))‖ ≤ e3) (h4 : ‖csq D' - csq D‖ ≤ h) :
    ‖w - (-B + s * csq D) / (A * 2)‖ ≤ e1 + e2 + h / (2 * |A|) + e3 := by
  have hA' : (A : ℂ) ≠ 0 := by exact_mod_cast hA
  have e : w - (-B + s * csq D) / (A * 2) = (w - (β + s * (cdir D' * σ))) + ((β - -B / (A * 2) : ℝ) : ℂ) +
      s * (cdir D' * ((σ - √|D'| / (A * 2) : ℝ) : ℂ)) + s * ((csq D' - csq D) / (A * 2)) := by
    rw [csq_eq D']
    push_cast
    field_simp
    ring
  rw [e]
  have n1 : ‖((β - -B / (A * 2) : ℝ) : ℂ)‖ ≤ e1 := by rw [Complex.norm_real]; exact h1
  have n2 : ‖s * (cdir D' * ((σ - √|D'| / (A * 2) : ℝ) : ℂ))‖ ≤ e2 := by
    rw [norm_mul, norm_mul, hs, norm_cdir, one_mul, one_mul, Complex.norm_real]; exact h2
  have n3 : ‖s * ((csq D' - csq D) / (A * 2))‖ ≤ h / (2 * |A|) := by
    rw [norm_mul, hs, one_mul, norm_div, norm_mul, Complex.norm_real, Complex.norm_ofNat, mul_comm, Real.norm_eq_abs]
    exact div_le_div_of_nonneg_right h4 (by positivity)
  have t1 := norm_add_le ((w - (β + s * (cdir D' * σ))) + ((β - -B / (A * 2) : ℝ) : ℂ) +
      s * (cdir D' * ((σ - √|D'| / (A * 2) : ℝ) : ℂ))) (s * ((csq D' - csq D) / (A * 2)))
  have t2 := norm_add_le ((w - (β + s * (cdir D' * σ))) + ((β - -B / (A * 2) : ℝ) : ℂ))
      (s * (cdir D' * ((σ - √|D'| / (A * 2) : ℝ) : ℂ)))
  have t3 := norm_add_le (w - (β + s * (cdir D' * σ))) ((β - -B / (A * 2) : ℝ) : ℂ)
  linarith

/-- The exact roots. -/
theorem exact_roots {A B C : ℝ} (hA : A ≠ 0) (z : ℂ) :
    (A : ℂ) * z ^ 2 + B * z + C =
      A * (z - (-B + csq (B * B - 4 * A * C)) / (A * 2)) * (z - (-B - csq (B * B - 4 * A * C)) / (A * 2)) := by
  have h := csq_sq (B * B - 4 * A * C)
  push_cast at h
  generalize csq (B * B - 4 * A * C) = w at *
  have hA' : (A : ℂ) ≠ 0 := by exact_mod_cast hA
  field_simp
  linear_combination h

theorem cast_le {x y : ℚ} (h : x ≤ y) : (x : ℝ) ≤ (y : ℝ) := by exact_mod_cast h

theorem disc_error (hp : 4 ≤ f.p) (hw : f.p + f.q < f.w) (a b c : Fl f)
    (h : (discriminantTrinomial a b c).isFinite = true) :
    a.isFinite = true ∧ b.isFinite = true ∧ c.isFinite = true ∧
    |((discriminantTrinomial a b c).toRat : ℝ) - ((b.toRat : ℝ) * b.toRat - 4 * a.toRat * c.toRat)| ≤
      3 * (uro f : ℝ) * ((b.toRat : ℝ) * b.toRat + 4 * |(a.toRat : ℝ) * c.toRat|) + 6 * (eta f : ℝ) := by
  have h4 : ((4 : Nat) : Fl f) = fin false (2 ^ 2 * 2 ^ f.q) :=
    ofNat_small hp hw (Nat.pow_le_pow_right (n := 2) (i := 2) (by norm_num) (by omega))
  unfold discriminantTrinomial at *
  rw [h4] at h ⊢
  obtain ⟨h1, h2⟩ := finite_of_sub h
  obtain ⟨h3, -⟩ := finite_of_mul h2
  obtain ⟨hb, -⟩ := finite_of_mul h1
  obtain ⟨ha, hc⟩ := finite_of_mul h3
  refine ⟨ha, hb, hc, ?_⟩
  have e1 := cast_le (mul_error h1)
  have e2 := cast_le (mul_error h3)
  have e3 := cast_le (sub_error h)
  rw [mul_pow2 (by omega) (C65_closed (by omega) a c).2.2.1 2 h2, show (2 : ℚ) ^ 2 = 4 by norm_num] at e3
  generalize (fin false (2 ^ 2 * 2 ^ f.q) : Fl f) = y at *
  push_cast at e1 e2 e3
  have hu : (0 : ℝ) ≤ (uro f : ℝ) := by exact_mod_cast uro_nonneg
  have hη : (0 : ℝ) ≤ (eta f : ℝ) := by exact_mod_cast eta_nonneg
  have hu1 : (uro f : ℝ) ≤ 1 / 16 := by
    unfold uro
    push_cast
    apply one_div_le_one_div_of_le (by norm_num)
    calc (16 : ℝ) = 2 ^ 4 := by norm_num
      _ ≤ 2 ^ f.p := pow_le_pow_right₀ (by norm_num) hp
  exact disc_core hu hu1 hη e1 e2 e3

theorem uro_le (hp : 4 ≤ f.p) : (uro f : ℝ) ≤ 1 / 16 := by
  unfold uro
  push_cast
  apply one_div_le_one_div_of_le (by norm_num)
  calc (16 : ℝ) = 2 ^ 4 := by norm_num
    _ ≤ 2 ^ f.p := pow_le_pow_right₀ (by norm_num) hp

theorem trinomialRoots_fl (a b c : Fl f) :
    trinomialRoots a b c = .ok (
      if isZero (discriminantTrinomial a b c) then
        .twoRealRoots (div (-b) (a * (2 : Nat))) (div (-b) (a * (2 : Nat)))
      else if isPositive (discriminantTrinomial a b c) then
        .twoRealRoots
          (div (-b) (a * (2 : Nat)) + div (sqrt (abs (discriminantTrinomial a b c))) (a * (2 : Nat)))
          (div (-b) (a * (2 : Nat)) - div (sqrt (abs (discriminantTrinomial a b c))) (a * (2 : Nat)))
      else .twoComplexRoots
        ⟨div (-b) (a * (2 : Nat)), div (sqrt (abs (discriminantTrinomial a b c))) (a * (2 : Nat))⟩
        ⟨div (-b) (a * (2 : Nat)), -div (sqrt (abs (discriminantTrinomial a b c))) (a * (2 : Nat))⟩) := by
  unfold trinomialRoots
  by_cases h1 : isZero (discriminantTrinomial a b c) = true
  · simp only [h1, if_true]; rfl
  · by_cases h2 : isPositive (discriminantTrinomial a b c) = true
    · simp only [if_neg h1, if_pos h2]; rfl
    · simp only [if_neg h1, if_neg h2]; rfl

theorem isPositive_iff {x : Fl f} (h : x.isFinite = true) : isPositive x = true ↔ 0 < x.toRat := by
  obtain ⟨s, a, rfl⟩ := isFinite_iff.1 h
  have hpos : (0 : ℚ) < 2 ^ f.q := by positivity
  show (!s && decide (0 < a)) = true ↔ _
  cases s
  · simp only [toRat, Bool.not_false, Bool.true_and, decide_eq_true_eq, Bool.false_eq_true, if_false, one_mul]
    rw [div_pos_iff_of_pos_right hpos]
    exact_mod_cast Iff.rfl
  · simp only [toRat, Bool.not_true, Bool.false_and, Bool.false_eq_true, if_true, false_iff, not_lt]
    have : (0 : ℚ) ≤ a / 2 ^ f.q := by positivity
    linarith

/-- C84: the two roots which `roots` of a quadratic trinomial returns are, when finite, close to the two exact
complex roots: with `S = b² + 4|ac|` the distance is at most `(3u√S + √(3uS + 6η))/|a| + 3η`, where `u = 2^-p` is
the unit roundoff and `η` half the smallest positive number. -/
theorem C84_roots_error (hp : 4 ≤ f.p) (hq : 2 * f.p ≤ f.q) (hw : f.p + f.q < f.w) (a b c : Fl f)
    (ha : a.Valid) (ha0 : a.toRat ≠ 0) (ha2 : |a.toRat| * 2 ≤ maxFinite f) (r : Roots (Fl f))
    (hr : (QuadraticTrinomial.new a b c).roots = .ok r) (w₁ w₂ : ℂ) (hw12 : FinitePair r w₁ w₂) (S : ℝ)
    (hS : S = (b.toRat : ℝ) ^ 2 + 4 * |(a.toRat : ℝ) * c.toRat|) (ε : ℝ)
    (hε : ε = (3 * uro f * √S + √(3 * uro f * S + 6 * eta f)) / |(a.toRat : ℝ)| + 3 * eta f) :
    ∃ z₁ z₂ : ℂ, (∀ z : ℂ, (a.toRat : ℂ) * z ^ 2 + b.toRat * z + c.toRat = a.toRat * (z - z₁) * (z - z₂)) ∧
      ‖w₁ - z₁‖ ≤ ε ∧ ‖w₂ - z₂‖ ≤ ε := by
  have haf : a.isFinite = true := by
    cases a with
    | fin s m => rfl
    | _ => exact absurd rfl ha0
  have h2c : ((2 : Nat) : Fl f) = fin false (2 ^ 1 * 2 ^ f.q) :=
    ofNat_small hp hw (Nat.pow_le_pow_right (n := 2) (i := 1) (by norm_num) (by omega))
  have h2r : ((2 : Nat) : Fl f).toRat = 2 := by
    rw [h2c, toRat]
    have : (2 : ℚ) ^ f.q ≠ 0 := by positivity
    push_cast
    field_simp
    try simp
  have hQf : (a * ((2 : Nat) : Fl f)).isFinite = true :=
    (C65_no_overflow (by omega) (by omega) a _ haf (by rw [h2c]; rfl)).2.1 (by
      rw [h2r, abs_mul, abs_of_pos (by norm_num : (0 : ℚ) < 2)]; exact ha2)
  have hQ : (a * ((2 : Nat) : Fl f)).toRat = a.toRat * 2 := by
    rw [h2c] at hQf ⊢
    rw [mul_pow2 (by omega) ha 1 hQf, pow_one]
  have hQ0 : (a * ((2 : Nat) : Fl f)).toRat ≠ 0 := by rw [hQ]; exact mul_ne_zero ha0 (by norm_num)
  change trinomialRoots a b c = _ at hr
  rw [trinomialRoots_fl] at hr
  generalize hD : discriminantTrinomial a b c = D at hr
  generalize a * ((2 : Nat) : Fl f) = Q at *
  -- the discriminant is finite in every case
  have hDf : D.isFinite = true := by
    by_cases h1 : isZero D = true
    · obtain ⟨s, rfl⟩ := isZero_iff.1 h1
      rfl
    · simp only [if_neg h1] at hr
      have key : (div (sqrt (abs D)) Q).isFinite = true := by
        by_cases h2 : isPositive D = true
        · simp only [if_pos h2] at hr
          cases hr
          exact (finite_of_add hw12.1).2
        · simp only [if_neg h2] at hr
          cases hr
          exact hw12.2.1
      exact finite_of_sqrt (x := D) rfl (finite_of_div key)
  obtain ⟨-, hbf, -, hDe⟩ := disc_error hp hw a b c (by rw [hD]; exact hDf)
  rw [hD] at hDe
  have hA : (a.toRat : ℝ) ≠ 0 := by exact_mod_cast ha0
  have hu : (0 : ℝ) ≤ (uro f : ℝ) := by exact_mod_cast uro_nonneg
  have hη : (0 : ℝ) ≤ (eta f : ℝ) := by exact_mod_cast eta_nonneg
  have hu1 := uro_le (f := f) hp
  have hS' : S = (b.toRat : ℝ) * b.toRat + 4 * |(a.toRat : ℝ) * c.toRat| := by rw [hS, sq]
  rw [← hS'] at hDe
  have hS0 : 0 ≤ S := by rw [hS]; positivity
  have hE0 : 0 ≤ 3 * (uro f : ℝ) * S + 6 * eta f := by positivity
  have hBS : (b.toRat : ℝ) * b.toRat ≤ S := by
    have := abs_nonneg ((a.toRat : ℝ) * c.toRat)
    rw [hS']; linarith
  have hcs : ‖csq (D.toRat : ℝ) - csq ((b.toRat : ℝ) * b.toRat - 4 * a.toRat * c.toRat)‖ ≤
      √(3 * (uro f : ℝ) * S + 6 * eta f) := (csq_sub _ _).trans (Real.sqrt_le_sqrt hDe)
  have hDS : |(D.toRat : ℝ)| ≤ S + (3 * (uro f : ℝ) * S + 6 * eta f) := by
    have h1 : |(b.toRat : ℝ) * b.toRat - 4 * a.toRat * c.toRat| ≤ S := by
      rw [hS', abs_le]
      have h2 := mul_self_nonneg (b.toRat : ℝ)
      have h3 := abs_le.1 (le_refl |(a.toRat : ℝ) * c.toRat|)
      constructor <;> nlinarith [h3.1, h3.2]
    have h2 := abs_sub_abs_le_abs_sub (D.toRat : ℝ) ((b.toRat : ℝ) * b.toRat - 4 * a.toRat * c.toRat)
    linarith
  have hroot := exact_roots (B := (b.toRat : ℝ)) (C := (c.toRat : ℝ)) hA
  have hεe : ε = (6 * uro f * √S + 2 * √(3 * uro f * S + 6 * eta f)) / (2 * |(a.toRat : ℝ)|) + 3 * eta f := by
    rw [hε]
    have : |(a.toRat : ℝ)| ≠ 0 := by positivity
    field_simp
    ring
  have htot := total_core hu hu1 hη (Real.sqrt_nonneg S) (Real.sqrt_nonneg (3 * (uro f : ℝ) * S + 6 * eta f))
    (by positivity : 0 < 2 * |(a.toRat : ℝ)|)
  rw [← hεe] at htot
  refine ⟨(-(b.toRat : ℝ) + 1 * csq ((b.toRat : ℝ) * b.toRat - 4 * a.toRat * c.toRat)) / ((a.toRat : ℝ) * 2),
    (-(b.toRat : ℝ) + (-1) * csq ((b.toRat : ℝ) * b.toRat - 4 * a.toRat * c.toRat)) / ((a.toRat : ℝ) * 2),
    fun z => ?_, ?_⟩
  · have := hroot z
    push_cast at this ⊢
    rw [one_mul, neg_one_mul, ← sub_eq_add_neg]
    exact this
  have hβ : ∀ {β : Fl f}, div (-b) Q = β → β.isFinite = true →
      |(β.toRat : ℝ) - -(b.toRat : ℝ) / ((a.toRat : ℝ) * 2)| ≤
        uro f * |-(b.toRat : ℝ) / ((a.toRat : ℝ) * 2)| + eta f := by
    rintro β rfl h
    have h1 := div_error (by rw [isFinite_neg]; exact hbf) hQf hQ0 h
    rw [hQ, toRat_neg] at h1
    have h2 := (Rat.cast_le (K := ℝ)).2 h1
    push_cast at h2
    exact h2
  have hσ : ∀ {σ : Fl f}, div (sqrt (abs D)) Q = σ → σ.isFinite = true →
      |(sqrt (abs D)).toRat - (√|(D.toRat : ℝ)|)| ≤ uro f * √|(D.toRat : ℝ)| ∧
      |(σ.toRat : ℝ) - (sqrt (abs D)).toRat / ((a.toRat : ℝ) * 2)| ≤
        uro f * |(sqrt (abs D)).toRat / ((a.toRat : ℝ) * 2)| + eta f := by
    rintro σ rfl h
    have hf := finite_of_div h
    have h1 := div_error hf hQf hQ0 h
    rw [hQ] at h1
    have h2 := (Rat.cast_le (K := ℝ)).2 h1
    push_cast at h2
    have h3 := C83_sqrt_error hq D _ hDf rfl hf
    push_cast at h3
    exact ⟨h3, h2⟩
  by_cases h1 : isZero D = true
  · rw [if_pos h1] at hr
    cases hr
    obtain ⟨hf, -, rfl, rfl⟩ := hw12
    have hD0 : (D.toRat : ℝ) = 0 := by
      have := (isZero_iff_toRat hDf).1 h1
      rw [this]; simp
    generalize hβe : div (-b) Q = β at *
    have q := quot_core (u := uro f) (η := eta f) (D' := (D.toRat : ℝ)) (s' := 0) (q := 0) hu hA hS0 hE0 hBS hDS
      (hβ rfl hf) (by rw [hD0]; simp) (by simp [hη])
    have key : ∀ s : ℂ, ‖s‖ = 1 → ‖(⟨(β.toRat : ℝ), 0⟩ : ℂ) -
        (-(b.toRat : ℝ) + s * csq ((b.toRat : ℝ) * b.toRat - 4 * a.toRat * c.toRat)) / ((a.toRat : ℝ) * 2)‖ ≤ ε := by
      intro s hs
      refine (dist_core (σ := 0) _ s hs hA q.1 q.2.1 (e3 := 0) ?_ hcs).trans ?_
      · rw [norm_le_zero_iff]
        apply Complex.ext <;> simp
      · refine le_trans ?_ htot
        have := q.2.2.1
        have := q.2.2.2
        have : 0 ≤ (uro f : ℝ) * (((1 + uro f) * (√S / (2 * |(a.toRat : ℝ)|)) + eta f) +
            ((1 + uro f) ^ 2 * ((√S + √(3 * uro f * S + 6 * eta f)) / (2 * |(a.toRat : ℝ)|)) + eta f)) := by
          positivity
        linarith
    exact ⟨key 1 (by simp), key (-1) (by simp)⟩
  rw [if_neg h1] at hr
  have fin : ∀ {β σ : Fl f}, div (-b) Q = β → β.isFinite = true → div (sqrt (abs D)) Q = σ → σ.isFinite = true →
      ∀ w s : ℂ, ‖s‖ = 1 →
      ‖w - ((β.toRat : ℝ) + s * (cdir (D.toRat : ℝ) * (σ.toRat : ℝ)))‖ ≤
        uro f * (|(β.toRat : ℝ)| + |(σ.toRat : ℝ)|) →
      ‖w - (-(b.toRat : ℝ) + s * csq ((b.toRat : ℝ) * b.toRat - 4 * a.toRat * c.toRat)) / ((a.toRat : ℝ) * 2)‖ ≤
        ε := by
    intro β σ h1 h2 h3 h4 w s hs hw
    have q := quot_core (u := uro f) (η := eta f) (D' := (D.toRat : ℝ)) hu hA hS0 hE0 hBS hDS
      (hβ h1 h2) (hσ h3 h4).1 (hσ h3 h4).2
    refine (dist_core w s hs hA q.1 q.2.1 hw hcs).trans (le_trans ?_ htot)
    have := mul_le_mul_of_nonneg_left (add_le_add q.2.2.1 q.2.2.2) hu
    linarith
  by_cases h2 : isPositive D = true
  · rw [if_pos h2] at hr
    cases hr
    obtain ⟨hf1, hf2, rfl, rfl⟩ := hw12
    have hd : cdir (D.toRat : ℝ) = 1 := by
      have : (0 : ℝ) < D.toRat := by exact_mod_cast (isPositive_iff hDf).1 h2
      exact if_pos this.le
    obtain ⟨g1, g2⟩ := finite_of_add hf1
    have e1 := (Rat.cast_le (K := ℝ)).2 (add_error hf1)
    have e2 := (Rat.cast_le (K := ℝ)).2 (sub_error hf2)
    generalize hβe : div (-b) Q = β at *
    generalize hσe : div (sqrt (abs D)) Q = σ at *
    generalize β + σ = x at *
    generalize β - σ = y at *
    push_cast at e1 e2
    refine ⟨fin rfl g1 rfl g2 _ _ (by simp) ?_, fin rfl g1 rfl g2 _ _ (by simp) ?_⟩
    · have : (⟨(x.toRat : ℝ), 0⟩ : ℂ) - ((β.toRat : ℝ) + 1 * (cdir (D.toRat : ℝ) * (σ.toRat : ℝ))) =
          ((x.toRat - (β.toRat + σ.toRat) : ℝ) : ℂ) := by
        rw [hd]; apply Complex.ext <;> simp
      rw [this, Complex.norm_real]
      exact e1.trans (mul_le_mul_of_nonneg_left (abs_add_le _ _) hu)
    · have : (⟨(y.toRat : ℝ), 0⟩ : ℂ) - ((β.toRat : ℝ) + (-1) * (cdir (D.toRat : ℝ) * (σ.toRat : ℝ))) =
          ((y.toRat - (β.toRat - σ.toRat) : ℝ) : ℂ) := by
        rw [hd]; apply Complex.ext <;> simp; ring
      rw [this, Complex.norm_real]
      exact e2.trans (mul_le_mul_of_nonneg_left (abs_sub _ _) hu)
  · rw [if_neg h2] at hr
    cases hr
    obtain ⟨g1, g2, -, -, rfl, rfl⟩ := hw12
    have hd : cdir (D.toRat : ℝ) = Complex.I := by
      have h3 : ¬ (0 : ℚ) < D.toRat := fun h => h2 ((isPositive_iff hDf).2 h)
      have h4 : D.toRat ≠ 0 := fun h => h1 ((isZero_iff_toRat hDf).2 h)
      have h5 : D.toRat < 0 := lt_of_le_of_ne (not_lt.1 h3) h4
      have h6 : (D.toRat : ℝ) < 0 := by exact_mod_cast h5
      exact if_neg (not_le.2 h6)
    simp only [toRat_neg]
    dsimp only at g1 g2
    generalize hβe : div (-b) Q = β at *
    generalize hσe : div (sqrt (abs D)) Q = σ at *
    refine ⟨fin rfl g1 rfl g2 _ _ (by simp) ?_, fin rfl g1 rfl g2 _ _ (by simp) ?_⟩
    · refine le_trans (le_of_eq ?_) (by positivity : (0 : ℝ) ≤ uro f * (|(β.toRat : ℝ)| + |(σ.toRat : ℝ)|))
      rw [norm_eq_zero, hd]
      apply Complex.ext <;> simp
    · refine le_trans (le_of_eq ?_) (by positivity : (0 : ℝ) ≤ uro f * (|(β.toRat : ℝ)| + |(σ.toRat : ℝ)|))
      rw [norm_eq_zero, hd]
      apply Complex.ext <;> simp

/-- C84: when the exact discriminant is larger than the error bound, the kind of the answer is right. -/
theorem C84_classify (hp : 4 ≤ f.p) (hw : f.p + f.q < f.w) (a b c : Fl f)
    (hf : (QuadraticTrinomial.new a b c).discriminant.isFinite = true) (S Δ : ℝ)
    (hS : S = (b.toRat : ℝ) ^ 2 + 4 * |(a.toRat : ℝ) * c.toRat|)
    (hΔ : Δ = (b.toRat : ℝ) ^ 2 - 4 * a.toRat * c.toRat) (h : 3 * uro f * S + 6 * eta f < |Δ|) :
    (0 < Δ → ∃ x y, (QuadraticTrinomial.new a b c).roots = .ok (.twoRealRoots x y)) ∧
    (Δ < 0 → ∃ x y, (QuadraticTrinomial.new a b c).roots = .ok (.twoComplexRoots x y)) := by
  have hf' : (discriminantTrinomial a b c).isFinite = true := hf
  obtain ⟨-, -, -, hD⟩ := disc_error hp hw a b c hf'
  rw [← sq, ← hS, ← hΔ, abs_le] at hD
  have he : (QuadraticTrinomial.new a b c).roots = _ := trinomialRoots_fl a b c
  rw [he]
  generalize discriminantTrinomial a b c = D at *
  constructor
  · intro h0
    rw [abs_of_pos h0] at h
    have h1 : (0 : ℝ) < D.toRat := by linarith [hD.1]
    have h2 : 0 < D.toRat := by exact_mod_cast h1
    rw [if_neg (fun hz => h2.ne' ((isZero_iff_toRat hf').1 hz)), if_pos ((isPositive_iff hf').2 h2)]
    exact ⟨_, _, rfl⟩
  · intro h0
    rw [abs_of_neg h0] at h
    have h1 : (D.toRat : ℝ) < 0 := by linarith [hD.2]
    have h2 : D.toRat < 0 := by exact_mod_cast h1
    rw [if_neg (fun hz => h2.ne ((isZero_iff_toRat hf').1 hz)),
      if_neg (fun hz => h2.not_gt ((isPositive_iff hf').1 hz))]
    exact ⟨_, _, rfl⟩

theorem half_valid (hq : 1 ≤ f.q) (hw : f.p + f.q ≤ f.w) {n : ℤ} (hn : |(n : ℚ)| < 2 ^ f.p) :
    (∃ z : Fl f, z.Valid ∧ z.isFinite = true ∧ z.toRat = n / 2) ∧ |(n : ℚ) / 2| ≤ maxFinite f := by
  have hnat : n.natAbs < 2 ^ f.p := by
    have : ((n.natAbs : ℕ) : ℚ) < 2 ^ f.p := by rw [Nat.cast_natAbs, Int.cast_abs]; exact hn
    exact_mod_cast this
  have hpos : (0 : ℚ) < 2 ^ f.q := by positivity
  have hq2 : (2 : ℚ) ^ f.q = 2 ^ (f.q - 1) * 2 := by rw [← pow_succ]; congr 1; omega
  have hpos1 : (0 : ℚ) < 2 ^ (f.q - 1) := by positivity
  refine ⟨⟨fin (decide (n < 0)) (n.natAbs * 2 ^ (f.q - 1)), ⟨⟨_, _, hnat, rfl⟩, ?_⟩, rfl, ?_⟩, ?_⟩
  · calc n.natAbs * 2 ^ (f.q - 1) < 2 ^ f.p * 2 ^ (f.q - 1) := Nat.mul_lt_mul_of_pos_right hnat (by positivity)
      _ = 2 ^ (f.p + (f.q - 1)) := by rw [pow_add]
      _ ≤ 2 ^ f.w := Nat.pow_le_pow_right (by norm_num) (by omega)
  · simp only [toRat]
    push_cast
    rw [hq2, mul_comm ((n.natAbs : ℕ) : ℚ), mul_div_mul_left _ _ hpos1.ne',
      Nat.cast_natAbs, Int.cast_abs]
    by_cases h : n < 0
    · have hq : (n : ℚ) < 0 := by exact_mod_cast h
      simp [h, abs_of_neg hq]
      ring
    · have hq : (0 : ℚ) ≤ n := by exact_mod_cast not_lt.1 h
      simp [h, abs_of_nonneg hq]
  · refine le_trans ?_ (int_valid hw hn).2
    rw [abs_div, abs_of_pos (by norm_num : (0 : ℚ) < 2)]
    linarith [abs_nonneg (n : ℚ)]

theorem exact_of_nearest {x e : ℚ} {z : Fl f} (hz : z.toRat = e) (h : |x - e| ≤ |z.toRat - e|) : x = e := by
  rw [hz, sub_self, abs_zero] at h
  exact sub_eq_zero.1 (abs_eq_zero.1 (le_antisymm h (abs_nonneg _)))

theorem div_exact (hp : 1 ≤ f.p) (hw : f.p ≤ f.w) {x y z : Fl f} {e : ℚ} (hx : x.isFinite = true)
    (hy : y.isFinite = true) (h0 : y.toRat ≠ 0) (he : x.toRat / y.toRat = e) (hz : z.Valid)
    (hzf : z.isFinite = true) (hze : z.toRat = e) (hm : |e| ≤ maxFinite f) :
    (div x y).isFinite = true ∧ (div x y).toRat = e := by
  have hf := (C65_no_overflow hp hw x y hx hy).2.2 h0 (by rw [he]; exact hm)
  have := (C65_nearest hp x y z hz hzf).2.2.2 hx hy h0 hf
  rw [he] at this
  exact ⟨hf, exact_of_nearest hze this⟩

theorem add_exact (hp : 1 ≤ f.p) (hw : f.p ≤ f.w) {x y z : Fl f} {e : ℚ} (hx : x.isFinite = true)
    (hy : y.isFinite = true) (he : x.toRat + y.toRat = e) (hz : z.Valid)
    (hzf : z.isFinite = true) (hze : z.toRat = e) (hm : |e| ≤ maxFinite f) :
    (x + y).isFinite = true ∧ (x + y).toRat = e := by
  have hf := (C65_no_overflow hp hw x y hx hy).1 (by rw [he]; exact hm)
  have := (C65_nearest hp x y z hz hzf).1 hf
  rw [he] at this
  exact ⟨hf, exact_of_nearest hze this⟩

theorem sub_exact (hp : 1 ≤ f.p) (hw : f.p ≤ f.w) {x y z : Fl f} {e : ℚ} (hx : x.isFinite = true)
    (hy : y.isFinite = true) (he : x.toRat - y.toRat = e) (hz : z.Valid)
    (hzf : z.isFinite = true) (hze : z.toRat = e) (hm : |e| ≤ maxFinite f) :
    (x - y).isFinite = true ∧ (x - y).toRat = e :=
  add_exact hp hw hx (y := -y) (by rw [isFinite_neg]; exact hy)
    (by rw [toRat_neg, ← sub_eq_add_neg]; exact he) hz hzf hze hm

theorem sq_lt_abs {n : ℤ} {p : Nat} (h : n ^ 2 < 2 ^ p) : |(n : ℚ)| < 2 ^ p := by
  have h1 : |n| ≤ n ^ 2 := by
    rcases eq_or_ne n 0 with rfl | h0
    · simp
    · rw [← sq_abs]
      have : 1 ≤ |n| := Int.one_le_abs h0
      nlinarith
  have h2 : |n| < 2 ^ p := lt_of_le_of_lt h1 h
  exact_mod_cast h2

/-- C84: the roots of `k(x-r)(x-s)` for small integers are computed exactly, the larger one first when the
leading coefficient is positive. -/
theorem C84_integer_roots (hp : 4 ≤ f.p) (hq : 1 ≤ f.q) (hw : f.p + f.q < f.w) (a b c : Fl f) (k r s : ℤ)
    (ha : a.isFinite = true) (hb : b.isFinite = true) (hc : c.isFinite = true) (hk : k ≠ 0)
    (hak : a.toRat = k) (hbk : b.toRat = (-(k * (r + s)) : ℤ)) (hck : c.toRat = (k * r * s : ℤ))
    (hk2 : 4 * k ^ 2 < 2 ^ f.p) (hr2 : 4 * (k * r) ^ 2 < 2 ^ f.p) (hs2 : 4 * (k * s) ^ 2 < 2 ^ f.p) :
    ∃ x y, (QuadraticTrinomial.new a b c).roots = .ok (.twoRealRoots x y) ∧
      x.isFinite = true ∧ y.isFinite = true ∧
      x.toRat = (if 0 < k then max r s else min r s : ℤ) ∧ y.toRat = (if 0 < k then min r s else max r s : ℤ) := by
  have hw' : f.p + f.q ≤ f.w := hw.le
  have hp1 : 1 ≤ f.p := by omega
  have hpw : f.p ≤ f.w := by omega
  have e1 : (k * r + k * s) ^ 2 + (k * r - k * s) ^ 2 = 2 * ((k * r) ^ 2 + (k * s) ^ 2) := by ring
  have q1 := sq_nonneg (k * r + k * s)
  have q2 := sq_nonneg (k * r - k * s)
  have sq_le : ∀ n : ℤ, n ^ 2 ≤ (k * n) ^ 2 := by
    intro n
    rw [mul_pow]
    have : 1 ≤ k ^ 2 := by
      have := Int.one_le_abs hk
      rw [← sq_abs]; nlinarith
    nlinarith [sq_nonneg n]
  have h2c : ((2 : Nat) : Fl f) = fin false (2 ^ 1 * 2 ^ f.q) :=
    ofNat_small hp hw (Nat.pow_le_pow_right (n := 2) (i := 1) (by norm_num) (by omega))
  have h4c : ((4 : Nat) : Fl f) = fin false (2 ^ 2 * 2 ^ f.q) :=
    ofNat_small hp hw (Nat.pow_le_pow_right (n := 2) (i := 2) (by norm_num) (by omega))
  have hpos : (2 : ℚ) ^ f.q ≠ 0 := by positivity
  have h2r : ((2 : Nat) : Fl f).toRat = (2 : ℤ) := by
    rw [h2c, toRat]; push_cast; field_simp; try simp
  have h4r : ((4 : Nat) : Fl f).toRat = (4 : ℤ) := by
    rw [h4c, toRat]; push_cast; field_simp; try norm_num
  have h2f : ((2 : Nat) : Fl f).isFinite = true := by rw [h2c]; rfl
  have h4f : ((4 : Nat) : Fl f).isFinite = true := by rw [h4c]; rfl
  -- the denominator
  obtain ⟨hQf, hQ⟩ := int_mul hp1 hw' ha h2f hak h2r (by
    have := sq_lt_abs (n := k * 2) (p := f.p) (by nlinarith)
    push_cast at this ⊢; exact this)
  -- the discriminant
  obtain ⟨hbbf, hbb⟩ := int_mul hp1 hw' hb hb hbk hbk (by
    have : (k * (r + s)) ^ 2 < 2 ^ f.p := by nlinarith
    have h2 : (((k * (r + s)) ^ 2 : ℤ) : ℚ) < 2 ^ f.p := by exact_mod_cast this
    rw [← sq, ← Int.cast_pow, neg_sq, abs_of_nonneg (by positivity)]
    exact h2)
  have hrs : |k * (k * r * s)| * 4 < 2 ^ f.p := by
    have : |k * (k * r * s)| * 2 ≤ (k * r) ^ 2 + (k * s) ^ 2 := by
      rw [show k * (k * r * s) = (k * r) * (k * s) by ring]
      rcases abs_cases ((k * r) * (k * s)) with ⟨h, -⟩ | ⟨h, -⟩ <;> rw [h] <;> nlinarith
    linarith
  obtain ⟨hacf, hac⟩ := int_mul hp1 hw' ha hc hak hck (by
    have : |k * (k * r * s)| < 2 ^ f.p := by nlinarith [abs_nonneg (k * (k * r * s))]
    exact_mod_cast this)
  obtain ⟨hac4f, hac4⟩ := int_mul hp1 hw' hacf h4f (a := k * (k * r * s)) (b := 4) (by rw [hac]; push_cast; ring) h4r (by
    have : |k * (k * r * s) * 4| < 2 ^ f.p := by
      rw [abs_mul]; exact hrs
    exact_mod_cast this)
  obtain ⟨hDf, hD⟩ := int_add hp1 hw' hbbf (y := -(a * c * ((4 : Nat) : Fl f))) (by rw [isFinite_neg]; exact hac4f)
    (a := (k * (r + s)) ^ 2) (b := -(k * (k * r * s) * 4)) (by rw [hbb]; push_cast; ring)
    (by rw [toRat_neg, hac4]; push_cast; ring) (by
      have : |(k * (r + s)) ^ 2 + -(k * (k * r * s) * 4)| < 2 ^ f.p := by
        rw [show (k * (r + s)) ^ 2 + -(k * (k * r * s) * 4) = (k * r - k * s) ^ 2 by ring, abs_of_nonneg q2]
        linarith
      exact_mod_cast this)
  have hDv : (b * b + -(a * c * ((4 : Nat) : Fl f))).Valid := (C65_closed hp1 _ _).1
  have he : (QuadraticTrinomial.new a b c).roots = _ := trinomialRoots_fl a b c
  have hDD : discriminantTrinomial a b c = b * b + -(a * c * ((4 : Nat) : Fl f)) := rfl
  rw [he, hDD]
  generalize b * b + -(a * c * ((4 : Nat) : Fl f)) = D at *
  generalize a * ((2 : Nat) : Fl f) = Q at *
  have hkq : (k : ℚ) ≠ 0 := by exact_mod_cast hk
  have hQ0 : Q.toRat ≠ 0 := by rw [hQ]; push_cast; exact mul_ne_zero hkq (by norm_num)
  have hD' : D.toRat = ((k * (r - s) : ℤ) : ℚ) ^ 2 := by rw [hD]; push_cast; ring
  have hrsum : |((r + s : ℤ) : ℚ)| < 2 ^ f.p := sq_lt_abs (by
    have := sq_le (r + s)
    have : (k * (r + s)) ^ 2 < 2 ^ f.p := by nlinarith
    linarith)
  obtain ⟨⟨z1, hz1, hz1f, hz1e⟩, hm1⟩ := half_valid hq hw' hrsum
  obtain ⟨hβf, hβ⟩ := div_exact hp1 hpw (x := -b) (by rw [isFinite_neg]; exact hb) hQf hQ0
    (by rw [toRat_neg, hbk, hQ]; push_cast; field_simp) hz1 hz1f hz1e hm1
  generalize div (-b) Q = β at *
  have hint : ∀ n : ℤ, 4 * (k * n) ^ 2 < 2 ^ f.p → |(n : ℚ)| < 2 ^ f.p := fun n h => sq_lt_abs (by
    have := sq_le n
    have := sq_nonneg (k * n)
    linarith)
  by_cases hrs0 : r = s
  · subst hrs0
    have h0 : D.toRat = 0 := by rw [hD']; simp
    rw [if_pos ((isZero_iff_toRat hDf).2 h0)]
    refine ⟨_, _, rfl, hβf, hβf, ?_, ?_⟩ <;> rw [hβ] <;> simp
  have hne : r - s ≠ 0 := sub_ne_zero.2 hrs0
  have hDpos : 0 < D.toRat := by
    rw [hD']
    have : ((k * (r - s) : ℤ) : ℚ) ≠ 0 := by exact_mod_cast mul_ne_zero hk hne
    positivity
  rw [if_neg (fun hz => hDpos.ne' ((isZero_iff_toRat hDf).1 hz)), if_pos ((isPositive_iff hDf).2 hDpos)]
  -- the square root
  obtain ⟨q, hqe, hqf, -, -, hqn, -⟩ := C83_sqrt (by omega) (by omega) D hDf hDv
  have hqe' : sqrt (abs D) = q := by
    have : (Res.ok (sqrt (abs D)) : Res (Fl f)) = .ok q := hqe
    injection this
  rw [hqe']
  have hn : |((|k * (r - s)| : ℤ) : ℚ)| < 2 ^ f.p := sq_lt_abs (by
    rw [sq_abs, show k * (r - s) = k * r - k * s by ring]; linarith)
  obtain ⟨⟨z2, hz2, hz2f, hz2e⟩, -⟩ := int_valid hw' hn
  have hqv : q.toRat = ((|k * (r - s)| : ℤ) : ℚ) := by
    have h1 := hqn z2 hz2 hz2f
    have h2 : √((|D.toRat| : ℚ) : ℝ) = (((|k * (r - s)| : ℤ) : ℚ) : ℝ) := by
      rw [hD', abs_of_nonneg (by positivity)]
      push_cast
      rw [Real.sqrt_sq_eq_abs]
    rw [h2, hz2e, sub_self, abs_zero] at h1
    have h3 := abs_eq_zero.1 (le_antisymm h1 (abs_nonneg _))
    exact_mod_cast sub_eq_zero.1 h3
  obtain ⟨e, he2, hke, hes⟩ : ∃ e : ℤ, e ^ 2 = 1 ∧ |k| = k * e ∧ e = if 0 < k then 1 else -1 := by
    by_cases h : 0 < k
    · exact ⟨1, by norm_num, by rw [abs_of_pos h, mul_one], by rw [if_pos h]⟩
    · exact ⟨-1, by norm_num, by rw [abs_of_nonpos (not_lt.1 h)]; ring, by rw [if_neg h]⟩
  have hdiff : |((e * |r - s| : ℤ) : ℚ)| < 2 ^ f.p := sq_lt_abs (by
    rw [mul_pow, sq_abs, he2, one_mul]
    have h1 := sq_le (r - s)
    have : (k * (r - s)) ^ 2 < 2 ^ f.p := by nlinarith
    linarith)
  obtain ⟨⟨z3, hz3, hz3f, hz3e⟩, hm3⟩ := half_valid hq hw' hdiff
  obtain ⟨hσf, hσ⟩ := div_exact hp1 hpw hqf hQf hQ0
    (by
      rw [hqv, hQ, abs_mul]
      rw [hke]
      push_cast
      field_simp) hz3 hz3f hz3e hm3
  generalize div q Q = σ at *
  have fin : ∀ m : ℤ, m = r ∨ m = s → (∃ z : Fl f, z.Valid ∧ z.isFinite = true ∧ z.toRat = m) ∧
      |(m : ℚ)| ≤ maxFinite f := by
    rintro m (rfl | rfl)
    · exact int_valid hw' (hint _ hr2)
    · exact int_valid hw' (hint _ hs2)
  have hmax : max r s = r ∨ max r s = s := max_choice r s
  have hmin : min r s = r ∨ min r s = s := min_choice r s
  have emax : ((max r s : ℤ) : ℚ) = ((r : ℚ) + s) / 2 + |(r : ℚ) - s| / 2 := by
    push_cast; rw [max_def]; split
    · rw [abs_of_nonpos (by linarith)]; ring
    · rw [abs_of_nonneg (by linarith)]; ring
  have emin : ((min r s : ℤ) : ℚ) = ((r : ℚ) + s) / 2 - |(r : ℚ) - s| / 2 := by
    push_cast; rw [min_def]; split
    · rw [abs_of_nonpos (by linarith)]; ring
    · rw [abs_of_nonneg (by linarith)]; ring
  push_cast at hβ hσ
  by_cases hk0 : 0 < k
  · simp only [if_pos hk0] at hes ⊢
    subst hes
    push_cast at hσ
    obtain ⟨⟨z, hz, hzf, hze⟩, hzm⟩ := fin _ hmax
    obtain ⟨⟨z', hz', hzf', hze'⟩, hzm'⟩ := fin _ hmin
    have h1 := add_exact hp1 hpw hβf hσf (by rw [hβ, hσ, emax]; ring) hz hzf hze hzm
    have h2 := sub_exact hp1 hpw hβf hσf (by rw [hβ, hσ, emin]; ring) hz' hzf' hze' hzm'
    exact ⟨_, _, rfl, h1.1, h2.1, h1.2, h2.2⟩
  · simp only [if_neg hk0] at hes ⊢
    subst hes
    push_cast at hσ
    obtain ⟨⟨z, hz, hzf, hze⟩, hzm⟩ := fin _ hmin
    obtain ⟨⟨z', hz', hzf', hze'⟩, hzm'⟩ := fin _ hmax
    have h1 := add_exact hp1 hpw hβf hσf (by rw [hβ, hσ, emin]; ring) hz hzf hze hzm
    have h2 := sub_exact hp1 hpw hβf hσf (by rw [hβ, hσ, emax]; ring) hz' hzf' hze' hzm'
    exact ⟨_, _, rfl, h1.1, h2.1, h1.2, h2.2⟩

/-- C84: a leading coefficient zero is not noticed: with finite coefficients the answer is a pair of real roots
neither of which is a number. -/
theorem C84_zero_leading (hp : 4 ≤ f.p) (hw : f.p + f.q < f.w) (a b c : Fl f) (ha : a.isFinite = true)
    (ha0 : a.toRat = 0) (hb : b.isFinite = true) (hc : c.isFinite = true) :
    ∃ x y, (QuadraticTrinomial.new a b c).roots = .ok (.twoRealRoots x y) ∧
      x.isFinite = false ∧ y.isFinite = false := by
  have he : (QuadraticTrinomial.new a b c).roots = _ := trinomialRoots_fl a b c
  rw [he]
  obtain ⟨sa, rfl⟩ := isZero_iff.1 ((isZero_iff_toRat ha).2 ha0)
  obtain ⟨sb, mb, rfl⟩ := isFinite_iff.1 hb
  obtain ⟨sc, mc, rfl⟩ := isFinite_iff.1 hc
  have hz0 : ∀ d, roundRat f.p 0 d = 0 := by intro d; simp [roundRat]
  have hpk : ∀ s, (pack s 0 : Fl f) = fin s 0 := by
    intro s; simp [pack]
  have hm0 : ∀ (s t : Bool) (n : Nat), (fin s 0 * fin t n : Fl f) = fin (s != t) 0 := by
    intro s t n
    rw [mul_def]; simp [mul, hz0, hpk]
  have h2c : ((2 : Nat) : Fl f) = fin false (2 ^ 1 * 2 ^ f.q) :=
    ofNat_small hp hw (Nat.pow_le_pow_right (n := 2) (i := 1) (by norm_num) (by omega))
  have h4c : ((4 : Nat) : Fl f) = fin false (2 ^ 2 * 2 ^ f.q) :=
    ofNat_small hp hw (Nat.pow_le_pow_right (n := 2) (i := 2) (by norm_num) (by omega))
  have hQ : (fin sa 0 * ((2 : Nat) : Fl f)) = fin sa 0 := by rw [h2c, hm0]; simp
  have hdiv : ∀ x : Fl f, (div x (fin sa 0)).isFinite = false := by
    intro x
    cases x with
    | nan => rfl
    | inf s => rfl
    | fin s n => simp only [div, if_true]; split <;> rfl
  have hD : isZero (discriminantTrinomial (fin sa 0) (fin sb mb) (fin sc mc) : Fl f) = true ∨
      isPositive (discriminantTrinomial (fin sa 0) (fin sb mb) (fin sc mc) : Fl f) = true := by
    unfold discriminantTrinomial
    rw [h4c, hm0, hm0, sub_def, neg_def, mul_def]
    simp only [neg, mul, bne_self_eq_false]
    generalize (!((sa != sc) != false)) = t
    generalize roundRat f.p (mb * mb) (2 ^ f.q) = m
    unfold pack
    split
    · rw [add_def]
      have hpack : ∀ n, isZero (pack false n : Fl f) = true ∨ isPositive (pack false n : Fl f) = true := by
        intro n
        unfold pack
        split
        · rcases Nat.eq_zero_or_pos n with rfl | hn
          · left; exact isZero_iff.2 ⟨false, rfl⟩
          · right; simp [isPositive, hn]
        · right; rfl
      cases t
      · simp only [add, if_true]
        exact hpack _
      · simp only [add]
        rcases Nat.eq_zero_or_pos m with rfl | hm
        · left; exact isZero_iff.2 ⟨false, by simp⟩
        · simp only [hm.ne', hm, if_true, if_false, reduceCtorEq]
          exact hpack _
    · right; rw [add_def]; rfl
  rw [hQ]
  generalize discriminantTrinomial (fin sa 0) (fin sb mb) (fin sc mc : Fl f) = D at *
  by_cases h0 : isZero D = true
  · rw [if_pos h0]
    exact ⟨_, _, rfl, hdiv _, hdiv _⟩
  · rw [if_neg h0, if_pos (hD.resolve_left h0)]
    refine ⟨_, _, rfl, ?_, ?_⟩
    · rw [Bool.eq_false_iff]; intro h
      have := (finite_of_add h).1
      rw [hdiv] at this; cases this
    · rw [Bool.eq_false_iff]; intro h
      have := (finite_of_sub h).1
      rw [hdiv] at this; cases this

/-- C84: a NaN among the coefficients gives two "complex" roots whose imaginary parts are NaN. -/
theorem C84_nan (a b c : Fl f) (h : a = nan ∨ b = nan ∨ c = nan) :
    ∃ x y, (QuadraticTrinomial.new a b c).roots = .ok (.twoComplexRoots x y) ∧ x.im = nan ∧ y.im = nan := by
  have he : (QuadraticTrinomial.new a b c).roots = _ := trinomialRoots_fl a b c
  rw [he]
  have hml : ∀ x : Fl f, nan * x = nan := by intro x; cases x <;> rfl
  have hmr : ∀ x : Fl f, x * nan = nan := by intro x; cases x <;> rfl
  have hal : ∀ x : Fl f, nan - x = nan := by intro x; cases x <;> rfl
  have har : ∀ x : Fl f, x - nan = nan := by intro x; cases x <;> rfl
  have hD : discriminantTrinomial a b c = nan := by
    unfold discriminantTrinomial
    rcases h with rfl | rfl | rfl
    · rw [hml, hml, har]
    · rw [hml, hal]
    · rw [hmr, hml, har]
  rw [hD]
  have h1 : isZero (nan : Fl f) = false := rfl
  have h2 : isPositive (nan : Fl f) = false := rfl
  have hd : ∀ x : Fl f, div nan x = nan := by intro x; cases x <;> rfl
  simp only [h1, h2, abs, sqrt, hd]
  exact ⟨_, _, rfl, rfl, rfl⟩

/-- C84 (false as a claim about accuracy): `x² + 2^28 x + 1` has two roots of which neither is zero, but the
smaller one is returned as `0`. -/
theorem C84_cancellation_false :
    ∃ x y : Fl binary64, (QuadraticTrinomial.new 1 (ofNat (2 ^ 28)) 1).roots = .ok (.twoRealRoots x y) ∧
      x.isFinite = true ∧ x.toRat = 0 ∧ y.toRat = -2 ^ 28 := by
  exact ⟨fin false 0, fin true (2 ^ 28 * 2 ^ 1074), by decide +kernel⟩

/-- C84 (false as a claim about range): the roots of `x² + 2^600 x + 1` are numbers of the format up to
rounding, but infinities are returned. -/
theorem C84_overflow_false :
    (QuadraticTrinomial.new (1 : Fl binary64) (ofNat (2 ^ 600)) 1).roots =
      .ok (.twoRealRoots (inf false) (inf true)) := by
  decide +kernel

-- inputs that meet the hypotheses of `C84_roots_error`: `x² - 3x + 1` and `x² + x + 1`
example : (match (QuadraticTrinomial.new 1 (-ofNat 3) 1 : QuadraticTrinomial (Fl binary64)).roots with
    | .ok (.twoRealRoots x y) => x.isFinite && y.isFinite && decide (x.toRat ≠ y.toRat)
    | _ => false) = true := by decide +kernel
example : (match (QuadraticTrinomial.new 1 1 1 : QuadraticTrinomial (Fl binary64)).roots with
    | .ok (.twoComplexRoots x y) => x.re.isFinite && x.im.isFinite && y.re.isFinite && y.im.isFinite &&
        decide (x.im.toRat ≠ 0)
    | _ => false) = true := by decide +kernel
example : (1 : Fl binary64).toRat ≠ 0 ∧ |(1 : Fl binary64).toRat| * 2 ≤ maxFinite binary64 := by decide +kernel
example : 4 ≤ binary64.p ∧ 2 * binary64.p ≤ binary64.q ∧ binary64.p + binary64.q < binary64.w := by decide
example : 4 ≤ binary32.p ∧ 2 * binary32.p ≤ binary32.q ∧ binary32.p + binary32.q < binary32.w := by decide

-- inputs that meet the hypotheses of `C84_classify`, in exact arithmetic: `3u(b² + 4|ac|) + 6η < |b² - 4ac|`
example : (3 * uro binary64 * ((-3) ^ 2 + 4 * |1 * 1|) + 6 * eta binary64 < |(-3) ^ 2 - 4 * 1 * 1|) ∧
    (3 * uro binary64 * (1 ^ 2 + 4 * |1 * 1|) + 6 * eta binary64 < |(1 : ℚ) ^ 2 - 4 * 1 * 1|) := by decide +kernel
example : (QuadraticTrinomial.new 1 (-ofNat 3) 1 : QuadraticTrinomial (Fl binary64)).discriminant.isFinite = true := by
  decide +kernel

-- `2(x - 2)(x - 3)` and `-(x + 1)(x - 4)` for `C84_integer_roots`
example : (QuadraticTrinomial.new (ofNat 2) (-ofNat 10) (ofNat 12) : QuadraticTrinomial (Fl binary64)).roots =
    .ok (.twoRealRoots (ofNat 3) (ofNat 2)) := by decide +kernel
example : (QuadraticTrinomial.new (-1) (ofNat 3) (ofNat 4) : QuadraticTrinomial (Fl binary64)).roots =
    .ok (.twoRealRoots (-1) (ofNat 4)) := by decide +kernel
example : (ofNat 12 : Fl binary64).toRat = (2 * 2 * 3 : ℤ) ∧ (-ofNat 10 : Fl binary64).toRat = (-(2 * (2 + 3)) : ℤ) ∧
    (4 * (2 * 3) ^ 2 : ℤ) < 2 ^ binary64.p := by decide +kernel

-- `0x² + x + 1`: infinity and NaN instead of the root -1
example : (QuadraticTrinomial.new 0 1 1 : QuadraticTrinomial (Fl binary64)).roots =
    .ok (.twoRealRoots nan (inf true)) := by decide +kernel

end Fl
end Rustnomial
