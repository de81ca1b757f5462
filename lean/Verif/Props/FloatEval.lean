import Verif.Lemmas.Float
import Verif.Props.DenseBasic

/-!
# C65, C66: floating point coefficients – rounding and evaluation
-/

set_option linter.unusedSectionVars false

open Polynomial

namespace Rustnomial
namespace Fl
variable {f : FlFmt}

/-! ## C65 – the arithmetic of the coefficients is correctly rounded -/

theorem valid_zero_mag (f : FlFmt) (s : Bool) : (fin s 0 : Fl f).Valid :=
  ⟨⟨0, 0, by positivity, by simp⟩, by positivity⟩

theorem valid_pack {s : Bool} {m : Nat} (h : FitsIn f.p m) : (pack s m : Fl f).Valid := by
  unfold pack
  split
  · exact ⟨h, by assumption⟩
  · trivial

theorem fits_roundRat (hp : 1 ≤ f.p) {num den : Nat} (hden : 0 < den) : FitsIn f.p (roundRat f.p num den) :=
  representable_roundRat hp hden

/-- C65: the results of `+`, `-`, `*`, `/` and negation are numbers of the format. -/
theorem C65_closed (hp : 1 ≤ f.p) (x y : Fl f) :
    (x + y).Valid ∧ (x - y).Valid ∧ (x * y).Valid ∧ (div x y).Valid ∧ (x.Valid → (-x).Valid) := by
  have hadd : ∀ x y : Fl f, (x + y).Valid := by
    intro x y
    rw [add_def]
    cases x <;> cases y <;> simp only [add] <;> (try split) <;> (try trivial) <;>
      first
        | exact valid_pack (fits_roundRat hp one_pos)
        | (split
           · exact valid_zero_mag _ _
           · split <;> exact valid_pack (fits_roundRat hp one_pos))
  refine ⟨hadd x y, hadd x (-y), ?_, ?_, ?_⟩
  · rw [mul_def]
    cases x <;> cases y <;> simp only [mul] <;> (try split) <;> (try trivial)
    exact valid_pack (fits_roundRat hp (by positivity))
  · cases x <;> cases y <;> simp only [div] <;> (try split) <;> (try trivial)
    · exact valid_zero_mag _ _
    · split <;> trivial
    · exact valid_pack (fits_roundRat hp (by omega))
  · intro h
    cases x <;> exact h

/-- A magnitude rounded to nearest is nearest among all numbers of the format, of either sign. -/
theorem nearest_signed {num den : Nat} (hp : 1 ≤ f.p) (hden : 0 < den) (s : Bool) (z : Fl f)
    (hz : z.Valid) (hzf : z.isFinite = true) :
    |(if s then (-1 : ℚ) else 1) * (roundRat f.p num den / 2 ^ f.q) -
        (if s then (-1 : ℚ) else 1) * (num / den / 2 ^ f.q)| ≤
      |z.toRat - (if s then (-1 : ℚ) else 1) * (num / den / 2 ^ f.q)| := by
  obtain ⟨t, m, rfl⟩ := isFinite_iff.1 hzf
  have hpos : (0 : ℚ) < 2 ^ f.q := by positivity
  have key : ∀ m : Nat, FitsIn f.p m →
      |(if s then (-1 : ℚ) else 1) * (roundRat f.p num den / 2 ^ f.q) -
        (if s then (-1 : ℚ) else 1) * (num / den / 2 ^ f.q)| ≤ |(m : ℚ) / 2 ^ f.q - num / den / 2 ^ f.q| := by
    intro m hm
    rw [← mul_sub, abs_mul, sign_abs, one_mul, ← sub_div, ← sub_div, abs_div, abs_div]
    exact div_le_div_of_nonneg_right (roundRat_nearest hp hden hm) (by positivity)
  by_cases hst : t = s
  · subst hst
    have e : (fin t m : Fl f).toRat - (if t then (-1 : ℚ) else 1) * (num / den / 2 ^ f.q) =
        (if t then (-1 : ℚ) else 1) * (m / 2 ^ f.q - num / den / 2 ^ f.q) := by
      simp only [toRat]; ring
    rw [e, abs_mul, sign_abs, one_mul]
    exact key m hz.1
  · have hts : t = !s := by cases s <;> cases t <;> simp_all
    refine (key 0 ⟨0, 0, by positivity, by simp⟩).trans ?_
    have h1 : (0 : ℚ) ≤ num / den / 2 ^ f.q := by positivity
    have h2 : (0 : ℚ) ≤ m / 2 ^ f.q := by positivity
    have e : |(fin t m : Fl f).toRat - (if s then (-1 : ℚ) else 1) * (num / den / 2 ^ f.q)| =
        m / 2 ^ f.q + num / den / 2 ^ f.q := by
      rw [hts]
      cases s
      · simp only [toRat]
        simp only [Bool.not_false, if_true, Bool.false_eq_true, if_false, neg_mul, one_mul]
        rw [abs_of_nonpos (by linarith)]; ring
      · simp only [toRat]
        simp only [Bool.not_true, if_true, Bool.false_eq_true, if_false, neg_mul, one_mul]
        rw [abs_of_nonneg (by linarith)]; ring
    rw [e]
    simp only [Nat.cast_zero, zero_div, zero_sub, abs_neg]
    rw [abs_of_nonneg h1]
    linarith

/-- The result of an operation with exact result `v` is a rounded magnitude with a sign. -/
def Rounded (r : Fl f) (v : ℚ) : Prop :=
  ∃ (s : Bool) (num den : Nat), 0 < den ∧ r = .fin s (roundRat f.p num den) ∧
    v = (if s then (-1 : ℚ) else 1) * (num / den / 2 ^ f.q)

theorem pack_eq_fin {s : Bool} {m : Nat} (h : (pack s m : Fl f).isFinite = true) : (pack s m : Fl f) = .fin s m := by
  rw [pack_isFinite] at h
  rw [pack, if_pos h]

theorem rounded_add {x y : Fl f} (h : (x + y).isFinite = true) : Rounded (x + y) (x.toRat + y.toRat) := by
  obtain ⟨hx, hy⟩ := finite_of_add h
  obtain ⟨s, a, rfl⟩ := isFinite_iff.1 hx
  obtain ⟨t, b, rfl⟩ := isFinite_iff.1 hy
  rw [add_def] at h ⊢
  unfold add at h ⊢
  by_cases hst : s = t
  · subst hst
    simp only [if_true] at h ⊢
    refine ⟨s, a + b, 1, one_pos, pack_eq_fin h, ?_⟩
    simp only [toRat]; push_cast; ring
  · have ht : t = !s := by cases s <;> cases t <;> simp_all
    subst ht
    simp only [if_neg hst] at h ⊢
    by_cases hab : a = b
    · subst hab
      rw [if_pos rfl]
      refine ⟨false, 0, 1, one_pos, ?_, ?_⟩
      · simp [roundRat]
      · cases s <;> simp [toRat]
    · simp only [if_neg hab] at h ⊢
      by_cases hlt : b < a
      · simp only [if_pos hlt] at h ⊢
        refine ⟨s, a - b, 1, one_pos, pack_eq_fin h, ?_⟩
        rw [Nat.cast_sub hlt.le]; cases s <;> simp [toRat] <;> ring
      · simp only [if_neg hlt] at h ⊢
        refine ⟨!s, b - a, 1, one_pos, pack_eq_fin h, ?_⟩
        rw [Nat.cast_sub (not_lt.1 hlt)]; cases s <;> simp [toRat] <;> ring

theorem rounded_sub {x y : Fl f} (h : (x - y).isFinite = true) : Rounded (x - y) (x.toRat - y.toRat) := by
  have := rounded_add (x := x) (y := -y) h
  rwa [toRat_neg, ← sub_eq_add_neg] at this

theorem rounded_mul {x y : Fl f} (h : (x * y).isFinite = true) : Rounded (x * y) (x.toRat * y.toRat) := by
  obtain ⟨hx, hy⟩ := finite_of_mul h
  obtain ⟨s, a, rfl⟩ := isFinite_iff.1 hx
  obtain ⟨t, b, rfl⟩ := isFinite_iff.1 hy
  rw [mul_def] at h ⊢
  unfold mul at h ⊢
  refine ⟨s != t, a * b, 2 ^ f.q, by positivity, pack_eq_fin h, ?_⟩
  simp only [toRat]
  push_cast
  cases s <;> cases t <;> simp <;> ring

theorem rounded_div {x y : Fl f} (hx : x.isFinite = true) (hy : y.isFinite = true) (h0 : y.toRat ≠ 0)
    (h : (div x y).isFinite = true) : Rounded (div x y) (x.toRat / y.toRat) := by
  obtain ⟨s, a, rfl⟩ := isFinite_iff.1 hx
  obtain ⟨t, b, rfl⟩ := isFinite_iff.1 hy
  have hb : b ≠ 0 := by
    rintro rfl
    simp [toRat] at h0
  unfold div at h ⊢
  simp only [if_neg hb] at h ⊢
  have hbq : (b : ℚ) ≠ 0 := by exact_mod_cast hb
  refine ⟨s != t, a * 2 ^ f.q, b, Nat.pos_of_ne_zero hb, pack_eq_fin h, ?_⟩
  simp only [toRat]
  push_cast
  have h2 : ((2 : ℚ) ^ f.q) ≠ 0 := by positivity
  cases s <;> cases t <;> simp <;> field_simp

theorem Rounded.nearest (hp : 1 ≤ f.p) {r : Fl f} {v : ℚ} (h : Rounded r v) (z : Fl f) (hz : z.Valid)
    (hzf : z.isFinite = true) : |r.toRat - v| ≤ |z.toRat - v| := by
  obtain ⟨s, num, den, hden, rfl, rfl⟩ := h
  exact nearest_signed hp hden s z hz hzf

theorem Rounded.tie (hp : 1 ≤ f.p) {r : Fl f} {v : ℚ} (h : Rounded r v) (z : Fl f) (hz : z.Valid)
    (hzf : z.isFinite = true) (hne : z.toRat ≠ r.toRat) (heq : |z.toRat - v| = |r.toRat - v|) (t : Nat)
    (ht : 2 ^ t ∣ z.units) : 2 ^ (t + 1) ∣ r.units := by
  obtain ⟨s, num, den, hden, rfl, rfl⟩ := h
  obtain ⟨s', m, rfl⟩ := isFinite_iff.1 hzf
  have hpos : (0 : ℚ) < 2 ^ f.q := by positivity
  have key : ∀ m : Nat, |(fin s m : Fl f).toRat - (if s then (-1 : ℚ) else 1) * (num / den / 2 ^ f.q)| =
      |(m : ℚ) - num / den| / 2 ^ f.q := by
    intro m
    rw [toRat, ← mul_sub, abs_mul, sign_abs, one_mul, ← sub_div, abs_div, abs_of_pos hpos]
  have hm0 : s' ≠ s → m = 0 := by
    intro hs
    have hts : s' = !s := by cases s <;> cases s' <;> simp_all
    have h1 : (0 : ℚ) ≤ num / den / 2 ^ f.q := by positivity
    have h2 : (0 : ℚ) ≤ m / 2 ^ f.q := by positivity
    have e : |(fin s' m : Fl f).toRat - (if s then (-1 : ℚ) else 1) * (num / den / 2 ^ f.q)| =
        m / 2 ^ f.q + num / den / 2 ^ f.q := by
      rw [hts]
      cases s
      · simp only [toRat]
        simp only [Bool.not_false, if_true, Bool.false_eq_true, if_false, neg_mul, one_mul]
        rw [abs_of_nonpos (by linarith)]; ring
      · simp only [toRat]
        simp only [Bool.not_true, if_true, Bool.false_eq_true, if_false, neg_mul, one_mul]
        rw [abs_of_nonneg (by linarith)]; ring
    have h3 := nearest_signed (num := num) (den := den) hp hden s (fin s 0) (valid_zero_mag _ _) rfl
    rw [e] at heq
    have h4 : (fin s (roundRat f.p num den) : Fl f).toRat =
      (if s then (-1 : ℚ) else 1) * (roundRat f.p num den / 2 ^ f.q) := rfl
    rw [← h4, ← heq, key 0] at h3
    simp only [Nat.cast_zero, zero_sub, abs_neg] at h3
    rw [abs_of_nonneg (by positivity)] at h3
    have h5 : (m : ℚ) / 2 ^ f.q = 0 := by linarith
    rw [div_eq_zero_iff] at h5
    rcases h5 with h5 | h5
    · exact_mod_cast h5
    · exact absurd h5 hpos.ne'
  have hsame : (fin s' m : Fl f).toRat = (fin s m : Fl f).toRat := by
    by_cases hs : s' = s
    · rw [hs]
    · rw [hm0 hs]; simp [toRat]
  rw [hsame] at heq hne
  rw [key, key] at heq
  refine roundRat_tie hp hden hz.1 ?_ ?_ t ht
  · rintro rfl
    exact hne rfl
  · exact (div_left_inj' hpos.ne').1 heq

/-- C65: a finite sum, difference or product is a number of the format nearest to the exact result; so is a
finite quotient of finite numbers by a non-zero one. -/
theorem C65_nearest (hp : 1 ≤ f.p) (x y z : Fl f) (hz : z.Valid) (hzf : z.isFinite = true) :
    ((x + y).isFinite = true → |(x + y).toRat - (x.toRat + y.toRat)| ≤ |z.toRat - (x.toRat + y.toRat)|) ∧
    ((x - y).isFinite = true → |(x - y).toRat - (x.toRat - y.toRat)| ≤ |z.toRat - (x.toRat - y.toRat)|) ∧
    ((x * y).isFinite = true → |(x * y).toRat - x.toRat * y.toRat| ≤ |z.toRat - x.toRat * y.toRat|) ∧
    (x.isFinite = true → y.isFinite = true → y.toRat ≠ 0 → (div x y).isFinite = true →
      |(div x y).toRat - x.toRat / y.toRat| ≤ |z.toRat - x.toRat / y.toRat|) :=
  ⟨fun h => (rounded_add h).nearest hp z hz hzf, fun h => (rounded_sub h).nearest hp z hz hzf,
    fun h => (rounded_mul h).nearest hp z hz hzf, fun hx hy h0 h => (rounded_div hx hy h0 h).nearest hp z hz hzf⟩

/-- C65: when another number of the format is equally near, the result is the one with the even significand:
its magnitude is divisible by a higher power of two. -/
theorem C65_ties_even (hp : 1 ≤ f.p) (x y z : Fl f) (hz : z.Valid) (hzf : z.isFinite = true) (t : Nat)
    (ht : 2 ^ t ∣ z.units) :
    ((x + y).isFinite = true → z.toRat ≠ (x + y).toRat →
      |z.toRat - (x.toRat + y.toRat)| = |(x + y).toRat - (x.toRat + y.toRat)| → 2 ^ (t + 1) ∣ (x + y).units) ∧
    ((x - y).isFinite = true → z.toRat ≠ (x - y).toRat →
      |z.toRat - (x.toRat - y.toRat)| = |(x - y).toRat - (x.toRat - y.toRat)| → 2 ^ (t + 1) ∣ (x - y).units) ∧
    ((x * y).isFinite = true → z.toRat ≠ (x * y).toRat →
      |z.toRat - x.toRat * y.toRat| = |(x * y).toRat - x.toRat * y.toRat| → 2 ^ (t + 1) ∣ (x * y).units) ∧
    (x.isFinite = true → y.isFinite = true → y.toRat ≠ 0 → (div x y).isFinite = true → z.toRat ≠ (div x y).toRat →
      |z.toRat - x.toRat / y.toRat| = |(div x y).toRat - x.toRat / y.toRat| → 2 ^ (t + 1) ∣ (div x y).units) :=
  ⟨fun h hne he => (rounded_add h).tie hp z hz hzf hne he t ht,
    fun h hne he => (rounded_sub h).tie hp z hz hzf hne he t ht,
    fun h hne he => (rounded_mul h).tie hp z hz hzf hne he t ht,
    fun hx hy h0 h hne he => (rounded_div hx hy h0 h).tie hp z hz hzf hne he t ht⟩

theorem roundNat_shift (p n q : Nat) : roundNat p (n * 2 ^ q) = roundNat p n * 2 ^ q := by
  rcases Nat.eq_zero_or_pos n with rfl | hn
  · simp [roundNat]
  rcases Nat.lt_or_ge n.size p with hs | hs
  · have h : Representable p n := representable_of_lt (Nat.size_le.1 hs.le)
    obtain ⟨k, e, hk, he⟩ := h
    rw [roundNat_of_representable ⟨k, e, hk, he⟩,
      roundNat_of_representable ⟨k, e + q, hk, by rw [he, pow_add, mul_assoc]⟩]
  · have hsz : (n * 2 ^ q).size = n.size + q := by
      rw [← Nat.shiftLeft_eq, Nat.size_shiftLeft hn.ne']
    unfold roundNat
    have he : (n * 2 ^ q).size - p = (n.size - p) + q := by omega
    simp only [he]
    have hq : 0 < 2 ^ q := by positivity
    have h1 : n * 2 ^ q / 2 ^ (n.size - p + q) = n / 2 ^ (n.size - p) := by
      rw [pow_add, Nat.mul_div_mul_right _ _ hq]
    have h2 : n * 2 ^ q % 2 ^ (n.size - p + q) = n % 2 ^ (n.size - p) * 2 ^ q := by
      rw [pow_add, Nat.mul_mod_mul_right]
    rw [h1, h2]
    have h3 : (2 * (n % 2 ^ (n.size - p) * 2 ^ q) > 2 ^ (n.size - p + q) ∨
        (2 * (n % 2 ^ (n.size - p) * 2 ^ q) = 2 ^ (n.size - p + q) ∧ n / 2 ^ (n.size - p) % 2 = 1)) ↔
        (2 * (n % 2 ^ (n.size - p)) > 2 ^ (n.size - p) ∨
        (2 * (n % 2 ^ (n.size - p)) = 2 ^ (n.size - p) ∧ n / 2 ^ (n.size - p) % 2 = 1)) := by
      rw [pow_add, ← mul_assoc, gt_iff_lt, gt_iff_lt, Nat.mul_lt_mul_right hq, Nat.mul_left_inj hq.ne']
    simp only [h3]
    split
    · rw [pow_add, ← mul_assoc]
    · rw [pow_add, ← mul_assoc]

theorem rounded_ofNat {n : Nat} (h : (ofNat n : Fl f).isFinite = true) : Rounded (ofNat n : Fl f) n := by
  refine ⟨false, n * 2 ^ f.q, 1, one_pos, ?_, ?_⟩
  · rw [roundRat_one, roundNat_shift]
    exact pack_eq_fin h
  · have : ((2 : ℚ) ^ f.q) ≠ 0 := by positivity
    push_cast
    field_simp

/-- C65: the conversion of a natural number gives a number of the format, nearest to it, and the one with the
even significand if two are equally near. -/
theorem C65_of_nat (hp : 1 ≤ f.p) (n : Nat) :
    (ofNat n : Fl f).Valid ∧
    ((ofNat n : Fl f).isFinite = true → ∀ z : Fl f, z.Valid → z.isFinite = true →
      |(ofNat n : Fl f).toRat - n| ≤ |z.toRat - n| ∧
      (z.toRat ≠ (ofNat n : Fl f).toRat → |z.toRat - n| = |(ofNat n : Fl f).toRat - n| →
        ∀ t, 2 ^ t ∣ z.units → 2 ^ (t + 1) ∣ (ofNat n : Fl f).units)) := by
  refine ⟨?_, fun h z hz hzf => ⟨(rounded_ofNat h).nearest hp z hz hzf,
    fun hne he t ht => (rounded_ofNat h).tie hp z hz hzf hne he t ht⟩⟩
  have : (ofNat n : Fl f) = pack false (roundRat f.p (n * 2 ^ f.q) 1) := by
    rw [roundRat_one, roundNat_shift]; rfl
  rw [this]
  exact valid_pack (fits_roundRat hp one_pos)

-- 2^24 + 1 and 2^24 + 3 lie halfway between numbers of the format of `f32`
example : (ofNat (2 ^ 24 + 1) : Fl binary32).toRat = 2 ^ 24 ∧ (ofNat (2 ^ 24 + 3) : Fl binary32).toRat = 2 ^ 24 + 4 ∧
    (ofNat (2 ^ 24 + 2) : Fl binary32).toRat = 2 ^ 24 + 2 := by decide +kernel

-- 2^53 + 1 lies halfway between 2^53 and 2^53 + 2; 2^53 is taken
example : (ofNat (2 ^ 53) + 1 : Fl binary64) = ofNat (2 ^ 53) ∧
    (ofNat (2 ^ 53 + 2) : Fl binary64).isFinite = true ∧
    (ofNat (2 ^ 53 + 2) : Fl binary64).toRat ≠ (ofNat (2 ^ 53) + 1 : Fl binary64).toRat := by decide +kernel

/-- C65: operations whose exact result is a number of the format return it. -/
theorem C65_exact (hp : 1 ≤ f.p) (x y z : Fl f) (hz : z.Valid) (hzf : z.isFinite = true) :
    ((x + y).isFinite = true → x.toRat + y.toRat = z.toRat → (x + y).toRat = z.toRat) ∧
    ((x * y).isFinite = true → x.toRat * y.toRat = z.toRat → (x * y).toRat = z.toRat) := by
  constructor
  · intro h e
    have := (C65_nearest hp x y z hz hzf).1 h
    rw [e, sub_self, abs_zero] at this
    exact sub_eq_zero.1 (abs_eq_zero.1 (le_antisymm this (abs_nonneg _)))
  · intro h e
    have := (C65_nearest hp x y z hz hzf).2.2.1 h
    rw [e, sub_self, abs_zero] at this
    exact sub_eq_zero.1 (abs_eq_zero.1 (le_antisymm this (abs_nonneg _)))

theorem roundRat_lt {num den : Nat} (hp : 1 ≤ f.p) (hw : f.p ≤ f.w) (hden : 0 < den)
    (h : (num / den / 2 ^ f.q : ℚ) ≤ maxFinite f) : roundRat f.p num den < 2 ^ f.w := by
  have hpos : (0 : ℚ) < 2 ^ f.q := by positivity
  have h1 : 1 ≤ 2 ^ f.p := Nat.one_le_two_pow
  have hM : FitsIn f.p ((2 ^ f.p - 1) * 2 ^ (f.w - f.p)) := ⟨_, _, by omega, rfl⟩
  have hn := roundRat_nearest (num := num) hp hden hM
  have hv : (num / den : ℚ) ≤ ((2 ^ f.p - 1) * 2 ^ (f.w - f.p) : Nat) := by
    unfold maxFinite at h
    exact (div_le_div_iff_of_pos_right hpos).1 h
  have hlt : (2 ^ f.p - 1) * 2 ^ (f.w - f.p) < 2 ^ f.w := by
    calc (2 ^ f.p - 1) * 2 ^ (f.w - f.p) < 2 ^ f.p * 2 ^ (f.w - f.p) :=
          Nat.mul_lt_mul_of_pos_right (by omega) (by positivity)
      _ = 2 ^ f.w := by rw [← pow_add]; congr 1; omega
  generalize (2 ^ f.p - 1) * 2 ^ (f.w - f.p) = M at *
  refine lt_of_le_of_lt ?_ hlt
  by_contra hc
  have hc' : (M : ℚ) < roundRat f.p num den := by exact_mod_cast not_le.1 hc
  rw [abs_of_pos (by linarith), abs_of_nonneg (by linarith)] at hn
  linarith

/-- C65: results overflow to infinity only if the exact result exceeds the largest finite number. -/
theorem C65_no_overflow (hp : 1 ≤ f.p) (hw : f.p ≤ f.w) (x y : Fl f) (hx : x.isFinite = true)
    (hy : y.isFinite = true) :
    (|x.toRat + y.toRat| ≤ maxFinite f → (x + y).isFinite = true) ∧
    (|x.toRat * y.toRat| ≤ maxFinite f → (x * y).isFinite = true) ∧
    (y.toRat ≠ 0 → |x.toRat / y.toRat| ≤ maxFinite f → (div x y).isFinite = true) := by
  obtain ⟨s, a, rfl⟩ := isFinite_iff.1 hx
  obtain ⟨t, b, rfl⟩ := isFinite_iff.1 hy
  refine ⟨fun h => ?_, fun h => ?_, fun h0 h => ?_⟩
  · rw [add_def]
    unfold add
    have hab : ∀ (s : Bool) (n : Nat), (fin s n : Fl f).toRat = (if s then (-1 : ℚ) else 1) * (n / (1 : Nat) / 2 ^ f.q) := by
      intro s n; simp [toRat]
    by_cases hst : s = t
    · subst hst
      simp only [if_true]
      rw [pack_isFinite]
      refine roundRat_lt hp hw one_pos ?_
      have e : (fin s a : Fl f).toRat + (fin s b : Fl f).toRat =
          (if s then (-1 : ℚ) else 1) * (((a + b : Nat) : ℚ) / (1 : Nat) / 2 ^ f.q) := by
        simp only [toRat]; push_cast; ring
      rw [e, abs_mul, sign_abs, one_mul, abs_of_nonneg (by positivity)] at h
      exact h
    · have ht : t = !s := by cases s <;> cases t <;> simp_all
      subst ht
      simp only [if_neg hst]
      split
      · rfl
      · split
        · rename_i hlt
          rw [pack_isFinite]
          refine roundRat_lt hp hw one_pos ?_
          have e : (fin s a : Fl f).toRat + (fin (!s) b : Fl f).toRat =
              (if s then (-1 : ℚ) else 1) * (((a - b : Nat) : ℚ) / (1 : Nat) / 2 ^ f.q) := by
            rw [Nat.cast_sub hlt.le]; cases s <;> simp [toRat] <;> ring
          rw [e, abs_mul, sign_abs, one_mul, abs_of_nonneg (by positivity)] at h
          exact h
        · rename_i hlt
          rw [pack_isFinite]
          refine roundRat_lt hp hw one_pos ?_
          have e : (fin s a : Fl f).toRat + (fin (!s) b : Fl f).toRat =
              (if !s then (-1 : ℚ) else 1) * (((b - a : Nat) : ℚ) / (1 : Nat) / 2 ^ f.q) := by
            rw [Nat.cast_sub (not_lt.1 hlt)]; cases s <;> simp [toRat] <;> ring
          rw [e, abs_mul, sign_abs, one_mul, abs_of_nonneg (by positivity)] at h
          exact h
  · rw [mul_def]
    unfold mul
    rw [pack_isFinite]
    refine roundRat_lt hp hw (by positivity) ?_
    have e : (fin s a : Fl f).toRat * (fin t b : Fl f).toRat =
        (if (s != t) then (-1 : ℚ) else 1) * (((a * b : Nat) : ℚ) / ((2 ^ f.q : Nat) : ℚ) / 2 ^ f.q) := by
      simp only [toRat]
      push_cast
      cases s <;> cases t <;> simp <;> ring
    rw [e, abs_mul, sign_abs, one_mul, abs_of_nonneg (by positivity)] at h
    exact h
  · have hb : b ≠ 0 := by
      rintro rfl
      simp [toRat] at h0
    unfold div
    simp only [if_neg hb]
    rw [pack_isFinite]
    refine roundRat_lt hp hw (Nat.pos_of_ne_zero hb) ?_
    have hbq : (b : ℚ) ≠ 0 := by exact_mod_cast hb
    have e : (fin s a : Fl f).toRat / (fin t b : Fl f).toRat =
        (if (s != t) then (-1 : ℚ) else 1) * (((a * 2 ^ f.q : Nat) : ℚ) / b / 2 ^ f.q) := by
      simp only [toRat]
      push_cast
      have h2 : ((2 : ℚ) ^ f.q) ≠ 0 := by positivity
      cases s <;> cases t <;> simp <;> field_simp
    rw [e, abs_mul, sign_abs, one_mul, abs_of_nonneg (by positivity)] at h
    exact h

-- 0.1 + 0.2 is not 0.3, but 0.5 + 0.25 is exact; overflow; subnormal result; ties to even at 2^53 + 1
example : div (ofNat 1) (ofNat 10) + div (ofNat 2) (ofNat 10) ≠ (div (ofNat 3) (ofNat 10) : Fl binary64) := by
  decide +kernel
example : div (ofNat 1) (ofNat 2) + div (ofNat 1) (ofNat 4) = (div (ofNat 3) (ofNat 4) : Fl binary64) := by
  decide +kernel
example : (fin false (2 ^ 2097) + fin false (2 ^ 2097) : Fl binary64) = .inf false := by decide +kernel
example : (ofNat (2 ^ 53) + ofNat 1 : Fl binary64) = ofNat (2 ^ 53) := by decide +kernel
example : div (fin true 1) (ofNat 2) = (fin true 0 : Fl binary64) := by decide +kernel

/-! ## C66 – evaluation -/

theorem horner_step {u η s e c x fl1 fl2 A g h : ℚ} (hu : 0 ≤ u)
    (hsA : |e| ≤ A) (hg : 1 ≤ g) (hE : |s - e| ≤ (g - 1) * A + h * η)
    (h1 : |fl1 - (s + c)| ≤ u * |s + c|) (h2 : |fl2 - fl1 * x| ≤ u * |fl1 * x| + η) :
    |fl2 - (e + c) * x| ≤ ((1 + u) ^ 2 * g - 1) * ((A + |c|) * |x|) + ((1 + u) ^ 2 * |x| * h + 1) * η := by
  have hA : 0 ≤ A := (abs_nonneg e).trans hsA
  have hs : |s + c| ≤ A + |c| + |s - e| := by
    have h3 : s + c = (e + c) + (s - e) := by ring
    calc |s + c| = |(e + c) + (s - e)| := by rw [h3]
      _ ≤ |e + c| + |s - e| := abs_add_le _ _
      _ ≤ |e| + |c| + |s - e| := by have := abs_add_le e c; linarith
      _ ≤ _ := by linarith
  have hf1 : |fl1| ≤ (1 + u) * |s + c| := by
    have := abs_sub_abs_le_abs_sub fl1 (s + c)
    nlinarith
  have hx := abs_nonneg x
  have hfx : |fl1 * x| ≤ (1 + u) * |s + c| * |x| := by
    rw [abs_mul]; exact mul_le_mul_of_nonneg_right hf1 hx
  have hmain : |fl2 - (e + c) * x| ≤
      (u * ((1 + u) * |s + c| * |x|) + η) + (u * |s + c| * |x|) + |s - e| * |x| := by
    have e1 : fl2 - (e + c) * x = (fl2 - fl1 * x) + (fl1 - (s + c)) * x + (s - e) * x := by ring
    rw [e1]
    have t1 := abs_add_le ((fl2 - fl1 * x) + (fl1 - (s + c)) * x) ((s - e) * x)
    have t2 := abs_add_le (fl2 - fl1 * x) ((fl1 - (s + c)) * x)
    rw [abs_mul] at t1 t2
    have t3 : |fl1 - (s + c)| * |x| ≤ u * |s + c| * |x| := mul_le_mul_of_nonneg_right h1 hx
    have t4 : u * |fl1 * x| ≤ u * ((1 + u) * |s + c| * |x|) := mul_le_mul_of_nonneg_left hfx hu
    linarith
  refine hmain.trans ?_
  have hv : u * (1 + u) + u = (1 + u) ^ 2 - 1 := by ring
  have e2 : (u * ((1 + u) * |s + c| * |x|) + η) + (u * |s + c| * |x|) + |s - e| * |x| =
      ((1 + u) ^ 2 - 1) * |s + c| * |x| + |s - e| * |x| + η := by rw [← hv]; ring
  rw [e2]
  have hv0 : 0 ≤ (1 + u) ^ 2 - 1 := by nlinarith
  have h5 : ((1 + u) ^ 2 - 1) * |s + c| * |x| ≤ ((1 + u) ^ 2 - 1) * (A + |c| + |s - e|) * |x| :=
    mul_le_mul_of_nonneg_right (mul_le_mul_of_nonneg_left hs hv0) hx
  have h6 : |s - e| * |x| * (1 + u) ^ 2 ≤ ((g - 1) * A + h * η) * |x| * (1 + u) ^ 2 :=
    mul_le_mul_of_nonneg_right (mul_le_mul_of_nonneg_right hE hx) (by positivity)
  have h7 : (g - 1) * A * |x| * (1 + u) ^ 2 ≤ (g - 1) * (A + |c|) * |x| * (1 + u) ^ 2 := by
    have : 0 ≤ g - 1 := by linarith
    have hc := abs_nonneg c
    gcongr
    linarith
  nlinarith

/-- Abstract form of the evaluation loop: `A` bounds the exact value, `g` and `h` count roundings. -/
theorem horner_loop {x : Fl f} (l : List (Fl f)) :
    ∀ (s : Fl f) (e A g h : ℚ), |e| ≤ A → 1 ≤ g → 0 ≤ h →
      |s.toRat - e| ≤ (g - 1) * A + h * eta f →
      (l.foldl (fun sum val => (sum + val) * x) s).isFinite = true →
      let e' := l.foldl (fun sum val => (sum + val.toRat) * x.toRat) e
      let A' := l.foldl (fun sum val => (sum + |val.toRat|) * |x.toRat|) A
      |e'| ≤ A' ∧ |(l.foldl (fun sum val => (sum + val) * x) s).toRat - e'| ≤
        (g * (1 + uro f) ^ (2 * l.length) - 1) * A' +
        (h * ((1 + uro f) ^ 2 * |x.toRat|) ^ l.length +
          ∑ i ∈ Finset.range l.length, ((1 + uro f) ^ 2 * |x.toRat|) ^ i) * eta f := by
  induction l with
  | nil =>
    intro s e A g h heA _ _ hE _
    simpa using ⟨heA, hE⟩
  | cons c l ih =>
    intro s e A g h heA hg hh hE hfin
    simp only [List.foldl_cons] at hfin ⊢
    have hstep : ((s + c) * x).isFinite = true := by
      have : ∀ (l : List (Fl f)) (s : Fl f),
          (l.foldl (fun sum val => (sum + val) * x) s).isFinite = true → s.isFinite = true := by
        intro l
        induction l with
        | nil => intro s h; exact h
        | cons c l ih => intro s h; exact (finite_of_add (finite_of_mul (ih _ h)).1).1
      exact this l _ hfin
    have hadd := add_error (finite_of_mul hstep).1
    have hmul := mul_error hstep
    have hu := uro_nonneg (f := f)
    have hnext := horner_step (u := uro f) (η := eta f) hu heA hg hE hadd hmul
    have heA' : |(e + c.toRat) * x.toRat| ≤ (A + |c.toRat|) * |x.toRat| := by
      rw [abs_mul]
      exact mul_le_mul_of_nonneg_right ((abs_add_le _ _).trans (by linarith)) (abs_nonneg _)
    have hg' : 1 ≤ (1 + uro f) ^ 2 * g := by nlinarith
    have hh' : 0 ≤ (1 + uro f) ^ 2 * |x.toRat| * h + 1 := by positivity
    obtain ⟨h1, h2⟩ := ih ((s + c) * x) ((e + c.toRat) * x.toRat) ((A + |c.toRat|) * |x.toRat|)
      ((1 + uro f) ^ 2 * g) ((1 + uro f) ^ 2 * |x.toRat| * h + 1) heA' hg' hh' hnext hfin
    refine ⟨h1, h2.trans (le_of_eq ?_)⟩
    rw [List.length_cons, Finset.sum_range_succ]
    ring

theorem horner_eval (x : ℚ) (l : List ℚ) (s : ℚ) :
    l.foldl (fun sum val => (sum + val) * x) s = (s * x ^ l.length) + (descPoly (l ++ [0])).eval x := by
  induction l generalizing s with
  | nil => simp [descPoly]
  | cons c l ih =>
    rw [List.foldl_cons, ih]
    simp only [List.cons_append, descPoly_cons, eval_add, eval_mul, eval_C, eval_pow, eval_X,
      List.length_append, List.length_cons, List.length_nil]
    ring

theorem horner_eval_last (x : ℚ) (l : List ℚ) (c : ℚ) :
    (descPoly (l ++ [c])).eval x = l.foldl (fun sum val => (sum + val) * x) 0 + c := by
  rw [horner_eval, descPoly_append, descPoly_append]
  simp [descPoly]

/-- C66: the rounding error of `eval`.  `n` is the number of coefficients after the first; the first term is
the relative error of `2n+1` roundings, the second counts possible underflows of the `n` products. -/
theorem C66_eval_error (p : Poly (Fl f)) (x : Fl f) (h : (p.eval x).isFinite = true) :
    |(p.eval x).toRat - (descPoly (p.terms.map toRat)).eval x.toRat| ≤
      ((1 + uro f) ^ (2 * (p.terms.length - 1) + 1) - 1) *
          (descPoly (p.terms.map fun c => |c.toRat|)).eval |x.toRat| +
        (1 + uro f) * eta f *
          ∑ i ∈ Finset.range (p.terms.length - 1), ((1 + uro f) ^ 2 * |x.toRat|) ^ i := by
  have hu := uro_nonneg (f := f)
  have hη := eta_nonneg (f := f)
  have hsum : ∀ n, 0 ≤ ∑ i ∈ Finset.range n, ((1 + uro f) ^ 2 * |x.toRat|) ^ i :=
    fun n => Finset.sum_nonneg fun i _ => by positivity
  obtain ⟨l⟩ := p
  rcases List.eq_nil_or_concat l with rfl | ⟨l, c, rfl⟩
  · simp [Poly.eval]
  simp only [List.concat_eq_append, Poly.eval, List.getLast?_append, List.getLast?_singleton,
    Option.some_or, List.dropLast_concat, List.map_append, List.map_cons, List.map_nil,
    List.length_append, List.length_cons, List.length_nil, Nat.zero_add, Nat.add_sub_cancel,
    horner_eval_last, List.foldl_map] at h ⊢
  have hA0 : ∀ (l : List (Fl f)) (a : ℚ), 0 ≤ a →
      0 ≤ l.foldl (fun sum val => (sum + |val.toRat|) * |x.toRat|) a := by
    intro l
    induction l with
    | nil => intro a ha; exact ha
    | cons b l ih => intro a ha; exact ih _ (by positivity)
  have hA := hA0 l 0 le_rfl
  split at h
  · rename_i hz
    obtain ⟨s, rfl⟩ := isZero_iff.1 hz
    have hx0 : (fin s 0 : Fl f).toRat = 0 := by simp [toRat]
    have hfold : ∀ (l : List (Fl f)), l.foldl (fun sum val => (sum + val.toRat) * (0 : ℚ)) 0 = 0 := by
      intro l
      induction l with
      | nil => rfl
      | cons b l ih => rw [List.foldl_cons, mul_zero]; exact ih
    rw [if_pos hz, hx0, hfold, zero_add, sub_self, abs_zero]
    rw [hx0] at hsum hA
    have h1 : 1 ≤ (1 + uro f) ^ (2 * l.length + 1) := one_le_pow₀ (by linarith)
    have h2 := hsum l.length
    have h3 : 0 ≤ (1 + uro f) ^ (2 * l.length + 1) - 1 := by linarith
    have h4 := abs_nonneg c.toRat
    positivity
  · rename_i hz
    rw [if_neg hz]
    obtain ⟨h1, h2⟩ := horner_loop (x := x) l 0 0 0 1 0 (by simp) le_rfl le_rfl (by simp)
      (finite_of_add h).1
    have h3 := add_error h
    simp only [zero_mul, zero_add, one_mul] at h2
    generalize (l.foldl (fun sum val => (sum + val) * x) 0).toRat = s at *
    generalize l.foldl (fun sum val => (sum + val.toRat) * x.toRat) 0 = e at *
    generalize l.foldl (fun sum val => (sum + |val.toRat|) * |x.toRat|) 0 = A at *
    generalize (l.foldl (fun sum val => (sum + val) * x) 0 + c).toRat = r at *
    have h4 := hsum l.length
    generalize ∑ i ∈ Finset.range l.length, ((1 + uro f) ^ 2 * |x.toRat|) ^ i = H at *
    have hg : 1 ≤ (1 + uro f) ^ (2 * l.length) := one_le_pow₀ (by linarith)
    rw [pow_succ]
    generalize (1 + uro f) ^ (2 * l.length) = g at *
    generalize uro f = u at *
    generalize c.toRat = c at *
    have h5 : |r - (e + c)| ≤ |r - (s + c)| + |s - e| := by
      have : r - (e + c) = (r - (s + c)) + (s - e) := by ring
      rw [this]; exact abs_add_le _ _
    have h6 : |s + c| ≤ A + |c| + |s - e| := by
      have : s + c = (s - e) + (e + c) := by ring
      rw [this]
      have := abs_add_le (s - e) (e + c)
      have := abs_add_le e c
      linarith
    have h7 : u * |s + c| ≤ u * (A + |c| + |s - e|) := mul_le_mul_of_nonneg_left h6 hu
    have h8 : (1 + u) * |s - e| ≤ (1 + u) * ((g - 1) * A + H * eta f) :=
      mul_le_mul_of_nonneg_left h2 (by linarith)
    have h9 : 0 ≤ (1 + u) * (g - 1) * |c| := by
      have := abs_nonneg c
      have : 0 ≤ g - 1 := by linarith
      positivity
    nlinarith

/-- Integers below `2^p` are numbers of the format. -/
theorem int_valid (hw : f.p + f.q ≤ f.w) {n : ℤ} (hn : |(n : ℚ)| < 2 ^ f.p) :
    (∃ z : Fl f, z.Valid ∧ z.isFinite = true ∧ z.toRat = n) ∧ |(n : ℚ)| ≤ maxFinite f := by
  have hnat : n.natAbs < 2 ^ f.p := by
    have : ((n.natAbs : ℕ) : ℚ) < 2 ^ f.p := by rw [Nat.cast_natAbs, Int.cast_abs]; exact hn
    exact_mod_cast this
  have hpos : (0 : ℚ) < 2 ^ f.q := by positivity
  refine ⟨⟨fin (decide (n < 0)) (n.natAbs * 2 ^ f.q), ⟨⟨_, _, hnat, rfl⟩, ?_⟩, rfl, ?_⟩, ?_⟩
  · calc n.natAbs * 2 ^ f.q < 2 ^ f.p * 2 ^ f.q := Nat.mul_lt_mul_of_pos_right hnat (by positivity)
      _ = 2 ^ (f.p + f.q) := by rw [pow_add]
      _ ≤ 2 ^ f.w := Nat.pow_le_pow_right (by norm_num) hw
  · simp only [toRat]
    push_cast
    rw [mul_div_cancel_right₀ _ hpos.ne', Nat.cast_natAbs, Int.cast_abs]
    by_cases h : n < 0
    · have hq : (n : ℚ) < 0 := by exact_mod_cast h
      simp [h, abs_of_neg hq]
    · have hq : (0 : ℚ) ≤ n := by exact_mod_cast not_lt.1 h
      simp [h, abs_of_nonneg hq]
  · unfold maxFinite
    rw [le_div_iff₀ hpos]
    have h1 : |(n : ℚ)| = (n.natAbs : ℕ) := by rw [Nat.cast_natAbs, Int.cast_abs]
    rw [h1]
    have h2 : n.natAbs * 2 ^ f.q ≤ (2 ^ f.p - 1) * 2 ^ (f.w - f.p) :=
      Nat.mul_le_mul (by omega) (Nat.pow_le_pow_right (by norm_num) (by omega))
    exact_mod_cast h2

theorem int_add (hp : 1 ≤ f.p) (hw : f.p + f.q ≤ f.w) {x y : Fl f} {a b : ℤ} (hx : x.isFinite = true)
    (hy : y.isFinite = true) (ha : x.toRat = a) (hb : y.toRat = b) (h : |(a : ℚ) + b| < 2 ^ f.p) :
    (x + y).isFinite = true ∧ (x + y).toRat = a + b := by
  obtain ⟨⟨z, hz, hzf, hzn⟩, hm⟩ := int_valid hw (n := a + b) (by push_cast; exact h)
  push_cast at hzn hm
  have hf := (C65_no_overflow hp (by omega) x y hx hy).1 (by rw [ha, hb]; exact hm)
  refine ⟨hf, ?_⟩
  rw [(C65_exact hp x y z hz hzf).1 hf (by rw [ha, hb, hzn]), hzn]

theorem int_mul (hp : 1 ≤ f.p) (hw : f.p + f.q ≤ f.w) {x y : Fl f} {a b : ℤ} (hx : x.isFinite = true)
    (hy : y.isFinite = true) (ha : x.toRat = a) (hb : y.toRat = b) (h : |(a : ℚ) * b| < 2 ^ f.p) :
    (x * y).isFinite = true ∧ (x * y).toRat = a * b := by
  obtain ⟨⟨z, hz, hzf, hzn⟩, hm⟩ := int_valid hw (n := a * b) (by push_cast; exact h)
  push_cast at hzn hm
  have hf := (C65_no_overflow hp (by omega) x y hx hy).2.1 (by rw [ha, hb]; exact hm)
  refine ⟨hf, ?_⟩
  rw [(C65_exact hp x y z hz hzf).2 hf (by rw [ha, hb, hzn]), hzn]

theorem abs_fold_le {x : ℚ} (hx : 1 ≤ |x|) (l : List (Fl f)) (A : ℚ) (hA : 0 ≤ A) :
    A ≤ l.foldl (fun sum val => (sum + |val.toRat|) * |x|) A := by
  induction l generalizing A with
  | nil => exact le_rfl
  | cons c l ih =>
    refine le_trans ?_ (ih _ (by positivity))
    have := abs_nonneg c.toRat
    nlinarith

theorem int_loop (hp : 1 ≤ f.p) (hw : f.p + f.q ≤ f.w) {x : Fl f} {k : ℤ} (hx : x.isFinite = true)
    (hk : x.toRat = k) (hk0 : k ≠ 0) (l : List (Fl f))
    (hl : ∀ c ∈ l, c.isFinite = true ∧ ∃ n : ℤ, c.toRat = n) :
    ∀ (s : Fl f) (e : ℤ) (A : ℚ), s.isFinite = true → s.toRat = e → |(e : ℚ)| ≤ A →
      l.foldl (fun sum val => (sum + |val.toRat|) * |x.toRat|) A < 2 ^ f.p →
      ∃ e' : ℤ, (l.foldl (fun sum val => (sum + val) * x) s).isFinite = true ∧
        (l.foldl (fun sum val => (sum + val) * x) s).toRat = e' ∧
        (e' : ℚ) = l.foldl (fun sum val => (sum + val.toRat) * x.toRat) (e : ℚ) ∧
        |(e' : ℚ)| ≤ l.foldl (fun sum val => (sum + |val.toRat|) * |x.toRat|) A := by
  have hk1 : 1 ≤ |x.toRat| := by
    rw [hk]
    have : 1 ≤ |k| := Int.one_le_abs hk0
    exact_mod_cast this
  induction l with
  | nil => intro s e A hs he hA _; exact ⟨e, hs, he, rfl, hA⟩
  | cons c l ih =>
    intro s e A hs he hA hlt
    obtain ⟨hc, n, hn⟩ := hl c (by simp)
    simp only [List.foldl_cons] at hlt ⊢
    have hA0 : 0 ≤ A := (abs_nonneg _).trans hA
    have hcn := abs_nonneg c.toRat
    have hA1 := abs_fold_le hk1 l ((A + |c.toRat|) * |x.toRat|) (by positivity)
    have hen : |(e : ℚ) + n| ≤ A + |c.toRat| := by
      rw [hn]; exact (abs_add_le _ _).trans (by linarith)
    have hA2 : A + |c.toRat| ≤ (A + |c.toRat|) * |x.toRat| := by nlinarith
    obtain ⟨f1, t1⟩ := int_add hp hw hs hc he hn (by linarith)
    have hmul : |((e + n : ℤ) : ℚ) * k| ≤ (A + |c.toRat|) * |x.toRat| := by
      rw [abs_mul, ← hk]; push_cast
      exact mul_le_mul_of_nonneg_right hen (abs_nonneg _)
    obtain ⟨f2, t2⟩ := int_mul hp hw f1 hx (a := e + n) (by rw [t1]; push_cast; rfl) hk (by linarith)
    obtain ⟨e', g1, g2, g3, g4⟩ := ih (fun c hc => hl c (by simp [hc])) ((s + c) * x) ((e + n) * k)
      ((A + |c.toRat|) * |x.toRat|) f2 (by rw [t2]; push_cast; rfl) (by push_cast at hmul ⊢; exact hmul) hlt
    refine ⟨e', g1, g2, ?_, g4⟩
    rw [g3, hn, hk]
    push_cast
    rfl

/-- C66: `eval` is exact on whole numbers as long as the sum of the absolute values of the terms stays below
`2^p` (`2^53` for `f64`, `2^24` for `f32`). -/
theorem C66_eval_exact (hp : 1 ≤ f.p) (hw : f.p + f.q ≤ f.w) (p : Poly (Fl f)) (x : Fl f)
    (hc : ∀ c ∈ p.terms, c.isFinite = true ∧ ∃ n : ℤ, c.toRat = n)
    (hx : x.isFinite = true ∧ ∃ n : ℤ, x.toRat = n)
    (h : (descPoly (p.terms.map fun c => |c.toRat|)).eval |x.toRat| < 2 ^ f.p) :
    (p.eval x).isFinite = true ∧ (p.eval x).toRat = (descPoly (p.terms.map toRat)).eval x.toRat := by
  obtain ⟨l⟩ := p
  obtain ⟨hxf, k, hk⟩ := hx
  rcases List.eq_nil_or_concat l with rfl | ⟨l, c, rfl⟩
  · simp [Poly.eval]
  simp only [List.concat_eq_append] at hc
  simp only [List.concat_eq_append, Poly.eval, List.getLast?_append, List.getLast?_singleton,
    Option.some_or, List.dropLast_concat, List.map_append, List.map_cons, List.map_nil,
    horner_eval_last, List.foldl_map] at h ⊢
  obtain ⟨hcf, n, hn⟩ := hc c (by simp)
  split
  · rename_i hz
    have hx0 : x.toRat = 0 := (isZero_iff_toRat hxf).1 hz
    have hfold : ∀ (l : List (Fl f)), l.foldl (fun sum val => (sum + val.toRat) * (0 : ℚ)) 0 = 0 := by
      intro l
      induction l with
      | nil => rfl
      | cons b l ih => rw [List.foldl_cons, mul_zero]; exact ih
    rw [hx0, hfold, zero_add]
    exact ⟨hcf, rfl⟩
  · rename_i hz
    have hk0 : k ≠ 0 := by
      rintro rfl
      exact hz ((isZero_iff_toRat hxf).2 (by simpa using hk))
    have hcn := abs_nonneg c.toRat
    obtain ⟨e', g1, g2, g3, g4⟩ := int_loop hp hw hxf hk hk0 l (fun c hc' => hc c (by simp [hc'])) 0 0 0
      (by simp) (by simp) (by simp) (by linarith)
    have : |(e' : ℚ) + n| < 2 ^ f.p := by
      refine lt_of_le_of_lt (abs_add_le _ _) ?_
      rw [← hn]
      linarith
    obtain ⟨r1, r2⟩ := int_add hp hw g1 hcf g2 hn this
    refine ⟨r1, ?_⟩
    rw [r2, g3, hn]
    simp

-- f64: x^2 - 3x + 2 at 0.1, at 2^53 + 2 (rounded), and the parameters of both formats meet the hypotheses
example : ((⟨[1, -ofNat 3, ofNat 2]⟩ : Poly (Fl binary64)).eval (div 1 (ofNat 10))).isFinite = true := by
  decide +kernel
example : ((⟨[1, -ofNat 3, ofNat 2]⟩ : Poly (Fl binary64)).eval (ofNat 5)) = ofNat 12 := by decide +kernel
example : 1 ≤ binary64.p ∧ binary64.p + binary64.q ≤ binary64.w ∧
    1 ≤ binary32.p ∧ binary32.p + binary32.q ≤ binary32.w := by decide
-- without the bound the value is wrong: x + 1 at 2^53
example : ((⟨[1, 1]⟩ : Poly (Fl binary64)).eval (ofNat (2 ^ 53))) = ofNat (2 ^ 53) := by decide +kernel

end Fl
end Rustnomial
