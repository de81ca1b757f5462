import Verif.Model.Powers
import Verif.Props.FloatSparse
import Verif.Props.FloatFixed
import Verif.Props.FloatPow

/-!
# C100: powers of floats by repeated squaring
-/

open Polynomial

namespace Rustnomial
namespace Fl
variable {f : FlFmt}

/-- A product which is zero or not below the smallest normal number has a relative error of at most `2^-p`. -/
theorem mul_error_normal {x y : Fl f} (h : (x * y).isFinite = true)
    (hn : x.toRat * y.toRat = 0 ∨ minNormal f ≤ |x.toRat * y.toRat|) :
    |(x * y).toRat - x.toRat * y.toRat| ≤ uro f * |x.toRat * y.toRat| := by
  rcases hn with hn | hn
  · rw [toRat_mul_zero (mul_eq_zero.1 hn) h, hn]; simp
  · obtain ⟨s, num, den, hden, hr, hv⟩ := rounded_mul h
    rw [hr, hv]
    simp only [toRat]
    have hsg : |(if s then (-1 : ℚ) else 1)| = 1 := sign_abs s
    rw [hv, abs_mul, hsg, one_mul, abs_of_nonneg (by positivity)] at hn
    rw [← mul_sub, abs_mul, hsg, one_mul, abs_mul, hsg, one_mul, ← sub_div, abs_div,
      abs_of_pos (a := (2 : ℚ) ^ f.q) (by positivity), abs_of_nonneg (a := (num : ℚ) / den / 2 ^ f.q) (by positivity),
      ← mul_div_assoc]
    refine div_le_div_of_nonneg_right ?_ (by positivity)
    rcases roundRat_error (p := f.p) (num := num) hden with h1 | ⟨h1, _⟩
    · refine h1.trans (le_of_eq ?_); unfold uro; ring
    · refine h1.trans ?_
      unfold minNormal at hn
      have hq : (0 : ℚ) < 2 ^ f.q := by positivity
      have h2 : (2 : ℚ) ^ f.p / 2 ≤ num / den := by
        have := mul_le_mul_of_nonneg_right hn hq.le
        rw [div_mul_cancel₀ _ hq.ne'] at this
        refine le_trans (le_of_eq ?_) this
        field_simp
      have h3 : (0 : ℚ) < 2 ^ f.p := by positivity
      unfold uro
      calc (1 : ℚ) / 2 = 1 / 2 ^ f.p * (2 ^ f.p / 2) := by field_simp
        _ ≤ _ := mul_le_mul_of_nonneg_left h2 (by positivity)

/-- `v` is `x^k` after at most `m` roundings. -/
def PowApx (x : ℚ) (m k : Nat) (v : Fl f) : Prop :=
  ∃ θ : ℚ, (1 - uro f) ^ m ≤ θ ∧ θ ≤ (1 + uro f) ^ m ∧ v.toRat = x ^ k * θ

theorem uro_lt_one (hp : 1 ≤ f.p) : uro f < 1 := by
  unfold uro
  rw [div_lt_one (by positivity)]
  exact one_lt_pow₀ (by norm_num) (by omega)

theorem PowApx.mul (hp : 1 ≤ f.p) {x : ℚ} {n m1 m2 j k : Nat} {v w : Fl f} (hv : PowApx x m1 j v) (hw : PowApx x m2 k w)
    (hk : 1 ≤ k) (hjk : j + k ≤ n) (hm : m1 + m2 ≤ n) (hx : x = 0 ∨ minNormal f ≤ (1 - uro f) ^ n * min 1 (|x| ^ n))
    (hf : (v * w).isFinite = true) : PowApx x (m1 + m2 + 1) (j + k) (v * w) := by
  obtain ⟨a, a1, a2, a3⟩ := hv
  obtain ⟨b, b1, b2, b3⟩ := hw
  have hu := uro_nonneg (f := f)
  have hu1 := uro_lt_one hp
  have h1u : 0 < 1 - uro f := by linarith
  have ha : 0 < a := lt_of_lt_of_le (pow_pos h1u _) a1
  have hb : 0 < b := lt_of_lt_of_le (pow_pos h1u _) b1
  have hprod : v.toRat * w.toRat = x ^ (j + k) * (a * b) := by rw [a3, b3, pow_add]; ring
  have hn : v.toRat * w.toRat = 0 ∨ minNormal f ≤ |v.toRat * w.toRat| := by
    rcases hx with rfl | hx
    · left; rw [hprod, zero_pow (by omega), zero_mul]
    · right
      refine hx.trans ?_
      rw [hprod, abs_mul, abs_pow, abs_of_pos (mul_pos ha hb), mul_comm]
      have h1 : min 1 (|x| ^ n) ≤ |x| ^ (j + k) := by
        rcases le_total 1 |x| with h | h
        · exact (min_le_left _ _).trans (one_le_pow₀ h)
        · exact (min_le_right _ _).trans (pow_le_pow_of_le_one (abs_nonneg x) h hjk)
      have h2 : (1 - uro f) ^ n ≤ a * b := by
        calc (1 - uro f) ^ n ≤ (1 - uro f) ^ (m1 + m2) := pow_le_pow_of_le_one h1u.le (by linarith) hm
          _ = (1 - uro f) ^ m1 * (1 - uro f) ^ m2 := pow_add _ _ _
          _ ≤ a * b := mul_le_mul a1 b1 (pow_pos h1u _).le ha.le
      exact mul_le_mul h1 h2 (pow_pos h1u _).le (by positivity)
  have he := mul_error_normal hf hn
  rcases eq_or_ne (v.toRat * w.toRat) 0 with h0 | h0
  · refine ⟨1, pow_le_one₀ h1u.le (by linarith), one_le_pow₀ (by linarith), ?_⟩
    rw [toRat_mul_zero (mul_eq_zero.1 h0) hf]
    rw [hprod] at h0
    rcases mul_eq_zero.1 h0 with h | h
    · rw [h, zero_mul]
    · exact absurd h (mul_pos ha hb).ne'
  · have hq : |(v * w).toRat / (v.toRat * w.toRat) - 1| ≤ uro f := by
      rw [div_sub_one h0, abs_div, div_le_iff₀ (abs_pos.2 h0)]; exact he
    rw [abs_le] at hq
    refine ⟨a * b * ((v * w).toRat / (v.toRat * w.toRat)), ?_, ?_, ?_⟩
    · rw [pow_succ, pow_add]
      exact mul_le_mul (mul_le_mul a1 b1 (pow_pos h1u _).le ha.le) (by linarith) h1u.le (mul_pos ha hb).le
    · rw [pow_succ, pow_add]
      exact mul_le_mul (mul_le_mul a2 b2 hb.le (by positivity)) (by linarith) (by linarith) (by positivity)
    · rw [← mul_assoc, ← hprod, mul_div_cancel₀ _ h0]

theorem powiLoop_finite : ∀ (b : Nat) (r a : Fl f), 1 ≤ b → (powiLoop r a b).isFinite = true →
    r.isFinite = true ∧ a.isFinite = true := by
  intro b
  induction b using Nat.strong_induction_on with
  | _ b ih =>
    intro r a hb hf
    rw [powiLoop] at hf
    by_cases hb2 : b / 2 = 0
    · simp only [if_pos hb2, if_pos (show b % 2 = 1 by omega)] at hf
      exact finite_of_mul hf
    · simp only [if_neg hb2] at hf
      obtain ⟨h1, h2⟩ := ih (b / 2) (by omega) _ _ (by omega) hf
      by_cases h3 : b % 2 = 1
      · rw [if_pos h3] at h1; exact finite_of_mul h1
      · rw [if_neg h3] at h1; exact ⟨h1, (finite_of_mul h2).1⟩

theorem powiLoop_apx (hp : 1 ≤ f.p) {x : ℚ} {n : Nat} (hx : x = 0 ∨ minNormal f ≤ (1 - uro f) ^ n * min 1 (|x| ^ n)) :
    ∀ (b : Nat) (r a : Fl f) (j k : Nat), PowApx x j j r → PowApx x (k - 1) k a → 1 ≤ k → j + k * b ≤ n →
      (powiLoop r a b).isFinite = true → PowApx x (j + k * b) (j + k * b) (powiLoop r a b) := by
  intro b
  induction b using Nat.strong_induction_on with
  | _ b ih =>
    intro r a j k hr ha hk hn hf
    rw [powiLoop] at hf ⊢
    have hm := Nat.div_add_mod b 2
    by_cases hb2 : b / 2 = 0
    · simp only [if_pos hb2] at hf ⊢
      by_cases h1 : b % 2 = 1
      · have hb1 : b = 1 := by omega
        rw [if_pos h1] at hf ⊢
        have := hr.mul hp ha hk (n := n) (by rw [hb1] at hn; omega) (by rw [hb1] at hn; omega) hx hf
        rw [hb1, mul_one, show j + k = j + (k - 1) + 1 by omega]
        rw [show j + (k - 1) + 1 = j + k by omega] at this ⊢
        exact this
      · have hb0 : b = 0 := by omega
        rw [if_neg h1] at hf ⊢
        rw [hb0, mul_zero, add_zero]; exact hr
    · simp only [if_neg hb2] at hf ⊢
      obtain ⟨f1, f2⟩ := powiLoop_finite _ _ _ (by omega) hf
      have hkb : 2 * k ≤ k * b := by
        rw [mul_comm]; exact Nat.mul_le_mul_left k (by omega)
      have haa : PowApx x (k + k - 1) (k + k) (a * a) := by
        have := ha.mul hp ha hk (n := n) (by omega) (by omega) hx f2
        rwa [show k - 1 + (k - 1) + 1 = k + k - 1 by omega] at this
      by_cases h1 : b % 2 = 1
      · rw [if_pos h1] at hf f1 ⊢
        have hra : PowApx x (j + k) (j + k) (r * a) := by
          have := hr.mul hp ha hk (n := n) (by omega) (by omega) hx f1
          rwa [show j + (k - 1) + 1 = j + k by omega] at this
        have e : j + k * b = j + k + (k + k) * (b / 2) := by
          conv_lhs => rw [← hm, h1]
          ring
        rw [e] at hn ⊢
        exact ih _ (by omega) _ _ _ _ hra haa (by omega) hn hf
      · rw [if_neg h1] at hf ⊢
        have e : j + k * b = j + (k + k) * (b / 2) := by
          conv_lhs => rw [← hm, show b % 2 = 0 by omega]
          ring
        rw [e] at hn ⊢
        exact ih _ (by omega) _ _ _ _ hr haa (by omega) hn hf

theorem apx_error {x : ℚ} {m k : Nat} {v : Fl f} (hp : 1 ≤ f.p) (h : PowApx x m k v) :
    |v.toRat - x ^ k| ≤ ((1 + uro f) ^ m - 1) * |x| ^ k := by
  obtain ⟨θ, h1, h2, h3⟩ := h
  have hu := uro_nonneg (f := f)
  have hu1 := uro_lt_one hp
  rw [h3, show x ^ k * θ - x ^ k = (θ - 1) * x ^ k by ring, abs_mul, abs_pow]
  refine mul_le_mul_of_nonneg_right ?_ (by positivity)
  rw [abs_le]
  have i1 : 1 + m * (-uro f) ≤ (1 + -uro f) ^ m := one_add_mul_le_pow (by linarith) m
  have i2 : 1 + m * uro f ≤ (1 + uro f) ^ m := one_add_mul_le_pow (by linarith) m
  rw [← sub_eq_add_neg] at i1
  constructor <;> linarith

theorem asI32_small {n : Nat} (h : n < 2 ^ 31) : asI32 n = n := by
  unfold asI32
  rw [Nat.mod_eq_of_lt (by omega), if_pos h]

/-- C100: `powi` by repeated squaring.  A finite `n`-th power (`n < 2^31`) has the relative error of `n` roundings, as long as
no power of the base up to the `n`-th, so rounded, lies below the normal numbers. -/
theorem C100_powi_error (hp : 1 ≤ f.p) (x : Fl f) (n : Nat) (hn : n < 2 ^ 31)
    (hx : x.toRat = 0 ∨ minNormal f ≤ (1 - uro f) ^ n * min 1 (|x.toRat| ^ n)) (h : (upowFl x n).isFinite = true) :
    |(upowFl x n).toRat - x.toRat ^ n| ≤ ((1 + uro f) ^ n - 1) * |x.toRat| ^ n := by
  unfold upowFl powi at h ⊢
  rw [asI32_small hn] at h ⊢
  simp only [Int.natAbs_natCast, if_neg (not_lt.2 (Int.natCast_nonneg n))] at h ⊢
  have h1 : PowApx x.toRat 0 0 (1 : Fl f) := ⟨1, by simp, by simp, by simp [toRat_one]⟩
  have h2 : PowApx x.toRat 0 1 x := ⟨1, by simp, by simp, by simp⟩
  have := powiLoop_apx hp hx n 1 x 0 1 h1 h2 le_rfl (by omega) h
  rw [zero_add, one_mul] at this
  exact apx_error hp this

theorem powiLoop_int (hp : 1 ≤ f.p) (hw : f.p + f.q ≤ f.w) {z : ℤ} {n : Nat} (hz : |(z : ℚ)| ^ n < 2 ^ f.p) :
    ∀ (b : Nat) (r a : Fl f) (j k : Nat), r.isFinite = true → r.toRat = (z : ℚ) ^ j → a.isFinite = true →
      a.toRat = (z : ℚ) ^ k → j + k * b ≤ n →
      (powiLoop r a b).isFinite = true ∧ (powiLoop r a b).toRat = (z : ℚ) ^ (j + k * b) := by
  have hle : ∀ i, i ≤ n → |(z : ℚ)| ^ i < 2 ^ f.p := by
    intro i hi
    rcases eq_or_ne z 0 with rfl | hz0
    · refine lt_of_le_of_lt ?_ (one_lt_pow₀ (by norm_num : (1 : ℚ) < 2) (by omega : f.p ≠ 0))
      exact pow_le_one₀ (abs_nonneg _) (by simp)
    · have hz1 : (1 : ℚ) ≤ |(z : ℚ)| := by exact_mod_cast Int.one_le_abs hz0
      exact lt_of_le_of_lt (pow_le_pow_right₀ hz1 hi) hz
  have hmul : ∀ {v w : Fl f} {i j : Nat}, v.isFinite = true → v.toRat = (z : ℚ) ^ i → w.isFinite = true →
      w.toRat = (z : ℚ) ^ j → i + j ≤ n → (v * w).isFinite = true ∧ (v * w).toRat = (z : ℚ) ^ (i + j) := by
    intro v w i j hv hvz hw' hwz hij
    have := int_mul hp hw hv hw' (a := z ^ i) (b := z ^ j) (by rw [hvz]; push_cast; rfl) (by rw [hwz]; push_cast; rfl) (by
      push_cast
      rw [← pow_add, abs_pow]
      exact hle _ hij)
    refine ⟨this.1, ?_⟩
    rw [this.2, pow_add]; push_cast; rfl
  intro b
  induction b using Nat.strong_induction_on with
  | _ b ih =>
    intro r a j k hr hrz ha haz hn
    rw [powiLoop]
    have hm := Nat.div_add_mod b 2
    by_cases hb2 : b / 2 = 0
    · simp only [if_pos hb2]
      by_cases h1 : b % 2 = 1
      · have hb1 : b = 1 := by omega
        rw [if_pos h1, hb1, mul_one]
        exact hmul hr hrz ha haz (by rw [hb1] at hn; omega)
      · have hb0 : b = 0 := by omega
        rw [if_neg h1, hb0, mul_zero, add_zero]; exact ⟨hr, hrz⟩
    · simp only [if_neg hb2]
      have hkb : 2 * k ≤ k * b := by
        rw [mul_comm]; exact Nat.mul_le_mul_left k (by omega)
      have haa := hmul ha haz ha haz (by omega)
      by_cases h1 : b % 2 = 1
      · rw [if_pos h1]
        have hra := hmul hr hrz ha haz (by omega)
        have e : j + k * b = j + k + (k + k) * (b / 2) := by
          conv_lhs => rw [← hm, h1]
          ring
        rw [e] at hn ⊢
        exact ih _ (by omega) _ _ _ _ hra.1 hra.2 haa.1 haa.2 hn
      · rw [if_neg h1]
        have e : j + k * b = j + (k + k) * (b / 2) := by
          conv_lhs => rw [← hm, show b % 2 = 0 by omega]
          ring
        rw [e] at hn ⊢
        exact ih _ (by omega) _ _ _ _ hr hrz haa.1 haa.2 hn

/-- C100: `powi` of a whole number is exact as long as the power is below `2^53` (`2^24`). -/
theorem C100_powi_exact (hp : 1 ≤ f.p) (hw : f.p + f.q ≤ f.w) (x : Fl f) (hx : x.isFinite = true) (z : ℤ) (hz : x.toRat = z)
    (n : Nat) (hn : n < 2 ^ 31) (h : |(z : ℚ)| ^ n < 2 ^ f.p) :
    (upowFl x n).isFinite = true ∧ (upowFl x n).toRat = z ^ n := by
  unfold upowFl powi
  rw [asI32_small hn]
  simp only [Int.natAbs_natCast, if_neg (not_lt.2 (Int.natCast_nonneg n))]
  have := powiLoop_int hp hw h n 1 x 0 1 rfl (by simp [toRat_one]) hx (by simpa using hz) (by omega)
  rwa [zero_add, one_mul] at this

/-- C100: the zeroth power is `1` for every base, NaN and infinities included; so is every power whose exponent is a
multiple of `2^32`. -/
theorem C100_powi_zero (x : Fl f) (n : Nat) (h : n % 2 ^ 32 = 0) : upowFl x n = 1 := by
  unfold upowFl powi asI32
  rw [h]
  simp only [Nat.zero_lt_succ, Nat.reducePow, Nat.ofNat_pos, if_true, Nat.cast_zero, Int.natAbs_zero, lt_irrefl, if_false]
  rw [powiLoop]; simp

section
/-- Powers by repeated squaring. -/
local instance sqPow : PowUsize (Fl f) := ⟨upowFl⟩

theorem eval_terms_finite (x : Fl f) : ∀ (l : List (Nat × Fl f)) (t : Fl f),
    (l.foldl (fun sum e => sum + e.2 * upow x e.1) t).isFinite = true →
    t.isFinite = true ∧ ∀ e ∈ l, (e.2 * upow x e.1).isFinite = true
  | [], t, h => ⟨h, by simp⟩
  | e :: l, t, h => by
    obtain ⟨h1, h2⟩ := eval_terms_finite x l _ h
    obtain ⟨h3, h4⟩ := finite_of_add h1
    refine ⟨h3, fun e' he' => ?_⟩
    rcases List.mem_cons.1 he' with rfl | he'
    · exact h4
    · exact h2 e' he'

/-- The condition on the powers for a smaller exponent. -/
theorem normal_mono (hp : 1 ≤ f.p) {x : ℚ} {m n : Nat} (hmn : m ≤ n)
    (hx : x = 0 ∨ minNormal f ≤ (1 - uro f) ^ n * min 1 (|x| ^ n)) :
    x = 0 ∨ minNormal f ≤ (1 - uro f) ^ m * min 1 (|x| ^ m) := by
  refine hx.imp_right fun h => h.trans ?_
  have hu := uro_nonneg (f := f)
  have hu1 := uro_lt_one hp
  have h1u : 0 < 1 - uro f := by linarith
  refine mul_le_mul (pow_le_pow_of_le_one h1u.le (by linarith) hmn) ?_ (by positivity) (pow_pos h1u _).le
  rcases le_total 1 |x| with h | h
  · rw [min_eq_left (one_le_pow₀ h), min_eq_left (one_le_pow₀ h)]
  · exact min_le_min le_rfl (pow_le_pow_of_le_one (abs_nonneg x) h hmn)

/-- C100: `eval` of a SparsePolynomial of degree at most `d` with `n` stored terms, with these powers: a finite result has
the error of `n + d + 1` roundings, relative to the sum of the absolute values of the terms. -/
theorem C100_sparse_eval (hp : 1 ≤ f.p) (p : Sparse (Fl f)) (x : Fl f) (d : Nat) (hd : d < 2 ^ 31)
    (hdeg : ∀ e ∈ p.terms.entries, e.1 ≤ d)
    (hx : x.toRat = 0 ∨ minNormal f ≤ (1 - uro f) ^ d * min 1 (|x.toRat| ^ d)) (h : (p.eval x).isFinite = true) :
    |(p.eval x).toRat - p.ratPoly.eval x.toRat| ≤
      ((1 + uro f) ^ (p.terms.entries.length + d + 1) - 1) * p.absPoly.eval |x.toRat| +
        p.terms.entries.length * (1 + uro f) ^ p.terms.entries.length * eta f := by
  have hu := uro_nonneg (f := f)
  have hfin := (eval_terms_finite x p.terms.entries 0 h).2
  have := C85_eval_error ((1 + uro f) ^ d - 1) (by linarith [one_le_pow₀ (n := d) (show 1 ≤ 1 + uro f by linarith)]) p x
    (fun e he => ?_) h
  · rwa [add_sub_cancel, ← pow_add, show p.terms.entries.length + 1 + d = p.terms.entries.length + d + 1 by omega] at this
  · have hed := hdeg e he
    refine (C100_powi_error hp x e.1 (by omega) (normal_mono hp hed hx) (finite_of_mul (hfin e he)).2).trans ?_
    refine mul_le_mul_of_nonneg_right ?_ (by positivity)
    have := pow_le_pow_right₀ (show 1 ≤ 1 + uro f by linarith) hed
    linarith

/-- C100: it is exact for a whole `x` and non-zero whole coefficients, as long as the sum of the absolute values of the terms
is below `2^53` (`2^24`). -/
theorem C100_sparse_eval_exact (hp : 1 ≤ f.p) (hw : f.p + f.q ≤ f.w) (p : Sparse (Fl f)) (x : Fl f)
    (hdeg : ∀ e ∈ p.terms.entries, e.1 < 2 ^ 31) (hx : x.isFinite = true) (z : ℤ) (hz : x.toRat = z)
    (hc : ∀ e ∈ p.terms.entries, e.2.isFinite = true ∧ ∃ n : ℤ, n ≠ 0 ∧ e.2.toRat = n)
    (h : p.absPoly.eval |x.toRat| < 2 ^ f.p) :
    (p.eval x).isFinite = true ∧ (p.eval x).toRat = p.ratPoly.eval x.toRat := by
  have hterm : ∀ (l : List (Nat × Fl f)), (∀ e ∈ l, |x.toRat| ^ e.1 ≤ |e.2.toRat| * |x.toRat| ^ e.1) → ∀ e ∈ l,
      |x.toRat| ^ e.1 ≤ (entriesPoly (l.map fun e => (e.1, |e.2.toRat|))).eval |x.toRat| := by
    intro l
    induction l with
    | nil => intro _ e he; cases he
    | cons a l ih =>
      intro hl e he
      rw [List.map_cons, entriesPoly_cons]
      have ha := hl a (List.mem_cons_self ..)
      have hpos : ∀ l : List (Nat × Fl f), 0 ≤ (entriesPoly (l.map fun e => (e.1, |e.2.toRat|))).eval |x.toRat| := by
        intro l
        induction l with
        | nil => simp
        | cons b l ih =>
          rw [List.map_cons, entriesPoly_cons]
          have : 0 ≤ |b.2.toRat| * |x.toRat| ^ b.1 := by positivity
          simp
          linarith
      have h0 := hpos l
      simp only [eval_add, eval_mul, eval_C, eval_pow, eval_X]
      rcases List.mem_cons.1 he with rfl | he
      · linarith
      · have := ih (fun e he => hl e (List.mem_cons_of_mem _ he)) e he
        have : 0 ≤ |a.2.toRat| * |x.toRat| ^ a.1 := by positivity
        linarith
  refine C85_eval_exact hp hw p x (fun e he => ?_) (fun e he => ?_) h
  · obtain ⟨h1, n, _, h2⟩ := hc e he
    exact ⟨h1, n, h2⟩
  · have hlt : |(z : ℚ)| ^ e.1 < 2 ^ f.p := by
      rw [← hz]
      refine lt_of_le_of_lt (hterm p.terms.entries (fun e he => ?_) e he) h
      obtain ⟨_, n, hn0, hn⟩ := hc e he
      rw [hn]
      have h1 : (1 : ℚ) ≤ |(n : ℚ)| := by exact_mod_cast Int.one_le_abs hn0
      exact le_mul_of_one_le_left (by positivity) h1
    obtain ⟨h1, h2⟩ := C100_powi_exact hp hw x hx z hz e.1 (hdeg e he) hlt
    refine ⟨h1, by rw [hz]; exact h2, z ^ e.1, ?_⟩
    rw [show (upow x e.1) = upowFl x e.1 from rfl, h2]; push_cast; rfl

/-- C100: without the condition that the stored coefficients are not zero this fails.  `(x^1100 + 7) - x^1100` keeps a zero
coefficient, and its value at `2` is NaN, for the zero is multiplied by an infinite power. -/
theorem C100_stored_zero_false :
    let p : Sparse (Fl binary64) := Sparse.sub (Sparse.new ((BMap.empty.insert 1100 1).insert 0 (Fl.ofNat 7)))
      (Sparse.new (BMap.empty.insert 1100 1))
    p.ratPoly = C 7 ∧ p.eval (Fl.ofNat 2) = .nan := by
  intro p
  have e : p.terms.entries = [(0, Fl.ofNat 7), (1100, 0)] := by decide +kernel
  have h7 : (Fl.ofNat 7 : Fl binary64).toRat = 7 := by decide +kernel
  refine ⟨?_, by decide +kernel⟩
  unfold Sparse.ratPoly
  rw [e]
  simp [h7]

/-- C100: `Monomial::eval` with these powers. -/
theorem C100_monomial_eval (hp : 1 ≤ f.p) (m : Monomial (Fl f)) (x : Fl f) (hd : m.deg < 2 ^ 31)
    (hx : x.toRat = 0 ∨ minNormal f ≤ (1 - uro f) ^ m.deg * min 1 (|x.toRat| ^ m.deg)) (h : (m.eval x).isFinite = true) :
    |(m.eval x).toRat - m.ratPoly.eval x.toRat| ≤
      ((1 + uro f) ^ (m.deg + 1) - 1) * |m.ratPoly.eval x.toRat| + eta f := by
  have := C86_monomial_eval m x ((1 + uro f) ^ m.deg - 1) (C100_powi_error hp x m.deg hd hx (finite_of_mul h).2) h
  rwa [add_sub_cancel, ← pow_succ'] at this

/-- C100: `Monomial::pow` with these powers. -/
theorem C100_monomial_pow (hp : 1 ≤ f.p) (m : Monomial (Fl f)) (n : Nat) (hn : n < 2 ^ 31)
    (hx : m.coefficient.toRat = 0 ∨ minNormal f ≤ (1 - uro f) ^ n * min 1 (|m.coefficient.toRat| ^ n))
    (h : (m.pow n).coefficient.isFinite = true) (k : Nat) :
    |((m.pow n).ratPoly - m.ratPoly ^ n).coeff k| ≤ ((1 + uro f) ^ n - 1) * |(m.ratPoly ^ n).coeff k| := by
  refine C86_monomial_pow _ m n ?_ k
  rw [abs_pow]
  exact C100_powi_error hp m.coefficient n hn hx h

-- `0.1^7`: the result is not exact, and the condition holds
example : let x : Fl binary64 := div 1 (ofNat 10)
    minNormal binary64 ≤ (1 - uro binary64) ^ 7 * min 1 (|x.toRat| ^ 7) ∧ (upowFl x 7).isFinite = true ∧
    (upowFl x 7).toRat ≠ x.toRat ^ 7 := by decide +kernel

-- `3x^2 - 5x^7` at `0.1`
example : let x : Fl binary64 := div 1 (ofNat 10)
    let p : Sparse (Fl binary64) := Sparse.new ((BMap.empty.insert 7 (-ofNat 5)).insert 2 (ofNat 3))
    (∀ e ∈ p.terms.entries, e.1 ≤ 7) ∧ (p.eval x).isFinite = true := by decide +kernel

-- `3^20` is exact
example : |((3 : ℤ) : ℚ)| ^ 20 < 2 ^ binary64.p ∧ upowFl (ofNat 3 : Fl binary64) 20 = ofNat (3 ^ 20) := by decide +kernel

-- an exponent from `2^31` on is taken for a negative one
example : upowFl (ofNat 2 : Fl binary64) (2 ^ 32 - 1) = div 1 (ofNat 2) ∧ upowFl (.nan : Fl binary64) 0 = 1 ∧
    upowFl (.nan : Fl binary64) 3 = .nan := by decide +kernel

end

end Fl

end Rustnomial
