import Verif.SpecFloatScale
import Verif.Props.FloatLaws
import Verif.Props.FloatRoots

/-!
# C127: scaling by powers of two in floating point
-/

namespace Rustnomial

theorem roundRat_cancel {p num den c : Nat} (hc : 0 < c) : roundRat p (num * c) (den * c) = roundRat p num den := by
  unfold roundRat
  simp only
  rw [Nat.mul_div_mul_right _ _ hc, show den * c * 2 ^ ((num / den).size - p) = den * 2 ^ ((num / den).size - p) * c by ring,
    Nat.mul_div_mul_right _ _ hc, Nat.mul_mod_mul_right]
  have h1 : ∀ d r : Nat, (2 * (r * c) > d * c) = (2 * r > d) := by
    intro d r
    rw [← mul_assoc]
    exact propext ⟨fun h => Nat.lt_of_mul_lt_mul_right h, fun h => Nat.mul_lt_mul_of_pos_right h hc⟩
  have h2 : ∀ d r : Nat, (2 * (r * c) = d * c) = (2 * r = d) := by
    intro d r
    rw [← mul_assoc]
    exact propext (Nat.mul_left_inj hc.ne')
  simp only [h1, h2]

theorem roundRat_ratio {p num den num' den' : Nat} (h : 0 < den) (h' : 0 < den') (he : num * den' = num' * den) :
    roundRat p num den = roundRat p num' den' := by
  rw [← roundRat_cancel (num := num) (den := den) h', ← roundRat_cancel (num := num') (den := den') h, he, mul_comm den den']

theorem size_mul_pow {a b k : Nat} (ha : 0 < a) (h1 : a * 2 ^ k ≤ b) (h2 : b < (a + 1) * 2 ^ k) : b.size = a.size + k := by
  have hs : 0 < a.size := Nat.size_pos.2 ha
  apply le_antisymm
  · rw [Nat.size_le, pow_add]
    have : a + 1 ≤ 2 ^ a.size := Nat.lt_size_self a
    exact h2.trans_le (Nat.mul_le_mul_right _ this)
  · have h3 : 2 ^ (a.size - 1) ≤ a := Nat.lt_size.1 (by omega)
    have : a.size + k - 1 < b.size := by
      rw [Nat.lt_size]
      calc 2 ^ (a.size + k - 1) = 2 ^ (a.size - 1) * 2 ^ k := by rw [← pow_add]; congr 1; omega
        _ ≤ a * 2 ^ k := Nat.mul_le_mul_right _ h3
        _ ≤ b := h1
    omega

/-- Rounding commutes with multiplication by a power of two, unless the number is so small that rounding it is limited by the units. -/
theorem roundRat_pow {p num den : Nat} (hp : 1 ≤ p) (hden : 0 < den) (k : Nat) (h : den ∣ num ∨ 2 ^ (p - 1) ≤ num / den) :
    roundRat p (num * 2 ^ k) den = roundRat p num den * 2 ^ k := by
  by_cases hl : 2 ^ (p - 1) ≤ num / den
  · have hpos : 0 < num / den := lt_of_lt_of_le (by positivity) hl
    have hsz : p ≤ (num / den).size := by have := Nat.lt_size.2 hl; omega
    have hsize : (num * 2 ^ k / den).size = (num / den).size + k := by
      apply size_mul_pow hpos
      · rw [Nat.le_div_iff_mul_le hden]
        calc num / den * 2 ^ k * den = num / den * den * 2 ^ k := by ring
          _ ≤ num * 2 ^ k := Nat.mul_le_mul_right _ (Nat.div_mul_le_self _ _)
      · rw [Nat.div_lt_iff_lt_mul hden]
        have : num < (num / den + 1) * den := by
          rw [mul_comm]; exact Nat.lt_mul_div_succ num hden
        calc num * 2 ^ k < (num / den + 1) * den * 2 ^ k := Nat.mul_lt_mul_of_pos_right this (by positivity)
          _ = _ := by ring
    have hk : 0 < 2 ^ k := by positivity
    unfold roundRat
    simp only
    rw [hsize, show (num / den).size + k - p = ((num / den).size - p) + k by omega, pow_add, ← mul_assoc den, Nat.mul_div_mul_right _ _ hk,
      Nat.mul_mod_mul_right]
    have h1 : ∀ d r : Nat, (2 * (r * 2 ^ k) > d * 2 ^ k) = (2 * r > d) := by
      intro d r
      rw [← mul_assoc]
      exact propext ⟨fun h => Nat.lt_of_mul_lt_mul_right h, fun h => Nat.mul_lt_mul_of_pos_right h hk⟩
    have h2 : ∀ d r : Nat, (2 * (r * 2 ^ k) = d * 2 ^ k) = (2 * r = d) := by
      intro d r
      rw [← mul_assoc]
      exact propext (Nat.mul_left_inj hk.ne')
    simp only [h1, h2]
    split <;> ring
  · obtain ⟨n, rfl⟩ := h.resolve_right hl
    rw [Nat.mul_div_cancel_left _ hden] at hl
    have hrep : Representable p n := representable_of_lt ((not_le.1 hl).trans_le (Nat.pow_le_pow_right (by norm_num) (by omega)))
    have hrep' : Representable p (n * 2 ^ k) := by
      obtain ⟨a, e, ha, he⟩ := hrep
      exact ⟨a, e + k, ha, by rw [he, pow_add, mul_assoc]⟩
    have e1 : ∀ m, roundRat p (den * m) den = roundRat p m 1 := fun m => roundRat_ratio hden one_pos (by ring)
    rw [mul_assoc, e1, e1, roundRat_one, roundRat_one, roundNat_of_representable hrep, roundNat_of_representable hrep']

/-- The rounded square root is not below a power of two that the root is not below. -/
theorem roundSqrt_ge {p m e : Nat} (hp : 1 ≤ p) (h : (2 : ℝ) ^ e ≤ √(m : ℝ)) : 2 ^ e ≤ roundSqrt p m := by
  have hrep : Representable p (2 ^ e) := ⟨1, e, Nat.one_lt_two_pow (by omega), by simp⟩
  have hn := roundSqrt_nearest (n := m) hp hrep
  push_cast at hn
  rw [abs_of_nonpos (a := (2 : ℝ) ^ e - √(m : ℝ)) (by linarith)] at hn
  have h1 : √(m : ℝ) - roundSqrt p m ≤ √(m : ℝ) - 2 ^ e := by
    have := neg_abs_le ((roundSqrt p m : ℝ) - √(m : ℝ))
    linarith
  have : (2 : ℝ) ^ e ≤ roundSqrt p m := by linarith
  exact_mod_cast this

/-- The rounded square root of `4^k` times a number is `2^k` times that of the number. -/
theorem roundSqrt_pow {p m : Nat} (hp : 1 ≤ p) (hm : 2 ^ (2 * p) ≤ m) (k : Nat) : roundSqrt p (m * 4 ^ k) = roundSqrt p m * 2 ^ k := by
  set R := roundSqrt p m with hR
  set S := roundSqrt p (m * 4 ^ k) with hS
  have hk : (0 : ℝ) < 2 ^ k := by positivity
  have hroot : √((m * 4 ^ k : Nat) : ℝ) = √(m : ℝ) * 2 ^ k := by
    push_cast
    rw [Real.sqrt_mul (by positivity), show (4 : ℝ) ^ k = (2 ^ k) ^ 2 by rw [← pow_mul, mul_comm, pow_mul]; norm_num, Real.sqrt_sq hk.le]
  have low : (2 : ℝ) ^ p ≤ √(m : ℝ) := by
    apply Real.le_sqrt_of_sq_le
    rw [← pow_mul, mul_comm]
    exact_mod_cast hm
  have hS2 : 2 ^ (p + k) ≤ S := roundSqrt_ge hp (by rw [hroot, pow_add]; exact mul_le_mul_of_nonneg_right low hk.le)
  have hRpos : 0 < R := lt_of_lt_of_le (by positivity) (roundSqrt_ge hp low)
  obtain ⟨a, e, ha, hRe⟩ : Representable p R := representable_roundSqrt hp
  have hrepR : Representable p (R * 2 ^ k) := ⟨a, e + k, ha, by rw [hRe, pow_add, mul_assoc]⟩
  obtain ⟨T, hT, hrepT⟩ : ∃ T, S = T * 2 ^ k ∧ Representable p T := by
    obtain ⟨b, e', hb, hSe⟩ : Representable p S := representable_roundSqrt hp
    have hle : k ≤ e' := by
      by_contra hc
      have : b * 2 ^ e' < 2 ^ p * 2 ^ k := Nat.mul_lt_mul_of_lt_of_le hb (Nat.pow_le_pow_right (by norm_num) (by omega)) (by positivity)
      rw [pow_add] at hS2
      omega
    exact ⟨b * 2 ^ (e' - k), by rw [hSe, mul_assoc, ← pow_add]; congr 2; omega, b, _, hb, rfl⟩
  have n1 : |(T : ℝ) - √(m : ℝ)| ≤ |(R : ℝ) - √(m : ℝ)| := by
    have := roundSqrt_nearest (n := m * 4 ^ k) hp hrepR
    rw [← hS, hroot, hT] at this
    push_cast at this
    rw [← sub_mul, ← sub_mul, abs_mul, abs_mul] at this
    exact le_of_mul_le_mul_right this (by positivity)
  have n2 : |(R : ℝ) - √(m : ℝ)| ≤ |(T : ℝ) - √(m : ℝ)| := roundSqrt_nearest hp hrepT
  have heq := le_antisymm n1 n2
  rw [hT]
  congr 1
  by_contra hne
  have all : ∀ t, 2 ^ t ∣ R := by
    intro t
    induction t with
    | zero => simp
    | succ t ih =>
      have h1 : 2 ^ (t + k + 1) ∣ S := by
        refine roundSqrt_tie hp hrepR ?_ ?_ (t + k) ?_
        · rw [← hS, hT]
          intro h
          exact hne (Nat.eq_of_mul_eq_mul_right (by positivity) h).symm
        · rw [← hS, hroot, hT]
          push_cast
          rw [← sub_mul, ← sub_mul, abs_mul, abs_mul, heq]
        · rw [pow_add]; exact Nat.mul_dvd_mul_right ih _
      have h2 : 2 ^ (t + 1) ∣ T := by
        rw [hT, show t + k + 1 = t + 1 + k by omega, pow_add] at h1
        exact Nat.dvd_of_mul_dvd_mul_right (by positivity) h1
      exact (pow_dvd_pow 2 (by omega)).trans (roundSqrt_tie hp hrepT hne heq _ h2)
  exact absurd (Nat.le_of_dvd hRpos (all R)) (not_le.2 Nat.lt_two_pow_self)

namespace Fl
variable {f : FlFmt}

theorem toRat_units (s : Bool) (a : Nat) : (fin s a : Fl f).toRat = (if s then (-1 : ℚ) else 1) * (a / 2 ^ f.q) := rfl

theorem noUnderflow_units {s : Bool} {num den : Nat} (hp : 1 ≤ f.p) (hden : 0 < den)
    (h : NoUnderflow f ((if s then (-1 : ℚ) else 1) * (num / den / 2 ^ f.q))) : den ∣ num ∨ 2 ^ (f.p - 1) ≤ num / den := by
  have hq : (0 : ℚ) < 2 ^ f.q := by positivity
  have hd : (0 : ℚ) < den := by exact_mod_cast hden
  have hs : (if s then (-1 : ℚ) else 1) ≠ 0 := by cases s <;> simp
  rcases h with h | h | ⟨n, h⟩
  · left
    have : (num : ℚ) = 0 := by
      rcases mul_eq_zero.1 h with h | h
      · exact absurd h hs
      · rwa [div_eq_zero_iff, or_iff_left hq.ne', div_eq_zero_iff, or_iff_left hd.ne'] at h
    rw [show num = 0 by exact_mod_cast this]
    exact dvd_zero _
  · right
    rw [Nat.le_div_iff_mul_le hden]
    rw [abs_mul, sign_abs, one_mul, abs_of_nonneg (by positivity), minNormal, div_right_comm, div_le_div_iff_of_pos_right hq,
      show (2 : ℚ) ^ f.p / 2 = 2 ^ (f.p - 1) by rw [div_eq_iff (by norm_num), ← pow_succ]; congr 1; omega, le_div_iff₀ hd] at h
    exact_mod_cast h
  · left
    have h2 : (num : ℚ) = |(n : ℚ)| * den := by
      rw [← h, abs_mul, abs_mul, sign_abs, one_mul, abs_of_pos hq, abs_of_nonneg (by positivity)]
      field_simp
    refine ⟨n.natAbs, ?_⟩
    have : (num : ℚ) = ((den * n.natAbs : Nat) : ℚ) := by
      rw [h2]; push_cast; rw [Nat.cast_natAbs, Int.cast_abs, mul_comm]
    exact_mod_cast this

theorem rounded_scale_nat {r r' : Fl f} {v : ℚ} (hp : 1 ≤ f.p) (n : Nat) (h : Rounded r v) (h' : Rounded r' (2 ^ n * v)) (hu : NoUnderflow f v) :
    r'.toRat = 2 ^ n * r.toRat := by
  obtain ⟨s, num, den, hden, rfl, rfl⟩ := h
  obtain ⟨s', num', den', hden', rfl, hv⟩ := h'
  have hq : (0 : ℚ) < 2 ^ f.q := by positivity
  have hd : (0 : ℚ) < den := by exact_mod_cast hden
  have hd' : (0 : ℚ) < den' := by exact_mod_cast hden'
  have habs : (num * 2 ^ n : ℚ) * den' = num' * den := by
    have := congrArg (|·|) hv
    simp only [abs_mul, sign_abs, one_mul, abs_of_nonneg (show (0 : ℚ) ≤ 2 ^ n by positivity)] at this
    rw [abs_of_nonneg (by positivity), abs_of_nonneg (by positivity)] at this
    field_simp at this
    linarith
  have e : roundRat f.p num' den' = roundRat f.p num den * 2 ^ n := by
    rw [← roundRat_pow hp hden n (noUnderflow_units hp hden hu)]
    exact (roundRat_ratio hden hden' (by exact_mod_cast habs)).symm
  rw [toRat_units, toRat_units, e]
  push_cast
  by_cases hn : num = 0
  · subst hn
    rw [roundRat_zero]
    simp
  · have hss : s = s' := by
      have hnp : (0 : ℚ) < num := by exact_mod_cast Nat.pos_of_ne_zero hn
      have h1 : (0 : ℚ) < 2 ^ n * (num / den / 2 ^ f.q) := by positivity
      have h2 : (0 : ℚ) ≤ num' / den' / 2 ^ f.q := by positivity
      cases s <;> cases s' <;> simp at hv ⊢ <;> linarith
    subst hss
    ring

/-- The numbers nearest to `v` and to `2^k * v` are in the same ratio. -/
theorem rounded_scale {r r' : Fl f} {v : ℚ} (hp : 1 ≤ f.p) (k : ℤ) (h : Rounded r v) (h' : Rounded r' (2 ^ k * v)) (hu : NoUnderflow f v)
    (hu' : NoUnderflow f (2 ^ k * v)) : r'.toRat = 2 ^ k * r.toRat := by
  rcases Int.eq_nat_or_neg k with ⟨n, rfl | rfl⟩
  · rw [zpow_natCast] at h' ⊢
    exact rounded_scale_nat hp n h h' hu
  · have h2 : (2 : ℚ) ^ n ≠ 0 := by positivity
    have e : (2 : ℚ) ^ n * (2 ^ (-n : ℤ) * v) = v := by rw [zpow_neg, zpow_natCast, ← mul_assoc, mul_inv_cancel₀ h2, one_mul]
    have := rounded_scale_nat hp n h' (by rwa [e]) hu'
    rw [this, zpow_neg, zpow_natCast, ← mul_assoc, inv_mul_cancel₀ h2, one_mul]

theorem two_zpow_ne (k : ℤ) : (2 : ℚ) ^ k ≠ 0 := by positivity

theorem units_whole {x : Fl f} : ∃ n : ℤ, x.toRat * 2 ^ f.q = n := by
  have hq : (2 : ℚ) ^ f.q ≠ 0 := by positivity
  cases x with
  | fin s a =>
    refine ⟨if s then -a else a, ?_⟩
    rw [toRat_units, mul_assoc, div_mul_cancel₀ _ hq]
    cases s <;> simp
  | _ => exact ⟨0, by simp [toRat]⟩

/-- A sum or difference of floats never underflows. -/
theorem noUnderflow_add (x y : Fl f) : NoUnderflow f (x.toRat + y.toRat) := by
  obtain ⟨m, hm⟩ := units_whole (x := x)
  obtain ⟨n, hn⟩ := units_whole (x := y)
  exact .inr (.inr ⟨m + n, by rw [add_mul, hm, hn]; push_cast; rfl⟩)

/-- A product with a whole number never underflows. -/
theorem noUnderflow_whole (x : Fl f) (n : ℤ) : NoUnderflow f (x.toRat * n) := by
  obtain ⟨m, hm⟩ := units_whole (x := x)
  exact .inr (.inr ⟨m * n, by rw [mul_right_comm, hm]; push_cast; rfl⟩)

/-- **C127.** The sum of two floats multiplied by `2^k` is `2^k` times their sum, unless one of the sums overflows. -/
theorem C127_add (hp : 1 ≤ f.p) {k : ℤ} {x y x' y' : Fl f} (h : Scaled k x x') (h' : Scaled k y y') (hf : (x + y).isFinite = true)
    (hf' : (x' + y').isFinite = true) : Scaled k (x + y) (x' + y') := by
  refine ⟨hf, hf', ?_⟩
  have e : x'.toRat + y'.toRat = 2 ^ k * (x.toRat + y.toRat) := by rw [h.2.2, h'.2.2, mul_add]
  exact rounded_scale hp k (rounded_add hf) (by rw [← e]; exact rounded_add hf') (noUnderflow_add _ _) (by rw [← e]; exact noUnderflow_add _ _)

theorem Scaled.neg {k : ℤ} {x x' : Fl f} (h : Scaled k x x') : Scaled k (-x) (-x') := by
  refine ⟨by rw [isFinite_neg, h.1], by rw [isFinite_neg, h.2.1], ?_⟩
  rw [toRat_neg, toRat_neg, h.2.2, mul_neg]

/-- **C127.** The same for differences. -/
theorem C127_sub (hp : 1 ≤ f.p) {k : ℤ} {x y x' y' : Fl f} (h : Scaled k x x') (h' : Scaled k y y') (hf : (x - y).isFinite = true)
    (hf' : (x' - y').isFinite = true) : Scaled k (x - y) (x' - y') := C127_add hp h h'.neg hf hf'

/-- **C127.** The product of floats multiplied by `2^j` and `2^k` is `2^(j+k)` times their product, unless one of the products overflows or
underflows. -/
theorem C127_mul (hp : 1 ≤ f.p) {j k : ℤ} {x y x' y' : Fl f} (h : Scaled j x x') (h' : Scaled k y y') (hf : (x * y).isFinite = true)
    (hf' : (x' * y').isFinite = true) (hu : NoUnderflow f (x.toRat * y.toRat)) (hu' : NoUnderflow f (x'.toRat * y'.toRat)) :
    Scaled (j + k) (x * y) (x' * y') := by
  refine ⟨hf, hf', ?_⟩
  have e : x'.toRat * y'.toRat = 2 ^ (j + k) * (x.toRat * y.toRat) := by rw [h.2.2, h'.2.2, zpow_add₀ (by norm_num)]; ring
  rw [e] at hu'
  exact rounded_scale hp _ (rounded_mul hf) (by rw [← e]; exact rounded_mul hf') hu hu'

theorem Scaled.isZero {k : ℤ} {x x' : Fl f} (h : Scaled k x x') : isZero x = isZero x' := by
  rw [Bool.eq_iff_iff, isZero_iff_toRat h.1, isZero_iff_toRat h.2.1, h.2.2]
  simp [two_zpow_ne]

/-- **C127.** The same for quotients. -/
theorem C127_div (hp : 1 ≤ f.p) {j k : ℤ} {x y x' y' : Fl f} (h : Scaled j x x') (h' : Scaled k y y') (h0 : y.toRat ≠ 0)
    (hf : (div x y).isFinite = true) (hf' : (div x' y').isFinite = true) (hu : NoUnderflow f (x.toRat / y.toRat))
    (hu' : NoUnderflow f (x'.toRat / y'.toRat)) : Scaled (j - k) (div x y) (div x' y') := by
  refine ⟨hf, hf', ?_⟩
  have h0' : y'.toRat ≠ 0 := by rw [h'.2.2]; exact mul_ne_zero (two_zpow_ne k) h0
  have e : x'.toRat / y'.toRat = 2 ^ (j - k) * (x.toRat / y.toRat) := by
    rw [h.2.2, h'.2.2, zpow_sub₀ (by norm_num)]
    have := two_zpow_ne k
    field_simp
  rw [e] at hu'
  exact rounded_scale hp _ (rounded_div h.1 h'.1 h0 hf) (by rw [← e]; exact rounded_div h.2.1 h'.2.1 h0' hf') hu hu'

theorem sqrt_scale_nat (hp : 1 ≤ f.p) (hq : 2 * f.p ≤ f.q) {n : Nat} {x x' r r' : Fl f} (h : x.isFinite = true) (hx' : x'.isFinite = true)
    (he : x'.toRat = 2 ^ (2 * n) * x.toRat) (hr : absSqrt x = .ok r) (hr' : absSqrt x' = .ok r') (hf : r.isFinite = true) (hf' : r'.isFinite = true) :
    r'.toRat = 2 ^ n * r.toRat := by
  obtain ⟨s, a, rfl⟩ := isFinite_iff.1 h
  obtain ⟨s', a', rfl⟩ := isFinite_iff.1 hx'
  rw [absSqrt_fin] at hr hr'
  cases hr
  cases hr'
  rw [toRat_pack hf, toRat_pack hf']
  have e : a' = a * 4 ^ n := by
    have h1 := congrArg (|·|) he
    simp only [abs_mul] at h1
    rw [abs_toRat, abs_toRat, abs_of_nonneg (by positivity), pow_mul] at h1
    have hq : (2 : ℚ) ^ f.q ≠ 0 := by positivity
    field_simp at h1
    have : (a' : ℚ) = ((a * 4 ^ n : Nat) : ℚ) := by
      rw [h1]; push_cast; norm_num; ring
    exact_mod_cast this
  have e2 : roundSqrt f.p (a' * 2 ^ f.q) = roundSqrt f.p (a * 2 ^ f.q) * 2 ^ n := by
    rcases Nat.eq_zero_or_pos a with rfl | ha
    · rw [e]
      simp [roundSqrt, roundRat_zero]
    · rw [e, mul_right_comm]
      refine roundSqrt_pow hp ?_ n
      calc 2 ^ (2 * f.p) ≤ 2 ^ f.q := Nat.pow_le_pow_right (by norm_num) hq
        _ ≤ a * 2 ^ f.q := Nat.le_mul_of_pos_left _ ha
  rw [e2]
  push_cast
  simp
  ring

/-- **C127.** The square root of `4^k` times a float is `2^k` times its square root. -/
theorem C127_sqrt (hp : 1 ≤ f.p) (hq : 2 * f.p ≤ f.q) {k : ℤ} {x x' r r' : Fl f} (h : Scaled (2 * k) x x') (hr : absSqrt x = .ok r)
    (hr' : absSqrt x' = .ok r') (hf : r.isFinite = true) (hf' : r'.isFinite = true) : Scaled k r r' := by
  refine ⟨hf, hf', ?_⟩
  obtain ⟨h1, h2, h3⟩ := h
  rcases Int.eq_nat_or_neg k with ⟨n, rfl | rfl⟩
  · rw [zpow_natCast]
    exact sqrt_scale_nat hp hq h1 h2 (by rw [h3]; norm_cast) hr hr' hf hf'
  · have h4 : (2 : ℚ) ^ n ≠ 0 := by positivity
    have := sqrt_scale_nat hp hq (n := n) h2 h1 (by
      rw [h3, mul_neg, zpow_neg, ← mul_assoc, show ((2 : ℚ) ^ (2 * (n : ℤ))) = 2 ^ (2 * n) by norm_cast, mul_inv_cancel₀ (by positivity), one_mul])
      hr' hr hf' hf
    rw [this, zpow_neg, zpow_natCast, ← mul_assoc, inv_mul_cancel₀ h4, one_mul]

/-! ## Polynomials -/

theorem SameNum.fin_eq {x y : Fl f} (h : SameNum x y) : x.isFinite = y.isFinite ∧ x.toRat = y.toRat := by
  rcases h with rfl | ⟨⟨s, rfl⟩, ⟨t, rfl⟩⟩
  · exact ⟨rfl, rfl⟩
  · exact ⟨rfl, by simp [toRat]⟩

theorem Scaled.congr {k : ℤ} {x y x' y' : Fl f} (h : Scaled k x y) (hx : SameNum x x') (hy : SameNum y y') : Scaled k x' y' :=
  ⟨hx.fin_eq.1 ▸ h.1, hy.fin_eq.1 ▸ h.2.1, by rw [← hx.fin_eq.2, ← hy.fin_eq.2, h.2.2]⟩

theorem Scaled.zeros (k : ℤ) : Scaled k (0 : Fl f) 0 := ⟨rfl, rfl, by rw [toRat_zero]; simp⟩

theorem coeffOf_snoc (l : List (Fl f)) (c : Fl f) : coeffOf ⟨l ++ [c]⟩ 0 = c ∧ ∀ i, coeffOf ⟨l ++ [c]⟩ (i + 1) = coeffOf ⟨l⟩ i := by
  constructor
  · rw [coeffOf_append]; simp [coeffOf]
  · intro i
    rw [coeffOf_append, if_neg (by simp)]; simp

theorem eval_snoc (l : List (Fl f)) (c : Fl f) {x : Fl f} (hx : isZero x = false) :
    (⟨l ++ [c]⟩ : Poly (Fl f)).eval x = (if l = [] then 0 else (⟨l⟩ : Poly (Fl f)).eval x * x) + c := by
  have h1 : ∀ l : List (Fl f), l ≠ [] → l.foldl (fun sum val => (sum + val) * x) 0 = (⟨l⟩ : Poly (Fl f)).eval x * x := by
    intro l hl
    obtain ⟨l', d, rfl⟩ := (List.eq_nil_or_concat l).resolve_left hl
    unfold Poly.eval
    simp [hx]
  have h2 : (⟨l ++ [c]⟩ : Poly (Fl f)).eval x = l.foldl (fun sum val => (sum + val) * x) 0 + c := by
    unfold Poly.eval
    simp only [List.getLast?_append, List.getLast?_singleton, Option.some_or, hx, Bool.false_eq_true, if_false, List.dropLast_concat]
  rw [h2]
  split
  · rename_i h; rw [h]; rfl
  · rename_i h; rw [h1 l h]

theorem upper_snoc (l : List (Fl f)) (c : Fl f) (d : Nat) : upper ⟨l ++ [c]⟩ (d + 1) = upper ⟨l⟩ d := by
  unfold upper
  simp only [List.length_append, List.length_singleton, Poly.mk.injEq]
  rw [show l.length + 1 - (d + 1) = l.length - d by omega, List.take_append_of_le_length (by omega)]

theorem upper_zero (p : Poly (Fl f)) : upper p 0 = p := by
  unfold upper; simp

theorem eval_scaled (hp : 1 ≤ f.p) {j : ℤ} {x y : Fl f} (hx : Scaled (-j) x y) (hz : isZero x = false) (l : List (Fl f)) :
    ∀ (l' : List (Fl f)) (k : ℤ), l.length = l'.length → ScaledPoly k j ⟨l⟩ ⟨l'⟩ → ((⟨l⟩ : Poly (Fl f)).eval x).isFinite = true →
      ((⟨l'⟩ : Poly (Fl f)).eval y).isFinite = true →
      (∀ d, 1 ≤ d → NoUnderflow f (((upper ⟨l⟩ d).eval x).toRat * x.toRat)) →
      (∀ d, 1 ≤ d → NoUnderflow f (((upper ⟨l'⟩ d).eval y).toRat * y.toRat)) →
      Scaled k ((⟨l⟩ : Poly (Fl f)).eval x) ((⟨l'⟩ : Poly (Fl f)).eval y) := by
  have hz' : isZero y = false := hx.isZero ▸ hz
  induction l using List.reverseRecOn with
  | nil =>
    intro l' k hl _ _ _ _ _
    rw [List.length_nil, eq_comm, List.length_eq_zero_iff] at hl
    subst hl
    exact Scaled.zeros k
  | append_singleton l c ih =>
    intro l2 k hl hs hf hf' hu hu'
    obtain ⟨l', c', rfl⟩ : ∃ l' c', l2 = l' ++ [c'] := by
      rcases List.eq_nil_or_concat l2 with rfl | ⟨l', c', rfl⟩
      · simp at hl
      · exact ⟨l', c', by simp⟩
    have hl : l.length = l'.length := by simpa using hl
    have hc : Scaled k c c' := by
      have := hs 0
      rwa [(coeffOf_snoc l c).1, (coeffOf_snoc l' c').1, Nat.cast_zero, mul_zero, add_zero] at this
    rw [eval_snoc l c hz] at hf ⊢
    rw [eval_snoc l' c' hz'] at hf' ⊢
    refine C127_add hp ?_ hc hf hf'
    by_cases hn : l = []
    · subst hn
      rw [List.length_nil, eq_comm, List.length_eq_zero_iff] at hl
      subst hl
      exact Scaled.zeros k
    · have hn' : l' ≠ [] := by rintro rfl; simp at hl; exact hn hl
      rw [if_neg hn] at hf ⊢
      rw [if_neg hn'] at hf' ⊢
      have e1 := (finite_of_add hf).1
      have e2 := (finite_of_add hf').1
      have hrec := ih l' (k + j) hl (fun i => by
        have := hs (i + 1)
        rw [(coeffOf_snoc l c).2, (coeffOf_snoc l' c').2] at this
        rw [show k + j + j * i = k + j * ((i + 1 : Nat) : ℤ) by push_cast; ring]
        exact this) (finite_of_mul e1).1 (finite_of_mul e2).1
        (fun d hd => by have := hu (d + 1) (by omega); rwa [upper_snoc] at this)
        (fun d hd => by have := hu' (d + 1) (by omega); rwa [upper_snoc] at this)
      have := C127_mul hp hrec hx e1 e2 (by have := hu 1 le_rfl; rwa [upper_snoc, upper_zero] at this)
        (by have := hu' 1 le_rfl; rwa [upper_snoc, upper_zero] at this)
      rwa [show k + j + -j = k by ring] at this

theorem coeffOf_pad (m : Nat) (p : Poly (Fl f)) (i : Nat) : coeffOf ⟨List.replicate m 0 ++ p.terms⟩ i = coeffOf p i := by
  rw [coeffOf_append]
  split
  · rfl
  · rw [coeffOf_replicate, show coeffOf p i = 0 from coeffOf_ge _ (by omega)]

theorem coeffOf_upper (p : Poly (Fl f)) (d i : Nat) : coeffOf (upper p d) i = coeffOf p (i + d) := by
  unfold upper coeffOf
  simp only [List.getD_eq_getElem?_getD]
  congr 1
  by_cases h : i + d < p.terms.length
  · rw [List.getElem?_reverse (by rw [List.length_take]; omega), List.getElem?_reverse h, List.length_take, List.getElem?_take, if_pos (by omega)]
    congr 1
    omega
  · rw [List.getElem?_eq_none (by rw [List.length_reverse, List.length_take]; omega), List.getElem?_eq_none (by rw [List.length_reverse]; omega)]

theorem upper_pad (m d : Nat) (p : Poly (Fl f)) {x : Fl f} (hx : x.isFinite = true) :
    ((upper ⟨List.replicate m 0 ++ p.terms⟩ d).eval x).toRat = ((upper p d).eval x).toRat :=
  ((C115_same _ _ fun i => .of_eq (by rw [coeffOf_upper, coeffOf_upper, coeffOf_pad])).2.2.2.2 x hx).fin_eq.2

/-- **C127.** Evaluation: if every coefficient of `x^i` is multiplied by `2^(k + j*i)` and the point by `2^-j`, the computed value is multiplied
by `2^k` exactly, unless one of the values overflows or a product on the way underflows. -/
theorem C127_eval (hp : 1 ≤ f.p) {k j : ℤ} {p q : Poly (Fl f)} (h : ScaledPoly k j p q) {x y : Fl f} (hx : Scaled (-j) x y)
    (hf : (p.eval x).isFinite = true) (hf' : (q.eval y).isFinite = true)
    (hu : ∀ d, 1 ≤ d → NoUnderflow f (((upper p d).eval x).toRat * x.toRat))
    (hu' : ∀ d, 1 ≤ d → NoUnderflow f (((upper q d).eval y).toRat * y.toRat)) : Scaled k (p.eval x) (q.eval y) := by
  by_cases hz : isZero x = true
  · have hz' : isZero y = true := hx.isZero ▸ hz
    rw [eval_zero p hz, eval_zero q hz']
    have := h 0
    rwa [Nat.cast_zero, mul_zero, add_zero] at this
  · have pad : ∀ (m : Nat) (r : Poly (Fl f)) (z : Fl f), z.isFinite = true →
        SameNum ((⟨List.replicate m 0 ++ r.terms⟩ : Poly (Fl f)).eval z) (r.eval z) :=
      fun m r z hz => (C115_same _ _ fun i => .of_eq (coeffOf_pad m r i)).2.2.2.2 z hz
    have e1 := pad (q.terms.length - p.terms.length) p x hx.1
    have e2 := pad (p.terms.length - q.terms.length) q y hx.2.1
    refine (eval_scaled hp hx (by simpa using hz) (List.replicate (q.terms.length - p.terms.length) 0 ++ p.terms)
      (List.replicate (p.terms.length - q.terms.length) 0 ++ q.terms) k ?_ ?_ ?_ ?_ ?_ ?_).congr e1 e2
    · simp only [List.length_append, List.length_replicate]; omega
    · intro i; rw [coeffOf_pad, coeffOf_pad]; exact h i
    · rw [e1.fin_eq.1]; exact hf
    · rw [e2.fin_eq.1]; exact hf'
    · intro d hd; rw [upper_pad _ _ _ hx.1]; exact hu d hd
    · intro d hd; rw [upper_pad _ _ _ hx.2.1]; exact hu' d hd

/-- **C127.** At a whole number nothing can underflow: multiplying all coefficients by `2^k` multiplies the computed value by `2^k`, unless it
overflows. -/
theorem C127_eval_whole (hp : 1 ≤ f.p) {k : ℤ} {p q : Poly (Fl f)} (h : ScaledPoly k 0 p q) {x : Fl f} {n : ℤ} (hx : x.isFinite = true)
    (hn : x.toRat = n) (hf : (p.eval x).isFinite = true) (hf' : (q.eval x).isFinite = true) : Scaled k (p.eval x) (q.eval x) := by
  refine C127_eval hp h ⟨hx, hx, by simp⟩ hf hf' (fun d _ => ?_) fun d _ => ?_
  · rw [hn]; exact noUnderflow_whole _ n
  · rw [hn]; exact noUnderflow_whole _ n

theorem coeffOf_mem (p : Poly (Fl f)) (i : Nat) : coeffOf p i ∈ p.terms ∨ coeffOf p i = 0 := by
  unfold coeffOf
  rw [List.getD_eq_getElem?_getD]
  cases e : p.terms.reverse[i]? with
  | none => exact .inr rfl
  | some c => exact .inl (by simpa using List.mem_of_getElem? e)

theorem coeffOf_finite {p : Poly (Fl f)} (h : ∀ c ∈ p.terms, c.isFinite = true) (i : Nat) : (coeffOf p i).isFinite = true := by
  rcases coeffOf_mem p i with e | e
  · exact h _ e
  · rw [e]; rfl

/-- **C127.** Sums, differences and negation of polynomials scale with them, unless a coefficient overflows. -/
theorem C127_sum (hp : 1 ≤ f.p) {k j : ℤ} {p q p' q' : Poly (Fl f)} (h : ScaledPoly k j p p') (h' : ScaledPoly k j q q') (hv : AllValid p)
    (hv' : AllValid p') (hw : AllValid q) (hw' : AllValid q') :
    (∃ r r', p.add q = .ok r ∧ p'.add q' = .ok r' ∧ ((∀ c ∈ r.terms, c.isFinite = true) → (∀ c ∈ r'.terms, c.isFinite = true) →
      ScaledPoly k j r r')) ∧
    (∃ r r', p.sub q = .ok r ∧ p'.sub q' = .ok r' ∧ ((∀ c ∈ r.terms, c.isFinite = true) → (∀ c ∈ r'.terms, c.isFinite = true) →
      ScaledPoly k j r r')) ∧
    ScaledPoly k j p.neg p'.neg := by
  refine ⟨?_, ?_, fun i => ((h i).neg).congr (C115_neg_coeff p i).symm (C115_neg_coeff p' i).symm⟩
  · obtain ⟨r, e, hr⟩ := (C115_add_coeff hp p q hv hw).1
    obtain ⟨r', e', hr'⟩ := (C115_add_coeff hp p' q' hv' hw').1
    refine ⟨r, r', e, e', fun hf hf' i => ?_⟩
    exact (C127_add hp (h i) (h' i) ((hr i).fin_eq.1 ▸ coeffOf_finite hf i) ((hr' i).fin_eq.1 ▸ coeffOf_finite hf' i)).congr (hr i).symm (hr' i).symm
  · obtain ⟨r, e, hr⟩ := (C115_sub_coeff hp p q hv hw).1
    obtain ⟨r', e', hr'⟩ := (C115_sub_coeff hp p' q' hv' hw').1
    refine ⟨r, r', e, e', fun hf hf' i => ?_⟩
    exact (C127_sub hp (h i) (h' i) ((hr i).fin_eq.1 ▸ coeffOf_finite hf i) ((hr' i).fin_eq.1 ▸ coeffOf_finite hf' i)).congr (hr i).symm (hr' i).symm

/-- **C127.** Multiplying by the number `2^k` itself: every coefficient is multiplied exactly, unless it overflows or underflows. -/
theorem C127_scalar (hp : 1 ≤ f.p) {k : ℤ} (p : Poly (Fl f)) (hpn : AllNumbers p) {a : Fl f} (ha : a.isFinite = true) (hk : a.toRat = 2 ^ k)
    (hf : ∀ c ∈ (p.mulScalar a).terms, c.isFinite = true)
    (hu : ∀ c ∈ p.terms, NoUnderflow f (c.toRat * a.toRat)) : ScaledPoly k 0 p (p.mulScalar a) := by
  intro i
  have hs := (C115_scale_coeff p a i (.inl ha)).1
  have hc := hpn.coeff i
  have hfin : (coeffOf p i * a).isFinite = true := hs.fin_eq.1 ▸ coeffOf_finite hf i
  refine Scaled.congr ?_ (.refl _) hs.symm
  refine ⟨hc.1, hfin, ?_⟩
  have hself : Rounded (coeffOf p i) (coeffOf p i).toRat := by
    obtain ⟨s, m, e⟩ := isFinite_iff.1 hc.1
    have hv := hc.2
    rw [e] at hv ⊢
    exact ⟨s, m, 1, one_pos, by rw [roundRat_one, roundNat_of_representable hv.1], by simp [toRat]⟩
  have hmul := rounded_mul hfin
  have hno : NoUnderflow f ((coeffOf p i).toRat * a.toRat) := by
    rcases coeffOf_mem p i with h | h
    · exact hu _ h
    · left; rw [h, toRat_zero, zero_mul]
  rw [hk, mul_comm] at hmul hno
  rw [zero_mul, add_zero]
  exact rounded_scale hp k hself hmul (by have := noUnderflow_whole (coeffOf p i) 1; simpa using this) hno

theorem descSum_scaled (hp : 1 ≤ f.p) {k : ℤ} {g g' : Nat → Fl f} : ∀ {n : Nat} {a a' : Fl f}, Scaled k a a' →
    (∀ d < n, (g d).isFinite = true → (g' d).isFinite = true → Scaled k (g d) (g' d)) → (descSum g n a).isFinite = true →
    (descSum g' n a').isFinite = true → Scaled k (descSum g n a) (descSum g' n a')
  | 0, _, _, h, _, _, _ => h
  | n + 1, a, a', h, hg, hf, hf' => by
    have back : ∀ (g : Nat → Fl f) (n : Nat) (a : Fl f), (descSum g n a).isFinite = true → a.isFinite = true := by
      intro g n
      induction n with
      | zero => intro a h; exact h
      | succ n ih => intro a h; exact (finite_of_add (ih _ h)).1
    have e := back g n _ hf
    have e' := back g' n _ hf'
    show Scaled k (descSum g n (a + g n)) (descSum g' n (a' + g' n))
    exact descSum_scaled hp (C127_add hp h (hg n (by omega) (finite_of_add e).2 (finite_of_add e').2) e e') (fun d hd => hg d (by omega)) hf hf'

/-- **C127.** Products: the coefficients are scaled by the product of the powers of two, unless a coefficient overflows or a product of two
coefficients underflows. -/
theorem C127_product (hp : 1 ≤ f.p) {k l j : ℤ} {p q p' q' r r' : Poly (Fl f)} (h : ScaledPoly k j p p') (h' : ScaledPoly l j q q')
    (hv : AllNumbers p) (hv' : AllNumbers p') (hw : AllNumbers q) (hw' : AllNumbers q') (hr : p.mul q = .ok r) (hr' : p'.mul q' = .ok r')
    (hf : ∀ c ∈ r.terms, c.isFinite = true) (hf' : ∀ c ∈ r'.terms, c.isFinite = true)
    (hu : ∀ a ∈ p.terms, ∀ b ∈ q.terms, NoUnderflow f (a.toRat * b.toRat))
    (hu' : ∀ a ∈ p'.terms, ∀ b ∈ q'.terms, NoUnderflow f (a.toRat * b.toRat)) : ScaledPoly (k + l) j r r' := by
  have all : ∀ {p q : Poly (Fl f)}, (∀ a ∈ p.terms, ∀ b ∈ q.terms, NoUnderflow f (a.toRat * b.toRat)) →
      ∀ i m, NoUnderflow f ((coeffOf q i).toRat * (coeffOf p m).toRat) := by
    intro p q hu i m
    rcases coeffOf_mem q i with h1 | h1
    · rcases coeffOf_mem p m with h2 | h2
      · rw [mul_comm]; exact hu _ h2 _ h1
      · left; rw [h2, toRat_zero, mul_zero]
    · left; rw [h1, toRat_zero, zero_mul]
  intro i
  have c1 := C115_mul_coeff hp p q r hv hw (.inl hr) i
  have c2 := C115_mul_coeff hp p' q' r' hv' hw' (.inl hr') i
  refine Scaled.congr ?_ c1.symm c2.symm
  refine descSum_scaled hp (Scaled.zeros _) (fun d hd e e' => ?_) (c1.fin_eq.1 ▸ coeffOf_finite hf i) (c2.fin_eq.1 ▸ coeffOf_finite hf' i)
  have := C127_mul hp (h' d) (h (i - d)) e e' (all hu d _) (all hu' d _)
  rwa [show l + j * d + (k + j * ((i - d : Nat) : ℤ)) = k + l + j * i by rw [Nat.cast_sub (by omega)]; ring] at this

theorem rounded_zero_toRat {r : Fl f} (h : Rounded r 0) : r.toRat = 0 := by
  obtain ⟨s, num, den, hden, rfl, hv⟩ := h
  have hq : (2 : ℚ) ^ f.q ≠ 0 := by positivity
  have hd : (den : ℚ) ≠ 0 := Nat.cast_ne_zero.2 hden.ne'
  have : (num : ℚ) = 0 := by
    have h0 := hv.symm
    cases s <;> simpa [hq, hd] using h0
  rw [show num = 0 by exact_mod_cast this, roundRat_zero]
  simp [toRat]

theorem rounded_zero : Rounded (0 : Fl f) 0 := ⟨false, 0, 1, one_pos, by rw [roundRat_zero]; rfl, by simp⟩

theorem toRat_coeffOf (l : List (Fl f)) (i : Nat) : (coeffOf ⟨l⟩ i).toRat = (descPoly (l.map toRat)).coeff i := by
  rw [coeff_descPoly, ← List.map_reverse]
  unfold coeffOf
  simp only [List.getD_eq_getElem?_getD, List.getElem?_map]
  cases l.reverse[i]? with
  | none => exact toRat_zero
  | some c => rfl

/-- A list of floats that are the roundings of a list of rationals. -/
theorem coeff_rounded {T : List (Fl f × ℚ)} (h : ∀ x ∈ T, x.1.isFinite = true → Rounded x.1 x.2) (hf : ∀ c ∈ T.map Prod.fst, c.isFinite = true)
    (i : Nat) : ∃ r : Fl f, Rounded r ((descPoly (T.map Prod.snd)).coeff i) ∧ (coeffOf ⟨T.map Prod.fst⟩ i).toRat = r.toRat := by
  rw [toRat_coeffOf, List.map_map]
  rcases coeff_cases T i with ⟨x, hx, e⟩ | e
  · exact ⟨x.1, by rw [e]; exact h x hx (hf _ (List.mem_map_of_mem hx)), e _⟩
  · exact ⟨0, by rw [e]; exact rounded_zero, (e _).trans toRat_zero.symm⟩

theorem scaled_derivative [FromUsizeCont (Fl f)] (hl : CountLaw f) (hp : 1 ≤ f.p) (hw : f.p + f.q ≤ f.w) {k j : ℤ} {p q r s : Poly (Fl f)}
    (h : ScaledPoly k j p q) (hr : p.derivative = .ok r) (hs : q.derivative = .ok s) (hf : ∀ c ∈ r.terms, c.isFinite = true)
    (hf' : ∀ c ∈ s.terms, c.isFinite = true) : ScaledPoly (k + j) j r s := by
  have key : ∀ {p r : Poly (Fl f)}, p.derivative = .ok r → (∀ c ∈ r.terms, c.isFinite = true) → ∀ i,
      ∃ v : Fl f, Rounded v ((coeffOf p (i + 1)).toRat * (i + 1)) ∧ (coeffOf r i).toRat = v.toRat := by
    intro p r hr hf i
    obtain ⟨T, h1, h2, h3⟩ := derivative_state hl hp hw (fun x => x.1.isFinite = true → Rounded x.1 x.2) (fun _ => True)
      (fun x y n _ _ hn h => by have := rounded_mul h; rwa [hn] at this) p r hr (fun _ _ => trivial)
    obtain ⟨t⟩ := r
    simp only at h1 hf
    subst h1
    obtain ⟨v, h4, h5⟩ := coeff_rounded h2 hf i
    refine ⟨v, ?_, h5⟩
    rwa [h3, Polynomial.coeff_derivative, ← toRat_coeffOf] at h4
  intro i
  obtain ⟨v, h1, h2⟩ := key hr hf i
  obtain ⟨v', h1', h2'⟩ := key hs hf' i
  refine ⟨coeffOf_finite hf i, coeffOf_finite hf' i, ?_⟩
  rw [h2, h2']
  have e : k + j + j * i = k + j * ((i + 1 : Nat) : ℤ) := by push_cast; ring
  rw [e]
  have n1 := noUnderflow_whole (coeffOf p (i + 1)) (i + 1)
  have n2 := noUnderflow_whole (coeffOf q (i + 1)) (i + 1)
  push_cast at n1 n2
  rw [(h (i + 1)).2.2, mul_assoc] at h1' n2
  exact rounded_scale hp _ h1 h1' n1 n2

/-- **C127.** The derivative scales with the polynomial, unless a coefficient overflows. -/
theorem C127_derivative_f64 {k j : ℤ} {p q r s : Poly (Fl binary64)} (h : ScaledPoly k j p q) (hr : p.derivative = .ok r)
    (hs : q.derivative = .ok s) (hf : ∀ c ∈ r.terms, c.isFinite = true) (hf' : ∀ c ∈ s.terms, c.isFinite = true) : ScaledPoly (k + j) j r s :=
  scaled_derivative countLaw64 (by decide) (by decide) h hr hs hf hf'

/-- **C127.** The same for `f32`. -/
theorem C127_derivative_f32 {k j : ℤ} {p q r s : Poly (Fl binary32)} (h : ScaledPoly k j p q) (hr : p.derivative = .ok r)
    (hs : q.derivative = .ok s) (hf : ∀ c ∈ r.terms, c.isFinite = true) (hf' : ∀ c ∈ s.terms, c.isFinite = true) : ScaledPoly (k + j) j r s :=
  scaled_derivative countLaw32 (by decide) (by decide) h hr hs hf hf'

theorem integLoop_rounded (hp : 1 ≤ f.p) (hw : f.p + f.q ≤ f.w) : ∀ (xs : List (Fl f)) (d : Fl f),
    d.isFinite = true → d.toRat = (xs.length : ℚ) → xs.length ≤ 2 ^ f.p → (∀ c ∈ xs, c.isFinite = true) →
    ∃ T : List (Fl f × ℚ), Poly.integLoop xs d = .ok (T.map Prod.fst) ∧ (∀ x ∈ T, x.1.isFinite = true → Rounded x.1 x.2) ∧
      T.length = xs.length ∧ Polynomial.derivative (descPoly (T.map Prod.snd) * Polynomial.X) = descPoly (xs.map toRat)
  | [], _, _, _, _, _ => ⟨[], rfl, by simp, rfl, by simp⟩
  | x :: xs, d, hd, hm, hle, hx => by
    rw [List.length_cons] at hm hle
    obtain ⟨g1, g2⟩ := pred_exact hp hw hd hm (by omega)
    obtain ⟨T, h1, h2, h3, h4⟩ := integLoop_rounded hp hw xs (d - 1) g1 g2 (by omega) (fun c hc => hx c (by simp [hc]))
    have hd0 : d.toRat ≠ 0 := by rw [hm]; positivity
    refine ⟨(div x d, x.toRat / ((xs.length + 1 : Nat) : ℚ)) :: T, ?_, ?_, ?_, ?_⟩
    · rw [Poly.integLoop, h1]; rfl
    · intro y hy
      rcases List.mem_cons.1 hy with rfl | hy
      · intro hf
        have := rounded_div (hx x (by simp)) hd hd0 hf
        rwa [hm] at this
      · exact h2 y hy
    · simp [h3]
    · rw [List.map_cons, descPoly_cons, List.length_map, h3, List.map_cons, descPoly_cons, List.length_map,
        add_mul, Polynomial.derivative_add, h4, mul_assoc, ← pow_succ, Polynomial.derivative_C_mul_X_pow]
      have : ((xs.length + 1 : Nat) : ℚ) ≠ 0 := by positivity
      rw [div_mul_cancel₀ _ this]
      simp

theorem scaled_integral [FromUsizeCont (Fl f)] (hl : CountLaw f) (hp : 1 ≤ f.p) (hw : f.p + f.q ≤ f.w) {k j : ℤ} {p q r s : Poly (Fl f)}
    (h : ScaledPoly k j p q) (hpf : ∀ c ∈ p.terms, c.isFinite = true) (hqf : ∀ c ∈ q.terms, c.isFinite = true) (hr : p.integral = .ok r)
    (hs : q.integral = .ok s) (hf : ∀ c ∈ r.terms, c.isFinite = true)
    (hf' : ∀ c ∈ s.terms, c.isFinite = true) (hu : ∀ i : Nat, NoUnderflow f ((coeffOf p i).toRat / (i + 1)))
    (hu' : ∀ i : Nat, NoUnderflow f ((coeffOf q i).toRat / (i + 1))) : ScaledPoly (k - j) j r s := by
  have key : ∀ {p r : Poly (Fl f)}, (∀ c ∈ p.terms, c.isFinite = true) → p.integral = .ok r → (∀ c ∈ r.terms, c.isFinite = true) →
      (coeffOf r 0).toRat = 0 ∧ ∀ i : Nat, ∃ v : Fl f, Rounded v ((coeffOf p i).toRat / (i + 1)) ∧ (coeffOf r (i + 1)).toRat = v.toRat := by
    intro p r hpf hr hf
    unfold Poly.integral at hr
    simp only [drop_firstNonzeroIndex] at hr
    have hlen := firstNonzeroIndex_add p.terms
    have hlen' : p.terms.length - firstNonzeroIndex p.terms = (p.terms.dropWhile isZero).length := by omega
    rw [hlen'] at hr
    split at hr
    · cases hr
    · rename_i d hd
      obtain ⟨d1, d2, d3⟩ := hl _ _ hd
      obtain ⟨T, t1, t2, t3, t4⟩ := integLoop_rounded hp hw _ d d1 d2 d3 (fun c hc => hpf c ((List.dropWhile_suffix isZero).subset hc))
      rw [t1] at hr
      cases hr
      refine ⟨by rw [(coeffOf_snoc _ _).1, toRat_zero], fun i => ?_⟩
      rw [(coeffOf_snoc _ _).2]
      obtain ⟨v, h4, h5⟩ := coeff_rounded t2 (fun c hc => hf c (List.mem_append_left _ hc)) i
      refine ⟨v, ?_, h5⟩
      have e := congrArg (fun P => Polynomial.coeff P i) t4
      simp only [Polynomial.coeff_derivative, Polynomial.coeff_mul_X] at e
      rw [← toRat_coeffOf, (coeffOf_dropWhile p.terms i).fin_eq.2] at e
      have hne : (i : ℚ) + 1 ≠ 0 := by positivity
      rwa [show (coeffOf p i).toRat = _ from e.symm, mul_div_cancel_right₀ _ hne]
  obtain ⟨z, kp⟩ := key hpf hr hf
  obtain ⟨z', kq⟩ := key hqf hs hf'
  intro i
  refine ⟨coeffOf_finite hf i, coeffOf_finite hf' i, ?_⟩
  cases i with
  | zero => rw [z, z', mul_zero]
  | succ i =>
    obtain ⟨v, h1, h2⟩ := kp i
    obtain ⟨v', h1', h2'⟩ := kq i
    rw [h2, h2', show k - j + j * ((i + 1 : Nat) : ℤ) = k + j * i by push_cast; ring]
    have n2 := hu' i
    rw [(h i).2.2, mul_div_assoc] at h1' n2
    exact rounded_scale hp _ h1 h1' (hu i) n2

/-- **C127.** The integral scales with the polynomial, unless a coefficient underflows. -/
theorem C127_integral_f64 {k j : ℤ} {p q r s : Poly (Fl binary64)} (h : ScaledPoly k j p q) (hpf : ∀ c ∈ p.terms, c.isFinite = true)
    (hqf : ∀ c ∈ q.terms, c.isFinite = true) (hr : p.integral = .ok r) (hs : q.integral = .ok s) (hf : ∀ c ∈ r.terms, c.isFinite = true)
    (hf' : ∀ c ∈ s.terms, c.isFinite = true) (hu : ∀ i : Nat, NoUnderflow binary64 ((coeffOf p i).toRat / (i + 1)))
    (hu' : ∀ i : Nat, NoUnderflow binary64 ((coeffOf q i).toRat / (i + 1))) : ScaledPoly (k - j) j r s :=
  scaled_integral countLaw64 (by decide) (by decide) h hpf hqf hr hs hf hf' hu hu'

/-- **C127.** The same for `f32`. -/
theorem C127_integral_f32 {k j : ℤ} {p q r s : Poly (Fl binary32)} (h : ScaledPoly k j p q) (hpf : ∀ c ∈ p.terms, c.isFinite = true)
    (hqf : ∀ c ∈ q.terms, c.isFinite = true) (hr : p.integral = .ok r) (hs : q.integral = .ok s) (hf : ∀ c ∈ r.terms, c.isFinite = true)
    (hf' : ∀ c ∈ s.terms, c.isFinite = true) (hu : ∀ i : Nat, NoUnderflow binary32 ((coeffOf p i).toRat / (i + 1)))
    (hu' : ∀ i : Nat, NoUnderflow binary32 ((coeffOf q i).toRat / (i + 1))) : ScaledPoly (k - j) j r s :=
  scaled_integral countLaw32 (by decide) (by decide) h hpf hqf hr hs hf hf' hu hu'

/-- **C127.** Evaluation of the other types. -/
theorem C127_eval_fixed (hp : 1 ≤ f.p) {k j : ℤ} {x y : Fl f} (hx : Scaled (-j) x y) :
    (∀ b b' : LinearBinomial (Fl f), Scaled (k + j) b.c0 b'.c0 → Scaled k b.c1 b'.c1 → (b.eval x).isFinite = true → (b'.eval y).isFinite = true →
      NoUnderflow f (x.toRat * b.c0.toRat) → NoUnderflow f (y.toRat * b'.c0.toRat) → Scaled k (b.eval x) (b'.eval y)) ∧
    (∀ t t' : QuadraticTrinomial (Fl f), Scaled (k + j + j) t.c0 t'.c0 → Scaled (k + j) t.c1 t'.c1 → Scaled k t.c2 t'.c2 →
      (t.eval x).isFinite = true → (t'.eval y).isFinite = true → NoUnderflow f (t.c0.toRat * x.toRat) → NoUnderflow f (t'.c0.toRat * y.toRat) →
      NoUnderflow f (x.toRat * (t.c0 * x + t.c1).toRat) → NoUnderflow f (y.toRat * (t'.c0 * y + t'.c1).toRat) → Scaled k (t.eval x) (t'.eval y)) ∧
    (∀ (n : Nat) (a : ArrayPoly (Fl f) n), a.eval x = (⟨a.coefficients⟩ : Poly (Fl f)).eval x) ∧
    ∀ [PowUsize (Fl f)] (p q : Sparse (Fl f)), ScaledSparse k p q → (p.eval x).isFinite = true → (q.eval x).isFinite = true →
      (∀ e ∈ p.terms.entries, NoUnderflow f (e.2.toRat * (upow x e.1).toRat)) →
      (∀ e ∈ q.terms.entries, NoUnderflow f (e.2.toRat * (upow x e.1).toRat)) → Scaled k (p.eval x) (q.eval x) := by
  refine ⟨fun b b' h0 h1 hf hf' hu hu' => ?_, fun t t' h0 h1 h2 hf hf' hu hu' hv hv' => ?_, fun _ _ => rfl, fun p q h hf hf' hu hu' => ?_⟩
  · have := C127_mul hp hx h0 (finite_of_add hf).1 (finite_of_add hf').1 hu hu'
    rw [show -j + (k + j) = k by ring] at this
    exact C127_add hp this h1 hf hf'
  · have e := (finite_of_add hf).1
    have e' := (finite_of_add hf').1
    have g := (finite_of_mul e).2
    have g' := (finite_of_mul e').2
    have m1 := C127_mul hp h0 hx (finite_of_add g).1 (finite_of_add g').1 hu hu'
    rw [show k + j + j + -j = k + j by ring] at m1
    have m2 := C127_mul hp hx (C127_add hp m1 h1 g g') e e' hv hv'
    rw [show -j + (k + j) = k by ring] at m2
    exact C127_add hp m2 h2 hf hf'
  · unfold Sparse.eval at hf hf' ⊢
    unfold ScaledSparse at h
    have back : ∀ (l : List (Nat × Fl f)) (a : Fl f), (l.foldl (fun sum e => sum + e.2 * upow x e.1) a).isFinite = true → a.isFinite = true := by
      intro l
      induction l with
      | nil => intro a h; exact h
      | cons c cs ih => intro a h; exact (finite_of_add (ih _ h)).1
    have loop : ∀ {l l' : List (Nat × Fl f)}, List.Forall₂ (fun a b => a.1 = b.1 ∧ Scaled k a.2 b.2) l l' → ∀ {a b : Fl f}, Scaled k a b →
        (l.foldl (fun sum e => sum + e.2 * upow x e.1) a).isFinite = true → (l'.foldl (fun sum e => sum + e.2 * upow x e.1) b).isFinite = true →
        (∀ e ∈ l, NoUnderflow f (e.2.toRat * (upow x e.1).toRat)) → (∀ e ∈ l', NoUnderflow f (e.2.toRat * (upow x e.1).toRat)) →
        Scaled k (l.foldl (fun sum e => sum + e.2 * upow x e.1) a) (l'.foldl (fun sum e => sum + e.2 * upow x e.1) b) := by
      intro l l' h
      induction h with
      | nil => intro a b hab _ _ _ _; exact hab
      | @cons c d cs ds hcd _ ih =>
        intro a b hab hf hf' hu hu'
        have e : (a + c.2 * upow x c.1).isFinite = true := back _ _ hf
        have e' : (b + d.2 * upow x d.1).isFinite = true := back _ _ hf'
        have m : (c.2 * upow x c.1).isFinite = true := (finite_of_add e).2
        have m' : (d.2 * upow x d.1).isFinite = true := (finite_of_add e').2
        have hup : Scaled 0 (upow x c.1) (upow x d.1) := by
          rw [← hcd.1]
          exact ⟨(finite_of_mul m).2, (finite_of_mul m).2, by simp⟩
        have := C127_mul hp hcd.2 hup m m' (hu c (by simp)) (hu' d (by simp))
        rw [add_zero] at this
        exact ih (C127_add hp hab this e e') hf hf' (fun e he => hu e (by simp [he])) (fun e he => hu' e (by simp [he]))
    exact loop h (Scaled.zeros k) hf hf' hu hu'

theorem Scaled.isPositive {k : ℤ} {x y : Fl f} (h : Scaled k x y) : isPositive x = isPositive y := by
  have : (0 : ℚ) < 2 ^ k := by positivity
  rw [Bool.eq_iff_iff, isPositive_iff h.1, isPositive_iff h.2.1, h.2.2, mul_pos_iff_of_pos_left this]

theorem div_ne_zero_of_finite {x y : Fl f} (h : (div x y).isFinite = true) (hy : y.isFinite = true) : y.toRat ≠ 0 := by
  intro h0
  have := (isZero_iff_toRat hy).2 h0
  obtain ⟨s, rfl⟩ := isZero_iff.1 this
  cases x with
  | fin t a => by_cases ha : a = 0 <;> simp [div, isFinite, ha] at h
  | _ => simp [div, isFinite] at h

theorem roots_finite {a b c : Fl f} {r : Roots (Fl f)} (h : trinomialRoots a b c = .ok r) (hf : FiniteRoots r) :
    (discriminantTrinomial a b c).isFinite = true ∧ (div (-b) (a * ((2 : Nat) : Fl f))).isFinite = true ∧
    (isZero (discriminantTrinomial a b c) = false → (div (sqrt (abs (discriminantTrinomial a b c))) (a * ((2 : Nat) : Fl f))).isFinite = true) := by
  have sq : ∀ {x : Fl f}, (div (sqrt (abs x)) (a * ((2 : Nat) : Fl f))).isFinite = true → x.isFinite = true :=
    fun h => finite_of_sqrt rfl (finite_of_div h)
  rw [trinomialRoots_fl] at h
  cases h
  by_cases h1 : isZero (discriminantTrinomial a b c) = true
  · simp only [h1, if_true] at hf
    refine ⟨?_, hf.1, by simp [h1]⟩
    obtain ⟨s, e⟩ := isZero_iff.1 h1
    rw [e]; rfl
  · by_cases h2 : Rustnomial.isPositive (discriminantTrinomial a b c) = true
    · simp only [if_neg h1, if_pos h2] at hf
      have := finite_of_add hf.1
      exact ⟨sq this.2, this.1, fun _ => this.2⟩
    · simp only [if_neg h1, if_neg h2] at hf
      exact ⟨sq hf.2.1, hf.1, fun _ => hf.2.1⟩

/-- **C127.** Quadratic polynomials: with the coefficients multiplied by `2^(k + 2j)`, `2^(k + j)` and `2^k` the computed roots are those of the
original polynomial multiplied by `2^-j`, and of the same kind; so they are the same if all three are multiplied by `2^k`. -/
theorem C127_roots (hp : 4 ≤ f.p) (hq : 2 * f.p ≤ f.q) (hw : f.p + f.q < f.w) {k j : ℤ} {t t' : QuadraticTrinomial (Fl f)} {r r' : Roots (Fl f)}
    (h0 : Scaled (k + j + j) t.c0 t'.c0) (h1 : Scaled (k + j) t.c1 t'.c1) (h2 : Scaled k t.c2 t'.c2) (hr : t.roots = .ok r) (hr' : t'.roots = .ok r')
    (hf : FiniteRoots r) (hf' : FiniteRoots r') (ha : (t.c0 * ((2 : Nat) : Fl f)).isFinite = true)
    (ha' : (t'.c0 * ((2 : Nat) : Fl f)).isFinite = true) (hu : QuadNoUnderflow t.c0 t.c1 t.c2) (hu' : QuadNoUnderflow t'.c0 t'.c1 t'.c2) :
    ScaledRoots (-j) r r' := by
  change trinomialRoots t.c0 t.c1 t.c2 = .ok r at hr
  change trinomialRoots t'.c0 t'.c1 t'.c2 = .ok r' at hr'
  obtain ⟨fd, fb, fs⟩ := roots_finite hr hf
  obtain ⟨fd', fb', fs'⟩ := roots_finite hr' hf'
  have cst : ∀ n : Nat, n ≤ 2 ^ f.p → Scaled 0 ((n : Nat) : Fl f) ((n : Nat) : Fl f) ∧ ((n : Nat) : Fl f).toRat = n := by
    intro n hn
    have e : ((n : Nat) : Fl f) = fin false (n * 2 ^ f.q) := ofNat_small hp hw hn
    refine ⟨⟨by rw [e]; rfl, by rw [e]; rfl, by simp⟩, ?_⟩
    rw [e, toRat_units]
    have : (2 : ℚ) ^ f.q ≠ 0 := by positivity
    simp [this]
  have h16 : 2 ^ 4 ≤ 2 ^ f.p := Nat.pow_le_pow_right (by norm_num) hp
  obtain ⟨c2, e2⟩ := cst 2 (by omega)
  obtain ⟨c4, e4⟩ := cst 4 (by omega)
  have hp1 : 1 ≤ f.p := by omega
  -- the discriminants
  have D : Scaled (2 * (k + j)) (discriminantTrinomial t.c0 t.c1 t.c2) (discriminantTrinomial t'.c0 t'.c1 t'.c2) := by
    have g : (t.c1 * t.c1).isFinite = true ∧ (t.c0 * t.c2 * ((4 : Nat) : Fl f)).isFinite = true := by
      have := finite_of_add (x := t.c1 * t.c1) (y := -(t.c0 * t.c2 * ((4 : Nat) : Fl f))) fd
      rwa [isFinite_neg] at this
    have g' : (t'.c1 * t'.c1).isFinite = true ∧ (t'.c0 * t'.c2 * ((4 : Nat) : Fl f)).isFinite = true := by
      have := finite_of_add (x := t'.c1 * t'.c1) (y := -(t'.c0 * t'.c2 * ((4 : Nat) : Fl f))) fd'
      rwa [isFinite_neg] at this
    have s1 := C127_mul hp1 h1 h1 g.1 g'.1 hu.1 hu'.1
    have s2 := C127_mul hp1 h0 h2 (finite_of_mul g.2).1 (finite_of_mul g'.2).1 hu.2.1 hu'.2.1
    have s3 := C127_mul hp1 s2 c4 g.2 g'.2 (by rw [e4]; exact noUnderflow_whole _ 4) (by rw [e4]; exact noUnderflow_whole _ 4)
    rw [show k + j + (k + j) = 2 * (k + j) by ring] at s1
    rw [show k + j + j + k + 0 = 2 * (k + j) by ring] at s3
    exact C127_sub hp1 s1 s3 fd fd'
  -- the denominators
  have A : Scaled (k + j + j) (t.c0 * ((2 : Nat) : Fl f)) (t'.c0 * ((2 : Nat) : Fl f)) := by
    have := C127_mul hp1 h0 c2 ha ha' (by rw [e2]; exact noUnderflow_whole _ 2) (by rw [e2]; exact noUnderflow_whole _ 2)
    rwa [add_zero] at this
  have A0 := div_ne_zero_of_finite fb ha
  have nneg : ∀ {v : ℚ}, NoUnderflow f v → NoUnderflow f (-v) := by
    intro v h
    rcases h with h | h | ⟨n, h⟩
    · exact .inl (by simp [h])
    · exact .inr (.inl (by rwa [abs_neg]))
    · exact .inr (.inr ⟨-n, by push_cast; rw [← h]; ring⟩)
  have B : Scaled (-j) (div (-t.c1) (t.c0 * ((2 : Nat) : Fl f))) (div (-t'.c1) (t'.c0 * ((2 : Nat) : Fl f))) := by
    have := C127_div hp1 h1.neg A A0 fb fb' (by rw [toRat_neg, neg_div]; exact nneg hu.2.2.1) (by rw [toRat_neg, neg_div]; exact nneg hu'.2.2.1)
    rwa [show k + j - (k + j + j) = -j by ring] at this
  rw [trinomialRoots_fl] at hr hr'
  cases hr
  cases hr'
  have hz := D.isZero
  have hpos := D.isPositive
  by_cases z : isZero (discriminantTrinomial t.c0 t.c1 t.c2) = true
  · have z' := z
    rw [hz] at z'
    simp only [z, z', if_true]
    exact ⟨B, B⟩
  · have z' := z
    rw [hz] at z'
    have S : Scaled (k + j) (sqrt (abs (discriminantTrinomial t.c0 t.c1 t.c2))) (sqrt (abs (discriminantTrinomial t'.c0 t'.c1 t'.c2))) :=
      C127_sqrt hp1 hq D rfl rfl (finite_of_div (fs (by simpa using z))) (finite_of_div (fs' (by simpa using z')))
    have Q := C127_div hp1 S A A0 (fs (by simpa using z)) (fs' (by simpa using z')) (hu.2.2.2 _ rfl) (hu'.2.2.2 _ rfl)
    rw [show k + j - (k + j + j) = -j by ring] at Q
    by_cases y : Rustnomial.isPositive (discriminantTrinomial t.c0 t.c1 t.c2) = true
    · have y' := y
      rw [hpos] at y'
      simp only [if_neg z, if_neg z', if_pos y, if_pos y'] at hf hf' ⊢
      exact ⟨C127_add hp1 B Q hf.1 hf'.1, C127_sub hp1 B Q hf.2 hf'.2⟩
    · have y' := y
      rw [hpos] at y'
      simp only [if_neg z, if_neg z', if_neg y, if_neg y']
      exact ⟨B, Q, B, Q.neg⟩

-- `0.1`, as a float, and 2^-20 times it: the rounding errors scale
example : Scaled (f := binary64) (-20) (div 1 (ofNat 10)) (div (div 1 (ofNat 10)) (ofNat (2 ^ 20))) := by
  refine ⟨?_, ?_, ?_⟩ <;> decide +kernel
example : (div (1 : Fl binary64) (ofNat 10)).toRat ≠ 1 / 10 := by decide +kernel
example : NoUnderflow binary64 ((div (1 : Fl binary64) (ofNat 10)).toRat * (div (1 : Fl binary64) (ofNat 10)).toRat) :=
  .inr (.inl (by decide +kernel))

/-- `x^2 / 10 - 3x + 7`, and with `2x` for `x`: `4x^2 / 10 - 6x + 7`. -/
def scaleExample : Poly (Fl binary64) := ⟨[div 1 (ofNat 10), -ofNat 3, ofNat 7]⟩
def scaleExample' : Poly (Fl binary64) := ⟨[div (ofNat 4) (ofNat 10), -ofNat 6, ofNat 7]⟩

theorem scaleExample_scaled : ScaledPoly 0 1 scaleExample scaleExample' := by
  intro i
  rcases i with _ | _ | _ | i
  · refine ⟨?_, ?_, ?_⟩ <;> decide +kernel
  · refine ⟨?_, ?_, ?_⟩ <;> decide +kernel
  · refine ⟨?_, ?_, ?_⟩ <;> decide +kernel
  · exact Scaled.zeros _

-- evaluation at `1.1` and at half of it
example : Scaled 0 (scaleExample.eval (div (ofNat 11) (ofNat 10))) (scaleExample'.eval (div (ofNat 11) (ofNat 20))) := by
  refine C127_eval (by decide) (j := 1) scaleExample_scaled ⟨by decide +kernel, by decide +kernel, by decide +kernel⟩
    (by decide +kernel) (by decide +kernel) ?_ ?_
  · intro d hd
    rcases d with _ | _ | _ | d
    · omega
    · exact .inr (.inl (by decide +kernel))
    · exact .inr (.inl (by decide +kernel))
    · refine .inl ?_
      have : upper scaleExample (d + 3) = ⟨[]⟩ := by simp [upper, scaleExample]
      rw [this]; decide +kernel
  · intro d hd
    rcases d with _ | _ | _ | d
    · omega
    · exact .inr (.inl (by decide +kernel))
    · exact .inr (.inl (by decide +kernel))
    · refine .inl ?_
      have : upper scaleExample' (d + 3) = ⟨[]⟩ := by simp [upper, scaleExample']
      rw [this]; decide +kernel

-- roots: `x^2 - 3x + 1`, irrational roots, and `4x^2 - 6x + 1` with half of them
def scaleQuad : QuadraticTrinomial (Fl binary64) := .new 1 (-ofNat 3) 1
def scaleQuad' : QuadraticTrinomial (Fl binary64) := .new (ofNat 4) (-ofNat 6) 1
def finitePairB : Roots (Fl binary64) → Bool
  | .twoRealRoots r s => r.isFinite && s.isFinite
  | _ => false
theorem finitePairB_spec {r : Roots (Fl binary64)} (h : finitePairB r = true) : FiniteRoots r := by
  cases r <;> simp_all [finitePairB, FiniteRoots]

example : ∃ r r', scaleQuad.roots = .ok r ∧ scaleQuad'.roots = .ok r' ∧ ScaledRoots (-1) r r' := by
  obtain ⟨r, hr⟩ : ∃ r, scaleQuad.roots = .ok r := ⟨_, trinomialRoots_fl _ _ _⟩
  obtain ⟨r', hr'⟩ : ∃ r, scaleQuad'.roots = .ok r := ⟨_, trinomialRoots_fl _ _ _⟩
  have f1 : (match scaleQuad.roots with | .ok r => finitePairB r | _ => false) = true := by decide +kernel
  have f2 : (match scaleQuad'.roots with | .ok r => finitePairB r | _ => false) = true := by decide +kernel
  rw [hr] at f1
  rw [hr'] at f2
  have s0 : Scaled (0 + 1 + 1) scaleQuad.c0 scaleQuad'.c0 := ⟨by decide +kernel, by decide +kernel, by decide +kernel⟩
  have s1 : Scaled (0 + 1) scaleQuad.c1 scaleQuad'.c1 := ⟨by decide +kernel, by decide +kernel, by decide +kernel⟩
  have s2 : Scaled 0 scaleQuad.c2 scaleQuad'.c2 := ⟨by decide +kernel, by decide +kernel, by decide +kernel⟩
  have u1 : QuadNoUnderflow scaleQuad.c0 scaleQuad.c1 scaleQuad.c2 :=
    ⟨.inr (.inl (by decide +kernel)), .inr (.inl (by decide +kernel)), .inr (.inl (by decide +kernel)),
      fun s hs => by rw [show s = _ from (Res.ok.inj hs).symm]; exact .inr (.inl (by decide +kernel))⟩
  have u2 : QuadNoUnderflow scaleQuad'.c0 scaleQuad'.c1 scaleQuad'.c2 :=
    ⟨.inr (.inl (by decide +kernel)), .inr (.inl (by decide +kernel)), .inr (.inl (by decide +kernel)),
      fun s hs => by rw [show s = _ from (Res.ok.inj hs).symm]; exact .inr (.inl (by decide +kernel))⟩
  exact ⟨r, r', hr, hr', C127_roots (by decide) (by decide) (by decide) s0 s1 s2 hr hr' (finitePairB_spec f1) (finitePairB_spec f2)
    (by decide +kernel) (by decide +kernel) u1 u2⟩

-- derivative and integral of the example are defined and finite
example : (match scaleExample.derivative, scaleExample'.integral with
    | .ok r, .ok s => (r.terms ++ s.terms).all isFinite && decide (r.terms.length = 2 ∧ s.terms.length = 4)
    | _, _ => false) = true := by decide +kernel

/-- **C127.** With underflow the product does not scale: `3 · 2^-150` rounds to `2^-148`, but `2^10` times it is exact. With overflow the sum does
not. -/
theorem C127_false :
    (∃ x y x' : Fl binary32, Scaled 10 x x' ∧ (x * y).isFinite = true ∧ (x' * y).isFinite = true ∧ ¬ Scaled 10 (x * y) (x' * y)) ∧
    ∃ x x' : Fl binary32, Scaled 1 x x' ∧ (x + x).isFinite = true ∧ ¬ Scaled 1 (x + x) (x' + x') := by
  refine ⟨⟨fin false (3 * 2 ^ 74), fin false (2 ^ 74), fin false (3 * 2 ^ 84), ⟨rfl, rfl, by decide +kernel⟩, by decide +kernel, by decide +kernel,
    fun h => absurd h.2.2 (by decide +kernel)⟩, fin false (2 ^ (126 + 149)), fin false (2 ^ (127 + 149)), ⟨rfl, rfl, by decide +kernel⟩,
    by decide +kernel, fun h => absurd h.2.1 (by decide +kernel)⟩

end Fl
end Rustnomial
