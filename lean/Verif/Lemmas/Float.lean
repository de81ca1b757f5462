import Verif.SpecFloat
import Verif.Props.Convert
import Mathlib.Data.Rat.Defs
import Mathlib.Data.Nat.Cast.Order.Field
import Mathlib.Algebra.Order.Field.Basic
import Mathlib.Algebra.Order.Ring.Abs
import Mathlib.Tactic.Linarith
import Mathlib.Tactic.Positivity
import Mathlib.Tactic.FieldSimp
import Mathlib.Tactic.Ring

/-!
# Lemmas about binary floating point
-/

namespace Rustnomial

/-! ## Rounding -/

theorem roundRat_mul {p num den : Nat} (hden : 0 < den) :
    ∃ e k : Nat, e = (num / den).size - p ∧ roundRat p num den = k * 2 ^ e ∧
      2 * (k * (den * 2 ^ e)) ≤ 2 * num + den * 2 ^ e ∧
      2 * num ≤ 2 * (k * (den * 2 ^ e)) + den * 2 ^ e ∧ k ≤ 2 ^ p := by
  have hd : 0 < den * 2 ^ ((num / den).size - p) := by positivity
  have hq : num / (den * 2 ^ ((num / den).size - p)) < 2 ^ p := by
    rw [← Nat.div_div_eq_div_mul]
    rw [Nat.div_lt_iff_lt_mul (by positivity), ← pow_add]
    exact lt_of_lt_of_le (Nat.lt_size_self _) (Nat.pow_le_pow_right (by norm_num) (by omega))
  have hdm := Nat.div_add_mod num (den * 2 ^ ((num / den).size - p))
  have hlt := Nat.mod_lt num hd
  unfold roundRat
  dsimp only
  generalize (num / den).size - p = e at *
  generalize hde : den * 2 ^ e = d at *
  generalize num / d = k at *
  generalize num % d = r at *
  have hk : (k + 1) * d = d * k + d := by ring
  have hk' : k * d = d * k := by ring
  split
  · refine ⟨e, k + 1, rfl, rfl, ?_, ?_, by omega⟩ <;> rw [hde, hk] <;> omega
  · refine ⟨e, k, rfl, rfl, ?_, ?_, by omega⟩ <;> rw [hde, hk'] <;> omega

/-- The rounded number has at most `p` significant bits. -/
theorem representable_roundRat {p num den : Nat} (hp : 1 ≤ p) (hden : 0 < den) :
    Representable p (roundRat p num den) := by
  obtain ⟨e, k, _, h, _, _, hk⟩ := roundRat_mul (p := p) (num := num) hden
  rw [h]
  rcases hk.lt_or_eq with hk | rfl
  · exact ⟨k, e, hk, rfl⟩
  · exact ⟨1, p + e, Nat.one_lt_two_pow (by omega), by rw [pow_add]; ring⟩

theorem roundRat_half {p num den : Nat} (hden : 0 < den) :
    ∃ e k : Nat, e = (num / den).size - p ∧ roundRat p num den = k * 2 ^ e ∧
      |(k * 2 ^ e : ℚ) - num / den| ≤ 2 ^ e / 2 := by
  obtain ⟨e, k, he, h, h1, h2, hk⟩ := roundRat_mul (p := p) (num := num) hden
  have hdq : (0 : ℚ) < den := by exact_mod_cast hden
  refine ⟨e, k, he, h, ?_⟩
  have h1' : (2 * (k * (den * 2 ^ e)) : ℚ) ≤ 2 * num + den * 2 ^ e := by exact_mod_cast h1
  have h2' : (2 * num : ℚ) ≤ 2 * (k * (den * 2 ^ e)) + den * 2 ^ e := by exact_mod_cast h2
  rw [abs_le]
  have hx : (num : ℚ) / den * den = num := by field_simp
  constructor
  · have : -((2 : ℚ) ^ e / 2) * den ≤ (k * 2 ^ e - num / den) * den := by
      rw [sub_mul, hx]; nlinarith
    exact le_of_mul_le_mul_right this hdq
  · have : (k * 2 ^ e - num / den) * den ≤ ((2 : ℚ) ^ e / 2) * den := by
      rw [sub_mul, hx]; nlinarith
    exact le_of_mul_le_mul_right this hdq

/-- Rounding error: half a unit, or relative `2^-p`. -/
theorem roundRat_error {p num den : Nat} (hden : 0 < den) :
    (|(roundRat p num den : ℚ) - num / den| ≤ (num / den : ℚ) / 2 ^ p) ∨
    (|(roundRat p num den : ℚ) - num / den| ≤ 1 / 2 ∧ (num / den).size ≤ p) := by
  obtain ⟨e, k, he, h, hb⟩ := roundRat_half (p := p) (num := num) hden
  rw [h]
  push_cast
  rcases Nat.lt_or_ge p (num / den).size with hs | hs
  · left
    refine hb.trans ?_
    have hs' : 2 ^ ((num / den).size - 1) ≤ num / den := by
      by_contra hc
      have := Nat.size_le.2 (not_le.1 hc)
      omega
    have hpow : 2 ^ e * 2 ^ p ≤ 2 * (num / den) := by
      rw [← pow_add, he, Nat.sub_add_cancel hs.le]
      calc 2 ^ (num / den).size = 2 * 2 ^ ((num / den).size - 1) := by
            rw [← pow_succ']; congr 1; omega
        _ ≤ 2 * (num / den) := by omega
    have hfl : ((num / den : Nat) : ℚ) ≤ num / den := Nat.cast_div_le
    have hpow' : (2 : ℚ) ^ e * 2 ^ p ≤ 2 * (num / den : Nat) := by exact_mod_cast hpow
    rw [div_le_div_iff₀ (by norm_num) (by positivity)]
    linarith
  · right
    refine ⟨?_, hs⟩
    have : e = 0 := by omega
    rw [this] at hb ⊢
    simpa using hb

theorem roundRat_one (p n : Nat) : roundRat p n 1 = roundNat p n := by
  unfold roundRat roundNat
  simp only [Nat.div_one, one_mul]

/-- Rounding a whole number of units has a relative error of at most `2^-p`. -/
theorem roundRat_one_error (p n : Nat) : |(roundRat p n 1 : ℚ) - n| ≤ (n : ℚ) / 2 ^ p := by
  rcases roundRat_error (p := p) (num := n) (den := 1) one_pos with h | ⟨_, h⟩
  · simpa using h
  · rw [Nat.div_one] at h
    rw [roundRat_one, roundNat_of_representable (representable_of_lt (Nat.size_le.1 h)), sub_self, abs_zero]
    positivity

/-- Rounding gives a nearest number with `p` significant bits: no representable number is nearer. -/
theorem roundRat_nearest {p num den m : Nat} (hp : 1 ≤ p) (hden : 0 < den) (hm : Representable p m) :
    |(roundRat p num den : ℚ) - num / den| ≤ |(m : ℚ) - num / den| := by
  obtain ⟨e, k, he, h, hhalf⟩ := roundRat_half (p := p) (num := num) hden
  have hE : (0 : ℚ) < 2 ^ e := by positivity
  have hmul : ∀ j : Nat, |(k * 2 ^ e : ℚ) - num / den| ≤ |(j * 2 ^ e : ℚ) - num / den| := by
    intro j
    by_cases hj : j = k
    · rw [hj]
    · have hjk : (1 : ℚ) ≤ |(j : ℚ) - k| := by
        have : (1 : ℤ) ≤ |(j : ℤ) - k| := Int.one_le_abs (sub_ne_zero.2 (by exact_mod_cast hj))
        exact_mod_cast this
      have h3 : (2 : ℚ) ^ e ≤ |(j * 2 ^ e : ℚ) - k * 2 ^ e| := by
        rw [← sub_mul, abs_mul, abs_of_pos hE]; nlinarith
      have h4 := abs_sub_abs_le_abs_sub ((j * 2 ^ e : ℚ) - k * 2 ^ e) (num / den - k * 2 ^ e)
      have h5 : (j * 2 ^ e : ℚ) - k * 2 ^ e - (num / den - k * 2 ^ e) = j * 2 ^ e - num / den := by ring
      rw [h5, abs_sub_comm (num / den : ℚ)] at h4
      linarith
  rw [h]
  push_cast
  obtain ⟨k', e', hk', rfl⟩ := hm
  rcases Nat.lt_or_ge e' e with hlt | hge
  · have hs : (num / den).size = p + e := by omega
    have hs' : 2 ^ (p - 1) * 2 ^ e ≤ num / den := by
      by_contra hc
      rw [← pow_add] at hc
      have := Nat.size_le.2 (not_le.1 hc)
      omega
    have hfl : ((num / den : Nat) : ℚ) ≤ num / den := Nat.cast_div_le
    have hs'' : (2 : ℚ) ^ (p - 1) * 2 ^ e ≤ num / den := by
      refine le_trans ?_ hfl
      exact_mod_cast hs'
    have hm' : k' * 2 ^ e' ≤ 2 ^ (p - 1) * 2 ^ e := by
      calc k' * 2 ^ e' ≤ 2 ^ p * 2 ^ (e - 1) :=
            Nat.mul_le_mul hk'.le (Nat.pow_le_pow_right (by norm_num) (by omega))
        _ = 2 ^ (p - 1) * 2 ^ e := by rw [← pow_add, ← pow_add]; congr 1; omega
    have hm'' : (k' * 2 ^ e' : ℚ) ≤ 2 ^ (p - 1) * 2 ^ e := by exact_mod_cast hm'
    have h6 := hmul (2 ^ (p - 1))
    push_cast at h6 ⊢
    refine h6.trans ?_
    rw [abs_sub_comm, abs_sub_comm (k' * 2 ^ e' : ℚ), abs_of_nonneg (by linarith), abs_of_nonneg (by linarith)]
    linarith
  · have h7 := hmul (k' * 2 ^ (e' - e))
    have h8 : ((k' * 2 ^ (e' - e) : Nat) : ℚ) * 2 ^ e = k' * 2 ^ e' := by
      push_cast
      rw [mul_assoc, ← pow_add, Nat.sub_add_cancel hge]
    rw [h8] at h7
    push_cast
    exact h7

/-- Of two numbers equally near, rounding takes the one with the even significand. -/
theorem roundRat_tie {p num den m : Nat} (hp : 1 ≤ p) (hden : 0 < den) (hm : Representable p m)
    (hne : m ≠ roundRat p num den)
    (heq : |(m : ℚ) - num / den| = |(roundRat p num den : ℚ) - num / den|) (t : Nat) (ht : 2 ^ t ∣ m) :
    2 ^ (t + 1) ∣ roundRat p num den := by
  have hdq : (0 : ℚ) < den := by exact_mod_cast hden
  have hx : (num : ℚ) / den * den = num := by field_simp
  -- `m` is a multiple of the unit in the last place
  have hmul : 2 ^ ((num / den).size - p) ∣ m := by
    generalize he : (num / den).size - p = e
    obtain ⟨k', e', hk', rfl⟩ := id hm
    rcases Nat.lt_or_ge e' e with hlt | hge
    · have hs' : 2 ^ (p - 1) * 2 ^ e ≤ num / den := by
        by_contra hc
        rw [← pow_add] at hc
        have := Nat.size_le.2 (not_le.1 hc)
        omega
      have hfl : ((num / den : Nat) : ℚ) ≤ num / den := Nat.cast_div_le
      have hs'' : (2 : ℚ) ^ (p - 1) * 2 ^ e ≤ num / den := by
        refine le_trans ?_ hfl
        exact_mod_cast hs'
      have hm' : k' * 2 ^ e' ≤ 2 ^ (p - 1) * 2 ^ e := by
        calc k' * 2 ^ e' ≤ 2 ^ p * 2 ^ (e - 1) :=
              Nat.mul_le_mul hk'.le (Nat.pow_le_pow_right (by norm_num) (by omega))
          _ = 2 ^ (p - 1) * 2 ^ e := by rw [← pow_add, ← pow_add]; congr 1; omega
      rcases hm'.lt_or_eq with hm' | hm'
      · exfalso
        have hm'' : (k' * 2 ^ e' : ℚ) < 2 ^ (p - 1) * 2 ^ e := by exact_mod_cast hm'
        have h6 := roundRat_nearest (num := num) (den := den) hp hden
          (m := 2 ^ (p - 1) * 2 ^ e) ⟨2 ^ (p - 1), e, Nat.pow_lt_pow_right (by norm_num) (by omega), rfl⟩
        rw [← heq] at h6
        push_cast at h6
        rw [abs_sub_comm, abs_sub_comm ((2 : ℚ) ^ (p - 1) * 2 ^ e), abs_of_nonneg (by linarith),
          abs_of_nonneg (by linarith)] at h6
        linarith
      · rw [hm']; exact Dvd.intro_left _ rfl
    · exact Dvd.dvd.mul_left (Nat.pow_dvd_pow 2 hge) _
  have hD : 0 < den * 2 ^ ((num / den).size - p) := by positivity
  have hdm := Nat.div_add_mod num (den * 2 ^ ((num / den).size - p))
  have hlt := Nat.mod_lt num hD
  unfold roundRat at hne heq ⊢
  dsimp only at hne heq ⊢
  generalize (num / den).size - p = e at *
  obtain ⟨j, rfl⟩ := hmul
  generalize hde : den * 2 ^ e = d at *
  generalize num / d = k at *
  generalize num % d = r at *
  have h2 : 0 < 2 ^ e := by positivity
  -- the distances as integers
  have key : ∀ v : Nat, |((2 ^ e * j : Nat) : ℚ) - num / den| = |((v * 2 ^ e : Nat) : ℚ) - num / den| →
      |(d * j : ℤ) - num| = |(d * v : ℤ) - num| := by
    intro v h
    have h' : |((2 ^ e * j : Nat) : ℚ) - num / den| * |(den : ℚ)| = |((v * 2 ^ e : Nat) : ℚ) - num / den| * |(den : ℚ)| := by
      rw [h]
    rw [← abs_mul, ← abs_mul, sub_mul, sub_mul, hx] at h'
    have e1 : ((2 ^ e * j : Nat) : ℚ) * den = ((d * j : ℤ) : ℚ) := by rw [← hde]; push_cast; ring
    have e2 : ((v * 2 ^ e : Nat) : ℚ) * den = ((d * v : ℤ) : ℚ) := by rw [← hde]; push_cast; ring
    rw [e1, e2] at h'
    exact_mod_cast h'
  have odd_le : j % 2 = 1 → t ≤ e := by
    intro hj
    by_contra hc
    have h3 : 2 ^ (e + 1) ∣ 2 ^ e * j := (Nat.pow_dvd_pow 2 (by omega)).trans ht
    rw [pow_succ] at h3
    have := (Nat.mul_dvd_mul_iff_left h2).1 h3
    omega
  have even_dvd : ∀ v, v % 2 = 0 → t ≤ e → 2 ^ (t + 1) ∣ v * 2 ^ e := by
    intro v hv hte
    obtain ⟨w, rfl⟩ := Nat.dvd_of_mod_eq_zero hv
    have : 2 * w * 2 ^ e = 2 ^ (e + 1) * w := by rw [pow_succ]; ring
    rw [this]
    exact Dvd.dvd.mul_right (Nat.pow_dvd_pow 2 (by omega)) _
  have hdmz : (d * k + r : ℤ) = num := by exact_mod_cast hdm
  split at heq
  · rename_i hc
    rw [if_pos hc] at hne ⊢
    have h := key _ heq
    have hjk : j ≠ k + 1 := by rintro rfl; exact hne (Nat.mul_comm _ _)
    have hv : ((d : ℤ) * ((k + 1 : Nat) : ℤ)) - num = d - r := by rw [← hdmz]; push_cast; ring
    rw [hv, abs_of_nonneg (a := (d : ℤ) - r) (by omega)] at h
    have hj : (d : ℤ) * j - num = d * (j - k) - r := by rw [← hdmz]; ring
    rw [hj] at h
    rcases abs_eq (by omega) |>.1 h with h | h
    · exfalso
      have : (d : ℤ) * (j - k) = d * 1 := by linarith
      have := mul_left_cancel₀ (by omega) this
      omega
    · have h5 : (d : ℤ) * (j - k) = 2 * r - d := by linarith
      have h6 : (j : ℤ) - k = 0 := by
        rcases lt_trichotomy ((j : ℤ) - k) 0 with hl | hl | hl
        · have : (d : ℤ) * (j - k) ≤ d * (-1) := mul_le_mul_of_nonneg_left (by omega) (by omega)
          omega
        · exact hl
        · have : (d : ℤ) * 1 ≤ d * (j - k) := mul_le_mul_of_nonneg_left (by omega) (by omega)
          omega
      rw [h6] at h5
      have hr : 2 * r = d := by omega
      have hk : k % 2 = 1 := by omega
      exact even_dvd _ (by omega) (odd_le (by omega))
  · rename_i hc
    rw [if_neg hc] at hne ⊢
    have h := key _ heq
    have hjk : j ≠ k := by rintro rfl; exact hne (Nat.mul_comm _ _)
    have hv : ((d : ℤ) * (k : ℤ)) - num = -r := by rw [← hdmz]; ring
    rw [hv, abs_neg, abs_of_nonneg (a := (r : ℤ)) (by omega)] at h
    have hj : (d : ℤ) * j - num = d * (j - k) - r := by rw [← hdmz]; ring
    rw [hj] at h
    rcases abs_eq (by omega) |>.1 h with h | h
    · have h5 : (d : ℤ) * (j - k) = 2 * r := by linarith
      have h6 : (j : ℤ) - k = 1 := by
        rcases lt_trichotomy ((j : ℤ) - k) 1 with hl | hl | hl
        · have : (d : ℤ) * (j - k) ≤ d * (-1) := mul_le_mul_of_nonneg_left (by omega) (by omega)
          omega
        · exact hl
        · have : (d : ℤ) * 2 ≤ d * (j - k) := mul_le_mul_of_nonneg_left (by omega) (by omega)
          omega
      rw [h6] at h5
      exact even_dvd _ (by omega) (odd_le (by omega))
    · exfalso
      have : (d : ℤ) * (j - k) = 0 := by linarith
      rcases mul_eq_zero.1 this with h | h <;> omega
/-! ## The arithmetic operations -/

namespace Fl
variable {f : FlFmt}

theorem uro_nonneg : 0 ≤ uro f := by unfold uro; positivity
theorem eta_nonneg : 0 ≤ eta f := by unfold eta; positivity

theorem isFinite_iff {x : Fl f} : x.isFinite = true ↔ ∃ s a, x = .fin s a := by
  cases x <;> simp [isFinite]

theorem add_def (x y : Fl f) : x + y = add x y := rfl
theorem mul_def (x y : Fl f) : x * y = mul x y := rfl
theorem sub_def (x y : Fl f) : x - y = x + -y := rfl
theorem neg_def (x : Fl f) : -x = neg x := rfl

theorem pack_fin {s t : Bool} {m k : Nat} (h : (pack s m : Fl f) = .fin t k) : s = t ∧ m = k ∧ k < 2 ^ f.w := by
  unfold pack at h
  split at h
  · cases h; exact ⟨rfl, rfl, by assumption⟩
  · cases h

theorem pack_isFinite {s : Bool} {m : Nat} : (pack s m : Fl f).isFinite = true ↔ m < 2 ^ f.w := by
  unfold pack
  split <;> simp [isFinite, *]

theorem toRat_pack {s : Bool} {m : Nat} (h : (pack s m : Fl f).isFinite = true) :
    (pack s m : Fl f).toRat = (if s then -1 else 1) * (m / 2 ^ f.q) := by
  rw [pack_isFinite] at h
  simp [pack, h, toRat]

@[simp] theorem toRat_zero : (0 : Fl f).toRat = 0 := by
  show (if false = true then (-1 : ℚ) else 1) * ((0 : Nat) / 2 ^ f.q) = 0
  simp

@[simp] theorem isFinite_zero : (0 : Fl f).isFinite = true := rfl

theorem toRat_neg (x : Fl f) : (-x).toRat = -x.toRat := by
  cases x with
  | fin s a => cases s <;> simp [neg_def, neg, toRat]
  | _ => simp [neg_def, neg, toRat]

theorem isFinite_neg (x : Fl f) : (-x).isFinite = x.isFinite := by
  cases x <;> rfl

theorem isZero_iff {x : Fl f} : isZero x = true ↔ ∃ s, x = .fin s 0 := by
  cases x with
  | nan => simp [isZero, BEq.beq, beq]
  | inf s => simp [isZero, BEq.beq, beq]
  | fin s a =>
    show beq (.fin s a) (.fin false 0) = true ↔ _
    simp [beq]
    exact fun h => .inr h

theorem isZero_iff_toRat {x : Fl f} (h : x.isFinite = true) : isZero x = true ↔ x.toRat = 0 := by
  obtain ⟨s, a, rfl⟩ := isFinite_iff.1 h
  rw [isZero_iff]
  have h2 : ((2 : ℚ) ^ f.q) ≠ 0 := by positivity
  constructor
  · rintro ⟨t, h⟩
    cases h
    simp [toRat]
  · intro h
    have : a = 0 := by
      simp only [toRat, mul_eq_zero, div_eq_zero_iff, h2, or_false] at h
      rcases h with h | h
      · split at h <;> norm_num at h
      · exact_mod_cast h
    exact ⟨s, by rw [this]⟩

theorem sign_abs (s : Bool) : |(if s then (-1 : ℚ) else 1)| = 1 := by cases s <;> simp

theorem units_error {s : Bool} {n m : Nat} {p : Nat} (h : |(n : ℚ) - m| ≤ (m : ℚ) / 2 ^ p) :
    |(if s then (-1 : ℚ) else 1) * (n / 2 ^ f.q) - (if s then (-1 : ℚ) else 1) * (m / 2 ^ f.q)| ≤
      1 / 2 ^ p * |(if s then (-1 : ℚ) else 1) * (m / 2 ^ f.q)| := by
  rw [← mul_sub, abs_mul, abs_mul, sign_abs, ← sub_div, abs_div, abs_of_pos (a := (2 : ℚ) ^ f.q) (by positivity),
    abs_of_nonneg (a := (m : ℚ) / 2 ^ f.q) (by positivity), one_mul, one_mul]
  have : (1 : ℚ) / 2 ^ p * (m / 2 ^ f.q) = m / 2 ^ p / 2 ^ f.q := by ring
  rw [this]
  exact div_le_div_of_nonneg_right h (by positivity)

/-- A finite sum comes from finite operands. -/
theorem finite_of_add {x y : Fl f} (h : (x + y).isFinite = true) : x.isFinite = true ∧ y.isFinite = true := by
  obtain ⟨s, a, h⟩ := isFinite_iff.1 h
  rw [add_def] at h
  cases x <;> cases y <;> simp [add, isFinite] at h ⊢
  split at h <;> cases h

/-- A finite product comes from finite operands. -/
theorem finite_of_mul {x y : Fl f} (h : (x * y).isFinite = true) : x.isFinite = true ∧ y.isFinite = true := by
  obtain ⟨s, a, h⟩ := isFinite_iff.1 h
  rw [mul_def] at h
  cases x <;> cases y <;> simp [mul, isFinite] at h ⊢ <;> split at h <;> cases h

/-- Addition is correctly rounded: relative error at most `2^-p`, also for subnormal results. -/
theorem add_error {x y : Fl f} (h : (x + y).isFinite = true) :
    |(x + y).toRat - (x.toRat + y.toRat)| ≤ uro f * |x.toRat + y.toRat| := by
  obtain ⟨hx, hy⟩ := finite_of_add h
  obtain ⟨s, a, rfl⟩ := isFinite_iff.1 hx
  obtain ⟨t, b, rfl⟩ := isFinite_iff.1 hy
  rw [add_def] at h ⊢
  unfold add at h ⊢
  by_cases hst : s = t
  · subst hst
    simp only [if_true] at h ⊢
    rw [toRat_pack h]
    have e : (fin s a : Fl f).toRat + (fin s b : Fl f).toRat =
        (if s then (-1 : ℚ) else 1) * (((a + b : Nat) : ℚ) / 2 ^ f.q) := by
      simp only [toRat]; push_cast; ring
    rw [e]
    exact units_error (roundRat_one_error _ _)
  · have ht : t = !s := by cases s <;> cases t <;> simp_all
    subst ht
    simp only [if_neg hst] at h ⊢
    by_cases hab : a = b
    · subst hab
      rw [if_pos rfl]
      have e : (fin s a : Fl f).toRat + (fin (!s) a : Fl f).toRat = 0 := by
        cases s <;> simp [toRat]
      rw [e]
      simp [toRat]
    · simp only [if_neg hab] at h ⊢
      by_cases hlt : b < a
      · simp only [if_pos hlt] at h ⊢
        rw [toRat_pack h]
        have e : (fin s a : Fl f).toRat + (fin (!s) b : Fl f).toRat =
            (if s then (-1 : ℚ) else 1) * (((a - b : Nat) : ℚ) / 2 ^ f.q) := by
          rw [Nat.cast_sub hlt.le]; cases s <;> simp [toRat] <;> ring
        rw [e]
        exact units_error (roundRat_one_error _ _)
      · simp only [if_neg hlt] at h ⊢
        rw [toRat_pack h]
        have e : (fin s a : Fl f).toRat + (fin (!s) b : Fl f).toRat =
            (if !s then (-1 : ℚ) else 1) * (((b - a : Nat) : ℚ) / 2 ^ f.q) := by
          rw [Nat.cast_sub (not_lt.1 hlt)]; cases s <;> simp [toRat] <;> ring
        rw [e]
        exact units_error (roundRat_one_error _ _)

theorem sub_error {x y : Fl f} (h : (x - y).isFinite = true) :
    |(x - y).toRat - (x.toRat - y.toRat)| ≤ uro f * |x.toRat - y.toRat| := by
  have := add_error (x := x) (y := -y) h
  rw [toRat_neg] at this
  simpa [sub_def, sub_eq_add_neg] using this

theorem finite_of_sub {x y : Fl f} (h : (x - y).isFinite = true) : x.isFinite = true ∧ y.isFinite = true := by
  have := finite_of_add (x := x) (y := -y) h
  rwa [isFinite_neg] at this

theorem ratio_error {p num den : Nat} (hden : 0 < den) (s : Bool) :
    |(if s then (-1 : ℚ) else 1) * (roundRat p num den / 2 ^ f.q) -
        (if s then (-1 : ℚ) else 1) * (num / den / 2 ^ f.q)| ≤
      1 / 2 ^ p * |(if s then (-1 : ℚ) else 1) * (num / den / 2 ^ f.q)| + eta f := by
  rw [← mul_sub, abs_mul, abs_mul, sign_abs, ← sub_div, abs_div, abs_of_pos (a := (2 : ℚ) ^ f.q) (by positivity),
    abs_of_nonneg (a := (num : ℚ) / den / 2 ^ f.q) (by positivity), one_mul, one_mul]
  have e : (1 : ℚ) / 2 ^ p * (num / den / 2 ^ f.q) = num / den / 2 ^ p / 2 ^ f.q := by ring
  rw [e]
  rcases roundRat_error (p := p) (num := num) hden with h | ⟨h, _⟩
  · have := div_le_div_of_nonneg_right h (by positivity : (0 : ℚ) ≤ 2 ^ f.q)
    have := eta_nonneg (f := f)
    linarith
  · have h1 := div_le_div_of_nonneg_right h (by positivity : (0 : ℚ) ≤ 2 ^ f.q)
    have h2 : (1 : ℚ) / 2 / 2 ^ f.q = eta f := by unfold eta; ring
    have h3 : (0 : ℚ) ≤ num / den / 2 ^ p / 2 ^ f.q := by positivity
    linarith

/-- Multiplication: relative error at most `2^-p`, plus half the smallest number on underflow. -/
theorem mul_error {x y : Fl f} (h : (x * y).isFinite = true) :
    |(x * y).toRat - x.toRat * y.toRat| ≤ uro f * |x.toRat * y.toRat| + eta f := by
  obtain ⟨hx, hy⟩ := finite_of_mul h
  obtain ⟨s, a, rfl⟩ := isFinite_iff.1 hx
  obtain ⟨t, b, rfl⟩ := isFinite_iff.1 hy
  rw [mul_def] at h ⊢
  unfold mul at h ⊢
  rw [toRat_pack h]
  have e : (fin s a : Fl f).toRat * (fin t b : Fl f).toRat =
      (if (s != t) then (-1 : ℚ) else 1) * (((a * b : Nat) : ℚ) / ((2 ^ f.q : Nat) : ℚ) / 2 ^ f.q) := by
    simp only [toRat]
    push_cast
    cases s <;> cases t <;> simp <;> ring
  rw [e]
  exact ratio_error (by positivity) _

/-- Division of finite numbers by a non-zero one: relative error at most `2^-p`, plus half the smallest number
on underflow. -/
theorem div_error {x y : Fl f} (hx : x.isFinite = true) (hy : y.isFinite = true) (h0 : y.toRat ≠ 0)
    (h : (div x y).isFinite = true) :
    |(div x y).toRat - x.toRat / y.toRat| ≤ uro f * |x.toRat / y.toRat| + eta f := by
  obtain ⟨s, a, rfl⟩ := isFinite_iff.1 hx
  obtain ⟨t, b, rfl⟩ := isFinite_iff.1 hy
  have hb : b ≠ 0 := by
    rintro rfl
    simp [toRat] at h0
  unfold div at h ⊢
  simp only [if_neg hb] at h ⊢
  rw [toRat_pack h]
  have hbq : (b : ℚ) ≠ 0 := by exact_mod_cast hb
  have e : (fin s a : Fl f).toRat / (fin t b : Fl f).toRat =
      (if (s != t) then (-1 : ℚ) else 1) * (((a * 2 ^ f.q : Nat) : ℚ) / b / 2 ^ f.q) := by
    simp only [toRat]
    push_cast
    have h2 : ((2 : ℚ) ^ f.q) ≠ 0 := by positivity
    cases s <;> cases t <;> simp <;> field_simp
  rw [e]
  exact ratio_error (Nat.pos_of_ne_zero hb) _

end Fl
end Rustnomial
