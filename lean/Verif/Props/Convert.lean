import Verif.Props.Sqrt
import Mathlib.Data.Rat.Cast.Order
import Mathlib.Data.Rat.Cast.CharZero
import Mathlib.Tactic.FieldSimp
import Mathlib.Tactic.NormNum

/-!
# C41: conversions from `usize`
-/

set_option linter.unusedVariables false

namespace Rustnomial

theorem tryFromUsizeContInt_eq (uw : Nat) (t : IntTy) (hb : 1 ≤ t.bits) (num : Nat)
    (hnum : num < 2 ^ uw) :
    tryFromUsizeContInt uw t num = if t.InRange num then some (num : Int) else none := by
  obtain ⟨s, b⟩ := t
  simp only at hb
  unfold tryFromUsizeContInt
  cases s
  · simp only [Bool.false_eq_true, if_false, decide_eq_true_eq]
    by_cases h : b ≥ uw
    · have hlt : num < 2 ^ b := lt_of_lt_of_le hnum (Nat.pow_le_pow_right (by norm_num) h)
      have hin : (⟨false, b⟩ : IntTy).InRange num := by
        simp only [IntTy.InRange, IntTy.min, IntTy.max, Bool.false_eq_true, if_false]
        have : ((2 ^ b : Nat) : Int) = 2 ^ b := by push_cast; rfl
        omega
      rw [if_pos h, if_pos hin, IntTy.wrap_of_inRange _ hb _ hin]
    · rw [if_neg h]
      have hmax : (⟨false, uw⟩ : IntTy).wrap (⟨false, b⟩ : IntTy).max = (⟨false, b⟩ : IntTy).max := by
        apply IntTy.wrap_of_inRange _ (by show 1 ≤ uw; omega)
        simp only [IntTy.InRange, IntTy.min, IntTy.max, Bool.false_eq_true, if_false]
        have h1 : (2 : Int) ^ b ≤ 2 ^ uw := pow_le_pow_right₀ (by norm_num) (by omega)
        have h2 : (0 : Int) < 2 ^ b := by positivity
        omega
      rw [hmax]
      by_cases hin : (⟨false, b⟩ : IntTy).InRange num
      · rw [if_neg (by have := hin.2; omega), if_pos hin, IntTy.wrap_of_inRange _ hb _ hin]
      · rw [if_neg hin, if_pos]
        by_contra hc
        exact hin ⟨by simp [IntTy.min], by omega⟩
  · simp only [if_true, decide_eq_true_eq]
    by_cases h : b > uw
    · have hlt : num < 2 ^ (b - 1) := lt_of_lt_of_le hnum (Nat.pow_le_pow_right (by norm_num) (by omega))
      have hin : (⟨true, b⟩ : IntTy).InRange num := by
        simp only [IntTy.InRange, IntTy.min, IntTy.max, if_true]
        have : ((2 ^ (b - 1) : Nat) : Int) = 2 ^ (b - 1) := by push_cast; rfl
        omega
      rw [if_pos h, if_pos hin, IntTy.wrap_of_inRange _ hb _ hin]
    · rw [if_neg h]
      have hmax : (⟨false, uw⟩ : IntTy).wrap (⟨true, b⟩ : IntTy).max = (⟨true, b⟩ : IntTy).max := by
        apply IntTy.wrap_of_inRange _ (by show 1 ≤ uw; omega)
        simp only [IntTy.InRange, IntTy.min, IntTy.max, Bool.false_eq_true, if_false, if_true]
        have h1 : (2 : Int) ^ (b - 1) ≤ 2 ^ uw := pow_le_pow_right₀ (by norm_num) (by omega)
        have h2 : (0 : Int) < 2 ^ (b - 1) := by positivity
        omega
      rw [hmax]
      by_cases hin : (⟨true, b⟩ : IntTy).InRange num
      · rw [if_neg (by have := hin.2; omega), if_pos hin, IntTy.wrap_of_inRange _ hb _ hin]
      · rw [if_neg hin, if_pos]
        by_contra hc
        refine hin ⟨?_, by omega⟩
        simp only [IntTy.min, if_true]
        have h2 : (0 : Int) < 2 ^ (b - 1) := by positivity
        omega

/-- **C41**, integer targets.  For every width of `usize`, every integer type and every `usize`
value, both conversions succeed exactly when the number is a value of the type, and return it. -/
theorem C41_int (uw : Nat) (t : IntTy) (hb : 1 ≤ t.bits) (num : Nat) (hnum : num < 2 ^ uw)
    (v : Int) :
    (tryFromUsizeContInt uw t num = some v ↔ v = num ∧ t.InRange num) ∧
    (tryFromUsizeExactInt uw t num = some v ↔ v = num ∧ t.InRange num) := by
  have h := tryFromUsizeContInt_eq uw t hb num hnum
  have h2 : tryFromUsizeExactInt uw t num = tryFromUsizeContInt uw t num := rfl
  rw [h2, h]
  by_cases hin : t.InRange num
  · simp [hin, eq_comm]
  · simp [hin]

/-- **C41**, integer targets: the continuous conversion guarantees every smaller number too. -/
theorem C41_int_continuous (uw : Nat) (t : IntTy) (hb : 1 ≤ t.bits) (num : Nat) (hnum : num < 2 ^ uw)
    (v : Int) (h : tryFromUsizeContInt uw t num = some v) :
    ∀ m : Nat, m ≤ num → t.InRange m ∧ tryFromUsizeContInt uw t m = some (m : Int) := by
  intro m hm
  have hin := (((C41_int uw t hb num hnum v).1).1 h).2
  have hin2 : t.InRange (m : Int) := by
    refine ⟨?_, le_trans (by exact_mod_cast hm) hin.2⟩
    refine le_trans ?_ (Int.natCast_nonneg m)
    unfold IntTy.min
    split
    · have : (0 : Int) < 2 ^ (t.bits - 1) := by positivity
      omega
    · exact le_rfl
  exact ⟨hin2, ((C41_int uw t hb m (by omega) m).1).2 ⟨rfl, hin2⟩⟩

-- Non-vacuity: i8 and u128 on a 64-bit machine
example : tryFromUsizeContInt 64 ⟨true, 8⟩ 127 = some 127 := by decide +kernel
example : tryFromUsizeContInt 64 ⟨true, 8⟩ 128 = none := by decide +kernel
example : tryFromUsizeExactInt 64 ⟨true, 64⟩ (2 ^ 63) = none := by decide +kernel
example : tryFromUsizeExactInt 64 ⟨false, 128⟩ (2 ^ 64 - 1) = some (2 ^ 64 - 1) := by decide +kernel

/-! ## Floats -/

/-- Specification: the natural number `m` is exactly representable with `p` significant bits. -/
def Representable (p m : Nat) : Prop := ∃ k e : Nat, k < 2 ^ p ∧ m = k * 2 ^ e

theorem representable_of_lt {p m : Nat} (h : m < 2 ^ p) : Representable p m := ⟨m, 0, h, by simp⟩

theorem representable_le {p m : Nat} (h : m ≤ 2 ^ p) (hp : 1 ≤ p) : Representable p m := by
  rcases Nat.lt_or_ge m (2 ^ p) with h1 | h1
  · exact representable_of_lt h1
  · exact ⟨1, p, Nat.one_lt_two_pow (by omega), by omega⟩

theorem roundNat_of_representable {p m : Nat} (h : Representable p m) : roundNat p m = m := by
  obtain ⟨k, e, hk, rfl⟩ := h
  have hdvd : 2 ^ ((k * 2 ^ e).size - p) ∣ k * 2 ^ e := by
    apply Dvd.dvd.mul_left
    apply pow_dvd_pow
    have : (k * 2 ^ e).size ≤ p + e := by
      apply Nat.size_le.2
      rw [pow_add]
      exact Nat.mul_lt_mul_of_pos_right hk (by positivity)
    omega
  unfold roundNat
  simp only [Nat.mod_eq_zero_of_dvd hdvd]
  rw [if_neg]
  · exact Nat.div_mul_cancel hdvd
  · have : 0 < 2 ^ ((k * 2 ^ e).size - p) := by positivity
    omega

theorem roundNat_quot_lt (p n : Nat) : n / 2 ^ (n.size - p) < 2 ^ p := by
  rw [Nat.div_lt_iff_lt_mul (by positivity), ← pow_add]
  exact lt_of_lt_of_le (Nat.lt_size_self n) (Nat.pow_le_pow_right (by norm_num) (by omega))

theorem representable_roundNat (p n : Nat) (hp : 1 ≤ p) : Representable p (roundNat p n) := by
  have hq := roundNat_quot_lt p n
  unfold roundNat
  dsimp only
  split
  · rcases Nat.lt_or_ge (n / 2 ^ (n.size - p) + 1) (2 ^ p) with h | h
    · exact ⟨_, _, h, rfl⟩
    · have : n / 2 ^ (n.size - p) + 1 = 2 ^ p := by omega
      rw [this]
      exact ⟨1, p + (n.size - p), Nat.one_lt_two_pow (by omega), by rw [pow_add]; ring⟩
  · exact ⟨_, _, hq, rfl⟩

theorem roundNat_eq_self_iff (p n : Nat) (hp : 1 ≤ p) : roundNat p n = n ↔ Representable p n :=
  ⟨fun h => h ▸ representable_roundNat p n hp, roundNat_of_representable⟩

/-- **C41**, `f32` continuous: succeeds exactly up to `2^24`, gives the number itself, and every
smaller number is representable; `2^24 + 1` is not, so the bound is the best possible. -/
theorem C41_cont_f32 (num : Nat) :
    (∀ v, tryFromUsizeContF32 num = some v ↔ v = num ∧ ∀ m ≤ num, Representable 24 m) := by
  intro v
  unfold tryFromUsizeContF32
  have e : 2 <<< 23 = 2 ^ 24 := by decide
  rw [e]
  by_cases h : num > 2 ^ 24
  · rw [if_pos h]
    simp only [reduceCtorEq, false_iff, not_and]
    intro _ hall
    obtain ⟨k, e, hk, hke⟩ := hall (2 ^ 24 + 1) h
    cases e with
    | zero => simp only [pow_zero, mul_one] at hke; omega
    | succ e => rw [pow_succ 2 e, ← mul_assoc] at hke; omega
  · rw [if_neg h]
    have hrep : ∀ m ≤ num, Representable 24 m := fun m hm => representable_le (by omega) (by norm_num)
    rw [roundNat_of_representable (hrep num le_rfl)]
    simp only [Option.some.injEq]
    exact ⟨fun h => ⟨h.symm, hrep⟩, fun h => h.1.symm⟩

/-- **C41**, `f64` continuous, soundness: success exactly up to `2^52`, the number itself, and every
smaller number is representable.  Missing for the full claim: it fails too often, see
`C41_cont_f64_false`. -/
theorem C41_cont_f64_partial (num : Nat) :
    (∀ v, tryFromUsizeContF64 num = some v ↔ v = num ∧ num ≤ 2 ^ 52) ∧
    (∀ v, tryFromUsizeContF64 num = some v → ∀ m ≤ num, Representable 53 m) := by
  have e : 2 <<< 51 = 2 ^ 52 := by decide
  have key : ∀ v, tryFromUsizeContF64 num = some v ↔ v = num ∧ num ≤ 2 ^ 52 := by
    intro v
    unfold tryFromUsizeContF64
    rw [e]
    by_cases h : num > 2 ^ 52
    · rw [if_pos h]
      simp only [reduceCtorEq, false_iff, not_and]
      omega
    · rw [if_neg h, roundNat_of_representable (representable_le (by omega) (by norm_num))]
      simp only [Option.some.injEq]
      exact ⟨fun h1 => ⟨h1.symm, by omega⟩, fun h => h.1.symm⟩
  refine ⟨key, fun v hv m hm => representable_le ?_ (by norm_num)⟩
  have := ((key v).1 hv).2
  omega

/-- **C41**, `f64` continuous: the claim "fails only if the number or a smaller one is not
representable" is false: every number up to `2^53` is representable, yet the conversion refuses
everything above `2^52` (`2 << 51` is `2^52`, where `f32` uses its full `2^24`). -/
theorem C41_cont_f64_false (num : Nat) (h1 : 2 ^ 52 < num) (h2 : num ≤ 2 ^ 53) :
    tryFromUsizeContF64 num = none ∧ ∀ m ≤ num, Representable 53 m := by
  constructor
  · cases h : tryFromUsizeContF64 num with
    | none => rfl
    | some v => have := (((C41_cont_f64_partial num).1 v).1 h).2; omega
  · exact fun m hm => representable_le (by omega) (by norm_num)

example : tryFromUsizeContF64 (2 ^ 52 + 1) = none := (C41_cont_f64_false _ (by norm_num) (by norm_num)).1

/-- **C41**, exact conversion to floats (`p = 24` for `f32`, `p = 53` for `f64`, any `usize` width):
for every value other than `usize::MAX` it succeeds exactly when the number is representable, and
returns that number. -/
theorem C41_exact_float_partial (uw p num : Nat) (hp : 1 ≤ p) (hnum : num < 2 ^ uw)
    (hmax : num ≠ 2 ^ uw - 1) (v : Nat) :
    tryFromUsizeExactFloat uw p num = some v ↔ v = num ∧ Representable p num := by
  unfold tryFromUsizeExactFloat floatToUsize
  dsimp only
  rw [← roundNat_eq_self_iff p num hp]
  by_cases h : roundNat p num ≤ 2 ^ uw - 1
  · rw [if_pos h]
    by_cases h2 : roundNat p num = num
    · simp [h2, eq_comm]
    · simp [h2]
  · rw [if_neg h, if_neg (by omega)]
    simp only [reduceCtorEq, false_iff, not_and]
    omega

/-- **C41** is false for the exact conversion of `usize::MAX` to a float with fewer bits than
`usize`: the cast rounds up to `2^uw`, the check casts that back *saturating* to `usize::MAX`, and
the conversion reports success with a different number. -/
theorem C41_exact_float_false (uw p : Nat) (hp : 1 ≤ p) (h : p < uw) :
    tryFromUsizeExactFloat uw p (2 ^ uw - 1) = some (2 ^ uw) ∧
      ¬ Representable p (2 ^ uw - 1) := by
  have hpos : 1 < 2 ^ uw := Nat.one_lt_two_pow (by omega)
  have hround : roundNat p (2 ^ uw - 1) = 2 ^ uw := by
    have hsize : (2 ^ uw - 1).size = uw := by
      apply le_antisymm
      · exact Nat.size_le.2 (by omega)
      · by_contra hc
        have hlt : 2 ^ uw - 1 < 2 ^ (uw - 1) := Nat.size_le.1 (by omega)
        have e : 2 ^ uw = 2 * 2 ^ (uw - 1) := by rw [← pow_succ']; congr 1; omega
        omega
    unfold roundNat
    rw [hsize]
    have e : 2 ^ uw = 2 ^ p * 2 ^ (uw - p) := by rw [← pow_add]; congr 1; omega
    have hE : 2 ≤ 2 ^ (uw - p) := by
      calc 2 = 2 ^ 1 := by norm_num
        _ ≤ _ := Nat.pow_le_pow_right (by norm_num) (by omega)
    have hP : 2 ≤ 2 ^ p := by
      calc 2 = 2 ^ 1 := by norm_num
        _ ≤ _ := Nat.pow_le_pow_right (by norm_num) hp
    have hEven : 2 ^ p % 2 = 0 := by
      obtain ⟨p', rfl⟩ : ∃ p', p = p' + 1 := ⟨p - 1, by omega⟩
      rw [pow_succ]; omega
    have e2 : 2 ^ uw - 1 = (2 ^ p - 1) * 2 ^ (uw - p) + (2 ^ (uw - p) - 1) := by
      rw [e, Nat.sub_mul]
      have : 1 * 2 ^ (uw - p) ≤ 2 ^ p * 2 ^ (uw - p) := Nat.mul_le_mul_right _ (by omega)
      omega
    have hq : (2 ^ uw - 1) / 2 ^ (uw - p) = 2 ^ p - 1 := by
      rw [e2, Nat.add_comm, Nat.add_mul_div_right _ _ (by omega), Nat.div_eq_of_lt (by omega)]
      omega
    have hr : (2 ^ uw - 1) % 2 ^ (uw - p) = 2 ^ (uw - p) - 1 := by
      rw [e2, Nat.add_comm, Nat.add_mul_mod_self_right]
      exact Nat.mod_eq_of_lt (by omega)
    dsimp only
    rw [hq, hr, if_pos (by omega), e]
    congr 1
    omega
  constructor
  · unfold tryFromUsizeExactFloat floatToUsize
    dsimp only
    rw [hround, if_neg (show ¬ 2 ^ uw ≤ 2 ^ uw - 1 by omega), if_pos rfl]
  · rw [← roundNat_eq_self_iff p _ hp, hround]
    omega

-- The instances on a 64-bit machine
example : tryFromUsizeExactFloat 64 53 (2 ^ 64 - 1) = some (2 ^ 64) :=
  (C41_exact_float_false 64 53 (by norm_num) (by norm_num)).1
example : tryFromUsizeExactFloat 64 53 (2 ^ 53 + 1) = none := by decide +kernel
example : tryFromUsizeExactFloat 64 53 (2 ^ 53 + 2) = some (2 ^ 53 + 2) := by decide +kernel
example : tryFromUsizeExactFloat 64 24 (2 ^ 24 + 1) = none := by decide +kernel

/-- The rounding used to model float casts is rounding to a nearest representable number: no
representable number is closer. -/
theorem roundNat_nearest (p n m : Nat) (hp : 1 ≤ p) (hm : Representable p m) :
    |(roundNat p n : Int) - n| ≤ |(m : Int) - n| := by
  rcases Nat.lt_or_ge p n.size |>.symm with hsz | hsz
  · rw [roundNat_of_representable (representable_of_lt (Nat.size_le.1 hsz))]
    simp
  · obtain ⟨e, he⟩ : ∃ e, n.size - p = e := ⟨_, rfl⟩
    have hE : 0 < 2 ^ e := by positivity
    have hn : 2 ^ e * (n / 2 ^ e) + n % 2 ^ e = n := Nat.div_add_mod _ _
    have hr : n % 2 ^ e < 2 ^ e := Nat.mod_lt _ hE
    have hqlow : 2 ^ (p - 1) ≤ n / 2 ^ e := by
      rw [Nat.le_div_iff_mul_le hE, ← pow_add]
      by_contra hc
      have : n.size ≤ p - 1 + e := Nat.size_le.2 (by omega)
      omega
    -- every representable number is at least min(r, E - r) away
    have hfar : m ≤ 2 ^ e * (n / 2 ^ e) ∨ 2 ^ e * (n / 2 ^ e + 1) ≤ m := by
      obtain ⟨k, f, hk, rfl⟩ := hm
      rcases Nat.lt_or_ge f e with hfe | hfe
      · left
        have h1 : k * 2 ^ f ≤ 2 ^ p * 2 ^ f := Nat.mul_le_mul_right _ hk.le
        have h2 : 2 ^ p * 2 ^ f ≤ 2 ^ e * 2 ^ (p - 1) := by
          rw [← pow_add, ← pow_add]
          exact Nat.pow_le_pow_right (by norm_num) (by omega)
        have h3 : 2 ^ e * 2 ^ (p - 1) ≤ 2 ^ e * (n / 2 ^ e) := Nat.mul_le_mul_left _ hqlow
        omega
      · have hd : k * 2 ^ f = 2 ^ e * (k * 2 ^ (f - e)) := by
          rw [show 2 ^ f = 2 ^ e * 2 ^ (f - e) by rw [← pow_add]; congr 1; omega]; ring
        rw [hd]
        rcases Nat.lt_or_ge (n / 2 ^ e) (k * 2 ^ (f - e)) with h | h
        · exact .inr (Nat.mul_le_mul_left _ h)
        · exact .inl (Nat.mul_le_mul_left _ h)
    have hround : roundNat p n = 2 ^ e * (n / 2 ^ e) ∧ 2 * (n % 2 ^ e) ≤ 2 ^ e ∨
        roundNat p n = 2 ^ e * (n / 2 ^ e + 1) ∧ 2 ^ e ≤ 2 * (n % 2 ^ e) := by
      unfold roundNat
      rw [he]
      dsimp only
      split
      · right; exact ⟨by ring, by omega⟩
      · left; exact ⟨by ring, by omega⟩
    rw [Nat.mul_add, mul_one] at hfar hround
    generalize 2 ^ e * (n / 2 ^ e) = Q at *
    generalize n % 2 ^ e = r at *
    generalize 2 ^ e = E at *
    have key : ∀ a b : Int, -|b| ≤ a → a ≤ |b| → |a| ≤ |b| := fun a b h1 h2 => abs_le.2 ⟨h1, h2⟩
    rcases abs_cases ((m : Int) - n) with ⟨h1, h2⟩ | ⟨h1, h2⟩ <;> apply key <;> rw [h1] <;> omega

/-- The same rounding is monotone up to representability: a value between representable bounds
stays between them (so a `usize` never rounds below `0` or above `2^uw`). -/
theorem roundNat_le (p n b : Nat) (hp : 1 ≤ p) (hb : Representable p b) (h : n ≤ b) :
    roundNat p n ≤ b := by
  have := roundNat_nearest p n b hp hb
  by_contra hc
  rw [abs_of_nonneg (by omega), abs_of_nonneg (by omega)] at this
  omega

end Rustnomial
