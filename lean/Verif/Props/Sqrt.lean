import Verif.Model.Numerics
import Mathlib.Data.Nat.Sqrt
import Mathlib.Tactic.Ring
import Mathlib.Tactic.Linarith
import Mathlib.Tactic.IntervalCases

/-!
# C40: integer square root
-/

set_option linter.unusedVariables false

namespace Rustnomial

/-- Arithmetic mean of `g` and `n / g` is at least the square root. -/
theorem sqrt_le_newton (n g : Nat) (hg : 0 < g) : n.sqrt ≤ (g + n / g) / 2 := by
  rw [Nat.le_div_iff_mul_le (by norm_num)]
  have hs : n.sqrt * n.sqrt ≤ n := Nat.sqrt_le n
  generalize n.sqrt = s at hs
  by_cases h : s * 2 ≤ g
  · exact le_trans h (Nat.le_add_right _ _)
  · have h1 : s * 2 - g ≤ n / g := by
      rw [Nat.le_div_iff_mul_le hg]
      refine le_trans ?_ hs
      obtain ⟨d, hd⟩ : ∃ d, s * 2 = g + d := ⟨s * 2 - g, by omega⟩
      have e : s * 2 - g = d := by omega
      rw [e]
      zify at hd ⊢
      nlinarith [sq_nonneg ((d : Int) - g)]
    omega

theorem div_le_of_ge_sqrt (n g : Nat) (hg : n.sqrt ≤ g) (h0 : 0 < n.sqrt) : n / g ≤ n.sqrt + 2 := by
  have hlt : n < (n.sqrt + 1) * (n.sqrt + 1) := Nat.lt_succ_sqrt n
  generalize n.sqrt = s at hlt hg h0
  have : n / g ≤ n / s := Nat.div_le_div_left hg h0
  have : n / s < s + 3 := by
    rw [Nat.div_lt_iff_lt_mul h0]
    nlinarith
  omega

theorem div_le_of_gt_sqrt (n g : Nat) (hg : n.sqrt < g) : n / g ≤ n.sqrt := by
  have hlt : n < (n.sqrt + 1) * (n.sqrt + 1) := Nat.lt_succ_sqrt n
  generalize n.sqrt = s at hlt hg
  have : n / g ≤ n / (s + 1) := Nat.div_le_div_left hg (by omega)
  have : n / (s + 1) < s + 1 := by
    rw [Nat.div_lt_iff_lt_mul (by omega)]
    exact hlt
  omega

theorem absSqrtLoop_spec (h n : Nat) (hh : 2 ≤ h) (hn : 2 ≤ n) (hlt : n < 2 ^ (2 * h) - 1) :
    ∀ (fuel guess res : Nat), n.sqrt ≤ res → res ≤ 2 ^ h - 1 → res - n.sqrt + 2 ≤ fuel →
      ∃ r, absSqrtLoop (2 * h) n fuel guess res = .ok r ∧ n.sqrt ≤ r ∧ r ≤ 2 ^ h - 1 ∧
        r ≤ res + 1 := by
  have hs0 : 0 < n.sqrt := Nat.sqrt_pos.2 (by omega)
  have hp : 2 ^ (2 * h) = 2 ^ h * 2 ^ h := by rw [two_mul, pow_add]
  have h4 : 4 ≤ 2 ^ h := by
    calc 4 = 2 ^ 2 := by norm_num
      _ ≤ 2 ^ h := Nat.pow_le_pow_right (by norm_num) hh
  intro fuel
  induction fuel with
  | zero => intro guess res _ _ hf; omega
  | succ f ih =>
    intro guess res hge hle hf
    rw [absSqrtLoop]
    by_cases hbrk : (if res > guess then decide (res - guess ≤ 1) else decide (guess - res ≤ 1)) = true
    · rw [if_pos hbrk]
      exact ⟨res, rfl, hge, hle, by omega⟩
    · rw [if_neg hbrk]
      have hres : 0 < res := by omega
      have h44 : 4 * 2 ^ h ≤ 2 ^ h * 2 ^ h := Nat.mul_le_mul_right _ h4
      have hq := div_le_of_ge_sqrt n res hge hs0
      have hadd : res + n / res < 2 ^ (2 * h) := by rw [hp]; omega
      have e1 : udiv n res = .ok (n / res) := by rw [udiv, if_neg (by omega)]
      have e2 : uadd (2 * h) res (n / res) = .ok (res + n / res) := by rw [uadd, if_pos hadd]
      rw [e1, Res.ok_bind, e2, Res.ok_bind]
      have hlow := sqrt_le_newton n res hres
      rcases Nat.lt_or_ge n.sqrt res with hgt | hge'
      · have := div_le_of_gt_sqrt n res hgt
        obtain ⟨r, hr, h1, h2, h3⟩ := ih res _ hlow (by omega) (by omega)
        exact ⟨r, hr, h1, h2, by omega⟩
      · have heq : res = n.sqrt := le_antisymm hge' hge
        obtain ⟨f', rfl⟩ : ∃ f', f = f' + 1 := ⟨f - 1, by omega⟩
        -- the next round stops
        have hb : (res + n / res) / 2 ≤ 2 ^ h - 1 := by
          by_cases hs : res = 2 ^ h - 1
          · have hlt2 : n / res < res + 2 := by
              rw [Nat.div_lt_iff_lt_mul hres]
              have e : 2 ^ h = res + 1 := by omega
              rw [hp, e] at hlt
              have e3 : (res + 1) * (res + 1) - 1 = (res + 2) * res := by
                have : (res + 1) * (res + 1) = (res + 2) * res + 1 := by ring
                omega
              rw [e3] at hlt
              exact hlt
            omega
          · omega
        rw [absSqrtLoop]
        refine ⟨(res + n / res) / 2, ?_, hlow, hb, by omega⟩
        have hle' : n / res ≤ res + 2 := by rw [heq] at hq ⊢; exact hq
        have hmid : (res + n / res) / 2 ≤ res + 1 := by omega
        have hge'' : res ≤ (res + n / res) / 2 := by rw [heq] at hlow ⊢; exact hlow
        generalize (res + n / res) / 2 = t at *
        rw [if_pos]
        split
        · simp only [decide_eq_true_eq]; omega
        · simp only [decide_eq_true_eq]; omega

theorem absSqrtDown_spec (h n : Nat) (hh : 1 ≤ h) :
    ∀ (fuel res : Nat), n.sqrt ≤ res → res ≤ 2 ^ h - 1 → res - n.sqrt + 1 ≤ fuel →
      absSqrtDown (2 * h) n fuel res = .ok n.sqrt := by
  have hp : 2 ^ (2 * h) = 2 ^ h * 2 ^ h := by rw [two_mul, pow_add]
  have h2 : 2 ≤ 2 ^ h := by
    calc 2 = 2 ^ 1 := by norm_num
      _ ≤ 2 ^ h := Nat.pow_le_pow_right (by norm_num) hh
  intro fuel
  induction fuel with
  | zero => intro res _ _ hf; omega
  | succ f ih =>
    intro res hge hle hf
    have hm : res * res < 2 ^ (2 * h) := by rw [hp]; exact Nat.mul_self_lt_mul_self (by omega)
    rw [absSqrtDown, umul, if_pos hm, Res.ok_bind]
    split
    · rename_i hgt
      have hlt : n.sqrt < res := Nat.sqrt_lt.2 hgt
      rw [usub, if_pos (by omega), Res.ok_bind]
      exact ih (res - 1) (by omega) (by omega) (by omega)
    · rename_i hgt
      have : res ≤ n.sqrt := Nat.le_sqrt.2 (by omega)
      rw [le_antisymm hge this]

/-- **C40**, unsigned types.  For every even width `2 * h ≥ 4` and every value `n` of the type,
`abs_sqrt` (with every addition and multiplication checked for overflow, every subtraction for
underflow, every division for a zero divisor) terminates and returns `⌊√n⌋`; `n + 2` iterations
are always enough. -/
theorem C40_unsigned (h n : Nat) (hh : 2 ≤ h) (hn : n < 2 ^ (2 * h)) :
    ∀ fuel, n + 2 ≤ fuel → absSqrtU (2 * h) fuel n = .ok n.sqrt := by
  intro fuel hf
  by_cases h2 : n < 2
  · rw [absSqrtU, if_pos h2]
    interval_cases n <;> rfl
  · have hp : 2 ^ (2 * h) = 2 ^ h * 2 ^ h := by rw [two_mul, pow_add]
    have h4 : 4 ≤ 2 ^ h := by
      calc 4 = 2 ^ 2 := by norm_num
        _ ≤ 2 ^ h := Nat.pow_le_pow_right (by norm_num) hh
    have h44 : 4 * 2 ^ h ≤ 2 ^ h * 2 ^ h := Nat.mul_le_mul_right _ h4
    have hsz : n.size ≤ 2 * h := Nat.size_le.2 hn
    rw [absSqrtU, if_neg h2]
    have e0 : usub (2 * h) (leadingZeros (2 * h) n) = .ok n.size := by
      rw [usub, leadingZeros, if_pos (by omega)]
      congr 1; omega
    rw [e0, Res.ok_bind, Nat.shiftRight_eq_div_pow]
    set k := n.size / 2 with hk
    have hpow : 2 ^ n.size = 2 ^ (n.size - k) * 2 ^ k := by rw [← pow_add]; congr 1; omega
    have hdiv : n / 2 ^ k < 2 ^ (n.size - k) := by
      rw [Nat.div_lt_iff_lt_mul (by positivity), ← hpow]
      exact Nat.lt_size_self n
    have hle1 : 2 ^ (n.size - k) ≤ 2 ^ h := Nat.pow_le_pow_right (by norm_num) (by omega)
    have hle2 : 2 ^ k ≤ 2 ^ h := Nat.pow_le_pow_right (by norm_num) (by omega)
    have e1 : uadd (2 * h) (n / 2 ^ k) 1 = .ok (n / 2 ^ k + 1) := by
      rw [uadd, if_pos]; rw [hp]; omega
    rw [e1, Res.ok_bind]
    set g := n / 2 ^ k + 1 with hg
    have hg0 : 0 < g := Nat.succ_pos _
    have hq : n / g < 2 ^ k := by
      rw [Nat.div_lt_iff_lt_mul hg0]
      have := Nat.lt_mul_div_succ n (show 0 < 2 ^ k by positivity)
      exact this
    have e2 : udiv n g = .ok (n / g) := by rw [udiv, if_neg (by omega)]
    have e3 : uadd (2 * h) g (n / g) = .ok (g + n / g) := by
      rw [uadd, if_pos]; rw [hp]; omega
    rw [e2, Res.ok_bind, e3, Res.ok_bind]
    have hlow := sqrt_le_newton n g hg0
    have hup : (g + n / g) / 2 ≤ 2 ^ h - 1 := by omega
    have hgn : g + n / g ≤ 2 * n + 1 := by
      have : n / 2 ^ k ≤ n := Nat.div_le_self _ _
      have : n / g ≤ n := Nat.div_le_self _ _
      omega
    by_cases hmax : n = 2 ^ (2 * h) - 1
    · -- the largest value: the first round stops
      have hsize : n.size = 2 * h := by
        apply le_antisymm hsz
        by_contra hc
        have : n < 2 ^ (2 * h - 1) := Nat.size_le.1 (by omega)
        have e : 2 ^ (2 * h) = 2 * 2 ^ (2 * h - 1) := by
          rw [← pow_succ']; congr 1; omega
        omega
      have hkh : k = h := by omega
      have hpos : 0 < 2 ^ h := by positivity
      have hnn : n = (2 ^ h - 1) * 2 ^ h + (2 ^ h - 1) := by
        rw [hmax, hp]
        obtain ⟨m, hm⟩ : ∃ m, 2 ^ h = m + 1 := ⟨2 ^ h - 1, by omega⟩
        rw [hm]
        have : (m + 1) * (m + 1) = (m + 1 - 1) * (m + 1) + (m + 1 - 1) + 1 := by
          simp only [Nat.add_sub_cancel]; ring
        omega
      have hdiv1 : n / 2 ^ h = 2 ^ h - 1 := by
        rw [hnn]
        rw [Nat.add_comm, Nat.add_mul_div_right _ _ hpos, Nat.div_eq_of_lt (by omega)]
        omega
      have hgval : g = 2 ^ h := by rw [hg, hkh, hdiv1]; omega
      have hqval : n / g = 2 ^ h - 1 := by rw [hgval, hdiv1]
      have hr : (g + n / g) / 2 = 2 ^ h - 1 := by rw [hqval, hgval]; omega
      have hsq : n.sqrt ≤ 2 ^ h - 1 := by
        have : n.sqrt < 2 ^ h := Nat.sqrt_lt.2 (by rw [← hp]; exact hn)
        omega
      obtain ⟨f', rfl⟩ : ∃ f', fuel = f' + 1 := ⟨fuel - 1, by omega⟩
      have e4 : absSqrtLoop (2 * h) n (f' + 1) g ((g + n / g) / 2) = .ok ((g + n / g) / 2) := by
        rw [absSqrtLoop, if_pos]
        rw [hr, hgval, if_neg (by omega)]
        simp only [decide_eq_true_eq]; omega
      rw [e4, Res.ok_bind]
      exact absSqrtDown_spec h n (by omega) _ _ hlow hup (by omega)
    · obtain ⟨r, hr, hr1, hr2, hr3⟩ := absSqrtLoop_spec h n hh (by omega) (by omega) fuel g _ hlow hup
        (by have : 0 < n.sqrt := Nat.sqrt_pos.2 (by omega)
            omega)
      rw [hr, Res.ok_bind]
      have hs0 : 0 < n.sqrt := Nat.sqrt_pos.2 (by omega)
      exact absSqrtDown_spec h n (by omega) _ _ hr1 hr2 (by omega)

-- Non-vacuity: all the widths of the table, and values with the top bit set.
example : absSqrtU 8 300 255 = .ok 15 := by decide +kernel
example : absSqrtU 8 300 224 = .ok 14 := by decide +kernel
example : absSqrtU (2 * 64) (10 ^ 30 + 2) (10 ^ 30) = .ok (Nat.sqrt (10 ^ 30)) :=
  C40_unsigned 64 (10 ^ 30) (by norm_num) (by norm_num) _ le_rfl

/-- `wrap` is the identity on values of the type. -/
theorem IntTy.wrap_of_inRange (t : IntTy) (hb : 1 ≤ t.bits) (v : Int) (h : t.InRange v) :
    t.wrap v = v := by
  obtain ⟨s, b⟩ := t
  obtain ⟨b, rfl⟩ : ∃ b', b = b' + 1 := ⟨b - 1, by simp at hb; omega⟩
  unfold IntTy.InRange IntTy.min IntTy.max at h
  unfold IntTy.wrap
  cases s
  · simp only [Bool.false_eq_true, if_false] at h ⊢
    exact Int.emod_eq_of_lt h.1 (by push_cast; omega)
  · simp only [if_true, Nat.add_sub_cancel] at h ⊢
    rw [Int.bmod_eq_of_le]
    · push_cast; rw [pow_succ]; omega
    · push_cast; rw [pow_succ]; omega

/-- **C40**, signed types.  For every even width `2 * h ≥ 4` and every value `v` of the signed type
other than `MIN`, `abs_sqrt` terminates and returns `⌊√|v|⌋`. -/
theorem C40_signed (chk : Bool) (h : Nat) (v : Int) (hh : 2 ≤ h)
    (hr : (⟨true, 2 * h⟩ : IntTy).InRange v) (hmin : v ≠ (⟨true, 2 * h⟩ : IntTy).min) :
    ∀ fuel, v.natAbs + 2 ≤ fuel → absSqrtI chk (2 * h) fuel v = .ok (v.natAbs.sqrt : Int) := by
  intro fuel hf
  have hlt : v.natAbs < 2 ^ (2 * h - 1) := by
    simp only [IntTy.InRange, IntTy.min, IntTy.max, if_true] at hr hmin
    have : ((2 ^ (2 * h - 1) : Nat) : Int) = 2 ^ (2 * h - 1) := by push_cast; rfl
    omega
  have hpe : 2 ^ (2 * h) = 2 * 2 ^ (2 * h - 1) := by rw [← pow_succ']; congr 1; omega
  have hpi : (2 : Int) ^ (2 * h) = 2 * 2 ^ (2 * h - 1) := by exact_mod_cast hpe
  have hlti : |v| < 2 ^ (2 * h - 1) := by rw [Int.abs_eq_natAbs]; exact_mod_cast hlt
  have hin : (⟨true, 2 * h⟩ : IntTy).InRange |v| := by
    simp only [IntTy.InRange, IntTy.min, IntTy.max, if_true]
    have := abs_nonneg v
    omega
  have ea : absInt chk ⟨true, 2 * h⟩ v = .ok |v| := by
    rw [absInt, if_pos rfl]
    cases chk
    · rw [if_neg (by decide), IntTy.wrap_of_inRange _ (by show 1 ≤ 2 * h; omega) _ hin]
    · rw [if_pos rfl, IntTy.checked, if_pos hin]
  have hinu : (⟨false, 2 * h⟩ : IntTy).InRange |v| := by
    simp only [IntTy.InRange, IntTy.min, IntTy.max, Bool.false_eq_true, if_false]
    have := abs_nonneg v
    omega
  rw [absSqrtI, ea, Res.ok_bind, IntTy.wrap_of_inRange _ (by show 1 ≤ 2 * h; omega) _ hinu]
  have en : (|v|).toNat = v.natAbs := by rw [Int.abs_eq_natAbs]; rfl
  rw [en, C40_unsigned h v.natAbs hh (by omega) fuel hf, Res.ok_bind]
  have hs : v.natAbs.sqrt ≤ v.natAbs := Nat.sqrt_le_self _
  rw [IntTy.wrap_of_inRange _ (by show 1 ≤ 2 * h; omega)]
  simp only [IntTy.InRange, IntTy.min, IntTy.max, if_true]
  have : ((2 ^ (2 * h - 1) : Nat) : Int) = 2 ^ (2 * h - 1) := by push_cast; rfl
  omega

/-- **C40**, the exception: `MIN` has no absolute value of its type.  With overflow checks the call
panics for every fuel; without them `abs` wraps to `MIN`, whose bits read as unsigned are `2^(w-1)`,
so the result is right after all. -/
theorem C40_signed_min (h : Nat) (hh : 2 ≤ h) :
    (∀ fuel, absSqrtI true (2 * h) fuel (⟨true, 2 * h⟩ : IntTy).min = .panic) ∧
    (∀ fuel, 2 ^ (2 * h - 1) + 2 ≤ fuel →
      absSqrtI false (2 * h) fuel (⟨true, 2 * h⟩ : IntTy).min = .ok ((2 ^ (2 * h - 1)).sqrt : Int)) := by
  have hpe : 2 ^ (2 * h) = 2 * 2 ^ (2 * h - 1) := by rw [← pow_succ']; congr 1; omega
  have hpi : (2 : Int) ^ (2 * h) = 2 * 2 ^ (2 * h - 1) := by exact_mod_cast hpe
  have hpos : (0 : Int) < 2 ^ (2 * h - 1) := by positivity
  have hmin : (⟨true, 2 * h⟩ : IntTy).min = -2 ^ (2 * h - 1) := by simp [IntTy.min]
  have habs : |(-2 ^ (2 * h - 1) : Int)| = 2 ^ (2 * h - 1) := by rw [abs_neg, abs_of_pos hpos]
  constructor
  · intro fuel
    rw [hmin, absSqrtI, absInt, if_pos rfl, if_pos rfl, habs, IntTy.checked, if_neg]
    · rfl
    · simp only [IntTy.InRange, IntTy.min, IntTy.max, if_true]; omega
  · intro fuel hf
    rw [hmin, absSqrtI, absInt, if_pos rfl, if_neg (by decide), habs]
    have ew : (⟨true, 2 * h⟩ : IntTy).wrap (2 ^ (2 * h - 1)) = -2 ^ (2 * h - 1) := by
      simp only [IntTy.wrap, if_true]
      have : (2 ^ (2 * h - 1) : Int) = -2 ^ (2 * h - 1) + ((2 ^ (2 * h) : Nat) : Int) := by
        push_cast; omega
      have key : ∀ a m : Int, a = -m + ((2 ^ (2 * h) : Nat) : Int) → m = 2 ^ (2 * h - 1) →
          Int.bmod a (2 ^ (2 * h)) = -m := by
        intro a m ha hm
        rw [ha, Int.add_bmod_right, Int.bmod_eq_of_le]
        · push_cast; omega
        · push_cast; omega
      exact key _ _ this rfl
    have ew2 : (⟨false, 2 * h⟩ : IntTy).wrap (-2 ^ (2 * h - 1)) = 2 ^ (2 * h - 1) := by
      simp only [IntTy.wrap, Bool.false_eq_true, if_false]
      have : (-2 ^ (2 * h - 1) : Int) = 2 ^ (2 * h - 1) - ((2 ^ (2 * h) : Nat) : Int) := by
        push_cast; omega
      rw [this, Int.sub_emod_right]
      exact Int.emod_eq_of_lt (by omega) (by push_cast; omega)
    have en : ((2 : Int) ^ (2 * h - 1)).toNat = 2 ^ (2 * h - 1) := by
      rw [show ((2 : Int) ^ (2 * h - 1)) = ((2 ^ (2 * h - 1) : Nat) : Int) by push_cast; rfl]
      exact Int.toNat_natCast _
    rw [ew, Res.ok_bind, ew2, en, C40_unsigned h _ hh (by omega) fuel hf, Res.ok_bind]
    rw [IntTy.wrap_of_inRange _ (by show 1 ≤ 2 * h; omega)]
    have hlt : (2 ^ (2 * h - 1)).sqrt < 2 ^ (2 * h - 1) := by
      apply Nat.sqrt_lt_self
      exact Nat.one_lt_two_pow (by omega)
    simp only [IntTy.InRange, IntTy.min, IntTy.max, if_true]
    have : ((2 ^ (2 * h - 1) : Nat) : Int) = 2 ^ (2 * h - 1) := by push_cast; rfl
    omega

-- Non-vacuity
example : absSqrtI true 8 200 (-100) = .ok 10 := by decide +kernel
example : absSqrtI true 8 200 (-128) = .panic := by decide +kernel
example : absSqrtI false 8 200 (-128) = .ok 11 := by decide +kernel

end Rustnomial
