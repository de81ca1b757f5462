import Verif.Model.Powers
import Verif.Props.MachineWrap

/-!
# C100: powers of integers by repeated squaring
-/

namespace Rustnomial

section
variable (t : IntTy)

theorem intPowLoop_wrap : ∀ (exp : Nat) (acc base : Int), 1 ≤ exp →
    intPowLoop (.machine false t) acc base exp = .ok (t.wrap (acc * base ^ exp)) := by
  intro exp
  induction exp using Nat.strong_induction_on with
  | _ exp ih =>
    intro acc base he
    rw [intPowLoop]
    by_cases h1 : exp ≤ 1
    · have : exp = 1 := by omega
      rw [if_pos h1, this, pow_one]; rfl
    · rw [if_neg h1]
      have hb : (Arith.machine false t).mul base base = .ok (t.wrap (base * base)) := rfl
      have ha : (Arith.machine false t).mul acc base = .ok (t.wrap (acc * base)) := rfl
      have hm := Nat.div_add_mod exp 2
      by_cases h2 : exp % 2 = 1
      · rw [if_pos h2, ha, Res.ok_bind, hb, Res.ok_bind, ih _ (by omega) _ _ (by omega)]
        congr 1
        rw [wrap_eq_iff]
        push_cast
        rw [cast_wrap, cast_wrap]
        push_cast
        nth_rewrite 2 [← hm]
        rw [h2, pow_add, pow_mul, pow_one, pow_two]; ring
      · rw [if_neg h2, hb, Res.ok_bind, ih _ (by omega) _ _ (by omega)]
        congr 1
        rw [wrap_eq_iff]
        push_cast
        rw [cast_wrap]
        push_cast
        nth_rewrite 2 [← hm]
        rw [show exp % 2 = 0 by omega, add_zero, pow_mul, pow_two]

theorem le_abs_of_not_inRange {v : Int} (h0 : t.InRange 0) (h : ¬ t.InRange v) : t.max < v ∨ v < t.min := by
  unfold IntTy.InRange at h
  omega

/-- A positive multiple of a value out of range is out of range. -/
theorem not_inRange_mul {v k : Int} (h0 : t.InRange 0) (hk : 1 ≤ k) (h : ¬ t.InRange v) : ¬ t.InRange (v * k) := by
  unfold IntTy.InRange at *
  rintro ⟨h1, h2⟩
  apply h
  constructor
  · by_contra hc
    nlinarith
  · by_contra hc
    nlinarith

theorem max_le_min : t.max ≤ -t.min ∨ t.signed = false := by
  unfold IntTy.max IntTy.min
  cases t.signed
  · right; rfl
  · left; simp

theorem min_ge : -t.max - 1 ≤ t.min := by
  unfold IntTy.max IntTy.min
  cases t.signed
  · simp only [Bool.false_eq_true, if_false]
    have : (0 : ℤ) < 2 ^ t.bits := by positivity
    omega
  · simp

theorem intPowLoop_checked (h1 : t.InRange 1) : ∀ (exp : Nat) (acc base : Int), 1 ≤ exp → t.InRange base → t.InRange acc →
    (base = 0 ∨ (|base| = 1 ∧ |acc| = 1 ∧ (t.InRange (-1) ∨ (base = 1 ∧ acc = 1))) ∨
      (2 ≤ |base| ∧ (acc = 1 ∨ 2 ≤ |acc|))) →
    intPowLoop (.machine true t) acc base exp = t.checked (acc * base ^ exp) := by
  have h0 : t.InRange 0 := t.zero_inRange
  intro exp
  induction exp using Nat.strong_induction_on with
  | _ exp ih =>
    intro acc base he hbr har hinv
    rw [intPowLoop]
    by_cases hle : exp ≤ 1
    · have : exp = 1 := by omega
      rw [if_pos hle, this, pow_one]; rfl
    · rw [if_neg hle]
      have hm := Nat.div_add_mod exp 2
      have hmul : ∀ a b : Int, (Arith.machine true t).mul a b = t.checked (a * b) := fun _ _ => rfl
      have hsq : 0 ≤ base * base := mul_self_nonneg base
      have hk : 1 ≤ exp / 2 := by omega
      -- the square
      have hbase : ∀ acc' : Int, t.InRange acc' →
          (base * base = 0 ∨ (|base * base| = 1 ∧ |acc'| = 1 ∧ (t.InRange (-1) ∨ (base * base = 1 ∧ acc' = 1))) ∨
            (2 ≤ |base * base| ∧ (acc' = 1 ∨ 2 ≤ |acc'|))) →
          ((Arith.machine true t).mul base base >>= fun b => intPowLoop (.machine true t) acc' b (exp / 2)) =
            t.checked (acc' * (base * base) ^ (exp / 2)) := by
        intro acc' hacc' hi
        rw [hmul]
        by_cases hbb : t.InRange (base * base)
        · rw [IntTy.checked, if_pos hbb, Res.ok_bind]
          exact ih _ (by omega) _ _ hk hbb hacc' hi
        · rw [IntTy.checked, if_neg hbb]
          have hbig : t.max + 1 ≤ base * base := by
            rcases le_abs_of_not_inRange t h0 hbb with h | h
            · omega
            · have := h0.1; omega
          have hmax1 : 1 ≤ t.max := h1.2
          have hpw : t.max + 1 ≤ (base * base) ^ (exp / 2) := by
            refine hbig.trans ?_
            exact le_self_pow₀ (by omega) (by omega)
          have hout : ¬ t.InRange (acc' * (base * base) ^ (exp / 2)) := by
            have hge := min_ge t
            have hA : acc' = 1 ∨ 2 ≤ |acc'| := by
              rcases hi with h | ⟨h, _⟩ | ⟨_, h⟩
              · omega
              · rw [abs_of_nonneg hsq] at h; omega
              · exact h
            rintro ⟨i1, i2⟩
            rcases hA with rfl | h
            · omega
            · rcases le_abs.1 h with h | h
              · nlinarith
              · nlinarith
          rw [IntTy.checked, if_neg hout]; rfl
      have hexp : base ^ exp = base ^ (exp % 2) * (base * base) ^ (exp / 2) := by
        conv_lhs => rw [← hm]
        rw [pow_add, pow_mul, pow_two]; ring
      have hinv2 : ∀ acc' : Int, (base = 0 ∨ (|base| = 1 ∧ |acc'| = 1 ∧ (t.InRange (-1) ∨ (base = 1 ∧ acc' = 1))) ∨
          (2 ≤ |base| ∧ (acc' = 1 ∨ 2 ≤ |acc'|))) →
          (base * base = 0 ∨ (|base * base| = 1 ∧ |acc'| = 1 ∧ (t.InRange (-1) ∨ (base * base = 1 ∧ acc' = 1))) ∨
            (2 ≤ |base * base| ∧ (acc' = 1 ∨ 2 ≤ |acc'|))) := by
        intro acc' h
        rcases h with h | ⟨h, h', h''⟩ | ⟨h, h'⟩
        · left; rw [h]; rfl
        · right; left
          refine ⟨by rw [abs_mul, h]; rfl, h', ?_⟩
          rcases h'' with h'' | ⟨rfl, h''⟩
          · exact .inl h''
          · exact .inr ⟨rfl, h''⟩
        · right; right
          refine ⟨by rw [abs_mul]; nlinarith, h'⟩
      by_cases h2 : exp % 2 = 1
      · rw [if_pos h2, hmul]
        by_cases hab : t.InRange (acc * base)
        · rw [IntTy.checked, if_pos hab, Res.ok_bind, hbase _ hab ?_, hexp, h2, pow_one, mul_assoc]
          refine hinv2 _ ?_
          rcases hinv with h | ⟨h, h', h''⟩ | ⟨h, h'⟩
          · exact .inl h
          · refine .inr (.inl ⟨h, by rw [abs_mul, h, h']; rfl, ?_⟩)
            rcases h'' with h'' | ⟨rfl, rfl⟩
            · exact .inl h''
            · exact .inr ⟨rfl, rfl⟩
          · refine .inr (.inr ⟨h, .inr ?_⟩)
            rw [abs_mul]
            rcases h' with rfl | h'
            · simpa using h
            · nlinarith
        · rw [IntTy.checked, if_neg hab]
          have : ¬ t.InRange (acc * base ^ exp) := by
            rw [hexp, h2, pow_one, ← mul_assoc]
            refine not_inRange_mul t h0 ?_ hab
            have hb0 : base ≠ 0 := by rintro rfl; rw [mul_zero] at hab; exact hab h0
            have : 0 < (base * base) ^ (exp / 2) := pow_pos (by positivity) _
            omega
          rw [IntTy.checked, if_neg this]; rfl
      · rw [if_neg h2, hbase acc har (hinv2 _ hinv), hexp, show exp % 2 = 0 by omega, pow_zero, one_mul]

/-- C100: `pow` of the integer types, by repeated squaring, overflows exactly when the power does: in both builds it is the
power, taken as one operation. -/
theorem C100_int_pow (h1 : t.InRange 1) (chk : Bool) (a : Int) (ha : t.InRange a) (e : Nat) :
    intPow (.machine chk t) a e = t.result chk (a ^ e) := by
  unfold intPow IntTy.result
  by_cases he : e = 0
  · rw [if_pos he, he, pow_zero]
    cases chk
    · have hb : 1 ≤ t.bits := by
        by_contra hc
        have : t.bits = 0 := by omega
        unfold IntTy.InRange IntTy.max at h1
        rw [this] at h1
        cases hs : t.signed <;> simp [hs] at h1
      rw [if_neg (by simp), IntTy.wrap_of_inRange _ hb _ h1]
    · rw [if_pos rfl, IntTy.checked, if_pos h1]
  · rw [if_neg he]
    cases chk
    · rw [intPowLoop_wrap t e 1 a (by omega), one_mul]; rfl
    · rw [if_pos rfl, intPowLoop_checked t h1 e 1 a (by omega) ha h1, one_mul]
      rcases lt_trichotomy a 0 with h | h | h
      · right
        rcases lt_or_ge a (-1) with h' | h'
        · right; exact ⟨by rw [abs_of_neg h]; omega, .inl rfl⟩
        · have : a = -1 := by omega
          subst this
          exact .inl ⟨rfl, rfl, .inl ha⟩
      · exact .inl h
      · right
        rcases lt_or_ge 1 a with h' | h'
        · right; exact ⟨by rw [abs_of_pos h]; omega, .inl rfl⟩
        · have : a = 1 := by omega
          subst this
          exact .inl ⟨rfl, rfl, .inr ⟨rfl, rfl⟩⟩

-- `(-2)^7` is the smallest `i8`; the squares on the way do not overflow
example : intPow (.machine true ⟨true, 8⟩) (-2) 7 = .ok (-128) ∧ intPow (.machine true ⟨true, 8⟩) 2 7 = .panic ∧
    intPow (.machine false ⟨true, 8⟩) 3 5 = .ok (-13) := by
  refine ⟨?_, ?_, ?_⟩ <;> rw [C100_int_pow _ (by decide) _ _ (by decide)] <;> decide

end

end Rustnomial
