import Verif.SpecFloatIeee
import Verif.Props.FloatRoots
import Verif.Model.FloatText

/-!
# The float operations are those of IEEE 754 (C98)
-/

namespace Rustnomial
namespace Fl
variable {f : FlFmt}

theorem fits_le_max {p w m : Nat} (hw : p ≤ w) (h : FitsIn p m) (hm : m < 2 ^ w) :
    m ≤ (2 ^ p - 1) * 2 ^ (w - p) := by
  obtain ⟨k, e, hk, rfl⟩ := h
  have h1 : 1 ≤ 2 ^ p := Nat.one_le_two_pow
  rcases le_or_gt e (w - p) with he | he
  · exact Nat.mul_le_mul (by omega) (Nat.pow_le_pow_right (by norm_num) he)
  · obtain ⟨d, rfl⟩ : ∃ d, e = (w - p) + d := ⟨e - (w - p), by omega⟩
    rw [pow_add, ← mul_assoc, mul_right_comm] at hm ⊢
    refine Nat.mul_le_mul_right _ ?_
    have e2 : 2 ^ w = 2 ^ p * 2 ^ (w - p) := by rw [← pow_add]; congr 1; omega
    rw [e2] at hm
    have := Nat.lt_of_mul_lt_mul_right hm
    omega

theorem roundRat_lt_iff {num den : Nat} (hp : 1 ≤ f.p) (hw : f.p ≤ f.w) (hden : 0 < den) :
    roundRat f.p num den < 2 ^ f.w ↔ (num / den / 2 ^ f.q : ℚ) < overflowAt f := by
  have hpos : (0 : ℚ) < 2 ^ f.q := by positivity
  have h1 : 2 ≤ 2 ^ f.p := by
    calc 2 = 2 ^ 1 := rfl
      _ ≤ 2 ^ f.p := Nat.pow_le_pow_right (by norm_num) hp
  have hM : FitsIn f.p ((2 ^ f.p - 1) * 2 ^ (f.w - f.p)) := ⟨_, _, by omega, rfl⟩
  have hW : FitsIn f.p (2 ^ f.w) := ⟨1, f.w, by omega, by simp⟩
  have hmax : ∀ m, FitsIn f.p m → m < 2 ^ f.w → m ≤ (2 ^ f.p - 1) * 2 ^ (f.w - f.p) := fun m h h' => fits_le_max hw h h'
  have hMp : 0 < (2 ^ f.p - 1) * 2 ^ (f.w - f.p) := Nat.mul_pos (by omega) (by positivity)
  have hsum : (2 ^ (f.p + 1) - 1) * 2 ^ (f.w - f.p) = (2 ^ f.p - 1) * 2 ^ (f.w - f.p) + 2 ^ f.w := by
    have e2 : 2 ^ f.w = 2 ^ f.p * 2 ^ (f.w - f.p) := by rw [← pow_add]; congr 1; omega
    rw [e2, ← add_mul]
    congr 1
    rw [pow_succ]; omega
  have hlt : (2 ^ f.p - 1) * 2 ^ (f.w - f.p) < 2 ^ f.w := by
    have e2 : 2 ^ f.w = 2 ^ f.p * 2 ^ (f.w - f.p) := by rw [← pow_add]; congr 1; omega
    rw [e2]
    exact Nat.mul_lt_mul_of_pos_right (by omega) (by positivity)
  unfold overflowAt
  rw [hsum, div_lt_div_iff_of_pos_right hpos]
  have hfit := fits_roundRat (f := f) (num := num) hp hden
  have n1 := roundRat_nearest (num := num) hp hden hM
  have n2 := roundRat_nearest (num := num) hp hden hW
  have tie := roundRat_tie (num := num) hp hden hW
  have hmr := hmax _ hfit
  generalize (2 ^ f.p - 1) * 2 ^ (f.w - f.p) = M at *
  generalize roundRat f.p num den = r at *
  push_cast at *
  generalize (num / den : ℚ) = v at *
  have hMW : (M : ℚ) < 2 ^ f.w := by exact_mod_cast hlt
  constructor
  · intro h
    have hr : (r : ℚ) ≤ M := by exact_mod_cast hmr h
    by_contra hc
    rw [not_lt] at hc
    -- v lies at or above the midpoint, so 2^w is at least as near
    have h3 : |(2 ^ f.w : ℚ) - v| ≤ v - M := by
      rw [abs_le]; constructor <;> linarith
    rw [abs_of_nonpos (by linarith)] at n2
    have h4 : (r : ℚ) = M := le_antisymm hr (by linarith)
    have hrn : r = M := by exact_mod_cast h4
    subst hrn
    have h5 : |(2 ^ f.w : ℚ) - v| = |(r : ℚ) - v| := by
      rw [abs_of_nonpos (a := (r : ℚ) - v) (by linarith)]
      linarith
    have := tie (by omega) h5 f.w dvd_rfl
    have h6 := Nat.le_of_dvd (by omega) this
    have h7 : 2 ^ f.w ≤ 2 ^ (f.w + 1) := Nat.pow_le_pow_right (by norm_num) (by omega)
    omega
  · intro h
    by_contra hc
    rw [not_lt] at hc
    have hr : (2 ^ f.w : ℚ) ≤ r := by exact_mod_cast hc
    have h3 : (r : ℚ) - v ≤ |(r : ℚ) - v| := le_abs_self _
    rcases le_or_gt (M : ℚ) v with hv | hv
    · rw [abs_of_nonpos (a := (M : ℚ) - v) (by linarith)] at n1
      linarith
    · rw [abs_of_pos (a := (M : ℚ) - v) (by linarith)] at n1
      linarith

theorem isRounding_pack (hp : 1 ≤ f.p) (hw : f.p ≤ f.w) (s : Bool) {num den : Nat} (hden : 0 < den) {v : ℚ}
    (hv : v = (if s then (-1 : ℚ) else 1) * (num / den / 2 ^ f.q)) :
    IsRounding s v (pack s (roundRat f.p num den) : Fl f) := by
  have habs : |v| = num / den / 2 ^ f.q := by
    rw [hv, abs_mul, sign_abs, one_mul, abs_of_nonneg (by positivity)]
  have hr : (pack s (roundRat f.p num den) : Fl f).isFinite = true → Rounded (pack s (roundRat f.p num den) : Fl f) v :=
    fun h => ⟨s, num, den, hden, pack_eq_fin h, hv⟩
  refine ⟨?_, ⟨?_, valid_pack (fits_roundRat hp hden)⟩, ?_, fun h z hz hzf => (hr h).nearest hp z hz hzf,
    fun h z hz hzf hne he t ht => (hr h).tie hp z hz hzf hne he t ht⟩
  · unfold pack; split <;> rfl
  · unfold pack; split <;> simp
  · rw [pack_isFinite, habs, roundRat_lt_iff hp hw hden]

/-- C98: rounding to nearest with ties to even determines the result, to the sign of zero. -/
theorem C98_unique {s : Bool} {v : ℚ} {r r' : Fl f} (h : IsRounding s v r) (h' : IsRounding s v r') : r = r' := by
  have hff : r.isFinite = r'.isFinite := by
    rw [Bool.eq_iff_iff, h.finite, h'.finite]
  cases hr : r.isFinite with
  | false =>
    rw [hr] at hff
    have h1 := h.sign
    have h2 := h'.sign
    have n1 := h.valid.1
    have n2 := h'.valid.1
    clear h h'
    cases r with
    | nan => exact absurd rfl n1
    | fin => cases hr
    | inf a =>
      cases r' with
      | nan => exact absurd rfl n2
      | fin => cases hff
      | inf b =>
        simp only [signBit] at h1 h2
        rw [h1, h2]
  | true =>
    have hr' : r'.isFinite = true := hff ▸ hr
    have heq : |r.toRat - v| = |r'.toRat - v| :=
      le_antisymm (h.nearest hr r' h'.valid.2 hr') (h'.nearest hr' r h.valid.2 hr)
    have hval : r.toRat = r'.toRat := by
      by_contra hne
      have t1 := h.even hr r' h'.valid.2 hr' (Ne.symm hne) heq.symm
      have t2 := h'.even hr' r h.valid.2 hr hne heq
      have hall : ∀ t, 2 ^ t ∣ r.units ∧ 2 ^ t ∣ r'.units := by
        intro t
        induction t with
        | zero => simp
        | succ t ih => exact ⟨t1 t ih.2, t2 t ih.1⟩
      have hzero : ∀ n : Nat, (∀ t, 2 ^ t ∣ n) → n = 0 := by
        intro n hn
        by_contra h0
        exact absurd (Nat.le_of_dvd (Nat.pos_of_ne_zero h0) (hn n)) (not_le.2 Nat.lt_two_pow_self)
      have z1 := hzero _ fun t => (hall t).1
      have z2 := hzero _ fun t => (hall t).2
      obtain ⟨a, m, rfl⟩ := isFinite_iff.1 hr
      obtain ⟨b, n, rfl⟩ := isFinite_iff.1 hr'
      simp only [units] at z1 z2
      apply hne
      simp [toRat, z1, z2]
    have h1 := h.sign
    have h2 := h'.sign
    obtain ⟨a, m, rfl⟩ := isFinite_iff.1 hr
    obtain ⟨b, n, rfl⟩ := isFinite_iff.1 hr'
    simp only [signBit] at h1 h2
    subst h1 h2
    have hpos : (0 : ℚ) < 2 ^ f.q := by positivity
    simp only [toRat] at hval
    have h3 : (m : ℚ) / 2 ^ f.q = n / 2 ^ f.q := by
      cases b <;> simpa using hval
    rw [div_left_inj' hpos.ne'] at h3
    rw [show m = n by exact_mod_cast h3]

/-- C98: the sum.  NaN for a NaN operand and for infinities of opposite sign; an infinity if an operand is; otherwise the
exact sum, rounded. -/
theorem C98_add (hp : 1 ≤ f.p) (hw : f.p ≤ f.w) (x y : Fl f) :
    (x + y = .nan ↔ x = .nan ∨ y = .nan ∨ ∃ s, x = .inf s ∧ y = .inf !s) ∧
    (∀ s, x + y ≠ .nan → x = .inf s ∨ y = .inf s → x + y = .inf s) ∧
    (x.isFinite = true → y.isFinite = true → IsRounding (sumSign x y) (x.toRat + y.toRat) (x + y)) := by
  refine ⟨?_, ?_, ?_⟩
  · rw [add_def]
    have hpk : ∀ (s : Bool) (m : Nat), (pack s m : Fl f) ≠ .nan := by
      intro s m; unfold pack; split <;> simp
    rcases x with _ | s | ⟨s, a⟩ <;> rcases y with _ | t | ⟨t, b⟩ <;> simp only [add] <;> (try split) <;> (try split) <;>
      (try split) <;> simp_all <;>
      (cases s <;> cases t <;> simp_all)
  · intro s
    rw [add_def]
    cases x <;> cases y <;> simp only [add] <;> (try split) <;> simp_all
  · intro hx hy
    obtain ⟨s, a, rfl⟩ := isFinite_iff.1 hx
    obtain ⟨t, b, rfl⟩ := isFinite_iff.1 hy
    have hpos : (0 : ℚ) < 2 ^ f.q := by positivity
    rw [add_def]
    unfold add
    by_cases hst : s = t
    · subst hst
      simp only [if_true]
      have hv : (fin s a : Fl f).toRat + (fin s b : Fl f).toRat =
          (if s then (-1 : ℚ) else 1) * (((a + b : Nat) : ℚ) / (1 : Nat) / 2 ^ f.q) := by
        simp only [toRat]; push_cast; ring
      have hs : sumSign (fin s a : Fl f) (fin s b) = s := by
        unfold sumSign
        rw [hv]
        have h0 : (0 : ℚ) ≤ ((a + b : Nat) : ℚ) / (1 : Nat) / 2 ^ f.q := by positivity
        cases s
        · simp only [signBit, Bool.false_eq_true, if_false, one_mul, not_lt.2 h0, decide_false, Bool.and_false, Bool.or_false]
        · simp only [signBit, if_true, Bool.and_true, Bool.or_eq_true, decide_eq_true_eq]
          rcases h0.lt_or_eq with h | h
          · left; linarith
          · right; linarith
      rw [hs]
      exact isRounding_pack hp hw s one_pos hv
    · have ht : t = !s := by cases s <;> cases t <;> simp_all
      subst ht
      simp only [if_neg hst]
      split
      · rename_i hab
        subst hab
        have hv : (fin s a : Fl f).toRat + (fin (!s) a : Fl f).toRat = 0 := by
          cases s <;> simp [toRat]
        have hs : sumSign (fin s a : Fl f) (fin (!s) a) = false := by
          unfold sumSign; rw [hv]; cases s <;> simp [signBit]
        rw [hs, hv]
        have h := isRounding_pack (f := f) hp hw false (num := 0) (den := 1) one_pos (v := 0) (by simp)
        have hz : roundRat f.p 0 1 = 0 := by simp [roundRat]
        rw [hz, pack, if_pos (by positivity)] at h
        exact h
      · rename_i hab
        split
        · rename_i hlt
          have hv : (fin s a : Fl f).toRat + (fin (!s) b : Fl f).toRat =
              (if s then (-1 : ℚ) else 1) * (((a - b : Nat) : ℚ) / (1 : Nat) / 2 ^ f.q) := by
            rw [Nat.cast_sub hlt.le]; cases s <;> simp [toRat] <;> ring
          have hs : sumSign (fin s a : Fl f) (fin (!s) b) = s := by
            unfold sumSign
            rw [hv]
            have h0 : (0 : ℚ) < ((a - b : Nat) : ℚ) / (1 : Nat) / 2 ^ f.q := by
              have : 0 < a - b := by omega
              positivity
            generalize ((a - b : Nat) : ℚ) / (1 : Nat) / 2 ^ f.q = w at h0
            cases s
            · simp [signBit, h0.not_gt]
            · simp [signBit, h0]
          rw [hs]
          exact isRounding_pack hp hw s one_pos hv
        · rename_i hlt
          have hv : (fin s a : Fl f).toRat + (fin (!s) b : Fl f).toRat =
              (if !s then (-1 : ℚ) else 1) * (((b - a : Nat) : ℚ) / (1 : Nat) / 2 ^ f.q) := by
            rw [Nat.cast_sub (not_lt.1 hlt)]; cases s <;> simp [toRat] <;> ring
          have hs : sumSign (fin s a : Fl f) (fin (!s) b) = !s := by
            unfold sumSign
            rw [hv]
            have h0 : (0 : ℚ) < ((b - a : Nat) : ℚ) / (1 : Nat) / 2 ^ f.q := by
              have : 0 < b - a := by omega
              positivity
            generalize ((b - a : Nat) : ℚ) / (1 : Nat) / 2 ^ f.q = w at h0
            cases s
            · simp [signBit, h0]
            · simp [signBit, h0.not_gt]
          rw [hs]
          exact isRounding_pack hp hw (!s) one_pos hv

/-- C98: negation flips the sign bit of everything but a NaN and keeps the magnitude. -/
theorem C98_neg (x : Fl f) :
    (-x = .nan ↔ x = .nan) ∧ (x ≠ .nan → (-x).signBit = !x.signBit) ∧ (-x).isFinite = x.isFinite ∧
    (-x).units = x.units := by
  rw [show -x = neg x from rfl]
  cases x <;> simp [neg, signBit, isFinite, units]

/-- C98: the difference, spelled out for the operands as given. -/
theorem C98_sub (hp : 1 ≤ f.p) (hw : f.p ≤ f.w) (x y : Fl f) :
    (x - y = .nan ↔ x = .nan ∨ y = .nan ∨ ∃ s, x = .inf s ∧ y = .inf s) ∧
    (∀ s, x - y ≠ .nan → x = .inf s ∨ y = .inf (!s) → x - y = .inf s) ∧
    (x.isFinite = true → y.isFinite = true →
      IsRounding (decide (x.toRat - y.toRat < 0) || (decide (x.toRat - y.toRat = 0) && x.signBit && !y.signBit))
        (x.toRat - y.toRat) (x - y)) := by
  obtain ⟨h1, h2, h3⟩ := C98_add hp hw x (-y)
  rw [show x - y = x + -y from rfl]
  refine ⟨?_, ?_, ?_⟩
  · rw [h1]
    cases y <;> simp [show ∀ x : Fl f, -x = neg x from fun _ => rfl, neg]
  · intro s hn h
    refine h2 s hn (h.imp id ?_)
    rintro rfl
    simp [show ∀ x : Fl f, -x = neg x from fun _ => rfl, neg]
  · intro hx hy
    obtain ⟨-, k2, k3, -⟩ := C98_neg y
    have h := h3 hx (k3.trans hy)
    have hyn : y ≠ .nan := by rintro rfl; cases hy
    unfold sumSign at h
    rw [toRat_neg, ← sub_eq_add_neg, k2 hyn] at h
    exact h

/-- C98: the product.  NaN for a NaN operand and for zero times infinity; infinite if an operand is; otherwise the exact
product, rounded.  Its sign bit is negative exactly when those of the operands differ. -/
theorem C98_mul (hp : 1 ≤ f.p) (hw : f.p ≤ f.w) (x y : Fl f) :
    (x * y = .nan ↔ x = .nan ∨ y = .nan ∨ ∃ s t, (x = .inf s ∧ y = .fin t 0) ∨ (x = .fin t 0 ∧ y = .inf s)) ∧
    (x * y ≠ .nan → x.isFinite = false ∨ y.isFinite = false → x * y = .inf (x.signBit != y.signBit)) ∧
    (x.isFinite = true → y.isFinite = true →
      IsRounding (x.signBit != y.signBit) (x.toRat * y.toRat) (x * y)) := by
  refine ⟨?_, ?_, ?_⟩
  · rw [mul_def]
    cases x <;> cases y <;> simp [mul, pack] <;> (repeat' split) <;> simp_all
  · rw [mul_def]
    cases x <;> cases y <;> simp [mul, isFinite, signBit]
  · intro hx hy
    obtain ⟨s, a, rfl⟩ := isFinite_iff.1 hx
    obtain ⟨t, b, rfl⟩ := isFinite_iff.1 hy
    rw [mul_def]
    refine isRounding_pack hp hw (s != t) (by positivity) ?_
    simp only [toRat]
    push_cast
    cases s <;> cases t <;> simp <;> ring

/-- C98: the quotient.  NaN for a NaN operand, `0/0` and infinity by infinity; infinite for infinity by a number and for a
non-zero number by zero; zero for a number by infinity; otherwise the exact quotient, rounded.  Its sign bit is negative
exactly when those of the operands differ. -/
theorem C98_div (hp : 1 ≤ f.p) (hw : f.p ≤ f.w) (x y : Fl f) :
    (div x y = .nan ↔ x = .nan ∨ y = .nan ∨ ∃ s t, (x = .inf s ∧ y = .inf t) ∨ (x = .fin s 0 ∧ y = .fin t 0)) ∧
    (div x y ≠ .nan → x.isFinite = false ∨ (y.isFinite = true ∧ y.toRat = 0) →
      div x y = .inf (x.signBit != y.signBit)) ∧
    (x.isFinite = true → ∀ t, y = .inf t → div x y = .fin (x.signBit != t) 0) ∧
    (x.isFinite = true → y.isFinite = true → y.toRat ≠ 0 →
      IsRounding (x.signBit != y.signBit) (x.toRat / y.toRat) (div x y)) := by
  have hz : ∀ (t : Bool) (b : Nat), (fin t b : Fl f).toRat = 0 ↔ b = 0 := by
    intro t b
    have hpos : ((2 : ℚ) ^ f.q) ≠ 0 := by positivity
    cases t <;> simp [toRat, hpos]
  refine ⟨?_, ?_, ?_, ?_⟩
  · cases x <;> cases y <;> simp [div, pack] <;> (repeat' split) <;> simp_all
  · cases x <;> cases y <;> simp [div, isFinite, signBit, hz]
    intro h h0
    simp [h0] at h
    simp [h0, h]
  · intro hx t ht
    obtain ⟨s, a, rfl⟩ := isFinite_iff.1 hx
    subst ht
    rfl
  · intro hx hy h0
    obtain ⟨s, a, rfl⟩ := isFinite_iff.1 hx
    obtain ⟨t, b, rfl⟩ := isFinite_iff.1 hy
    have hb : b ≠ 0 := fun h => h0 ((hz t b).2 h)
    unfold div
    simp only [if_neg hb]
    refine isRounding_pack hp hw (s != t) (Nat.pos_of_ne_zero hb) ?_
    simp only [toRat]
    push_cast
    have hbq : (b : ℚ) ≠ 0 := by exact_mod_cast hb
    have h2 : ((2 : ℚ) ^ f.q) ≠ 0 := by positivity
    cases s <;> cases t <;> simp <;> field_simp

/-- C98: equality of floats is equality of the numbers: NaN equals nothing, the two zeros are equal. -/
theorem C98_eq (x y : Fl f) :
    (x == y) = true ↔ (x.isFinite = true ∧ y.isFinite = true ∧ x.toRat = y.toRat) ∨ ∃ s, x = .inf s ∧ y = .inf s := by
  have hpos : (0 : ℚ) < 2 ^ f.q := by positivity
  rw [show (x == y) = beq x y from rfl]
  cases x <;> cases y <;> simp [beq, isFinite]
  · exact eq_comm
  · rename_i s a t b
    have ha : (0 : ℚ) ≤ a / 2 ^ f.q := by positivity
    have hb : (0 : ℚ) ≤ b / 2 ^ f.q := by positivity
    have key : (a : ℚ) / 2 ^ f.q = b / 2 ^ f.q ↔ a = b := by
      rw [div_left_inj' hpos.ne']; exact_mod_cast Iff.rfl
    have kz : ∀ a : Nat, (a : ℚ) / 2 ^ f.q = 0 ↔ a = 0 := by
      intro a; simp [hpos.ne']
    constructor
    · rintro ⟨rfl, rfl | rfl⟩
      · rfl
      · simp [toRat]
    · intro h
      simp only [toRat] at h
      by_cases hst : s = t
      · subst hst
        refine ⟨?_, .inl rfl⟩
        rw [← key]
        cases s <;> simpa using h
      · have h1 : (a : ℚ) / 2 ^ f.q = 0 ∧ (b : ℚ) / 2 ^ f.q = 0 := by
          cases s <;> cases t <;> simp only [if_true, Bool.false_eq_true, if_false] at h <;> first
            | exact absurd rfl hst
            | exact ⟨by linarith, by linarith⟩
        rw [kz, kz] at h1
        exact ⟨h1.1.trans h1.2.symm, .inr h1.1⟩

/-- C98: converting a natural number rounds it. -/
theorem C98_of_nat (hp : 1 ≤ f.p) (hw : f.p ≤ f.w) (n : Nat) : IsRounding false n (ofNat n : Fl f) := by
  have h := isRounding_pack (f := f) hp hw false (num := n * 2 ^ f.q) (den := 1) one_pos (v := n) (by
    have : ((2 : ℚ) ^ f.q) ≠ 0 := by positivity
    push_cast
    simp)
  rwa [roundRat_one, roundNat_shift] at h

/-- C98: `abs_sqrt` outside the numbers, and the sign of its result. -/
theorem C98_abs_sqrt (x : Fl f) : ∃ r, absSqrt x = .ok r ∧ (r = .nan ↔ x = .nan) ∧ r.signBit = false ∧
    ((∃ s, x = .inf s) → r = .inf false) := by
  refine ⟨_, rfl, ?_⟩
  cases x with
  | fin s a =>
    simp only [sqrt, abs, pack]
    split <;> simp [signBit]
  | _ => simp [sqrt, abs, signBit]

/-- C98: `is_positive` is the comparison with zero (false for NaN and both zeros), `abs` clears the sign bit and keeps the
magnitude, and `is_one`, `is_negative_one` and `is_zero` compare the value. -/
theorem C98_sign (shw : Fl f → List Char) (x : Fl f) :
    ((flFmt shw).isPositive x = true ↔ 0 < x.toRat ∨ x = .inf false) ∧
    (∃ r, (flFmt shw).abs x = .ok r ∧ (r = .nan ↔ x = .nan) ∧ r.signBit = false ∧ r.isFinite = x.isFinite ∧
      r.units = x.units) ∧
    ((flFmt shw).isOne x = true ↔ x.toRat = 1) ∧ ((flFmt shw).isNegativeOne x = true ↔ x.toRat = -1) ∧
    (isZero x = true ↔ x.isFinite = true ∧ x.toRat = 0) := by
  have hpos : (0 : ℚ) < 2 ^ f.q := by positivity
  have h1 : (1 : Fl f).toRat = 1 := by
    rw [show (1 : Fl f) = fin false (2 ^ f.q) from rfl]; simp [toRat, hpos.ne']
  have h1f : (1 : Fl f).isFinite = true := rfl
  have hn1 : (-1 : Fl f).toRat = -1 := by rw [toRat_neg, h1]
  have hn1f : (-1 : Fl f).isFinite = true := rfl
  have h0 : (0 : Fl f).toRat = 0 := by
    rw [show (0 : Fl f) = fin false 0 from rfl]; simp [toRat]
  have h0f : (0 : Fl f).isFinite = true := rfl
  have ni : ∀ y : Fl f, y.isFinite = true → ¬ ∃ s, x = .inf s ∧ y = .inf s := by
    rintro y hy ⟨s, -, rfl⟩; cases hy
  have hfin : ∀ v : ℚ, v ≠ 0 → x.toRat = v → x.isFinite = true := by
    intro v hv h
    cases x with
    | fin => rfl
    | _ => exact absurd h.symm hv
  refine ⟨?_, ⟨_, rfl, ?_⟩, ?_, ?_, ?_⟩
  · cases x with
    | nan => simp [flFmt, isPositiveFl, toRat]
    | inf s => simp [flFmt, isPositiveFl, toRat]
    | fin s a =>
      have ha : (0 : ℚ) ≤ a / 2 ^ f.q := by positivity
      cases s
      · simp only [flFmt, isPositiveFl, toRat, Bool.not_false, Bool.true_and, bne_iff_ne, Bool.false_eq_true, if_false,
          one_mul, reduceCtorEq, or_false]
        rw [div_pos_iff_of_pos_right hpos, Nat.cast_pos, Nat.pos_iff_ne_zero]
      · simp only [flFmt, isPositiveFl, toRat, Bool.not_true, Bool.false_and, Bool.false_eq_true, if_true, reduceCtorEq,
          or_false, false_iff, not_lt]
        linarith
  · cases x <;> simp [absFl, signBit, isFinite, units]
  · rw [show (flFmt shw).isOne x = (x == 1) from rfl, C98_eq, h1]
    constructor
    · rintro (⟨_, _, h⟩ | h)
      · exact h
      · exact absurd h (ni _ h1f)
    · exact fun h => .inl ⟨hfin 1 one_ne_zero h, h1f, h⟩
  · rw [show (flFmt shw).isNegativeOne x = (x == -1) from rfl, C98_eq, hn1]
    constructor
    · rintro (⟨_, _, h⟩ | h)
      · exact h
      · exact absurd h (ni _ hn1f)
    · exact fun h => .inl ⟨hfin (-1) (by norm_num) h, hn1f, h⟩
  · rw [show isZero x = (x == 0) from rfl, C98_eq, h0]
    constructor
    · rintro (⟨h, _, h'⟩ | h)
      · exact ⟨h, h'⟩
      · exact absurd h (ni _ h0f)
    · exact fun h => .inl ⟨h.1, h0f, h.2⟩

-- both formats meet the hypotheses
example : 1 ≤ binary64.p ∧ binary64.p ≤ binary64.w ∧ 1 ≤ binary32.p ∧ binary32.p ≤ binary32.w := by decide
-- the largest finite number plus half a step is infinite, plus a little less is not
example : (fin false ((2 ^ 24 - 1) * 2 ^ 253) + fin false (2 ^ 252) : Fl binary32) = .inf false ∧
    (fin false ((2 ^ 24 - 1) * 2 ^ 253) + fin false (2 ^ 252 - 2 ^ 228) : Fl binary32) = fin false ((2 ^ 24 - 1) * 2 ^ 253) := by
  decide +kernel
-- signs of zeros
example : (fin true 0 + fin true 0 : Fl binary64) = fin true 0 ∧ (fin true 0 + 0 : Fl binary64) = 0 ∧
    (1 - 1 : Fl binary64) = 0 ∧ (0 - 0 : Fl binary64) = 0 ∧ (fin true 0 - 0 : Fl binary64) = fin true 0 ∧
    (-1 * 0 : Fl binary64) = fin true 0 := by decide +kernel
example : (div 1 (fin true 0) : Fl binary64) = .inf true ∧ (div 0 0 : Fl binary64) = .nan ∧
    (.inf true * 0 : Fl binary64) = .nan ∧ (.inf true - .inf true : Fl binary64) = .nan ∧
    (div (-1) (.inf false) : Fl binary64) = fin true 0 := by decide +kernel

end Fl
end Rustnomial
