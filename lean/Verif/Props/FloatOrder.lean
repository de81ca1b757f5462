import Verif.SpecFloatOrder
import Verif.Props.FloatLaws
import Verif.Props.FloatIeee
import Verif.Props.FloatPowi

/-!
# Order and symmetry of values in floating point (C116)
-/

namespace Rustnomial
namespace Fl
variable {f : FlFmt}

namespace Le

theorem refl {x : Fl f} (h : x ≠ .nan) : Le x x := by
  refine ⟨h, h, ?_⟩
  cases x with
  | nan => exact absurd rfl h
  | inf s => cases s <;> simp
  | fin s a => exact .inr (.inr ⟨rfl, rfl, le_rfl⟩)

theorem trans {x y z : Fl f} (h : Le x y) (h' : Le y z) : Le x z := by
  obtain ⟨h1, h2, h3⟩ := h
  obtain ⟨_, h5, h6⟩ := h'
  refine ⟨h1, h5, ?_⟩
  rcases h3 with h3 | rfl | ⟨h3, h3', h3''⟩
  · exact .inl h3
  · rcases h6 with h6 | h6 | ⟨h6, _⟩
    · cases h6
    · exact .inr (.inl h6)
    · cases h6
  · rcases h6 with rfl | h6 | ⟨_, h6', h6''⟩
    · cases h3'
    · exact .inr (.inl h6)
    · exact .inr (.inr ⟨h3, h6', h3''.trans h6''⟩)

theorem neg {x y : Fl f} (h : Le x y) : Le (-y) (-x) := by
  obtain ⟨h1, h2, h3⟩ := h
  refine ⟨fun h => h2 ((C98_neg y).1.1 h), fun h => h1 ((C98_neg x).1.1 h), ?_⟩
  rcases h3 with rfl | rfl | ⟨h3, h4, h5⟩
  · exact .inr (.inl rfl)
  · exact .inl rfl
  · refine .inr (.inr ⟨by rw [(C98_neg y).2.2.1, h4], by rw [(C98_neg x).2.2.1, h3], ?_⟩)
    rw [toRat_neg, toRat_neg]; exact neg_le_neg h5

theorem of_same {x y : Fl f} (h : SameNum x y) (hx : x ≠ .nan) : Le x y := by
  rcases h with rfl | ⟨⟨s, rfl⟩, t, rfl⟩
  · exact refl hx
  · exact ⟨by simp, by simp, .inr (.inr ⟨rfl, rfl, by simp [toRat]⟩)⟩

end Le

theorem zero_toRat : (0 : Fl f).toRat = 0 := by rw [zero_def]; simp [toRat]

theorem overflowAt_pos : (0 : ℚ) < overflowAt f := by
  unfold overflowAt
  have : 0 < (2 ^ (f.p + 1) - 1) * 2 ^ (f.w - f.p) := by
    have := Nat.one_lt_two_pow (n := f.p + 1) (by omega)
    exact Nat.mul_pos (by omega) (by positivity)
  have : (0 : ℚ) < ((2 ^ (f.p + 1) - 1) * 2 ^ (f.w - f.p) : Nat) := by exact_mod_cast this
  positivity

/-- Rounding is monotone. -/
theorem IsRounding.mono {s s' : Bool} {v v' : ℚ} {r r' : Fl f} (h : IsRounding s v r) (h' : IsRounding s' v' r')
    (hs : (s = true → v ≤ 0) ∧ (s = false → 0 ≤ v)) (hs' : (s' = true → v' ≤ 0) ∧ (s' = false → 0 ≤ v')) (hv : v ≤ v') : Le r r' := by
  have hov := overflowAt_pos (f := f)
  refine ⟨h.valid.1, h'.valid.1, ?_⟩
  have hinf : ∀ {s : Bool} {v : ℚ} {r : Fl f}, IsRounding s v r → r.isFinite = false → r = .inf s ∧ overflowAt f ≤ |v| := by
    intro s v r h hr
    have hn := h.valid.1
    have hsg := h.sign
    refine ⟨?_, ?_⟩
    · cases r with
      | nan => exact absurd rfl hn
      | inf t => rw [← hsg]; rfl
      | fin => cases hr
    · by_contra hc
      rw [h.finite.2 (lt_of_not_ge hc)] at hr; cases hr
  cases hr : r.isFinite with
  | false =>
    obtain ⟨e, ho⟩ := hinf h hr
    cases s with
    | true => exact .inl e
    | false =>
      right; left
      have h0 := hs.2 rfl
      rw [abs_of_nonneg h0] at ho
      have hr' : r'.isFinite = false := by
        rw [← Bool.not_eq_true, h'.finite, not_lt, abs_of_nonneg (by linarith)]; linarith
      obtain ⟨e', -⟩ := hinf h' hr'
      cases s' with
      | true => have := hs'.1 rfl; linarith
      | false => exact e'
  | true =>
    cases hr' : r'.isFinite with
    | false =>
      obtain ⟨e', ho⟩ := hinf h' hr'
      cases s' with
      | false => exact .inr (.inl e')
      | true =>
        have h0 := hs'.1 rfl
        rw [abs_of_nonpos h0] at ho
        have := h.finite.1 hr
        rw [abs_of_nonpos (by linarith)] at this
        linarith
    | true =>
      refine .inr (.inr ⟨rfl, rfl, ?_⟩)
      by_contra hc
      rw [not_le] at hc
      have h1 := h.nearest hr r' h'.valid.2 hr'
      have h2 := h'.nearest hr' r h.valid.2 hr
      have hm : 2 * v ≥ r.toRat + r'.toRat := by
        by_contra hlt
        rw [abs_of_pos (by linarith)] at h1
        rcases abs_cases (r'.toRat - v) with ⟨e, _⟩ | ⟨e, _⟩ <;> linarith
      have hm' : 2 * v' ≤ r.toRat + r'.toRat := by
        by_contra hlt
        rw [abs_of_neg (by linarith)] at h2
        rcases abs_cases (r.toRat - v') with ⟨e, _⟩ | ⟨e, _⟩ <;> linarith
      obtain rfl : v = v' := by linarith
      by_cases hss : s = s'
      · subst hss
        rw [C98_unique h h'] at hc
        exact lt_irrefl _ hc
      · have h0 : v = 0 := by
          cases s <;> cases s' <;> simp at hss
          · exact le_antisymm (hs'.1 rfl) (hs.2 rfl)
          · exact le_antisymm (hs.1 rfl) (hs'.2 rfl)
        have z1 := h.nearest hr 0 valid_zero rfl
        have z2 := h'.nearest hr' 0 valid_zero rfl
        rw [h0, zero_toRat, sub_zero, sub_zero, abs_zero] at z1 z2
        rw [abs_nonpos_iff.1 z1, abs_nonpos_iff.1 z2] at hc
        exact lt_irrefl _ hc

theorem signBit_toRat {x : Fl f} : (x.signBit = true → x.toRat ≤ 0) ∧ (x.signBit = false → 0 ≤ x.toRat) := by
  cases x with
  | nan => simp [signBit, toRat]
  | inf s => simp [toRat]
  | fin s a =>
    have : (0 : ℚ) ≤ a / 2 ^ f.q := by positivity
    constructor <;> intro h <;> simp only [signBit] at h <;> subst h <;> simp only [toRat, if_true, Bool.false_eq_true, if_false] <;> linarith

theorem sumSign_toRat {x y : Fl f} :
    (sumSign x y = true → x.toRat + y.toRat ≤ 0) ∧ (sumSign x y = false → 0 ≤ x.toRat + y.toRat) := by
  unfold sumSign
  constructor <;> intro h
  · simp only [Bool.or_eq_true, Bool.and_eq_true, decide_eq_true_eq] at h
    rcases h with h | h
    exacts [h.le, h.1.1.le]
  · simp only [Bool.or_eq_false_iff, decide_eq_false_iff_not, not_lt] at h
    exact h.1

theorem mulSign_toRat {x y : Fl f} :
    ((x.signBit != y.signBit) = true → x.toRat * y.toRat ≤ 0) ∧ ((x.signBit != y.signBit) = false → 0 ≤ x.toRat * y.toRat) := by
  have hx := signBit_toRat (x := x)
  have hy := signBit_toRat (x := y)
  cases h1 : x.signBit <;> cases h2 : y.signBit <;> simp only [h1, h2] at hx hy ⊢ <;> simp at hx hy ⊢
  exacts [mul_nonneg hx hy, mul_nonpos_of_nonneg_of_nonpos hx hy, mul_nonpos_of_nonpos_of_nonneg hx hy, mul_nonneg_of_nonpos_of_nonpos hx hy]

/-- Addition is monotone. -/
theorem Le.add (hp : 1 ≤ f.p) (hw : f.p ≤ f.w) {x x' y y' : Fl f} (hx : Le x x') (hy : Le y y') (h : x + y ≠ .nan) (h' : x' + y' ≠ .nan) :
    Le (x + y) (x' + y') := by
  obtain ⟨-, a2, a3⟩ := C98_add hp hw x y
  obtain ⟨-, b2, b3⟩ := C98_add hp hw x' y'
  have low : ∀ z : Fl f, z ≠ .nan → Le (.inf true) z := fun z hz => ⟨by simp, hz, .inl rfl⟩
  have high : ∀ z : Fl f, z ≠ .nan → Le z (.inf false) := fun z hz => ⟨hz, by simp, .inr (.inl rfl)⟩
  rcases hx.2.2 with e | e | ⟨fx, fx', lx⟩
  · rw [a2 true h (.inl e)]; exact low _ h'
  · rw [b2 false h' (.inl e)]; exact high _ h
  · rcases hy.2.2 with e | e | ⟨fy, fy', ly⟩
    · rw [a2 true h (.inr e)]; exact low _ h'
    · rw [b2 false h' (.inr e)]; exact high _ h
    · exact (a3 fx fy).mono (b3 fx' fy') sumSign_toRat sumSign_toRat (by linarith)

theorem nonneg_toRat {x : Fl f} (h : Le 0 x) : 0 ≤ x.toRat := by
  rcases h.2.2 with e | e | ⟨_, _, e⟩
  · cases e
  · rw [e]; simp [toRat]
  · rwa [zero_toRat] at e

theorem nonneg_ne {x : Fl f} (h : Le 0 x) : x ≠ .inf true := by
  rintro rfl
  rcases h.2.2 with e | e | ⟨_, e, _⟩ <;> cases e

theorem nonneg_sign {x : Fl f} (h : Le 0 x) (hz : ∀ s, x ≠ .fin s 0) : x.signBit = false := by
  cases x with
  | nan => rfl
  | inf s => cases s with
    | true => exact absurd rfl (nonneg_ne h)
    | false => rfl
  | fin s a =>
    cases s with
    | false => rfl
    | true =>
      exfalso
      have h1 := nonneg_toRat h
      have h2 : a ≠ 0 := fun e => hz true (by rw [e])
      have h3 : (0 : ℚ) < a / 2 ^ f.q := by have : 0 < a := by omega
                                            positivity
      simp only [toRat, if_true] at h1
      linarith

/-- Multiplication of nonnegative numbers is monotone. -/
theorem Le.mul (hp : 1 ≤ f.p) (hw : f.p ≤ f.w) {x x' y y' : Fl f} (h0x : Le 0 x) (h0y : Le 0 y) (hx : Le x x') (hy : Le y y')
    (h : x * y ≠ .nan) (h' : x' * y' ≠ .nan) : Le (x * y) (x' * y') := by
  obtain ⟨a1, a2, a3⟩ := C98_mul hp hw x y
  obtain ⟨b1, b2, b3⟩ := C98_mul hp hw x' y'
  have high : ∀ z : Fl f, z ≠ .nan → Le z (.inf false) := fun z hz => ⟨hz, by simp, .inr (.inl rfl)⟩
  have h0x' := h0x.trans hx
  have h0y' := h0y.trans hy
  by_cases hf : x'.isFinite = true ∧ y'.isFinite = true
  · have fx : x.isFinite = true := by
      rcases hx.2.2 with e | e | e
      · exact absurd e (nonneg_ne h0x)
      · rw [e] at hf; cases hf.1
      · exact e.1
    have fy : y.isFinite = true := by
      rcases hy.2.2 with e | e | e
      · exact absurd e (nonneg_ne h0y)
      · rw [e] at hf; cases hf.2
      · exact e.1
    refine (a3 fx fy).mono (b3 hf.1 hf.2) mulSign_toRat mulSign_toRat ?_
    have lx : x.toRat ≤ x'.toRat := by
      rcases hx.2.2 with e | e | e
      · exact absurd e (nonneg_ne h0x)
      · rw [e] at hf; cases hf.1
      · exact e.2.2
    have ly : y.toRat ≤ y'.toRat := by
      rcases hy.2.2 with e | e | e
      · exact absurd e (nonneg_ne h0y)
      · rw [e] at hf; cases hf.2
      · exact e.2.2
    exact mul_le_mul lx ly (nonneg_toRat h0y) (nonneg_toRat h0x')
  · have hi : x'.isFinite = false ∨ y'.isFinite = false := by
      rcases Bool.eq_false_or_eq_true x'.isFinite with e | e
      · rcases Bool.eq_false_or_eq_true y'.isFinite with e' | e'
        · exact absurd ⟨e, e'⟩ hf
        · exact .inr e'
      · exact .inl e
    have hinf : ∀ {z : Fl f}, Le 0 z → z.isFinite = false → z = .inf false := by
      intro z hz hzf
      cases z with
      | nan => exact absurd rfl hz.2.1
      | inf s => cases s with
        | true => exact absurd rfl (nonneg_ne hz)
        | false => rfl
      | fin => cases hzf
    have hs : (x'.signBit != y'.signBit) = false := by
      rw [nonneg_sign h0x', nonneg_sign h0y']; rfl
      · rintro s rfl
        rcases hi with e | e
        · have := hinf h0x' e
          exact h' (b1.2 (.inr (.inr ⟨false, s, .inl ⟨this, rfl⟩⟩)))
        · cases e
      · rintro s rfl
        rcases hi with e | e
        · cases e
        · have := hinf h0y' e
          exact h' (b1.2 (.inr (.inr ⟨false, s, .inr ⟨rfl, this⟩⟩)))
    rw [b2 h' hi, hs]
    exact high _ h

/-- Multiplication by a positive finite number is monotone. -/
theorem Le.mul_right (hp : 1 ≤ f.p) (hw : f.p ≤ f.w) {x x' y : Fl f} (hx : Le x x') (hy : y.isFinite = true) (h0 : 0 < y.toRat) :
    Le (x * y) (x' * y) := by
  obtain ⟨a1, a2, a3⟩ := C98_mul hp hw x y
  obtain ⟨b1, b2, b3⟩ := C98_mul hp hw x' y
  have hs : y.signBit = false := by
    cases e : y.signBit with
    | false => rfl
    | true => have := signBit_toRat.1 e; linarith
  have hne : ∀ s, y ≠ .fin s 0 := by
    rintro s rfl; simp [toRat] at h0
  have hno : ∀ s, y ≠ .inf s := by rintro s rfl; cases hy
  have n1 : x * y ≠ .nan := by
    rw [Ne, a1]; rintro (e | e | ⟨s, t, e | e⟩)
    · exact hx.1 e
    · rw [e] at hy; cases hy
    · exact hne t e.2
    · exact hno s e.2
  have n2 : x' * y ≠ .nan := by
    rw [Ne, b1]; rintro (e | e | ⟨s, t, e | e⟩)
    · exact hx.2.1 e
    · rw [e] at hy; cases hy
    · exact hne t e.2
    · exact hno s e.2
  rcases hx.2.2 with e | e | ⟨fx, fx', lx⟩
  · rw [a2 n1 (.inl (by rw [e]; rfl)), hs, e]; exact ⟨by simp [signBit], n2, .inl rfl⟩
  · rw [b2 n2 (.inl (by rw [e]; rfl)), hs, e]; exact ⟨n1, by simp [signBit], .inr (.inl rfl)⟩
  · exact (a3 fx hy).mono (b3 fx' hy) mulSign_toRat mulSign_toRat (by nlinarith)

theorem Le.congr {x x' y y' : Fl f} (h : Le x y) (hx : SameNum x x') (hy : SameNum y y') : Le x' y' := by
  have n1 : x' ≠ .nan := by
    rcases hx with rfl | ⟨_, s, rfl⟩
    · exact h.1
    · simp
  exact (Le.of_same hx.symm n1).trans (h.trans (Le.of_same hy h.2.1))

theorem add_ne_nan (hp : 1 ≤ f.p) (hw : f.p ≤ f.w) {x y : Fl f} (hx : x ≠ .nan) (hy : y.isFinite = true) : x + y ≠ .nan := by
  rw [Ne, (C98_add hp hw x y).1]
  rintro (h | h | ⟨s, _, h⟩)
  · exact hx h
  · rw [h] at hy; cases hy
  · rw [h] at hy; cases hy

theorem add_nonneg_ne_nan (hp : 1 ≤ f.p) (hw : f.p ≤ f.w) {x y : Fl f} (hx : Le 0 x) (hy : Le 0 y) : x + y ≠ .nan := by
  rw [Ne, (C98_add hp hw x y).1]
  rintro (h | h | ⟨s, h1, h2⟩)
  · exact hx.2.1 h
  · exact hy.2.1 h
  · cases s
    · exact nonneg_ne hy h2
    · exact nonneg_ne hx h1

theorem zero_add_zero' : (0 : Fl f) + 0 = 0 := by
  rw [add_def, zero_def]; simp [add, roundRat_zero, pack_zero]

theorem Le.add_nonneg (hp : 1 ≤ f.p) (hw : f.p ≤ f.w) {x y : Fl f} (hx : Le 0 x) (hy : Le 0 y) : Le 0 (x + y) := by
  have := Le.add hp hw hx hy (by rw [zero_add_zero', zero_def]; simp) (add_nonneg_ne_nan hp hw hx hy)
  rwa [zero_add_zero'] at this

/-- A number that is not a zero and not below zero is above zero. -/
theorem pos_of_nonneg {x : Fl f} (h : Le 0 x) (hf : x.isFinite = true) (hz : isZero x = false) : 0 < x.toRat := by
  refine lt_of_le_of_ne (nonneg_toRat h) fun e => ?_
  rw [(C98_sign (fun _ => []) x).2.2.2.2.2 ⟨hf, e.symm⟩] at hz
  cases hz

theorem zero_mul_pos {y : Fl f} (hy : y.isFinite = true) : ∃ s, 0 * y = .fin s 0 := zero_mul_num hy ⟨_, zero_def⟩

/-- Horner's rule is monotone in the coefficients. -/
theorem horner_mono (hp : 1 ≤ f.p) (hw : f.p ≤ f.w) {x : Fl f} (hx : x.isFinite = true) (h0 : 0 < x.toRat) {g g' : Nat → Fl f}
    (hg : ∀ d, (g d).isFinite = true) (hg' : ∀ d, (g' d).isFinite = true) (hgg : ∀ d, Le (g d) (g' d)) :
    ∀ (n : Nat) {a a' : Fl f}, Le a a' → Le (horner g x n a) (horner g' x n a')
  | 0, _, _, h => h
  | n + 1, a, a', h => by
    show Le (horner g x n ((a + g (n + 1)) * x)) (horner g' x n ((a' + g' (n + 1)) * x))
    exact horner_mono hp hw hx h0 hg hg' hgg n
      ((h.add hp hw (hgg _) (add_ne_nan hp hw h.1 (hg _)) (add_ne_nan hp hw h.2.1 (hg' _))).mul_right hp hw hx h0)

/-- C116: with larger coefficients the value at a nonnegative number is not smaller. -/
theorem C116_coeffs (hp : 1 ≤ f.p) (hw : f.p ≤ f.w) (p q : Poly (Fl f)) (hpn : AllNumbers p) (hqn : AllNumbers q)
    (h : ∀ k, Le (coeffOf p k) (coeffOf q k)) (x : Fl f) (hx : x.isFinite = true) (h0 : Le 0 x) : Le (p.eval x) (q.eval x) := by
  cases hz : isZero x with
  | true => rw [eval_zero p hz, eval_zero q hz]; exact h 0
  | false =>
    have hpos := pos_of_nonneg h0 hx hz
    refine Le.congr ?_ (eval_horner' p hz hx (le_max_left _ (q.terms.length - 1))).symm (eval_horner' q hz hx (le_max_right (p.terms.length - 1) _)).symm
    have hh := horner_mono hp hw hx hpos (fun d => (hpn.coeff d).1) (fun d => (hqn.coeff d).1) h
      (max (p.terms.length - 1) (q.terms.length - 1)) (Le.refl (x := 0) (by rw [zero_def]; simp))
    exact hh.add hp hw (h 0) (add_ne_nan hp hw hh.1 (hpn.coeff 0).1) (add_ne_nan hp hw hh.2.1 (hqn.coeff 0).1)

/-- Horner's rule with nonnegative coefficients is monotone in the point. -/
theorem horner_mono_point (hp : 1 ≤ f.p) (hw : f.p ≤ f.w) {x y : Fl f} (hy : y.isFinite = true) (hx : x.isFinite = true) (h0 : 0 < x.toRat)
    (h0x : Le 0 x) (hxy : Le x y) (h0y : 0 < y.toRat) {g : Nat → Fl f} (hg : ∀ d, Le 0 (g d)) :
    ∀ (n : Nat) {a a' : Fl f}, Le 0 a → Le a a' → Le 0 (horner g x n a) ∧ Le (horner g x n a) (horner g y n a')
  | 0, _, _, h, h' => ⟨h, h'⟩
  | n + 1, a, a', h, h' => by
    have h1 := Le.add_nonneg hp hw h (hg (n + 1))
    have h1' := Le.add_nonneg hp hw (h.trans h') (hg (n + 1))
    have h2 := h'.add hp hw (Le.refl (hg (n + 1)).2.1) h1.2.1 h1'.2.1
    have h3 := (h1.mul_right hp hw hx h0).congr (.zeros (zero_mul_pos hx) ⟨_, zero_def⟩) (.refl _)
    have h3' := ((h1.trans h2).mul_right hp hw hy h0y).congr (.zeros (zero_mul_pos hy) ⟨_, zero_def⟩) (.refl _)
    have h4 := Le.mul hp hw h1 h0x h2 hxy h3.2.1 h3'.2.1
    exact horner_mono_point hp hw hy hx h0 h0x hxy h0y hg n h3 h4

theorem nonneg_coeff {p : Poly (Fl f)} (h : ∀ c ∈ p.terms, Le 0 c) (k : Nat) : Le 0 (coeffOf p k) := by
  unfold coeffOf
  rw [List.getD_eq_getElem?_getD]
  cases e : p.terms.reverse[k]? with
  | none => exact Le.refl (by rw [zero_def]; simp)
  | some c => exact h c (List.mem_reverse.1 (List.mem_of_getElem? e))

/-- C116: with nonnegative coefficients (infinite ones included) values at nonnegative numbers are nonnegative and do not fall. -/
theorem C116_mono (hp : 1 ≤ f.p) (hw : f.p ≤ f.w) (p : Poly (Fl f)) (hv : AllValid p) (h : ∀ c ∈ p.terms, Le 0 c) (x y : Fl f)
    (h0 : Le 0 x) (hxy : Le x y) (hy : y.isFinite = true) : Le 0 (p.eval x) ∧ Le (p.eval x) (p.eval y) := by
  have hc := nonneg_coeff h
  have hxf : x.isFinite = true ∧ x.toRat ≤ y.toRat := by
    rcases hxy.2.2 with e | e | e
    · exact absurd e (nonneg_ne h0)
    · rw [e] at hy; cases hy
    · exact ⟨e.1, e.2.2⟩
  have h00 : Le (0 : Fl f) 0 := Le.refl (by rw [zero_def]; simp)
  have h0y := h0.trans hxy
  cases hzy : isZero y with
  | true =>
    have hzx : isZero x = true := by
      cases hzx : isZero x with
      | true => rfl
      | false =>
        have := pos_of_nonneg h0 hxf.1 hzx
        have := ((C98_sign (fun _ => []) y).2.2.2.2.1 hzy).2
        linarith [hxf.2]
    rw [eval_zero p hzx, eval_zero p hzy]
    exact ⟨hc 0, Le.refl (hc 0).2.1⟩
  | false =>
    have hypos := pos_of_nonneg h0y hy hzy
    cases hzx : isZero x with
    | true =>
      rw [eval_zero p hzx]
      refine ⟨hc 0, Le.congr ?_ (zero_add_same hp ⟨_, zero_def⟩ (hv.coeff 0)) (eval_horner p hzy).symm⟩
      have hh := (horner_mono_point hp hw hy hy hypos h0y (Le.refl h0y.2.1) hypos hc (p.terms.length - 1) h00 h00).1
      exact hh.add hp hw (Le.refl (hc 0).2.1) (add_nonneg_ne_nan hp hw h00 (hc 0)) (add_nonneg_ne_nan hp hw hh (hc 0))
    | false =>
      have hxpos := pos_of_nonneg h0 hxf.1 hzx
      obtain ⟨h1, h2⟩ := horner_mono_point hp hw hy hxf.1 hxpos h0 hxy hypos hc (p.terms.length - 1) h00 h00
      have hs := Le.add_nonneg hp hw h1 (hc 0)
      exact ⟨hs.congr (.refl _) (eval_horner p hzx).symm, (h2.add hp hw (Le.refl (hc 0).2.1) hs.2.1
        (add_nonneg_ne_nan hp hw (h1.trans h2) (hc 0))).congr (eval_horner p hzx).symm (eval_horner p hzy).symm⟩

/-! ## Definite integrals -/

theorem rounding_zero (hp : 1 ≤ f.p) (hw : f.p ≤ f.w) : IsRounding false 0 (0 : Fl f) := by
  have h := C98_of_nat (f := f) hp hw 0
  have e : (ofNat 0 : Fl f) = 0 := by
    unfold ofNat
    rw [← roundRat_one, roundRat_zero, Nat.zero_mul, pack_zero]; rfl
  rw [e, Nat.cast_zero] at h
  exact h

theorem Le.div_nonneg (hp : 1 ≤ f.p) (hw : f.p ≤ f.w) {x y : Fl f} (hx : Le 0 x) (hy : y.isFinite = true) (h0 : 0 < y.toRat) :
    Le 0 (div x y) := by
  obtain ⟨h1, h2, -, h4⟩ := C98_div hp hw x y
  have hs : y.signBit = false := by
    cases e : y.signBit with
    | false => rfl
    | true => have := signBit_toRat.1 e; linarith
  have hno : ∀ s, y ≠ .inf s := by rintro s rfl; cases hy
  cases hf : x.isFinite with
  | true =>
    refine (rounding_zero hp hw).mono (h4 hf hy h0.ne') ⟨nofun, fun _ => le_rfl⟩ ?_ (_root_.div_nonneg (nonneg_toRat hx) h0.le)
    rw [hs, Bool.bne_false]
    exact ⟨fun h => div_nonpos_of_nonpos_of_nonneg (signBit_toRat.1 h) h0.le, fun h => _root_.div_nonneg (signBit_toRat.2 h) h0.le⟩
  | false =>
    obtain rfl : x = .inf false := by
      cases x with
      | nan => exact absurd rfl hx.2.1
      | inf s => cases s with
        | true => exact absurd rfl (nonneg_ne hx)
        | false => rfl
      | fin => cases hf
    have hn : div (.inf false) y ≠ .nan := by
      rw [Ne, h1]; rintro (e | e | ⟨s, t, e | e⟩)
      · cases e
      · rw [e] at hy; cases hy
      · exact hno t e.2
      · cases e.1
    rw [h2 hn (.inl rfl), hs]
    exact ⟨by rw [zero_def]; simp, by simp [signBit], .inr (.inl rfl)⟩

theorem integLoop_nonneg (hp : 1 ≤ f.p) (hw : f.p + f.q ≤ f.w) : ∀ (xs : List (Fl f)) (d : Fl f),
    d.isFinite = true → d.toRat = (xs.length : ℚ) → xs.length ≤ 2 ^ f.p → (∀ c ∈ xs, Le 0 c) →
    ∃ T : List (Fl f), Poly.integLoop xs d = .ok T ∧ ∀ c ∈ T, Le 0 c ∧ c.Valid
  | [], _, _, _, _, _ => ⟨[], rfl, by simp⟩
  | x :: xs, d, hd, hm, hle, hf => by
    rw [List.length_cons] at hm hle
    obtain ⟨g1, g2⟩ := pred_exact hp hw hd hm (by omega)
    obtain ⟨T, h1, h2⟩ := integLoop_nonneg hp hw xs (d - 1) g1 g2 (by omega) (fun c hc => hf c (by simp [hc]))
    have hd0 : 0 < d.toRat := by rw [hm]; positivity
    refine ⟨div x d :: T, by rw [Poly.integLoop, h1]; rfl, ?_⟩
    exact List.forall_mem_cons.2 ⟨⟨Le.div_nonneg hp (by omega) (hf x (by simp)) hd hd0, valid_div hp _ _⟩, h2⟩

/-- A definite integral of a polynomial with nonnegative coefficients from a nonnegative number upwards is not negative, unless both
values of the antiderivative are infinite. -/
theorem integral_nonneg [FromUsizeCont (Fl f)] (hc : CountLaw f) (hp : 1 ≤ f.p) (hw : f.p + f.q ≤ f.w) (p r : Poly (Fl f))
    (h : ∀ c ∈ p.terms, Le 0 c) (hr : p.integral = .ok r) (a b : Fl f) (h0 : Le 0 a) (hab : Le a b) (hb : b.isFinite = true) :
    ((Integral.mk r).eval a b = .nan ↔ r.eval a = .inf false) ∧ (r.eval a ≠ .inf false → Le 0 ((Integral.mk r).eval a b)) := by
  have hw' : f.p ≤ f.w := by omega
  have hrn : ∀ c ∈ r.terms, Le 0 c ∧ c.Valid := by
    unfold Poly.integral at hr
    simp only [drop_firstNonzeroIndex] at hr
    have hlen := firstNonzeroIndex_add p.terms
    have hlen' : p.terms.length - firstNonzeroIndex p.terms = (p.terms.dropWhile isZero).length := by omega
    rw [hlen'] at hr
    split at hr
    · cases hr
    · rename_i d hd
      obtain ⟨d1, d2, d3⟩ := hc _ _ hd
      obtain ⟨T, t1, t2⟩ := integLoop_nonneg hp hw _ d d1 d2 d3 (fun c hc => h c ((List.dropWhile_suffix isZero).subset hc))
      rw [t1] at hr
      cases hr
      intro c hc
      rcases List.mem_append.1 hc with hc | hc
      · exact t2 c hc
      · rw [List.mem_singleton.1 hc]; exact ⟨Le.refl (by rw [zero_def]; simp), valid_zero⟩
  obtain ⟨e1, e2⟩ := C116_mono hp hw' r (fun c hc => (hrn c hc).2) (fun c hc => (hrn c hc).1) a b h0 hab hb
  obtain ⟨s1, s2, s3⟩ := C98_sub hp hw' (r.eval b) (r.eval a)
  have e3 := e1.trans e2
  show (r.eval b - r.eval a = .nan ↔ _) ∧ (_ → Le 0 (r.eval b - r.eval a))
  have hnan : r.eval b - r.eval a = .nan ↔ r.eval a = .inf false := by
    rw [s1]
    constructor
    · rintro (e | e | ⟨s, e, e'⟩)
      · exact absurd e e2.2.1
      · exact absurd e e2.1
      · cases s
        · exact e'
        · exact absurd e' (nonneg_ne e1)
    · intro e
      refine .inr (.inr ⟨false, ?_, e⟩)
      rcases e2.2.2 with e' | e' | e'
      · rw [e] at e'; cases e'
      · exact e'
      · rw [e] at e'; cases e'.1
  refine ⟨hnan, fun hne => ?_⟩
  have hfa : (r.eval a).isFinite = true := by
    rcases e1.2.2 with e' | e' | e'
    · cases e'
    · exact absurd e' hne
    · exact e'.2.1
  cases hfb : (r.eval b).isFinite with
  | true =>
    have hle : (r.eval a).toRat ≤ (r.eval b).toRat := by
      rcases e2.2.2 with e' | e' | e'
      · exact absurd e' (nonneg_ne e1)
      · rw [e'] at hfb; cases hfb
      · exact e'.2.2
    refine (rounding_zero hp hw').mono (s3 hfb hfa) ⟨nofun, fun _ => le_rfl⟩ ?_ (sub_nonneg.2 hle)
    constructor <;> intro hs
    · simp only [Bool.or_eq_true, Bool.and_eq_true, decide_eq_true_eq] at hs
      rcases hs with hs | hs
      exacts [hs.le, hs.1.1.le]
    · simp only [Bool.or_eq_false_iff, decide_eq_false_iff_not, not_lt] at hs
      exact hs.1
  | false =>
    have e : r.eval b = .inf false := by
      rcases e3.2.2 with e' | e' | e'
      · cases e'
      · exact e'
      · rw [e'.2.1] at hfb; cases hfb
    rw [s2 false (fun e' => hne (hnan.1 e')) (.inl e)]
    exact ⟨by rw [zero_def]; simp, by simp, .inr (.inl rfl)⟩

/-- C116: definite integrals of nonnegative `f64` polynomials upwards are nonnegative, unless the antiderivative is infinite already at the
lower limit. -/
theorem C116_integral_f64 (p r : Poly (Fl binary64)) (h : ∀ c ∈ p.terms, Le 0 c) (hr : p.integral = .ok r) (a b : Fl binary64)
    (h0 : Le 0 a) (hab : Le a b) (hb : b.isFinite = true) :
    ((Integral.mk r).eval a b = .nan ↔ r.eval a = .inf false) ∧ (r.eval a ≠ .inf false → Le 0 ((Integral.mk r).eval a b)) :=
  integral_nonneg countLaw64 (by decide) (by decide) p r h hr a b h0 hab hb

/-- C116: the same for `f32`. -/
theorem C116_integral_f32 (p r : Poly (Fl binary32)) (h : ∀ c ∈ p.terms, Le 0 c) (hr : p.integral = .ok r) (a b : Fl binary32)
    (h0 : Le 0 a) (hab : Le a b) (hb : b.isFinite = true) :
    ((Integral.mk r).eval a b = .nan ↔ r.eval a = .inf false) ∧ (r.eval a ≠ .inf false → Le 0 ((Integral.mk r).eval a b)) :=
  integral_nonneg countLaw32 (by decide) (by decide) p r h hr a b h0 hab hb

/-! ## Symmetry -/

theorem reflectAsc_getD : ∀ (l : List (Fl f)) (k : Nat),
    SameNum ((reflectAsc l).getD k 0) (if k % 2 = 1 then -l.getD k 0 else l.getD k 0)
  | [], k => by
    split
    · exact .zeros ⟨false, rfl⟩ ⟨true, rfl⟩
    · exact .refl _
  | [c], 0 => .refl _
  | [c], k + 1 => by
    split
    · exact .zeros ⟨false, rfl⟩ ⟨true, rfl⟩
    · exact .refl _
  | c :: d :: cs, 0 => .refl _
  | c :: d :: cs, 1 => .refl _
  | c :: d :: cs, k + 2 => by
    have := reflectAsc_getD cs k
    rw [reflectAsc, Nat.add_mod_right]
    exact this

theorem reflectAsc_length : ∀ (l : List (Fl f)), (reflectAsc l).length = l.length
  | [] => rfl
  | [_] => rfl
  | _ :: _ :: cs => by simp [reflectAsc, reflectAsc_length cs]

theorem coeffOf_reflect (p : Poly (Fl f)) (k : Nat) :
    SameNum (coeffOf (reflect p) k) (if k % 2 = 1 then -coeffOf p k else coeffOf p k) := by
  unfold coeffOf reflect
  rw [List.reverse_reverse]
  exact reflectAsc_getD _ k

theorem horner_reflect {g g' : Nat → Fl f} (hg : ∀ d, SameNum (g' d) (if d % 2 = 1 then -g d else g d)) (x : Fl f) :
    ∀ (n : Nat) {a a' : Fl f}, SameNum a' (if n % 2 = 1 then -a else a) → SameNum (horner g' x n a') (horner g (-x) n a)
  | 0, _, _, h => h
  | n + 1, a, a', h => by
    show SameNum (horner g' x n ((a' + g' (n + 1)) * x)) (horner g (-x) n ((a + g (n + 1)) * -x))
    refine horner_reflect hg x n ?_
    have hg1 := hg (n + 1)
    rw [mul_neg']
    rcases Nat.mod_two_eq_zero_or_one n with hn | hn
    · rw [if_neg (by omega)]
      rw [if_pos (by omega)] at h hg1
      rw [neg_mul']
      exact mul_same_left ((h.add hg1).trans (neg_add_same _ _).symm) x
    · rw [if_pos hn]
      rw [if_neg (by omega)] at h hg1
      rw [neg_neg']
      exact mul_same_left (h.add hg1) x

/-- C116: evaluating at `-x` is evaluating `p(-x)` at `x`: the same number, for all coefficients and all `x`. -/
theorem C116_reflect (p : Poly (Fl f)) (x : Fl f) : SameNum (p.eval (-x)) ((reflect p).eval x) := by
  have hzn : isZero (-x) = isZero x := by
    cases x with
    | nan => rfl
    | inf s => rfl
    | fin s a =>
      rw [Bool.eq_iff_iff, isZero_iff, isZero_iff]
      constructor
      · rintro ⟨t, e⟩; cases e; exact ⟨s, rfl⟩
      · rintro ⟨t, e⟩; cases e; exact ⟨!s, rfl⟩
  have hlen : (reflect p).terms.length = p.terms.length := by
    unfold reflect; simp [reflectAsc_length]
  have h0 : SameNum (coeffOf (reflect p) 0) (coeffOf p 0) := coeffOf_reflect p 0
  cases hz : isZero x with
  | true => rw [eval_zero p (hzn.trans hz), eval_zero _ hz]; exact h0.symm
  | false =>
    refine (eval_horner p (hzn.trans hz)).trans (.trans ?_ (eval_horner (reflect p) hz).symm)
    rw [hlen]
    refine ((horner_reflect (coeffOf_reflect p) x _ ?_).symm).add h0.symm
    split
    · exact .zeros ⟨_, zero_def⟩ ⟨true, rfl⟩
    · exact .refl _

/-- C116: the value of a polynomial with terms of even degree only does not depend on the sign of the number, that of one with terms of odd
degree only changes its sign. -/
theorem C116_even_odd (p : Poly (Fl f)) (x : Fl f) (hx : x.isFinite = true) :
    ((∀ k, k % 2 = 1 → isZero (coeffOf p k) = true) → SameNum (p.eval (-x)) (p.eval x)) ∧
    ((∀ k, k % 2 = 0 → isZero (coeffOf p k) = true) → SameNum (p.eval (-x)) (-p.eval x)) := by
  have hz : ∀ {c : Fl f}, isZero c = true → SameNum c (-c) := by
    intro c hc
    obtain ⟨s, rfl⟩ := isZero_iff.1 hc
    exact .zeros ⟨s, rfl⟩ ⟨!s, rfl⟩
  constructor <;> intro h
  · refine (C116_reflect p x).trans ((C115_same _ _ fun k => (coeffOf_reflect p k).trans ?_).2.2.2.2 x hx)
    split
    · exact (hz (h k (by assumption))).symm
    · exact .refl _
  · refine (C116_reflect p x).trans (((C115_same _ p.neg fun k => (coeffOf_reflect p k).trans ?_).2.2.2.2 x hx).trans (C115_eval_neg p x))
    refine .trans ?_ (C115_neg_coeff p k).symm
    split
    · exact .refl _
    · exact hz (h k (by omega))

/-! ## Sparse polynomials -/

section
attribute [local instance] sqPow

theorem one_def' : (1 : Fl f) = .fin false (2 ^ f.q) := rfl

theorem one_facts (hp : 1 ≤ f.p) (hq : f.q < f.w) : (1 : Fl f).Valid ∧ (1 : Fl f) * 1 = 1 ∧ Le 0 (1 : Fl f) ∧ (1 : Fl f) ≠ .nan := by
  have hv : (1 : Fl f).Valid := by
    rw [one_def']
    exact ⟨⟨1, f.q, Nat.one_lt_two_pow (by omega), by simp⟩, Nat.pow_lt_pow_right (by omega) hq⟩
  have h1 : (1 : Fl f) ≠ .nan := by rw [one_def']; simp
  refine ⟨hv, one_mul' hp hv rfl, ⟨by rw [zero_def]; simp, h1, .inr (.inr ⟨rfl, rfl, ?_⟩)⟩, h1⟩
  rw [zero_toRat, one_def']
  simp [toRat]

/-- The values of the loop of `powi`: all at most 1 or all at least 1. -/
def PowRange (r a : Fl f) : Prop := (Le 0 r ∧ Le 0 a ∧ Le r 1 ∧ Le a 1) ∨ (Le 1 r ∧ Le 1 a)

theorem mul_ne_nan (hp : 1 ≤ f.p) (hw : f.p ≤ f.w) {x y : Fl f} (hx : x ≠ .nan) (hy : y ≠ .nan)
    (h : (x.isFinite = true ∧ y.isFinite = true) ∨ ((∀ s, x ≠ .fin s 0) ∧ ∀ s, y ≠ .fin s 0)) : x * y ≠ .nan := by
  rw [Ne, (C98_mul hp hw x y).1]
  rintro (e | e | ⟨s, t, e | e⟩)
  · exact hx e
  · exact hy e
  · rcases h with h | h
    · rw [e.1] at h; cases h.1
    · exact h.2 t e.2
  · rcases h with h | h
    · rw [e.2] at h; cases h.2
    · exact h.1 t e.1

theorem finite_of_unit {x : Fl f} (h0 : Le 0 x) (h1 : Le x 1) : x.isFinite = true := by
  rcases h1.2.2 with e | e | e
  · exact absurd e (nonneg_ne h0)
  · rw [one_def'] at e; cases e
  · exact e.1

theorem ne_zero_of_big {x : Fl f} (h1 : Le 1 x) (s : Bool) : x ≠ .fin s 0 := by
  rintro rfl
  rcases h1.2.2 with e | e | ⟨_, _, e⟩
  · rw [one_def'] at e; cases e
  · cases e
  · have : ((2 : ℚ) ^ f.q) ≠ 0 := by positivity
    rw [one_def'] at e
    simp [toRat, this] at e
    norm_num at e

theorem mul_unit (hp : 1 ≤ f.p) (hw : f.p ≤ f.w) (hq : f.q < f.w) {x y : Fl f} (hx : Le 0 x) (hy : Le 0 y) (hx1 : Le x 1) (hy1 : Le y 1) :
    Le 0 (x * y) ∧ Le (x * y) 1 := by
  obtain ⟨-, o2, o3, o4⟩ := one_facts (f := f) hp hq
  have fx := finite_of_unit hx hx1
  have fy := finite_of_unit hy hy1
  have hn : x * y ≠ .nan := mul_ne_nan hp hw hx.2.1 hy.2.1 (.inl ⟨fx, fy⟩)
  have h00 : Le (0 : Fl f) 0 := Le.refl (by rw [zero_def]; simp)
  obtain ⟨s, hs⟩ := zero_mul_pos (f := f) (y := 0) rfl
  constructor
  · exact (Le.mul hp hw h00 h00 hx hy (by rw [hs]; simp) hn).congr (.zeros ⟨s, hs⟩ ⟨_, zero_def⟩) (.refl _)
  · have := Le.mul hp hw hx hy hx1 hy1 hn (by rw [o2]; exact o4)
    rwa [o2] at this

theorem mul_big (hp : 1 ≤ f.p) (hw : f.p ≤ f.w) (hq : f.q < f.w) {x y : Fl f} (hx1 : Le 1 x) (hy1 : Le 1 y) : Le 1 (x * y) := by
  obtain ⟨-, o2, o3, o4⟩ := one_facts (f := f) hp hq
  have := Le.mul hp hw o3 o3 hx1 hy1 (by rw [o2]; exact o4)
    (mul_ne_nan hp hw hx1.2.1 hy1.2.1 (.inr ⟨ne_zero_of_big hx1, ne_zero_of_big hy1⟩))
  rwa [o2] at this

theorem PowRange.nonneg (hp : 1 ≤ f.p) (hq : f.q < f.w) {r a : Fl f} (h : PowRange r a) : Le 0 r ∧ Le 0 a := by
  obtain ⟨-, -, o3, -⟩ := one_facts (f := f) hp hq
  rcases h with h | h
  exacts [⟨h.1, h.2.1⟩, ⟨o3.trans h.1, o3.trans h.2⟩]

theorem PowRange.mul (hp : 1 ≤ f.p) (hw : f.p ≤ f.w) (hq : f.q < f.w) {r a : Fl f} (h : PowRange r a) :
    PowRange (r * a) (a * a) ∧ PowRange r (a * a) ∧ r * a ≠ .nan ∧ a * a ≠ .nan := by
  rcases h with ⟨h1, h2, h3, h4⟩ | ⟨h1, h2⟩
  · obtain ⟨u1, u2⟩ := mul_unit hp hw hq h1 h2 h3 h4
    obtain ⟨v1, v2⟩ := mul_unit hp hw hq h2 h2 h4 h4
    exact ⟨.inl ⟨u1, v1, u2, v2⟩, .inl ⟨h1, v1, h3, v2⟩, u1.2.1, v1.2.1⟩
  · have u := mul_big hp hw hq h1 h2
    have v := mul_big hp hw hq h2 h2
    exact ⟨.inr ⟨u, v⟩, .inr ⟨h1, v⟩, u.2.1, v.2.1⟩

theorem powiLoop_step (r a : Fl f) (b : Nat) : powiLoop r a b = if b / 2 = 0 then (if b % 2 = 1 then r * a else r) else
    powiLoop (if b % 2 = 1 then r * a else r) (a * a) (b / 2) := by
  conv_lhs => rw [powiLoop]

theorem powiLoop_mono (hp : 1 ≤ f.p) (hw : f.p ≤ f.w) (hq : f.q < f.w) (b : Nat) : ∀ {r a r' a' : Fl f},
    PowRange r a → PowRange r' a' → Le r r' → Le a a' →
    Le 0 (powiLoop r a b) ∧ Le (powiLoop r a b) (powiLoop r' a' b) := by
  induction b using Nat.strong_induction_on with
  | _ b ih =>
    intro r a r' a' h h' hr ha
    obtain ⟨n1, n2⟩ := h.nonneg hp hq
    obtain ⟨m1, m2, m3, m4⟩ := h.mul hp hw hq
    obtain ⟨m1', m2', m3', m4'⟩ := h'.mul hp hw hq
    have hra := Le.mul hp hw n1 n2 hr ha m3 m3'
    have haa := Le.mul hp hw n2 n2 ha ha m4 m4'
    have h0 := (m1.nonneg hp hq).1
    rw [powiLoop_step r a b, powiLoop_step r' a' b]
    by_cases hb : b % 2 = 1 <;> by_cases hb2 : b / 2 = 0 <;> simp only [hb, hb2, if_true, if_false]
    · exact ⟨h0, hra⟩
    · exact ih (b / 2) (by omega) m1 m1' hra haa
    · exact ⟨n1, hr⟩
    · exact ih (b / 2) (by omega) m2 m2' hr haa

theorem powRange_start (hp : 1 ≤ f.p) (hq : f.q < f.w) {x : Fl f} (h0 : Le 0 x) : PowRange 1 x := by
  obtain ⟨-, -, o3, o4⟩ := one_facts (f := f) hp hq
  have h11 := Le.refl o4
  by_cases h : Le x 1
  · exact .inl ⟨o3, h0, h11, h⟩
  · refine .inr ⟨h11, o4, h0.2.1, ?_⟩
    rcases h0.2.2 with e | e | ⟨_, e, _⟩
    · cases e
    · exact .inr (.inl e)
    · refine .inr (.inr ⟨rfl, e, ?_⟩)
      by_contra hc
      exact h ⟨h0.2.1, o4, .inr (.inr ⟨e, rfl, (not_le.1 hc).le⟩)⟩

/-- C116: powers of nonnegative numbers are nonnegative and do not fall. -/
theorem C116_upow (hp : 1 ≤ f.p) (hw : f.p ≤ f.w) (hq : f.q < f.w) (n : Nat) (hn : n < 2 ^ 31) (x y : Fl f) (h0 : Le 0 x) (hxy : Le x y) :
    Le 0 (upowFl x n) ∧ Le (upowFl x n) (upowFl y n) := by
  unfold upowFl powi
  rw [asI32_small hn]
  simp only [Int.natAbs_natCast, if_neg (not_lt.2 (Int.natCast_nonneg n))]
  exact powiLoop_mono hp hw hq n (powRange_start hp hq h0) (powRange_start hp hq (h0.trans hxy))
    (Le.refl (one_facts hp hq).2.2.2) hxy

theorem mul_pos_mono (hp : 1 ≤ f.p) (hw : f.p ≤ f.w) {c x y : Fl f} (hc : c.isFinite = true) (hc0 : 0 < c.toRat) (h0 : Le 0 x) (hxy : Le x y) :
    Le 0 (c * x) ∧ Le (c * x) (c * y) := by
  rw [mul_comm' c x, mul_comm' c y]
  refine ⟨(h0.mul_right hp hw hc hc0).congr (.zeros (zero_mul_pos hc) ⟨_, zero_def⟩) (.refl _), hxy.mul_right hp hw hc hc0⟩

theorem foldl_mono (hp : 1 ≤ f.p) (hw : f.p ≤ f.w) (hq : f.q < f.w) {x y : Fl f} (h0 : Le 0 x) (hxy : Le x y) :
    ∀ (l : List (Nat × Fl f)), (∀ e ∈ l, e.1 < 2 ^ 31 ∧ e.2.isFinite = true ∧ 0 < e.2.toRat) → ∀ {a a' : Fl f}, Le 0 a → Le a a' →
    Le 0 (l.foldl (fun sum e => sum + e.2 * upow x e.1) a) ∧
    Le (l.foldl (fun sum e => sum + e.2 * upow x e.1) a) (l.foldl (fun sum e => sum + e.2 * upow y e.1) a')
  | [], _, _, _, h, h' => ⟨h, h'⟩
  | e :: l, hl, a, a', h, h' => by
    obtain ⟨e1, e2, e3⟩ := hl e (by simp)
    obtain ⟨u1, u2⟩ := C116_upow hp hw hq e.1 e1 x y h0 hxy
    obtain ⟨v1, v2⟩ := mul_pos_mono hp hw e2 e3 u1 u2
    have hs := Le.add_nonneg hp hw h v1
    rw [List.foldl_cons, List.foldl_cons]
    exact foldl_mono hp hw hq h0 hxy l (fun e he => hl e (by simp [he])) hs
      (h'.add hp hw v2 hs.2.1 (add_nonneg_ne_nan hp hw (h.trans h') (v1.trans v2)))

/-- C116: with positive coefficients the values of a SparsePolynomial and of a Monomial at nonnegative numbers are nonnegative and do not
fall, also where the upper number or the values are infinite. -/
theorem C116_sparse (hp : 1 ≤ f.p) (hw : f.p ≤ f.w) (hq : f.q < f.w) (x y : Fl f) (h0 : Le 0 x) (hxy : Le x y) :
    (∀ p : Sparse (Fl f), (∀ e ∈ p.terms.entries, e.1 < 2 ^ 31 ∧ e.2.isFinite = true ∧ 0 < e.2.toRat) →
      Le 0 (p.eval x) ∧ Le (p.eval x) (p.eval y)) ∧
    (∀ m : Monomial (Fl f), m.deg < 2 ^ 31 → m.coefficient.isFinite = true → 0 < m.coefficient.toRat →
      Le 0 (m.eval x) ∧ Le (m.eval x) (m.eval y)) := by
  have h00 : Le (0 : Fl f) 0 := Le.refl (by rw [zero_def]; simp)
  refine ⟨fun p hl => foldl_mono hp hw hq h0 hxy _ hl h00 h00, fun m hd hf hm => ?_⟩
  obtain ⟨u1, u2⟩ := C116_upow hp hw hq m.deg hd x y h0 hxy
  exact mul_pos_mono hp hw hf hm u1 u2

/-- C116: of a stored zero (see C100) or of coefficients of both signs nothing of the kind can be said: the value may be NaN. -/
theorem C116_sparse_false :
    (∃ (p : Sparse (Fl binary64)) (x : Fl binary64), (∀ e ∈ p.terms.entries, Le 0 e.2) ∧ Le 0 x ∧ x.isFinite = true ∧ p.eval x = .nan) ∧
    (∃ (p : Sparse (Fl binary64)) (x : Fl binary64), (∀ e ∈ p.terms.entries, e.2.isFinite = true ∧ e.2.toRat ≠ 0) ∧ Le 0 x ∧
      x.isFinite = true ∧ p.eval x = .nan) := by
  have h2 : Le (0 : Fl binary64) (ofNat 2) :=
    ⟨by rw [zero_def]; simp, by decide +kernel, .inr (.inr ⟨rfl, by decide +kernel, by decide +kernel⟩)⟩
  constructor
  · refine ⟨⟨⟨[(1100, 0)], by decide⟩⟩, ofNat 2, ?_, h2, by decide +kernel, by decide +kernel⟩
    intro e he
    rw [List.mem_singleton.1 he]
    exact Le.refl (by rw [zero_def]; simp)
  · exact ⟨⟨⟨[(1100, 1), (1101, -1)], by decide⟩⟩, ofNat 2, by decide +kernel, h2, by decide +kernel, by decide +kernel⟩

/-! ## Symmetry of sparse polynomials -/

theorem powiLoop_neg_base (b : Nat) (r a : Fl f) : powiLoop r (-a) b = if b % 2 = 1 then -powiLoop r a b else powiLoop r a b := by
  have hsq : -a * -a = a * a := by rw [mul_neg', ← neg_mul', neg_neg']
  have hneg : ∀ b (r a : Fl f), powiLoop (-r) a b = -powiLoop r a b := by
    intro b
    induction b using Nat.strong_induction_on with
    | _ b ih =>
      intro r a
      rw [powiLoop_step (-r) a b, powiLoop_step r a b]
      by_cases hb : b % 2 = 1 <;> by_cases hb2 : b / 2 = 0 <;> simp only [hb, hb2, if_true, if_false]
      · rw [neg_mul']
      · rw [← neg_mul', ih (b / 2) (by omega)]
      · rw [ih (b / 2) (by omega)]
  rw [powiLoop_step r (-a) b, powiLoop_step r a b, hsq]
  by_cases hb : b % 2 = 1 <;> by_cases hb2 : b / 2 = 0 <;> simp only [hb, hb2, if_true, if_false]
  · rw [mul_neg']
  · rw [mul_neg', hneg]

/-- C116: a power of `-x` is that of `x` with the sign changed for an odd exponent. -/
theorem C116_upow_neg (x : Fl f) (n : Nat) (hn : n < 2 ^ 31) : upowFl (-x) n = if n % 2 = 1 then -upowFl x n else upowFl x n := by
  unfold upowFl powi
  rw [asI32_small hn]
  simp only [Int.natAbs_natCast, if_neg (not_lt.2 (Int.natCast_nonneg n))]
  exact powiLoop_neg_base n 1 x

theorem foldl_reflect (x : Fl f) : ∀ (l l' : List (Nat × Fl f)), (∀ e ∈ l, e.1 < 2 ^ 31) →
    l' = l.map (fun e => (e.1, if e.1 % 2 = 1 then -e.2 else e.2)) → ∀ a,
    l.foldl (fun sum e => sum + e.2 * upow (-x) e.1) a = l'.foldl (fun sum e => sum + e.2 * upow x e.1) a
  | [], _, _, rfl, _ => rfl
  | e :: l, _, hl, rfl, a => by
    rw [List.map_cons, List.foldl_cons, List.foldl_cons, foldl_reflect x l _ (fun e he => hl e (by simp [he])) rfl]
    congr 2
    show e.2 * upowFl (-x) e.1 = (if e.1 % 2 = 1 then -e.2 else e.2) * upowFl x e.1
    rw [C116_upow_neg x e.1 (hl e (by simp))]
    split
    · rw [mul_neg', neg_mul']
    · rfl

/-- C116: evaluating a SparsePolynomial at `-x` is evaluating `p(-x)` at `x`, exactly; with even exponents only the sign of `x` makes no
difference. -/
theorem C116_sparse_reflect (p q : Sparse (Fl f)) (hd : ∀ e ∈ p.terms.entries, e.1 < 2 ^ 31) (x : Fl f)
    (h : q.terms.entries = p.terms.entries.map (fun e => (e.1, if e.1 % 2 = 1 then -e.2 else e.2))) :
    p.eval (-x) = q.eval x ∧ ((∀ e ∈ p.terms.entries, e.1 % 2 = 0) → p.eval (-x) = p.eval x) := by
  refine ⟨foldl_reflect x _ _ hd h 0, fun he => foldl_reflect x _ _ hd ?_ 0⟩
  have : ∀ l : List (Nat × Fl f), (∀ e ∈ l, e.1 % 2 = 0) → l = l.map (fun e => (e.1, if e.1 % 2 = 1 then -e.2 else e.2)) := by
    intro l hl
    induction l with
    | nil => rfl
    | cons e l ih =>
      rw [List.map_cons, ← ih (fun e he => hl e (by simp [he])), if_neg (by have := hl e (by simp); omega)]
  exact this _ he

end

/-! ## Fixed-size types -/

theorem finite_of_le {x y : Fl f} (h0 : Le 0 x) (hxy : Le x y) (hy : y.isFinite = true) : x.isFinite = true := by
  rcases hxy.2.2 with e | e | e
  · exact absurd e (nonneg_ne h0)
  · rw [e] at hy; cases hy
  · exact e.1

theorem mul_nonneg_mono (hp : 1 ≤ f.p) (hw : f.p ≤ f.w) {x x' y y' : Fl f} (h0x : Le 0 x) (h0y : Le 0 y) (hx : Le x x') (hy : Le y y')
    (h : x * y ≠ .nan) (h' : x' * y' ≠ .nan) : Le 0 (x * y) ∧ Le (x * y) (x' * y') := by
  have h00 : Le (0 : Fl f) 0 := Le.refl (by rw [zero_def]; simp)
  obtain ⟨s, hs⟩ := zero_mul_pos (f := f) (y := 0) rfl
  exact ⟨(Le.mul hp hw h00 h00 h0x h0y (by rw [hs]; simp) h).congr (.zeros ⟨s, hs⟩ ⟨_, zero_def⟩) (.refl _),
    Le.mul hp hw h0x h0y hx hy h h'⟩

/-- C116: the fixed-size types. -/
theorem C116_fixed (hp : 1 ≤ f.p) (hw : f.p ≤ f.w) (x y : Fl f) (h0 : Le 0 x) (hxy : Le x y) (hy : y.isFinite = true) :
    (∀ b : LinearBinomial (Fl f), Le 0 b.c0 → Le 0 b.c1 → b.c0.isFinite = true →
      Le 0 (b.eval x) ∧ Le (b.eval x) (b.eval y)) ∧
    (∀ t : QuadraticTrinomial (Fl f), Le 0 t.c0 → Le 0 t.c1 → Le 0 t.c2 → t.c0.isFinite = true → t.c1.isFinite = true → t.c1.Valid →
      Le 0 (t.eval x) ∧ Le (t.eval x) (t.eval y)) ∧
    (∀ (size : Nat) (a : ArrayPoly (Fl f) size), (∀ c ∈ a.coefficients, Le 0 c ∧ c.Valid) →
      Le 0 (a.eval x) ∧ Le (a.eval x) (a.eval y)) := by
  have hx := finite_of_le h0 hxy hy
  refine ⟨fun b h1 h2 hf => ?_, fun t h1 h2 h3 hf hf' hv => ?_, fun size a h => ?_⟩
  · have n1 : x * b.c0 ≠ .nan := mul_ne_nan hp hw h0.2.1 h1.2.1 (.inl ⟨hx, hf⟩)
    have n2 : y * b.c0 ≠ .nan := mul_ne_nan hp hw hxy.2.1 h1.2.1 (.inl ⟨hy, hf⟩)
    obtain ⟨m1, m2⟩ := mul_nonneg_mono hp hw h0 h1 hxy (Le.refl h1.2.1) n1 n2
    have hs := Le.add_nonneg hp hw m1 h2
    exact ⟨hs, m2.add hp hw (Le.refl h2.2.1) hs.2.1 (add_nonneg_ne_nan hp hw (m1.trans m2) h2)⟩
  · have inner : ∀ z : Fl f, Le 0 z → z.isFinite = true → z * (t.c0 * z + t.c1) ≠ .nan := by
      intro z hz hzf
      have n1 : t.c0 * z ≠ .nan := mul_ne_nan hp hw h1.2.1 hz.2.1 (.inl ⟨hf, hzf⟩)
      rw [Ne, (C98_mul hp hw _ _).1]
      rintro (e | e | ⟨s, s', e | e⟩)
      · exact hz.2.1 e
      · exact add_ne_nan hp hw n1 hf' e
      · rw [e.1] at hzf; cases hzf
      · have hsm := zero_add_same hp (mul_zero_num hf ⟨s', e.1⟩) hv
        rw [e.2] at hsm
        rcases hsm with h | ⟨⟨_, h⟩, _⟩
        · rw [← h] at hf'; cases hf'
        · cases h
    obtain ⟨m1, m2⟩ := mul_nonneg_mono hp hw h1 h0 (Le.refl h1.2.1) hxy (mul_ne_nan hp hw h1.2.1 h0.2.1 (.inl ⟨hf, hx⟩))
      (mul_ne_nan hp hw h1.2.1 hxy.2.1 (.inl ⟨hf, hy⟩))
    have a1 := Le.add_nonneg hp hw m1 h2
    have a1' := Le.add_nonneg hp hw (m1.trans m2) h2
    have a2 := m2.add hp hw (Le.refl h2.2.1) a1.2.1 a1'.2.1
    obtain ⟨k1, k2⟩ := mul_nonneg_mono hp hw h0 a1 hxy a2 (inner x h0 hx) (inner y (h0.trans hxy) hy)
    have hs := Le.add_nonneg hp hw k1 h3
    exact ⟨hs, k2.add hp hw (Le.refl h3.2.1) hs.2.1 (add_nonneg_ne_nan hp hw (k1.trans k2) h3)⟩
  · exact C116_mono hp hw ⟨a.coefficients⟩ (fun c hc => (h c hc).2) (fun c hc => (h c hc).1) x y h0 hxy hy

/-- C116: `p(-x)` for the fixed-size types. -/
theorem C116_fixed_reflect (x : Fl f) :
    (∀ b : LinearBinomial (Fl f), b.eval (-x) = (LinearBinomial.mk (-b.c0) b.c1).eval x) ∧
    (∀ t : QuadraticTrinomial (Fl f), SameNum (t.eval (-x)) ((QuadraticTrinomial.mk t.c0 (-t.c1) t.c2).eval x)) ∧
    (∀ (size : Nat) (a a' : ArrayPoly (Fl f) size), a'.coefficients = (reflect ⟨a.coefficients⟩).terms →
      SameNum (a.eval (-x)) (a'.eval x)) := by
  refine ⟨fun b => ?_, fun t => ?_, fun size a a' h => ?_⟩
  · show -x * b.c0 + b.c1 = x * -b.c0 + b.c1
    rw [mul_neg', neg_mul']
  · show SameNum (-x * (t.c0 * -x + t.c1) + t.c2) (x * (t.c0 * x + -t.c1) + t.c2)
    refine add_same_left ?_ t.c2
    rw [← neg_mul', ← mul_neg', mul_comm' x, mul_comm' x]
    refine mul_same_left ?_ x
    refine (neg_add_same _ _).trans ?_
    rw [mul_neg', neg_neg']
    exact .refl _
  · have := C116_reflect ⟨a.coefficients⟩ x
    rw [show reflect ⟨a.coefficients⟩ = ⟨a'.coefficients⟩ by rw [h]] at this
    exact this

/-! ## Cases -/

seal Valid in
/-- `0.1x² + 3x + 0.1` at 0.1 and 0.3. -/
example : let p : Poly (Fl binary64) := ⟨[div 1 (ofNat 10), ofNat 3, div 1 (ofNat 10)]⟩
    AllValid p ∧ (∀ c ∈ p.terms, Le 0 c) ∧ Le 0 (div 1 (ofNat 10) : Fl binary64) ∧
    Le (div 1 (ofNat 10) : Fl binary64) (div (ofNat 3) (ofNat 10)) ∧ (div (ofNat 3) (ofNat 10) : Fl binary64).isFinite = true := by
  have h1 : Le 0 (div 1 (ofNat 10) : Fl binary64) :=
    ⟨by decide +kernel, by decide +kernel, .inr (.inr ⟨by decide +kernel, by decide +kernel, by decide +kernel⟩)⟩
  have h2 : Le 0 (ofNat 3 : Fl binary64) :=
    ⟨by decide +kernel, by decide +kernel, .inr (.inr ⟨by decide +kernel, by decide +kernel, by decide +kernel⟩)⟩
  refine ⟨fun c hc => ?_, fun c hc => ?_, h1, ⟨by decide +kernel, by decide +kernel,
    .inr (.inr ⟨by decide +kernel, by decide +kernel, by decide +kernel⟩)⟩, by decide +kernel⟩
  · simp only [List.mem_cons, List.not_mem_nil, or_false] at hc
    rcases hc with hc | hc | hc <;> rw [hc]
    · exact valid_div (f := binary64) (by decide) _ _
    · exact valid_ofNat (f := binary64) (by decide) 3
    · exact valid_div (f := binary64) (by decide) _ _
  · simp only [List.mem_cons, List.not_mem_nil, or_false] at hc
    rcases hc with hc | hc | hc <;> rw [hc]
    exacts [h1, h2, h1]

-- the value is not computed exactly, and the integral of `3x` from 0.1 to 0.3 is positive
example : (⟨[div 1 (ofNat 10), 0]⟩ : Poly (Fl binary64)).eval (div (ofNat 7) (ofNat 10)) ≠ div (ofNat 7) (ofNat 100) ∧
    ∃ r, (⟨[ofNat 3, 0]⟩ : Poly (Fl binary64)).integral = .ok r ∧
      0 < ((Integral.mk r).eval (div 1 (ofNat 10) : Fl binary64) (div (ofNat 3) (ofNat 10))).toRat :=
  ⟨by decide +kernel, ⟨[div (ofNat 3) (ofNat 2), 0, 0]⟩, by decide +kernel, by decide +kernel⟩

-- `x⁴ - 2x²` is even, `x³ - x` is odd
example : (∀ k, k % 2 = 1 → isZero (coeffOf (⟨[1, 0, -ofNat 2, 0, 0]⟩ : Poly (Fl binary64)) k) = true) ∧
    (∀ k, k % 2 = 0 → isZero (coeffOf (⟨[1, 0, -1, 0]⟩ : Poly (Fl binary64)) k) = true) := by
  constructor <;> intro k hk
  · by_cases h : k < 5
    · interval_cases k <;> first | omega | decide +kernel
    · rw [show coeffOf _ k = 0 from coeffOf_ge _ (by simp only [List.length_cons, List.length_nil]; omega)]; rfl
  · by_cases h : k < 4
    · interval_cases k <;> first | omega | decide +kernel
    · rw [show coeffOf _ k = 0 from coeffOf_ge _ (by simp only [List.length_cons, List.length_nil]; omega)]; rfl

end Fl
end Rustnomial
