import Verif.Model.Bisect
import Verif.Props.FloatCertify
import Verif.Props.DenseBasic

/-!
# C131: finding roots by halving intervals
-/

open Polynomial

set_option linter.unusedSectionVars false

namespace Rustnomial
namespace Fl

/-! ## Exact numbers -/

/-- The polynomial has values of different sign at `a` and `b`, or a root at one of them. -/
def SignChange (P : ℚ[X]) (a b : ℚ) : Prop := (P.eval a ≤ 0 ∧ 0 < P.eval b) ∨ (0 < P.eval a ∧ P.eval b ≤ 0)

theorem aeval_real (P : ℚ[X]) (q : ℚ) : aeval (q : ℝ) P = ((P.eval q : ℚ) : ℝ) := by
  have := Polynomial.aeval_algebraMap_apply_eq_algebraMap_eval (A := ℝ) q P
  simpa using this

theorem root_of_signChange {P : ℚ[X]} {a b : ℚ} (hab : a ≤ b) (h : SignChange P a b) :
    ∃ z : ℝ, (a : ℝ) ≤ z ∧ z ≤ b ∧ aeval z P = 0 := by
  have hcont : ContinuousOn (fun z : ℝ => aeval z P) (Set.Icc (a : ℝ) (b : ℝ)) := (Polynomial.continuous_aeval _).continuousOn
  have hle : (a : ℝ) ≤ (b : ℝ) := by exact_mod_cast hab
  rcases h with ⟨h1, h2⟩ | ⟨h1, h2⟩
  · have h0 : (0 : ℝ) ∈ Set.Icc (aeval (a : ℝ) P) (aeval (b : ℝ) P) := by
      rw [aeval_real, aeval_real]; exact ⟨by exact_mod_cast h1, by exact_mod_cast h2.le⟩
    obtain ⟨z, ⟨h1, h2⟩, h3⟩ := intermediate_value_Icc hle hcont h0
    exact ⟨z, h1, h2, h3⟩
  · have h0 : (0 : ℝ) ∈ Set.Icc (aeval (b : ℝ) P) (aeval (a : ℝ) P) := by
      rw [aeval_real, aeval_real]; exact ⟨by exact_mod_cast h2, by exact_mod_cast h1.le⟩
    obtain ⟨z, ⟨h1, h2⟩, h3⟩ := intermediate_value_Icc' hle hcont h0
    exact ⟨z, h1, h2, h3⟩

/-- **C131.** With exact numbers, `n` halvings of an interval at whose ends the signs differ give one `2^n` times shorter inside it at whose
ends the signs still differ, which contains a real root. -/
theorem C131_bisect (p : Poly ℚ) (n : Nat) (a b : ℚ) (hab : a < b) (h : SignChange (descPoly p.terms) a b) :
    ∃ a' b', p.bisect n a b = .ok (a', b') ∧ a ≤ a' ∧ b' ≤ b ∧ b' - a' = (b - a) / 2 ^ n ∧ SignChange (descPoly p.terms) a' b' ∧
      ∃ z : ℝ, (a' : ℝ) ≤ z ∧ z ≤ b' ∧ aeval z (descPoly p.terms) = 0 := by
  induction n generalizing a b with
  | zero => exact ⟨a, b, rfl, le_rfl, le_rfl, by simp, h, root_of_signChange hab.le h⟩
  | succ n ih =>
    have hm : (rdiv (a + b) (1 + 1) : Res ℚ) = .ok ((a + b) / 2) := by norm_num [rdiv]
    have hpos : ∀ x : ℚ, (isPositive (p.eval x) = true ↔ 0 < (descPoly p.terms).eval x) := fun x => by
      rw [C06_dense_eval]; simp [isPositive]
    unfold Poly.bisect
    rw [hm, Res.ok_bind]
    by_cases hc : isPositive (p.eval ((a + b) / 2)) = isPositive (p.eval b)
    · rw [if_pos (by simpa using hc)]
      have hc' : 0 < (descPoly p.terms).eval ((a + b) / 2) ↔ 0 < (descPoly p.terms).eval b := by rw [← hpos, ← hpos, hc]
      obtain ⟨a', b', h1, h2, h3, h4, h5, h6⟩ := ih a ((a + b) / 2) (by linarith) (by
        rcases h with ⟨u, v⟩ | ⟨u, v⟩
        · exact .inl ⟨u, hc'.2 v⟩
        · exact .inr ⟨u, not_lt.1 (fun h => absurd (hc'.1 h) (not_lt.2 v))⟩)
      exact ⟨a', b', h1, h2, by linarith, by rw [h4, pow_succ]; field_simp; ring, h5, h6⟩
    · rw [if_neg (by simpa using hc)]
      have hc' : ¬ (0 < (descPoly p.terms).eval ((a + b) / 2) ↔ 0 < (descPoly p.terms).eval b) := by
        rw [← hpos, ← hpos, ← Bool.eq_iff_iff]; exact hc
      obtain ⟨a', b', h1, h2, h3, h4, h5, h6⟩ := ih ((a + b) / 2) b (by linarith) (by
        rcases h with ⟨u, v⟩ | ⟨u, v⟩
        · exact .inl ⟨not_lt.1 (fun h => hc' ⟨fun _ => v, fun _ => h⟩), v⟩
        · refine .inr ⟨?_, v⟩
          by_contra h0
          exact hc' ⟨fun h => absurd h h0, fun h => absurd h (not_lt.2 v)⟩)
      exact ⟨a', b', h1, by linarith, h3, by rw [h4, pow_succ]; field_simp; ring, h5, h6⟩

-- the square root of 2 to within 1/1024
example : SignChange (descPoly (⟨[1, 0, -2]⟩ : Poly ℚ).terms) 1 2 ∧
    (⟨[1, 0, -2]⟩ : Poly ℚ).bisect 10 1 2 = .ok (1448 / 1024, 1449 / 1024) := by
  refine ⟨.inl ?_, by decide +kernel⟩
  norm_num [descPoly_cons]

/-! ## Floating point -/

variable {f : FlFmt}

theorem ltFl_iff {x y : Fl f} (hx : x.isFinite = true) (hy : y.isFinite = true) : ltFl x y = true ↔ x.toRat < y.toRat := by
  have h2 : (0 : ℚ) < 2 ^ f.q := by positivity
  match x, y, hx, hy with
  | .fin s a, .fin t b, _, _ =>
    cases s <;> cases t <;> simp only [ltFl, toRat, decide_eq_true_eq, if_true, Bool.false_eq_true, if_false, one_mul, neg_mul, neg_lt_neg_iff]
    · rw [div_lt_div_iff_of_pos_right h2, Nat.cast_lt]
    · simp only [false_iff, not_lt]
      have h3 : (0 : ℚ) ≤ a / 2 ^ f.q := by positivity
      have h4 : (0 : ℚ) ≤ b / 2 ^ f.q := by positivity
      linarith
    · constructor
      · intro h
        have : (0 : ℚ) < (a + b : Nat) / 2 ^ f.q := div_pos (by exact_mod_cast h) h2
        push_cast at this
        rw [add_div] at this; linarith
      · intro h
        have : (0 : ℚ) < (a + b : Nat) / 2 ^ f.q := by push_cast; rw [add_div]; linarith
        have := (div_pos_iff_of_pos_right h2).1 this
        exact_mod_cast this
    · rw [div_lt_div_iff_of_pos_right h2, Nat.cast_lt]

/-- The place of a float in the order of the numbers with infinities (that of NaN is of no importance). -/
def place : Fl f → WithBot (WithTop ℚ)
  | .nan => ((0 : ℚ) : WithTop ℚ)
  | .inf true => ⊥
  | .inf false => (⊤ : WithTop ℚ)
  | .fin s a => (((fin s a : Fl f).toRat : ℚ) : WithTop ℚ)

/-- **C131.** The `<` used is that of the numbers and the infinities; NaN is neither less nor greater. -/
theorem C131_less (x y : Fl f) : ltFl x y = true ↔ x ≠ .nan ∧ y ≠ .nan ∧ place x < place y := by
  match x, y with
  | .nan, y => simp [ltFl]
  | .inf s, .nan => simp [ltFl]
  | .fin s a, .nan => cases s <;> simp [ltFl]
  | .inf s, .inf t => cases s <;> cases t <;> simp [ltFl, place]
  | .inf s, .fin t b => cases s <;> simp [ltFl, place, WithBot.bot_lt_coe]
  | .fin s a, .inf t =>
    cases t
    · have : ltFl (fin s a : Fl f) (.inf false) = true := by cases s <;> rfl
      exact ⟨fun _ => ⟨by simp, by simp, WithBot.coe_lt_coe.2 (WithTop.coe_lt_top _)⟩, fun _ => this⟩
    · cases s <;> simp [ltFl, place]
  | .fin s a, .fin t b =>
    rw [ltFl_iff rfl rfl]
    simp [place, WithBot.coe_lt_coe]

theorem ltFl_between {a m b : Fl f} (ha : a.isFinite = true) (hb : b.isFinite = true) (h1 : ltFl a m = true) (h2 : ltFl m b = true) :
    m.isFinite = true := by
  match a, m, b, ha, hb with
  | .fin _ _, .fin _ _, .fin _ _, _, _ => rfl
  | .fin _ _, .nan, _, _, _ => cases ‹Bool› <;> simp [ltFl] at h1
  | .fin _ _, .inf s, .fin _ _, _, _ => cases s <;> simp [ltFl] at h1 h2

theorem isPositive_toRat {x : Fl f} (hx : x.isFinite = true) : Rustnomial.isPositive x = true ↔ 0 < x.toRat := by
  have h2 : (0 : ℚ) < 2 ^ f.q := by positivity
  match x, hx with
  | .fin s a, _ =>
    cases s <;> simp [Rustnomial.isPositive, toRat]
    positivity

/-- A finite number is a whole number of units. -/
theorem units_int {x : Fl f} (hx : x.isFinite = true) (hv : x.Valid) :
    ∃ k : ℤ, x.toRat = k / 2 ^ f.q ∧ FitsIn f.p k.natAbs ∧ k.natAbs < 2 ^ f.w := by
  match x, hx, hv with
  | .fin s a, _, ⟨h1, h2⟩ =>
    refine ⟨if s then -a else a, ?_, ?_, ?_⟩
    · cases s <;> simp [toRat]; ring
    · cases s <;> simpa using h1
    · cases s <;> simpa using h2

theorem int_units {k : ℤ} (h1 : FitsIn f.p k.natAbs) (h2 : k.natAbs < 2 ^ f.w) :
    ∃ z : Fl f, z.Valid ∧ z.isFinite = true ∧ z.toRat = k / 2 ^ f.q := by
  refine ⟨.fin (decide (k < 0)) k.natAbs, ⟨h1, h2⟩, rfl, ?_⟩
  unfold toRat
  by_cases hk : k < 0
  · have : ((k.natAbs : ℤ) : ℚ) = -k := by rw [Int.natCast_natAbs, abs_of_neg hk]; push_cast; ring
    rw [Int.cast_natCast] at this
    simp only [hk, decide_true, if_true, this]
    ring
  · have : ((k.natAbs : ℤ) : ℚ) = k := by rw [Int.natCast_natAbs, abs_of_nonneg (not_lt.1 hk)]
    rw [Int.cast_natCast] at this
    simp only [hk, decide_false, Bool.false_eq_true, if_false, this]
    ring

/-- Two different numbers with at most `p` bits are far apart. -/
theorem fits_gap {p : Nat} {M N : Nat} (hM : FitsIn p M) (hN : FitsIn p N) (hne : M ≠ N) :
    (M : ℤ) ≤ 2 ^ p * |(M : ℤ) - N| := by
  obtain ⟨c, e, hc, rfl⟩ := hM
  obtain ⟨d, k, hd, rfl⟩ := hN
  have hc' : (c : ℤ) < 2 ^ p := by exact_mod_cast hc
  have hd' : (d : ℤ) < 2 ^ p := by exact_mod_cast hd
  have hgap : ∀ t, (2 : ℤ) ^ t ∣ ((c * 2 ^ e : Nat) : ℤ) - (d * 2 ^ k : Nat) → (2 : ℤ) ^ t ≤ |((c * 2 ^ e : Nat) : ℤ) - (d * 2 ^ k : Nat)| := by
    intro t ht
    refine Int.le_of_dvd (abs_pos.2 (sub_ne_zero.2 (by exact_mod_cast hne))) ((dvd_abs _ _).2 ht)
  have hp0 : (0 : ℤ) < 2 ^ p := by positivity
  rcases le_or_gt e k with hek | hek
  · have h := hgap e (dvd_sub (by push_cast; exact dvd_mul_left _ _) (by push_cast; exact Dvd.dvd.mul_left (pow_dvd_pow _ hek) _))
    have h0 : (0 : ℤ) < 2 ^ e := by positivity
    generalize |((c * 2 ^ e : Nat) : ℤ) - (d * 2 ^ k : Nat)| = g at *
    push_cast
    nlinarith
  · have h := hgap k (dvd_sub (by push_cast; exact Dvd.dvd.mul_left (pow_dvd_pow _ hek.le) _) (by push_cast; exact dvd_mul_left _ _))
    have h0 : (0 : ℤ) < 2 ^ k := by positivity
    have hN : ((d * 2 ^ k : Nat) : ℤ) ≤ (2 ^ p - 1) * 2 ^ k := by
      push_cast
      exact mul_le_mul_of_nonneg_right (by omega) h0.le
    have hle := le_abs_self (((c * 2 ^ e : Nat) : ℤ) - (d * 2 ^ k : Nat))
    generalize |((c * 2 ^ e : Nat) : ℤ) - (d * 2 ^ k : Nat)| = g at *
    generalize ((c * 2 ^ e : Nat) : ℤ) = M at *
    generalize ((d * 2 ^ k : Nat) : ℤ) = N at *
    have : (2 ^ p - 1) * 2 ^ k ≤ (2 ^ p - 1) * g := mul_le_mul_of_nonneg_left h (by omega)
    linarith

theorem fits_gap_int {p : Nat} {M N : ℤ} (hM : FitsIn p M.natAbs) (hN : FitsIn p N.natAbs) (hne : M ≠ N) : |M| ≤ 2 ^ p * |M - N| := by
  have hp1 : (1 : ℤ) ≤ 2 ^ p := one_le_pow₀ (by norm_num)
  by_cases h : M.natAbs = N.natAbs
  · have : N = -M := by omega
    subst this
    rw [sub_neg_eq_add, ← two_mul, abs_mul, show |(2 : ℤ)| = 2 from rfl]
    nlinarith [abs_nonneg M]
  · have h1 := fits_gap hM hN h
    rw [Int.natCast_natAbs, Int.natCast_natAbs] at h1
    exact h1.trans (mul_le_mul_of_nonneg_left (abs_abs_sub_abs_le_abs_sub _ _) (by omega))

theorem fits_small {p n : Nat} (hp : 1 ≤ p) (h : n ≤ 2 ^ p) : FitsIn p n := by
  rcases Nat.lt_or_ge n (2 ^ p) with h1 | h1
  · exact ⟨n, 0, h1, by simp⟩
  · exact ⟨1, p, Nat.one_lt_two_pow (by omega), by omega⟩

/-- The arithmetic of a halving step, in units. -/
theorem halving_int {p : Nat} (hp : 2 ≤ p) {w : Nat} (hw : p < w) {A B S M : ℤ} (hA : FitsIn p A.natAbs) (hB : FitsIn p B.natAbs)
    (hS : FitsIn p S.natAbs) (hSw : S.natAbs < 2 ^ w)
    (n1 : ∀ K : ℤ, FitsIn p K.natAbs → K.natAbs < 2 ^ w → |S - (A + B)| ≤ |K - (A + B)|)
    (n2 : ∀ K : ℤ, FitsIn p K.natAbs → K.natAbs < 2 ^ w → |2 * M - S| ≤ |2 * K - S|)
    (rel : 2 ^ p * |S - (A + B)| ≤ |A + B|) (h1 : A < M) (h2 : M < B) :
    6 * (M - A) ≤ 5 * (B - A) ∧ 6 * (B - M) ≤ 5 * (B - A) := by
  have hpw : 2 ^ p < 2 ^ w := Nat.pow_lt_pow_right (by norm_num) hw
  have hP : (4 : ℤ) ≤ 2 ^ p := by
    calc (4 : ℤ) = 2 ^ 2 := by norm_num
      _ ≤ 2 ^ p := pow_le_pow_right₀ (by norm_num) hp
  have hcast : ((2 ^ p : Nat) : ℤ) = 2 ^ p := by push_cast; rfl
  by_cases hT : (A + B).natAbs ≤ 2 ^ p
  · have e1 := n1 (A + B) (fits_small (by omega) hT) (by omega)
    have e2 := n2 (S / 2) (fits_small (by omega) (by
      simp only [sub_self, abs_zero, abs_nonpos_iff] at e1
      omega)) (by omega)
    simp only [sub_self, abs_zero, abs_nonpos_iff] at e1
    have e3 : |2 * (S / 2) - S| ≤ 1 := by rw [abs_le]; omega
    have e4 := abs_le.1 (e2.trans e3)
    omega
  · have hS2 : 2 ^ p ≤ S.natAbs := by
      have k1 := n1 (2 ^ p : Nat) (fits_small (by omega) (by simp)) (by simpa using hpw)
      have k2 := n1 (-(2 ^ p : Nat)) (fits_small (by omega) (by simp)) (by simpa using hpw)
      rw [Int.abs_eq_natAbs, Int.abs_eq_natAbs] at k1 k2
      clear rel n1 n2
      generalize 2 ^ p = P at *
      omega
    obtain ⟨c, e, hc, hce⟩ := hS
    have he : 1 ≤ e := by
      rcases Nat.eq_zero_or_pos e with h | h
      · subst h; simp at hce; omega
      · exact h
    have hev : 2 * (S / 2) = S := by
      have : 2 ∣ S := by
        rw [← Int.dvd_natAbs, hce]
        push_cast
        exact Dvd.dvd.mul_left (dvd_pow_self 2 (by omega)) _
      omega
    have hM : 2 * M = S := by
      have := n2 (S / 2) ⟨c, e - 1, hc, by
        have : S.natAbs = c * 2 ^ (e - 1) * 2 := by rw [hce, mul_assoc, ← pow_succ]; congr 2; omega
        omega⟩ (by omega)
      rw [hev, sub_self, abs_zero, abs_nonpos_iff] at this
      omega
    have dbl : ∀ {K : ℤ}, FitsIn p K.natAbs → FitsIn p (2 * K).natAbs := by
      rintro K ⟨c, e, hc, h⟩
      exact ⟨c, e + 1, hc, by rw [Int.natAbs_mul, h, pow_succ]; simp; ring⟩
    have hS' : FitsIn p S.natAbs := ⟨c, e, hc, hce⟩
    have g1 := fits_gap_int hS' (dbl hA) (by omega)
    have g2 := fits_gap_int hS' (dbl hB) (by omega)
    rw [abs_of_pos (show 0 < S - 2 * A by omega)] at g1
    rw [abs_of_neg (show S - 2 * B < 0 by omega)] at g2
    have tri : |A + B| ≤ |S| + |S - (A + B)| := by
      have := abs_sub_abs_le_abs_sub (A + B) S
      rw [abs_sub_comm] at this; omega
    have fin : ∀ E X : ℤ, 0 ≤ E → 2 ^ p * E ≤ 2 ^ p * X + E → 3 * E ≤ 4 * X := by
      intro E X hE h
      generalize (2 : ℤ) ^ p = P at *
      have h3 : 4 * E ≤ P * E := mul_le_mul_of_nonneg_right hP hE
      have : P * (3 * E) ≤ P * (4 * X) := by nlinarith
      exact le_of_mul_le_mul_left this (by omega)
    have f1 := fin |S - (A + B)| (S - 2 * A) (abs_nonneg _) (by linarith)
    have f2 := fin |S - (A + B)| (-(S - 2 * B)) (abs_nonneg _) (by linarith)
    rcases abs_cases (S - (A + B)) with ⟨h, _⟩ | ⟨h, _⟩ <;> rw [h] at f1 f2 <;> omega

theorem two_exact (hp : 2 ≤ f.p) (hw : f.p + f.q ≤ f.w) : (1 + 1 : Fl f).isFinite = true ∧ (1 + 1 : Fl f).toRat = 2 := by
  have := int_add (f := f) (by omega) hw (x := 1) (y := 1) (a := 1) (b := 1) rfl rfl (by rw [toRat_one]; simp) (by rw [toRat_one]; simp) (by
    have : (2 : ℚ) ^ 2 ≤ 2 ^ f.p := pow_le_pow_right₀ (by norm_num) hp
    norm_num at this ⊢
    linarith)
  exact ⟨this.1, by rw [this.2]; norm_num⟩

/-- A midpoint strictly between the ends leaves at most five sixths on both sides. -/
theorem halving (hp : 2 ≤ f.p) (hq : 1 ≤ f.q) (hw : f.p + f.q ≤ f.w) {a b : Fl f} (ha : a.isFinite = true) (hav : a.Valid)
    (hb : b.isFinite = true) (hbv : b.Valid) (hm : (div (a + b) (1 + 1)).isFinite = true) (h1 : a.toRat < (div (a + b) (1 + 1)).toRat)
    (h2 : (div (a + b) (1 + 1)).toRat < b.toRat) :
    6 * ((div (a + b) (1 + 1)).toRat - a.toRat) ≤ 5 * (b.toRat - a.toRat) ∧
    6 * (b.toRat - (div (a + b) (1 + 1)).toRat) ≤ 5 * (b.toRat - a.toRat) := by
  have hp1 : 1 ≤ f.p := by omega
  have hs := finite_of_div hm
  have hsv := (C65_closed hp1 a b).1
  have hmv := (C65_closed hp1 (a + b) (1 + 1)).2.2.2.1
  obtain ⟨t1, t2⟩ := two_exact hp hw
  obtain ⟨A, eA, fA, -⟩ := units_int ha hav
  obtain ⟨B, eB, fB, -⟩ := units_int hb hbv
  obtain ⟨S, eS, fS, wS⟩ := units_int hs hsv
  obtain ⟨M, eM, fM, -⟩ := units_int hm hmv
  have rel := add_error hs
  have near1 := fun z hz hzf => (C65_nearest hp1 a b z hz hzf).1 hs
  have near2 := fun z hz hzf => (C65_nearest hp1 (a + b) (1 + 1) z hz hzf).2.2.2 hs t1 (by rw [t2]; norm_num) hm
  generalize div (a + b) (1 + 1) = m at *
  rw [t2] at near2
  generalize a + b = s at *
  have h2q : (0 : ℚ) < 2 ^ f.q := by positivity
  rw [eA, eM, div_lt_div_iff_of_pos_right h2q, Int.cast_lt] at h1
  rw [eM, eB, div_lt_div_iff_of_pos_right h2q, Int.cast_lt] at h2
  have key := halving_int (p := f.p) hp (w := f.w) (by omega) fA fB fS wS (M := M) (fun K k1 k2 => by
      obtain ⟨z, z1, z2, z3⟩ := int_units (f := f) k1 k2
      have := near1 z z1 z2
      rw [eS, eA, eB, z3, ← add_div, ← sub_div, ← sub_div, abs_div, abs_div, div_le_div_iff_of_pos_right (by positivity)] at this
      exact_mod_cast this) (fun K k1 k2 => by
      obtain ⟨z, z1, z2, z3⟩ := int_units (f := f) k1 k2
      have := near2 z z1 z2
      rw [eS, eM, z3] at this
      have hx : ∀ k : ℤ, |(k : ℚ) / 2 ^ f.q - S / 2 ^ f.q / 2| = |((2 * k - S : ℤ) : ℚ)| / (2 * 2 ^ f.q) := fun k => by
        rw [show (k : ℚ) / 2 ^ f.q - S / 2 ^ f.q / 2 = ((2 * k - S : ℤ) : ℚ) / (2 * 2 ^ f.q) by push_cast; field_simp, abs_div,
          abs_of_pos (show (0 : ℚ) < 2 * 2 ^ f.q by positivity)]
      rw [hx, hx, div_le_div_iff_of_pos_right (by positivity)] at this
      exact_mod_cast this) (by
      rw [eS, eA, eB, ← add_div, ← sub_div, abs_div, abs_div, ← mul_div_assoc, div_le_div_iff_of_pos_right (by positivity), uro, one_div,
        ← div_eq_inv_mul, le_div_iff₀ (by positivity), mul_comm] at rel
      exact_mod_cast rel) h1 h2
  rw [eA, eB, eM]
  have k1 : (6 * (M - A) : ℚ) ≤ 5 * (B - A) := by exact_mod_cast key.1
  have k2 : (6 * (B - M) : ℚ) ≤ 5 * (B - A) := by exact_mod_cast key.2
  rw [← sub_div, ← sub_div, ← sub_div, ← mul_div_assoc, ← mul_div_assoc, ← mul_div_assoc]
  exact ⟨div_le_div_of_nonneg_right k1 h2q.le, div_le_div_of_nonneg_right k2 h2q.le⟩

/-- **C131.** In floating point, with a test `certain` that implies the one of C124, the program always returns, and the interval it returns lies
in the given one and has a real root strictly inside; every round leaves at most five sixths of the interval, so that there are at most
logarithmically many; it stops only where no number is found strictly between the ends by halving or the
sign there is not certain. -/
theorem C131_bisect_certain (hp : 2 ≤ f.p) (hq : 1 ≤ f.q) (hw : f.p + f.q ≤ f.w) (p : Poly (Fl f)) (hg : evalGamma f p.terms.length < 1) (certain : Fl f → Bool)
    (hcert : ∀ x, certain x = true → SignTest p x) (a b : Fl f) (ha : a.isFinite = true) (hav : a.Valid)
    (hb : b.isFinite = true) (hbv : b.Valid) (hab : a.toRat < b.toRat)
    (hta : SignTest p a) (htb : SignTest p b) (hs : (p.eval a).toRat * (p.eval b).toRat < 0) (steps : Nat)
    (hsteps : 5 ^ steps * ((b.toRat - a.toRat) * 2 ^ f.q) < 6 ^ steps * 2) :
    ∃ a' b', p.bisectCertain ltFl certain (steps + 1) a b = .ok (a', b') ∧ a.toRat ≤ a'.toRat ∧ a'.toRat < b'.toRat ∧ b'.toRat ≤ b.toRat ∧
      (∃ z : ℝ, (a'.toRat : ℝ) < z ∧ z < (b'.toRat : ℝ) ∧ aeval z (descPoly (p.terms.map toRat)) = 0) ∧
      ¬ (a'.toRat < (div (a' + b') (1 + 1)).toRat ∧ (div (a' + b') (1 + 1)).toRat < b'.toRat ∧ (div (a' + b') (1 + 1)).isFinite = true ∧
        certain (div (a' + b') (1 + 1)) = true) := by
  have h2 : (0 : ℚ) < 2 ^ f.q := by positivity
  induction steps generalizing a b with
  | zero =>
    unfold Poly.bisectCertain
    rw [show (rdiv (a + b) (1 + 1) : Res (Fl f)) = .ok (div (a + b) (1 + 1)) from rfl, Res.ok_bind]
    have hno : ∀ m : Fl f, m.isFinite = true → m.Valid → a.toRat < m.toRat → ¬ m.toRat < b.toRat := by
      intro m hm hmv e1 e2
      obtain ⟨ka, ea, -⟩ := units_int ha hav
      obtain ⟨km, em, -⟩ := units_int hm hmv
      obtain ⟨kb, eb, -⟩ := units_int hb hbv
      rw [ea, em, div_lt_div_iff_of_pos_right h2, Int.cast_lt] at e1
      rw [em, eb, div_lt_div_iff_of_pos_right h2, Int.cast_lt] at e2
      rw [ea, eb, ← sub_div, div_mul_cancel₀ _ h2.ne', pow_zero, pow_zero, one_mul, one_mul] at hsteps
      have : kb - ka < 2 := by exact_mod_cast hsteps
      omega
    have hno' := fun h => hno (div (a + b) (1 + 1)) h (C65_closed (by omega) _ _).2.2.2.1
    have hc : (ltFl a (div (a + b) (1 + 1)) && ltFl (div (a + b) (1 + 1)) b && certain (div (a + b) (1 + 1))) = false := by
      rw [← Bool.not_eq_true, Bool.and_eq_true, Bool.and_eq_true]
      rintro ⟨⟨c1, c2⟩, -⟩
      have hm := ltFl_between ha hb c1 c2
      exact hno' hm ((ltFl_iff ha hm).1 c1) ((ltFl_iff hm hb).1 c2)
    rw [if_pos (by rw [hc]; rfl)]
    exact ⟨a, b, rfl, le_rfl, hab, le_rfl, C124_bracket p a b hg hab hta htb hs, fun h => hno' h.2.2.1 h.1 h.2.1⟩
  | succ n ih =>
    rw [Poly.bisectCertain]
    rw [show (rdiv (a + b) (1 + 1) : Res (Fl f)) = .ok (div (a + b) (1 + 1)) from rfl, Res.ok_bind]
    have hmv := (C65_closed (f := f) (by omega) (a + b) (1 + 1)).2.2.2.1
    have hhalf := halving hp hq hw ha hav hb hbv
    generalize hmdef : div (a + b) (1 + 1) = m at *
    by_cases hc : (ltFl a m && ltFl m b && certain m) = true
    · rw [if_neg (by simp [hc])]
      rw [Bool.and_eq_true, Bool.and_eq_true] at hc
      obtain ⟨⟨c1, c2⟩, c3⟩ := hc
      have hm := ltFl_between ha hb c1 c2
      have d1 := (ltFl_iff ha hm).1 c1
      have d2 := (ltFl_iff hm hb).1 c2
      have htm := hcert m c3
      obtain ⟨g1, g2⟩ := hhalf hm d1 d2
      have hshrink : ∀ W : ℚ, 6 * W ≤ 5 * (b.toRat - a.toRat) → 5 ^ n * (W * 2 ^ f.q) < 6 ^ n * 2 := by
        intro W hW
        have k1 : 5 ^ n * 2 ^ f.q * (6 * W) ≤ 5 ^ n * 2 ^ f.q * (5 * (b.toRat - a.toRat)) := mul_le_mul_of_nonneg_left hW (by positivity)
        rw [pow_succ, pow_succ] at hsteps
        linarith
      have hpm := isPositive_toRat htm.1
      have hpb := isPositive_toRat htb.1
      have hne : (p.eval m).toRat ≠ 0 := by
        rcases C124_sign p m hg htm with h | h
        · exact h.1.ne'
        · exact h.1.ne
      by_cases hsg : Rustnomial.isPositive (p.eval m) = Rustnomial.isPositive (p.eval b)
      · rw [if_pos (by simpa using hsg)]
        have hsame : 0 < (p.eval m).toRat ↔ 0 < (p.eval b).toRat := by rw [← hpm, ← hpb, hsg]
        obtain ⟨a', b', i1, i2, i3, i4, i5⟩ := ih a m ha hav hm hmv d1 hta htm (by
          rcases lt_trichotomy (p.eval b).toRat 0 with h | h | h
          · have h3 : (p.eval m).toRat < 0 := lt_of_le_of_ne (not_lt.1 (fun h' => absurd (hsame.1 h') (not_lt.2 h.le))) hne
            exact mul_neg_of_pos_of_neg (pos_of_mul_neg_left hs h.le) h3
          · rw [h, mul_zero] at hs; exact absurd hs (lt_irrefl _)
          · exact mul_neg_of_neg_of_pos (neg_of_mul_neg_left hs h.le) (hsame.2 h)) (hshrink _ g1)
        exact ⟨a', b', i1, i2, i3, i4.trans d2.le, i5⟩
      · rw [if_neg (by simpa using hsg)]
        have hdiff : ¬ (0 < (p.eval m).toRat ↔ 0 < (p.eval b).toRat) := by rw [← hpm, ← hpb, ← Bool.eq_iff_iff]; exact hsg
        have hbne : (p.eval b).toRat ≠ 0 := by intro h; rw [h, mul_zero] at hs; exact lt_irrefl _ hs
        obtain ⟨a', b', i1, i2, i3, i4, i5⟩ := ih m b hm hmv hb hbv d2 htm htb (by
          rcases lt_or_gt_of_ne hne with h | h <;> rcases lt_or_gt_of_ne hbne with h' | h'
          · exact absurd ⟨fun h3 => absurd h3 (not_lt.2 h.le), fun h3 => absurd h3 (not_lt.2 h'.le)⟩ hdiff
          · exact mul_neg_of_neg_of_pos h h'
          · exact mul_neg_of_pos_of_neg h h'
          · exact absurd ⟨fun _ => h', fun _ => h⟩ hdiff) (hshrink _ g2)
        exact ⟨a', b', i1, d1.le.trans i2, i3, i4, i5⟩
    · rw [if_pos (by rw [Bool.not_eq_true] at hc; rw [hc]; rfl)]
      refine ⟨a, b, rfl, le_rfl, hab, le_rfl, C124_bracket p a b hg hab hta htb hs, ?_⟩
      rw [hmdef]
      rintro ⟨e1, e2, e3, e4⟩
      exact hc (by rw [Bool.and_eq_true, Bool.and_eq_true]; exact ⟨⟨(ltFl_iff ha e3).2 e1, (ltFl_iff e3 hb).2 e2⟩, e4⟩)

theorem width_units {a b : Fl f} (ha : a.isFinite = true) (hav : a.Valid) (hb : b.isFinite = true) (hbv : b.Valid) :
    (b.toRat - a.toRat) * 2 ^ f.q < 2 ^ (f.w + 1) := by
  have h2 : (0 : ℚ) < 2 ^ f.q := by positivity
  obtain ⟨A, eA, -, wA⟩ := units_int ha hav
  obtain ⟨B, eB, -, wB⟩ := units_int hb hbv
  rw [eA, eB, ← sub_div, div_mul_cancel₀ _ h2.ne']
  have : B - A < (2 ^ (f.w + 1) : Nat) := by rw [pow_succ]; omega
  exact_mod_cast this

/-- **C131.** For `f64` the program returns within 8001 rounds, whatever the polynomial and the interval. -/
theorem C131_rounds_f64 (p : Poly (Fl binary64)) (hg : evalGamma binary64 p.terms.length < 1) (certain : Fl binary64 → Bool)
    (hcert : ∀ x, certain x = true → SignTest p x) (a b : Fl binary64) (ha : a.isFinite = true) (hav : a.Valid)
    (hb : b.isFinite = true) (hbv : b.Valid) (hab : a.toRat < b.toRat)
    (hta : SignTest p a) (htb : SignTest p b) (hs : (p.eval a).toRat * (p.eval b).toRat < 0) :
    ∃ a' b', p.bisectCertain ltFl certain 8001 a b = .ok (a', b') ∧ a.toRat ≤ a'.toRat ∧ b'.toRat ≤ b.toRat ∧
      ∃ z : ℝ, (a'.toRat : ℝ) < z ∧ z < (b'.toRat : ℝ) ∧ aeval z (descPoly (p.terms.map toRat)) = 0 := by
  obtain ⟨a', b', h1, h2, -, h3, h4, -⟩ := C131_bisect_certain (by decide) (by decide) (by decide) p hg certain hcert a b ha hav hb hbv hab
    hta htb hs 8000 (by
      refine lt_of_lt_of_le (mul_lt_mul_of_pos_left (width_units ha hav hb hbv) (by positivity)) ?_
      exact_mod_cast (by decide +kernel : 5 ^ 8000 * 2 ^ (binary64.w + 1) ≤ 6 ^ 8000 * 2))
  exact ⟨a', b', h1, h2, h3, h4⟩

/-- **C131.** For `f32` within 1101. -/
theorem C131_rounds_f32 (p : Poly (Fl binary32)) (hg : evalGamma binary32 p.terms.length < 1) (certain : Fl binary32 → Bool)
    (hcert : ∀ x, certain x = true → SignTest p x) (a b : Fl binary32) (ha : a.isFinite = true) (hav : a.Valid)
    (hb : b.isFinite = true) (hbv : b.Valid) (hab : a.toRat < b.toRat)
    (hta : SignTest p a) (htb : SignTest p b) (hs : (p.eval a).toRat * (p.eval b).toRat < 0) :
    ∃ a' b', p.bisectCertain ltFl certain 1101 a b = .ok (a', b') ∧ a.toRat ≤ a'.toRat ∧ b'.toRat ≤ b.toRat ∧
      ∃ z : ℝ, (a'.toRat : ℝ) < z ∧ z < (b'.toRat : ℝ) ∧ aeval z (descPoly (p.terms.map toRat)) = 0 := by
  obtain ⟨a', b', h1, h2, -, h3, h4, -⟩ := C131_bisect_certain (by decide) (by decide) (by decide) p hg certain hcert a b ha hav hb hbv hab
    hta htb hs 1100 (by
      refine lt_of_lt_of_le (mul_lt_mul_of_pos_left (width_units ha hav hb hbv) (by positivity)) ?_
      exact_mod_cast (by decide +kernel : 5 ^ 1100 * 2 ^ (binary32.w + 1) ≤ 6 ^ 1100 * 2))
  exact ⟨a', b', h1, h2, h3, h4⟩

-- `x² - 2` over `f32` between 1.25 and 1.5, going on while the test of C124 succeeds: it stops after less than 30 rounds with an interval
-- shorter than 2^-14
example : let p : Poly (Fl binary32) := ⟨[1, 0, -2]⟩
    let a : Fl binary32 := div (ofNat 5) (ofNat 4)
    let b : Fl binary32 := div (ofNat 3) (ofNat 2)
    evalGamma binary32 3 < 1 ∧ SignTest p a ∧ SignTest p b ∧ (p.eval a).toRat * (p.eval b).toRat < 0 ∧
      (match p.bisectCertain ltFl (fun x => decide (SignTest p x)) 30 a b with
      | .ok (a', b') => decide (b'.toRat - a'.toRat < 1 / 2 ^ 14)
      | _ => false) = true := by decide +kernel

end Fl
end Rustnomial
