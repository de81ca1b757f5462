import Verif.Props.FloatDiv
import Verif.Props.FloatEval

/-!
# C70, continued: which leading coefficients of a divisor make float division terminate
-/

open Polynomial

namespace Rustnomial
namespace Fl
variable {f : FlFmt}

/-- Dividing by a number below `3/2` and multiplying again is off by at most one half. -/
theorem back_half {p q c n : Nat} (hp : 3 ≤ p) (hn : 0 < n) (hn3 : 2 * n < 3 * 2 ^ q) (hc : 1 ≤ c) :
    2 * |(roundRat p (n * roundRat p (c * 2 ^ q) n) (2 ^ q) : ℚ) - c| ≤ c := by
  have h2 : (0 : ℚ) < 2 ^ q := by positivity
  have hnq : (0 : ℚ) < n := by exact_mod_cast hn
  have hL0 : (0 : ℚ) < n / 2 ^ q := by positivity
  have hL3 : (n : ℚ) / 2 ^ q < 3 / 2 := by
    rw [div_lt_div_iff₀ h2 (by norm_num)]
    have : (2 * n : ℚ) < 3 * 2 ^ q := by exact_mod_cast hn3
    linarith
  have hu : (1 : ℚ) / 2 ^ p ≤ 1 / 8 := by
    rw [div_le_div_iff₀ (by positivity) (by norm_num)]
    have : (2 : ℚ) ^ 3 ≤ 2 ^ p := pow_le_pow_right₀ (by norm_num) hp
    linarith
  have hu0 : (0 : ℚ) ≤ 1 / 2 ^ p := by positivity
  have e1 := roundRat_error (p := p) (num := c * 2 ^ q) (den := n) hn
  have e1' := roundRat_nearest (p := p) (num := c * 2 ^ q) (den := n) (m := 1) (by omega) hn
    ⟨1, 0, Nat.one_lt_two_pow (by omega), by simp⟩
  generalize hs : roundRat p (c * 2 ^ q) n = s at *
  have e2 := roundRat_error (p := p) (num := n * s) (den := 2 ^ q) (by positivity)
  have e2' := roundRat_nearest (p := p) (num := n * s) (den := 2 ^ q) (m := 1) (by omega) (by positivity)
    ⟨1, 0, Nat.one_lt_two_pow (by omega), by simp⟩
  generalize hv : roundRat p (n * s) (2 ^ q) = v at *
  push_cast at e1 e1' e2 e2'
  set L : ℚ := n / 2 ^ q with hL
  have x1 : (c : ℚ) * 2 ^ q / n = c / L := by rw [hL]; field_simp
  have x2 : (n : ℚ) * s / 2 ^ q = s * L := by rw [hL]; field_simp
  rw [x1] at e1 e1'
  rw [x2] at e2 e2'
  have hc1 : (1 : ℚ) ≤ c := by exact_mod_cast hc
  have hsL : |(s : ℚ) * L - c| = L * |s - c / L| := by
    rw [← abs_of_pos hL0, ← abs_mul, abs_of_pos hL0]; congr 1; field_simp
  have e3 : |(s : ℚ) * L - c| ≤ c / 8 ∨ |(s : ℚ) * L - c| ≤ L / 2 := by
    rw [hsL]
    rcases e1 with h | ⟨h, _⟩
    · left
      calc L * |s - c / L| ≤ L * (c / L / 2 ^ p) := mul_le_mul_of_nonneg_left h hL0.le
        _ = c * (1 / 2 ^ p) := by field_simp
        _ ≤ c * (1 / 8) := mul_le_mul_of_nonneg_left hu (by linarith)
        _ = c / 8 := by ring
    · right
      calc L * |s - c / L| ≤ L * (1 / 2) := mul_le_mul_of_nonneg_left h hL0.le
        _ = L / 2 := by ring
  have hs0 : (0 : ℚ) ≤ s * L := by positivity
  have e4 : |(v : ℚ) - s * L| ≤ s * L / 8 ∨ |(v : ℚ) - s * L| ≤ 1 / 2 := by
    rcases e2 with h | ⟨h, _⟩
    · left
      refine h.trans ?_
      rw [div_eq_mul_one_div]
      have := mul_le_mul_of_nonneg_left hu hs0
      linarith
    · exact .inr h
  have tri : |(v : ℚ) - c| ≤ |(v : ℚ) - s * L| + |(s : ℚ) * L - c| := by
    have := abs_add_le ((v : ℚ) - s * L) (s * L - c)
    rwa [sub_add_sub_cancel] at this
  have hle := (abs_le.1 (le_refl |(s : ℚ) * L - c|)).2
  rcases Nat.lt_or_ge c 2 with hc2 | hc2
  · obtain rfl : c = 1 := by omega
    simp only [Nat.cast_one] at *
    have near : |(s : ℚ) * L - 1| < 1 / 2 := by
      rcases lt_or_ge L 1 with h | h
      · rcases e3 with e | e <;> linarith
      · have hx : 1 / L ≤ 1 := by rw [div_le_one hL0]; exact h
        have hx3 : 2 / 3 < 1 / L := by rw [div_lt_div_iff₀ (by norm_num) hL0]; linarith
        rw [abs_of_nonneg (by linarith : (0 : ℚ) ≤ 1 - 1 / L)] at e1'
        obtain ⟨a1, a2⟩ := abs_le.1 e1'
        have b1 : (0 : ℚ) < s := by linarith
        have b2 : (s : ℚ) < 2 := by linarith
        have b3 : 0 < s := by exact_mod_cast b1
        have b4 : s < 2 := by exact_mod_cast b2
        obtain rfl : s = 1 := by omega
        rw [Nat.cast_one, one_mul, abs_of_nonneg (by linarith)]
        linarith
    rw [abs_sub_comm 1] at e2'
    obtain ⟨a1, a2⟩ := abs_lt.1 (lt_of_le_of_lt e2' near)
    obtain ⟨a3, a4⟩ := abs_lt.1 near
    have b1 : (0 : ℚ) < v := by linarith
    have b2 : (v : ℚ) < 2 := by linarith
    have b3 : 0 < v := by exact_mod_cast b1
    have b4 : v < 2 := by exact_mod_cast b2
    obtain rfl : v = 1 := by omega
    simp
  · rcases Nat.lt_or_ge c 3 with hc3 | hc3
    · obtain rfl : c = 2 := by omega
      have lt2 : |(v : ℚ) - (2 : ℕ)| < 2 := by
        push_cast at *
        rcases e3 with e | e <;> rcases e4 with g | g <;> linarith
      have : |((v : ℤ) : ℚ) - ((2 : ℕ) : ℤ)| < 2 := by exact_mod_cast lt2
      have h3 : |(v : ℤ) - (2 : ℕ)| < 2 := by exact_mod_cast this
      have h4 : |(v : ℤ) - (2 : ℕ)| ≤ 1 := by omega
      have h5 : |((v : ℤ) : ℚ) - ((2 : ℕ) : ℤ)| ≤ 1 := by exact_mod_cast h4
      push_cast at *
      linarith
    · have hc3' : (3 : ℚ) ≤ c := by exact_mod_cast hc3
      rcases e3 with e | e <;> rcases e4 with g | g <;> linarith

/-- Rounding keeps below one half of a number of the format. -/
theorem round_half {p a y : Nat} (hp : 1 ≤ p) (ha : Representable p a) (hy : 2 * y ≤ a) : 2 * roundRat p y 1 ≤ a := by
  have hr : Representable p (a / 2) := by
    obtain ⟨k, e, hk, rfl⟩ := ha
    cases e with
    | zero => exact ⟨k / 2, 0, (Nat.div_le_self _ _).trans_lt hk, by simp⟩
    | succ e => exact ⟨k, e, hk, by rw [pow_succ, ← mul_assoc, Nat.mul_div_cancel _ (by norm_num)]⟩
  have h := roundRat_nearest (num := y) (den := 1) hp one_pos hr
  have hle : (y : ℚ) ≤ (a / 2 : ℕ) := by exact_mod_cast (show y ≤ a / 2 by omega)
  rw [Nat.cast_one, div_one, abs_of_nonneg (by linarith : (0 : ℚ) ≤ ((a / 2 : ℕ) : ℚ) - y)] at h
  have h2 : (roundRat p y 1 : ℚ) ≤ (a / 2 : ℕ) := by linarith [(abs_le.1 h).2]
  have h3 : roundRat p y 1 ≤ a / 2 := by exact_mod_cast h2
  omega

/-- A round by a leading coefficient below `3/2` overflows, or leaves at most one half of the leading coefficient. -/
theorem lead_shrinks (hp : 3 ≤ f.p) {s t : Bool} {a n : Nat} (hv : (fin s a : Fl f).Valid) (ha : 1 ≤ a) (hn : 0 < n)
    (hn3 : 2 * n < 3 * 2 ^ f.q) :
    (((fin s a : Fl f) - fin t n * div (fin s a) (fin t n)).isFinite = false ∧
      (2 ^ f.w ≤ roundRat f.p (a * 2 ^ f.q) n ∨ 2 * 2 ^ f.w ≤ 3 * a)) ∨
    ∃ s' a', (fin s a : Fl f) - fin t n * div (fin s a) (fin t n) = fin s' a' ∧ 2 * a' ≤ a := by
  have hb := back_half (p := f.p) (q := f.q) (c := a) hp hn hn3 ha
  have hd : div (fin s a) (fin t n : Fl f) = pack (s != t) (roundRat f.p (a * 2 ^ f.q) n) := by
    simp only [div, if_neg hn.ne']
  rw [hd]
  generalize roundRat f.p (a * 2 ^ f.q) n = S at *
  unfold pack
  split_ifs with hS
  swap
  · refine .inl ⟨?_, .inl (by omega)⟩
    rw [sub_def, neg_def, add_def, mul_def]
    simp only [mul, if_neg hn.ne']
    cases s <;> cases t <;> rfl
  have hm : (fin t n : Fl f) * fin (s != t) S = pack s (roundRat f.p (n * S) (2 ^ f.q)) := by
    rw [mul_def]; simp only [mul]
    cases s <;> cases t <;> rfl
  rw [hm]
  generalize roundRat f.p (n * S) (2 ^ f.q) = V at *
  have hb2 := abs_le.1 ((le_div_iff₀' (by norm_num : (0 : ℚ) < 2)).2 hb)
  have hq1 : 2 * V ≤ 3 * a := by
    have : (2 * V : ℚ) ≤ 3 * a := by linarith [hb2.2]
    exact_mod_cast this
  unfold pack
  split_ifs with hV
  swap
  · refine .inl ⟨?_, .inr (by omega)⟩
    rw [sub_def, neg_def, add_def]
    cases s <;> rfl
  right
  have e : (fin s a : Fl f) - fin s V = add (fin s a) (fin (!s) V) := by
    rw [sub_def, neg_def, add_def]; rfl
  have hq2 : a ≤ 2 * V := by
    have : (a : ℚ) ≤ 2 * V := by linarith [hb2.1]
    exact_mod_cast this
  rw [e]
  simp only [add]
  rw [if_neg (by cases s <;> simp)]
  split_ifs with h1 h2
  · exact ⟨_, _, rfl, by omega⟩
  · have h3 := round_half (p := f.p) (y := a - V) (by omega) hv.1 (by omega)
    refine ⟨s, roundRat f.p (a - V) 1, ?_, h3⟩
    unfold pack; rw [if_pos]
    have : a < 2 ^ f.w := hv.2
    omega
  · have h3 := round_half (p := f.p) (y := V - a) (by omega) hv.1 (by omega)
    refine ⟨!s, roundRat f.p (V - a) 1, ?_, h3⟩
    unfold pack; rw [if_pos]
    have : a < 2 ^ f.w := hv.2
    omega

/-- One round of the loop, with what it does to the leading term. -/
theorem plain_step (hp : 1 ≤ f.p) {b : List (Fl f)} {rf : Fl f} {rd offset : Nat} (hb : firstTerm b = .term rf rd)
    {c : Fl f} {sd : Nat} {rem dv : List (Fl f)} (hr : firstTerm rem = .term c sd) (hle : rd ≤ sd)
    (hoff : sd ≤ offset) (hlen : dv.length = offset - rd + 1) (hV : ∀ x ∈ rem, x.Valid) :
    ∃ rem', (∀ x ∈ rem', x.Valid) ∧
      (∀ fuel, Poly.divModLoop b rf rd offset (fuel + 1) c sd rem dv =
        match firstTerm rem' with
        | .zeroTerm => .ok (dv.set (offset - sd) (div c rf), rem')
        | .term c' d' => Poly.divModLoop b rf rd offset fuel c' d' rem' (dv.set (offset - sd) (div c rf))) ∧
      (∀ c' d', firstTerm rem' = .term c' d' →
        divModNext b rf rd offset (c, sd, rem, dv) = some (c', d', rem', dv.set (offset - sd) (div c rf))) ∧
      (isZero (c - rf * div c rf) = false → firstTerm rem' = .term (c - rf * div c rf) sd) ∧
      (isZero (c - rf * div c rf) = true → ∀ c' d', firstTerm rem' = .term c' d' → d' < sd) := by
  obtain ⟨vs, r1, r2, r3, r4, _⟩ := firstTerm_term hr
  obtain ⟨ws, b1, b2, b3, b4, _⟩ := firstTerm_term hb
  have hc : sd ≤ offset ∧ offset - sd < dv.length := ⟨hoff, by rw [hlen]; omega⟩
  have hu : usub offset sd = .ok (offset - sd) := by simp [usub, hoff]
  refine ⟨rem.take (rem.length - sd - 1) ++ zipMut (fun l r => l - r * div c rf)
    (rem.drop (rem.length - sd - 1)) (b.drop (b.length - rd - 1)), ?_, ?_, ?_, ?_, ?_⟩
  · intro x hx
    rcases List.mem_append.1 hx with hx | hx
    · exact hV x (List.mem_of_mem_take hx)
    · exact forall_zipMut (P := fun x => x.Valid) (Q := fun x => x.Valid) (fun x hx => hx)
        (fun x y _ => (C65_closed hp _ _).2.1) _ _ (fun x hx => hV x (List.mem_of_mem_drop hx)) _ hx
  · intro fuel
    rw [Poly.divModLoop, if_pos hle, rdiv_eq, Res.ok_bind, vecSubWScale_ok _ r3 b3, Res.ok_bind, hu,
      Res.ok_bind, if_pos hc.2]
    dsimp only
    split <;> simp_all
  · intro c' d' hf
    unfold divModNext
    simp only [if_pos hle, rdiv_eq, vecSubWScale_ok _ r3 b3, if_pos hc, hf]
  · intro hne
    rw [firstTerm_eq, take_zeros_append hr, r4, b4, zipMut_cons, List.dropWhile_cons_of_neg (by simpa using hne)]
    simp [r2]
  · intro hz c' d' hf
    obtain ⟨us, u1, u2, _⟩ := firstTerm_term hf
    rw [take_zeros_append hr, r4, b4, zipMut_cons, List.dropWhile_cons_of_pos hz] at u1
    have := (List.dropWhile_suffix (l := zipMut (fun l r => l - r * div c rf) vs ws) (isZero (N := Fl f))).length_le
    rw [u1, List.length_cons, length_zipMut] at this
    omega

theorem term_loop (hp : 3 ≤ f.p) {b : List (Fl f)} {rd offset n : Nat} {t : Bool} (hb : firstTerm b = .term (fin t n) rd)
    (hn3 : 2 * n < 3 * 2 ^ f.q) : ∀ (N : Nat) (s : Bool) (a sd : Nat) (rem dv : List (Fl f)),
    firstTerm rem = .term (fin s a) sd → rd ≤ sd → sd ≤ offset → dv.length = offset - rd + 1 → (∀ x ∈ rem, x.Valid) →
    sd * f.w + a.size ≤ N →
    (∃ x, ∀ fuel, N + 1 ≤ fuel → Poly.divModLoop b (fin t n) rd offset fuel (fin s a) sd rem dv = .ok x) ∨
    ((∀ fuel, Poly.divModLoop b (fin t n) rd offset fuel (fin s a) sd rem dv = .fuel) ∧
      ∃ k st, k ≤ N ∧ divModIter b (fin t n) rd offset k (fin s a, sd, rem, dv) = some st ∧ st.1.isFinite = false) := by
  have hn : 0 < n := by
    have := (firstTerm_term hb).choose_spec.2.2.2.2
    rcases Nat.eq_zero_or_pos n with rfl | h
    · rw [isZero_iff.2 ⟨t, rfl⟩] at this; cases this
    · exact h
  intro N
  induction N with
  | zero =>
    intro s a sd rem dv hr hle hoff hlen hV hN
    have h0 := (firstTerm_term hr).choose_spec.2.2.2.2
    have : a = 0 := Nat.size_eq_zero.1 (by omega)
    rw [this, isZero_iff.2 ⟨s, rfl⟩] at h0; cases h0
  | succ N ih =>
    intro s a sd rem dv hr hle hoff hlen hV hN
    have h0 := (firstTerm_term hr).choose_spec.2.2.2.2
    have ha : 1 ≤ a := by
      rcases Nat.eq_zero_or_pos a with rfl | h
      · rw [isZero_iff.2 ⟨s, rfl⟩] at h0; cases h0
      · exact h
    have hva : (fin s a : Fl f).Valid := by
      obtain ⟨vs, r1, _⟩ := firstTerm_term hr
      exact hV _ ((List.dropWhile_suffix isZero).subset (by rw [r1]; simp))
    obtain ⟨rem', hV', hunf, hnext, hsame, hdrop⟩ := plain_step (by omega) hb hr hle hoff hlen hV
    have hlen' : (dv.set (offset - sd) (div (fin s a) (fin t n))).length = offset - rd + 1 := by simpa using hlen
    -- the next state
    have go : ∀ c' d', firstTerm rem' = .term c' d' → d' ≤ sd →
        (∀ s' a', c' = fin s' a' → d' * f.w + a'.size ≤ N) →
        (∃ x, ∀ fuel, N + 1 + 1 ≤ fuel → Poly.divModLoop b (fin t n) rd offset fuel (fin s a) sd rem dv = .ok x) ∨
        ((∀ fuel, Poly.divModLoop b (fin t n) rd offset fuel (fin s a) sd rem dv = .fuel) ∧
          ∃ k st, k ≤ N + 1 ∧ divModIter b (fin t n) rd offset k (fin s a, sd, rem, dv) = some st ∧ st.1.isFinite = false) := by
      intro c' d' hf hd' hm
      have hunf' : ∀ fuel, Poly.divModLoop b (fin t n) rd offset (fuel + 1) (fin s a) sd rem dv =
          Poly.divModLoop b (fin t n) rd offset fuel c' d' rem' (dv.set (offset - sd) (div (fin s a) (fin t n))) := by
        intro fuel; rw [hunf, hf]
      have hiter : ∀ k, divModIter b (fin t n) rd offset (k + 1) (fin s a, sd, rem, dv) =
          divModIter b (fin t n) rd offset k (c', d', rem', dv.set (offset - sd) (div (fin s a) (fin t n))) := by
        intro k; rw [divModIter, hnext c' d' hf]; rfl
      by_cases hlt : rd ≤ d'
      · by_cases hfin : c'.isFinite = true
        · obtain ⟨s', a', rfl⟩ := isFinite_iff.1 hfin
          rcases ih s' a' d' rem' _ hf hlt (by omega) hlen' hV' (hm s' a' rfl) with ⟨x, h⟩ | ⟨h, k, st, hk, h1, h2⟩
          · refine .inl ⟨x, fun fuel hfu => ?_⟩
            obtain ⟨fuel, rfl⟩ : ∃ k, fuel = k + 1 := ⟨fuel - 1, by omega⟩
            rw [hunf']; exact h fuel (by omega)
          · refine .inr ⟨fun fuel => ?_, k + 1, st, by omega, by rw [hiter]; exact h1, h2⟩
            cases fuel with
            | zero => rfl
            | succ fuel => rw [hunf']; exact h fuel
        · have hfin' : c'.isFinite = false := by simpa using hfin
          refine .inr ⟨fun fuel => ?_, 1, _, by omega, by rw [hiter]; rfl, hfin'⟩
          cases fuel with
          | zero => rfl
          | succ fuel => rw [hunf']; exact nan_loop hb fuel hf hlt (by omega) hlen' (.inl hfin')
      · refine .inl ⟨(dv.set (offset - sd) (div (fin s a) (fin t n)), rem'), fun fuel hfu => ?_⟩
        obtain ⟨fuel, rfl⟩ : ∃ k, fuel = k + 2 := ⟨fuel - 2, by omega⟩
        rw [hunf', Poly.divModLoop, if_neg hlt]
    by_cases hz : isZero ((fin s a : Fl f) - fin t n * div (fin s a) (fin t n)) = true
    · cases hf : firstTerm rem' with
      | zeroTerm =>
        refine .inl ⟨(dv.set (offset - sd) (div (fin s a) (fin t n)), rem'), fun fuel hfu => ?_⟩
        obtain ⟨fuel, rfl⟩ : ∃ k, fuel = k + 1 := ⟨fuel - 1, by omega⟩
        rw [hunf, hf]
      | term c' d' =>
        have hd' := hdrop hz c' d' hf
        refine go c' d' hf hd'.le fun s' a' hc' => ?_
        subst hc'
        have hva' : (fin s' a' : Fl f).Valid := by
          obtain ⟨vs, r1, _⟩ := firstTerm_term hf
          exact hV' _ ((List.dropWhile_suffix isZero).subset (by rw [r1]; simp))
        have h1 : a'.size ≤ f.w := Nat.size_le.2 hva'.2
        have h2 : 1 ≤ a.size := by
          rcases Nat.eq_zero_or_pos a.size with h | h
          · have := Nat.size_eq_zero.1 h; omega
          · exact h
        have h3 : (d' + 1) * f.w ≤ sd * f.w := Nat.mul_le_mul_right _ hd'
        rw [Nat.add_mul, one_mul] at h3
        omega
    · have hf := hsame (by simpa using hz)
      refine go _ sd hf le_rfl fun s' a' hc' => ?_
      rcases lead_shrinks hp (t := t) hva ha hn hn3 with ⟨h, _⟩ | ⟨s'', a'', h, h'⟩
      · rw [hc'] at h; cases h
      · rw [hc'] at h
        obtain ⟨rfl, rfl⟩ : s' = s'' ∧ a' = a'' := by cases h; exact ⟨rfl, rfl⟩
        have : a'.size < a.size := by
          rw [Nat.lt_size]
          have h2 : 0 < a' := by
            rcases Nat.eq_zero_or_pos a' with rfl | h
            · rw [hc', isZero_iff.2 ⟨_, rfl⟩] at hz; exact absurd rfl hz
            · exact h
          have h3 : 2 ^ (a'.size - 1) ≤ a' := by
            rw [← Nat.lt_size]
            have := Nat.size_pos.2 h2
            omega
          have h4 : 2 ^ a'.size = 2 * 2 ^ (a'.size - 1) := by
            rw [← pow_succ', Nat.sub_add_cancel (Nat.size_pos.2 h2)]
          omega
        omega

theorem abs_toRat_fin (t : Bool) (m : Nat) : |(fin t m : Fl f).toRat| = m / 2 ^ f.q := by
  have : (0 : ℚ) ≤ m / 2 ^ f.q := by positivity
  cases t <;> simp [toRat, abs_of_nonneg this]

theorem firstTerm_one {s : Bool} {a : Nat} (ha : a ≠ 0) : firstTerm [(fin s a : Fl f)] = .term (fin s a) 0 := by
  rw [firstTerm_eq, List.dropWhile_cons_of_neg (by rw [isZero_iff]; rintro ⟨_, h⟩; cases h; exact ha rfl)]
  rfl

/-- C70: division by a polynomial whose leading coefficient is below `3/2` in magnitude either returns, after at most
`w` rounds (`w` the number of bits of a magnitude: 2098 for `f64`, 277 for `f32`) per coefficient of the dividend, or
never; and it never returns only if some round makes the leading coefficient of the remainder infinite or NaN. -/
theorem C70_terminates (hp : 3 ≤ f.p) (p b : Poly (Fl f)) (hpv : ∀ c ∈ p.terms, c.Valid) (e : Nat)
    (he : b.degree = .num e) (l : Fl f) (hb : b.termWithDegree e = .term l e) (hl : l.isFinite = true)
    (h3 : |l.toRat| < 3 / 2) :
    (∃ q r, ∀ fuel, p.terms.length * f.w + 1 ≤ fuel → p.divMod fuel b = .ok (q, r)) ∨
    ((∀ fuel, p.divMod fuel b = .fuel) ∧
      ∃ d c k st, p.degree = .num d ∧ p.termWithDegree d = .term c d ∧ k ≤ p.terms.length * f.w ∧
        divModIter b.terms l e d k (c, d, p.terms, List.replicate (d - e + 1) 0) = some st ∧
        st.1.isFinite = false) := by
  obtain ⟨rf, hbf⟩ := firstTerm_num he
  rw [Poly.termWithDegree, termWithDeg_first hbf] at hb
  cases hb
  obtain ⟨t, n, rfl⟩ := isFinite_iff.1 hl
  have hn3 : 2 * n < 3 * 2 ^ f.q := by
    rw [abs_toRat_fin, div_lt_div_iff₀ (by positivity) (by norm_num)] at h3
    have : (2 * n : ℚ) < 3 * 2 ^ f.q := by linarith
    exact_mod_cast this
  unfold Poly.divMod
  rw [hbf]
  cases hpf : firstTerm p.terms with
  | zeroTerm => exact .inl ⟨_, _, fun _ _ => rfl⟩
  | term c d =>
    simp only
    by_cases hlt : d < e
    · simp only [if_pos hlt]
      exact .inl ⟨_, _, fun _ _ => rfl⟩
    · simp only [if_neg hlt]
      have hd : p.degree = .num d := by
        obtain ⟨us, u1, u2, _⟩ := firstTerm_term hpf
        rw [Poly.degree, denseDegree_eq, u1, ← u2]
      have htd : p.termWithDegree d = .term c d := by rw [Poly.termWithDegree, termWithDeg_first hpf]
      by_cases hfin : c.isFinite = true
      · obtain ⟨s, a, rfl⟩ := isFinite_iff.1 hfin
        obtain ⟨us, u1, u2, u3, _⟩ := firstTerm_term hpf
        have hva : (fin s a : Fl f).Valid := hpv _ ((List.dropWhile_suffix isZero).subset (by rw [u1]; simp))
        have hN : d * f.w + a.size ≤ p.terms.length * f.w := by
          have h1 : a.size ≤ f.w := Nat.size_le.2 hva.2
          have h2 : (d + 1) * f.w ≤ p.terms.length * f.w := Nat.mul_le_mul_right _ (by omega)
          rw [Nat.add_mul, one_mul] at h2
          omega
        rcases term_loop hp (offset := d) hbf hn3 _ s a d p.terms (List.replicate (d - e + 1) 0) hpf (by omega) le_rfl
          (by simp) hpv hN with ⟨x, h⟩ | ⟨h, k, st, h1, h2, h4⟩
        · refine .inl ⟨Poly.new x.1, Poly.new x.2, fun fuel hf => ?_⟩
          rw [h fuel hf]; rfl
        · refine .inr ⟨fun fuel => by rw [h fuel]; rfl, d, _, k, st, hd, htd, h1, h2, h4⟩
      · have hfin' : c.isFinite = false := by simpa using hfin
        refine .inr ⟨fun fuel => ?_, d, c, 0, _, hd, htd, by omega, rfl, hfin'⟩
        rw [nan_loop hbf fuel hpf (by omega) le_rfl (by simp) (.inl hfin')]
        rfl

theorem const_loop (hp : 3 ≤ f.p) {n : Nat} {t : Bool} (hn : 0 < n) (hn3 : 2 * n < 3 * 2 ^ f.q) (hw : 1 ≤ f.w) :
    ∀ (N : Nat) (s : Bool) (a : Nat) (z : Fl f), (fin s a : Fl f).Valid → 1 ≤ a → a.size ≤ N → a ≤ 2 ^ (f.w - 1) →
    a * 2 ^ f.q ≤ n * 2 ^ (f.w - 1) →
    ∃ y s', ∀ fuel, N ≤ fuel →
      Poly.divModLoop [fin t n] (fin t n) 0 0 fuel (fin s a) 0 [fin s a] [z] = .ok ([y], [fin s' 0]) := by
  have hww : 2 ^ f.w = 2 * 2 ^ (f.w - 1) := by rw [← pow_succ', Nat.sub_add_cancel hw]
  intro N
  induction N with
  | zero =>
    intro s a z _ ha hN
    have := Nat.size_pos.2 ha
    omega
  | succ N ih =>
    intro s a z hv ha hN h1 h2
    have hS : roundRat f.p (a * 2 ^ f.q) n ≤ 2 ^ (f.w - 1) := by
      have h := roundRat_nearest (p := f.p) (num := a * 2 ^ f.q) (den := n) (m := 2 ^ (f.w - 1)) (by omega) hn
        ⟨1, f.w - 1, Nat.one_lt_two_pow (by omega), by simp⟩
      have hle : ((a * 2 ^ f.q : ℕ) : ℚ) / n ≤ (2 ^ (f.w - 1) : ℕ) := by
        rw [div_le_iff₀ (by exact_mod_cast hn), mul_comm _ (n : ℚ)]
        exact_mod_cast h2
      rw [abs_of_nonneg (by linarith : (0 : ℚ) ≤ ((2 ^ (f.w - 1) : ℕ) : ℚ) - ((a * 2 ^ f.q : ℕ) : ℚ) / n)] at h
      have := (abs_le.1 h).2
      have h' : (roundRat f.p (a * 2 ^ f.q) n : ℚ) ≤ (2 ^ (f.w - 1) : ℕ) := by linarith
      exact_mod_cast h'
    have hpos : 0 < 2 ^ (f.w - 1) := by positivity
    have hval := (C65_closed (by omega : 1 ≤ f.p) (fin s a : Fl f) (fin t n * div (fin s a) (fin t n))).2.1
    have hunf : ∀ fuel, Poly.divModLoop [fin t n] (fin t n) 0 0 (fuel + 1) (fin s a : Fl f) 0 [fin s a] [z] =
        match firstTerm [(fin s a : Fl f) - fin t n * div (fin s a) (fin t n)] with
        | .zeroTerm => .ok ([div (fin s a) (fin t n)], [(fin s a : Fl f) - fin t n * div (fin s a) (fin t n)])
        | .term c' d' => Poly.divModLoop [fin t n] (fin t n) 0 0 fuel c' d'
            [(fin s a : Fl f) - fin t n * div (fin s a) (fin t n)] [div (fin s a) (fin t n)] := by
      intro fuel
      have hvs : vecSubWScale [(fin s a : Fl f)] 0 [fin t n] 0 (div (fin s a) (fin t n)) =
          .ok [(fin s a : Fl f) - fin t n * div (fin s a) (fin t n)] := by
        simp [vecSubWScale, usub, sliceFrom, zipMut, Res.ok_bind]
      rw [Poly.divModLoop, if_pos le_rfl, rdiv_eq, Res.ok_bind, hvs, Res.ok_bind, show usub 0 0 = .ok 0 from rfl,
        Res.ok_bind, if_pos (by simp)]
      dsimp only [List.set]
      split <;> simp_all
    rcases lead_shrinks hp (t := t) hv ha hn hn3 with ⟨_, h | h⟩ | ⟨s', a', h, h'⟩
    · omega
    · omega
    · rw [h] at hunf hval
      rcases Nat.eq_zero_or_pos a' with rfl | ha'
      · refine ⟨div (fin s a) (fin t n), s', fun fuel hf => ?_⟩
        obtain ⟨fuel, rfl⟩ : ∃ k, fuel = k + 1 := ⟨fuel - 1, by omega⟩
        rw [hunf]
        have : firstTerm [(fin s' 0 : Fl f)] = .zeroTerm := by
          rw [firstTerm_eq, List.dropWhile_cons_of_pos (isZero_iff.2 ⟨s', rfl⟩)]
          rfl
        rw [this]
      · have hsz : a'.size < a.size := by
          rw [Nat.lt_size]
          have h3 : 2 ^ (a'.size - 1) ≤ a' := by
            rw [← Nat.lt_size]
            have := Nat.size_pos.2 ha'
            omega
          have h4 : 2 ^ a'.size = 2 * 2 ^ (a'.size - 1) := by
            rw [← pow_succ', Nat.sub_add_cancel (Nat.size_pos.2 ha')]
          omega
        have h2' : a' * 2 ^ f.q ≤ n * 2 ^ (f.w - 1) :=
          (Nat.mul_le_mul_right _ (by omega : a' ≤ a)).trans h2
        obtain ⟨y, s'', hy⟩ := ih s' a' (div (fin s a) (fin t n)) hval ha' (by omega) (by omega) h2'
        refine ⟨y, s'', fun fuel hf => ?_⟩
        obtain ⟨fuel, rfl⟩ : ∃ k, fuel = k + 1 := ⟨fuel - 1, by omega⟩
        rw [hunf, firstTerm_one (by omega)]
        exact hy fuel (by omega)

/-- The smallest positive number and its negative, divided by a number between `3/2` and 2, leave each other. -/
theorem unit_alternates (hp : 2 ≤ f.p) (hw : 2 ≤ f.w) {t : Bool} {n : Nat} (h3 : 3 * 2 ^ f.q ≤ 2 * n) (h2 : n < 2 * 2 ^ f.q)
    (s : Bool) : (fin s 1 : Fl f) - fin t n * div (fin s 1) (fin t n) = fin (!s) 1 := by
  have h0 : 0 < 2 ^ f.q := by positivity
  have hn : n ≠ 0 := by omega
  have hw4 : 2 ^ 2 ≤ 2 ^ f.w := Nat.pow_le_pow_right (by norm_num) hw
  have r1 : roundRat f.p (1 * 2 ^ f.q) n = 1 := by
    unfold roundRat
    simp only [one_mul]
    rw [Nat.div_eq_of_lt (by omega : 2 ^ f.q < n)]
    simp only [Nat.size_zero, Nat.zero_sub, pow_zero, mul_one]
    rw [Nat.div_eq_of_lt (by omega : 2 ^ f.q < n), Nat.mod_eq_of_lt (by omega : 2 ^ f.q < n)]
    rw [if_pos (.inl (by omega))]
  have r2 : roundRat f.p (n * 1) (2 ^ f.q) = 2 := by
    have hdiv : n / 2 ^ f.q = 1 := by
      rw [Nat.div_eq_iff h0]; omega
    have hmod : n % 2 ^ f.q = n - 2 ^ f.q := by
      have := Nat.div_add_mod n (2 ^ f.q)
      rw [hdiv] at this; omega
    unfold roundRat
    simp only [mul_one, hdiv]
    have e0 : Nat.size 1 - f.p = 0 := by rw [Nat.size_one]; omega
    rw [e0, pow_zero, mul_one, hdiv, hmod]
    rw [if_pos (by omega), mul_one]
  have r3 : roundRat f.p 1 1 = 1 := roundRat_fits (by omega) ⟨1, 0, Nat.one_lt_two_pow (by omega), by simp⟩
  have hd : div (fin s 1) (fin t n : Fl f) = fin (s != t) 1 := by
    simp only [div, if_neg hn, r1, pack]
    rw [if_pos (by omega)]
  have hm : (fin t n : Fl f) * fin (s != t) 1 = fin s 2 := by
    rw [mul_def]
    simp only [mul, r2, pack]
    rw [if_pos (by omega)]
    cases s <;> cases t <;> rfl
  have hw1 : 1 < 2 ^ f.w := by omega
  rw [hd, hm, sub_def, neg_def, add_def]
  cases s <;> simp [neg, add, r3, pack, hw1]

/-- The smallest positive number and its negative, divided by a number of magnitude 2 or more, are left over whole. -/
theorem unit_stays (hp : 1 ≤ f.p) (hw : 1 ≤ f.w) {t : Bool} {n : Nat} (h2 : 2 * 2 ^ f.q ≤ n) (s : Bool) :
    (fin s 1 : Fl f) - fin t n * div (fin s 1) (fin t n) = fin s 1 := by
  have h0 : 0 < 2 ^ f.q := by positivity
  have hn : n ≠ 0 := by omega
  have hw2 : 1 < 2 ^ f.w := Nat.one_lt_two_pow (by omega)
  have r1 : roundRat f.p (1 * 2 ^ f.q) n = 0 := by
    unfold roundRat
    simp only [one_mul]
    rw [Nat.div_eq_of_lt (by omega : 2 ^ f.q < n)]
    simp only [Nat.size_zero, Nat.zero_sub, pow_zero, mul_one]
    rw [Nat.div_eq_of_lt (by omega : 2 ^ f.q < n), Nat.mod_eq_of_lt (by omega : 2 ^ f.q < n)]
    rw [if_neg (by omega)]
  have r2 : roundRat f.p 0 (2 ^ f.q) = 0 := by simp [roundRat]
  have r3 : roundRat f.p 1 1 = 1 := roundRat_fits hp ⟨1, 0, Nat.one_lt_two_pow (by omega), by simp⟩
  have hd : div (fin s 1) (fin t n : Fl f) = fin (s != t) 0 := by
    simp only [div, if_neg hn, r1, pack]
    rw [if_pos (by omega)]
  have hm : (fin t n : Fl f) * fin (s != t) 0 = fin s 0 := by
    rw [mul_def]
    simp only [mul, mul_zero, r2, pack]
    rw [if_pos (by omega)]
    cases s <;> cases t <;> rfl
  rw [hd, hm, sub_def, neg_def, add_def]
  cases s <;> simp [neg, add, r3, pack, hw2]

/-- C70: the bound `3/2` is exact: dividing the smallest positive number by a finite number of magnitude `3/2` or more
never returns. -/
theorem C70_lead_diverges (hp : 2 ≤ f.p) (hw : 2 ≤ f.w) (l : Fl f) (hl : l.isFinite = true) (h3 : 3 / 2 ≤ |l.toRat|) :
    ∀ fuel, (⟨[fin false 1]⟩ : Poly (Fl f)).divMod fuel ⟨[l]⟩ = .fuel := by
  rcases le_or_gt 2 |l.toRat| with h2 | h2
  · exact C70_large_lead_diverges (by omega) (by omega) l hl h2
  obtain ⟨t, n, rfl⟩ := isFinite_iff.1 hl
  rw [abs_toRat_fin] at h2 h3
  have h2' : n < 2 * 2 ^ f.q := by
    rw [div_lt_iff₀ (by positivity)] at h2
    exact_mod_cast h2
  have h3' : 3 * 2 ^ f.q ≤ 2 * n := by
    rw [div_le_div_iff₀ (by norm_num) (by positivity)] at h3
    have : (3 * 2 ^ f.q : ℚ) ≤ 2 * n := by linarith
    exact_mod_cast this
  have hn : n ≠ 0 := by
    have : 0 < 2 ^ f.q := by positivity
    omega
  intro fuel
  unfold Poly.divMod
  rw [firstTerm_one hn, firstTerm_one one_ne_zero]
  simp only [lt_irrefl, if_false]
  have := divModLoop_fuel_of_inv (rhs := [(fin t n : Fl f)]) (rf := fin t n) (rd := 0) (offset := 0)
    (fun st => ∃ s z, st = (fin s 1, 0, [fin s 1], [z])) (by
      rintro _ ⟨s, z, rfl⟩
      refine ⟨_, ?_, !s, div (fin s 1) (fin t n), rfl⟩
      have hv : vecSubWScale [(fin s 1 : Fl f)] 0 [fin t n] 0 (div (fin s 1) (fin t n)) = .ok [fin (!s) 1] := by
        have := unit_alternates (t := t) hp hw h3' h2' s
        generalize div (fin s 1) (fin t n : Fl f) = y at this
        simp [vecSubWScale, usub, sliceFrom, zipMut, Res.ok_bind, this]
      unfold divModNext
      simp only [rdiv_eq, hv, firstTerm_one one_ne_zero]
      simp) fuel (fin false 1, 0, [fin false 1], [0]) ⟨_, _, rfl⟩
  rw [show List.replicate (0 - 0 + 1) (0 : Fl f) = [0] from rfl, this]
  rfl

/-- C70: division by the constant `l` returns for every dividend `c ≠ 0` that is far enough from overflow (`c` and `c / l`
are at most one half of the end of the range) exactly if `|l| < 3/2`.  The remainder then is zero. -/
theorem C70_terminates_iff (hp : 3 ≤ f.p) (hw : 2 ≤ f.w) (l : Fl f) (hl : l.isFinite = true) (h0 : l.toRat ≠ 0) :
    |l.toRat| < 3 / 2 ↔ ∀ c : Fl f, c.Valid → c.isFinite = true → c.toRat ≠ 0 → |c.toRat| ≤ 2 ^ (f.w - 1) / 2 ^ f.q →
      |c.toRat / l.toRat| ≤ 2 ^ (f.w - 1) / 2 ^ f.q →
      ∃ q, ∀ fuel, f.w ≤ fuel → (⟨[c]⟩ : Poly (Fl f)).divMod fuel ⟨[l]⟩ = .ok (q, ⟨[]⟩) := by
  obtain ⟨t, n, rfl⟩ := isFinite_iff.1 hl
  have hn : n ≠ 0 := by rintro rfl; exact h0 (toRat_fin_zero t)
  have h2 : (0 : ℚ) < 2 ^ f.q := by positivity
  have hnq : (0 : ℚ) < n := by exact_mod_cast Nat.pos_of_ne_zero hn
  constructor
  · intro h3 c hv hc hc0 hb1 hb2
    obtain ⟨s, a, rfl⟩ := isFinite_iff.1 hc
    have hn3 : 2 * n < 3 * 2 ^ f.q := by
      rw [abs_toRat_fin, div_lt_div_iff₀ (by positivity) (by norm_num)] at h3
      have : (2 * n : ℚ) < 3 * 2 ^ f.q := by linarith
      exact_mod_cast this
    have hz : ∀ s : Bool, Poly.new [(fin s 0 : Fl f)] = ⟨[]⟩ := by
      intro s
      have : isZero (fin s 0 : Fl f) = true := isZero_iff.2 ⟨s, rfl⟩
      show (⟨(Poly.new [(fin s 0 : Fl f)]).terms⟩ : Poly (Fl f)) = _
      rw [new_terms, List.dropWhile_cons_of_pos this]
      rfl
    unfold Poly.divMod
    rw [firstTerm_one hn]
    rcases Nat.eq_zero_or_pos a with rfl | ha
    · exact absurd (toRat_fin_zero s) hc0
    · rw [firstTerm_one (by omega)]
      simp only [lt_irrefl, if_false]
      rw [abs_toRat_fin, div_le_div_iff_of_pos_right h2] at hb1
      rw [abs_div, abs_toRat_fin, abs_toRat_fin, div_div_div_cancel_right₀ h2.ne', div_le_div_iff₀ hnq h2] at hb2
      have g1 : a ≤ 2 ^ (f.w - 1) := by exact_mod_cast hb1
      have g2 : a * 2 ^ f.q ≤ 2 ^ (f.w - 1) * n := by exact_mod_cast hb2
      obtain ⟨y, s', hy⟩ := const_loop hp (t := t) (Nat.pos_of_ne_zero hn) hn3 (by omega) f.w s a 0 hv ha
        (Nat.size_le.2 hv.2) g1 (by rw [mul_comm n]; exact g2)
      refine ⟨Poly.new [y], fun fuel hf => ?_⟩
      rw [show List.replicate (0 - 0 + 1) (0 : Fl f) = [0] from rfl, hy fuel hf, Res.ok_bind]
      show Res.ok (Poly.new [y], Poly.new [fin s' 0]) = _
      rw [hz]
  · intro h
    by_contra h3
    rw [not_lt] at h3
    have hw1 : (1 : ℚ) ≤ 2 ^ (f.w - 1) := one_le_pow₀ (by norm_num)
    have hun : |(fin false 1 : Fl f).toRat| = 1 / 2 ^ f.q := by rw [abs_toRat_fin, Nat.cast_one]
    obtain ⟨q, hq⟩ := h (fin false 1) ⟨⟨1, 0, Nat.one_lt_two_pow (by omega), by simp⟩, Nat.one_lt_two_pow (by omega)⟩ rfl
      (by rw [← abs_pos, hun]; positivity)
      (by rw [hun]; exact div_le_div_of_nonneg_right hw1 h2.le)
      (by
        rw [abs_div, hun]
        refine (div_le_self (by positivity) (by linarith)).trans ?_
        exact div_le_div_of_nonneg_right hw1 h2.le)
    have := C70_lead_diverges (by omega) hw (fin t n) rfl h3 f.w
    rw [hq f.w le_rfl] at this
    cases this

theorem exNat_valid (hp : 1 ≤ f.p) (n : Nat) : (ofNat n : Fl f).Valid := (C65_of_nat hp n).1

-- the hypotheses of `C70_terminates` hold for `(7 x + 3) / (1.25 x + 1)`
example : (⟨[ofNat 7, ofNat 3]⟩ : Poly (Fl binary64)).degree = .num 1 ∧
    (⟨[div (ofNat 5) (ofNat 4), 1]⟩ : Poly (Fl binary64)).termWithDegree 1 = .term (div (ofNat 5) (ofNat 4)) 1 ∧
    (div (ofNat 5) (ofNat 4) : Fl binary64).isFinite = true ∧ |(div (ofNat 5) (ofNat 4) : Fl binary64).toRat| < 3 / 2 := by
  decide +kernel
seal Valid in
example : ∀ c ∈ (⟨[ofNat 7, ofNat 3]⟩ : Poly (Fl binary64)).terms, c.Valid := by
  have h : ∀ n, (ofNat n : Fl binary64).Valid := exNat_valid (by decide)
  intro c hc
  simp only [List.mem_cons, List.not_mem_nil, or_false] at hc
  rcases hc with hc | hc
  · rw [hc]; apply h
  · rw [hc]; apply h
-- both outcomes occur: 7 / 1.1 returns, the largest power of two divided by 0.1 overflows
seal Valid in
example : ∃ q, (⟨[ofNat 7]⟩ : Poly (Fl binary64)).divMod 2099 ⟨[div (ofNat 11) (ofNat 10)]⟩ = .ok (q, ⟨[]⟩) := by
  have hv : ∀ n, (ofNat n : Fl binary64).Valid := exNat_valid (by decide)
  have h := (C70_terminates_iff (f := binary64) (by decide) (by decide) (div (ofNat 11) (ofNat 10)) (by decide +kernel)
    (by decide +kernel)).1 (by decide +kernel) (ofNat 7) (hv 7) (by decide +kernel) (by decide +kernel)
    (by decide +kernel) (by decide +kernel)
  exact h.imp fun q hq => hq _ (by decide)
example : divModIter [div 1 (ofNat 10)] (div 1 (ofNat 10) : Fl binary64) 0 0 1
    (fin false (2 ^ 2097), 0, [fin false (2 ^ 2097)], [0]) = some (.inf true, 0, [.inf true], [.inf false]) := by
  decide +kernel
-- `3/2` itself is excluded, in `f64` and in `f32`
example : (div (ofNat 3) (ofNat 2) : Fl binary64).isFinite = true ∧
    3 / 2 ≤ |(div (ofNat 3) (ofNat 2) : Fl binary64).toRat| := by decide +kernel
example : (div (ofNat 3) (ofNat 2) : Fl binary32).isFinite = true ∧
    3 / 2 ≤ |(div (ofNat 3) (ofNat 2) : Fl binary32).toRat| := by decide +kernel

end Fl
end Rustnomial
