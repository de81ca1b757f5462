import Verif.Props.CalculusLaws
import Verif.Props.Exact
import Mathlib.Algebra.Polynomial.Div

/-!
# Laws of the division of dense polynomials (C109)
-/

open Polynomial

set_option linter.unusedSectionVars false

namespace Rustnomial

section Field
variable {K : Type} [Field K] [NumZero K] [LawfulNumZero K] [BEq K] [LawfulBEq K] [RDiv K] [LawfulRDiv K]

theorem dense_degree_lt {p q : Poly K} (h : p.degree.toWithBot < q.degree.toWithBot) :
    (descPoly p.terms).degree < (descPoly q.terms).degree := by
  rwa [C02_dense_degree, C02_dense_degree] at h

theorem ne_zero_of_isZeroPoly {R : Type} [CommRing R] [NumZero R] [LawfulNumZero R] {p : Poly R}
    (h : p.isZeroPoly = false) : descPoly p.terms ≠ 0 :=
  fun h0 => by rw [(C02_dense_is_zero p).2 h0] at h; cases h

/-- C109: multiplying and dividing again gives the factor back: for every `q`, every divisor `b` other
than zero and every `r` of smaller degree, `(q·b + r).div_mod(b)` is `(q, r)`, `floor_div` gives `q` and `%=`
gives `r`. -/
theorem C109_div_mod_of_mul_add (q b r : Poly K) (hb : b.isZeroPoly = false)
    (hr : r.degree.toWithBot < b.degree.toWithBot) :
    ∃ m s, q.mul b = .ok m ∧ m.add r = .ok s ∧ ∀ fuel, s.terms.length + 1 ≤ fuel →
      ∃ q' r' q'' r'', s.divMod fuel b = .ok (q', r') ∧ q'.eq q = true ∧ r'.eq r = true ∧
        s.floorDiv fuel b = .ok q'' ∧ q''.eq q = true ∧ s.remAssign fuel b = .ok r'' ∧ r''.eq r = true := by
  have hb := ne_zero_of_isZeroPoly hb
  obtain ⟨m, hm, em⟩ := (C11_dense_mul_partial q b (Or.inr hb)).1
  obtain ⟨s, hs, es⟩ := C08_dense_add m r
  have hr := dense_degree_lt hr
  refine ⟨m, s, hm, hs, fun fuel hf => ?_⟩
  have hQ : descPoly s.terms = descPoly q.terms * descPoly b.terms + descPoly r.terms := by rw [es, em]
  obtain ⟨q', r', h1, e1, e2⟩ := C20_dense_div_mod_unique s b hb _ _ hQ hr fuel hf
  obtain ⟨q2, r2, h1', _, _, d1, d2⟩ := C20_dense_div_mod s b hb fuel hf
  obtain ⟨q'', h3, e3⟩ := C20_dense_floor_div s b hb fuel hf
  obtain ⟨r'', h4, e4⟩ := C23_dense_rem_assign s b hb fuel hf
  rw [h1] at h1'
  cases h1'
  refine ⟨q', r', q'', r'', h1, ?_, ?_, h3, ?_, h4, ?_⟩ <;> rw [C05_dense_eq]
  · exact e1
  · exact e2
  · rw [e3, ← d1, e1]
  · rw [e4, ← d2, e2]

/-- C109: dividing and multiplying again gives the dividend back; the remainder has smaller degree, and
the quotient the difference of the degrees when the dividend is at least as long. -/
theorem C109_mul_add_of_div_mod (p b : Poly K) (hb : b.isZeroPoly = false) (fuel : Nat)
    (hf : p.terms.length + 1 ≤ fuel) :
    ∃ q r m s, p.divMod fuel b = .ok (q, r) ∧ q.mul b = .ok m ∧ m.add r = .ok s ∧ s.eq p = true ∧
      r.degree.toWithBot < b.degree.toWithBot ∧
      (∀ i j, p.degree = .num (i + j) → b.degree = .num j → q.degree = .num i) := by
  have hb := ne_zero_of_isZeroPoly hb
  obtain ⟨q, r, h1, h2, h3, h4, _⟩ := C20_dense_div_mod p b hb fuel hf
  obtain ⟨m, hm, em⟩ := (C11_dense_mul_partial q b (Or.inr hb)).1
  obtain ⟨s, hs, es⟩ := C08_dense_add m r
  refine ⟨q, r, m, s, h1, hm, hs, ?_, ?_, ?_⟩
  · rw [C05_dense_eq, es, em, h2]
  · rw [C02_dense_degree, C02_dense_degree]; exact h3
  · intro i j hp hbj
    have hpd := C02_dense_degree p
    have hbd := C02_dense_degree b
    have hqd := C02_dense_degree q
    rw [hp] at hpd
    rw [hbj] at hbd
    have hle : (descPoly b.terms).degree ≤ (descPoly p.terms).degree := by
      rw [← hpd, ← hbd]; exact WithBot.coe_le_coe.2 (Nat.le_add_left j i)
    have h5 := degree_add_div hb hle
    rw [← h4, ← hqd, ← hpd, ← hbd] at h5
    cases hq : q.degree with
    | negInf => rw [hq] at h5; simp [Degree.toWithBot] at h5; cases h5
    | num k =>
      rw [hq] at h5
      simp only [Degree.toWithBot] at h5
      have : j + k = i + j := by exact_mod_cast h5
      congr 1; omega

/-- C109: a product divided by one of its factors leaves the other and no remainder. -/
theorem C109_exact_quotient (q b : Poly K) (hb : b.isZeroPoly = false) :
    ∃ m, q.mul b = .ok m ∧ ∀ fuel, m.terms.length + 1 ≤ fuel →
      ∃ q' r', m.divMod fuel b = .ok (q', r') ∧ q'.eq q = true ∧ r'.isZeroPoly = true := by
  have hb := ne_zero_of_isZeroPoly hb
  obtain ⟨m, hm, em⟩ := (C11_dense_mul_partial q b (Or.inr hb)).1
  refine ⟨m, hm, fun fuel hf => ?_⟩
  obtain ⟨q', r', h1, e1, e2⟩ := C20_dense_div_mod_unique m b hb (descPoly q.terms) 0 (by rw [em, add_zero])
    (by rw [degree_zero]; exact bot_lt_iff_ne_bot.2 (by rwa [Ne, degree_eq_bot])) fuel hf
  exact ⟨q', r', h1, (C05_dense_eq _ _).2 e1, (C02_dense_is_zero _).2 e2⟩

theorem descPoly_linear (a : K) : descPoly [1, -a] = X - C a := by
  simp [descPoly_cons, sub_eq_add_neg]

/-- C109: the remainder theorem. The remainder of `p` by `x - a` is the constant `p(a)`. -/
theorem C109_remainder_theorem (p : Poly K) (a : K) (fuel : Nat) (hf : p.terms.length + 1 ≤ fuel) :
    ∃ q r r', p.divMod fuel ⟨[1, -a]⟩ = .ok (q, r) ∧ r.eq ⟨[p.eval a]⟩ = true ∧
      p.remAssign fuel ⟨[1, -a]⟩ = .ok r' ∧ r'.eq ⟨[p.eval a]⟩ = true := by
  have hl := descPoly_linear a
  have hb : descPoly (⟨[1, -a]⟩ : Poly K).terms ≠ 0 := by
    show descPoly [1, -a] ≠ 0
    rw [hl]; exact X_sub_C_ne_zero a
  obtain ⟨q, r, h1, _, _, _, h5⟩ := C20_dense_div_mod p ⟨[1, -a]⟩ hb fuel hf
  obtain ⟨r', h6, e6⟩ := C23_dense_rem_assign p ⟨[1, -a]⟩ hb fuel hf
  have e : descPoly p.terms % descPoly [1, -a] = descPoly [p.eval a] := by
    rw [hl, mod_X_sub_C_eq_C_eval, C06_dense_eval]; simp [descPoly_cons]
  refine ⟨q, r, r', h1, ?_, h6, ?_⟩ <;> rw [C05_dense_eq]
  · exact h5.trans e
  · exact e6.trans e

/-- C109: the factor theorem. `a` is a root of `p` exactly when dividing by `x - a` leaves nothing; then
`p` is the quotient times `x - a`. -/
theorem C109_factor_theorem (p : Poly K) (a : K) (fuel : Nat) (hf : p.terms.length + 1 ≤ fuel) :
    ∃ q r, p.divMod fuel ⟨[1, -a]⟩ = .ok (q, r) ∧ (r.isZeroPoly = true ↔ p.eval a = 0) ∧
      (p.eval a = 0 → ResEq Poly.eq (q.mul ⟨[1, -a]⟩) (.ok p)) := by
  have hl := descPoly_linear a
  have hb : descPoly (⟨[1, -a]⟩ : Poly K).terms ≠ 0 := by
    show descPoly [1, -a] ≠ 0
    rw [hl]; exact X_sub_C_ne_zero a
  obtain ⟨q, r, h1, h2, _, _, h5⟩ := C20_dense_div_mod p ⟨[1, -a]⟩ hb fuel hf
  have e : descPoly r.terms = C (p.eval a) := by
    rw [h5, C06_dense_eval, ← mod_X_sub_C_eq_C_eval, ← hl]
  refine ⟨q, r, h1, ?_, fun h0 => ?_⟩
  · rw [C02_dense_is_zero, e, C_eq_zero]
  · obtain ⟨m, hm, em⟩ := (C11_dense_mul_partial q ⟨[1, -a]⟩ (Or.inr hb)).1
    refine ⟨m, p, hm, rfl, ?_⟩
    rw [C05_dense_eq, em, h2, e, h0, C_0, add_zero]

theorem remAssign_val {p b r : Poly K} (hb : b.isZeroPoly = false) {fuel : Nat} (hf : p.terms.length + 1 ≤ fuel)
    (h : p.remAssign fuel b = .ok r) : descPoly r.terms = descPoly p.terms % descPoly b.terms := by
  obtain ⟨r', h1, h2⟩ := C23_dense_rem_assign p b (ne_zero_of_isZeroPoly hb) fuel hf
  rw [h] at h1; cases h1; exact h2

/-- C109: arithmetic modulo `b`. The remainder of a sum is the sum of the remainders; the remainder of a
product is the remainder of the product of the remainders; and taking the remainder again changes
nothing. `%=` is the operation used. -/
theorem C109_modular_arithmetic (p q b p' q' : Poly K) (hb : b.isZeroPoly = false) (f₁ f₂ : Nat)
    (hf₁ : p.terms.length + 1 ≤ f₁) (hf₂ : q.terms.length + 1 ≤ f₂)
    (hp : p.remAssign f₁ b = .ok p') (hq : q.remAssign f₂ b = .ok q') :
    ∃ N, ∀ fuel, N ≤ fuel →
      ResEq Poly.eq (p'.remAssign fuel b) (.ok p') ∧
      ResEq Poly.eq (do let s ← p.add q; s.remAssign fuel b) (p'.add q') ∧
      ResEq Poly.eq (do let s ← p.sub q; s.remAssign fuel b) (p'.sub q') ∧
      ResAgree Poly.eq (do let s ← p.mul q; s.remAssign fuel b) (do let s ← p'.mul q'; s.remAssign fuel b) ∧
      (p'.isZeroPoly = false → ResEq Poly.eq (do let s ← p.mul q; s.remAssign fuel b)
        (do let s ← p'.mul q'; s.remAssign fuel b)) := by
  have hb0 := ne_zero_of_isZeroPoly hb
  have ep := remAssign_val hb hf₁ hp
  have eq := remAssign_val hb hf₂ hq
  have hdp : (descPoly p'.terms).degree < (descPoly b.terms).degree := by rw [ep]; exact EuclideanDomain.mod_lt _ hb0
  have hrem : ∀ (x : Poly K) fuel, x.terms.length + 1 ≤ fuel → ∃ r, x.remAssign fuel b = .ok r ∧
      descPoly r.terms = descPoly x.terms % descPoly b.terms := fun x fuel hf => C23_dense_rem_assign x b hb0 fuel hf
  obtain ⟨s, hs, es⟩ := C08_dense_add p q
  obtain ⟨s', hs', es'⟩ := C08_dense_add p' q'
  obtain ⟨t, ht, et⟩ := C09_dense_sub p q
  obtain ⟨t', ht', et'⟩ := C09_dense_sub p' q'
  have hbound : ∀ x : Res (Poly K), ∃ n, ∀ y, x = .ok y → y.terms.length + 1 ≤ n := by
    intro x
    cases x with
    | ok y => exact ⟨y.terms.length + 1, fun z h => by cases h; exact le_rfl⟩
    | panic => exact ⟨0, fun z h => by cases h⟩
    | fuel => exact ⟨0, fun z h => by cases h⟩
  obtain ⟨n₁, hn₁⟩ := hbound (p.mul q)
  obtain ⟨n₂, hn₂⟩ := hbound (p'.mul q')
  refine ⟨p'.terms.length + 1 + s.terms.length + 1 + t.terms.length + 1 + n₁ + n₂, fun fuel hf => ?_⟩
  refine ⟨?_, ?_, ?_, ?_, ?_⟩
  · obtain ⟨r, h1, h2⟩ := hrem p' fuel (by omega)
    exact ⟨r, p', h1, rfl, by rw [C05_dense_eq, h2, (Polynomial.mod_eq_self_iff hb0).2 hdp]⟩
  · obtain ⟨r, h1, h2⟩ := hrem s fuel (by omega)
    exact ⟨r, s', by simp [hs, h1], hs', by rw [C05_dense_eq, h2, es, es', add_mod, ep, eq]⟩
  · obtain ⟨r, h1, h2⟩ := hrem t fuel (by omega)
    exact ⟨r, t', by simp [ht, h1], ht', by rw [C05_dense_eq, h2, et, et', sub_mod, ep, eq]⟩
  · intro x y hx hy
    obtain ⟨m, hm, hx⟩ := Res.bind_eq_ok.1 hx
    obtain ⟨m', hm', hy⟩ := Res.bind_eq_ok.1 hy
    have h1 := hn₁ m hm
    have h2 := hn₂ m' hm'
    rw [C05_dense_eq, remAssign_val hb (by omega) hx, remAssign_val hb (by omega) hy, mul_ok hm, mul_ok hm', ep, eq,
      ← mul_mod]
  · intro hz
    have hz := ne_zero_of_isZeroPoly hz
    have hpz : descPoly p.terms ≠ 0 := fun h => hz (by rw [ep, h, EuclideanDomain.zero_mod])
    obtain ⟨m, hm, em⟩ := (C11_dense_mul_partial p q (Or.inl hpz)).1
    obtain ⟨m', hm', em'⟩ := (C11_dense_mul_partial p' q' (Or.inl hz)).1
    have h1 := hn₁ m hm
    have h2 := hn₂ m' hm'
    obtain ⟨x, hx, ex⟩ := hrem m fuel (by omega)
    obtain ⟨y, hy, ey⟩ := hrem m' fuel (by omega)
    exact ⟨x, y, by simp [hm, hx], by simp [hm', hy], by rw [C05_dense_eq, ex, ey, em, em', ep, eq, ← mul_mod]⟩

end Field

/-- The hypotheses are met: modulo `x² + 1` over ℚ, with `x³` and `x² + x`. -/
example : (⟨[1, 0, 1]⟩ : Poly ℚ).isZeroPoly = false ∧
    (⟨[1, 0, 0, 0]⟩ : Poly ℚ).remAssign 5 ⟨[1, 0, 1]⟩ = .ok ⟨[0, 0, -1, 0]⟩ ∧
    (⟨[1, 1, 0]⟩ : Poly ℚ).remAssign 5 ⟨[1, 0, 1]⟩ = .ok ⟨[0, 1, -1]⟩ ∧
    (⟨[1, 1, 0, 0, 0, 0]⟩ : Poly ℚ).remAssign 7 ⟨[1, 0, 1]⟩ = .ok ⟨[0, 0, 0, 0, 1, 1]⟩ := by decide +kernel

/-- The remainder of `x³ - 2x + 5` by `x - 2` is its value 9 there. -/
example : (⟨[1, 0, -2, 5]⟩ : Poly ℚ).eval 2 = 9 ∧
    (⟨[1, 0, -2, 5]⟩ : Poly ℚ).divMod 5 ⟨[1, -2]⟩ = .ok (⟨[1, 2, 2]⟩, ⟨[9]⟩) := by decide +kernel

/-! ## Integer coefficients -/

/-- C109 (ℤ): division by `b` returns for every dividend exactly when the leading coefficient of `b` is
`1` or `-1`. -/
theorem C109_int_always_returns_iff (b : Poly ℤ) (hb : b.isZeroPoly = false) :
    (∀ p : Poly ℤ, ∃ fuel q r, p.divMod fuel b = .ok (q, r)) ↔
      (descPoly b.terms).leadingCoeff = 1 ∨ (descPoly b.terms).leadingCoeff = -1 := by
  have hb0 := ne_zero_of_isZeroPoly hb
  rw [← Int.isUnit_iff]
  constructor
  · intro h
    obtain ⟨fuel, q, r, hd⟩ := h ⟨1 :: List.replicate (descPoly b.terms).natDegree 0⟩
    have hX : descPoly ((1 : ℤ) :: List.replicate (descPoly b.terms).natDegree 0)
        = X ^ (descPoly b.terms).natDegree := by
      rw [← List.singleton_append, descPoly_append_zeros]; simp [descPoly_cons]
    by_contra hu
    have hdiv := (C21_dense_div_mod_int_diverges ⟨1 :: List.replicate (descPoly b.terms).natDegree 0⟩ b hb0
      (by simp only [hX, degree_X_pow]; exact degree_le_natDegree)
      (by simp only [hX, leadingCoeff_X_pow]; rwa [← isUnit_iff_dvd_one]) fuel).1
    rw [hd] at hdiv; cases hdiv
  · intro hu p
    obtain ⟨q, r, h⟩ := (C21_dense_div_mod_int_partial p b hb0).1 (by
      obtain ⟨u, hu⟩ := hu
      have hm : (C (↑u⁻¹ : ℤ) * descPoly b.terms).Monic := by
        rw [Monic, leadingCoeff_mul, leadingCoeff_C, ← hu, Units.inv_mul]
      refine ⟨(descPoly p.terms /ₘ (C (↑u⁻¹ : ℤ) * descPoly b.terms)) * C (↑u⁻¹ : ℤ),
        descPoly p.terms %ₘ (C (↑u⁻¹ : ℤ) * descPoly b.terms), ?_, ?_⟩
      · rw [mul_assoc, add_comm, mul_comm (_ /ₘ _)]
        exact (modByMonic_add_div _ _).symm
      · refine (degree_modByMonic_lt _ hm).trans_eq ?_
        rw [degree_mul, degree_C (Units.ne_zero _), zero_add]) _ le_rfl
    exact ⟨_, q, r, h⟩

/-- C109 (ℤ): synthetic division. Dividing by `x - a` always returns; the remainder is the constant
`p(a)`, and it is zero exactly when `a` is a root. -/
theorem C109_int_remainder_theorem (p : Poly ℤ) (a : ℤ) (fuel : Nat) (hf : p.terms.length + 1 ≤ fuel) :
    ∃ q r r', p.divMod fuel ⟨[1, -a]⟩ = .ok (q, r) ∧ r.eq ⟨[p.eval a]⟩ = true ∧
      p.remAssign fuel ⟨[1, -a]⟩ = .ok r' ∧ r'.eq ⟨[p.eval a]⟩ = true ∧
      (r.isZeroPoly = true ↔ p.eval a = 0) ∧
      (p.eval a = 0 → ResEq Poly.eq (q.mul ⟨[1, -a]⟩) (.ok p)) := by
  have hl : descPoly [1, -a] = X - C a := by simp [descPoly_cons, sub_eq_add_neg]
  have hb : descPoly (⟨[1, -a]⟩ : Poly ℤ).terms ≠ 0 := by
    show descPoly [1, -a] ≠ 0
    rw [hl]; exact X_sub_C_ne_zero a
  have hT : (C (p.eval a)).degree < (descPoly (⟨[1, -a]⟩ : Poly ℤ).terms).degree := by
    show _ < (descPoly [1, -a]).degree
    rw [hl, degree_X_sub_C]; exact lt_of_le_of_lt degree_C_le (by norm_num)
  obtain ⟨q, r, r', h1, h2, e1, e2, e3⟩ := (C60_int_division_outcome p ⟨[1, -a]⟩).2 hb |>.1
    (descPoly p.terms /ₘ (X - C a)) (C (p.eval a)) (by
      show _ = _ * descPoly [1, -a] + _
      rw [hl, C06_dense_eval, ← modByMonic_X_sub_C_eq_C_eval, mul_comm, add_comm]
      exact (modByMonic_add_div _ _).symm) hT fuel hf
  have hc : descPoly [p.eval a] = C (p.eval a) := by simp [descPoly_cons]
  refine ⟨q, r, r', h1, ?_, h2, ?_, ?_, fun h0 => ?_⟩
  · rw [C05_dense_eq, e2]; exact hc.symm
  · rw [C05_dense_eq, e3]; exact hc.symm
  · rw [C02_dense_is_zero, e2, C_eq_zero]
  · obtain ⟨m, hm, em⟩ := (C11_dense_mul_partial q ⟨[1, -a]⟩ (Or.inr hb)).1
    refine ⟨m, p, hm, rfl, ?_⟩
    rw [C05_dense_eq, em, e1]
    show _ * descPoly [1, -a] = _
    have h := modByMonic_add_div (descPoly p.terms) (X - C a)
    rw [modByMonic_X_sub_C_eq_C_eval, ← C06_dense_eval, h0, C_0, zero_add] at h
    rw [hl, mul_comm, h]

/-- C109 (ℤ): multiplying and dividing again gives the factor back over the integers too, whatever the
leading coefficient of the divisor. -/
theorem C109_int_div_mod_of_mul_add (q b r : Poly ℤ) (hb : b.isZeroPoly = false)
    (hr : r.degree.toWithBot < b.degree.toWithBot) :
    ∃ m s, q.mul b = .ok m ∧ m.add r = .ok s ∧ ∀ fuel, s.terms.length + 1 ≤ fuel →
      ∃ q' r' r'', s.divMod fuel b = .ok (q', r') ∧ q'.eq q = true ∧ r'.eq r = true ∧
        s.remAssign fuel b = .ok r'' ∧ r''.eq r = true := by
  have hb := ne_zero_of_isZeroPoly hb
  obtain ⟨m, hm, em⟩ := (C11_dense_mul_partial q b (Or.inr hb)).1
  obtain ⟨s, hs, es⟩ := C08_dense_add m r
  rw [C02_dense_degree, C02_dense_degree] at hr
  refine ⟨m, s, hm, hs, fun fuel hf => ?_⟩
  obtain ⟨q', r', r'', h1, h2, e1, e2, e3⟩ := (C60_int_division_outcome s b).2 hb |>.1
    (descPoly q.terms) (descPoly r.terms) (by rw [es, em]) hr fuel hf
  exact ⟨q', r', r'', h1, (C05_dense_eq _ _).2 e1, (C05_dense_eq _ _).2 e2, h2, (C05_dense_eq _ _).2 e3⟩

example : (⟨[1, -4, 5, -2]⟩ : Poly ℤ).divMod 5 ⟨[1, -2]⟩ = .ok (⟨[1, -2, 1]⟩, ⟨[]⟩) ∧
    (⟨[1, -4, 5, -2]⟩ : Poly ℤ).eval 2 = 0 ∧
    (⟨[6, 5, -1]⟩ : Poly ℤ).divMod 5 ⟨[3, 1]⟩ = .ok (⟨[2, 1]⟩, ⟨[-2]⟩) := by decide +kernel

end Rustnomial
