import Verif.Model.Resultant
import Verif.Model.FindRoots
import Verif.Props.Taylor
import Mathlib.RingTheory.Polynomial.Resultant.Basic

/-!
# C136: resultants and discriminants with the operators
-/

open Polynomial

set_option linter.unusedSectionVars false

namespace Rustnomial

section
variable {K : Type} [CommRing K] [NumZero K] [LawfulNumZero K]

theorem termIter_nil {p : Poly K} (h : p.orderedTermIter = []) : descPoly p.terms = 0 := by
  have ht := (C03_dense_terms p).1
  rw [h] at ht
  ext d
  by_contra hne
  have := (ht.2 ((descPoly p.terms).coeff d) d).2 ⟨by simpa using hne, rfl⟩
  simp at this

theorem termIter_cons {p : Poly K} {c : K} {e : Nat} {ts : List (K × Nat)} (h : p.orderedTermIter = (c, e) :: ts) :
    (descPoly p.terms).natDegree = e ∧ (descPoly p.terms).leadingCoeff = c ∧ c ≠ 0 := by
  have ht := (C03_dense_terms p).1
  rw [h] at ht
  set P := descPoly p.terms
  obtain ⟨h1, h2⟩ := ht
  obtain ⟨hp, -⟩ := List.pairwise_cons.1 h1
  obtain ⟨hc, hce⟩ := (h2 c e).1 (by simp)
  have hdeg : P.natDegree = e := by
    refine le_antisymm ?_ (le_natDegree_of_ne_zero (by rw [hce]; exact hc))
    by_contra hlt
    have hP0 : P ≠ 0 := by rintro h0; rw [h0] at hce; simp at hce; exact hc hce.symm
    have := (h2 P.leadingCoeff P.natDegree).2 ⟨leadingCoeff_ne_zero.2 hP0, rfl⟩
    rcases List.mem_cons.1 this with h | h
    · simp only [Prod.mk.injEq] at h; omega
    · have := hp _ h; simp at this; omega
  exact ⟨hdeg, by rw [leadingCoeff, hdeg, hce], hc⟩

theorem degreeOrZero_eq (p : Poly K) : p.degreeOrZero = (descPoly p.terms).natDegree := by
  unfold Poly.degreeOrZero
  cases h : p.orderedTermIter with
  | nil => rw [termIter_nil h, natDegree_zero]
  | cons t ts => obtain ⟨c, e⟩ := t; exact (termIter_cons h).1.symm

theorem mulTimes_eq (c : K) : ∀ (k : Nat) (s : K), mulTimes c k s = s * c ^ k
  | 0, s => by simp [mulTimes]
  | k + 1, s => by rw [mulTimes, mulTimes_eq c k, pow_succ']; ring

end

section
variable {K : Type} [Field K] [NumZero K] [LawfulNumZero K] [RDiv K] [LawfulRDiv K]

/-- One step of Euclid's algorithm. -/
theorem resultant_mod (a b : K[X]) (hb : b.natDegree ≠ 0) :
    resultant a b = (-1) ^ (a.natDegree * b.natDegree) * b.leadingCoeff ^ (a.natDegree - (a % b).natDegree) * resultant b (a % b) := by
  have hb0 : b ≠ 0 := by rintro rfl; simp at hb
  have hdiv : a % b + b * (a / b) = a := EuclideanDomain.mod_add_div a b
  by_cases hlt : a.natDegree < b.natDegree
  · have hmod : a % b = a := (Polynomial.mod_eq_self_iff hb0).2 (degree_lt_degree hlt)
    rw [hmod, Nat.sub_self, pow_zero, mul_one, ← resultant_comm]
  · have hk : (a % b).natDegree < b.natDegree := natDegree_mod_lt a hb
    have hq : (a / b).natDegree + b.natDegree ≤ a.natDegree := by
      have ha0 : a ≠ 0 := by rintro rfl; simp at hlt; omega
      have := degree_add_div (p := a) hb0 (by
        rw [degree_eq_natDegree hb0, degree_eq_natDegree ha0]; exact_mod_cast Nat.le_of_not_lt hlt)
      have hq0 : a / b ≠ 0 := by
        intro h0
        rw [h0, mul_zero, add_zero] at hdiv
        rw [hdiv] at hk
        exact hlt hk
      rw [← natDegree_mul hq0 hb0]
      exact le_of_eq (natDegree_eq_of_degree_eq (by rw [degree_mul, add_comm]; exact this))
    have h1 : resultant a b = resultant (a % b) b a.natDegree b.natDegree := by
      conv_lhs => rw [resultant, ← resultant, show resultant a b a.natDegree b.natDegree =
        resultant (a % b + b * (a / b)) b a.natDegree b.natDegree by rw [hdiv]]
      exact resultant_add_mul_left _ _ _ _ _ hq le_rfl
    have hm : a.natDegree = (a % b).natDegree + (a.natDegree - (a % b).natDegree) := by omega
    rw [h1]
    conv_lhs => rw [hm]
    rw [resultant_add_left_deg _ _ _ _ _ le_rfl, resultant_comm (a % b) b, coeff_natDegree]
    have : (-1 : K) ^ (a.natDegree * b.natDegree) =
        (-1) ^ (b.natDegree * (a.natDegree - (a % b).natDegree)) * (-1) ^ ((a % b).natDegree * b.natDegree) := by
      rw [← pow_add]
      congr 1
      conv_lhs => rw [hm]
      ring
    rw [this]
    ring

theorem resultantLoop_ok {L fuel : Nat} (hfuel : L + 1 ≤ fuel) : ∀ (n : Nat) (s : K) (a b : Poly K),
    (descPoly b.terms).degree < (n : WithBot ℕ) → a.terms.length ≤ L → b.terms.length ≤ L →
      Poly.resultantLoop fuel (n + 1) s a b = .ok (s * resultant (descPoly a.terms) (descPoly b.terms)) := by
  intro n
  induction n with
  | zero =>
    intro s a b hd ha hb
    have h0 : descPoly b.terms = 0 := by
      rw [← degree_eq_bot]
      by_contra hne
      rw [degree_eq_natDegree (fun h => hne (by rw [h, degree_zero]))] at hd
      exact absurd hd (by exact_mod_cast Nat.not_lt_zero _)
    unfold Poly.resultantLoop
    cases h : b.orderedTermIter with
    | cons t ts => exact absurd h0 (by
        obtain ⟨c, e⟩ := t
        intro h0
        have := termIter_cons h
        rw [h0, leadingCoeff_zero] at this
        exact this.2.2 this.2.1.symm)
    | nil =>
      simp only
      rw [h0, natDegree_zero, resultant_zero_right, pow_zero, mul_one, degreeOrZero_eq]
      split
      · rename_i h; rw [h]; simp
      · rename_i h; rw [zero_pow h, mul_zero]
  | succ n ih =>
    intro s a b hd ha hb
    unfold Poly.resultantLoop
    cases h : b.orderedTermIter with
    | nil =>
      simp only
      rw [termIter_nil h, natDegree_zero, resultant_zero_right, pow_zero, mul_one, degreeOrZero_eq]
      split
      · rename_i h; rw [h]; simp
      · rename_i h; rw [zero_pow h, mul_zero]
    | cons t ts =>
      obtain ⟨c, e⟩ := t
      obtain ⟨h1, h2, h3⟩ := termIter_cons h
      have h0 : descPoly b.terms ≠ 0 := by intro h0; rw [h0, leadingCoeff_zero] at h2; exact h3 h2.symm
      simp only
      by_cases he : e = 0
      · rw [if_pos he, mulTimes_eq, degreeOrZero_eq]
        rw [he] at h1
        have hbC := eq_C_of_natDegree_eq_zero h1
        have : resultant (descPoly a.terms) (descPoly b.terms) = c ^ (descPoly a.terms).natDegree := by
          rw [h1]
          conv_lhs => rw [hbC]
          rw [resultant_C_zero_right, ← h2, leadingCoeff, h1]
        rw [this]
      · rw [if_neg he]
        obtain ⟨r, k1, k2⟩ := C23_dense_rem_assign a b h0 fuel (by omega)
        have hlt : (descPoly r.terms).degree < (descPoly b.terms).degree := by rw [k2]; exact EuclideanDomain.mod_lt _ h0
        rw [k1, Res.ok_bind]
        have := ih (if a.degreeOrZero % 2 = 1 ∧ e % 2 = 1 then -mulTimes c (a.degreeOrZero - r.degreeOrZero) s
          else mulTimes c (a.degreeOrZero - r.degreeOrZero) s) b r (by
          rw [degree_eq_natDegree h0] at hlt hd
          have : (descPoly b.terms).natDegree < n + 1 := by exact_mod_cast hd
          exact lt_of_lt_of_le hlt (by exact_mod_cast Nat.lt_succ_iff.1 this)) hb (by rw [remAssign_length k1]; exact ha)
        rw [this, resultant_mod (descPoly a.terms) _ (by rw [h1]; exact he), mulTimes_eq, degreeOrZero_eq, degreeOrZero_eq, k2, h2, h1]
        congr 1
        have hsign : (-1 : K) ^ ((descPoly a.terms).natDegree * e) = if (descPoly a.terms).natDegree % 2 = 1 ∧ e % 2 = 1 then -1 else 1 := by
          split
          · rename_i hodd
            exact (Nat.odd_mul.2 ⟨Nat.odd_iff.2 hodd.1, Nat.odd_iff.2 hodd.2⟩).neg_one_pow
          · rename_i hodd
            refine Even.neg_one_pow ?_
            rw [Nat.even_mul]
            by_contra hne
            rw [not_or, Nat.not_even_iff_odd, Nat.not_even_iff_odd, Nat.odd_iff, Nat.odd_iff] at hne
            exact hodd hne
        rw [hsign]
        split <;> ring

/-- **C136.** The program computes the resultant, the determinant of Sylvester's matrix, of any two polynomials over a field; nothing panics. -/
theorem C136_resultant (a b : Poly K) {fuel steps : Nat} (hf : a.terms.length + 1 ≤ fuel) (hf' : b.terms.length + 1 ≤ fuel)
    (hs : b.terms.length + 1 ≤ steps) :
    a.resultant fuel steps b = .ok (Polynomial.resultant (descPoly a.terms) (descPoly b.terms)) := by
  obtain ⟨n, rfl⟩ : ∃ n, steps = n + 1 := ⟨steps - 1, by omega⟩
  have := resultantLoop_ok (L := max a.terms.length b.terms.length) (fuel := fuel) (by omega) n 1 a b
    (lt_of_lt_of_le (degree_lt_length b.terms) (by exact_mod_cast (by omega : b.terms.length ≤ n))) (le_max_left _ _) (le_max_right _ _)
  rw [one_mul] at this
  exact this

/-- **C136.** It is zero exactly if the two polynomials, not both constant, have a common factor. -/
theorem C136_common_factor (a b : Poly K) (hd : (descPoly a.terms).natDegree ≠ 0 ∨ (descPoly b.terms).natDegree ≠ 0) {fuel steps : Nat}
    (hf : a.terms.length + 1 ≤ fuel) (hf' : b.terms.length + 1 ≤ fuel) (hs : b.terms.length + 1 ≤ steps) :
    a.resultant fuel steps b = .ok 0 ↔ ∃ Q : K[X], Q ∣ descPoly a.terms ∧ Q ∣ descPoly b.terms ∧ ¬ IsUnit Q := by
  rw [C136_resultant a b hf hf' hs]
  have key : Polynomial.resultant (descPoly a.terms) (descPoly b.terms) = 0 ↔ ¬ IsCoprime (descPoly a.terms) (descPoly b.terms) := by
    constructor
    · intro h hc
      exact resultant_ne_zero _ _ hc h
    · intro h
      by_contra hne
      obtain ⟨p, q, -, -, hpq⟩ := exists_mul_add_mul_eq_C_resultant _ _ le_rfl le_rfl hd
      refine h ⟨p * C (Polynomial.resultant (descPoly a.terms) (descPoly b.terms))⁻¹,
        q * C (Polynomial.resultant (descPoly a.terms) (descPoly b.terms))⁻¹, ?_⟩
      have h1 : (C (Polynomial.resultant (descPoly a.terms) (descPoly b.terms)) : K[X]) *
          C (Polynomial.resultant (descPoly a.terms) (descPoly b.terms))⁻¹ = 1 := by
        rw [← C_mul, mul_inv_cancel₀ hne, C_1]
      rw [← h1, ← hpq]
      ring
  rw [show (Res.ok (Polynomial.resultant (descPoly a.terms) (descPoly b.terms)) = Res.ok 0 ↔
    Polynomial.resultant (descPoly a.terms) (descPoly b.terms) = 0) from ⟨fun h => by injection h, fun h => by rw [h]⟩, key]
  constructor
  · intro h
    classical
    exact ⟨EuclideanDomain.gcd (descPoly a.terms) (descPoly b.terms), EuclideanDomain.gcd_dvd_left _ _, EuclideanDomain.gcd_dvd_right _ _,
      fun hu => h (EuclideanDomain.gcd_isUnit_iff.1 hu)⟩
  · rintro ⟨Q, h1, h2, h3⟩ hc
    exact h3 (hc.isUnit_of_dvd' h1 h2)

/-! ## Discriminants -/

variable [FromUsizeCont K] [LawfulFromUsizeCont K]

/-- **C136.** In characteristic 0 the second program computes the discriminant of every polynomial of degree 1 or more. -/
theorem C136_discriminant [CharZero K] (p : Poly K) (hp : (descPoly p.terms).natDegree ≠ 0)
    (hc : ∀ n ≤ p.terms.length, (tryFromCont n : Option K) ≠ none) {fuel steps : Nat} (hf : p.terms.length + 1 ≤ fuel)
    (hs : p.terms.length + 1 ≤ steps) : p.discriminant fuel steps = .ok (some (descPoly p.terms).discr) := by
  have h4 : coreLen p.terms ≤ p.terms.length := List.length_dropWhile_le _ _
  obtain ⟨d, d1, d2, d3, _⟩ := derivative_returns p (hc _ h4)
  unfold Poly.discriminant
  cases h : p.orderedTermIter with
  | nil => rw [termIter_nil h] at hp; simp at hp
  | cons t ts =>
    obtain ⟨c, e⟩ := t
    obtain ⟨h1, h2, h3⟩ := termIter_cons h
    simp only
    rw [d1, Res.ok_bind, C136_resultant p d hf (by omega) (by omega), Res.ok_bind, LawfulRDiv.rdiv_eq _ _ h3, Res.ok_bind, d2,
      natDegree_derivative, resultant_deriv (natDegree_pos_iff_degree_pos.1 (Nat.pos_of_ne_zero hp)), h1, h2]
    congr 2
    have hsign : (-1 : K) ^ (e * (e - 1) / 2) = if e * (e - 1) / 2 % 2 = 1 then -1 else 1 := by
      split
      · rename_i hodd; exact (Nat.odd_iff.2 hodd).neg_one_pow
      · rename_i hodd; exact Even.neg_one_pow (Nat.even_iff.2 (by omega))
    rw [hsign]
    split
    · field_simp
    · field_simp

/-- **C136.** It is zero exactly if the polynomial has a repeated factor. -/
theorem C136_repeated [CharZero K] (p : Poly K) (hp : (descPoly p.terms).natDegree ≠ 0)
    (hc : ∀ n ≤ p.terms.length, (tryFromCont n : Option K) ≠ none) {fuel steps : Nat} (hf : p.terms.length + 1 ≤ fuel)
    (hs : p.terms.length + 1 ≤ steps) : p.discriminant fuel steps = .ok (some 0) ↔ ¬ Squarefree (descPoly p.terms) := by
  rw [C136_discriminant p hp hc hf hs]
  have hpd : 0 < (descPoly p.terms).degree := natDegree_pos_iff_degree_pos.1 (Nat.pos_of_ne_zero hp)
  have hp0 : descPoly p.terms ≠ 0 := by intro h; rw [h] at hp; simp at hp
  have hrd := resultant_deriv hpd
  rw [← natDegree_derivative] at hrd
  have hkey : (descPoly p.terms).discr = 0 ↔ Polynomial.resultant (descPoly p.terms) (derivative (descPoly p.terms)) = 0 := by
    rw [hrd]
    constructor
    · intro h; rw [h, mul_zero]
    · intro h
      rcases mul_eq_zero.1 h with h | h
      · rcases mul_eq_zero.1 h with h | h
        · exact absurd h (pow_ne_zero _ (by norm_num))
        · exact absurd h (leadingCoeff_ne_zero.2 hp0)
      · exact h
  rw [show (Res.ok (some (descPoly p.terms).discr) = Res.ok (some 0) ↔ (descPoly p.terms).discr = 0) from
    ⟨fun h => by injection h with h; injection h, fun h => by rw [h]⟩, hkey, ← PerfectField.separable_iff_squarefree]
  constructor
  · intro h hsep
    exact resultant_ne_zero _ _ hsep h
  · intro h
    by_contra hne
    obtain ⟨a, b, -, -, hab⟩ := exists_mul_add_mul_eq_C_resultant (descPoly p.terms) (derivative (descPoly p.terms)) le_rfl le_rfl (.inl hp)
    set R := Polynomial.resultant (descPoly p.terms) (derivative (descPoly p.terms)) with hR
    refine h ⟨a * C R⁻¹, b * C R⁻¹, ?_⟩
    have h1 : (C R : K[X]) * C R⁻¹ = 1 := by rw [← C_mul, mul_inv_cancel₀ hne, C_1]
    rw [← h1, ← hab]
    ring

end

/-- **C136.** On quadratics it is what `discriminant` of `QuadraticTrinomial` returns. -/
theorem C136_trinomial (t : QuadraticTrinomial ℚ) (ht : t.c0 ≠ 0) {fuel steps : Nat} (hf : 4 ≤ fuel) (hs : 4 ≤ steps) :
    (⟨[t.c0, t.c1, t.c2]⟩ : Poly ℚ).discriminant fuel steps = .ok (some t.discriminant) := by
  have hP : descPoly [t.c0, t.c1, t.c2] = C t.c0 * X ^ 2 + C t.c1 * X + C t.c2 := by simp [descPoly]; ring
  have hdeg : (descPoly [t.c0, t.c1, t.c2]).natDegree = 2 := by rw [hP]; exact natDegree_quadratic ht
  rw [C136_discriminant _ (by simp only; omega) (fun n _ => by simp [tryFromCont]) hf hs,
    discr_of_degree_eq_two (by simp only; rw [hP]; exact degree_quadratic ht)]
  simp only [hP, QuadraticTrinomial.discriminant, discriminantTrinomial]
  congr 2
  simp [coeff_X, coeff_C, coeff_X_pow]
  ring

/-- `x² - 1` and `x² - 3x + 2` have the common root 1; the discriminant of `x³ - x - 1` is -23. -/
example : (⟨[1, 0, -1]⟩ : Poly ℚ).resultant 4 4 ⟨[1, -3, 2]⟩ = .ok 0 ∧ (⟨[1, 0, -1]⟩ : Poly ℚ).resultant 4 4 ⟨[1, -5, 6]⟩ = .ok 24 ∧
    (⟨[1, 0, -1, -1]⟩ : Poly ℚ).discriminant 5 5 = .ok (some (-23)) := by
  decide +kernel

end Rustnomial
