import Verif.Model.Pseudo
import Verif.Props.Sturm
import Verif.Props.Resultant
import Verif.Props.Euclid
import Verif.Props.Exact

/-!
# C141: division, greatest common divisors and real roots of integer polynomials
-/

open Polynomial

set_option linter.unusedSectionVars false

namespace Rustnomial

/-- Multiplied often enough by the leading coefficient of the divisor, a polynomial can be divided. -/
theorem pseudo_exists {R : Type} [CommRing R] {B : R[X]} (hB : B ≠ 0) : ∀ (k : Nat) (A : R[X]),
    A.degree < ((B.natDegree + k : ℕ) : WithBot ℕ) →
    ∃ Q T : R[X], C (B.leadingCoeff ^ k) * A = Q * B + T ∧ T.degree < B.degree := by
  intro k
  induction k with
  | zero =>
    intro A hA
    exact ⟨0, A, by simp, by rw [degree_eq_natDegree hB]; simpa using hA⟩
  | succ k ih =>
    intro A hA
    obtain ⟨Q, T, h1, h2⟩ := ih (C B.leadingCoeff * A - C (A.coeff (B.natDegree + k)) * X ^ k * B) (by
      rw [degree_lt_iff_coeff_zero]
      intro m hm
      rw [mul_assoc, coeff_sub, coeff_C_mul, coeff_C_mul, coeff_X_pow_mul', if_pos (by omega)]
      rcases hm.eq_or_lt with rfl | hm
      · rw [Nat.add_sub_cancel, leadingCoeff]; ring
      · rw [coeff_eq_zero_of_degree_lt (hA.trans_le (by exact_mod_cast (by omega : B.natDegree + (k + 1) ≤ m))),
          coeff_eq_zero_of_natDegree_lt (p := B) (by omega)]
        ring)
    refine ⟨Q + C (B.leadingCoeff ^ k * A.coeff (B.natDegree + k)) * X ^ k, T, ?_, h2⟩
    rw [C_mul, pow_succ, C_mul]
    linear_combination h1

theorem pseudo_division {a b : Poly ℤ} {c : ℤ} {n : Nat} {ts : List (ℤ × Nat)} (h : b.orderedTermIter = (c, n) :: ts) :
    0 < mulTimes (c * c) (a.degreeOrZero + 1 - n) 1 ∧
    ∃ Q T : ℤ[X], descPoly (a.mulScalar (mulTimes (c * c) (a.degreeOrZero + 1 - n) 1)).terms = Q * descPoly b.terms + T ∧
      T.degree < (descPoly b.terms).degree := by
  obtain ⟨h1, h2, h3⟩ := termIter_cons h
  have hB : descPoly b.terms ≠ 0 := by
    intro h0; rw [h0] at h2; simp at h2; exact h3 h2.symm
  rw [mulTimes_eq, one_mul]
  refine ⟨pow_pos (mul_self_pos.2 h3) _, ?_⟩
  obtain ⟨Q, T, hQ, hT⟩ := pseudo_exists hB (2 * (a.degreeOrZero + 1 - n)) (descPoly a.terms) (by
    rw [degreeOrZero_eq, h1]
    by_cases hA : descPoly a.terms = 0
    · rw [hA, degree_zero]; exact WithBot.bot_lt_coe _
    · rw [degree_eq_natDegree hA]
      exact_mod_cast (by omega))
  refine ⟨Q, T, ?_, hT⟩
  rw [C13_dense_mul_scalar, ← hQ, h2, pow_mul, pow_two]

theorem mulScalar_length (a : Poly ℤ) (s : ℤ) : (a.mulScalar s).terms.length ≤ a.terms.length := by
  unfold Poly.mulScalar
  rw [new_terms]
  exact (List.length_dropWhile_le _ _).trans (by simp)

/-- **C141.** `div_mod` and `%=` return for all integer polynomials once the dividend is multiplied by a power of the square of the divisor's
leading coefficient: `s a = q b + r` with `s > 0` and a remainder of smaller degree. -/
theorem C141_division (a b : Poly ℤ) (hb : descPoly b.terms ≠ 0) (fuel : Nat) (hf : a.terms.length + 1 ≤ fuel) :
    ∃ s q r t, a.pseudoDivMod fuel b = .ok (s, q, r) ∧ a.pseudoRem fuel b = .ok t ∧ 0 < s ∧
      (∃ k, s = (descPoly b.terms).leadingCoeff ^ (2 * k) ∧ k ≤ (descPoly a.terms).natDegree + 1 - (descPoly b.terms).natDegree) ∧
      C s * descPoly a.terms = descPoly q.terms * descPoly b.terms + descPoly r.terms ∧
      descPoly t.terms = descPoly r.terms ∧ (descPoly r.terms).degree < (descPoly b.terms).degree ∧
      t.terms.length ≤ a.terms.length := by
  cases h : b.orderedTermIter with
  | nil => exact absurd (termIter_nil h) hb
  | cons x ts =>
    obtain ⟨c, n⟩ := x
    obtain ⟨hs, Q, T, hQ, hT⟩ := pseudo_division (a := a) h
    have hl := mulScalar_length a (mulTimes (c * c) (a.degreeOrZero + 1 - n) 1)
    obtain ⟨q, r, t, h1, h2, h3, h4, h5⟩ := ((C60_int_division_outcome _ b).2 hb).1 Q T hQ hT fuel (by omega)
    refine ⟨_, q, r, t, ?_, ?_, hs, ⟨a.degreeOrZero + 1 - n, ?_, ?_⟩, ?_, ?_, ?_, ?_⟩
    · unfold Poly.pseudoDivMod; rw [h]; simp only; rw [h1]; rfl
    · unfold Poly.pseudoRem; rw [h]; simp only; rw [h2]
    · rw [mulTimes_eq, one_mul, (termIter_cons h).2.1, pow_mul, pow_two]
    · rw [degreeOrZero_eq, (termIter_cons h).1]
    · rw [← C13_dense_mul_scalar, hQ, h3, h4]
    · rw [h5, h4]
    · rw [h4]; exact hT
    · rw [remAssign_length h2]; exact hl

/-- **C141.** By zero it panics. -/
theorem C141_zero (a b : Poly ℤ) (hb : descPoly b.terms = 0) (fuel : Nat) :
    a.pseudoDivMod fuel b = .panic ∧ a.pseudoRem fuel b = .panic := by
  cases h : b.orderedTermIter with
  | nil => exact ⟨by unfold Poly.pseudoDivMod; rw [h], by unfold Poly.pseudoRem; rw [h]⟩
  | cons x ts =>
    obtain ⟨c, n⟩ := x
    obtain ⟨-, h2, h3⟩ := termIter_cons h
    rw [hb, leadingCoeff_zero] at h2
    exact absurd h2.symm h3

/-! ## Greatest common divisors -/

/-- The polynomial over the rational numbers. -/
noncomputable def ratOf (P : ℤ[X]) : ℚ[X] := P.map (Int.castRingHom ℚ)

theorem ratOf_eq_zero {P : ℤ[X]} : ratOf P = 0 ↔ P = 0 := Polynomial.map_eq_zero_iff (RingHom.injective_int _)

theorem gcdPseudo_ok {L fuel : Nat} (hfuel : L + 1 ≤ fuel) : ∀ (n : Nat) (a b : Poly ℤ), (descPoly b.terms).degree < (n : WithBot ℕ) →
    a.terms.length ≤ L → b.terms.length ≤ L →
    ∃ g, euclid Poly.isZeroPoly (Poly.pseudoRem fuel) (n + 1) a b = .ok g ∧
      IsGcd (ratOf (descPoly g.terms)) (ratOf (descPoly a.terms)) (ratOf (descPoly b.terms)) := by
  intro n
  induction n with
  | zero =>
    intro a b hd ha hb
    have h0 : descPoly b.terms = 0 := by
      rw [← degree_eq_bot]
      by_contra hne
      rw [degree_eq_natDegree (fun h => hne (by rw [h, degree_zero]))] at hd
      exact absurd hd (by exact_mod_cast Nat.not_lt_zero _)
    refine ⟨a, ?_, dvd_rfl, by rw [h0, ratOf_eq_zero.2 rfl]; exact dvd_zero _, fun D h _ => h⟩
    unfold euclid; rw [if_pos ((C02_dense_is_zero b).2 h0)]
  | succ n ih =>
    intro a b hd ha hb
    unfold euclid
    by_cases h0 : descPoly b.terms = 0
    · rw [if_pos ((C02_dense_is_zero b).2 h0)]
      exact ⟨a, rfl, dvd_rfl, by rw [h0, ratOf_eq_zero.2 rfl]; exact dvd_zero _, fun D h _ => h⟩
    · rw [if_neg (fun h => h0 ((C02_dense_is_zero b).1 h))]
      obtain ⟨s, q, r, t, -, h2, hs, -, h4, h5, h6, h7⟩ := C141_division a b h0 fuel (by omega)
      rw [← h5] at h4 h6
      obtain ⟨g, h8, g1, g2, g3⟩ := ih b t (by
        rw [degree_eq_natDegree h0] at h6 hd
        have : (descPoly b.terms).natDegree < n + 1 := by exact_mod_cast hd
        exact lt_of_lt_of_le h6 (by exact_mod_cast Nat.lt_succ_iff.1 this)) hb (by omega)
      refine ⟨g, by rw [h2, Res.ok_bind, h8], ?_⟩
      have hq : C (s : ℚ) * ratOf (descPoly a.terms) = ratOf (descPoly q.terms) * ratOf (descPoly b.terms) + ratOf (descPoly t.terms) := by
        have := congrArg ratOf h4
        unfold ratOf at this ⊢
        simpa [Polynomial.map_mul, Polynomial.map_add] using this
      have hs0 : (s : ℚ) ≠ 0 := by exact_mod_cast hs.ne'
      have ha' : ratOf (descPoly a.terms) = C (s : ℚ)⁻¹ * (ratOf (descPoly q.terms) * ratOf (descPoly b.terms) + ratOf (descPoly t.terms)) := by
        rw [← hq, ← mul_assoc, ← C_mul, inv_mul_cancel₀ hs0, C_1, one_mul]
      have ht' : ratOf (descPoly t.terms) = C (s : ℚ) * ratOf (descPoly a.terms) - ratOf (descPoly q.terms) * ratOf (descPoly b.terms) := by
        rw [hq]; ring
      refine ⟨?_, g1, fun D hDa hDb => g3 D hDb ?_⟩
      · rw [ha']
        exact ((g1.mul_left _).add g2).mul_left _
      · rw [ht']
        exact (hDa.mul_left _).sub (hDb.mul_left _)

/-- **C141.** Euclid's algorithm with these remainders returns for all integer polynomials what is, over the rational numbers, a greatest
common divisor. -/
theorem C141_gcd (a b : Poly ℤ) (fuel steps : Nat) (hf : max a.terms.length b.terms.length + 1 ≤ fuel) (hs : b.terms.length + 1 ≤ steps) :
    ∃ g, a.gcdPseudo fuel steps b = .ok g ∧
      IsGcd ((descPoly g.terms).map (Int.castRingHom ℚ)) ((descPoly a.terms).map (Int.castRingHom ℚ))
        ((descPoly b.terms).map (Int.castRingHom ℚ)) := by
  obtain ⟨g, h1, h2⟩ := gcdPseudo_ok hf b.terms.length a b (degree_lt_length _) (le_max_left _ _) (le_max_right _ _)
  exact ⟨g, euclid_steps_mono _ _ _ _ h1 steps hs, h2⟩

/-! ## Counting real roots -/

/-- The polynomial a value stands for, over the real numbers. -/
noncomputable def realPolyZ (p : Poly ℤ) : ℝ[X] := (descPoly p.terms).map (Int.castRingHom ℝ)

theorem realPolyZ_eq_zero (p : Poly ℤ) : realPolyZ p = 0 ↔ descPoly p.terms = 0 :=
  Polynomial.map_eq_zero_iff (RingHom.injective_int _)

theorem realPolyZ_eval (p : Poly ℤ) (x : ℤ) : (realPolyZ p).eval (x : ℝ) = ((p.eval x : ℤ) : ℝ) := by
  rw [C06_dense_eval, realPolyZ]
  exact eval_intCast_map (Int.castRingHom ℝ) _ _

/-- Positive multiples, one by one. -/
def PosMult : List (Poly ℤ) → List ℝ[X] → Prop := List.Forall₂ fun p S => ∃ t : ℝ, 0 < t ∧ S = C t * realPolyZ p

theorem sturmLoopPseudo_ok {L fuel : Nat} (hfuel : L + 1 ≤ fuel) : ∀ (n : Nat) (a b : Poly ℤ) (ta tb : ℝ), 0 < ta → 0 < tb →
    (descPoly b.terms).degree < (n : WithBot ℕ) →
    a.terms.length ≤ L → b.terms.length ≤ L → ∃ ch S, Poly.sturmLoopPseudo fuel (n + 1) a b = .ok ch ∧ PosMult ch S ∧
      ((realPolyZ b = 0 ∧ ch = [a]) ∨
        ∃ rest, S = C ta * realPolyZ a :: C tb * realPolyZ b :: rest ∧ RemSeq S ∧ ∀ s ∈ C tb * realPolyZ b :: rest, s ≠ 0) := by
  intro n
  induction n with
  | zero =>
    intro a b ta tb hta htb hd ha hb
    have h0 : descPoly b.terms = 0 := by
      rw [← degree_eq_bot]
      by_contra hne
      rw [degree_eq_natDegree (fun h => hne (by rw [h, degree_zero]))] at hd
      exact absurd hd (by exact_mod_cast Nat.not_lt_zero _)
    refine ⟨[a], [C ta * realPolyZ a], ?_, .cons ⟨ta, hta, rfl⟩ .nil, .inl ⟨(realPolyZ_eq_zero b).2 h0, rfl⟩⟩
    unfold Poly.sturmLoopPseudo; rw [if_pos ((C02_dense_is_zero b).2 h0)]
  | succ n ih =>
    intro a b ta tb hta htb hd ha hb
    unfold Poly.sturmLoopPseudo
    by_cases h0 : descPoly b.terms = 0
    · rw [if_pos ((C02_dense_is_zero b).2 h0)]
      exact ⟨[a], [C ta * realPolyZ a], rfl, .cons ⟨ta, hta, rfl⟩ .nil, .inl ⟨(realPolyZ_eq_zero b).2 h0, rfl⟩⟩
    · rw [if_neg (fun h => h0 ((C02_dense_is_zero b).1 h))]
      obtain ⟨s, q, r, t, -, h2, hs, -, h4, h5, h6, h7⟩ := C141_division a b h0 fuel (by omega)
      rw [← h5] at h4 h6
      have hn : descPoly t.neg.terms = -descPoly t.terms := (C10_dense_neg t).1
      have hs0 : (0 : ℝ) < s := by exact_mod_cast hs
      have hdiv : C ta * realPolyZ a = C (ta / s / tb) * (descPoly q.terms).map (Int.castRingHom ℝ) * (C tb * realPolyZ b) -
          C (ta / s) * realPolyZ t.neg := by
        have e := congrArg (Polynomial.map (Int.castRingHom ℝ)) h4
        rw [Polynomial.map_mul, Polynomial.map_add, Polynomial.map_mul, Polynomial.map_C, eq_intCast] at e
        have e1 : C ta = C (ta / s) * C (s : ℝ) := by rw [← C_mul, div_mul_cancel₀ _ hs0.ne']
        have e2 : C (ta / s / tb) * C tb = C (ta / s) := by rw [← C_mul, div_mul_cancel₀ _ htb.ne']
        unfold realPolyZ
        rw [hn, Polynomial.map_neg, e1]
        linear_combination C (ta / s) * e - (descPoly q.terms).map (Int.castRingHom ℝ) * (descPoly b.terms).map (Int.castRingHom ℝ) * e2
      obtain ⟨ch, S, h8, h9, h10⟩ := ih b t.neg tb (ta / s) htb (div_pos hta hs0) (by
        rw [hn, degree_neg]
        rw [degree_eq_natDegree h0] at h6 hd
        have : (descPoly b.terms).natDegree < n + 1 := by exact_mod_cast hd
        exact lt_of_lt_of_le h6 (by exact_mod_cast Nat.lt_succ_iff.1 this)) hb
        (by simp [Poly.neg]; omega)
      have hb0 : C tb * realPolyZ b ≠ 0 := mul_ne_zero (C_ne_zero.2 htb.ne') (fun h => h0 ((realPolyZ_eq_zero b).1 h))
      rcases h10 with ⟨h10, rfl⟩ | ⟨rest, h10, h11, h12⟩
      · refine ⟨[a, b], [C ta * realPolyZ a, C tb * realPolyZ b], by rw [h2, Res.ok_bind, h8, Res.ok_bind],
          .cons ⟨ta, hta, rfl⟩ (.cons ⟨tb, htb, rfl⟩ .nil), .inr ⟨[], rfl, ?_, by simpa using hb0⟩⟩
        rw [h10, mul_zero, sub_zero] at hdiv
        exact ⟨_, by rw [hdiv, mul_comm]⟩
      · refine ⟨a :: ch, C ta * realPolyZ a :: S, by rw [h2, Res.ok_bind, h8, Res.ok_bind], .cons ⟨ta, hta, rfl⟩ h9,
          .inr ⟨C (ta / s) * realPolyZ t.neg :: rest, by rw [h10], ?_, ?_⟩⟩
        · rw [h10] at h11 ⊢
          exact ⟨⟨_, hdiv⟩, h11⟩
        · intro x hx
          rcases List.mem_cons.1 hx with rfl | hx
          · exact hb0
          · exact h12 x hx

theorem variationsFrom_pos (x : ℤ) : ∀ (ch : List (Poly ℤ)) (S : List ℝ[X]) (_ : PosMult ch S) (last : Option Bool),
    variationsFrom x last ch = vch last (S.map (eval (x : ℝ)))
  | [], _, .nil, last => rfl
  | p :: ps, _ :: S, .cons ⟨t, ht, hS⟩ h, last => by
    subst hS
    simp only [List.map_cons, variationsFrom]
    have hv : (C t * realPolyZ p).eval (x : ℝ) = t * ((p.eval x : ℤ) : ℝ) := by rw [eval_C_mul, realPolyZ_eval]
    by_cases h0 : p.eval x = 0
    · rw [if_pos ((LawfulNumZero.isZero_iff _).2 h0), vch_zero _ _ (by rw [hv, h0, Int.cast_zero, mul_zero]), variationsFrom_pos x ps S h]
    · rw [if_neg (fun k => h0 ((LawfulNumZero.isZero_iff _).1 k)),
        vch_ne _ _ (by rw [hv]; exact mul_ne_zero ht.ne' (by exact_mod_cast h0)), variationsFrom_pos x ps S h]
      have : isPositive (p.eval x) = decide (0 < (C t * realPolyZ p).eval (x : ℝ)) := by
        rw [hv]
        simp [isPositive, mul_pos_iff_of_pos_left ht]
      rw [this]

theorem chain_count_int (p d : Poly ℤ) (hp : descPoly p.terms ≠ 0) (hd1 : descPoly d.terms = derivative (descPoly p.terms))
    (hd2 : d.terms.length ≤ p.terms.length) {a b : ℤ} (hab : a < b)
    (ha : (descPoly p.terms).eval a = 0 → (derivative (descPoly p.terms)).eval a ≠ 0)
    (hb : (descPoly p.terms).eval b = 0 → (derivative (descPoly p.terms)).eval b ≠ 0)
    {fuel steps : Nat} (hfuel : p.terms.length + 1 ≤ fuel) (hsteps : p.terms.length + 1 ≤ steps) :
    ∃ ch, Poly.sturmLoopPseudo fuel steps p d = .ok ch ∧ variationsFrom a none ch =
      variationsFrom b none ch + (rootsIn ((descPoly p.terms).map (Int.castRingHom ℚ)) a b).card := by
  obtain ⟨n, rfl⟩ : ∃ n, steps = n + 1 := ⟨steps - 1, by omega⟩
  obtain ⟨ch, S, h1, hS, h2⟩ := sturmLoopPseudo_ok (L := p.terms.length) hfuel n p d 1 1 one_pos one_pos
    (lt_of_lt_of_le (degree_lt_length d.terms) (by exact_mod_cast (by omega : d.terms.length ≤ n))) le_rfl hd2
  have hdr : realPolyZ d = derivative (realPolyZ p) := by rw [realPolyZ, hd1, realPolyZ, derivative_map]
  have hp0 : realPolyZ p ≠ 0 := fun h => hp ((realPolyZ_eq_zero p).1 h)
  have hroots : rootsIn ((descPoly p.terms).map (Int.castRingHom ℚ)) a b = (realPolyZ p).roots.toFinset.filter fun z => (a : ℝ) < z ∧ z ≤ b := by
    rw [rootsIn, aroots_def, Polynomial.map_map]
    congr
  refine ⟨ch, h1, ?_⟩
  rw [variationsFrom_pos a ch S hS, variationsFrom_pos b ch S hS, hroots]
  rcases h2 with ⟨h2, rfl⟩ | ⟨rest, h2, h3, h4⟩
  · rw [hdr] at h2
    have hc := Polynomial.derivative_eq_zero.1 h2
    rw [natDegree_eq_zero] at hc
    obtain ⟨c, hc⟩ := hc
    obtain ⟨S1, hS1, rfl⟩ : ∃ S1, (∃ t : ℝ, 0 < t ∧ S1 = C t * realPolyZ p) ∧ S = [S1] := by
      cases hS with
      | cons h hS => cases hS; exact ⟨_, h, rfl⟩
    obtain ⟨t, -, rfl⟩ := hS1
    rw [← hc, roots_C, ← C_mul, List.map_singleton, List.map_singleton, eval_C, eval_C]
    simp
  · rw [C_1, one_mul, one_mul] at h2
    rw [C_1, one_mul] at h4
    rw [h2] at h3 ⊢
    rw [hdr] at h3 h4 ⊢
    have hends : ∀ x : ℤ, ((descPoly p.terms).eval x = 0 → (derivative (descPoly p.terms)).eval x ≠ 0) →
        (realPolyZ p).eval (x : ℝ) = 0 → (derivative (realPolyZ p)).eval (x : ℝ) ≠ 0 := by
      intro x hx
      unfold realPolyZ
      have e : ∀ P : ℤ[X], (P.map (Int.castRingHom ℝ)).eval (x : ℝ) = ((P.eval x : ℤ) : ℝ) := fun P =>
        eval_intCast_map (Int.castRingHom ℝ) _ _
      rw [derivative_map, e, e]
      exact_mod_cast hx
    exact sturm_remSeq h3 (fun s hs => by
      rcases List.mem_cons.1 hs with rfl | hs
      · exact hp0
      · exact h4 s hs) (by exact_mod_cast hab) (hends a ha) (hends b hb)

/-- **C141.** With these remainders the program of C133 counts the distinct real roots of every integer polynomial other than zero between two
integers, without the left and with the right end, if no multiple root is at an end; with `%=` it does not return from degree 2 on
(`C133_integer_false`). -/
theorem C141_count (p : Poly ℤ) (hp : descPoly p.terms ≠ 0) {a b : ℤ} (hab : a < b)
    (ha : (descPoly p.terms).eval a = 0 → (derivative (descPoly p.terms)).eval a ≠ 0)
    (hb : (descPoly p.terms).eval b = 0 → (derivative (descPoly p.terms)).eval b ≠ 0)
    {fuel steps : Nat} (hfuel : p.terms.length + 1 ≤ fuel) (hsteps : p.terms.length + 1 ≤ steps) :
    p.countRootsPseudo fuel steps a b = .ok (rootsIn ((descPoly p.terms).map (Int.castRingHom ℚ)) a b).card := by
  obtain ⟨d, hd, hd1, hd2, -⟩ := derivative_returns p (by simp [tryFromCont])
  obtain ⟨ch, h1, hkey⟩ := chain_count_int p d hp hd1 hd2 hab ha hb hfuel hsteps
  unfold Poly.countRootsPseudo
  rw [hd, Res.ok_bind, h1, Res.ok_bind]
  simp only
  rw [if_neg (by omega)]
  congr 1
  omega

/-- **C141.** With the ends exchanged the program panics if there is a root between them. -/
theorem C141_count_reversed (p : Poly ℤ) (hp : descPoly p.terms ≠ 0) {a b : ℤ} (hab : a < b)
    (ha : (descPoly p.terms).eval a = 0 → (derivative (descPoly p.terms)).eval a ≠ 0)
    (hb : (descPoly p.terms).eval b = 0 → (derivative (descPoly p.terms)).eval b ≠ 0)
    {fuel steps : Nat} (hfuel : p.terms.length + 1 ≤ fuel) (hsteps : p.terms.length + 1 ≤ steps) :
    p.countRootsPseudo fuel steps b a = if rootsIn ((descPoly p.terms).map (Int.castRingHom ℚ)) a b = ∅ then .ok 0 else .panic := by
  obtain ⟨d, hd, hd1, hd2, -⟩ := derivative_returns p (by simp [tryFromCont])
  obtain ⟨ch, h1, hkey⟩ := chain_count_int p d hp hd1 hd2 hab ha hb hfuel hsteps
  unfold Poly.countRootsPseudo
  rw [hd, Res.ok_bind, h1, Res.ok_bind]
  simp only
  by_cases h : rootsIn ((descPoly p.terms).map (Int.castRingHom ℚ)) a b = ∅
  · rw [if_pos h]
    rw [h, Finset.card_empty] at hkey
    rw [if_neg (by omega)]
    congr 1
    omega
  · rw [if_neg h, if_pos]
    have := Finset.card_pos.2 (Finset.nonempty_iff_ne_empty.2 h)
    omega

-- `(3 x^2 + 1) : (2 x)`, on which `div_mod` does not end; `16 (3 x^2 + 1) = 24 x (2 x) + 16`
example : (⟨[3, 0, 1]⟩ : Poly ℤ).pseudoDivMod 4 ⟨[2, 0]⟩ = .ok (16, ⟨[24, 0]⟩, ⟨[16]⟩) ∧ (⟨[3, 0, 1]⟩ : Poly ℤ).divMod 50 ⟨[2, 0]⟩ = .fuel := by
  decide +kernel
-- gcd of `(2 x + 1) (x - 1)` and `(2 x + 1) (x + 3)`: a multiple of `2 x + 1`
example : (⟨[2, -1, -1]⟩ : Poly ℤ).gcdPseudo 4 4 ⟨[2, 7, 3]⟩ = .ok ⟨[0, -32, -16]⟩ := by decide +kernel
-- `x³ - 2` has one root in (1, 2], `2 x² - 7 x + 3 = (2 x - 1) (x - 3)` two in (0, 3]
example : (⟨[1, 0, 0, -2]⟩ : Poly ℤ).countRootsPseudo 5 5 1 2 = .ok 1 ∧ (⟨[2, -7, 3]⟩ : Poly ℤ).countRootsPseudo 4 4 0 3 = .ok 2 ∧
    (⟨[2, -7, 3]⟩ : Poly ℤ).countRootsPseudo 4 4 3 0 = .panic := by
  decide +kernel

end Rustnomial
