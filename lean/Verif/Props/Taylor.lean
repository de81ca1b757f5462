import Verif.Model.Taylor
import Verif.Props.Euclid
import Verif.Props.Stored
import Verif.Lemmas.DenseDiv
import Mathlib.Algebra.Polynomial.Taylor
import Mathlib.RingTheory.Multiplicity

/-!
# C129: multiplicities of roots, Taylor coefficients and squarefree parts with the operators
-/

open Polynomial

set_option linter.unusedSectionVars false

namespace Rustnomial

/-! ## Multiplicities by differentiating -/

section
variable {R : Type} [CommRing R] [IsDomain R] [NumZero R] [LawfulNumZero R] [FromUsizeCont R] [LawfulFromUsizeCont R]

theorem derivative_returns (p : Poly R) (h : (tryFromCont (coreLen p.terms) : Option R) ≠ none) :
    ∃ d, p.derivative = .ok d ∧ descPoly d.terms = derivative (descPoly p.terms) ∧ d.terms.length ≤ p.terms.length ∧
      coreLen d.terms ≤ coreLen p.terms - 1 := by
  rcases C16_dense_derivative p with h' | ⟨d, h1, h2⟩
  · rw [C16_dense_derivative_panics_iff, new_terms] at h'
    exact absurd h' h
  · let _ : RDiv R := ⟨fun _ _ => .panic⟩
    have h3 := (C101_calculus_length p).1 d h1
    have h4 : coreLen p.terms ≤ p.terms.length := List.length_dropWhile_le _ _
    have h5 : coreLen d.terms ≤ d.terms.length := List.length_dropWhile_le _ _
    exact ⟨d, h1, h2, by omega, by omega⟩

theorem multiplicityLoop_ok [CharZero R] (a : R) : ∀ (steps : Nat) (p : Poly R) (k : Nat), descPoly p.terms ≠ 0 →
    (∀ n ≤ coreLen p.terms, (tryFromCont n : Option R) ≠ none) → (descPoly p.terms).rootMultiplicity a < steps →
    Poly.multiplicityLoop a steps p k = .ok (k + (descPoly p.terms).rootMultiplicity a) := by
  intro steps
  induction steps with
  | zero => intro p k _ _ h; omega
  | succ n ih =>
    intro p k hp hc hs
    unfold Poly.multiplicityLoop
    by_cases h0 : (descPoly p.terms).eval a = 0
    · rw [if_pos (by rw [LawfulNumZero.isZero_iff, C06_dense_eval]; exact h0)]
      obtain ⟨d, h1, h2, _, h3⟩ := derivative_returns p (hc _ le_rfl)
      have hpos : 0 < (descPoly p.terms).rootMultiplicity a := (rootMultiplicity_pos hp).2 h0
      have hm := derivative_rootMultiplicity_of_root (p := descPoly p.terms) (t := a) h0
      have hd : derivative (descPoly p.terms) ≠ 0 := by
        intro h
        have := Polynomial.eq_C_of_derivative_eq_zero h
        rw [this, eval_C] at h0
        rw [h0, C_0] at this
        exact hp this
      rw [h1, Res.ok_bind, ih d (k + 1) (by rw [h2]; exact hd) (fun n hn => hc n (by omega)) (by rw [h2, hm]; omega), h2, hm]
      congr 1; omega
    · rw [if_neg (by rw [LawfulNumZero.isZero_iff, C06_dense_eval]; exact h0), rootMultiplicity_eq_zero h0]
      rfl

/-- **C129.** In characteristic 0, differentiating until the value at `a` is not zero takes as many steps as the multiplicity of the root
`a` (0 if it is no root), for every polynomial other than zero whose length the number type can represent. -/
theorem C129_multiplicity [CharZero R] (p : Poly R) (a : R) (hp : descPoly p.terms ≠ 0)
    (hc : ∀ n ≤ p.terms.length, (tryFromCont n : Option R) ≠ none) (steps : Nat) (hs : p.terms.length ≤ steps) :
    p.multiplicity steps a = .ok ((descPoly p.terms).rootMultiplicity a) := by
  have h1 := coreLen_natDegree _ hp
  have h4 : coreLen p.terms ≤ p.terms.length := List.length_dropWhile_le _ _
  have h2 := natDegree_le_of_dvd (pow_rootMultiplicity_dvd (descPoly p.terms) a) hp
  rw [natDegree_pow, natDegree_X_sub_C, mul_one] at h2
  have := multiplicityLoop_ok a steps p 0 hp (fun n hn => hc n (by omega)) (by omega)
  rw [Poly.multiplicity, this, zero_add]

/-- **C129.** For the polynomial zero it never ends. -/
theorem C129_multiplicity_zero (p : Poly R) (a : R) (hp : descPoly p.terms = 0) (hc : (tryFromCont 0 : Option R) ≠ none) (steps : Nat) :
    p.multiplicity steps a = .fuel := by
  have : ∀ (steps : Nat) (p : Poly R) (k : Nat), descPoly p.terms = 0 → Poly.multiplicityLoop a steps p k = .fuel := by
    intro steps
    induction steps with
    | zero => intro p k _; rfl
    | succ n ih =>
      intro p k hp
      unfold Poly.multiplicityLoop
      rw [if_pos (by rw [LawfulNumZero.isZero_iff, C06_dense_eval, hp, eval_zero])]
      obtain ⟨d, h1, h2, _⟩ := derivative_returns p (by rw [(coreLen_zero _).2 hp]; exact hc)
      rw [h1, Res.ok_bind, ih d _ (by rw [h2, hp, derivative_zero])]
  exact this steps p 0 hp

end

/-! ## Dividing by `x - a` -/

section
variable {R : Type} [CommRing R] [IsDomain R] [NumZero R] [LawfulNumZero R] [RDiv R]

theorem linear_terms (a : R) : firstTerm (Poly.new [1, -a]).terms = .term 1 1 := by
  have h : isZero (1 : R) = false := by
    rw [Bool.eq_false_iff]; intro h; exact one_ne_zero ((LawfulNumZero.isZero_iff _).1 h)
  rw [firstTerm_eq, new_terms, List.dropWhile_cons, if_neg (by simp [h]), List.dropWhile_cons, if_neg (by simp [h])]
  rfl

theorem linear_poly (a : R) : descPoly (Poly.new [1, -a]).terms = X - C a := by
  rw [C01_new_same_polynomial]; simp [descPoly_cons]; ring

/-- `div_mod` by `x - a`: the quotient is what makes the remainder the value at `a`. -/
theorem divMod_linear (h1 : ∀ x : R, rdiv x 1 = .ok x) (p : Poly R) (a : R) (fuel : Nat) (hf : p.terms.length + 1 ≤ fuel) :
    ∃ q r, p.divMod fuel (Poly.new [1, -a]) = .ok (q, r) ∧
      descPoly p.terms = (X - C a) * descPoly q.terms + C ((descPoly p.terms).eval a) ∧
      descPoly r.terms = C ((descPoly p.terms).eval a) ∧ q.terms.length ≤ p.terms.length := by
  have hb : descPoly (Poly.new [1, -a]).terms ≠ 0 := by rw [linear_poly]; exact X_sub_C_ne_zero a
  have hm := Polynomial.modByMonic_add_div (descPoly p.terms) (X - C a)
  rw [modByMonic_X_sub_C_eq_C_eval] at hm
  obtain ⟨q, r, e1, e2, e3⟩ := divMod_ok p (Poly.new [1, -a]) (Q := descPoly p.terms /ₘ (X - C a)) (T := C ((descPoly p.terms).eval a))
    (fun rf rd h x => by
      rw [linear_terms] at h
      cases h
      rw [one_mul, h1])
    hb (by rw [linear_poly]; exact hm.symm.trans (by ring))
    (by rw [linear_poly, degree_X_sub_C]; exact degree_C_lt) fuel hf
  have e4 : descPoly p.terms = (X - C a) * descPoly q.terms + C ((descPoly p.terms).eval a) := by
    rw [e2]; exact hm.symm.trans (by ring)
  refine ⟨q, r, e1, e4, e3, ?_⟩
  have ht := ((C101_trimmed_div fuel p (Poly.new [1, -a])).1 q r e1).1
  rw [trimmed_iff_coreLen] at ht
  by_cases hq : descPoly q.terms = 0
  · rw [← ht, (coreLen_zero _).2 hq]; exact Nat.zero_le _
  · have hp : descPoly p.terms ≠ 0 := by
      intro h0
      rw [h0, eval_zero, C_0, add_zero, eq_comm, mul_eq_zero] at e4
      exact e4.elim (X_sub_C_ne_zero a) hq
    have h4 : coreLen p.terms ≤ p.terms.length := List.length_dropWhile_le _ _
    rw [coreLen_natDegree _ hp] at h4
    rw [← ht, coreLen_natDegree _ hq]
    have : (descPoly q.terms).natDegree ≤ (descPoly p.terms).natDegree := by
      rw [e2, natDegree_divByMonic _ (monic_X_sub_C a)]; omega
    omega

theorem divideOutLoop_ok (h1 : ∀ x : R, rdiv x 1 = .ok x) (a : R) (fuel : Nat) : ∀ (steps : Nat) (p : Poly R) (k : Nat),
    descPoly p.terms ≠ 0 → p.terms.length + 1 ≤ fuel → (descPoly p.terms).natDegree < steps →
    ∃ q m, Poly.divideOutLoop fuel a steps p k = .ok (q, k + m) ∧ descPoly p.terms = (X - C a) ^ m * descPoly q.terms ∧
      (descPoly q.terms).eval a ≠ 0 := by
  intro steps
  induction steps with
  | zero => intro p k _ _ h; omega
  | succ n ih =>
    intro p k hp hf hs
    unfold Poly.divideOutLoop
    by_cases h0 : (descPoly p.terms).eval a = 0
    · rw [if_pos (by rw [LawfulNumZero.isZero_iff, C06_dense_eval]; exact h0)]
      obtain ⟨q, r, e1, e2, e3, e4⟩ := divMod_linear h1 p a fuel hf
      rw [h0, C_0, add_zero] at e2
      have hq : descPoly q.terms ≠ 0 := by rintro h; rw [h, mul_zero] at e2; exact hp e2
      have hd : (descPoly p.terms).natDegree = 1 + (descPoly q.terms).natDegree := by
        rw [e2, natDegree_mul (X_sub_C_ne_zero a) hq, natDegree_X_sub_C]
      obtain ⟨q', m, i1, i2, i3⟩ := ih q (k + 1) hq (by omega) (by omega)
      refine ⟨q', m + 1, ?_, ?_, i3⟩
      · rw [e1, Res.ok_bind]
        show Poly.divideOutLoop fuel a n q (k + 1) = _
        rw [i1]; congr 2; omega
      · rw [e2, i2]; ring
    · rw [if_neg (by rw [LawfulNumZero.isZero_iff, C06_dense_eval]; exact h0)]
      exact ⟨p, 0, rfl, by rw [pow_zero, one_mul], h0⟩

/-- **C129.** Dividing by `x - a` as long as the value at `a` is zero leaves a polynomial that is not zero at `a`; the number of divisions
is the multiplicity of the root.  Also for integer coefficients (`h1` holds for the primitive types and for fields). -/
theorem C129_divide_out (h1 : ∀ x : R, rdiv x 1 = .ok x) (p : Poly R) (a : R) (hp : descPoly p.terms ≠ 0) (fuel steps : Nat)
    (hf : p.terms.length + 1 ≤ fuel) (hs : p.terms.length ≤ steps) :
    ∃ q m, p.divideOut fuel steps a = .ok (q, m) ∧ descPoly p.terms = (X - C a) ^ m * descPoly q.terms ∧ q.eval a ≠ 0 ∧
      m = (descPoly p.terms).rootMultiplicity a := by
  have h2 := coreLen_natDegree _ hp
  have h4 : coreLen p.terms ≤ p.terms.length := List.length_dropWhile_le _ _
  obtain ⟨q, m, e1, e2, e3⟩ := divideOutLoop_ok h1 a fuel steps p 0 hp hf (by omega)
  rw [zero_add] at e1
  refine ⟨q, m, e1, e2, by rw [C06_dense_eval]; exact e3, ?_⟩
  have hq : descPoly q.terms ≠ 0 := by rintro h; rw [h, mul_zero] at e2; exact hp e2
  rw [e2, rootMultiplicity_mul (mul_ne_zero (pow_ne_zero _ (X_sub_C_ne_zero a)) hq), rootMultiplicity_X_sub_C_pow,
    rootMultiplicity_eq_zero e3, add_zero]

/-! ## Taylor coefficients -/

theorem getD_taylor (p : Poly R) (a : R) (k : Nat) :
    (([] : List R) ++ (List.range (coreLen p.terms)).map fun k => (taylor a (descPoly p.terms)).coeff k).getD k 0 =
      ((descPoly p.terms).comp (X + C a)).coeff k := by
  rw [← taylor_apply, List.nil_append]
  by_cases h : k < coreLen p.terms
  · simp [List.getD, h]
  · have hz : (taylor a (descPoly p.terms)).coeff k = 0 := by
      by_cases hp : descPoly p.terms = 0
      · rw [hp, map_zero, coeff_zero]
      · apply coeff_eq_zero_of_natDegree_lt
        rw [natDegree_taylor]
        rw [coreLen_natDegree _ hp] at h
        omega
    rw [hz]
    simp [List.getD, h]

theorem taylorDivLoop_ok (h1 : ∀ x : R, rdiv x 1 = .ok x) (a : R) (fuel : Nat) : ∀ (steps : Nat) (p : Poly R) (c : List R),
    p.terms.length + 1 ≤ fuel → coreLen p.terms < steps →
    Poly.taylorDivLoop fuel a steps p c =
      .ok (c ++ (List.range (coreLen p.terms)).map fun k => (taylor a (descPoly p.terms)).coeff k) := by
  intro steps
  induction steps with
  | zero => intro p c _ h; omega
  | succ n ih =>
    intro p c hf hs
    unfold Poly.taylorDivLoop
    by_cases hp : descPoly p.terms = 0
    · rw [if_pos ((C02_dense_is_zero p).2 hp), (coreLen_zero _).2 hp]; simp
    · rw [if_neg (fun h => hp ((C02_dense_is_zero p).1 h))]
      obtain ⟨q, r, e1, e2, e3, e4⟩ := divMod_linear h1 p a fuel hf
      have hlen : coreLen p.terms = coreLen q.terms + 1 := by
        rw [coreLen_natDegree _ hp]
        by_cases hq : descPoly q.terms = 0
        · rw [(coreLen_zero _).2 hq]
          rw [hq, mul_zero, zero_add] at e2
          rw [e2, natDegree_C]
        · rw [coreLen_natDegree _ hq, e2, natDegree_add_C, natDegree_mul (X_sub_C_ne_zero a) hq, natDegree_X_sub_C]; ring
      have ht : taylor a (descPoly p.terms) = X * taylor a (descPoly q.terms) + C ((descPoly p.terms).eval a) := by
        conv_lhs => rw [e2]
        rw [map_add, taylor_mul, taylor_C, map_sub, taylor_X, taylor_C]; ring
      rw [e1, Res.ok_bind]
      show Poly.taylorDivLoop fuel a n q (c ++ [r.eval 0]) = _
      rw [ih q _ (by omega) (by omega), hlen, List.range_succ_eq_map, List.map_cons, List.map_map, C06_dense_eval, e3, eval_C,
        List.append_assoc, List.singleton_append, taylor_coeff_zero]
      congr 3
      apply List.map_congr_left
      intro k _
      simp only [Function.comp]
      rw [ht, coeff_add, coeff_X_mul, coeff_C_succ, add_zero]

/-- **C129.** Dividing by `x - a` until nothing is left, the remainders are the coefficients of `p(x + a)`, lowest first: one more than the
degree, none for zero. -/
theorem C129_taylor_divide (h1 : ∀ x : R, rdiv x 1 = .ok x) (p : Poly R) (a : R) (fuel steps : Nat) (hf : p.terms.length + 1 ≤ fuel)
    (hs : p.terms.length + 1 ≤ steps) :
    ∃ c, p.taylorDiv fuel steps a = .ok c ∧ (descPoly p.terms = 0 → c = []) ∧ (descPoly p.terms ≠ 0 → c.length = (descPoly p.terms).natDegree + 1) ∧
      ∀ k, c.getD k 0 = ((descPoly p.terms).comp (X + C a)).coeff k := by
  have h4 : coreLen p.terms ≤ p.terms.length := List.length_dropWhile_le _ _
  refine ⟨_, taylorDivLoop_ok h1 a fuel steps p [] hf (by omega), fun h => ?_, fun h => ?_, fun k => getD_taylor p a k⟩
  · rw [(coreLen_zero _).2 h]; rfl
  · rw [List.nil_append, List.length_map, List.length_range]; exact coreLen_natDegree _ h

end

section
variable {K : Type} [Field K] [CharZero K] [NumZero K] [LawfulNumZero K] [RDiv K] [LawfulRDiv K] [FromUsizeCont K] [LawfulFromUsizeCont K]

theorem taylor_coeff_div (P : K[X]) (a : K) (j : Nat) : (taylor a P).coeff j = (derivative^[j] P).eval a / (j.factorial : K) := by
  rw [taylor_coeff, eq_div_iff (by exact_mod_cast j.factorial_ne_zero), ← factorial_smul_hasseDeriv]
  simp [mul_comm]

theorem taylorDerivLoop_ok (a : K) (P : K[X]) : ∀ (steps j : Nat) (p : Poly K) (c : List K), descPoly p.terms = derivative^[j] P →
    (∀ n ≤ coreLen p.terms, (tryFromCont n : Option K) ≠ none) → coreLen p.terms < steps →
    Poly.taylorDerivLoop a steps p j (j.factorial : K) c =
      .ok (c ++ (List.range (coreLen p.terms)).map fun k => (taylor a P).coeff (j + k)) := by
  intro steps
  induction steps with
  | zero => intro j p c _ _ h; omega
  | succ n ih =>
    intro j p c hP hc hs
    unfold Poly.taylorDerivLoop
    by_cases hp : descPoly p.terms = 0
    · rw [if_pos ((C02_dense_is_zero p).2 hp), (coreLen_zero _).2 hp]; simp
    · rw [if_neg (fun h => hp ((C02_dense_is_zero p).1 h))]
      obtain ⟨d, h1, h2, _, h3⟩ := derivative_returns p (hc _ le_rfl)
      have hd : descPoly d.terms = derivative^[j + 1] P := by rw [h2, hP, Function.iterate_succ_apply']
      have hlen : coreLen p.terms = coreLen d.terms + 1 := by
        rw [coreLen_natDegree _ hp]
        by_cases hq : descPoly d.terms = 0
        · rw [(coreLen_zero _).2 hq]
          rw [h2] at hq
          rw [eq_C_of_derivative_eq_zero hq, natDegree_C]
        · have hne : (descPoly p.terms).natDegree ≠ 0 := by
            intro h0
            rw [h2, eq_C_of_natDegree_eq_zero h0, derivative_C] at hq
            exact hq rfl
          rw [coreLen_natDegree _ hq, h2, natDegree_derivative]; omega
      rw [LawfulRDiv.rdiv_eq _ _ (by exact_mod_cast j.factorial_ne_zero), Res.ok_bind, h1, Res.ok_bind]
      have hf : (j.factorial : K) * ((j : K) + 1) = ((j + 1).factorial : K) := by
        rw [Nat.factorial_succ]; push_cast; ring
      have hj : (j : K) + 1 = ((j + 1 : Nat) : K) := by push_cast; ring
      rw [hf, hj, ih (j + 1) d _ hd (fun n hn => hc n (by omega)) (by omega), hlen, List.range_succ_eq_map, List.map_cons, List.map_map,
        C06_dense_eval, hP, ← taylor_coeff_div, List.append_assoc, List.singleton_append, add_zero]
      congr 3
      apply List.map_congr_left
      intro k _
      simp only [Function.comp]
      congr 1; omega

/-- **C129.** In characteristic 0 the values `p(a)/0!, p'(a)/1!, p''(a)/2!, ...` of the derivatives are the same coefficients of `p(x + a)`. -/
theorem C129_taylor_derive (p : Poly K) (a : K) (hc : ∀ n ≤ p.terms.length, (tryFromCont n : Option K) ≠ none) (steps : Nat)
    (hs : p.terms.length + 1 ≤ steps) :
    ∃ c, p.taylorDeriv steps a = .ok c ∧ (descPoly p.terms = 0 → c = []) ∧ (descPoly p.terms ≠ 0 → c.length = (descPoly p.terms).natDegree + 1) ∧
      ∀ k, c.getD k 0 = ((descPoly p.terms).comp (X + C a)).coeff k := by
  have h4 : coreLen p.terms ≤ p.terms.length := List.length_dropWhile_le _ _
  have h := taylorDerivLoop_ok a (descPoly p.terms) steps 0 p [] rfl (fun n hn => hc n (by omega)) (by omega)
  simp only [Nat.factorial_zero, Nat.cast_one, Nat.cast_zero, zero_add] at h
  refine ⟨_, h, fun h => ?_, fun h => ?_, fun k => getD_taylor p a k⟩
  · rw [(coreLen_zero _).2 h]; rfl
  · rw [List.nil_append, List.length_map, List.length_range]; exact coreLen_natDegree _ h

/-! ## Squarefree part -/

theorem pow_dvd_gcd_derivative {P Q M : K[X]} {e : Nat} (hP : P = Q ^ (e + 1) * M) : Q ^ e ∣ derivative P := by
  rw [hP, derivative_mul, derivative_pow]
  refine dvd_add (Dvd.dvd.mul_right ?_ _) (Dvd.dvd.mul_right ?_ _)
  · rw [Nat.add_sub_cancel, mul_assoc]; exact Dvd.dvd.mul_left (Dvd.intro _ rfl) _
  · exact pow_dvd_pow _ (Nat.le_succ e)

theorem not_pow_dvd_derivative {P Q M : K[X]} {e : Nat} (hQ : Irreducible Q) (hM : ¬ Q ∣ M) (hP : P = Q ^ (e + 1) * M) :
    ¬ Q ^ (e + 1) ∣ derivative P := by
  intro h
  rw [hP, derivative_mul, derivative_pow] at h
  have h1 := (dvd_add_left (Dvd.intro _ rfl : Q ^ (e + 1) ∣ Q ^ (e + 1) * derivative M)).1 h
  rw [Nat.add_sub_cancel] at h1
  have h2 : Q ∣ C (((e + 1 : Nat) : K)) * derivative Q * M := by
    have : Q ^ e * Q ∣ Q ^ e * (C (((e + 1 : Nat) : K)) * derivative Q * M) := by
      rw [← pow_succ]
      refine h1.trans (dvd_of_eq ?_)
      ring
    exact (mul_dvd_mul_iff_left (pow_ne_zero _ hQ.ne_zero)).1 this
  have hp := hQ.prime
  rcases hp.dvd_or_dvd h2 with h3 | h3
  · rcases hp.dvd_or_dvd h3 with h4 | h4
    · exact hQ.not_isUnit (isUnit_of_dvd_unit h4 (isUnit_C.2 (isUnit_iff_ne_zero.2 (by exact_mod_cast Nat.succ_ne_zero e))))
    · have hq0 : derivative Q ≠ 0 := by
        intro h0
        have := eq_C_of_derivative_eq_zero h0
        have hc : Q.coeff 0 ≠ 0 := by intro h'; rw [h', C_0] at this; exact hQ.ne_zero this
        exact hQ.not_isUnit (by rw [this]; exact isUnit_C.2 (isUnit_iff_ne_zero.2 hc))
      exact absurd (degree_le_of_dvd h4 hq0) (not_le.2 (degree_derivative_lt hQ.ne_zero))
  · exact hM h3

/-- **C129.** In characteristic 0 the quotient of a polynomial other than zero by its greatest common divisor with its derivative, both
computed with the operators, has no repeated factors and the same irreducible factors, so the same roots, all of them simple. -/
theorem C129_squarefree_part (p : Poly K) (hp : descPoly p.terms ≠ 0) (hc : ∀ n ≤ p.terms.length, (tryFromCont n : Option K) ≠ none)
    (fuel steps : Nat) (hf : p.terms.length + 1 ≤ fuel) (hs : p.terms.length + 1 ≤ steps) :
    ∃ q, p.squarefreePart fuel steps = .ok q ∧ Squarefree (descPoly q.terms) ∧
      (∀ Q, Irreducible Q → (Q ∣ descPoly q.terms ↔ Q ∣ descPoly p.terms)) ∧ (∀ x, q.eval x = 0 ↔ p.eval x = 0) ∧
      ∀ x, (descPoly q.terms).rootMultiplicity x ≤ 1 := by
  have h4 : coreLen p.terms ≤ p.terms.length := List.length_dropWhile_le _ _
  obtain ⟨d, d1, d2, d3, _⟩ := derivative_returns p (hc _ h4)
  obtain ⟨g, g1, g2, g3, g4⟩ := C123_gcd_rem_assign p d fuel steps (by omega) (by omega)
  have hg : descPoly g.terms ≠ 0 := by rintro h; rw [h, zero_dvd_iff] at g2; exact hp g2
  obtain ⟨q, r, q1, _, _, q2, _⟩ := C20_dense_div_mod p g hg fuel hf
  have hpq : descPoly p.terms = descPoly g.terms * descPoly q.terms := by
    rw [q2, EuclideanDomain.mul_div_cancel' hg g2]
  have hq : descPoly q.terms ≠ 0 := by rintro h; rw [h, mul_zero] at hpq; exact hp hpq
  rw [d2] at g3 g4
  -- the exponent of an irreducible factor
  have key : ∀ Q, Irreducible Q → Q ∣ descPoly p.terms → Q ∣ descPoly q.terms ∧ ¬ Q ^ 2 ∣ descPoly q.terms := by
    intro Q hQ hQP
    obtain ⟨M, hM1, hM2⟩ := (FiniteMultiplicity.of_prime_left hQ.prime hp).exists_eq_pow_mul_and_not_dvd
    obtain ⟨e, he⟩ : ∃ e, multiplicity Q (descPoly p.terms) = e + 1 := by
      cases hm : multiplicity Q (descPoly p.terms) with
      | zero => rw [hm, pow_zero, one_mul] at hM1; rw [← hM1] at hM2; exact absurd hQP hM2
      | succ e => exact ⟨e, rfl⟩
    rw [he] at hM1
    have hup : ¬ Q ^ (e + 1) ∣ descPoly g.terms := fun h => not_pow_dvd_derivative hQ hM2 hM1 (h.trans g3)
    have hlo : Q ^ e ∣ descPoly g.terms := g4 _ (by rw [hM1, pow_succ, mul_assoc]; exact Dvd.intro _ rfl) (pow_dvd_gcd_derivative hM1)
    obtain ⟨G, hG⟩ := hlo
    have hGQ : ¬ Q ∣ G := fun h => hup (by rw [hG, pow_succ]; exact mul_dvd_mul_left _ h)
    have heq : G * descPoly q.terms = Q * M := by
      have : Q ^ e * (G * descPoly q.terms) = Q ^ e * (Q * M) := by rw [← mul_assoc, ← hG, ← hpq, hM1, pow_succ, mul_assoc]
      exact mul_left_cancel₀ (pow_ne_zero _ hQ.ne_zero) this
    constructor
    · exact (hQ.prime.dvd_or_dvd (heq ▸ Dvd.intro _ rfl : Q ∣ G * descPoly q.terms)).resolve_left hGQ
    · rintro ⟨t, ht⟩
      rw [ht] at heq
      have : Q * (Q * (G * t)) = Q * M := by rw [← heq]; ring
      exact hM2 ⟨_, (mul_left_cancel₀ hQ.ne_zero this).symm⟩
  have hsq : Squarefree (descPoly q.terms) := by
    rw [squarefree_iff_no_irreducibles hq]
    intro Q hQ h
    have := (key Q hQ (hpq ▸ Dvd.dvd.mul_left ((Dvd.intro _ rfl).trans h) _)).2
    rw [pow_two] at this
    exact this h
  have hirr : ∀ Q, Irreducible Q → (Q ∣ descPoly q.terms ↔ Q ∣ descPoly p.terms) :=
    fun Q hQ => ⟨fun h => hpq ▸ Dvd.dvd.mul_left h _, fun h => (key Q hQ h).1⟩
  refine ⟨q, by simp [Poly.squarefreePart, d1, g1, q1], hsq, hirr, ?_, ?_⟩
  · intro x
    rw [C06_dense_eval, C06_dense_eval]
    have := hirr (X - C x) (irreducible_X_sub_C x)
    rwa [dvd_iff_isRoot, dvd_iff_isRoot] at this
  · intro x
    by_contra h
    have h2 : (X - C x) ^ 2 ∣ descPoly q.terms :=
      (pow_dvd_pow _ (by omega)).trans (pow_rootMultiplicity_dvd (descPoly q.terms) x)
    rw [pow_two] at h2
    exact (irreducible_X_sub_C x).not_isUnit (hsq _ h2)

end

-- (x - 1)^2 (x + 2) (x^2 + 1): 1 is a double root
example : descPoly (⟨[0, 1, 0, -2, 2, -3, 2]⟩ : Poly ℚ).terms ≠ 0 ∧ (⟨[0, 1, 0, -2, 2, -3, 2]⟩ : Poly ℚ).multiplicity 7 1 = .ok 2 ∧
    (⟨[0, 1, 0, -2, 2, -3, 2]⟩ : Poly ℚ).divideOut 8 7 1 = .ok (⟨[1, 2, 1, 2]⟩, 2) ∧
    (⟨[0, 1, 0, -2, 2, -3, 2]⟩ : Poly ℚ).taylorDiv 8 8 1 = .ok [0, 0, 6, 8, 5, 1] ∧
    (⟨[0, 1, 0, -2, 2, -3, 2]⟩ : Poly ℚ).taylorDeriv 8 1 = .ok [0, 0, 6, 8, 5, 1] := by
  refine ⟨?_, by decide +kernel, by decide +kernel, by decide +kernel, by decide +kernel⟩
  intro h
  have := congrArg (fun P => P.eval 0) h
  simp [descPoly_cons] at this

-- integer coefficients: `x / 1 = x`
example : (∀ x : ℤ, rdiv x 1 = .ok x) ∧ (⟨[1, 1, -8, -12]⟩ : Poly ℤ).divideOut 5 4 (-2) = .ok (⟨[1, -3]⟩, 2) ∧
    (⟨[1, 1, -8, -12]⟩ : Poly ℤ).taylorDiv 5 5 (-2) = .ok [0, 0, -5, 1] := by
  refine ⟨fun x => by simp [rdiv], by decide +kernel, by decide +kernel⟩

-- x^3 (x - 1): the squarefree part is a multiple of x (x - 1)
example : ((⟨[1, -1, 0, 0, 0]⟩ : Poly ℚ).squarefreePart 6 6).bind (fun q => .ok (q.eval 0, q.eval 1, q.degree)) =
    .ok (0, 0, .num 2) := by decide +kernel

/-- **C129.** Without overflow checks differentiating gives wrong multiplicities: for `x^3 + 128x^2` on `u8` (a double root at 0) it
counts three, for `128x^2` it never ends. -/
theorem C129_multiplicity_wrapping_false :
    let _ : FromUsizeCont (ZMod 256) := ⟨fun n => if n ≤ 255 then some (n : ZMod 256) else none⟩
    let p : Poly (ZMod 256) := ⟨[1, 128, 0, 0]⟩
    let q : Poly (ZMod 256) := ⟨[128, 0, 0]⟩
    p.multiplicity 5 0 = .ok 3 ∧ (X ^ 2 ∣ descPoly p.terms ∧ ¬ X ^ 3 ∣ descPoly p.terms) ∧ descPoly q.terms ≠ 0 ∧
      ∀ steps, q.multiplicity steps 0 = .fuel := by
  intro _ p q
  refine ⟨by decide +kernel, ⟨⟨X + C 128, ?_⟩, ?_⟩, ?_, ?_⟩
  · simp [p, descPoly_cons]; ring
  · intro h
    have := (X_pow_dvd_iff.1 h) 2 (by norm_num)
    simp [p, descPoly_cons] at this
    exact absurd this (by decide)
  · intro h
    have := congrArg (fun P => P.coeff 2) h
    simp [q, descPoly_cons] at this
    exact absurd this (by decide)
  · intro steps
    have hz : ∀ (n k : Nat), Poly.multiplicityLoop (0 : ZMod 256) n Poly.zero k = .fuel := by
      intro n
      induction n with
      | zero => intro k; rfl
      | succ n ih => intro k; exact ih (k + 1)
    have h1 : q.derivative = .ok ⟨[0, 0]⟩ := by decide +kernel
    have h2 : (⟨[0, 0]⟩ : Poly (ZMod 256)).derivative = .ok Poly.zero := by decide +kernel
    match steps with
    | 0 => rfl
    | 1 => rfl
    | n + 2 =>
      show Poly.multiplicityLoop (0 : ZMod 256) (n + 2) q 0 = .fuel
      unfold Poly.multiplicityLoop
      rw [if_pos (by decide +kernel), h1, Res.ok_bind]
      unfold Poly.multiplicityLoop
      rw [if_pos (by decide +kernel), h2, Res.ok_bind]
      exact hz _ _

end Rustnomial
