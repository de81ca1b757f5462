import Verif.Props.DenseBasic
import Mathlib.Algebra.Polynomial.FieldDivision

/-!
# Lemmas about the division loops of dense polynomials
-/

open Polynomial

set_option linter.unusedSectionVars false

namespace Rustnomial

section
variable {N : Type} [Zero N] [NumZero N]

theorem firstTerm_term {l : List N} {v : N} {d : Nat} (h : firstTerm l = .term v d) :
    ∃ vs, l.dropWhile isZero = v :: vs ∧ vs.length = d ∧ d + 1 ≤ l.length ∧
      l.drop (l.length - d - 1) = v :: vs ∧ isZero v = false := by
  rw [firstTerm_eq] at h
  cases hl : l.dropWhile isZero with
  | nil => rw [hl] at h; cases h
  | cons w ws =>
    rw [hl] at h
    injection h with h1 h2
    subst h1 h2
    have hadd := firstNonzeroIndex_add l
    rw [hl, List.length_cons] at hadd
    refine ⟨ws, rfl, rfl, by omega, ?_, dropWhile_head_not hl⟩
    have : l.length - ws.length - 1 = firstNonzeroIndex l := by omega
    rw [this, drop_firstNonzeroIndex, hl]

theorem firstTerm_zero_iff {l : List N} : firstTerm l = .zeroTerm ↔ l.dropWhile isZero = [] := by
  rw [firstTerm_eq]
  cases l.dropWhile isZero <;> simp

/-- `vec_sub_w_scale` as called by the division loops succeeds. -/
theorem vecSubWScale_ok [Sub N] [Mul N] {rem b : List N} {sd rd : Nat} (s : N)
    (h1 : sd + 1 ≤ rem.length) (h2 : rd + 1 ≤ b.length) :
    vecSubWScale rem sd b rd s = .ok (rem.take (rem.length - sd - 1) ++
      zipMut (fun l r => l - r * s) (rem.drop (rem.length - sd - 1)) (b.drop (b.length - rd - 1))) := by
  have e1 : sd ≤ rem.length := by omega
  have e2 : 1 ≤ rem.length - sd := by omega
  have e3 : rem.length - sd - 1 ≤ rem.length := by omega
  have e4 : rd ≤ b.length := by omega
  have e5 : 1 ≤ b.length - rd := by omega
  have e6 : b.length - rd - 1 ≤ b.length := by omega
  simp [vecSubWScale, usub, sliceFrom, e1, e2, e3, e4, e5, e6]

end

section
variable {R : Type} [CommRing R] [NumZero R] [LawfulNumZero R]

theorem firstTerm_zero_poly {l : List R} : firstTerm l = .zeroTerm ↔ descPoly l = 0 := by
  rw [firstTerm_zero_iff, descPoly_eq_zero_iff]

theorem firstTerm_poly {l : List R} {v : R} {d : Nat} (h : firstTerm l = .term v d) :
    v ≠ 0 ∧ (descPoly l).degree = d ∧ (descPoly l).leadingCoeff = v := by
  obtain ⟨vs, h1, h2, _, _, h5⟩ := firstTerm_term h
  have hv : v ≠ 0 := by simpa using h5
  rw [← descPoly_dropWhile, h1, descPoly_cons_degree vs hv, h2, descPoly_leadingCoeff vs hv]
  exact ⟨hv, rfl, rfl⟩

/-- Meaning of `vec_sub_w_scale` as called by the division loops. -/
theorem vecSubWScale_poly {rem b : List R} {c rf : R} {sd rd : Nat} (s : R)
    (hr : firstTerm rem = .term c sd) (hb : firstTerm b = .term rf rd) (h : rd ≤ sd) :
    ∃ rem', vecSubWScale rem sd b rd s = .ok rem' ∧ rem'.length = rem.length ∧
      descPoly rem' = descPoly rem - C s * X ^ (sd - rd) * descPoly b := by
  obtain ⟨vs, r1, r2, r3, r4, _⟩ := firstTerm_term hr
  obtain ⟨ws, b1, b2, b3, b4, _⟩ := firstTerm_term hb
  refine ⟨_, vecSubWScale_ok s r3 b3, ?_, ?_⟩
  · simp; omega
  · rw [sub_eq_add_neg]
    apply descPoly_take_append
    · simp
    · rw [descPoly_zipMut_add (fun r => -s * r) _ (fun x y => by ring) _ _ (by simp; omega),
        descPoly_map_mul_left, b4, ← b1, descPoly_dropWhile]
      have : (rem.drop (rem.length - sd - 1)).length - (b.dropWhile isZero).length = sd - rd := by
        rw [b1]; simp; omega
      rw [this, C_neg]; ring

theorem descPoly_set (l : List R) (i : Nat) (c : R) (h : i < l.length) (h0 : l.getD i 0 = 0) :
    descPoly (l.set i c) = descPoly l + C c * X ^ (l.length - i - 1) := by
  induction l generalizing i with
  | nil => simp at h
  | cons a l ih =>
    cases i with
    | zero =>
      simp only [List.getD_cons_zero] at h0
      subst h0
      simp [descPoly_cons, add_comm]
    | succ i =>
      simp only [List.length_cons, Nat.add_lt_add_iff_right] at h
      simp only [List.getD_cons_succ] at h0
      simp only [List.set_cons_succ, descPoly_cons, List.length_set, ih i h h0, List.length_cons,
        Nat.add_sub_add_right, add_assoc]

theorem degree_step [IsDomain R] {P B : R[X]} {c rf s : R} {sd rd : Nat} (hP : P.degree = sd)
    (hPl : P.leadingCoeff = c) (hB : B.degree = rd) (hBl : B.leadingCoeff = rf) (h : rd ≤ sd)
    (hs : c = rf * s) : (P - C s * X ^ (sd - rd) * B).degree < (sd : WithBot ℕ) := by
  have hc : c ≠ 0 := by
    rw [← hPl, Ne, leadingCoeff_eq_zero]
    rintro rfl; simp at hP
  have hs0 : s ≠ 0 := by rintro rfl; simp at hs; exact hc hs
  have hd : (C s * X ^ (sd - rd) * B).degree = (sd : WithBot ℕ) := by
    rw [degree_mul, degree_C_mul_X_pow _ hs0, hB, ← Nat.cast_add, Nat.sub_add_cancel h]
  have := degree_sub_lt_left (p := P) (q := C s * X ^ (sd - rd) * B) (by rw [hP, hd])
    (by rintro rfl; simp at hP) (by
      rw [leadingCoeff_mul, leadingCoeff_C_mul_X_pow, hPl, hBl, hs, mul_comm])
  rwa [hP] at this

/-- Euclidean decomposition is unique over a domain. -/
theorem divmod_unique [IsDomain R] {A B Q Q' T T' : R[X]} (h : A = Q * B + T) (hT : T.degree < B.degree)
    (h' : A = Q' * B + T') (hT' : T'.degree < B.degree) : Q = Q' ∧ T = T' := by
  have e : (Q - Q') * B = T' - T := by linear_combination h' - h
  have hlt : (T' - T).degree < B.degree := lt_of_le_of_lt (degree_sub_le _ _) (max_lt hT' hT)
  have hq : Q - Q' = 0 := by
    by_contra hne
    rw [← e, degree_mul] at hlt
    have h0 : (0 : WithBot ℕ) ≤ (Q - Q').degree := zero_le_degree_iff.2 hne
    have : B.degree ≤ (Q - Q').degree + B.degree := by
      calc B.degree = 0 + B.degree := (zero_add _).symm
        _ ≤ _ := by gcongr
    exact absurd hlt (not_lt.2 this)
  refine ⟨sub_eq_zero.1 hq, ?_⟩
  rw [hq, zero_mul] at e
  exact (sub_eq_zero.1 e.symm).symm

/-- If the current remainder has a Euclidean decomposition, its leading coefficient is a multiple
of the divisor's. -/
theorem leading_dvd [IsDomain R] {P B Q T : R[X]} {c rf : R} {sd rd : Nat} (hP : P.degree = sd)
    (hPl : P.leadingCoeff = c) (hB : B.degree = rd) (hBl : B.leadingCoeff = rf) (h : rd ≤ sd)
    (hQ : P = Q * B + T) (hT : T.degree < B.degree) : c = rf * Q.leadingCoeff := by
  have hTP : T.degree < (Q * B).degree := by
    by_contra hle
    have hle := not_lt.1 hle
    have h1 : P.degree ≤ T.degree := by
      rw [hQ]; exact le_trans (degree_add_le _ _) (max_le hle le_rfl)
    rw [hP] at h1
    rw [hB] at hT
    have : (sd : WithBot ℕ) < rd := lt_of_le_of_lt h1 hT
    exact absurd (by exact_mod_cast this) (not_lt.2 h)
  rw [← hPl, hQ, leadingCoeff_add_of_degree_lt' hTP, leadingCoeff_mul, hBl, mul_comm]

variable [RDiv R]

/-- Main loop of `div_mod`: given a Euclidean decomposition of the current remainder and exact
division of multiples of the leading coefficient, it terminates with the decomposition. -/
theorem divModLoop_ok [IsDomain R] {b : List R} {rf : R} {rd offset : Nat}
    (hb : firstTerm b = .term rf rd) (hdiv : ∀ x, rdiv (rf * x) rf = .ok x) :
    ∀ (fuel : Nat) (c : R) (sd : Nat) (rem div : List R) (Q T : R[X]),
    firstTerm rem = .term c sd → sd ≤ offset → sd + 2 ≤ fuel + rd →
    (rd ≤ sd → div.length = offset - rd + 1) →
    (∀ j, offset - sd ≤ j → div.getD j 0 = 0) →
    descPoly rem = Q * descPoly b + T → T.degree < (descPoly b).degree →
    1 ≤ fuel →
    ∃ div' rem', Poly.divModLoop b rf rd offset fuel c sd rem div = .ok (div', rem') ∧
      descPoly div' = descPoly div + Q ∧ descPoly rem' = T := by
  obtain ⟨hrf, hbd, hbl⟩ := firstTerm_poly hb
  intro fuel
  induction fuel with
  | zero => intros; omega
  | succ fuel ih =>
    intro c sd rem div Q T hr hoff hfuel hlen hz hQ hT _
    obtain ⟨hc, hrd, hrl⟩ := firstTerm_poly hr
    unfold Poly.divModLoop
    by_cases hle : rd ≤ sd
    · rw [if_pos hle]
      have hlead := leading_dvd hrd hrl hbd hbl hle hQ hT
      obtain ⟨rem', hv, hvl, hvp⟩ := vecSubWScale_poly Q.leadingCoeff hr hb hle
      have hu : usub offset sd = .ok (offset - sd) := by simp [usub, hoff]
      have hi : offset - sd < div.length := by rw [hlen hle]; omega
      rw [show rdiv c rf = .ok Q.leadingCoeff by rw [hlead, hdiv]]
      simp only [Res.ok_bind, hv, hu, hi, if_true]
      have hdp : descPoly (div.set (offset - sd) Q.leadingCoeff)
          = descPoly div + C Q.leadingCoeff * X ^ (sd - rd) := by
        rw [descPoly_set _ _ _ hi (hz _ le_rfl)]
        congr 3
        rw [hlen hle]; omega
      have hQ' : descPoly rem' = (Q - C Q.leadingCoeff * X ^ (sd - rd)) * descPoly b + T := by
        rw [hvp, hQ]; ring
      have hdeg := degree_step hrd hrl hbd hbl hle hlead
      rw [← hvp] at hdeg
      cases hf : firstTerm rem' with
      | zeroTerm =>
        refine ⟨_, _, rfl, ?_, ?_⟩
        all_goals
          have h0 := firstTerm_zero_poly.1 hf
          have hu := divmod_unique hQ' hT (Q' := 0) (T' := 0) (by rw [h0]; simp)
            (by rw [hbd]; exact WithBot.bot_lt_coe _)
        · rw [hdp, ← sub_eq_zero.1 hu.1]
        · rw [h0, hu.2]
      | term c' sd' =>
        obtain ⟨hc', hrd', _⟩ := firstTerm_poly hf
        rw [hrd'] at hdeg
        have hlt : sd' < sd := by exact_mod_cast hdeg
        simp only
        by_cases hfu : 1 ≤ fuel
        · obtain ⟨div', rem'', h1, h2, h3⟩ := ih c' sd' rem' (div.set (offset - sd) Q.leadingCoeff)
            (Q - C Q.leadingCoeff * X ^ (sd - rd)) T hf (by omega) (by omega)
            (fun _ => by rw [List.length_set]; exact hlen hle)
            (fun j hj => by
              have hne : offset - sd ≠ j := by omega
              have := hz j (by omega)
              rw [List.getD_eq_getElem?_getD] at this ⊢
              rw [List.getElem?_set_ne hne, this]) hQ' hT hfu
          refine ⟨div', rem'', h1, ?_, h3⟩
          rw [h2, hdp]; ring
        · exfalso; omega
    · rw [if_neg hle]
      refine ⟨_, _, rfl, ?_, ?_⟩
      all_goals
        have hlt : (descPoly rem).degree < (descPoly b).degree := by
          rw [hrd, hbd]; exact_mod_cast Nat.lt_of_not_le hle
        have hu := divmod_unique hQ hT (Q' := 0) (T' := descPoly rem) (by simp) hlt
      · rw [hu.1, add_zero]
      · exact hu.2.symm

theorem divMod_ok [IsDomain R] (p b : Poly R) {Q T : R[X]}
    (hdiv : ∀ rf rd, firstTerm b.terms = .term rf rd → ∀ x, rdiv (rf * x) rf = .ok x)
    (hb : descPoly b.terms ≠ 0) (hQ : descPoly p.terms = Q * descPoly b.terms + T)
    (hT : T.degree < (descPoly b.terms).degree) (fuel : Nat) (hf : p.terms.length + 1 ≤ fuel) :
    ∃ q r, p.divMod fuel b = .ok (q, r) ∧ descPoly q.terms = Q ∧ descPoly r.terms = T := by
  unfold Poly.divMod
  cases hbf : firstTerm b.terms with
  | zeroTerm => exact absurd (firstTerm_zero_poly.1 hbf) hb
  | term rf rd =>
    obtain ⟨_, hbd, _⟩ := firstTerm_poly hbf
    have hsmall : (descPoly p.terms).degree < (descPoly b.terms).degree →
        descPoly (Poly.zero : Poly R).terms = Q ∧ descPoly p.terms = T := by
      intro hlt
      have hu := divmod_unique hQ hT (Q' := 0) (T' := descPoly p.terms) (by simp) hlt
      exact ⟨hu.1.symm, hu.2.symm⟩
    cases hpf : firstTerm p.terms with
    | zeroTerm =>
      have h0 := firstTerm_zero_poly.1 hpf
      have := hsmall (by rw [h0, hbd]; exact WithBot.bot_lt_coe _)
      exact ⟨_, _, rfl, this.1, this.2⟩
    | term c d =>
      obtain ⟨_, hpd, _⟩ := firstTerm_poly hpf
      obtain ⟨_, _, _, hdl, _, _⟩ := firstTerm_term hpf
      simp only
      by_cases hlt : d < rd
      · rw [if_pos hlt]
        have := hsmall (by rw [hpd, hbd]; exact_mod_cast hlt)
        exact ⟨_, _, rfl, this.1, this.2⟩
      · rw [if_neg hlt]
        obtain ⟨div', rem', h1, h2, h3⟩ := divModLoop_ok hbf (hdiv rf rd hbf) fuel c d p.terms
          (List.replicate (d - rd + 1) 0) Q T hpf le_rfl (by omega) (fun _ => by simp)
          (fun j _ => by
            rw [List.getD_eq_getElem?_getD, List.getElem?_replicate]; split <;> rfl) hQ hT (by omega)
        rw [h1]
        refine ⟨_, _, rfl, ?_, ?_⟩
        · rw [C01_new_same_polynomial, h2, descPoly_replicate_zero, zero_add]
        · rw [C01_new_same_polynomial, h3]

/-- Main loop of `%=`. -/
theorem remAssignLoop_ok [IsDomain R] {b : List R} {rf : R} {rd : Nat}
    (hb : firstTerm b = .term rf rd) (hdiv : ∀ x, rdiv (rf * x) rf = .ok x)
    (hok : ∀ x : R, ∃ y, rdiv x rf = .ok y) (T : R[X])
    (hT : T.degree < (descPoly b).degree) :
    ∀ (fuel : Nat) (s c : R) (sd : Nat) (terms : List R) (Q : R[X]),
    firstTerm terms = .term c sd → (rd ≤ sd → c = rf * s) → sd + 2 ≤ fuel + rd → 1 ≤ fuel →
    descPoly terms = Q * descPoly b + T →
    ∃ out, Poly.remAssignLoop b rf rd fuel s sd terms = .ok out ∧ descPoly out = T := by
  obtain ⟨hrf, hbd, hbl⟩ := firstTerm_poly hb
  intro fuel
  induction fuel with
  | zero => intros; omega
  | succ fuel ih =>
    intro s c sd terms Q hr hs hfuel _ hQ
    obtain ⟨hc, hrd, hrl⟩ := firstTerm_poly hr
    unfold Poly.remAssignLoop
    by_cases hle : rd ≤ sd
    · rw [if_pos hle]
      obtain ⟨rem', hv, hvl, hvp⟩ := vecSubWScale_poly s hr hb hle
      simp only [Res.ok_bind, hv]
      have hQ' : descPoly rem' = (Q - C s * X ^ (sd - rd)) * descPoly b + T := by
        rw [hvp, hQ]; ring
      have hdeg := degree_step hrd hrl hbd hbl hle (hs hle)
      rw [← hvp] at hdeg
      cases hf : firstTerm rem' with
      | zeroTerm =>
        refine ⟨_, rfl, ?_⟩
        have h0 := firstTerm_zero_poly.1 hf
        have hu := divmod_unique hQ' hT (Q' := 0) (T' := 0) (by rw [h0]; simp)
          (by rw [hbd]; exact WithBot.bot_lt_coe _)
        rw [h0, hu.2]
      | term c' sd' =>
        obtain ⟨hc', hrd', hrl'⟩ := firstTerm_poly hf
        rw [hrd'] at hdeg
        have hlt : sd' < sd := by exact_mod_cast hdeg
        simp only
        by_cases hle' : rd ≤ sd'
        · have hlead := leading_dvd hrd' hrl' hbd hbl hle' hQ' hT
          rw [show rdiv c' rf = .ok _ by rw [hlead, hdiv]]
          exact ih _ c' sd' rem' _ hf (fun _ => hlead) (by omega) (by omega) hQ'
        · obtain ⟨y, hy⟩ := hok c'
          rw [hy]
          exact ih _ c' sd' rem' _ hf (fun h => absurd h hle') (by omega) (by omega) hQ'
    · rw [if_neg hle]
      refine ⟨_, rfl, ?_⟩
      have hlt : (descPoly terms).degree < (descPoly b).degree := by
        rw [hrd, hbd]; exact_mod_cast Nat.lt_of_not_le hle
      exact (divmod_unique hQ hT (Q' := 0) (T' := descPoly terms) (by simp) hlt).2.symm

end
end Rustnomial
