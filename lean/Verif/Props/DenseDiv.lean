import Verif.Lemmas.DenseDiv

/-!
# Dense polynomials: division (C20 – C24)
-/

open Polynomial

set_option linter.unusedSectionVars false

namespace Rustnomial

/-! ## C20 – `div_mod` and `floor_div` over a field -/

section
variable {K : Type} [Field K] [NumZero K] [LawfulNumZero K] [RDiv K] [LawfulRDiv K]

theorem field_rdiv_mul (b : Poly K) (rf : K) (rd : Nat) (h : firstTerm b.terms = .term rf rd) (x : K) :
    rdiv (rf * x) rf = .ok x := by
  have h0 := (firstTerm_poly h).1
  rw [LawfulRDiv.rdiv_eq _ _ h0, mul_div_cancel_left₀ _ h0]

/-- C20: over a field, for a non-zero divisor, `div_mod` returns (within `len(self) + 1` loop
iterations, whatever the divisor) and its results are the Euclidean quotient and remainder. -/
theorem C20_dense_div_mod (p b : Poly K) (hb : descPoly b.terms ≠ 0) (fuel : Nat)
    (hf : p.terms.length + 1 ≤ fuel) :
    ∃ q r, p.divMod fuel b = .ok (q, r) ∧
      descPoly p.terms = descPoly q.terms * descPoly b.terms + descPoly r.terms ∧
      (descPoly r.terms).degree < (descPoly b.terms).degree ∧
      descPoly q.terms = descPoly p.terms / descPoly b.terms ∧
      descPoly r.terms = descPoly p.terms % descPoly b.terms := by
  have hQ : descPoly p.terms = (descPoly p.terms / descPoly b.terms) * descPoly b.terms
      + descPoly p.terms % descPoly b.terms := (EuclideanDomain.div_add_mod' _ _).symm
  have hT : (descPoly p.terms % descPoly b.terms).degree < (descPoly b.terms).degree :=
    EuclideanDomain.mod_lt _ hb
  obtain ⟨q, r, h1, h2, h3⟩ := divMod_ok p b (field_rdiv_mul b) hb hQ hT fuel hf
  exact ⟨q, r, h1, by rw [h2, h3]; exact hQ, by rw [h3]; exact hT, h2, h3⟩

/-- C20: the pair returned is the only one possible. -/
theorem C20_dense_div_mod_unique (p b : Poly K) (hb : descPoly b.terms ≠ 0) (Q T : K[X])
    (hQ : descPoly p.terms = Q * descPoly b.terms + T) (hT : T.degree < (descPoly b.terms).degree)
    (fuel : Nat) (hf : p.terms.length + 1 ≤ fuel) :
    ∃ q r, p.divMod fuel b = .ok (q, r) ∧ descPoly q.terms = Q ∧ descPoly r.terms = T :=
  divMod_ok p b (field_rdiv_mul b) hb hQ hT fuel hf

/-- C20: `floor_div` is the Euclidean quotient. -/
theorem C20_dense_floor_div (p b : Poly K) (hb : descPoly b.terms ≠ 0) (fuel : Nat)
    (hf : p.terms.length + 1 ≤ fuel) :
    ∃ q, p.floorDiv fuel b = .ok q ∧ descPoly q.terms = descPoly p.terms / descPoly b.terms := by
  obtain ⟨q, r, h1, _, _, h4, _⟩ := C20_dense_div_mod p b hb fuel hf
  exact ⟨q, by simp [Poly.floorDiv, h1], h4⟩

end

example : (⟨[1, 0, 0, 1]⟩ : Poly ℚ).divMod 5 ⟨[0, 2, 1]⟩ = .ok (⟨[1 / 2, -1 / 4, 1 / 8]⟩, ⟨[7 / 8]⟩) := by
  decide +kernel

/-! ## The loop of `%=` follows the loop of `div_mod` -/

section
variable {R : Type} [CommRing R] [NumZero R] [LawfulNumZero R] [RDiv R]

theorem zipMut_scale_zero (xs ys : List R) : zipMut (fun l r => l - r * 0) xs ys = xs := by
  induction xs generalizing ys with
  | nil => simp
  | cons x xs ih =>
    cases ys with
    | nil => rfl
    | cons y ys => rw [zipMut_cons, ih]; simp

theorem degree_step_le {P B : R[X]} {s : R} {sd rd : Nat} (hP : P.degree = sd)
    (hB : B.degree = rd) (h : rd ≤ sd) : (P - C s * X ^ (sd - rd) * B).degree ≤ (sd : WithBot ℕ) := by
  refine le_trans (degree_sub_le _ _) (max_le hP.le ?_)
  refine le_trans (degree_mul_le _ _) ?_
  rw [hB]
  refine le_trans (add_le_add (degree_C_mul_X_pow_le _ _) le_rfl) ?_
  rw [← Nat.cast_add, Nat.sub_add_cancel h]

theorem firstTerm_step {rem b rem' : List R} {c rf s : R} {sd rd : Nat}
    (hr : firstTerm rem = .term c sd) (hb : firstTerm b = .term rf rd) (h : rd ≤ sd)
    (hp : descPoly rem' = descPoly rem - C s * X ^ (sd - rd) * descPoly b) {c' : R} {sd' : Nat}
    (hf : firstTerm rem' = .term c' sd') : sd' ≤ sd := by
  have := degree_step_le (s := s) (firstTerm_poly hr).2.1 (firstTerm_poly hb).2.1 h
  rw [← hp, (firstTerm_poly hf).2.1] at this
  exact_mod_cast this

theorem remAssignLoop_eq {b : List R} {rf : R} {rd offset : Nat} (hb : firstTerm b = .term rf rd)
    (hok : ∀ x : R, ∃ y, rdiv x rf = .ok y) :
    ∀ (fuel : Nat) (c s : R) (sd : Nat) (rem div : List R),
    firstTerm rem = .term c sd → rdiv c rf = .ok s → sd ≤ offset →
    div.length = offset - rd + 1 →
    Poly.remAssignLoop b rf rd fuel s sd rem
      = Prod.snd <$> Poly.divModLoop b rf rd offset fuel c sd rem div := by
  intro fuel
  induction fuel with
  | zero => intros; rfl
  | succ fuel ih =>
    intro c s sd rem div hr hs hoff hlen
    unfold Poly.remAssignLoop Poly.divModLoop
    by_cases hle : rd ≤ sd
    · obtain ⟨rem', hv, hvl, hvp⟩ := vecSubWScale_poly s hr hb hle
      have hu : usub offset sd = .ok (offset - sd) := by simp [usub, hoff]
      have hi : offset - sd < div.length := by rw [hlen]; omega
      simp only [if_pos hle, hs, hv, hu, Res.ok_bind, if_pos hi]
      cases hf : firstTerm rem' with
      | zeroTerm => rfl
      | term c' sd' =>
        obtain ⟨s', hs'⟩ := hok c'
        have hsd := firstTerm_step hr hb hle hvp hf
        simp only [hs', Res.ok_bind]
        exact ih c' s' sd' rem' _ hf hs' (by omega) (by simpa using hlen)
    · simp [if_neg hle]

/-- C23 (relation): for the same divisor and the same number of iterations, `%=` ends the way
`div_mod` does, and when they return, the value left in `self` by `%=` is the remainder of
`div_mod` (equal as polynomials; `div_mod` also trims it).  `rdiv` is only assumed not to panic for
a non-zero divisor. -/
theorem C23_dense_rem_assign_agrees (hok : ∀ x y : R, y ≠ 0 → ∃ z, rdiv x y = .ok z) (p b : Poly R)
    (fuel : Nat) :
    (p.divMod fuel b = .panic ∧ p.remAssign fuel b = .panic) ∨
    (p.divMod fuel b = .fuel ∧ p.remAssign fuel b = .fuel) ∨
    ∃ q r r', p.divMod fuel b = .ok (q, r) ∧ p.remAssign fuel b = .ok r' ∧
      descPoly r'.terms = descPoly r.terms := by
  unfold Poly.divMod Poly.remAssign
  cases hbf : firstTerm b.terms with
  | zeroTerm => simp
  | term rf rd =>
    have hrf := (firstTerm_poly hbf).1
    cases hpf : firstTerm p.terms with
    | zeroTerm => exact .inr (.inr ⟨_, _, _, rfl, rfl, rfl⟩)
    | term c d =>
      simp only
      by_cases hlt : d < rd
      · rw [if_pos hlt, if_pos hlt]; exact .inr (.inr ⟨_, _, _, rfl, rfl, rfl⟩)
      · rw [if_neg hlt, if_neg hlt]
        obtain ⟨s, hs⟩ := hok c rf hrf
        rw [hs, Res.ok_bind, remAssignLoop_eq (offset := d) hbf (fun x => hok x rf hrf) fuel c s d p.terms
          (List.replicate (d - rd + 1) 0) hpf hs le_rfl (by simp)]
        cases Poly.divModLoop b.terms rf rd d fuel c d p.terms (List.replicate (d - rd + 1) 0) with
        | panic => simp
        | fuel => simp
        | ok x =>
          refine .inr (.inr ⟨_, _, _, rfl, rfl, ?_⟩)
          exact (C01_new_same_polynomial _).symm

end

section
variable {K : Type} [Field K] [NumZero K] [LawfulNumZero K] [RDiv K] [LawfulRDiv K]

/-- C23: over a field, `%=` leaves the Euclidean remainder in `self`. -/
theorem C23_dense_rem_assign (p b : Poly K) (hb : descPoly b.terms ≠ 0) (fuel : Nat)
    (hf : p.terms.length + 1 ≤ fuel) :
    ∃ r, p.remAssign fuel b = .ok r ∧ descPoly r.terms = descPoly p.terms % descPoly b.terms := by
  obtain ⟨q, r, h1, _, _, _, h5⟩ := C20_dense_div_mod p b hb fuel hf
  rcases C23_dense_rem_assign_agrees (fun x y h => ⟨_, LawfulRDiv.rdiv_eq x y h⟩) p b fuel with
    ⟨h, _⟩ | ⟨h, _⟩ | ⟨q', r', r'', h, h', h''⟩
  · rw [h1] at h; cases h
  · rw [h1] at h; cases h
  · rw [h1] at h
    injection h with h; injection h with _ h; subst h
    exact ⟨r'', h', by rw [h'', h5]⟩

end

example : (⟨[1, 0, 0, 1]⟩ : Poly ℚ).remAssign 5 ⟨[0, 2, 1]⟩ = .ok ⟨[0, 0, 0, 7 / 8]⟩ := by
  decide +kernel

/-! ## C21 – `div_mod` over the integers -/

theorem int_rdiv {x y : ℤ} (h : y ≠ 0) : rdiv x y = .ok (x.tdiv y) := by simp [rdiv, h]

theorem tdiv_tmod_self (c rf : ℤ) : (c.tmod rf).tdiv rf = 0 := by
  by_cases h : rf = 0
  · simp [h]
  · rw [← Int.natAbs_eq_zero, Int.natAbs_tdiv, Int.natAbs_tmod]
    apply Nat.div_eq_of_lt
    exact Nat.mod_lt _ (Int.natAbs_pos.2 h)

/-- A state whose leading coefficient truncates to a zero quotient is never left. -/
theorem divModLoop_stuck {b : List ℤ} {rf : ℤ} {rd offset : Nat} (hb : firstTerm b = .term rf rd)
    {c : ℤ} {sd : Nat} {rem : List ℤ} (hr : firstTerm rem = .term c sd) (hc : c.tdiv rf = 0)
    (hle : rd ≤ sd) (hoff : sd ≤ offset) :
    ∀ (fuel : Nat) (div : List ℤ), div.length = offset - rd + 1 →
      Poly.divModLoop b rf rd offset fuel c sd rem div = .fuel := by
  intro fuel
  induction fuel with
  | zero => intros; rfl
  | succ fuel ih =>
    intro div hlen
    have hrf := (firstTerm_poly hb).1
    have hu : usub offset sd = .ok (offset - sd) := by simp [usub, hoff]
    have hi : offset - sd < div.length := by rw [hlen]; omega
    have hv : vecSubWScale rem sd b rd 0 = .ok rem := by
      obtain ⟨_, _, _, h3, _⟩ := firstTerm_term hr
      obtain ⟨_, _, _, h4, _⟩ := firstTerm_term hb
      rw [vecSubWScale_ok 0 h3 h4, zipMut_scale_zero, List.take_append_drop]
    unfold Poly.divModLoop
    simp only [if_pos hle, int_rdiv hrf, hc, Res.ok_bind, hv, hu, if_pos hi, hr]
    exact ih _ (by simpa using hlen)

theorem divModLoop_int {b : List ℤ} {rf : ℤ} {rd offset : Nat} (hb : firstTerm b = .term rf rd) :
    ∀ (fuel : Nat) (c : ℤ) (sd : Nat) (rem div : List ℤ),
    firstTerm rem = .term c sd → sd ≤ offset → div.length = offset - rd + 1 →
    (∀ j, offset - sd ≤ j → div.getD j 0 = 0) →
    Poly.divModLoop b rf rd offset fuel c sd rem div = .fuel ∨
    ∃ div' rem', Poly.divModLoop b rf rd offset fuel c sd rem div = .ok (div', rem') ∧
      descPoly rem = (descPoly div' - descPoly div) * descPoly b + descPoly rem' ∧
      (descPoly rem').degree < (descPoly b).degree := by
  obtain ⟨hrf, hbd, hbl⟩ := firstTerm_poly hb
  intro fuel
  induction fuel with
  | zero => intros; exact .inl rfl
  | succ fuel ih =>
    intro c sd rem div hr hoff hlen hz
    obtain ⟨hc, hrd, hrl⟩ := firstTerm_poly hr
    unfold Poly.divModLoop
    by_cases hle : rd ≤ sd
    · obtain ⟨rem', hv, hvl, hvp⟩ := vecSubWScale_poly (c.tdiv rf) hr hb hle
      have hu : usub offset sd = .ok (offset - sd) := by simp [usub, hoff]
      have hi : offset - sd < div.length := by rw [hlen]; omega
      simp only [if_pos hle, int_rdiv hrf, Res.ok_bind, hv, hu, if_pos hi]
      have hdp : descPoly (div.set (offset - sd) (c.tdiv rf))
          = descPoly div + C (c.tdiv rf) * X ^ (sd - rd) := by
        rw [descPoly_set _ _ _ hi (hz _ le_rfl)]
        congr 3
        rw [hlen]; omega
      cases hf : firstTerm rem' with
      | zeroTerm =>
        refine .inr ⟨_, _, rfl, ?_, ?_⟩
        · rw [hdp, hvp]; ring
        · rw [firstTerm_zero_poly.1 hf, hbd]; exact WithBot.bot_lt_coe _
      | term c' sd' =>
        have hsd := firstTerm_step hr hb hle hvp hf
        simp only
        by_cases heq : sd' = sd
        · left
          subst heq
          refine divModLoop_stuck hb hf ?_ hle hoff fuel _ (by simpa using hlen)
          have h1 : (descPoly rem').coeff sd' = c' := by
            rw [← (firstTerm_poly hf).2.2, leadingCoeff, natDegree_eq_of_degree_eq_some (firstTerm_poly hf).2.1]
          have h2 : (descPoly rem).coeff sd' = c := by
            rw [← hrl, leadingCoeff, natDegree_eq_of_degree_eq_some hrd]
          have h3 : (descPoly b).coeff rd = rf := by
            rw [← hbl, leadingCoeff, natDegree_eq_of_degree_eq_some hbd]
          have h4 : c' = c.tmod rf := by
            rw [← h1, hvp, coeff_sub, h2, mul_assoc, coeff_C_mul, coeff_X_pow_mul',
              if_pos (Nat.sub_le _ _), Nat.sub_sub_self hle, h3]
            have := Int.mul_tdiv_add_tmod c rf
            linarith
          rw [h4]
          exact tdiv_tmod_self c rf
        · rcases ih c' sd' rem' (div.set (offset - sd) (c.tdiv rf)) hf (by omega) (by simpa using hlen)
            (fun j hj => by
              have hne : offset - sd ≠ j := by omega
              have := hz j (by omega)
              rw [List.getD_eq_getElem?_getD] at this ⊢
              rw [List.getElem?_set_ne hne, this]) with h | ⟨div', rem'', h1, h2, h3⟩
          · exact .inl h
          · refine .inr ⟨div', rem'', h1, ?_, h3⟩
            rw [hdp, hvp] at h2
            linear_combination h2
    · rw [if_neg hle]
      refine .inr ⟨_, _, rfl, by ring, ?_⟩
      rw [hrd, hbd]; exact_mod_cast Nat.lt_of_not_le hle

/-- C21 (exact characterisation over the integers): for a non-zero divisor `div_mod` either returns
a quotient and a remainder of lower degree, or never returns; it does not panic. -/
theorem C21_dense_div_mod_int_outcome (p b : Poly ℤ) (hb : descPoly b.terms ≠ 0) (fuel : Nat) :
    p.divMod fuel b = .fuel ∨
    ∃ q r, p.divMod fuel b = .ok (q, r) ∧
      descPoly p.terms = descPoly q.terms * descPoly b.terms + descPoly r.terms ∧
      (descPoly r.terms).degree < (descPoly b.terms).degree := by
  unfold Poly.divMod
  cases hbf : firstTerm b.terms with
  | zeroTerm => exact absurd (firstTerm_zero_poly.1 hbf) hb
  | term rf rd =>
    obtain ⟨_, hbd, _⟩ := firstTerm_poly hbf
    cases hpf : firstTerm p.terms with
    | zeroTerm =>
      refine .inr ⟨_, _, rfl, by simp [Poly.zero], ?_⟩
      rw [firstTerm_zero_poly.1 hpf, hbd]; exact WithBot.bot_lt_coe _
    | term c d =>
      simp only
      by_cases hlt : d < rd
      · rw [if_pos hlt]
        refine .inr ⟨_, _, rfl, by simp [Poly.zero], ?_⟩
        rw [(firstTerm_poly hpf).2.1, hbd]; exact_mod_cast hlt
      · rw [if_neg hlt]
        rcases divModLoop_int hbf fuel c d p.terms (List.replicate (d - rd + 1) 0) hpf le_rfl (by simp)
          (fun j _ => by
            rw [List.getD_eq_getElem?_getD, List.getElem?_replicate]; split <;> rfl)
          with h | ⟨div', rem', h1, h2, h3⟩
        · left; rw [h]; rfl
        · refine .inr ⟨_, _, by rw [h1]; rfl, ?_, ?_⟩
          · rw [C01_new_same_polynomial, C01_new_same_polynomial, h2, descPoly_replicate_zero, sub_zero]
          · rw [C01_new_same_polynomial]; exact h3

/-- C21 (what is true): over the integers `div_mod` returns exactly when a quotient and a
remainder of lower degree exist in ℤ[x]; then it needs at most `len(self) + 1` iterations. -/
theorem C21_dense_div_mod_int_partial (p b : Poly ℤ) (hb : descPoly b.terms ≠ 0) :
    ((∃ Q T : ℤ[X], descPoly p.terms = Q * descPoly b.terms + T ∧ T.degree < (descPoly b.terms).degree) →
      ∀ fuel, p.terms.length + 1 ≤ fuel → ∃ q r, p.divMod fuel b = .ok (q, r)) ∧
    ((¬ ∃ Q T : ℤ[X], descPoly p.terms = Q * descPoly b.terms + T ∧ T.degree < (descPoly b.terms).degree) →
      ∀ fuel, p.divMod fuel b = .fuel) := by
  constructor
  · rintro ⟨Q, T, hQ, hT⟩ fuel hf
    obtain ⟨q, r, h, _⟩ := divMod_ok p b (fun rf rd h x => by
      have := (firstTerm_poly h).1
      rw [int_rdiv this, Int.mul_tdiv_cancel_left _ this]) hb hQ hT fuel hf
    exact ⟨q, r, h⟩
  · intro hn fuel
    rcases C21_dense_div_mod_int_outcome p b hb fuel with h | ⟨q, r, _, h2, h3⟩
    · exact h
    · exact absurd ⟨_, _, h2, h3⟩ hn

/-- C21 in particular: if the leading coefficient of the dividend is not a multiple of that of the
divisor and the degree is not smaller, `div_mod` never returns. -/
theorem C21_dense_div_mod_int_diverges (p b : Poly ℤ) (hb : descPoly b.terms ≠ 0)
    (hdeg : (descPoly b.terms).degree ≤ (descPoly p.terms).degree)
    (hlead : ¬ (descPoly b.terms).leadingCoeff ∣ (descPoly p.terms).leadingCoeff) (fuel : Nat) :
    p.divMod fuel b = .fuel ∧ p.remAssign fuel b = .fuel := by
  have h : p.divMod fuel b = .fuel := by
    refine (C21_dense_div_mod_int_partial p b hb).2 ?_ fuel
    rintro ⟨Q, T, hQ, hT⟩
    apply hlead
    have hp : descPoly p.terms ≠ 0 := by
      intro h0
      rw [h0, degree_zero, le_bot_iff, degree_eq_bot] at hdeg
      exact hb hdeg
    have := leading_dvd (degree_eq_natDegree hp) rfl (degree_eq_natDegree hb) rfl
      (natDegree_le_natDegree hdeg) hQ hT
    exact ⟨_, this⟩
  refine ⟨h, ?_⟩
  rcases C23_dense_rem_assign_agrees (fun x y h => ⟨_, int_rdiv h⟩) p b fuel with
    ⟨h', _⟩ | ⟨_, h'⟩ | ⟨_, _, _, h', _⟩
  · rw [h] at h'; cases h'
  · exact h'
  · rw [h] at h'; cases h'

/-- C21 is false as stated: `x` divided by `2` over the integers never returns. -/
theorem C21_dense_div_mod_int_false :
    ∀ fuel, (⟨[1, 0]⟩ : Poly ℤ).divMod fuel ⟨[2]⟩ = .fuel := by
  intro fuel
  have hb : descPoly [(2 : ℤ)] = C 2 := by simp [descPoly_cons]
  have hp : descPoly [(1 : ℤ), 0] = X := by simp [descPoly_cons]
  refine (C21_dense_div_mod_int_diverges ⟨[1, 0]⟩ ⟨[2]⟩ ?_ ?_ ?_ fuel).1
  · simp only [hb]; simp
  · simp only [hb, hp, degree_X]; rw [degree_C (by norm_num)]; norm_num
  · simp only [hb, hp, leadingCoeff_C, leadingCoeff_X]; norm_num

/-- C23 over the integers: `%=` returns the remainder whenever one exists in ℤ[x]. -/
theorem C23_dense_rem_assign_int (p b : Poly ℤ) (hb : descPoly b.terms ≠ 0) (Q T : ℤ[X])
    (hQ : descPoly p.terms = Q * descPoly b.terms + T) (hT : T.degree < (descPoly b.terms).degree)
    (fuel : Nat) (hf : p.terms.length + 1 ≤ fuel) :
    ∃ r, p.remAssign fuel b = .ok r ∧ descPoly r.terms = T := by
  obtain ⟨q, r, h1, _, h3⟩ := divMod_ok p b (fun rf rd h x => by
      have := (firstTerm_poly h).1
      rw [int_rdiv this, Int.mul_tdiv_cancel_left _ this]) hb hQ hT fuel hf
  rcases C23_dense_rem_assign_agrees (fun x y h => ⟨_, int_rdiv h⟩) p b fuel with
    ⟨h', _⟩ | ⟨h', _⟩ | ⟨_, _, r', h', h'', h'''⟩
  · rw [h1] at h'; cases h'
  · rw [h1] at h'; cases h'
  · rw [h1] at h'; injection h' with h'; injection h' with _ h'; subst h'
    exact ⟨r', h'', by rw [h''', h3]⟩

example : (⟨[2, 3, 7]⟩ : Poly ℤ).divMod 9 ⟨[1, 1]⟩ = .ok (⟨[2, 1]⟩, ⟨[6]⟩) := by decide

/-! ## C22 – the `%` operator -/

section
variable {R : Type} [CommRing R] [NumZero R] [LawfulNumZero R] [RDiv R]

/-- C22 (what is true): `%` returns its left operand if its degree is below that of a non-zero
right operand, which is the remainder in that case. -/
theorem C22_dense_rem_partial (p b : Poly R)
    (h : (descPoly p.terms).degree < (descPoly b.terms).degree) (fuel : Nat) :
    p.rem fuel b = .ok p := by
  unfold Poly.rem
  cases hbf : firstTerm b.terms with
  | zeroTerm => rw [firstTerm_zero_poly.1 hbf] at h; simp at h
  | term rf rd =>
    cases hpf : firstTerm p.terms with
    | zeroTerm => rfl
    | term c d =>
      rw [(firstTerm_poly hbf).2.1, (firstTerm_poly hpf).2.1] at h
      simp only
      rw [if_pos (by exact_mod_cast h)]

/-- C22 is false, for every pair of operands for which there is something to do: if the degree of
the left operand is at least that of the (non-zero) right operand, `%` never returns. -/
theorem C22_dense_rem_diverges (hok : ∀ x y : R, y ≠ 0 → ∃ z, rdiv x y = .ok z) (p b : Poly R)
    (hb : descPoly b.terms ≠ 0) (h : (descPoly b.terms).degree ≤ (descPoly p.terms).degree)
    (fuel : Nat) : p.rem fuel b = .fuel := by
  unfold Poly.rem
  cases hbf : firstTerm b.terms with
  | zeroTerm => exact absurd (firstTerm_zero_poly.1 hbf) hb
  | term rf rd =>
    have hbd := (firstTerm_poly hbf).2.1
    cases hpf : firstTerm p.terms with
    | zeroTerm =>
      rw [firstTerm_zero_poly.1 hpf, hbd, degree_zero] at h
      simp at h
    | term c d =>
      rw [hbd, (firstTerm_poly hpf).2.1] at h
      have hle : rd ≤ d := by exact_mod_cast h
      obtain ⟨s, hs⟩ := hok c rf (firstTerm_poly hbf).1
      simp only
      rw [if_neg (not_lt.2 hle), hs, Res.ok_bind]
      suffices ∀ (fuel : Nat) (rem : List R), rem.length = p.terms.length →
          Poly.remLoop p.terms b.terms rf rd fuel s d rem = .fuel by
        rw [this fuel _ rfl]; rfl
      intro fuel
      induction fuel with
      | zero => intros; rfl
      | succ fuel ih =>
        intro rem hlen
        obtain ⟨_, _, _, h3, _⟩ := firstTerm_term hpf
        obtain ⟨_, _, _, h4, _⟩ := firstTerm_term hbf
        unfold Poly.remLoop
        rw [if_pos hle, vecSubWScale_ok s (by omega) h4]
        simp only [Res.ok_bind, hpf, hs]
        exact ih _ (by simp; omega)

end

/-- C22 witness: `x % x` over ℚ never returns. -/
theorem C22_dense_rem_false :
    ∀ fuel, (⟨[1, 0]⟩ : Poly ℚ).rem fuel ⟨[1, 0]⟩ = .fuel := by
  intro fuel
  refine C22_dense_rem_diverges (fun x y h => ⟨_, LawfulRDiv.rdiv_eq x y h⟩) _ _ ?_ le_rfl fuel
  simp [descPoly_cons]

example : (⟨[1, 0]⟩ : Poly ℚ).rem 3 ⟨[1, 0, 4]⟩ = .ok ⟨[1, 0]⟩ := by decide +kernel

/-! ## C24 – division by the zero polynomial -/

section
variable {R : Type} [CommRing R] [NumZero R] [LawfulNumZero R] [RDiv R]

/-- C24 (dense): every spelling of division by a zero polynomial panics at once, whatever its
stored length. -/
theorem C24_dense_zero_divisor (p b : Poly R) (hb : descPoly b.terms = 0) (fuel : Nat) :
    p.divMod fuel b = .panic ∧ p.floorDiv fuel b = .panic ∧ p.rem fuel b = .panic ∧
    p.remAssign fuel b = .panic := by
  have h := firstTerm_zero_poly.2 hb
  have h1 : p.divMod fuel b = .panic := by simp [Poly.divMod, h]
  refine ⟨h1, ?_, ?_, ?_⟩
  · simp [Poly.floorDiv, h1]
  · simp [Poly.rem, h]
  · simp [Poly.remAssign, h]

theorem divModLoop_ne_panic {b : List R} {rf : R} {rd offset : Nat} (hb : firstTerm b = .term rf rd)
    (hok : ∀ x : R, ∃ y, rdiv x rf = .ok y) :
    ∀ (fuel : Nat) (c : R) (sd : Nat) (rem div : List R),
    firstTerm rem = .term c sd → sd ≤ offset → div.length = offset - rd + 1 →
    Poly.divModLoop b rf rd offset fuel c sd rem div ≠ .panic := by
  intro fuel
  induction fuel with
  | zero => intro c sd rem div _ _ _ h; simp [Poly.divModLoop] at h
  | succ fuel ih =>
    intro c sd rem div hr hoff hlen
    unfold Poly.divModLoop
    by_cases hle : rd ≤ sd
    · obtain ⟨s, hs⟩ := hok c
      obtain ⟨rem', hv, hvl, hvp⟩ := vecSubWScale_poly s hr hb hle
      have hu : usub offset sd = .ok (offset - sd) := by simp [usub, hoff]
      have hi : offset - sd < div.length := by rw [hlen]; omega
      simp only [if_pos hle, hs, hv, hu, Res.ok_bind, if_pos hi]
      cases hf : firstTerm rem' with
      | zeroTerm => simp
      | term c' sd' =>
        have hsd := firstTerm_step hr hb hle hvp hf
        exact ih c' sd' rem' _ hf (by omega) (by simpa using hlen)
    · simp [if_neg hle]

/-- C24 (dense, converse): with a division that does not panic on non-zero divisors, a non-zero
polynomial divisor never makes `div_mod`, `floor_div`, `%` or `%=` panic, however long they run. -/
theorem C24_dense_nonzero_divisor (hok : ∀ x y : R, y ≠ 0 → ∃ z, rdiv x y = .ok z) (p b : Poly R)
    (hb : descPoly b.terms ≠ 0) (fuel : Nat) :
    p.divMod fuel b ≠ .panic ∧ p.floorDiv fuel b ≠ .panic ∧ p.rem fuel b ≠ .panic ∧
    p.remAssign fuel b ≠ .panic := by
  have h1 : p.divMod fuel b ≠ .panic := by
    unfold Poly.divMod
    cases hbf : firstTerm b.terms with
    | zeroTerm => exact absurd (firstTerm_zero_poly.1 hbf) hb
    | term rf rd =>
      cases hpf : firstTerm p.terms with
      | zeroTerm => simp
      | term c d =>
        simp only
        split
        · simp
        · have := divModLoop_ne_panic hbf (fun x => hok x rf (firstTerm_poly hbf).1) fuel c d p.terms
            (List.replicate (d - rd + 1) 0) hpf le_rfl (by simp)
          revert this
          cases Poly.divModLoop b.terms rf rd d fuel c d p.terms (List.replicate (d - rd + 1) 0) <;> simp
  refine ⟨h1, ?_, ?_, ?_⟩
  · unfold Poly.floorDiv
    revert h1
    cases p.divMod fuel b <;> simp
  · by_cases h : (descPoly b.terms).degree ≤ (descPoly p.terms).degree
    · rw [C22_dense_rem_diverges hok p b hb h]; simp
    · rw [C22_dense_rem_partial p b (not_le.1 h)]; simp
  · rcases C23_dense_rem_assign_agrees hok p b fuel with ⟨h, _⟩ | ⟨_, h⟩ | ⟨_, _, _, _, h, _⟩
    · exact absurd h h1
    · rw [h]; simp
    · rw [h]; simp

end

example : ∃ z, rdiv (7 : ℤ) 2 = .ok z := ⟨3, by decide⟩

example : (⟨[1, 2]⟩ : Poly ℤ).divMod 4 ⟨[0, 0]⟩ = .panic ∧ (⟨[]⟩ : Poly ℤ).rem 4 ⟨[]⟩ = .panic := by
  decide

end Rustnomial
