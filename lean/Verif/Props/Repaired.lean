import Verif.Model.Repaired
import Verif.Props.SparseDiv
import Verif.Props.DenseShift
import Verif.Props.DenseMul
import Verif.Props.DenseCalc
import Verif.Props.Roots
import Verif.Props.ArrayPoly
import Verif.Props.Cubic
import Mathlib.Analysis.SpecialFunctions.Trigonometric.Inverse

/-!
# C137: repairs

For functions whose claim is false, a change in one place with which the claim holds as stated, and which alters no result returned now
(except, for the order of roots and the complex factors, the wrong ones; and for the cubic, see `C137_cubic_same`).
-/

open Polynomial

set_option linter.unusedSectionVars false

namespace Rustnomial

/-! ## `%` (C22) -/

section
variable {K : Type} [Field K] [NumZero K] [LawfulNumZero K] [RDiv K] [LawfulRDiv K]

/-- **C137** (C22): the repaired `%` returns the remainder. -/
theorem C137_rem (p b : Poly K) (hb : descPoly b.terms ≠ 0) (fuel : Nat) (hf : p.terms.length + 1 ≤ fuel) :
    ∃ r, p.remRepaired fuel b = .ok r ∧ descPoly r.terms = descPoly p.terms % descPoly b.terms := by
  obtain ⟨r, h1, h2⟩ := C23_dense_rem_assign p b hb fuel hf
  unfold Poly.remAssign at h1
  unfold Poly.remRepaired
  cases hbf : firstTerm b.terms with
  | zeroTerm => rw [hbf] at h1; cases h1
  | term rf rd =>
    rw [hbf] at h1
    cases hpf : firstTerm p.terms with
    | zeroTerm => rw [hpf] at h1; injection h1 with h1; exact ⟨p, rfl, by rw [← h1] at h2; exact h2⟩
    | term c d =>
      rw [hpf] at h1
      simp only at h1 ⊢
      split
      · rename_i hlt
        rw [if_pos hlt] at h1
        injection h1 with h1
        exact ⟨p, rfl, by rw [← h1] at h2; exact h2⟩
      · rename_i hlt
        rw [if_neg hlt] at h1
        obtain ⟨s, h3, h4⟩ := Res.bind_eq_ok.1 h1
        obtain ⟨t, h5, h6⟩ := Res.bind_eq_ok.1 h4
        injection h6 with h6
        rw [h3, Res.ok_bind, h5, Res.ok_bind]
        exact ⟨_, rfl, by rw [C01_new_same_polynomial, ← h2, ← h6]⟩

/-- **C137** (C22): where `%` returns, the repaired one returns the same. -/
theorem C137_rem_same (p b r : Poly K) (fuel : Nat) (h : p.rem fuel b = .ok r) : p.remRepaired fuel b = .ok r := by
  unfold Poly.rem at h
  unfold Poly.remRepaired
  cases hbf : firstTerm b.terms with
  | zeroTerm => rw [hbf] at h; cases h
  | term rf rd =>
    cases hpf : firstTerm p.terms with
    | zeroTerm => rw [hbf, hpf] at h; exact h
    | term c d =>
      by_cases hlt : d < rd
      · rw [hbf, hpf] at h
        simp only [if_pos hlt] at h ⊢
        exact h
      · exfalso
        have hdiv := C22_dense_rem_diverges (fun x y h => ⟨_, LawfulRDiv.rdiv_eq x y h⟩) p b
          (fun h0 => by rw [firstTerm_zero_poly.2 h0] at hbf; cases hbf)
          (by rw [(firstTerm_poly hpf).2.1, (firstTerm_poly hbf).2.1]; exact_mod_cast Nat.le_of_not_lt hlt) fuel
        unfold Poly.rem at hdiv
        rw [h] at hdiv
        cases hdiv

example : (⟨[1, 0, 0, 1]⟩ : Poly ℚ).remRepaired 5 ⟨[0, 2, 1]⟩ = .ok ⟨[7 / 8]⟩ ∧
    (⟨[1, 0, 0, 1]⟩ : Poly ℚ).rem 5 ⟨[0, 2, 1]⟩ = .fuel := by decide +kernel

end

/-! ## `*` and `pow` (C11, C12) -/

section
variable {R : Type} [CommSemiring R] [NumZero R] [LawfulNumZero R]

/-- **C137** (C11): the repaired `*` returns the product of all operands. -/
theorem C137_mul (p q : Poly R) : ∃ r, p.mulRepaired q = .ok r ∧ descPoly r.terms = descPoly p.terms * descPoly q.terms := by
  unfold Poly.mulRepaired sliceMulRepaired
  simp only [sliceFrom, firstNonzeroIndex_le, if_true, Res.ok_bind, drop_firstNonzeroIndex]
  by_cases h0 : q.terms.dropWhile isZero = [] ∧ p.terms.dropWhile isZero = []
  · rw [h0.1, h0.2]
    refine ⟨Poly.new [], rfl, ?_⟩
    rw [(descPoly_eq_zero_iff p.terms).2 h0.2, zero_mul, C01_new_same_polynomial]
    rfl
  · have hl : 1 ≤ (q.terms.dropWhile isZero).length + (p.terms.dropWhile isZero).length := by
      by_contra hl
      exact h0 ⟨List.eq_nil_of_length_eq_zero (by omega), List.eq_nil_of_length_eq_zero (by omega)⟩
    obtain ⟨out, h1, _, h3⟩ := sliceMulLoop_ok (p.terms.dropWhile isZero) (q.terms.dropWhile isZero) 0
      (List.replicate ((q.terms.dropWhile isZero).length + (p.terms.dropWhile isZero).length - 1) 0) (by simp; omega)
    rw [h1]
    exact ⟨_, rfl, by rw [C01_new_same_polynomial, h3]; simp [descPoly_dropWhile, mul_comm]⟩

/-- **C137** (C11): where `*` returns, the repaired one returns the same. -/
theorem C137_mul_same (p q r : Poly R) (h : p.mulRef q = .ok r) : p.mulRepaired q = .ok r := by
  unfold Poly.mulRef sliceMul at h
  unfold Poly.mulRepaired sliceMulRepaired
  simp only [sliceFrom, firstNonzeroIndex_le, if_true, Res.ok_bind, drop_firstNonzeroIndex, usub] at h ⊢
  split at h
  · exact h
  · cases h

/-- **C137** (C12): the repaired `pow` returns the power, for all polynomials and exponents. -/
theorem C137_pow (p : Poly R) (n : Nat) : ∃ r, p.powRepaired n = .ok r ∧ descPoly r.terms = descPoly p.terms ^ n := by
  induction n using Nat.strong_induction_on generalizing p with
  | _ n ih =>
    rw [Poly.powRepaired]
    split
    · rename_i h0; exact ⟨_, rfl, by simp [h0, descPoly_cons]⟩
    · split
      · rename_i h1; exact ⟨_, rfl, by rw [C01_new_same_polynomial, h1, pow_one]⟩
      · split
        · rename_i h2
          obtain ⟨r, h3, h4⟩ := C137_mul p p
          exact ⟨r, h3, by rw [h4, h2, pow_two]⟩
        · split
          · obtain ⟨s, h3, h4⟩ := ih (n / 2) (by omega) p
            obtain ⟨r, h5, h6⟩ := ih 2 (by omega) s
            rw [h3, Res.ok_bind]
            exact ⟨r, h5, by rw [h6, h4, ← pow_mul]; congr 1; omega⟩
          · obtain ⟨s, h3, h4⟩ := ih (n - 1) (by omega) p
            obtain ⟨r, h5, h6⟩ := C137_mul p s
            rw [h3, Res.ok_bind]
            exact ⟨r, h5, by rw [h6, h4, ← pow_succ']; congr 1; omega⟩

/-- **C137** (C12): where `pow` returns, the repaired one returns the same. -/
theorem C137_pow_same (p r : Poly R) (n : Nat) (h : p.pow n = .ok r) : p.powRepaired n = .ok r := by
  induction n using Nat.strong_induction_on generalizing p r with
  | _ n ih =>
    rw [Poly.pow] at h
    rw [Poly.powRepaired]
    split at h
    · rename_i h0; rw [if_pos h0]; exact h
    · rename_i h0
      rw [if_neg h0]
      split at h
      · rename_i h1; rw [if_pos h1]; exact h
      · rename_i h1
        rw [if_neg h1]
        split at h
        · rename_i h2; rw [if_pos h2]; exact C137_mul_same _ _ _ h
        · rename_i h2
          rw [if_neg h2]
          split at h
          · rename_i he
            rw [if_pos he]
            obtain ⟨s, hs1, hs2⟩ := Res.bind_eq_ok.1 h
            rw [ih (n / 2) (by omega) p s hs1, Res.ok_bind]
            exact ih 2 (by omega) s r hs2
          · rename_i he
            rw [if_neg he]
            obtain ⟨s, hs1, hs2⟩ := Res.bind_eq_ok.1 h
            rw [ih (n - 1) (by omega) p s hs1, Res.ok_bind]
            exact C137_mul_same _ _ _ hs2

example : (⟨[0]⟩ : Poly ℤ).mulRepaired ⟨[]⟩ = .ok ⟨[]⟩ ∧ (⟨[]⟩ : Poly ℤ).powRepaired 5 = .ok ⟨[]⟩ ∧
    (⟨[1, 1]⟩ : Poly ℤ).powRepaired 3 = .ok ⟨[1, 3, 3, 1]⟩ := by decide +kernel

/-! ## Shifts (C14) -/

theorem shrPosRepaired_ok (p : Poly R) (k : Nat) :
    ∃ r, p.shrPosRepaired k = .ok r ∧ IsShiftRight (descPoly p.terms) (descPoly r.terms) k := by
  unfold Poly.shrPosRepaired
  by_cases hk : k > p.terms.length
  · refine ⟨⟨[]⟩, by simp [hk], fun d => ?_⟩
    rw [coeff_descPoly_of_le (l := p.terms) (by omega)]; simp
  · by_cases hb : firstNonzeroIndex p.terms ≤ p.terms.length - k
    · obtain ⟨r, h1, h2⟩ := shrPos_ok p k (.inr (by rw [new_terms]; have := firstNonzeroIndex_add p.terms; omega))
      refine ⟨r, ?_, h2⟩
      unfold Poly.shrPos at h1
      simp only [if_neg hk] at h1 ⊢
      rw [Nat.min_eq_left hb]
      exact h1
    · refine ⟨⟨(p.terms.take (p.terms.length - k)).drop (p.terms.length - k)⟩, ?_, fun d => ?_⟩
      · simp only [if_neg hk]
        rw [Nat.min_eq_right (by omega), sliceRange, if_pos ⟨le_rfl, Nat.sub_le _ _⟩, Res.ok_bind]
      · rw [List.drop_of_length_le (by simp), descPoly_nil, coeff_zero, ← descPoly_dropWhile,
          coeff_descPoly_of_le (by have := firstNonzeroIndex_add p.terms; omega)]

/-- **C137** (C14): the repaired shifts multiply and divide by the power of `x`, for every vector and every `i32`. -/
theorem C137_shift (p : Poly R) (k : Int) :
    (∃ r, p.shlRepaired k = .ok r ∧ (0 ≤ k → descPoly r.terms = descPoly p.terms * X ^ k.toNat) ∧
      (k < 0 → IsShiftRight (descPoly p.terms) (descPoly r.terms) (-k).toNat)) ∧
    (∃ r, p.shrRepaired k = .ok r ∧ (0 ≤ k → IsShiftRight (descPoly p.terms) (descPoly r.terms) k.toNat) ∧
      (k < 0 → descPoly r.terms = descPoly p.terms * X ^ (-k).toNat)) := by
  have hl : ∀ j : Nat, ∃ r, p.shlPos j = .ok r ∧ descPoly r.terms = descPoly p.terms * X ^ j := by
    intro j
    refine ⟨⟨p.terms.dropWhile isZero ++ List.replicate j 0⟩, ?_, ?_⟩
    · simp [Poly.shlPos, sliceFrom, firstNonzeroIndex_le, drop_firstNonzeroIndex]
    · rw [descPoly_append_zeros, descPoly_dropWhile]
  obtain ⟨r, h1, h2⟩ := hl k.natAbs
  obtain ⟨s, h3, h4⟩ := shrPosRepaired_ok p k.natAbs
  unfold Poly.shlRepaired Poly.shrRepaired
  by_cases h : k < 0
  · have e : (-k).toNat = k.natAbs := by omega
    rw [if_pos h, if_pos h, e]
    exact ⟨⟨s, h3, fun h' => absurd h (by omega), fun _ => h4⟩, ⟨r, h1, fun h' => absurd h (by omega), fun _ => h2⟩⟩
  · have e : k.toNat = k.natAbs := by omega
    rw [if_neg h, if_neg h, e]
    exact ⟨⟨r, h1, fun _ => h2, fun h' => absurd h' h⟩, ⟨s, h3, fun _ => h4, fun h' => absurd h' h⟩⟩

/-- **C137** (C14): where the shifts return, the repaired ones return the same. -/
theorem C137_shift_same (p r : Poly R) (k : Int) :
    (p.shl k = .ok r → p.shlRepaired k = .ok r) ∧ (p.shr k = .ok r → p.shrRepaired k = .ok r) := by
  have key : ∀ j : Nat, p.shrPos j = .ok r → p.shrPosRepaired j = .ok r := by
    intro j h
    unfold Poly.shrPos sliceRange at h
    unfold Poly.shrPosRepaired sliceRange
    simp only at h ⊢
    by_cases hj : j > p.terms.length
    · rw [if_pos hj] at h ⊢; exact h
    · rw [if_neg hj] at h ⊢
      split at h
      · rename_i hi
        rw [Nat.min_eq_left hi.1, if_pos hi]; exact h
      · cases h
  unfold Poly.shl Poly.shr Poly.shlRepaired Poly.shrRepaired
  by_cases h : k < 0
  · simp only [if_pos h]
    unfold negI32
    have e : (-k).toNat = k.natAbs := by omega
    split
    · exact ⟨(fun h => by cases h), fun h => by cases h⟩
    · rw [Res.ok_bind, Res.ok_bind, e]
      exact ⟨key _, id⟩
  · have e : k.toNat = k.natAbs := by omega
    simp only [if_neg h, e]
    exact ⟨id, key _⟩

example : (⟨[0, 0, 1]⟩ : Poly ℤ).shrRepaired 2 = .ok ⟨[]⟩ ∧ (⟨[0, 0, 1]⟩ : Poly ℤ).shr 2 = .panic ∧
    (⟨[1, 2]⟩ : Poly ℤ).shlRepaired (-2 ^ 31) = .ok ⟨[]⟩ := by decide

end

/-! ## `derivative` (C16) -/

section
variable {R : Type} [CommRing R] [NumZero R] [LawfulNumZero R] [FromUsizeCont R] [LawfulFromUsizeCont R]

theorem derivLoopRepaired_eq : ∀ (l : List R) (d : R), derivLoopRepaired l d = Poly.derivLoop l (d + 1)
  | [], _ => rfl
  | x :: l, d => by
    rw [derivLoopRepaired, Poly.derivLoop, derivLoopRepaired_eq l, add_sub_cancel_right, sub_add_cancel]

/-- **C137** (C16): the repaired `derivative` panics exactly if the degree cannot be represented, and otherwise returns the derivative. -/
theorem C137_derivative (p : Poly R) :
    (p.derivativeRepaired = .panic ↔ ∃ n, p.degree = .num n ∧ (tryFromCont n : Option R) = none) ∧
    (p.derivativeRepaired ≠ .panic →
      ∃ r, p.derivativeRepaired = .ok r ∧ descPoly r.terms = derivative (descPoly p.terms)) := by
  have hdeg : p.degree = match p.terms.dropWhile isZero with | [] => .negInf | _ :: xs => .num xs.length := by
    unfold Poly.degree; rw [denseDegree_eq]
    cases p.terms.dropWhile isZero <;> rfl
  unfold Poly.derivativeRepaired
  rw [drop_firstNonzeroIndex, hdeg]
  cases hl : p.terms.dropWhile isZero with
  | nil =>
    refine ⟨⟨fun h => (by cases h), fun ⟨n, h, _⟩ => (by cases h)⟩, fun _ => ⟨_, rfl, ?_⟩⟩
    rw [(descPoly_eq_zero_iff p.terms).2 hl]
    simp [Poly.zero]
  | cons x xs =>
    simp only
    cases h : (tryFromCont xs.length : Option R) with
    | none => exact ⟨⟨fun _ => ⟨_, rfl, h⟩, fun _ => rfl⟩, fun hne => absurd rfl hne⟩
    | some d =>
      refine ⟨⟨fun h => (by cases h), fun ⟨n, hn, hn'⟩ => ?_⟩, fun _ => ⟨_, rfl, ?_⟩⟩
      · injection hn with hn; rw [← hn, h] at hn'; cases hn'
      · obtain ⟨ini, last, he⟩ : ∃ ini last, x :: xs = ini ++ [last] :=
          ⟨_, _, (List.dropLast_append_getLast (List.cons_ne_nil x xs)).symm⟩
        have hd := LawfulFromUsizeCont.tryFromCont_eq _ _ h
        have hlen : xs.length = ini.length := by
          have := congrArg List.length he
          simpa using this
        have := derivLoop_poly ini last
        rw [← descPoly_dropWhile p.terms, hl, he, List.dropLast_concat, derivLoopRepaired_eq, hd, hlen, ← this]
        push_cast
        rfl

/-- **C137** (C16): where `derivative` returns, the repaired one returns the same, if the degree can be represented whenever the length can. -/
theorem C137_derivative_same (hc : ∀ n, (tryFromCont (n + 1) : Option R) ≠ none → (tryFromCont n : Option R) ≠ none) (p r : Poly R)
    (h : p.derivative = .ok r) : p.derivativeRepaired = .ok r := by
  unfold Poly.derivative at h
  unfold Poly.derivativeRepaired
  have hlen : p.terms.length - firstNonzeroIndex p.terms = (p.terms.drop (firstNonzeroIndex p.terms)).length := by simp
  simp only [hlen] at h
  cases hl : p.terms.drop (firstNonzeroIndex p.terms) with
  | nil =>
    rw [hl] at h
    cases h' : (tryFromCont ([] : List R).length : Option R) with
    | none => rw [h'] at h; cases h
    | some d => rw [h'] at h; exact h
  | cons x xs =>
    rw [hl, List.length_cons] at h
    cases h' : (tryFromCont (xs.length + 1) : Option R) with
    | none => rw [h'] at h; cases h
    | some d =>
      rw [h'] at h
      simp only at h ⊢
      cases h'' : (tryFromCont xs.length : Option R) with
      | none => exact absurd h'' (hc _ (by rw [h']; simp))
      | some e =>
        simp only
        rw [derivLoopRepaired_eq, ← h, LawfulFromUsizeCont.tryFromCont_eq _ _ h', LawfulFromUsizeCont.tryFromCont_eq _ _ h'', Nat.cast_add,
          Nat.cast_one]

end

/-! ## Sparse division (C27) -/

section
variable {K : Type} [Field K] [NumZero K] [LawfulNumZero K] [RDiv K] [LawfulRDiv K]

theorem mapSubWScaleRepaired_poly (l r : BMap K) (s : K) (k : Nat) :
    entriesPoly (mapSubWScaleRepaired l r s k).entries = entriesPoly l.entries - C s * X ^ k * entriesPoly r.entries := by
  unfold mapSubWScaleRepaired
  rw [mapPoly_foldl _ (fun e => - (C s * X ^ k * (C e.2 * X ^ e.1))) _ (fun m e _ => by
    rw [mapPoly_upsert_add m (e.1 + k) (-e.2 * s) _ (fun x => by ring)]
    simp only [C_mul, C_neg, pow_add]; ring), sub_eq_add_neg]
  congr 1
  unfold entriesPoly
  induction r.entries with
  | nil => simp
  | cons e l ih =>
    rw [List.map_cons, List.sum_cons, ih, List.map_cons, List.sum_cons, mul_add, neg_add]

theorem divModLoopRepaired_ok {b : BMap K} {rf : K} {rd : Nat} (hb : sparseFirstTerm b = .term rf rd) :
    ∀ (fuel : Nat) (c : K) (sd : Nat) (rem : BMap K) (div : Sparse K), sparseFirstTerm rem = .term c sd → sd < fuel →
      ∃ q r, Sparse.divModLoopRepaired b rf rd fuel (c / rf) sd rem div = .ok (q, r) ∧
        entriesPoly q.terms.entries * entriesPoly b.entries + entriesPoly r.entries =
          entriesPoly div.terms.entries * entriesPoly b.entries + entriesPoly rem.entries ∧
        (entriesPoly r.entries).degree < (entriesPoly b.entries).degree := by
  obtain ⟨hrf, hbd, hbl⟩ := sparseFirstTerm_term hb
  intro fuel
  induction fuel with
  | zero => intro c sd rem div _ h; omega
  | succ fuel ih =>
    intro c sd rem div hr hsd
    obtain ⟨hc, hrd, hrl⟩ := sparseFirstTerm_term hr
    unfold Sparse.divModLoopRepaired
    by_cases hle : sd ≥ rd
    · simp only [if_pos hle]
      have hp := mapSubWScaleRepaired_poly rem b (c / rf) (sd - rd)
      have hdeg : (entriesPoly (mapSubWScaleRepaired rem b (c / rf) (sd - rd)).entries).degree < (sd : WithBot ℕ) := by
        rw [hp, ← hrd]
        have hB0 : entriesPoly b.entries ≠ 0 := by intro h; rw [h] at hbl; simp at hbl; exact hrf hbl.symm
        have hM : (C (c / rf) * X ^ (sd - rd) * entriesPoly b.entries).degree = (sd : WithBot ℕ) := by
          rw [degree_mul, degree_C_mul_X_pow _ (div_ne_zero hc hrf), hbd, ← Nat.cast_add, Nat.sub_add_cancel hle]
        refine degree_sub_lt_left (by rw [hM, hrd]) (by intro h; rw [h] at hrl; simp at hrl; exact hc hrl.symm) ?_
        rw [leadingCoeff_mul, leadingCoeff_C_mul_X_pow, hrl, hbl, div_mul_cancel₀ _ hrf]
      have hq : entriesPoly (div.addTerm (c / rf) (sd - rd)).terms.entries =
          entriesPoly div.terms.entries + C (c / rf) * X ^ (sd - rd) := C31_sparse_add_term div _ _
      cases hf : sparseFirstTerm (mapSubWScaleRepaired rem b (c / rf) (sd - rd)) with
      | zeroTerm =>
        refine ⟨_, _, rfl, by rw [hq, hp]; ring, ?_⟩
        rw [sparseFirstTerm_zero.1 hf, degree_zero, hbd]
        exact WithBot.bot_lt_coe _
      | term c' sd' =>
        rw [(sparseFirstTerm_term hf).2.1] at hdeg
        have hlt : sd' < sd := by exact_mod_cast hdeg
        simp only [LawfulRDiv.rdiv_eq _ _ hrf, Res.ok_bind]
        obtain ⟨q, r, h1, h2, h3⟩ := ih c' sd' _ (div.addTerm (c / rf) (sd - rd)) hf (by omega)
        exact ⟨q, r, h1, by rw [h2, hq, hp]; ring, h3⟩
    · simp only [if_neg hle]
      exact ⟨_, _, rfl, rfl, by rw [hrd, hbd]; exact_mod_cast (by omega : sd < rd)⟩

/-- **C137** (C27): the repaired `div_mod` of sparse polynomials returns quotient and remainder. -/
theorem C137_sparse_div_mod (p b : Sparse K) (hb : entriesPoly b.terms.entries ≠ 0) (fuel : Nat)
    (hf : (entriesPoly p.terms.entries).natDegree < fuel) :
    ∃ q r, p.divModRepaired fuel b = .ok (q, r) ∧
      entriesPoly q.terms.entries = entriesPoly p.terms.entries / entriesPoly b.terms.entries ∧
      entriesPoly r.terms.entries = entriesPoly p.terms.entries % entriesPoly b.terms.entries := by
  suffices h : ∃ q r, p.divModRepaired fuel b = .ok (q, r) ∧
      entriesPoly q.terms.entries * entriesPoly b.terms.entries + entriesPoly r.terms.entries = entriesPoly p.terms.entries ∧
      (entriesPoly r.terms.entries).degree < (entriesPoly b.terms.entries).degree by
    obtain ⟨q, r, h1, h2, h3⟩ := h
    have hu := divmod_unique (A := entriesPoly p.terms.entries) (B := entriesPoly b.terms.entries) h2.symm h3
      (EuclideanDomain.div_add_mod' _ _).symm (EuclideanDomain.mod_lt _ hb)
    exact ⟨q, r, h1, hu.1, hu.2⟩
  unfold Sparse.divModRepaired
  cases hbf : sparseFirstTerm b.terms with
  | zeroTerm => exact absurd (sparseFirstTerm_zero.1 hbf) hb
  | term rf rd =>
    obtain ⟨hrf, hbd, hbl⟩ := sparseFirstTerm_term hbf
    cases hpf : sparseFirstTerm p.terms with
    | zeroTerm =>
      refine ⟨_, _, rfl, by simp [Sparse.zero, Sparse.new, mapPoly_empty], ?_⟩
      simp only [Sparse.new]
      rw [sparseFirstTerm_zero.1 hpf, degree_zero, hbd]
      exact WithBot.bot_lt_coe _
    | term c d =>
      obtain ⟨hc, hpd, hpl⟩ := sparseFirstTerm_term hpf
      simp only
      split
      · rename_i hlt
        refine ⟨_, _, rfl, by simp [Sparse.zero, Sparse.new, mapPoly_empty], ?_⟩
        simp only [Sparse.new]
        rw [hpd, hbd]; exact_mod_cast hlt
      · rw [LawfulRDiv.rdiv_eq _ _ hrf, Res.ok_bind]
        rw [natDegree_eq_of_degree_eq_some hpd] at hf
        obtain ⟨q, r, h1, h2, h3⟩ := divModLoopRepaired_ok hbf fuel c d p.terms (Sparse.fromVec []) hpf hf
        rw [h1, Res.ok_bind]
        refine ⟨_, _, rfl, ?_, h3⟩
        rw [C28_sparse_from_vec] at h2
        simpa [Sparse.new] using h2

/-- **C137** (C27): where `div_mod` returns, the repaired one returns the same. -/
theorem C137_sparse_div_mod_same (p b q r : Sparse K) (fuel : Nat) (h : p.divMod fuel b = .ok (q, r)) :
    p.divModRepaired fuel b = .ok (q, r) := by
  have h0 : ∀ (l r : BMap K) (c : K), mapSubWScaleRepaired l r c 0 = mapSubWScale l r c := fun _ _ _ => rfl
  have horig := h
  unfold Sparse.divMod at h
  unfold Sparse.divModRepaired
  cases hbf : sparseFirstTerm b.terms with
  | zeroTerm => rw [hbf] at h; cases h
  | term rf rd =>
    obtain ⟨hrf, hbd, hbl⟩ := sparseFirstTerm_term hbf
    rw [hbf] at h
    cases hpf : sparseFirstTerm p.terms with
    | zeroTerm => rw [hpf] at h; exact h
    | term c d =>
      obtain ⟨hc, hpd, hpl⟩ := sparseFirstTerm_term hpf
      rw [hpf] at h
      simp only at h ⊢
      rcases lt_trichotomy d rd with hlt | rfl | hgt
      · rw [if_pos hlt] at h ⊢; exact h
      · rw [if_neg (lt_irrefl _), LawfulRDiv.rdiv_eq _ _ hrf, Res.ok_bind] at h ⊢
        cases fuel with
        | zero => cases h
        | succ fuel =>
          unfold Sparse.divModLoop at h
          unfold Sparse.divModLoopRepaired
          simp only [ge_iff_le, le_refl, if_true, Nat.sub_self, h0] at h ⊢
          cases hf : sparseFirstTerm (mapSubWScale p.terms b.terms (c / rf)) with
          | zeroTerm => rw [hf] at h; exact h
          | term c' d' =>
            have hdeg : d' < d := by
              have hp := mapSubWScale_poly p.terms b.terms (c / rf)
              have : (entriesPoly p.terms.entries - C (c / rf) * entriesPoly b.terms.entries).degree < (entriesPoly p.terms.entries).degree := by
                refine degree_sub_lt_left ?_ (by intro h; rw [h] at hpl; simp at hpl; exact hc hpl.symm) ?_
                · rw [degree_mul, degree_C (div_ne_zero hc hrf), zero_add, hbd, hpd]
                · rw [leadingCoeff_mul, leadingCoeff_C, hpl, hbl, div_mul_cancel₀ _ hrf]
              rw [← hp, (sparseFirstTerm_term hf).2.1, hpd] at this
              exact_mod_cast this
            rw [hf] at h
            simp only [LawfulRDiv.rdiv_eq _ _ hrf, Res.ok_bind] at h ⊢
            cases fuel with
            | zero => cases h
            | succ fuel =>
              unfold Sparse.divModLoop at h
              unfold Sparse.divModLoopRepaired
              rw [if_neg (by omega)] at h ⊢
              exact h
      · have := (C27_sparse_div_mod_diverges (fun x y h => ⟨_, LawfulRDiv.rdiv_eq x y h⟩) p b
          (fun h0 => by rw [sparseFirstTerm_zero.2 h0] at hbf; cases hbf) (by rw [hbd, hpd]; exact_mod_cast hgt) fuel).1
        rw [horig] at this
        cases this

example : ((Sparse.fromVec [1, 0, 0, (1 : ℚ)]).divModRepaired 5 (Sparse.fromVec [2, 1])).bind
    (fun x => .ok (x.1.terms.entries, x.2.terms.entries)) =
    .ok ([(0, 1 / 8), (1, -1 / 4), (2, 1 / 2)], [(0, 7 / 8), (1, 0), (2, 0), (3, 0)]) := by decide +kernel

end

/-! ## Terms of an `ArrayPolynomial` (C52) -/

/-- **C137** (C52): the repaired `ordered_term_iter` gives the terms, whatever the size. -/
theorem C137_array_terms {R : Type} [CommSemiring R] [NumZero R] [LawfulNumZero R] {size : Nat} (p : ArrayPoly R size) :
    ∃ ts, p.orderedTermIterRepaired = .ok ts ∧ IsTermListOf ts (descPoly p.coefficients) := by
  refine ⟨descTerms p.coefficients, ?_, isTermListOf_descTerms _⟩
  have key : ∀ (l : List R) (i : Nat) (acc : List (R × Nat)), i + l.length = size →
      (l.zipIdx i).foldlM (fun acc e =>
        if isZero e.1 then Res.ok acc
        else do
          let d ← usub size (e.2 + 1)
          Res.ok (acc ++ [(e.1, d)])) acc = .ok (acc ++ descTerms l) := by
    intro l
    induction l with
    | nil => intro i acc _; simp [descTerms]
    | cons x l ih =>
      intro i acc h
      rw [List.length_cons] at h
      rw [List.zipIdx_cons, List.foldlM_cons]
      by_cases hx : isZero x = true
      · simp only [hx, if_true, Res.ok_bind]
        rw [ih (i + 1) acc (by omega)]
        simp [descTerms, hx]
      · have e : usub size (i + 1) = .ok l.length := by
          unfold usub; rw [if_pos (by omega)]; congr 1; omega
        simp only [hx, e, Res.ok_bind]
        rw [if_neg (by simp), Res.ok_bind, ih (i + 1) _ (by omega)]
        simp [descTerms, hx]
  unfold ArrayPoly.orderedTermIterRepaired
  simpa using key p.coefficients 0 [] (by simpa using p.length_eq)

example : (⟨[3, 0, 5], rfl⟩ : ArrayPoly ℤ 3).orderedTermIterRepaired = .ok [(3, 2), (5, 0)] ∧
    (⟨[3, 0, 5], rfl⟩ : ArrayPoly ℤ 3).orderedTermIter = .panic := by decide

/-! ## Evaluation (C07) -/

section
variable {R : Type} [CommSemiring R]

theorem upowRepaired_eq (n : Nat) : ∀ acc base : R, upowRepaired acc base n = acc * base ^ n := by
  induction n using Nat.strong_induction_on with
  | _ n ih =>
    intro acc base
    rw [upowRepaired]
    split
    · rename_i h; rw [h, pow_zero, mul_one]
    · rw [ih (n / 2) (by omega), ← pow_two, ← pow_mul]
      split
      · rename_i h
        conv_rhs => rw [show n = 2 * (n / 2) + 1 by omega, pow_succ]
        ring
      · rename_i h
        conv_rhs => rw [show n = 2 * (n / 2) by omega]

/-- **C137** (C07): the repaired `eval` of sparse polynomials evaluates, for all exponents. -/
theorem C137_sparse_eval (p : Sparse R) (x : R) : p.evalRepaired x = (entriesPoly p.terms.entries).eval x := by
  unfold Sparse.evalRepaired
  have key : ∀ (l : List (Nat × R)) s, l.foldl (fun sum e => sum + e.2 * upowRepaired 1 x e.1) s = s + (entriesPoly l).eval x := by
    intro l
    induction l with
    | nil => intro s; simp
    | cons e l ih =>
      intro s
      rw [List.foldl_cons, ih, upowRepaired_eq, one_mul, entriesPoly_cons]
      simp [add_assoc]
  rw [key, zero_add]

/-- **C137** (C07): below the bound up to which `upow` is right, it returns what `eval` returns. -/
theorem C137_sparse_eval_same [PowUsize R] [hl : LawfulPowUsize R] (p : Sparse R) (x : R) (h : ∀ e ∈ p.terms.entries, e.1 < hl.bound) :
    p.evalRepaired x = p.eval x := by
  rw [C137_sparse_eval, C07_sparse_eval_partial p x h]

end

/-! ## Quadratics (C44, C45) -/

/-- **C137** (C44): the repaired roots of a quadratic are those of the code, the larger one first. -/
theorem C137_order (t : QuadraticTrinomial ℝ) (ha : t.c0 ≠ 0) (hd : 0 ≤ t.c1 ^ 2 - 4 * t.c0 * t.c2) :
    ∃ r s, trinomialRootsRepaired t.c0 t.c1 t.c2 = .ok (.twoRealRoots r s) ∧ s ≤ r ∧ t.poly = C t.c0 * (X - C r) * (X - C s) := by
  obtain ⟨r, s, h1, h2, heq⟩ := C43_real_roots t ha hd
  have h1' : trinomialRoots t.c0 t.c1 t.c2 = .ok (.twoRealRoots r s) := h1
  unfold trinomialRootsRepaired
  rw [h1', Res.ok_bind]
  simp only
  rcases lt_or_gt_of_ne ha with hneg | hpos
  · have hp : isPositive t.c0 = false := by simp [isPositive, hneg.le]
    rw [hp]
    refine ⟨s, r, rfl, ?_, by rw [h2]; ring⟩
    rcases hd.lt_or_eq with hd | hd
    · obtain ⟨r', s', h3, h4⟩ := C44_false t hneg hd
      rw [h1] at h3
      injection h3 with h3; injection h3 with h5 h6
      rw [h5, h6]; exact h4.le
    · rw [heq.2 hd.symm]
  · have hp : isPositive t.c0 = true := by simp [isPositive, hpos]
    rw [hp]
    exact ⟨r, s, rfl, C44_order_partial t hpos r s h1, h2⟩

/-- **C137** (C45): the product of the repaired factors is the trinomial. -/
theorem C137_complex_factors (t : QuadraticTrinomial ℝ) (ha : t.c0 ≠ 0) :
    ∃ f g, t.complexFactorsRepaired = .ok (t.c0, f, g) ∧ C (t.c0 : ℂ) * cbinPoly f * cbinPoly g = t.poly.map (algebraMap ℝ ℂ) := by
  by_cases hd : 0 ≤ t.c1 ^ 2 - 4 * t.c0 * t.c2
  · obtain ⟨f, g, h1, h2⟩ := C45_complex_factors_partial t ha hd
    obtain ⟨r, s, h3, _⟩ := C43_real_roots t ha hd
    rw [QuadraticTrinomial.complexFactors, h3, Res.ok_bind] at h1
    refine ⟨f, g, ?_, h2⟩
    rw [QuadraticTrinomial.complexFactorsRepaired, h3, Res.ok_bind]
    exact h1
  · obtain ⟨z, w, h, _, _, hp⟩ := C43_complex_roots t ha (not_le.1 hd)
    refine ⟨.new ⟨1, 0⟩ ⟨-z.re, -z.im⟩, .new ⟨1, 0⟩ ⟨-w.re, -w.im⟩, ?_, ?_⟩
    · rw [QuadraticTrinomial.complexFactorsRepaired, h, Res.ok_bind]
    · have e1 : (⟨1, 0⟩ : Cplx ℝ).toC = 1 := by apply Complex.ext <;> simp [Cplx.toC]
      have e2 : ∀ x : Cplx ℝ, (⟨-x.re, -x.im⟩ : Cplx ℝ).toC = -x.toC := by
        intro x; apply Complex.ext <;> simp [Cplx.toC]
      rw [hp]
      simp only [cbinPoly, LinearBinomial.new, e1, e2, C_1, C_neg]
      ring

example : ∃ f g, (⟨1, 2, 2⟩ : QuadraticTrinomial ℝ).complexFactorsRepaired = .ok (1, f, g) ∧
    C (1 : ℂ) * cbinPoly f * cbinPoly g = (⟨1, 2, 2⟩ : QuadraticTrinomial ℝ).poly.map (algebraMap ℝ ℂ) := by
  obtain ⟨f, g, h⟩ := C137_complex_factors ⟨1, 2, 2⟩ (by norm_num)
  exact ⟨f, g, by simpa using h⟩
example : trinomialRootsRepaired (-1 : ℤ) 0 1 = .ok (.twoRealRoots 1 (-1)) := by decide +kernel

/-! ## `cubic_roots` (C46) -/

/-- `cos(arccos(t)/3)` on the reals. -/
noncomputable def cosThirdReal (t : ℝ) : ℝ := Real.cos (Real.arccos t / 3)

/-- The first root of the repaired cubic. -/
noncomputable def cubXRepaired (a b c d : ℝ) : ℝ :=
  if 0 ≤ cubD a b c d then cubX a b c d
  else 2 * √|-b / (3 * a) * (-b / (3 * a)) - c / (3 * a)| *
    cosThirdReal (cubQ a b c d / (√|-b / (3 * a) * (-b / (3 * a)) - c / (3 * a)| *
      √|-b / (3 * a) * (-b / (3 * a)) - c / (3 * a)| * √|-b / (3 * a) * (-b / (3 * a)) - c / (3 * a)|)) + -b / (3 * a)

theorem cubicRootsRepaired_real (a b c d : ℝ) :
    cubicRootsRepaired cosThirdReal a b c d = (do
      let roots ← trinomialRoots 1 (b / a + cubXRepaired a b c d)
        (c / a + (b / a + cubXRepaired a b c d) * cubXRepaired a b c d)
      match roots with
      | .twoRealRoots r s => .ok (.threeRealRoots (cubXRepaired a b c d) r s)
      | .twoComplexRoots r s => .ok (.threeComplexRoots ⟨cubXRepaired a b c d, 0⟩ r s)
      | _ => .panic) := by
  have h2 : ((2 : ℕ) : ℝ) = 2 := by norm_num
  have h3 : ((3 : ℕ) : ℝ) = 3 := by norm_num
  have h6 : ((6 : ℕ) : ℝ) = 6 := by norm_num
  have hr : ∀ x y : ℝ, rdiv x y = Res.ok (x / y) := fun _ _ => rfl
  have hab : ∀ x : ℝ, absSqrt x = Res.ok √|x| := fun _ => rfl
  have hD : -b / (3 * a) * (-b / (3 * a)) * (-b / (3 * a)) + (b * c - 3 * a * d) / (6 * (a * a)) = cubQ a b c d := rfl
  unfold cubicRootsRepaired
  rw [h2, h3, h6]
  simp only [hr, hab, Res.ok_bind, hD]
  have hD' : cubQ a b c d * cubQ a b c d +
    (c / (3 * a) - -b / (3 * a) * (-b / (3 * a))) * (c / (3 * a) - -b / (3 * a) * (-b / (3 * a))) *
      (c / (3 * a) - -b / (3 * a) * (-b / (3 * a))) = cubD a b c d := rfl
  simp only [hD']
  unfold cubXRepaired
  rcases lt_trichotomy (cubD a b c d) 0 with h | h | h
  · have h0 : ¬ 0 ≤ cubD a b c d := not_le.2 h
    simp only [isPositive, isZero, gt_iff_lt, h.not_gt, h.ne, decide_false, Bool.or_self, Bool.false_eq_true, if_false, if_neg h0, Res.ok_bind]
    congr 1
    funext r
    cases r <;> rfl
  · simp only [isPositive, isZero, h, decide_true, Bool.or_true, if_true, le_refl, Res.ok_bind]
    unfold cubX
    rw [h]
    congr 1
    funext r
    cases r <;> rfl
  · simp only [isPositive, isZero, gt_iff_lt, h, decide_true, Bool.true_or, if_true, h.le, Res.ok_bind]
    congr 1
    funext r
    cases r <;> rfl

theorem cubXRepaired_root (a b c d : ℝ) (ha : a ≠ 0) :
    a * cubXRepaired a b c d ^ 3 + b * cubXRepaired a b c d ^ 2 + c * cubXRepaired a b c d + d = 0 := by
  unfold cubXRepaired
  split
  · rename_i h; exact (cubX_root_iff a b c d ha).2 (.inl h)
  rename_i h
  rw [not_le] at h
  set q := cubQ a b c d with hq
  set m := -b / (3 * a) * (-b / (3 * a)) - c / (3 * a) with hm
  have hDm : cubD a b c d = q ^ 2 - m ^ 3 := by rw [cubD, ← hq, hm]; ring
  rw [hDm] at h
  have hm3 : 0 < m ^ 3 := by nlinarith [sq_nonneg q]
  have hm0 : 0 < m := by
    by_contra hc
    rw [not_lt] at hc
    nlinarith [Odd.pow_nonpos (by decide : Odd 3) hc]
  rw [abs_of_pos hm0]
  set s := √m with hs
  have hs0 : 0 < s := Real.sqrt_pos.2 hm0
  have hs2 : s ^ 2 = m := Real.sq_sqrt hm0.le
  have hS : 0 < s * s * s := by positivity
  have hq2 : q ^ 2 < (s * s * s) ^ 2 := by
    have : (s * s * s) ^ 2 = m ^ 3 := by rw [← hs2]; ring
    rw [this]; linarith
  have hlt := abs_lt_of_sq_lt_sq hq2 hS.le
  rw [abs_lt] at hlt
  set t := q / (s * s * s) with ht
  have ht1 : -1 ≤ t := by rw [ht, le_div_iff₀ hS]; linarith [hlt.1]
  have ht2 : t ≤ 1 := by rw [ht, div_le_iff₀ hS]; linarith [hlt.2]
  have hcos := Real.cos_three_mul (Real.arccos t / 3)
  rw [show 3 * (Real.arccos t / 3) = Real.arccos t by ring, Real.cos_arccos ht1 ht2] at hcos
  have hcos' : t = 4 * cosThirdReal t ^ 3 - 3 * cosThirdReal t := hcos
  set y := 2 * s * cosThirdReal t with hy
  have hqt : q = t * (s * s * s) := by rw [ht]; field_simp
  have hy3 : y ^ 3 - 3 * m * y - 2 * q = 0 := by
    rw [hqt, hy, ← hs2]
    linear_combination (-2 * s ^ 3) * hcos'
  have h1 : a * (y + -b / (3 * a)) ^ 3 + b * (y + -b / (3 * a)) ^ 2 + c * (y + -b / (3 * a)) + d =
      a * (y ^ 3 - 3 * m * y - 2 * q) := by
    rw [hm, hq, cubQ]; field_simp; ring
  rw [h1, hy3, mul_zero]

/-- **C137** (C46): for every cubic the repaired function returns three numbers over which the cubic is
the product: three real ones, or one real and a conjugate pair. -/
theorem C137_cubic (a b c d : ℝ) (ha : a ≠ 0) :
    (∃ x r s, cubicRootsRepaired cosThirdReal a b c d = .ok (.threeRealRoots x r s) ∧
      C a * X ^ 3 + C b * X ^ 2 + C c * X + C d = C a * (X - C x) * (X - C r) * (X - C s)) ∨
    (∃ x z w, cubicRootsRepaired cosThirdReal a b c d = .ok (.threeComplexRoots ⟨x, 0⟩ z w) ∧
      w.toC = (starRingEnd ℂ) z.toC ∧ z.toC ≠ w.toC ∧
      (C a * X ^ 3 + C b * X ^ 2 + C c * X + C d : ℝ[X]).map (algebraMap ℝ ℂ) =
        C (a : ℂ) * (X - C (x : ℂ)) * (X - C z.toC) * (X - C w.toC)) := by
  have hx := cubXRepaired_root a b c d ha
  rw [cubicRootsRepaired_real]
  set x := cubXRepaired a b c d with hxdef
  set B := b / a + x with hB
  set E := c / a + B * x with hE
  have hfac := cubic_factor (Q := C (1 : ℝ) * X ^ 2 + C B * X + C E) ha hx rfl
  rcases le_or_gt 0 (B ^ 2 - 4 * 1 * E) with hd | hd
  · obtain ⟨r, s, h1, h2, _⟩ := C43_real_roots ⟨1, B, E⟩ one_ne_zero hd
    left
    refine ⟨x, r, s, ?_, ?_⟩
    · have : trinomialRoots 1 B E = .ok (.twoRealRoots r s) := h1
      rw [this, Res.ok_bind]
    · have h2' : C (1 : ℝ) * X ^ 2 + C B * X + C E = C 1 * (X - C r) * (X - C s) := h2
      rw [hfac, h2', C_1]; ring
  · obtain ⟨z, w, h1, h2, h3, h4⟩ := C43_complex_roots ⟨1, B, E⟩ one_ne_zero hd
    right
    refine ⟨x, z, w, ?_, h2, h3, ?_⟩
    · have : trinomialRoots 1 B E = .ok (.twoComplexRoots z w) := h1
      rw [this, Res.ok_bind]
    · have h4' : (C (1 : ℝ) * X ^ 2 + C B * X + C E).map (algebraMap ℝ ℂ) =
          C ((1 : ℝ) : ℂ) * (X - C z.toC) * (X - C w.toC) := h4
      rw [hfac, Polynomial.map_mul, h4']
      simp only [Polynomial.map_mul, Polynomial.map_sub, map_C, map_X, Complex.coe_algebraMap,
        Complex.ofReal_one, C_1]
      ring

/-- **C137** (C46): where the discriminant of the cubic is not positive, the result is the one of `cubic_roots`.
(Where it is positive the first entry was not a root, except for cubics symmetric about their inflection point: for those the
three roots now come in another order.) -/
theorem C137_cubic_same (a b c d : ℝ) (ha : a ≠ 0)
    (h : 18 * a * b * c * d - 4 * b ^ 3 * d + b ^ 2 * c ^ 2 - 4 * a * c ^ 3 - 27 * a ^ 2 * d ^ 2 ≤ 0) :
    cubicRootsRepaired cosThirdReal a b c d = cubicRoots a b c d := by
  have hD : 0 ≤ cubD a b c d := by
    rw [cubD_eq a b c d ha]
    exact div_nonneg (by linarith) (by positivity)
  rw [cubicRootsRepaired_real, cubicRoots_real, cubXRepaired, if_pos hD]
  congr 1

-- The cubic of `C46_false`, `x³ - 6x - 4`, now splits over what is returned.
example := C137_cubic 1 0 (-6) (-4) one_ne_zero
example := C137_cubic_same 1 0 1 1 one_ne_zero (by norm_num)

end Rustnomial
