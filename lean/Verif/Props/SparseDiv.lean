import Verif.Props.SparseBasic
import Verif.Props.DenseDiv

/-!
# Sparse polynomials: division (C24, C27)
-/

open Polynomial

set_option linter.unusedSectionVars false

namespace Rustnomial

section
variable {R : Type} [CommRing R] [NumZero R] [LawfulNumZero R] [RDiv R]

theorem mapSubWScale_poly (l r : BMap R) (s : R) :
    entriesPoly (mapSubWScale l r s).entries = entriesPoly l.entries - C s * entriesPoly r.entries := by
  unfold mapSubWScale
  rw [mapPoly_foldl _ (fun e => - (C s * (C e.2 * X ^ e.1))) _ (fun m e _ => by
    rw [mapPoly_upsert_add m e.1 (-e.2 * s) _ (fun x => by ring)]
    simp only [C_mul, C_neg]; ring), sub_eq_add_neg]
  congr 1
  unfold entriesPoly
  induction r.entries with
  | nil => simp
  | cons e l ih =>
    rw [List.map_cons, List.sum_cons, ih, List.map_cons, List.sum_cons, mul_add, neg_add]

theorem sparseFirstTerm_of_poly {m : BMap R} {c : R} {d : Nat}
    (h : (entriesPoly m.entries).degree = d) (hc : (entriesPoly m.entries).leadingCoeff = c) :
    sparseFirstTerm m = .term c d := by
  cases hf : sparseFirstTerm m with
  | zeroTerm => rw [sparseFirstTerm_zero.1 hf] at h; simp at h
  | term c' d' =>
    obtain ⟨_, h2, h3⟩ := sparseFirstTerm_term hf
    rw [h2] at h
    rw [h3] at hc
    rw [hc, (by exact_mod_cast h : d' = d)]

/-- C24 (SparsePolynomial): `div_mod`, `%`, `%=` by the zero polynomial panic, however it is
stored. -/
theorem C24_sparse_zero_divisor (p b : Sparse R) (hb : entriesPoly b.terms.entries = 0) (fuel : Nat) :
    p.divMod fuel b = .panic ∧ p.rem fuel b = .panic := by
  unfold Sparse.divMod Sparse.rem
  rw [sparseFirstTerm_zero.2 hb]
  exact ⟨rfl, rfl⟩

theorem sparseDivModLoop_ne_panic {b : BMap R} {rf : R} {rd offset : Nat}
    (hok : ∀ x : R, ∃ y, rdiv x rf = .ok y) :
    ∀ (fuel : Nat) (s : R) (sd : Nat) (rem : BMap R) (div : Sparse R),
    Sparse.divModLoop b rf rd offset fuel s sd rem div ≠ .panic ∧
    Sparse.remLoop b rf rd fuel s sd rem ≠ .panic := by
  intro fuel
  induction fuel with
  | zero => intros; simp [Sparse.divModLoop, Sparse.remLoop]
  | succ fuel ih =>
    intro s sd rem div
    unfold Sparse.divModLoop Sparse.remLoop
    by_cases hle : sd ≥ rd
    · simp only [if_pos hle]
      cases hf : sparseFirstTerm (mapSubWScale rem b s) with
      | zeroTerm => simp
      | term c' sd' =>
        obtain ⟨s', hs'⟩ := hok c'
        simp only [hs', Res.ok_bind]
        exact ih _ _ _ _
    · simp [if_neg hle]

/-- C24 (SparsePolynomial, converse): with a division that does not panic on non-zero divisors, a
non-zero polynomial divisor never makes `div_mod`, `%` or `%=` panic, however long they run. -/
theorem C24_sparse_nonzero_divisor (hok : ∀ x y : R, y ≠ 0 → ∃ z, rdiv x y = .ok z) (p b : Sparse R)
    (hb : entriesPoly b.terms.entries ≠ 0) (fuel : Nat) :
    p.divMod fuel b ≠ .panic ∧ p.rem fuel b ≠ .panic := by
  unfold Sparse.divMod Sparse.rem
  cases hbf : sparseFirstTerm b.terms with
  | zeroTerm => exact absurd (sparseFirstTerm_zero.1 hbf) hb
  | term rf rd =>
    have hrf := (sparseFirstTerm_term hbf).1
    cases hpf : sparseFirstTerm p.terms with
    | zeroTerm => simp
    | term c d =>
      obtain ⟨s, hs⟩ := hok c rf hrf
      simp only [hs, Res.ok_bind]
      split
      · simp
      · obtain ⟨h1, h2⟩ := sparseDivModLoop_ne_panic (b := b.terms) (rd := rd) (offset := d - rd)
          (fun x => hok x rf hrf) fuel s d p.terms (Sparse.fromVec [])
        refine ⟨?_, ?_⟩
        · revert h1
          cases Sparse.divModLoop b.terms rf rd (d - rd) fuel s d p.terms (Sparse.fromVec []) <;> simp
        · revert h2
          cases Sparse.remLoop b.terms rf rd fuel s d p.terms <;> simp

example : entriesPoly (Sparse.fromTerms [(1, 2), (-1, (2 : Nat))] : Sparse ℤ).terms.entries = 0 := by
  rw [C31_sparse_from_terms]; simp [termsPoly_cons]

/-- C27 (what is true, 1): for a dividend of lower degree than the divisor, quotient zero and the
dividend itself. -/
theorem C27_sparse_div_mod_small_partial (p b : Sparse R)
    (h : (entriesPoly p.terms.entries).degree < (entriesPoly b.terms.entries).degree) (fuel : Nat) :
    p.divMod fuel b = .ok (Sparse.zero, p) ∧ p.rem fuel b = .ok p := by
  unfold Sparse.divMod Sparse.rem
  cases hb : sparseFirstTerm b.terms with
  | zeroTerm => rw [sparseFirstTerm_zero.1 hb] at h; simp at h
  | term rf rd =>
    cases hp : sparseFirstTerm p.terms with
    | zeroTerm => exact ⟨rfl, rfl⟩
    | term c d =>
      rw [(sparseFirstTerm_term hp).2.1, (sparseFirstTerm_term hb).2.1] at h
      have : d < rd := by exact_mod_cast h
      simp only [if_pos this]
      exact ⟨rfl, rfl⟩

/-- Subtracting a multiple of a polynomial of lower degree leaves the leading term. -/
theorem degree_sub_low {P B : R[X]} {s : R} (h : B.degree < P.degree) :
    (P - C s * B).degree = P.degree ∧ (P - C s * B).leadingCoeff = P.leadingCoeff := by
  have h' : (C s * B).degree < P.degree := by
    refine lt_of_le_of_lt ?_ h
    rw [← smul_eq_C_mul]
    exact degree_smul_le s B
  exact ⟨degree_sub_eq_left_of_degree_lt h', leadingCoeff_sub_of_degree_lt h'⟩

/-- C27 is false whenever a division needs more than one step: if the dividend has a larger degree
than the (non-zero) divisor, `div_mod`, `%` and `%=` never return, whatever the coefficient type
(division by the divisor's leading coefficient is only assumed not to panic). -/
theorem C27_sparse_div_mod_diverges (hok : ∀ x y : R, y ≠ 0 → ∃ z, rdiv x y = .ok z) (p b : Sparse R)
    (hb : entriesPoly b.terms.entries ≠ 0)
    (h : (entriesPoly b.terms.entries).degree < (entriesPoly p.terms.entries).degree) (fuel : Nat) :
    p.divMod fuel b = .fuel ∧ p.rem fuel b = .fuel := by
  unfold Sparse.divMod Sparse.rem
  cases hbf : sparseFirstTerm b.terms with
  | zeroTerm => exact absurd (sparseFirstTerm_zero.1 hbf) hb
  | term rf rd =>
    obtain ⟨hrf, hbd, _⟩ := sparseFirstTerm_term hbf
    cases hpf : sparseFirstTerm p.terms with
    | zeroTerm => rw [sparseFirstTerm_zero.1 hpf] at h; simp at h
    | term c d =>
      have hd : rd < d := by
        rw [hbd, (sparseFirstTerm_term hpf).2.1] at h; exact_mod_cast h
      obtain ⟨s, hs⟩ := hok c rf hrf
      have step : ∀ rem : BMap R, sparseFirstTerm rem = .term c d →
          sparseFirstTerm (mapSubWScale rem b.terms s) = .term c d := by
        intro rem hr
        obtain ⟨_, h2, h3⟩ := sparseFirstTerm_term hr
        have hlt : (entriesPoly b.terms.entries).degree < (entriesPoly rem.entries).degree := by
          rw [hbd, h2]; exact_mod_cast hd
        obtain ⟨h4, h5⟩ := degree_sub_low (s := s) hlt
        apply sparseFirstTerm_of_poly
        · rw [mapSubWScale_poly, h4, h2]
        · rw [mapSubWScale_poly, h5, h3]
      have h1 : ∀ (fuel : Nat) (rem : BMap R) (div : Sparse R), sparseFirstTerm rem = .term c d →
          Sparse.divModLoop b.terms rf rd (d - rd) fuel s d rem div = .fuel := by
        intro fuel
        induction fuel with
        | zero => intros; rfl
        | succ fuel ih =>
          intro rem div hr
          unfold Sparse.divModLoop
          simp only [if_pos (le_of_lt hd), step rem hr, hs, Res.ok_bind]
          exact ih _ _ (step rem hr)
      have h2 : ∀ (fuel : Nat) (rem : BMap R), sparseFirstTerm rem = .term c d →
          Sparse.remLoop b.terms rf rd fuel s d rem = .fuel := by
        intro fuel
        induction fuel with
        | zero => intros; rfl
        | succ fuel ih =>
          intro rem hr
          unfold Sparse.remLoop
          simp only [if_pos (le_of_lt hd), step rem hr, hs, Res.ok_bind]
          exact ih _ (step rem hr)
      simp only [if_neg (not_lt.2 (le_of_lt hd)), hs, Res.ok_bind, h1 fuel _ _ hpf, h2 fuel _ hpf]
      exact ⟨rfl, rfl⟩

end

/-- C27 is false as stated: `x` divided by `1` never returns, even over the rationals. -/
theorem C27_sparse_div_mod_false :
    ∀ fuel, (Sparse.fromVec [(1 : ℚ), 0]).divMod fuel (Sparse.fromVec [1]) = .fuel := by
  intro fuel
  refine (C27_sparse_div_mod_diverges (fun x y h => ⟨_, LawfulRDiv.rdiv_eq x y h⟩) _ _ ?_ ?_ fuel).1
  · rw [C28_sparse_from_vec]; simp [descPoly_cons]
  · rw [C28_sparse_from_vec, C28_sparse_from_vec]; simp [descPoly_cons]

section
variable {K : Type} [Field K] [NumZero K] [LawfulNumZero K] [RDiv K] [LawfulRDiv K]

/-- C27 (what is true, 2): over a field, for operands of equal degree, `div_mod` and `%`, `%=` give
the Euclidean quotient and remainder. -/
theorem C27_sparse_div_mod_equal_partial (p b : Sparse K) (hb : entriesPoly b.terms.entries ≠ 0)
    (h : (entriesPoly p.terms.entries).degree = (entriesPoly b.terms.entries).degree) (fuel : Nat)
    (hf : 2 ≤ fuel) :
    ∃ q r, p.divMod fuel b = .ok (q, r) ∧ p.rem fuel b = .ok r ∧
      entriesPoly q.terms.entries = entriesPoly p.terms.entries / entriesPoly b.terms.entries ∧
      entriesPoly r.terms.entries = entriesPoly p.terms.entries % entriesPoly b.terms.entries := by
  unfold Sparse.divMod Sparse.rem
  cases hbf : sparseFirstTerm b.terms with
  | zeroTerm => exact absurd (sparseFirstTerm_zero.1 hbf) hb
  | term rf rd =>
    obtain ⟨hrf, hbd, hbl⟩ := sparseFirstTerm_term hbf
    cases hpf : sparseFirstTerm p.terms with
    | zeroTerm =>
      rw [sparseFirstTerm_zero.1 hpf, hbd] at h; simp at h
    | term c d =>
      obtain ⟨hc, hpd, hpl⟩ := sparseFirstTerm_term hpf
      have hd : d = rd := by rw [hbd, hpd] at h; exact_mod_cast h
      subst hd
      obtain ⟨fuel, rfl⟩ : ∃ f, fuel = f + 2 := ⟨fuel - 2, by omega⟩
      have hs := LawfulRDiv.rdiv_eq c rf hrf
      have hstep : (entriesPoly (mapSubWScale p.terms b.terms (c / rf)).entries).degree
          < (entriesPoly b.terms.entries).degree := by
        rw [mapSubWScale_poly]
        have := degree_step (s := c / rf) hpd hpl hbd hbl le_rfl (by field_simp)
        rw [Nat.sub_self, pow_zero, mul_one] at this
        rw [hbd]; exact this
      have hdiv : ∀ (m : BMap K), entriesPoly (Sparse.addTerm (Sparse.fromVec []) (c / rf) 0).terms.entries
          = C (c / rf) := by
        intro m
        rw [C31_sparse_add_term, C28_sparse_from_vec]; simp
      have huniq := divmod_unique (A := entriesPoly p.terms.entries) (B := entriesPoly b.terms.entries)
        (Q := C (c / rf)) (T := entriesPoly (mapSubWScale p.terms b.terms (c / rf)).entries)
        (Q' := entriesPoly p.terms.entries / entriesPoly b.terms.entries)
        (T' := entriesPoly p.terms.entries % entriesPoly b.terms.entries)
        (by rw [mapSubWScale_poly]; ring) hstep (EuclideanDomain.div_add_mod' _ _).symm
        (EuclideanDomain.mod_lt _ hb)
      refine ⟨Sparse.addTerm (Sparse.fromVec []) (c / rf) 0,
        ⟨mapSubWScale p.terms b.terms (c / rf)⟩, ?_, ?_, (hdiv p.terms).trans huniq.1, huniq.2⟩
      · simp only [lt_irrefl, if_false, hs, Res.ok_bind, Nat.sub_self]
        unfold Sparse.divModLoop
        simp only [le_refl, ge_iff_le, if_true]
        cases hr : sparseFirstTerm (mapSubWScale p.terms b.terms (c / rf)) with
        | zeroTerm => rfl
        | term c' d' =>
          have hlt : d' < d := by
            rw [(sparseFirstTerm_term hr).2.1, hbd] at hstep; exact_mod_cast hstep
          simp only [LawfulRDiv.rdiv_eq c' rf hrf, Res.ok_bind]
          unfold Sparse.divModLoop
          simp only [ge_iff_le, if_neg (not_le.2 hlt), Res.ok_bind]
          rfl
      · simp only [lt_irrefl, if_false, hs, Res.ok_bind]
        unfold Sparse.remLoop
        simp only [le_refl, ge_iff_le, if_true]
        cases hr : sparseFirstTerm (mapSubWScale p.terms b.terms (c / rf)) with
        | zeroTerm => rfl
        | term c' d' =>
          have hlt : d' < d := by
            rw [(sparseFirstTerm_term hr).2.1, hbd] at hstep; exact_mod_cast hstep
          simp only [LawfulRDiv.rdiv_eq c' rf hrf, Res.ok_bind]
          unfold Sparse.remLoop
          simp only [ge_iff_le, if_neg (not_le.2 hlt), Res.ok_bind]
          rfl

end

example : ((Sparse.fromVec [(3 : ℚ), 0, 1]).divMod 2 (Sparse.fromVec [2, 1, 0])).bind
    (fun x => .ok (x.1.terms.entries, x.2.terms.entries))
    = .ok ([(0, 3 / 2)], [(0, 1), (1, -3 / 2), (2, 0)]) := by decide +kernel

end Rustnomial
