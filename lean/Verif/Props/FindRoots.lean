import Verif.Lemmas.FindRoots

/-!
# C47, C48: the root finder
-/

set_option linter.unusedVariables false

open Polynomial

namespace Rustnomial

/-! ## C47 – degree at most three, and monomials -/

theorem findRoots_of_special {oracle : List ℝ → List ℝ} {rnd eval : ℝ → ℝ} {fuel : Nat}
    {vals : List (ℝ × Nat)} {degree : Degree} {r : Roots ℝ}
    (h : findRootsSpecial vals = .ok (some r)) : findRoots oracle rnd fuel vals degree eval = .ok r := by
  unfold findRoots; rw [h, Res.ok_bind]

theorem vals_eq {vals : List (ℝ × Nat)} {l : List ℝ} {P : ℝ[X]} (h : IsTermListOf vals P)
    (hP : P = descPoly l) : vals = descTerms l := by
  rw [hP] at h; exact h.unique (isTermListOf_descTerms l)

theorem special_zero {vals : List (ℝ × Nat)} (h : IsTermListOf vals 0) :
    findRootsSpecial vals = .ok (some .infiniteRoots) := by
  have : vals = [] := by
    rw [List.eq_nil_iff_forall_not_mem]
    rintro ⟨c, d⟩ hm
    have := (h.2 c d).1 hm
    rw [coeff_zero] at this
    exact this.1 this.2.symm
  rw [this]; rfl

theorem special_const {vals : List (ℝ × Nat)} {c : ℝ} (hc : c ≠ 0) (h : IsTermListOf vals (C c)) :
    findRootsSpecial vals = .ok (some .noRoots) := by
  have : vals = descTerms [c] := vals_eq h (by simp [descPoly_cons])
  rw [this]
  simp only [descTerms, not_isZero hc]
  rfl

theorem special_monomial {vals : List (ℝ × Nat)} {c : ℝ} {n : Nat} (hc : c ≠ 0) (hn : n ≠ 0)
    (h : IsTermListOf vals (C c * X ^ n)) :
    findRootsSpecial vals = .ok (some (.manyRealRoots [0])) := by
  have hP : (C c * X ^ n : ℝ[X]) ≠ 0 := by simpa using hc
  obtain ⟨rest, hv, _⟩ := termList_shape h hP
  have hr : rest = [] := by
    rw [List.eq_nil_iff_forall_not_mem]
    rintro ⟨b, d⟩ hm
    have h1 := (h.2 b d).1 (by rw [hv]; simp [hm])
    have hlt := (List.pairwise_cons.1 (hv ▸ h.1)).1 _ hm
    rw [natDegree_C_mul_X_pow n c hc] at hlt
    simp only at hlt
    rw [coeff_C_mul_X_pow, if_neg (by omega)] at h1
    exact h1.1 h1.2.symm
  rw [hv, hr, natDegree_C_mul_X_pow n c hc]
  obtain ⟨m, rfl⟩ : ∃ m, n = m + 1 := ⟨n - 1, by omega⟩
  rcases m with _ | _ | _ | m <;> rfl

theorem special_linear {vals : List (ℝ × Nat)} {b c : ℝ} (hb : b ≠ 0)
    (h : IsTermListOf vals (C b * X + C c)) :
    findRootsSpecial vals = .ok (some (.manyRealRoots [-c / b])) := by
  have hv : vals = descTerms [b, c] := vals_eq h (by simp [descPoly_cons])
  rw [hv]
  by_cases hc : c = 0
  · simp only [descTerms, not_isZero hb, hc, (LawfulNumZero.isZero_iff (0 : ℝ)).2 rfl]
    simp [findRootsSpecial]
  · simp only [descTerms, not_isZero hb, not_isZero hc]
    rfl

theorem quad_terms (a b c : ℝ) (ha : a ≠ 0) :
    ∃ rest, descTerms [a, b, c] = (a, 2) :: rest ∧ quadCoeffs rest = .ok (b, c) ∧
      (rest = [] → b = 0 ∧ c = 0) := by
  by_cases hb : b = 0 <;> by_cases hc : c = 0
  · refine ⟨[], ?_, ?_, fun _ => ⟨hb, hc⟩⟩
    · simp [descTerms, not_isZero ha, hb, hc, (LawfulNumZero.isZero_iff (0 : ℝ)).2 rfl]
    · simp [quadCoeffs, hb, hc]
  · refine ⟨[(c, 0)], ?_, ?_, by simp⟩
    · simp [descTerms, not_isZero ha, hb, not_isZero hc, (LawfulNumZero.isZero_iff (0 : ℝ)).2 rfl]
    · simp [quadCoeffs, hb]
  · refine ⟨[(b, 1)], ?_, ?_, by simp⟩
    · simp [descTerms, not_isZero ha, not_isZero hb, hc, (LawfulNumZero.isZero_iff (0 : ℝ)).2 rfl]
    · simp [quadCoeffs, hc]
  · refine ⟨[(b, 1), (c, 0)], ?_, ?_, by simp⟩
    · simp [descTerms, not_isZero ha, not_isZero hb, not_isZero hc]
    · simp [quadCoeffs]

theorem cubic_terms (a b c d : ℝ) (ha : a ≠ 0) :
    ∃ rest, descTerms [a, b, c, d] = (a, 3) :: rest ∧ cubicCoeffs rest = .ok (b, c, d) ∧
      (rest = [] → b = 0 ∧ c = 0 ∧ d = 0) := by
  have hz := (LawfulNumZero.isZero_iff (0 : ℝ)).2 rfl
  by_cases hb : b = 0 <;> by_cases hc : c = 0 <;> by_cases hd : d = 0
  · exact ⟨[], by simp [descTerms, not_isZero ha, hb, hc, hd, hz], by simp [cubicCoeffs, hb, hc, hd],
      fun _ => ⟨hb, hc, hd⟩⟩
  · exact ⟨[(d, 0)], by simp [descTerms, not_isZero ha, hb, hc, not_isZero hd, hz],
      by simp [cubicCoeffs, hb, hc], by simp⟩
  · exact ⟨[(c, 1)], by simp [descTerms, not_isZero ha, hb, not_isZero hc, hd, hz],
      by simp [cubicCoeffs, hb, hd], by simp⟩
  · exact ⟨[(c, 1), (d, 0)], by simp [descTerms, not_isZero ha, hb, not_isZero hc, not_isZero hd, hz],
      by simp [cubicCoeffs, hb], by simp⟩
  · exact ⟨[(b, 2)], by simp [descTerms, not_isZero ha, not_isZero hb, hc, hd, hz],
      by simp [cubicCoeffs, hc, hd], by simp⟩
  · exact ⟨[(b, 2), (d, 0)], by simp [descTerms, not_isZero ha, not_isZero hb, hc, not_isZero hd, hz],
      by simp [cubicCoeffs, hc], by simp⟩
  · exact ⟨[(b, 2), (c, 1)], by simp [descTerms, not_isZero ha, not_isZero hb, not_isZero hc, hd, hz],
      by simp [cubicCoeffs, hd], by simp⟩
  · exact ⟨[(b, 2), (c, 1), (d, 0)],
      by simp [descTerms, not_isZero ha, not_isZero hb, not_isZero hc, not_isZero hd],
      by simp [cubicCoeffs], by simp⟩

theorem special_quadratic {vals : List (ℝ × Nat)} {a b c : ℝ} (ha : a ≠ 0) (hbc : b ≠ 0 ∨ c ≠ 0)
    (h : IsTermListOf vals (C a * X ^ 2 + C b * X + C c)) :
    findRootsSpecial vals = (trinomialRoots a b c >>= fun r => match r with
      | .twoComplexRoots a b => .ok (some (.manyComplexRoots [a, b]))
      | .twoRealRoots a b => .ok (some (.manyRealRoots [a, b]))
      | _ => .panic) := by
  have hv : vals = descTerms [a, b, c] := vals_eq h (by simp [descPoly_cons, add_assoc])
  obtain ⟨rest, h1, h2, h3⟩ := quad_terms a b c ha
  rw [hv, h1]
  cases rest with
  | nil => rcases hbc with hb | hc; exacts [absurd (h3 rfl).1 hb, absurd (h3 rfl).2 hc]
  | cons t ts =>
    show (quadCoeffs (t :: ts) >>= fun x => _) = _
    rw [h2, Res.ok_bind]
    simp only
    congr 1
    funext r
    cases r <;> rfl

theorem special_cubic {vals : List (ℝ × Nat)} {a b c d : ℝ} (ha : a ≠ 0) (hbc : b ≠ 0 ∨ c ≠ 0 ∨ d ≠ 0)
    (h : IsTermListOf vals (C a * X ^ 3 + C b * X ^ 2 + C c * X + C d)) :
    findRootsSpecial vals = (cubicRoots a b c d >>= fun r => match r with
      | .threeComplexRoots a b c => .ok (some (.manyComplexRoots [a, b, c]))
      | .threeRealRoots a b c => .ok (some (.manyRealRoots [a, b, c]))
      | _ => .panic) := by
  have hv : vals = descTerms [a, b, c, d] := vals_eq h (by simp [descPoly_cons, add_assoc])
  obtain ⟨rest, h1, h2, h3⟩ := cubic_terms a b c d ha
  rw [hv, h1]
  cases rest with
  | nil =>
    rcases hbc with hb | hc | hd
    exacts [absurd (h3 rfl).1 hb, absurd (h3 rfl).2.1 hc, absurd (h3 rfl).2.2 hd]
  | cons t ts =>
    show (cubicCoeffs (t :: ts) >>= fun x => _) = _
    rw [h2, Res.ok_bind]
    simp only
    congr 1
    funext r
    cases r <;> rfl

theorem dense_termList (p : Poly ℝ) : IsTermListOf p.termsAsVec (descPoly p.terms) := (C03_dense_terms p).1
theorem sparse_termList (p : Sparse ℝ) : IsTermListOf p.termsAsVec (entriesPoly p.terms.entries) :=
  sparse_isTermListOf p

section
variable (oracle : List ℝ → List ℝ) (rnd : ℝ → ℝ) (fuel : Nat)

/-- **C47**: non-zero constants have no roots. -/
theorem C47_constant (c : ℝ) (hc : c ≠ 0) :
    (∀ p : Poly ℝ, descPoly p.terms = C c → p.roots oracle rnd fuel = .ok .noRoots) ∧
    (∀ p : Sparse ℝ, entriesPoly p.terms.entries = C c → p.roots oracle rnd fuel = .ok .noRoots) :=
  ⟨fun p h => findRoots_of_special (special_const hc (h ▸ dense_termList p)),
    fun p h => findRoots_of_special (special_const hc (h ▸ sparse_termList p))⟩

/-- **C47**: a monomial of positive degree has the root `0`. -/
theorem C47_monomial (c : ℝ) (n : Nat) (hc : c ≠ 0) (hn : n ≠ 0) :
    (∀ p : Poly ℝ, descPoly p.terms = C c * X ^ n → p.roots oracle rnd fuel = .ok (.manyRealRoots [0])) ∧
    (∀ p : Sparse ℝ, entriesPoly p.terms.entries = C c * X ^ n →
      p.roots oracle rnd fuel = .ok (.manyRealRoots [0])) :=
  ⟨fun p h => findRoots_of_special (special_monomial hc hn (h ▸ dense_termList p)),
    fun p h => findRoots_of_special (special_monomial hc hn (h ▸ sparse_termList p))⟩

/-- For monomials the answer has the right set of roots, but the multiplicity is lost from degree
two on: `0` is reported once though it is a root `n` times (other polynomials get each root as often
as it occurs, see `C47_quadratic`, `C48_roots`). -/
theorem C47_monomial_multiplicity (c : ℝ) (n : Nat) (hc : c ≠ 0) :
    (C c * X ^ n : ℝ[X]).roots = Multiset.replicate n 0 := by
  rw [roots_C_mul _ hc, roots_pow, roots_X, Multiset.nsmul_singleton]

/-- **C47**: a linear polynomial `bx + c` has the root `-c/b`. -/
theorem C47_linear (b c : ℝ) (hb : b ≠ 0) :
    (∀ p : Poly ℝ, descPoly p.terms = C b * X + C c →
      p.roots oracle rnd fuel = .ok (.manyRealRoots [-c / b])) ∧
    (∀ p : Sparse ℝ, entriesPoly p.terms.entries = C b * X + C c →
      p.roots oracle rnd fuel = .ok (.manyRealRoots [-c / b])) :=
  ⟨fun p h => findRoots_of_special (special_linear hb (h ▸ dense_termList p)),
    fun p h => findRoots_of_special (special_linear hb (h ▸ sparse_termList p))⟩

theorem quadratic_gen (a b c : ℝ) (ha : a ≠ 0) (hbc : b ≠ 0 ∨ c ≠ 0) (vals : List (ℝ × Nat))
    (h : IsTermListOf vals (C a * X ^ 2 + C b * X + C c)) :
    (0 ≤ b ^ 2 - 4 * a * c → ∃ r s, findRootsSpecial vals = .ok (some (.manyRealRoots [r, s])) ∧
      C a * X ^ 2 + C b * X + C c = C a * (X - C r) * (X - C s)) ∧
    (b ^ 2 - 4 * a * c < 0 → ∃ z w, findRootsSpecial vals = .ok (some (.manyComplexRoots [z, w])) ∧
      w.toC = (starRingEnd ℂ) z.toC ∧ z.toC ≠ w.toC ∧
      (C a * X ^ 2 + C b * X + C c : ℝ[X]).map (algebraMap ℝ ℂ) =
        C (a : ℂ) * (X - C z.toC) * (X - C w.toC)) := by
  rw [special_quadratic ha hbc h]
  constructor
  · intro hd
    obtain ⟨r, s, h1, h2, _⟩ := C43_real_roots ⟨a, b, c⟩ ha hd
    have h1' : trinomialRoots a b c = .ok (.twoRealRoots r s) := h1
    exact ⟨r, s, by rw [h1', Res.ok_bind], h2⟩
  · intro hd
    obtain ⟨z, w, h1, h2, h3, h4⟩ := C43_complex_roots ⟨a, b, c⟩ ha hd
    have h1' : trinomialRoots a b c = .ok (.twoComplexRoots z w) := h1
    exact ⟨z, w, by rw [h1', Res.ok_bind], h2, h3, h4⟩

/-- **C47**: for a quadratic that is not a monomial, the answer is two real numbers whose factors
give the polynomial if the discriminant is not negative, a conjugate pair otherwise. -/
theorem C47_quadratic (a b c : ℝ) (ha : a ≠ 0) (hbc : b ≠ 0 ∨ c ≠ 0) (res : Res (Roots ℝ))
    (hres : (∃ p : Poly ℝ, descPoly p.terms = C a * X ^ 2 + C b * X + C c ∧
        res = p.roots oracle rnd fuel) ∨
      (∃ p : Sparse ℝ, entriesPoly p.terms.entries = C a * X ^ 2 + C b * X + C c ∧
        res = p.roots oracle rnd fuel)) :
    (0 ≤ b ^ 2 - 4 * a * c → ∃ r s, res = .ok (.manyRealRoots [r, s]) ∧
      C a * X ^ 2 + C b * X + C c = C a * (X - C r) * (X - C s)) ∧
    (b ^ 2 - 4 * a * c < 0 → ∃ z w, res = .ok (.manyComplexRoots [z, w]) ∧
      w.toC = (starRingEnd ℂ) z.toC ∧ z.toC ≠ w.toC ∧
      (C a * X ^ 2 + C b * X + C c : ℝ[X]).map (algebraMap ℝ ℂ) =
        C (a : ℂ) * (X - C z.toC) * (X - C w.toC)) := by
  obtain ⟨vals, hv, hsp⟩ : ∃ vals, IsTermListOf vals (C a * X ^ 2 + C b * X + C c) ∧
      ∀ r, findRootsSpecial vals = .ok (some r) → res = .ok r := by
    rcases hres with ⟨p, h, rfl⟩ | ⟨p, h, rfl⟩
    · exact ⟨_, h ▸ dense_termList p, fun r hr => findRoots_of_special hr⟩
    · exact ⟨_, h ▸ sparse_termList p, fun r hr => findRoots_of_special hr⟩
  obtain ⟨g1, g2⟩ := quadratic_gen a b c ha hbc vals hv
  constructor
  · intro hd; obtain ⟨r, s, h1, h2⟩ := g1 hd; exact ⟨r, s, hsp _ h1, h2⟩
  · intro hd; obtain ⟨r, s, h1, h2⟩ := g2 hd; exact ⟨r, s, hsp _ h1, h2⟩

/-- **C47**, cubics, the part that holds (see `C46_cubic_partial` and `C46_false` for what is
missing: three distinct real roots not symmetric about the inflection point). -/
theorem C47_cubic_partial (a b c d : ℝ) (ha : a ≠ 0) (hbc : b ≠ 0 ∨ c ≠ 0 ∨ d ≠ 0) (res : Res (Roots ℝ))
    (hres : (∃ p : Poly ℝ, descPoly p.terms = C a * X ^ 3 + C b * X ^ 2 + C c * X + C d ∧
        res = p.roots oracle rnd fuel) ∨
      (∃ p : Sparse ℝ, entriesPoly p.terms.entries = C a * X ^ 3 + C b * X ^ 2 + C c * X + C d ∧
        res = p.roots oracle rnd fuel))
    (h : 18 * a * b * c * d - 4 * b ^ 3 * d + b ^ 2 * c ^ 2 - 4 * a * c ^ 3 - 27 * a ^ 2 * d ^ 2 ≤ 0 ∨
      2 * b ^ 3 - 9 * a * b * c + 27 * a ^ 2 * d = 0) :
    (∃ x r s, res = .ok (.manyRealRoots [x, r, s]) ∧
      C a * X ^ 3 + C b * X ^ 2 + C c * X + C d = C a * (X - C x) * (X - C r) * (X - C s)) ∨
    (∃ x z w, res = .ok (.manyComplexRoots [⟨x, 0⟩, z, w]) ∧
      w.toC = (starRingEnd ℂ) z.toC ∧ z.toC ≠ w.toC ∧
      (C a * X ^ 3 + C b * X ^ 2 + C c * X + C d : ℝ[X]).map (algebraMap ℝ ℂ) =
        C (a : ℂ) * (X - C (x : ℂ)) * (X - C z.toC) * (X - C w.toC)) := by
  obtain ⟨vals, hv, hsp⟩ : ∃ vals, IsTermListOf vals (C a * X ^ 3 + C b * X ^ 2 + C c * X + C d) ∧
      ∀ r, findRootsSpecial vals = .ok (some r) → res = .ok r := by
    rcases hres with ⟨p, h, rfl⟩ | ⟨p, h, rfl⟩
    · exact ⟨_, h ▸ dense_termList p, fun r hr => findRoots_of_special hr⟩
    · exact ⟨_, h ▸ sparse_termList p, fun r hr => findRoots_of_special hr⟩
  have hs := special_cubic ha hbc hv
  rcases C46_cubic_partial a b c d ha h with ⟨x, r, s, h1, h2⟩ | ⟨x, z, w, h1, h2, h3, h4⟩
  · left
    rw [h1, Res.ok_bind] at hs
    exact ⟨x, r, s, hsp _ hs, h2⟩
  · right
    rw [h1, Res.ok_bind] at hs
    exact ⟨x, z, w, hsp _ hs, h2, h3, h4⟩

/-- **C47**: for every other cubic the answer is wrong: its first entry is not a root.  With `C47_cubic_partial` this
decides every cubic. -/
theorem C47_cubic_false (a b c d : ℝ) (ha : a ≠ 0) (res : Res (Roots ℝ))
    (hres : (∃ p : Poly ℝ, descPoly p.terms = C a * X ^ 3 + C b * X ^ 2 + C c * X + C d ∧
        res = p.roots oracle rnd fuel) ∨
      (∃ p : Sparse ℝ, entriesPoly p.terms.entries = C a * X ^ 3 + C b * X ^ 2 + C c * X + C d ∧
        res = p.roots oracle rnd fuel))
    (hdisc : 0 < 18 * a * b * c * d - 4 * b ^ 3 * d + b ^ 2 * c ^ 2 - 4 * a * c ^ 3 - 27 * a ^ 2 * d ^ 2)
    (hsym : 2 * b ^ 3 - 9 * a * b * c + 27 * a ^ 2 * d ≠ 0) :
    ∃ x, ((∃ r s, res = .ok (.manyRealRoots [x, r, s])) ∨ ∃ z w, res = .ok (.manyComplexRoots [⟨x, 0⟩, z, w])) ∧
      ¬ (C a * X ^ 3 + C b * X ^ 2 + C c * X + C d : ℝ[X]).IsRoot x := by
  obtain ⟨vals, hv, hsp⟩ : ∃ vals, IsTermListOf vals (C a * X ^ 3 + C b * X ^ 2 + C c * X + C d) ∧
      ∀ r, findRootsSpecial vals = .ok (some r) → res = .ok r := by
    rcases hres with ⟨p, h, rfl⟩ | ⟨p, h, rfl⟩
    · exact ⟨_, h ▸ dense_termList p, fun r hr => findRoots_of_special hr⟩
    · exact ⟨_, h ▸ sparse_termList p, fun r hr => findRoots_of_special hr⟩
  have hbc : b ≠ 0 ∨ c ≠ 0 ∨ d ≠ 0 := by
    by_contra hcon
    push Not at hcon
    obtain ⟨rfl, rfl, rfl⟩ := hcon
    simp at hsym
  have hs := special_cubic ha hbc hv
  obtain ⟨x, hx, hroot⟩ := C46_false a b c d ha hdisc hsym
  refine ⟨x, ?_, hroot⟩
  rcases hx with ⟨r, s, h1⟩ | ⟨z, w, h1⟩
  · rw [h1, Res.ok_bind] at hs
    exact .inl ⟨r, s, hsp _ hs⟩
  · rw [h1, Res.ok_bind] at hs
    exact .inr ⟨z, w, hsp _ hs⟩

theorem poly_deg_three (P : ℝ[X]) (h : P.natDegree ≤ 3) :
    P = C (P.coeff 3) * X ^ 3 + C (P.coeff 2) * X ^ 2 + C (P.coeff 1) * X + C (P.coeff 0) := by
  conv_lhs => rw [P.as_sum_range_C_mul_X_pow' (show P.natDegree < 4 by omega)]
  simp [Finset.sum_range_succ]
  ring

/-- The special cases always return. -/
theorem special_total (P : ℝ[X]) (h3 : P.natDegree ≤ 3) (vals : List (ℝ × Nat)) (hv : IsTermListOf vals P) :
    ∃ r, findRootsSpecial vals = .ok (some r) ∧ (r = .infiniteRoots → P = 0) := by
  rw [poly_deg_three P h3] at hv ⊢
  generalize P.coeff 3 = a at *
  generalize P.coeff 2 = b at *
  generalize P.coeff 1 = c at *
  generalize P.coeff 0 = d at *
  by_cases ha : a = 0
  · subst ha
    simp only [C_0, zero_mul, zero_add] at hv ⊢
    by_cases hb : b = 0
    · subst hb
      simp only [C_0, zero_mul, zero_add] at hv ⊢
      by_cases hc : c = 0
      · subst hc
        simp only [C_0, zero_mul, zero_add] at hv ⊢
        by_cases hd : d = 0
        · subst hd
          rw [C_0] at hv ⊢
          exact ⟨_, special_zero hv, fun _ => rfl⟩
        · exact ⟨_, special_const hd hv, by simp⟩
      · exact ⟨_, special_linear hc hv, by simp⟩
    · by_cases hcd : c ≠ 0 ∨ d ≠ 0
      · obtain ⟨g1, g2⟩ := quadratic_gen b c d hb hcd vals hv
        rcases le_or_gt 0 (c ^ 2 - 4 * b * d) with hh | hh
        · obtain ⟨_, _, h1, _⟩ := g1 hh
          exact ⟨_, h1, by simp⟩
        · obtain ⟨_, _, h1, _⟩ := g2 hh
          exact ⟨_, h1, by simp⟩
      · rw [not_or, not_ne_iff, not_ne_iff] at hcd
        rw [hcd.1, hcd.2] at hv
        simp only [C_0, zero_mul, add_zero] at hv
        exact ⟨_, special_monomial hb two_ne_zero hv, by simp⟩
  · by_cases hbcd : b ≠ 0 ∨ c ≠ 0 ∨ d ≠ 0
    · have hs := special_cubic ha hbcd hv
      rw [cubicRoots_real, trinomialRoots_real] at hs
      split at hs
      · exact ⟨_, hs, by simp⟩
      · split at hs
        · exact ⟨_, hs, by simp⟩
        · exact ⟨_, hs, by simp⟩
    · simp only [not_or, not_ne_iff] at hbcd
      rw [hbcd.1, hbcd.2.1, hbcd.2.2] at hv
      simp only [C_0, zero_mul, add_zero] at hv
      exact ⟨_, special_monomial ha three_ne_zero hv, by simp⟩

/-- **C47**: no `unreachable!()` branch, no out-of-bounds access and no endless loop up to degree
three, whatever the external solver does. -/
theorem C47_total :
    (∀ p : Poly ℝ, (descPoly p.terms).natDegree ≤ 3 → ∃ r, p.roots oracle rnd fuel = .ok r) ∧
    (∀ p : Sparse ℝ, (entriesPoly p.terms.entries).natDegree ≤ 3 → ∃ r, p.roots oracle rnd fuel = .ok r) := by
  constructor
  · intro p hp
    obtain ⟨r, h, _⟩ := special_total _ hp _ (dense_termList p)
    exact ⟨r, findRoots_of_special h⟩
  · intro p hp
    obtain ⟨r, h, _⟩ := special_total _ hp _ (sparse_termList p)
    exact ⟨r, findRoots_of_special h⟩

theorem infinite_gen (vals : List (ℝ × Nat)) (degree : Degree) (eval : ℝ → ℝ) (P : ℝ[X])
    (hv : IsTermListOf vals P) (hd : degree.toWithBot = P.degree) :
    findRoots oracle rnd fuel vals degree eval = .ok .infiniteRoots ↔ P = 0 := by
  constructor
  · intro h
    by_cases h3 : P.natDegree ≤ 3
    · obtain ⟨r, h1, h2⟩ := special_total P h3 vals hv
      rw [findRoots_of_special h1] at h
      injection h with h
      exact h2 h
    · by_cases hm : P = C P.leadingCoeff * X ^ P.natDegree
      · have hP : P ≠ 0 := by rintro rfl; simp at h3
        rw [hm] at hv
        rw [findRoots_of_special (special_monomial (by simpa using hP) (by omega) hv)] at h
        injection h with h
        cases h
      · obtain ⟨v, n0, ns, h1, _⟩ := findRoots_reduce oracle rnd eval vals P hv degree hd (by omega) hm fuel
        rw [h1] at h
        exact absurd h (findRootsLoop_ne_infinite _ _ _ _ _ _ _ _ _)
  · rintro rfl
    exact findRoots_of_special (special_zero hv)

/-- **C47**: `InfiniteRoots` is answered exactly for the zero polynomial (any degree, any solver). -/
theorem C47_infinite_iff :
    (∀ p : Poly ℝ, p.roots oracle rnd fuel = .ok .infiniteRoots ↔ descPoly p.terms = 0) ∧
    (∀ p : Sparse ℝ, p.roots oracle rnd fuel = .ok .infiniteRoots ↔ entriesPoly p.terms.entries = 0) :=
  ⟨fun p => infinite_gen oracle rnd fuel _ _ _ _ (dense_termList p) (C02_dense_degree p),
    fun p => infinite_gen oracle rnd fuel _ _ _ _ (sparse_termList p) (C02_sparse_degree p)⟩

example : (⟨[0, 0, 2, -6]⟩ : Poly ℝ).roots oracle rnd fuel = .ok (.manyRealRoots [-(-6) / 2]) :=
  (C47_linear oracle rnd fuel 2 (-6) two_ne_zero).1 _ (by simp [descPoly_cons])
example : (⟨[5, 0, 0, 0, 0, 0]⟩ : Poly ℝ).roots oracle rnd fuel = .ok (.manyRealRoots [0]) :=
  (C47_monomial oracle rnd fuel 5 5 (by norm_num) (by norm_num)).1 _ (by simp [descPoly_cons])
example : ∃ r s, (⟨[1, 0, -2]⟩ : Poly ℝ).roots oracle rnd fuel = .ok (.manyRealRoots [r, s]) := by
  obtain ⟨r, s, h, _⟩ := (C47_quadratic oracle rnd fuel 1 0 (-2) one_ne_zero (by norm_num) _
    (.inl ⟨⟨[1, 0, -2]⟩, by simp [descPoly_cons], rfl⟩)).1 (by norm_num)
  exact ⟨r, s, h⟩
example := C47_cubic_partial oracle rnd fuel 1 0 0 1 one_ne_zero (by norm_num) _
    (.inl ⟨⟨[1, 0, 0, 1]⟩, by simp [descPoly_cons], rfl⟩) (.inl (by norm_num))
example := C47_cubic_false oracle rnd fuel 1 (-6) 11 (-6 - 1 / 10) one_ne_zero _
    (.inl ⟨⟨[1, -6, 11, -6 - 1 / 10]⟩, by simp [descPoly_cons]; ring, rfl⟩) (by norm_num) (by norm_num)

end

/-! ## C48 – degree four and more -/

/-- **C48**: with a solver that returns exactly the distinct real roots, `roots()` of a polynomial of
degree at least four which is not a monomial terminates and answers every real root with its
multiplicity (`rootsAnswer`: `NoRoots` if there is none, `ManyRealRoots` if there are as many as the
degree, `OnlyRealRoots` otherwise). -/
theorem C48_roots (oracle : List ℝ → List ℝ) (ho : ExactOracle oracle) (rnd : ℝ → ℝ) (p : Poly ℝ)
    (h4 : 4 ≤ (descPoly p.terms).natDegree)
    (hm : ∀ c n, descPoly p.terms ≠ C c * X ^ n) (fuel : Nat) (hf : (descPoly p.terms).natDegree + 1 ≤ fuel) :
    ∃ l, p.roots oracle rnd fuel = .ok (rootsAnswer (descPoly p.terms).natDegree l) ∧
      (l : Multiset ℝ) = (descPoly p.terms).roots :=
  findRoots_exact ho rnd p.eval _ _ (dense_termList p) _ (C02_dense_degree p) h4 (hm _ _)
    (fun r hr => (C06_dense_eval p r).trans hr) fuel hf

noncomputable instance : LawfulPowUsize ℝ where
  bound := 2 ^ 31
  upow_eq a n h := upowFloat_eq a n h

/-- **C48** for `SparsePolynomial` whose exponents fit in `i32` (beyond that `eval` is wrong, C07). -/
theorem C48_roots_sparse (oracle : List ℝ → List ℝ) (ho : ExactOracle oracle) (rnd : ℝ → ℝ) (p : Sparse ℝ)
    (h4 : 4 ≤ (entriesPoly p.terms.entries).natDegree)
    (hm : ∀ c n, entriesPoly p.terms.entries ≠ C c * X ^ n)
    (hb : ∀ e ∈ p.terms.entries, e.1 < 2 ^ 31) (fuel : Nat)
    (hf : (entriesPoly p.terms.entries).natDegree + 1 ≤ fuel) :
    ∃ l, p.roots oracle rnd fuel = .ok (rootsAnswer (entriesPoly p.terms.entries).natDegree l) ∧
      (l : Multiset ℝ) = (entriesPoly p.terms.entries).roots :=
  findRoots_exact ho rnd p.eval _ _ (sparse_termList p) _ (C02_sparse_degree p) h4 (hm _ _)
    (fun r hr => (C07_sparse_eval_partial p r hb).trans hr) fuel hf

theorem total_gen (oracle : List ℝ → List ℝ) (rnd eval : ℝ → ℝ) (vals : List (ℝ × Nat)) (P : ℝ[X])
    (hv : IsTermListOf vals P) (degree : Degree) (hdeg : degree.toWithBot = P.degree)
    (fuel : Nat) (hf : P.natDegree + 2 ≤ fuel) :
    ∃ r, findRoots oracle rnd fuel vals degree eval = .ok r := by
  by_cases h3 : P.natDegree ≤ 3
  · obtain ⟨r, h, _⟩ := special_total _ h3 _ hv
    exact ⟨r, findRoots_of_special h⟩
  · by_cases hm : P = C P.leadingCoeff * X ^ P.natDegree
    · have hP : P ≠ 0 := by rintro rfl; simp at h3
      rw [hm] at hv
      exact ⟨_, findRoots_of_special (special_monomial (by simpa using hP) (by omega) hv)⟩
    · obtain ⟨v, n0, ns, h1, h2, h4, _, _, h5⟩ :=
        findRoots_reduce oracle rnd eval vals P hv degree hdeg (by omega) hm fuel
      rw [h1]
      obtain ⟨l, h | h | h⟩ := findRootsLoop_total oracle rnd eval P.natDegree fuel fuel v (n0 :: ns) [] h2
        ⟨n0, ns, rfl, h4⟩ (by simp; omega) (by simp; omega)
      exacts [⟨_, h⟩, ⟨_, h⟩, ⟨_, h⟩]

/-- **C48**: whatever the external solver answers (right or wrong), `roots()` terminates without
panicking. -/
theorem C48_total (oracle : List ℝ → List ℝ) (rnd : ℝ → ℝ) :
    (∀ p : Poly ℝ, ∀ fuel, (descPoly p.terms).natDegree + 2 ≤ fuel → ∃ r, p.roots oracle rnd fuel = .ok r) ∧
    (∀ p : Sparse ℝ, ∀ fuel, (entriesPoly p.terms.entries).natDegree + 2 ≤ fuel →
      ∃ r, p.roots oracle rnd fuel = .ok r) :=
  ⟨fun p fuel hf => total_gen oracle rnd _ _ _ (dense_termList p) _ (C02_dense_degree p) fuel hf,
    fun p fuel hf => total_gen oracle rnd _ _ _ (sparse_termList p) _ (C02_sparse_degree p) fuel hf⟩

-- Non-vacuity: an exact solver exists; `x⁴ - 1` meets the hypotheses, and is not split.
example : ∃ oracle, ExactOracle oracle ∧
    ∃ l, (⟨[1, 0, 0, 0, -1]⟩ : Poly ℝ).roots oracle id 5 = .ok (rootsAnswer 4 l) ∧ (1 : ℝ) ∈ l := by
  obtain ⟨oracle, ho⟩ := exactOracle_exists
  have hP : descPoly ([1, 0, 0, 0, -1] : List ℝ) = X ^ 4 - 1 := by simp [descPoly_cons]; ring
  have hd : (descPoly ([1, 0, 0, 0, -1] : List ℝ)).natDegree = 4 :=
    natDegree_eq_of_degree_eq_some (descPoly_cons_degree (R := ℝ) [0, 0, 0, -1] one_ne_zero)
  obtain ⟨l, h1, h2⟩ := C48_roots oracle ho id ⟨[1, 0, 0, 0, -1]⟩ hd.ge (by
    intro c n h
    have h0 := congrArg (fun q => q.eval (0 : ℝ)) h
    have h1 := congrArg (fun q => q.eval (1 : ℝ)) h
    rw [hP] at h0 h1
    simp at h0 h1
    rw [← h1] at h0
    simp at h0) 5 (by rw [hd])
  refine ⟨oracle, ho, l, hd ▸ h1, ?_⟩
  have : (1 : ℝ) ∈ (l : Multiset ℝ) := by
    rw [h2, mem_roots (by intro h; rw [h] at hd; simp at hd)]
    show IsRoot (descPoly [1, 0, 0, 0, -1]) (1 : ℝ)
    rw [hP]; simp [IsRoot.def]
  simpa using this

end Rustnomial
