import Verif.SpecRootLaws
import Verif.Props.FindRoots
import Verif.Props.Exact
import Verif.Props.DenseShift
import Verif.Props.DenseCalc
import Mathlib.Analysis.Calculus.LocalExtr.Polynomial

/-!
# Laws of root finding (C114)

`f64` idealised by real numbers, the external solver exact (C48).
-/

open Polynomial

namespace Rustnomial

theorem roots_linear {b c : ℝ} (hb : b ≠ 0) : (C b * X + C c : ℝ[X]).roots = {-c / b} := by
  rw [roots_C_mul_X_add_C c hb]
  congr 1
  field_simp

theorem roots_split2 {a r s : ℝ} (ha : a ≠ 0) : (C a * (X - C r) * (X - C s) : ℝ[X]).roots = {r, s} := by
  have h1 : (X - C r : ℝ[X]) ≠ 0 := X_sub_C_ne_zero r
  have h2 : (X - C s : ℝ[X]) ≠ 0 := X_sub_C_ne_zero s
  rw [mul_assoc, roots_C_mul _ ha, roots_mul (mul_ne_zero h1 h2), roots_X_sub_C, roots_X_sub_C]
  rfl

theorem roots_split3 {a x r s : ℝ} (ha : a ≠ 0) : (C a * (X - C x) * (X - C r) * (X - C s) : ℝ[X]).roots = {x, r, s} := by
  have h0 : (X - C x : ℝ[X]) ≠ 0 := X_sub_C_ne_zero x
  have h1 : (X - C r : ℝ[X]) ≠ 0 := X_sub_C_ne_zero r
  have h2 : (X - C s : ℝ[X]) ≠ 0 := X_sub_C_ne_zero s
  rw [mul_assoc, mul_assoc, roots_C_mul _ ha, roots_mul (mul_ne_zero h0 (mul_ne_zero h1 h2)), roots_mul (mul_ne_zero h1 h2),
    roots_X_sub_C, roots_X_sub_C, roots_X_sub_C]
  rfl

theorem im_ne_zero_of_conj {z w : Cplx ℝ} (h1 : w.toC = (starRingEnd ℂ) z.toC) (h2 : z.toC ≠ w.toC) : z.im ≠ 0 ∧ w.im ≠ 0 := by
  have hw : w.im = -z.im := by simpa [Cplx.toC] using congrArg Complex.im h1
  have hz : z.im ≠ 0 := by
    intro h0
    apply h2
    rw [h1]
    apply Complex.ext
    · simp
    · simp [Cplx.toC, h0]
  exact ⟨hz, by rw [hw]; simpa using hz⟩

theorem roots_nonreal2 {P : ℝ[X]} {a : ℝ} {z w : Cplx ℝ} (ha : a ≠ 0) (hz : z.im ≠ 0) (hw : w.im ≠ 0)
    (h : P.map (algebraMap ℝ ℂ) = C (a : ℂ) * (X - C z.toC) * (X - C w.toC)) : P.roots = 0 := by
  rw [Multiset.eq_zero_iff_forall_notMem]
  intro x hx
  have hr : P.eval x = 0 := isRoot_of_mem_roots hx
  have h2 := congrArg (eval (x : ℂ)) h
  have h3 : eval (x : ℂ) (P.map (algebraMap ℝ ℂ)) = 0 := by
    have : IsRoot (P.map (algebraMap ℝ ℂ)) (algebraMap ℝ ℂ x) := (isRoot_map_iff (algebraMap ℝ ℂ).injective).2 hr
    exact this
  rw [h3] at h2
  simp only [eval_mul, eval_sub, eval_C, eval_X] at h2
  rcases mul_eq_zero.1 h2.symm with h4 | h4
  · rcases mul_eq_zero.1 h4 with h5 | h5
    · exact ha (by exact_mod_cast h5)
    · have := congrArg Complex.im h5
      simp [Cplx.toC] at this
      exact hz this
  · have := congrArg Complex.im h4
    simp [Cplx.toC] at this
    exact hw this

theorem roots_nonreal3 {P : ℝ[X]} {a x : ℝ} {z w : Cplx ℝ} (ha : a ≠ 0) (hz : z.im ≠ 0) (hw : w.im ≠ 0)
    (h : P.map (algebraMap ℝ ℂ) = C (a : ℂ) * (X - C (x : ℂ)) * (X - C z.toC) * (X - C w.toC)) : P.roots = {x} := by
  have hinj : Function.Injective (algebraMap ℝ ℂ) := (algebraMap ℝ ℂ).injective
  have hr : P.IsRoot x := by
    rw [← isRoot_map_iff (f := algebraMap ℝ ℂ) hinj, h]
    simp [IsRoot]
  obtain ⟨Q, rfl⟩ := dvd_iff_isRoot.2 hr
  have hX : (X - C x : ℝ[X]) ≠ 0 := X_sub_C_ne_zero x
  have hmap : Q.map (algebraMap ℝ ℂ) = C (a : ℂ) * (X - C z.toC) * (X - C w.toC) := by
    apply mul_left_cancel₀ (X_sub_C_ne_zero (x : ℂ))
    rw [Polynomial.map_mul] at h
    simp only [Polynomial.map_sub, map_X, map_C] at h
    rw [show (algebraMap ℝ ℂ) x = (x : ℂ) from rfl] at h
    rw [h]; ring
  have hQ : Q ≠ 0 := by
    rintro rfl
    have := congrArg natDegree h
    have hlc := congrArg (eval (0 : ℂ)) hmap
    simp at hlc
    rcases hlc with (h1 | h1) | h1
    · exact ha h1
    · have := congrArg Complex.im h1; simp [Cplx.toC] at this; exact hz this
    · have := congrArg Complex.im h1; simp [Cplx.toC] at this; exact hw this
  rw [roots_mul (mul_ne_zero hX hQ), roots_X_sub_C, roots_nonreal2 ha hz hw hmap, add_zero]

theorem coeffs3 {P : ℝ[X]} (h : P.natDegree ≤ 3) :
    P = C (P.coeff 3) * X ^ 3 + C (P.coeff 2) * X ^ 2 + C (P.coeff 1) * X + C (P.coeff 0) := by
  conv_lhs => rw [P.as_sum_range_C_mul_X_pow' (n := 4) (by omega)]
  simp only [Finset.sum_range_succ, Finset.sum_range_zero, pow_zero, pow_one]
  ring

/-- What C47 and C48 say of a call, put together. -/
theorem lists_gen {P : ℝ[X]} (hS : Solvable P) {res : Res (Roots ℝ)}
    (h0 : ∀ c : ℝ, c ≠ 0 → P = C c → res = .ok .noRoots)
    (h1 : ∀ b c : ℝ, b ≠ 0 → P = C b * X + C c → res = .ok (.manyRealRoots [-c / b]))
    (h2 : ∀ a b c : ℝ, a ≠ 0 → (b ≠ 0 ∨ c ≠ 0) → P = C a * X ^ 2 + C b * X + C c →
      (0 ≤ b ^ 2 - 4 * a * c → ∃ r s, res = .ok (.manyRealRoots [r, s]) ∧ P = C a * (X - C r) * (X - C s)) ∧
      (b ^ 2 - 4 * a * c < 0 → ∃ z w, res = .ok (.manyComplexRoots [z, w]) ∧ w.toC = (starRingEnd ℂ) z.toC ∧ z.toC ≠ w.toC ∧
        P.map (algebraMap ℝ ℂ) = C (a : ℂ) * (X - C z.toC) * (X - C w.toC)))
    (h3 : ∀ a b c d : ℝ, a ≠ 0 → (b ≠ 0 ∨ c ≠ 0 ∨ d ≠ 0) → P = C a * X ^ 3 + C b * X ^ 2 + C c * X + C d →
      (18 * a * b * c * d - 4 * b ^ 3 * d + b ^ 2 * c ^ 2 - 4 * a * c ^ 3 - 27 * a ^ 2 * d ^ 2 ≤ 0 ∨
        2 * b ^ 3 - 9 * a * b * c + 27 * a ^ 2 * d = 0) →
      (∃ x r s, res = .ok (.manyRealRoots [x, r, s]) ∧ P = C a * (X - C x) * (X - C r) * (X - C s)) ∨
      (∃ x z w, res = .ok (.manyComplexRoots [⟨x, 0⟩, z, w]) ∧ w.toC = (starRingEnd ℂ) z.toC ∧ z.toC ≠ w.toC ∧
        P.map (algebraMap ℝ ℂ) = C (a : ℂ) * (X - C (x : ℂ)) * (X - C z.toC) * (X - C w.toC)))
    (h4 : 4 ≤ P.natDegree → (∀ c n, P ≠ C c * X ^ n) →
      ∃ l, res = .ok (rootsAnswer P.natDegree l) ∧ (l : Multiset ℝ) = P.roots) : ListsRoots res P := by
  obtain ⟨hP, hm, hc⟩ := hS
  by_cases hd : 4 ≤ P.natDegree
  · obtain ⟨l, hl, hr⟩ := h4 hd (fun c n h => by
      rcases Nat.lt_or_ge n 2 with hn | hn
      · have := (natDegree_C_mul_X_pow_le c n)
        rw [← h] at this; omega
      · exact hm c n hn h)
    refine ⟨_, hl, ?_⟩
    rw [← hr]
    unfold rootsAnswer
    split
    · rename_i h; simp [h, Roots.reals]
    · split <;> rfl
  · have hlc : P.coeff P.natDegree ≠ 0 := leadingCoeff_ne_zero.2 hP
    have hP3 := coeffs3 (show P.natDegree ≤ 3 by omega)
    have hz : ∀ k, P.natDegree < k → P.coeff k = 0 := fun k hk => coeff_eq_zero_of_natDegree_lt hk
    rcases (by omega : P.natDegree = 0 ∨ P.natDegree = 1 ∨ P.natDegree = 2 ∨ P.natDegree = 3) with h | h | h | h
    · rw [h] at hlc
      rw [hz 3 (by omega), hz 2 (by omega), hz 1 (by omega)] at hP3
      have hP0 : P = C (P.coeff 0) := by simpa using hP3
      exact ⟨_, h0 _ hlc hP0, ((congrArg roots hP0).trans (roots_C _)).symm⟩
    · rw [h] at hlc
      rw [hz 3 (by omega), hz 2 (by omega)] at hP3
      have hP1 : P = C (P.coeff 1) * X + C (P.coeff 0) := by simpa using hP3
      exact ⟨_, h1 _ _ hlc hP1, ((congrArg roots hP1).trans (roots_linear hlc)).symm⟩
    · rw [h] at hlc
      rw [hz 3 (by omega)] at hP3
      have hP2 : P = C (P.coeff 2) * X ^ 2 + C (P.coeff 1) * X + C (P.coeff 0) := by simpa using hP3
      have hne : P.coeff 1 ≠ 0 ∨ P.coeff 0 ≠ 0 := by
        by_contra hcon
        push Not at hcon
        rw [hcon.1, hcon.2] at hP2
        exact hm _ 2 le_rfl (by simpa using hP2)
      obtain ⟨ha, hb⟩ := h2 _ _ _ hlc hne hP2
      rcases le_or_gt 0 (P.coeff 1 ^ 2 - 4 * P.coeff 2 * P.coeff 0) with hD | hD
      · obtain ⟨r, s, e1, e2⟩ := ha hD
        exact ⟨_, e1, ((congrArg roots e2).trans (roots_split2 hlc)).symm⟩
      · obtain ⟨z, w, e1, e2, e3, e4⟩ := hb hD
        obtain ⟨hz, hw⟩ := im_ne_zero_of_conj e2 e3
        refine ⟨_, e1, ?_⟩
        rw [roots_nonreal2 hlc hz hw e4]
        simp [Roots.reals, realOnes, hz, hw]
    · rw [h] at hlc
      have hne : P.coeff 2 ≠ 0 ∨ P.coeff 1 ≠ 0 ∨ P.coeff 0 ≠ 0 := by
        by_contra hcon
        push Not at hcon
        rw [hcon.1, hcon.2.1, hcon.2.2] at hP3
        exact hm _ 3 (by omega) (by simpa using hP3)
      rcases h3 _ _ _ _ hlc hne hP3 (hc h) with ⟨x, r, s, e1, e2⟩ | ⟨x, z, w, e1, e2, e3, e4⟩
      · exact ⟨_, e1, ((congrArg roots e2).trans (roots_split3 hlc)).symm⟩
      · obtain ⟨hz, hw⟩ := im_ne_zero_of_conj e2 e3
        refine ⟨_, e1, ?_⟩
        rw [roots_nonreal3 hlc hz hw e4]
        simp [Roots.reals, realOnes, hz, hw]

theorem solvable_smul {P : ℝ[X]} {k : ℝ} (hk : k ≠ 0) (h : Solvable P) : Solvable (C k * P) := by
  obtain ⟨h1, h2, h3⟩ := h
  refine ⟨mul_ne_zero (by simpa using hk) h1, fun c n hn e => h2 (k⁻¹ * c) n hn ?_, fun hd => ?_⟩
  · calc P = C k⁻¹ * (C k * P) := by rw [← mul_assoc, ← C_mul, inv_mul_cancel₀ hk, C_1, one_mul]
      _ = C (k⁻¹ * c) * X ^ n := by rw [e, ← mul_assoc, ← C_mul]
  · rw [natDegree_C_mul hk] at hd
    simp only [coeff_C_mul]
    rcases h3 hd with h | h
    · left
      have hk4 : 0 ≤ k ^ 4 := by positivity
      have := mul_nonpos_of_nonneg_of_nonpos hk4 h
      calc _ = _ := by ring
        _ ≤ 0 := this
    · right
      have := congrArg (k ^ 3 * ·) h
      simp only [mul_zero] at this
      rw [← this]; ring

theorem only_gen {P : ℝ[X]} {res : Res (Roots ℝ)} (hP : P ≠ 0) (hl : ListsRoots res P)
    (hm : ∀ c n, c ≠ 0 → n ≠ 0 → P = C c * X ^ n → res = .ok (.manyRealRoots [0]))
    (h3 : ∀ a b c d : ℝ, a ≠ 0 → P = C a * X ^ 3 + C b * X ^ 2 + C c * X + C d →
      0 < 18 * a * b * c * d - 4 * b ^ 3 * d + b ^ 2 * c ^ 2 - 4 * a * c ^ 3 - 27 * a ^ 2 * d ^ 2 →
      2 * b ^ 3 - 9 * a * b * c + 27 * a ^ 2 * d ≠ 0 →
      ∃ x, ((∃ r s, res = .ok (.manyRealRoots [x, r, s])) ∨ ∃ z w, res = .ok (.manyComplexRoots [⟨x, 0⟩, z, w])) ∧
        ¬ (C a * X ^ 3 + C b * X ^ 2 + C c * X + C d : ℝ[X]).IsRoot x) : Solvable P := by
  obtain ⟨ans, h1, h2⟩ := hl
  refine ⟨hP, fun c n hn h => ?_, fun hd => ?_⟩
  · have hc : c ≠ 0 := by rintro rfl; exact hP (by simpa using h)
    rw [hm c n hc (by omega) h] at h1
    cases h1
    rw [h, C47_monomial_multiplicity c n hc] at h2
    have := congrArg Multiset.card h2
    simp [Roots.reals] at this
    omega
  · by_contra hcon
    push Not at hcon
    have hlc : P.coeff P.natDegree ≠ 0 := leadingCoeff_ne_zero.2 hP
    rw [hd] at hlc
    have hP3 := coeffs3 (show P.natDegree ≤ 3 by omega)
    obtain ⟨x, hx, hr⟩ := h3 _ _ _ _ hlc hP3 hcon.1 hcon.2
    rw [← hP3] at hr
    apply hr
    rw [← mem_roots hP, ← h2]
    rcases hx with ⟨r, s, e⟩ | ⟨z, w, e⟩
    · rw [e] at h1; cases h1; simp [Roots.reals]
    · rw [e] at h1; cases h1; simp [Roots.reals, realOnes]

noncomputable instance : LawfulRDiv ℝ where
  rdiv_eq _ _ _ := rfl

section
variable (oracle : List ℝ → List ℝ) (ho : ExactOracle oracle) (rnd : ℝ → ℝ)
include ho

/-- C114: `roots()` of a solvable polynomial lists exactly its real roots, each as often as it is a root. -/
theorem C114_lists (p : Poly ℝ) (hS : Solvable (descPoly p.terms)) (fuel : Nat) (hf : (descPoly p.terms).natDegree + 1 ≤ fuel) :
    ListsRoots (p.roots oracle rnd fuel) (descPoly p.terms) := by
  refine lists_gen hS (fun c hc h => (C47_constant oracle rnd fuel c hc).1 p h)
    (fun b c hb h => (C47_linear oracle rnd fuel b c hb).1 p h) (fun a b c ha hbc h => ?_) (fun a b c d ha hbc h hd => ?_)
    (fun h4 hm => C48_roots oracle ho rnd p h4 hm fuel hf)
  · have := C47_quadratic oracle rnd fuel a b c ha hbc _ (.inl ⟨p, h, rfl⟩)
    rw [h]; exact this
  · have := C47_cubic_partial oracle rnd fuel a b c d ha hbc _ (.inl ⟨p, h, rfl⟩) hd
    rw [h]; exact this

/-- C114, for SparsePolynomial with exponents below `2 ^ 31` (C07). -/
theorem C114_lists_sparse (p : Sparse ℝ) (hS : Solvable (entriesPoly p.terms.entries)) (hb : ∀ e ∈ p.terms.entries, e.1 < 2 ^ 31)
    (fuel : Nat) (hf : (entriesPoly p.terms.entries).natDegree + 1 ≤ fuel) :
    ListsRoots (p.roots oracle rnd fuel) (entriesPoly p.terms.entries) := by
  refine lists_gen hS (fun c hc h => (C47_constant oracle rnd fuel c hc).2 p h)
    (fun b c hb h => (C47_linear oracle rnd fuel b c hb).2 p h) (fun a b c ha hbc h => ?_) (fun a b c d ha hbc h hd => ?_)
    (fun h4 hm => C48_roots_sparse oracle ho rnd p h4 hm hb fuel hf)
  · have := C47_quadratic oracle rnd fuel a b c ha hbc _ (.inr ⟨p, h, rfl⟩)
    rw [h]; exact this
  · have := C47_cubic_partial oracle rnd fuel a b c d ha hbc _ (.inr ⟨p, h, rfl⟩) hd
    rw [h]; exact this

/-- C114: only the solvable polynomials, and zero, have their roots listed so. -/
theorem C114_only (p : Poly ℝ) (hp : descPoly p.terms ≠ 0) (fuel : Nat) (hf : (descPoly p.terms).natDegree + 1 ≤ fuel) :
    ListsRoots (p.roots oracle rnd fuel) (descPoly p.terms) ↔ Solvable (descPoly p.terms) :=
  ⟨fun h => only_gen hp h (fun c n hc hn e => (C47_monomial oracle rnd fuel c n hc hn).1 p e)
    (fun a b c d ha e h1 h2 => C47_cubic_false oracle rnd fuel a b c d ha _ (.inl ⟨p, e, rfl⟩) h1 h2),
    fun h => C114_lists oracle ho rnd p h fuel hf⟩

/-- C114, the same for SparsePolynomial. -/
theorem C114_only_sparse (p : Sparse ℝ) (hp : entriesPoly p.terms.entries ≠ 0) (hb : ∀ e ∈ p.terms.entries, e.1 < 2 ^ 31)
    (fuel : Nat) (hf : (entriesPoly p.terms.entries).natDegree + 1 ≤ fuel) :
    ListsRoots (p.roots oracle rnd fuel) (entriesPoly p.terms.entries) ↔ Solvable (entriesPoly p.terms.entries) :=
  ⟨fun h => only_gen hp h (fun c n hc hn e => (C47_monomial oracle rnd fuel c n hc hn).2 p e)
    (fun a b c d ha e h1 h2 => C47_cubic_false oracle rnd fuel a b c d ha _ (.inr ⟨p, e, rfl⟩) h1 h2),
    fun h => C114_lists_sparse oracle ho rnd p h hb fuel hf⟩

/-- C114: the numbers listed are exactly the zeros of `eval`, at most as many as the degree. -/
theorem C114_eval (p : Poly ℝ) (hS : Solvable (descPoly p.terms)) (fuel : Nat) (hf : (descPoly p.terms).natDegree + 1 ≤ fuel) :
    ∃ a, p.roots oracle rnd fuel = .ok a ∧ (∀ x, x ∈ a.reals ↔ p.eval x = 0) ∧ a.reals.card ≤ (descPoly p.terms).natDegree := by
  obtain ⟨a, h1, h2⟩ := C114_lists oracle ho rnd p hS fuel hf
  refine ⟨a, h1, fun x => ?_, by rw [h2]; exact card_roots' _⟩
  rw [h2, mem_roots hS.1, C06_dense_eval]; rfl

/-- C114: multiplying by a number other than zero, and negating, change no root. -/
theorem C114_scale (p : Poly ℝ) (hS : Solvable (descPoly p.terms)) (k : ℝ) (hk : k ≠ 0) (fuel : Nat)
    (hf : (descPoly p.terms).natDegree + 1 ≤ fuel) :
    ∃ a b c, p.roots oracle rnd fuel = .ok a ∧ (p.mulScalar k).roots oracle rnd fuel = .ok b ∧
      p.neg.roots oracle rnd fuel = .ok c ∧ b.reals = a.reals ∧ c.reals = a.reals := by
  obtain ⟨a, h1, h2⟩ := C114_lists oracle ho rnd p hS fuel hf
  have e1 := C13_dense_mul_scalar p k
  have e2 : descPoly p.neg.terms = C (-1) * descPoly p.terms := by rw [(C10_dense_neg p).1]; simp
  obtain ⟨b, h3, h4⟩ := C114_lists oracle ho rnd (p.mulScalar k) (by rw [e1]; exact solvable_smul hk hS) fuel (by
    rw [e1, natDegree_C_mul hk]; exact hf)
  have hn : (-1 : ℝ) ≠ 0 := by norm_num
  obtain ⟨c, h5, h6⟩ := C114_lists oracle ho rnd p.neg (by rw [e2]; exact solvable_smul hn hS) fuel (by
    rw [e2, natDegree_C_mul hn]; exact hf)
  refine ⟨a, b, c, h1, h3, h5, ?_, ?_⟩
  · rw [h4, h2, e1, roots_C_mul _ hk]
  · rw [h6, h2, e2, roots_C_mul _ hn]

/-- C114: the roots of a product are those of the factors together. -/
theorem C114_mul (p q : Poly ℝ) (hp : Solvable (descPoly p.terms)) (hq : Solvable (descPoly q.terms))
    (hpq : Solvable (descPoly p.terms * descPoly q.terms)) (fuel : Nat)
    (hf : (descPoly p.terms).natDegree + (descPoly q.terms).natDegree + 1 ≤ fuel) :
    ∃ r a b c, p.mul q = .ok r ∧ p.roots oracle rnd fuel = .ok a ∧ q.roots oracle rnd fuel = .ok b ∧
      r.roots oracle rnd fuel = .ok c ∧ c.reals = a.reals + b.reals := by
  obtain ⟨a, h1, h2⟩ := C114_lists oracle ho rnd p hp fuel (by omega)
  obtain ⟨b, h3, h4⟩ := C114_lists oracle ho rnd q hq fuel (by omega)
  obtain ⟨r, hr, er⟩ := (C11_dense_mul_partial p q (.inl hp.1)).1
  obtain ⟨c, h5, h6⟩ := C114_lists oracle ho rnd r (by rw [er]; exact hpq) fuel (by
    rw [er, natDegree_mul hp.1 hq.1]; exact hf)
  exact ⟨r, a, b, c, hr, h1, h3, h5, by rw [h6, er, roots_mul hpq.1, h2, h4]⟩

/-- C114: shifting by `k` adds the root zero `k` times. -/
theorem C114_shl (p : Poly ℝ) (k : Nat) (hp : Solvable (descPoly p.terms)) (hk : Solvable (descPoly p.terms * X ^ k)) (fuel : Nat)
    (hf : (descPoly p.terms).natDegree + k + 1 ≤ fuel) :
    ∃ r a b, p.shl (k : Int) = .ok r ∧ p.roots oracle rnd fuel = .ok a ∧ r.roots oracle rnd fuel = .ok b ∧
      b.reals = a.reals + Multiset.replicate k 0 := by
  obtain ⟨a, h1, h2⟩ := C114_lists oracle ho rnd p hp fuel (by omega)
  obtain ⟨r, hr, er⟩ := (C14_dense_shl p (k : Int)).1 (by omega)
  rw [Int.toNat_natCast] at er
  obtain ⟨b, h5, h6⟩ := C114_lists oracle ho rnd r (by rw [er]; exact hk) fuel (by
    rw [er, natDegree_mul hp.1 (pow_ne_zero _ X_ne_zero), natDegree_X_pow]; exact hf)
  refine ⟨r, a, b, hr, h1, h5, ?_⟩
  rw [h6, er, roots_mul hk.1, h2, roots_X_pow, Multiset.nsmul_singleton]

/-- C114: dividing by `x - x₀` for a listed root `x₀` leaves no remainder and takes this root off the list once. -/
theorem C114_deflate (p : Poly ℝ) (hp : Solvable (descPoly p.terms)) (fuel : Nat)
    (hf : p.terms.length + 1 ≤ fuel) :
    ∃ a, p.roots oracle rnd fuel = .ok a ∧ ∀ x ∈ a.reals, ∃ q r, p.divMod fuel ⟨[1, -x]⟩ = .ok (q, r) ∧ descPoly r.terms = 0 ∧
      (Solvable (descPoly q.terms) → ∃ b, q.roots oracle rnd fuel = .ok b ∧ a.reals = x ::ₘ b.reals) := by
  have hlen : (descPoly p.terms).natDegree + 1 ≤ fuel := by
    have h := descPoly_degree_lt p.terms
    rw [degree_eq_natDegree hp.1] at h
    have : (descPoly p.terms).natDegree < p.terms.length := by exact_mod_cast h
    omega
  obtain ⟨a, h1, h2⟩ := C114_lists oracle ho rnd p hp fuel hlen
  refine ⟨a, h1, fun x hx => ?_⟩
  have hb : descPoly [1, -x] = X - C x := by simp [descPoly_cons, sub_eq_add_neg]
  obtain ⟨q, r, s, e1, -, -, e2, e3, -⟩ := ((C59_dense_division_outcome p ⟨[1, -x]⟩).2 (by
    show descPoly [1, -x] ≠ 0
    rw [hb]; exact X_sub_C_ne_zero x)).1 fuel hf
  have e2 : descPoly q.terms = descPoly p.terms / (X - C x) := by rw [e2]; exact congrArg _ hb
  have e3 : descPoly r.terms = descPoly p.terms % (X - C x) := by rw [e3]; exact congrArg _ hb
  have hdvd : X - C x ∣ descPoly p.terms := dvd_iff_isRoot.2 (isRoot_of_mem_roots (h2 ▸ hx))
  have hmul : (X - C x) * descPoly q.terms = descPoly p.terms := by
    rw [e2]; exact EuclideanDomain.mul_div_cancel' (X_sub_C_ne_zero x) hdvd
  refine ⟨q, r, e1, by rw [e3]; exact EuclideanDomain.mod_eq_zero.2 hdvd, fun hq => ?_⟩
  obtain ⟨b, h3, h4⟩ := C114_lists oracle ho rnd q hq fuel (by
    have := congrArg natDegree hmul
    rw [natDegree_mul (X_sub_C_ne_zero x) hq.1, natDegree_X_sub_C] at this
    omega)
  refine ⟨b, h3, ?_⟩
  rw [h2, h4, ← hmul, roots_mul (hmul ▸ hp.1), roots_X_sub_C]
  rfl

/-- C114: a number is listed twice or more exactly if it is a zero of the polynomial and of its derivative; between two numbers listed for
the polynomial there is one listed for the derivative; and the derivative lists at most one number less. -/
theorem C114_derivative [FromUsizeCont ℝ] [LawfulFromUsizeCont ℝ] (p d : Poly ℝ) (hd : p.derivative = .ok d)
    (hp : Solvable (descPoly p.terms)) (fuel : Nat) (hf : (descPoly p.terms).natDegree + 1 ≤ fuel) :
    ∃ a, p.roots oracle rnd fuel = .ok a ∧ (∀ x, 2 ≤ a.reals.count x ↔ p.eval x = 0 ∧ d.eval x = 0) ∧
      (Solvable (descPoly d.terms) → ∃ b, d.roots oracle rnd fuel = .ok b ∧
        (∀ x y, x ∈ a.reals → y ∈ a.reals → x < y → ∃ z, x < z ∧ z < y ∧ z ∈ b.reals) ∧ a.reals.card ≤ b.reals.card + 1) := by
  obtain ⟨a, h1, h2⟩ := C114_lists oracle ho rnd p hp fuel hf
  have ed : descPoly d.terms = derivative (descPoly p.terms) := by
    rcases C16_dense_derivative p with h | ⟨r, hr, er⟩
    · rw [h] at hd; cases hd
    · rw [hr] at hd; cases hd; exact er
  refine ⟨a, h1, fun x => ?_, fun hS => ?_⟩
  · rw [h2, count_roots, C06_dense_eval, C06_dense_eval, ed]
    exact one_lt_rootMultiplicity_iff_isRoot hp.1
  · obtain ⟨b, h3, h4⟩ := C114_lists oracle ho rnd d hS fuel (by
      rw [ed]; have := natDegree_derivative_le (descPoly p.terms); omega)
    refine ⟨b, h3, fun x y hx hy hxy => ?_, ?_⟩
    · rw [h2, mem_roots hp.1] at hx hy
      obtain ⟨z, hz, hz'⟩ := exists_deriv_eq_zero (f := fun t => (descPoly p.terms).eval t) hxy
        ((descPoly p.terms).continuous.continuousOn) (by rw [hx.eq_zero, hy.eq_zero])
      refine ⟨z, hz.1, hz.2, ?_⟩
      rw [h4, mem_roots hS.1, ed, IsRoot, ← Polynomial.deriv]
      exact hz'
    · rw [h2, h4, ed]; exact card_roots_le_derivative _

end

theorem solvable_of_coeffs {P : ℝ[X]} (i j : Nat) (hij : i ≠ j) (hi : P.coeff i ≠ 0) (hj : P.coeff j ≠ 0)
    (hd : P.natDegree ≠ 3) : Solvable P := by
  refine ⟨fun h => hi (by simp [h]), fun c n _ h => ?_, fun h => absurd h hd⟩
  rw [h, coeff_C_mul_X_pow] at hi hj
  simp only [ne_eq, ite_eq_right_iff, Classical.not_imp] at hi hj
  exact hij (hi.1.trans hj.1.symm)

-- `x² - 3x + 2`, `x² - 4`, and their product, of degree four; a cubic to which the formula applies, and one to which it does not
theorem solvable_examples : Solvable (descPoly [1, -3, 2]) ∧ Solvable (descPoly [1, 0, -4]) ∧
    Solvable (descPoly [1, -3, 2] * descPoly [1, 0, -4]) ∧ Solvable (descPoly [1, 0, 0, -8]) ∧
    ¬ Solvable (descPoly [1, -7, 14, -8]) ∧ ¬ Solvable (descPoly [5, 0, 0]) := by
  have e1 : (descPoly [1, -3, 2] : ℝ[X]) = C 1 * X ^ 2 + C (-3) * X + C 2 := by simp [descPoly_cons]; ring
  have e2 : (descPoly [1, 0, -4] : ℝ[X]) = C 1 * X ^ 2 + C 0 * X + C (-4) := by simp [descPoly_cons]
  have d1 : (descPoly [1, -3, 2] : ℝ[X]).natDegree = 2 := by rw [e1]; exact natDegree_quadratic one_ne_zero
  have d2 : (descPoly [1, 0, -4] : ℝ[X]).natDegree = 2 := by rw [e2]; exact natDegree_quadratic one_ne_zero
  have n1 : (descPoly [1, -3, 2] : ℝ[X]) ≠ 0 := fun h => by rw [h] at d1; simp at d1
  have n2 : (descPoly [1, 0, -4] : ℝ[X]) ≠ 0 := fun h => by rw [h] at d2; simp at d2
  have e3 : (descPoly [1, 0, 0, -8] : ℝ[X]) = C 1 * X ^ 3 + C 0 * X ^ 2 + C 0 * X + C (-8) := by simp [descPoly_cons]
  have e4 : (descPoly [1, -7, 14, -8] : ℝ[X]) = C 1 * X ^ 3 + C (-7) * X ^ 2 + C 14 * X + C (-8) := by simp [descPoly_cons]; ring
  have d4 : (descPoly [1, -7, 14, -8] : ℝ[X]).natDegree = 3 := by rw [e4]; exact natDegree_cubic one_ne_zero
  refine ⟨solvable_of_coeffs 0 1 (by decide) ?_ ?_ (by omega), solvable_of_coeffs 0 2 (by decide) ?_ ?_ (by omega),
    solvable_of_coeffs 0 4 (by decide) ?_ ?_ (by rw [natDegree_mul n1 n2]; omega), ⟨?_, ?_, fun _ => .inl ?_⟩, ?_, ?_⟩
  · rw [e1]; simp
  · rw [e1]; simp
  · rw [e2]; simp
  · rw [e2]; simp
  · rw [mul_coeff_zero, e1, e2]; simp
  · rw [e1, e2]
    have : (C 1 * X ^ 2 + C (-3) * X + C 2 : ℝ[X]) * (C 1 * X ^ 2 + C 0 * X + C (-4)) =
        C 1 * X ^ 4 + C (-3) * X ^ 3 + C (-2) * X ^ 2 + C 12 * X + C (-8) := by
      simp only [map_neg, map_one, map_ofNat, map_zero]; ring
    rw [this]; simp
  · rw [e3]; intro h; have := congrArg (coeff · 0) h; simp at this
  · intro c n hn h
    have := congrArg (coeff · 0) h
    rw [e3] at this
    simp [coeff_X_pow, show 0 ≠ n by omega] at this
  · rw [e3]; simp
  · rintro ⟨-, -, h⟩
    have := h d4
    rw [e4] at this
    simp [coeff_X, coeff_C] at this
    norm_num at this
  · rintro ⟨-, h, -⟩
    exact h 5 2 le_rfl (by simp [descPoly_cons])

-- with an exact solver: the roots of `(x² - 3x + 2)(x² - 4)` are those of the two factors, and the listed root of `x² - 4` can be divided out
example : ∃ oracle, ExactOracle oracle ∧
    (∃ r a b c, (⟨[1, -3, 2]⟩ : Poly ℝ).mul ⟨[1, 0, -4]⟩ = .ok r ∧ (⟨[1, -3, 2]⟩ : Poly ℝ).roots oracle id 6 = .ok a ∧
      (⟨[1, 0, -4]⟩ : Poly ℝ).roots oracle id 6 = .ok b ∧ r.roots oracle id 6 = .ok c ∧ c.reals = a.reals + b.reals) ∧
    (∃ a, (⟨[1, 0, -4]⟩ : Poly ℝ).roots oracle id 6 = .ok a ∧ (2 : ℝ) ∈ a.reals ∧
      ∀ x ∈ a.reals, ∃ q r, (⟨[1, 0, -4]⟩ : Poly ℝ).divMod 6 ⟨[1, -x]⟩ = .ok (q, r) ∧ descPoly r.terms = 0) := by
  obtain ⟨oracle, ho⟩ := exactOracle_exists
  obtain ⟨h1, h2, h3, -⟩ := solvable_examples
  have l1 : (descPoly ([1, -3, 2] : List ℝ)).natDegree = 2 :=
    natDegree_eq_of_degree_eq_some (descPoly_cons_degree (R := ℝ) [-3, 2] one_ne_zero)
  have l2 : (descPoly ([1, 0, -4] : List ℝ)).natDegree = 2 :=
    natDegree_eq_of_degree_eq_some (descPoly_cons_degree (R := ℝ) [0, -4] one_ne_zero)
  refine ⟨oracle, ho, C114_mul oracle ho id ⟨[1, -3, 2]⟩ ⟨[1, 0, -4]⟩ h1 h2 h3 6 (by show _ + _ + 1 ≤ 6; rw [l1, l2]; omega), ?_⟩
  obtain ⟨a, e, h⟩ := C114_deflate oracle ho id ⟨[1, 0, -4]⟩ h2 6 (by decide)
  obtain ⟨a', e', h', -⟩ := C114_eval oracle ho id ⟨[1, 0, -4]⟩ h2 6 (by show _ + 1 ≤ 6; rw [l2]; omega)
  rw [e] at e'
  cases e'
  refine ⟨a, e, (h' 2).2 ?_, fun x hx => ?_⟩
  · rw [C06_dense_eval]
    show (descPoly [1, 0, -4]).eval (2 : ℝ) = 0
    simp [descPoly_cons]; norm_num
  · obtain ⟨q, r, h1, h2, -⟩ := h x hx
    exact ⟨q, r, h1, h2⟩

end Rustnomial
