import Verif.SpecFloatFixed
import Verif.Props.FloatSparse
import Verif.Props.ArrayPoly

/-!
# Fixed-size polynomials and queries in floating point (C86)
-/

open Polynomial

set_option linter.unusedSectionVars false

namespace Rustnomial
namespace Fl
variable {f : FlFmt}

/-! ## Queries -/

theorem isZero_toRat [NumZero ℚ] [LawfulNumZero ℚ] {c : Fl f} (h : c.isFinite = true) : isZero c.toRat = isZero c := by
  have := isZero_iff_toRat h
  cases hz : isZero c with
  | true => simpa using this.1 hz
  | false =>
    have h0 : ¬ c.toRat = 0 := fun e => by rw [this.2 e] at hz; cases hz
    simpa using h0

theorem dropWhile_map_toRat [NumZero ℚ] [LawfulNumZero ℚ] (l : List (Fl f)) (h : ∀ c ∈ l, c.isFinite = true) :
    (l.map toRat).dropWhile isZero = (l.dropWhile isZero).map toRat := by
  induction l with
  | nil => rfl
  | cons c cs ih =>
    rw [List.map_cons, List.dropWhile_cons, List.dropWhile_cons, isZero_toRat (h c (by simp))]
    split
    · exact ih fun c hc => h c (by simp [hc])
    · rfl

theorem denseDegree_map_toRat [NumZero ℚ] [LawfulNumZero ℚ] (l : List (Fl f)) (h : ∀ c ∈ l, c.isFinite = true) :
    denseDegree (l.map toRat) = denseDegree l := by
  rw [denseDegree_eq, denseDegree_eq, dropWhile_map_toRat l h]
  cases l.dropWhile isZero <;> simp

theorem descTerms_map_toRat [NumZero ℚ] [LawfulNumZero ℚ] (l : List (Fl f)) (h : ∀ c ∈ l, c.isFinite = true) :
    descTerms (l.map toRat) = (descTerms l).map fun t => (t.1.toRat, t.2) := by
  induction l with
  | nil => rfl
  | cons c cs ih =>
    rw [List.map_cons, descTerms, descTerms, isZero_toRat (h c (by simp)), ih fun c hc => h c (by simp [hc])]
    split <;> simp

theorem mem_descTerms {l : List (Fl f)} {t : Fl f × Nat} (h : t ∈ descTerms l) : t.1 ∈ l ∧ isZero t.1 = false := by
  induction l with
  | nil => simp [descTerms] at h
  | cons c cs ih =>
    rw [descTerms] at h
    split at h
    · obtain ⟨h1, h2⟩ := ih h
      exact ⟨by simp [h1], h2⟩
    · rename_i hz
      rcases List.mem_cons.1 h with rfl | h
      · exact ⟨by simp, by simpa using hz⟩
      · obtain ⟨h1, h2⟩ := ih h
        exact ⟨by simp [h1], h2⟩

theorem list_beq_iff (l m : List (Fl f × Nat)) (hl : ∀ t ∈ l, t.1.isFinite = true)
    (hm : ∀ t ∈ m, t.1.isFinite = true) :
    (l == m) = true ↔ l.map (fun t => (t.1.toRat, t.2)) = m.map fun t => (t.1.toRat, t.2) := by
  induction l generalizing m with
  | nil => cases m <;> simp
  | cons a l ih =>
    cases m with
    | nil => simp
    | cons b m =>
      rw [List.cons_beq_cons, Bool.and_eq_true, ih m (fun t ht => hl t (by simp [ht])) (fun t ht => hm t (by simp [ht])),
        List.map_cons, List.map_cons, List.cons.injEq]
      refine and_congr ?_ Iff.rfl
      obtain ⟨x, i⟩ := a
      obtain ⟨y, j⟩ := b
      show (x == y && i == j) = true ↔ _
      rw [Bool.and_eq_true, beq_iff (hl (x, i) (by simp)) (hm (y, j) (by simp)), Prod.mk.injEq]
      simp

/-- C86: degree, zero test, terms, coefficients and equality of a `Polynomial` of finite floats are those of the
exact polynomial; zeros of either sign count as zero. -/
theorem C86_dense (p q : Poly (Fl f)) (hp : ∀ c ∈ p.terms, c.isFinite = true) :
    p.degree.toWithBot = (descPoly (p.terms.map toRat)).degree ∧
    (p.isZeroPoly = true ↔ descPoly (p.terms.map toRat) = 0) ∧
    IsTermListOf (p.orderedTermIter.map fun t => (t.1.toRat, t.2)) (descPoly (p.terms.map toRat)) ∧
    ((∀ c ∈ q.terms, c.isFinite = true) →
      (p.eq q = true ↔ descPoly (p.terms.map toRat) = descPoly (q.terms.map toRat))) := by
  have hd : p.degree = (⟨p.terms.map toRat⟩ : Poly ℚ).degree := (denseDegree_map_toRat _ hp).symm
  have ht : ∀ p : Poly (Fl f), (∀ c ∈ p.terms, c.isFinite = true) →
      (p.orderedTermIter.map fun t => (t.1.toRat, t.2)) = (⟨p.terms.map toRat⟩ : Poly ℚ).orderedTermIter := by
    intro p hp
    rw [orderedTermIter_eq, orderedTermIter_eq, descTerms_map_toRat _ hp]
  refine ⟨by rw [hd, C02_dense_degree], ?_, by rw [ht p hp]; exact (C03_dense_terms _).1, fun hq => ?_⟩
  · rw [← C02_dense_is_zero ⟨p.terms.map toRat⟩]
    unfold Poly.isZeroPoly
    rw [hd]
  · rw [← C05_dense_eq ⟨p.terms.map toRat⟩ ⟨q.terms.map toRat⟩]
    unfold Poly.eq
    rw [list_beq_iff _ _ (fun t h => hp _ (mem_descTerms (by rwa [orderedTermIter_eq] at h)).1)
      (fun t h => hq _ (mem_descTerms (by rwa [orderedTermIter_eq] at h)).1), ht p hp, ht q hq, beq_iff_eq]

/-- C86: a `Polynomial` of floats equals itself unless it stores a NaN. -/
theorem C86_dense_self (p : Poly (Fl f)) : p.eq p = true ↔ .nan ∉ p.terms := by
  unfold Poly.eq
  rw [orderedTermIter_eq]
  induction p.terms with
  | nil => simp [descTerms]
  | cons c cs ih =>
    rw [descTerms]
    split
    · rename_i hz
      rw [ih, List.mem_cons, not_or]
      refine ⟨fun h => ⟨?_, h⟩, fun h => h.2⟩
      rintro rfl
      cases hz
    · rw [List.cons_beq_cons, Bool.and_eq_true, ih, List.mem_cons, not_or]
      refine and_congr ?_ Iff.rfl
      show (c == c && cs.length == cs.length) = true ↔ _
      rw [Bool.and_eq_true]
      constructor
      · rintro ⟨h, _⟩ rfl
        rw [(beq_nan _).1] at h
        cases h
      · intro h
        exact ⟨beq_self fun e => h e.symm, by simp⟩

/-- C86: the same for `term_with_degree`. -/
theorem C86_dense_term (p : Poly (Fl f)) (hp : ∀ c ∈ p.terms, c.isFinite = true) (d : Nat) :
    ((descPoly (p.terms.map toRat)).coeff d = 0 → p.termWithDegree d = .zeroTerm) ∧
    ((descPoly (p.terms.map toRat)).coeff d ≠ 0 →
      ∃ c, p.termWithDegree d = .term c d ∧ c.toRat = (descPoly (p.terms.map toRat)).coeff d) := by
  have h := C04_dense_term (⟨p.terms.map toRat⟩ : Poly ℚ) d
  have key : ∀ x : Option (ℚ), (⟨p.terms.map toRat⟩ : Poly ℚ).termWithDegree d =
      (match x with | none => .zeroTerm | some x => .term x d) →
      (match x with
        | none => p.termWithDegree d = .zeroTerm
        | some x => ∃ c, p.termWithDegree d = .term c d ∧ c.toRat = x) := by
    intro x hx
    unfold Poly.termWithDegree termWithDeg at hx ⊢
    rw [List.length_map] at hx
    by_cases hlt : d < p.terms.length
    · rw [if_pos hlt] at hx ⊢
      have hi : p.terms.length - d - 1 < p.terms.length := by omega
      have hi' : p.terms.length - d - 1 < (p.terms.map toRat).length := by simpa using hi
      rw [List.getD_eq_getElem _ _ hi'] at hx
      rw [List.getD_eq_getElem _ _ hi]
      rw [List.getElem_map] at hx
      unfold Term.new at hx ⊢
      rw [isZero_toRat (hp _ (List.getElem_mem hi))] at hx
      by_cases hz : isZero p.terms[p.terms.length - d - 1] = true
      · rw [if_pos hz] at hx ⊢
        cases x with
        | none => rfl
        | some x => cases hx
      · rw [if_neg hz] at hx ⊢
        cases x with
        | none => cases hx
        | some x =>
          injection hx with hx
          exact ⟨_, rfl, hx⟩
    · rw [if_neg hlt] at hx ⊢
      cases x with
      | none => rfl
      | some x => cases hx
  exact ⟨fun h0 => key none (h.1 h0), fun h0 => key (some _) (h.2 h0)⟩

-- `-0.0 x^2 + 0.1 x + 0` has degree 1 and equals `0.1 x - 0.0`
example : (⟨[-0, div 1 (ofNat 10), 0]⟩ : Poly (Fl binary64)).degree = .num 1 ∧
    (⟨[-0, div 1 (ofNat 10), 0]⟩ : Poly (Fl binary64)).eq ⟨[div 1 (ofNat 10), -0]⟩ = true ∧
    (⟨[nan]⟩ : Poly (Fl binary64)).eq ⟨[nan]⟩ = false ∧
    (⟨[-0, div 1 (ofNat 10), 0]⟩ : Poly (Fl binary64)).termWithDegree 2 = .zeroTerm := by decide +kernel

/-! ### The fixed-size types -/

theorem linear_ratPoly (b : LinearBinomial (Fl f)) : b.ratPoly = descPoly (b.coefficients.map toRat) := by
  simp [LinearBinomial.ratPoly, LinearBinomial.coefficients, descPoly]

theorem quadratic_ratPoly (t : QuadraticTrinomial (Fl f)) : t.ratPoly = descPoly (t.coefficients.map toRat) := by
  simp [QuadraticTrinomial.ratPoly, QuadraticTrinomial.coefficients, descPoly, add_assoc]

/-- C86: degree, zero test, terms and equality of `Monomial`s of finite floats are those of the exact
polynomial. -/
theorem C86_monomial (m n : Monomial (Fl f)) (hm : m.coefficient.isFinite = true)
    (hn : n.coefficient.isFinite = true) :
    m.degree.toWithBot = m.ratPoly.degree ∧ (m.isZeroPoly = true ↔ m.ratPoly = 0) ∧
    IsTermListOf (m.orderedTermIter.map fun t => (t.1.toRat, t.2)) m.ratPoly ∧
    (m.eq n = true ↔ m.ratPoly = n.ratPoly) := by
  have e : ∀ m : Monomial (Fl f), m.ratPoly = (⟨m.coefficient.toRat, m.deg⟩ : Monomial ℚ).poly := fun _ => rfl
  have hd : m.degree = (⟨m.coefficient.toRat, m.deg⟩ : Monomial ℚ).degree := by
    unfold Monomial.degree
    rw [isZero_toRat hm]
  rw [e, e]
  refine ⟨by rw [hd, C02_monomial_degree], ?_, ?_, ?_⟩
  · rw [← (C02_fixed_is_zero ⟨m.coefficient.toRat, m.deg⟩ (⟨0, 0⟩ : LinearBinomial ℚ) ⟨0, 0, 0⟩).1]
    unfold Monomial.isZeroPoly
    rw [hd]
  · have h := (C03_monomial_terms (⟨m.coefficient.toRat, m.deg⟩ : Monomial ℚ)).1
    have : (m.orderedTermIter.map fun t => (t.1.toRat, t.2)) =
        (⟨m.coefficient.toRat, m.deg⟩ : Monomial ℚ).orderedTermIter := by
      unfold Monomial.orderedTermIter
      dsimp only
      rw [isZero_toRat hm]
      cases isZero m.coefficient <;> simp
    rw [this]
    exact h
  · rw [← C05_monomial_eq]
    unfold Monomial.eq Monomial.asTerm Term.new
    dsimp only
    rw [isZero_toRat hm, isZero_toRat hn]
    cases isZero m.coefficient <;> cases isZero n.coefficient <;> simp [beq_iff hm hn]

/-- C86: the same for `LinearBinomial`s. -/
theorem C86_binomial (a b : LinearBinomial (Fl f)) (ha : a.AllFinite) (hb : b.AllFinite) :
    a.degree.toWithBot = a.ratPoly.degree ∧ (a.isZeroPoly = true ↔ a.ratPoly = 0) ∧
    IsTermListOf (a.orderedTermIter.map fun t => (t.1.toRat, t.2)) a.ratPoly ∧
    (a.eq b = true ↔ a.ratPoly = b.ratPoly) := by
  have e : ∀ m : LinearBinomial (Fl f), m.ratPoly = (⟨m.c0.toRat, m.c1.toRat⟩ : LinearBinomial ℚ).poly :=
    fun _ => rfl
  have hd : a.degree = (⟨a.c0.toRat, a.c1.toRat⟩ : LinearBinomial ℚ).degree := by
    unfold LinearBinomial.degree
    rw [isZero_toRat ha.1, isZero_toRat ha.2]
  rw [e, e]
  refine ⟨by rw [hd, C02_binomial_degree], ?_, ?_, ?_⟩
  · rw [← (C02_fixed_is_zero (⟨0, 0⟩ : Monomial ℚ) ⟨a.c0.toRat, a.c1.toRat⟩ ⟨0, 0, 0⟩).2.1]
    unfold LinearBinomial.isZeroPoly
    rw [hd]
  · have h := (C03_binomial_terms (⟨a.c0.toRat, a.c1.toRat⟩ : LinearBinomial ℚ)).1
    have : (a.orderedTermIter.map fun t => (t.1.toRat, t.2)) =
        (⟨a.c0.toRat, a.c1.toRat⟩ : LinearBinomial ℚ).orderedTermIter := by
      unfold LinearBinomial.orderedTermIter LinearBinomial.coefficients
      simp only [List.zipIdx_cons, List.zipIdx_nil, List.filterMap_cons, List.filterMap_nil, isZero_toRat ha.1,
        isZero_toRat ha.2]
      cases isZero a.c0 <;> cases isZero a.c1 <;> simp
    rw [this]
    exact h
  · rw [← C05_binomial_eq]
    unfold LinearBinomial.eq
    rw [Bool.and_eq_true, Bool.and_eq_true, beq_iff ha.1 hb.1, beq_iff ha.2 hb.2, beq_iff_eq, beq_iff_eq]

/-- C86: the same for `QuadraticTrinomial`s. -/
theorem C86_trinomial (a b : QuadraticTrinomial (Fl f)) (ha : a.AllFinite) (hb : b.AllFinite) :
    a.degree.toWithBot = a.ratPoly.degree ∧ (a.isZeroPoly = true ↔ a.ratPoly = 0) ∧
    IsTermListOf (a.orderedTermIter.map fun t => (t.1.toRat, t.2)) a.ratPoly ∧
    (a.eq b = true ↔ a.ratPoly = b.ratPoly) := by
  have e : ∀ m : QuadraticTrinomial (Fl f),
      m.ratPoly = (⟨m.c0.toRat, m.c1.toRat, m.c2.toRat⟩ : QuadraticTrinomial ℚ).poly := fun _ => rfl
  have hd : a.degree = (⟨a.c0.toRat, a.c1.toRat, a.c2.toRat⟩ : QuadraticTrinomial ℚ).degree := by
    unfold QuadraticTrinomial.degree
    rw [isZero_toRat ha.1, isZero_toRat ha.2.1, isZero_toRat ha.2.2]
  rw [e, e]
  refine ⟨by rw [hd, C02_trinomial_degree], ?_, ?_, ?_⟩
  · rw [← (C02_fixed_is_zero (⟨0, 0⟩ : Monomial ℚ) ⟨0, 0⟩ ⟨a.c0.toRat, a.c1.toRat, a.c2.toRat⟩).2.2]
    unfold QuadraticTrinomial.isZeroPoly
    rw [hd]
  · have h := (C03_trinomial_terms (⟨a.c0.toRat, a.c1.toRat, a.c2.toRat⟩ : QuadraticTrinomial ℚ)).1
    have : (a.orderedTermIter.map fun t => (t.1.toRat, t.2)) =
        (⟨a.c0.toRat, a.c1.toRat, a.c2.toRat⟩ : QuadraticTrinomial ℚ).orderedTermIter := by
      unfold QuadraticTrinomial.orderedTermIter QuadraticTrinomial.coefficients
      simp only [List.zipIdx_cons, List.zipIdx_nil, List.filterMap_cons, List.filterMap_nil, isZero_toRat ha.1,
        isZero_toRat ha.2.1, isZero_toRat ha.2.2]
      cases isZero a.c0 <;> cases isZero a.c1 <;> cases isZero a.c2 <;> simp
    rw [this]
    exact h
  · rw [← C05_trinomial_eq]
    unfold QuadraticTrinomial.eq
    simp only [Bool.and_eq_true, beq_iff ha.1 hb.1, beq_iff ha.2.1 hb.2.1, beq_iff ha.2.2 hb.2.2, beq_iff_eq]

/-- C86: the same for `ArrayPolynomial`s (whose term iterator is wrong, see C52). -/
theorem C86_array {size : Nat} (a b : ArrayPoly (Fl f) size) (ha : ∀ c ∈ a.coefficients, c.isFinite = true)
    (hb : ∀ c ∈ b.coefficients, c.isFinite = true) :
    a.degree.toWithBot = (descPoly (a.coefficients.map toRat)).degree ∧
    (a.isZeroPoly = true ↔ descPoly (a.coefficients.map toRat) = 0) ∧
    (a.eq b = true ↔ descPoly (a.coefficients.map toRat) = descPoly (b.coefficients.map toRat)) := by
  have h := C86_dense ⟨a.coefficients⟩ ⟨b.coefficients⟩ ha
  refine ⟨h.1, h.2.1, ?_⟩
  have key : ∀ l m : List (Fl f), l.length = m.length → (∀ c ∈ l, c.isFinite = true) → (∀ c ∈ m, c.isFinite = true) →
      ((l == m) = true ↔ l.map toRat = m.map toRat) := by
    intro l
    induction l with
    | nil => intro m hm; cases m <;> simp
    | cons x l ih =>
      intro m hlen hl hm
      cases m with
      | nil => simp
      | cons y m =>
        rw [List.cons_beq_cons, Bool.and_eq_true, ih m (by simpa using hlen) (fun t ht => hl t (by simp [ht]))
          (fun t ht => hm t (by simp [ht])), List.map_cons, List.map_cons, List.cons.injEq,
          beq_iff (hl x (by simp)) (hm y (by simp))]
  unfold ArrayPoly.eq
  rw [key _ _ (by rw [a.length_eq, b.length_eq]) ha hb]
  have h2 := C52_array_eq (⟨a.coefficients.map toRat, by rw [List.length_map, a.length_eq]⟩ : ArrayPoly ℚ size)
    ⟨b.coefficients.map toRat, by rw [List.length_map, b.length_eq]⟩
  rw [← h2]
  unfold ArrayPoly.eq
  rw [beq_iff_eq]

-- `-0.0 x^5` is zero; `0.5x - 0.0` equals `0.5x + 0`
example : (⟨-0, 5⟩ : Monomial (Fl binary32)).isZeroPoly = true ∧
    (⟨-0, 5⟩ : Monomial (Fl binary32)).eq ⟨0, 3⟩ = true ∧
    (⟨div 1 (ofNat 2), -0⟩ : LinearBinomial (Fl binary32)).eq ⟨div 1 (ofNat 2), 0⟩ = true ∧
    (⟨-0, 1, nan⟩ : QuadraticTrinomial (Fl binary32)).degree = .num 1 ∧
    (⟨[-0, 1, 1], rfl⟩ : ArrayPoly (Fl binary32) 3).eq ⟨[0, 1, 1], rfl⟩ = true := by decide +kernel

/-! ## Evaluation -/

/-- `v` is an approximation of `a` with `n` roundings relative to `A` and an absolute error `ε`. -/
def Apx (n : Nat) (A ε : ℚ) (v : Fl f) (a : ℚ) : Prop :=
  |a| ≤ A ∧ |v.toRat - a| ≤ ((1 + uro f) ^ n - 1) * A + ε

theorem Apx_refl (v : Fl f) : Apx 0 |v.toRat| 0 v v.toRat := ⟨le_rfl, by simp⟩

theorem Apx_mul {n : Nat} {A ε a : ℚ} {v x : Fl f} (h : Apx n A ε v a) (hf : (v * x).isFinite = true) :
    Apx (n + 1) (A * |x.toRat|) ((1 + uro f) * ε * |x.toRat| + eta f) (v * x) (a * x.toRat) := by
  have hu := uro_nonneg (f := f)
  obtain ⟨h1, h2⟩ := h
  refine ⟨by rw [abs_mul]; exact mul_le_mul_of_nonneg_right h1 (abs_nonneg _), ?_⟩
  have h3 := mul_error hf
  have hX := abs_nonneg x.toRat
  have j1 : |(v * x).toRat - a * x.toRat| ≤ |(v * x).toRat - v.toRat * x.toRat| + |v.toRat - a| * |x.toRat| := by
    rw [← abs_mul, sub_mul]
    exact abs_sub_le _ _ _
  have j2 : |v.toRat * x.toRat| ≤ (A + |v.toRat - a|) * |x.toRat| := by
    rw [abs_mul]
    refine mul_le_mul_of_nonneg_right ?_ hX
    have := abs_add_le (v.toRat - a) a
    rw [sub_add_cancel] at this
    linarith
  have j3 := mul_le_mul_of_nonneg_left j2 hu
  have j4 : (1 + uro f) * |v.toRat - a| * |x.toRat| ≤
      (1 + uro f) * (((1 + uro f) ^ n - 1) * A + ε) * |x.toRat| :=
    mul_le_mul_of_nonneg_right (mul_le_mul_of_nonneg_left h2 (by linarith)) hX
  rw [pow_succ]
  nlinarith

theorem Apx_add {n : Nat} {A ε a : ℚ} {v c : Fl f} (h : Apx n A ε v a) (hf : (v + c).isFinite = true) :
    Apx (n + 1) (A + |c.toRat|) ((1 + uro f) * ε) (v + c) (a + c.toRat) := by
  have hu := uro_nonneg (f := f)
  obtain ⟨h1, h2⟩ := h
  refine ⟨(abs_add_le _ _).trans (by linarith), ?_⟩
  have h3 := add_error hf
  have hC := abs_nonneg c.toRat
  have j1 : |(v + c).toRat - (a + c.toRat)| ≤ |(v + c).toRat - (v.toRat + c.toRat)| + |v.toRat - a| := by
    have := abs_sub_le (v + c).toRat (v.toRat + c.toRat) (a + c.toRat)
    rwa [add_sub_add_right_eq_sub] at this
  have j2 : |v.toRat + c.toRat| ≤ A + |v.toRat - a| + |c.toRat| := by
    have i1 := abs_add_le v.toRat c.toRat
    have i2 := abs_add_le (v.toRat - a) a
    rw [sub_add_cancel] at i2
    linarith
  have j3 := mul_le_mul_of_nonneg_left j2 hu
  have j4 := mul_le_mul_of_nonneg_left h2 (by linarith : 0 ≤ 1 + uro f)
  have hg : 1 ≤ (1 + uro f) ^ n := one_le_pow₀ (by linarith)
  have j5 : (1 + uro f) * |c.toRat| ≤ (1 + uro f) ^ n * ((1 + uro f) * |c.toRat|) :=
    le_mul_of_one_le_left (by positivity) hg
  rw [pow_succ]
  nlinarith

theorem mul_comm' (x y : Fl f) : x * y = y * x := by
  rw [mul_def, mul_def]
  cases x <;> cases y <;> simp only [mul]
  all_goals simp [Nat.mul_comm, bne_comm]

/-- C86: `LinearBinomial::eval`: two roundings relative to `|ax| + |b|`. -/
theorem C86_binomial_eval (b : LinearBinomial (Fl f)) (x : Fl f) (h : (b.eval x).isFinite = true) :
    |(b.eval x).toRat - b.ratPoly.eval x.toRat| ≤
      ((1 + uro f) ^ 2 - 1) * (|b.c0.toRat| * |x.toRat| + |b.c1.toRat|) + (1 + uro f) * eta f := by
  unfold LinearBinomial.eval at h ⊢
  rw [mul_comm'] at h ⊢
  have := (Apx_add (Apx_mul (Apx_refl b.c0) (finite_of_add h).1) h).2
  simpa [LinearBinomial.ratPoly] using this

/-- C86: `QuadraticTrinomial::eval`: four roundings relative to `|ax²| + |bx| + |c|`. -/
theorem C86_trinomial_eval (t : QuadraticTrinomial (Fl f)) (x : Fl f) (h : (t.eval x).isFinite = true) :
    |(t.eval x).toRat - t.ratPoly.eval x.toRat| ≤
      ((1 + uro f) ^ 4 - 1) *
        (|t.c0.toRat| * |x.toRat| ^ 2 + |t.c1.toRat| * |x.toRat| + |t.c2.toRat|) +
      (1 + uro f) * ((1 + uro f) ^ 2 * |x.toRat| + 1) * eta f := by
  unfold QuadraticTrinomial.eval at h ⊢
  rw [mul_comm'] at h ⊢
  have h1 := (finite_of_add h).1
  have h2 := (finite_of_mul h1).1
  have := (Apx_add (Apx_mul (Apx_add (Apx_mul (Apx_refl t.c0) (finite_of_add h2).1) h2) h1) h).2
  refine le_of_eq_of_le ?_ (this.trans (le_of_eq ?_))
  · congr 2
    simp [QuadraticTrinomial.ratPoly]
    ring
  · ring

/-- C86: `Monomial::eval`, the power having a relative error of at most `δ`. -/
theorem C86_monomial_eval [PowUsize (Fl f)] (m : Monomial (Fl f)) (x : Fl f) (δ : ℚ)
    (hpow : |(upow x m.deg).toRat - x.toRat ^ m.deg| ≤ δ * |x.toRat| ^ m.deg)
    (h : (m.eval x).isFinite = true) :
    |(m.eval x).toRat - m.ratPoly.eval x.toRat| ≤
      ((1 + uro f) * (1 + δ) - 1) * |m.ratPoly.eval x.toRat| + eta f := by
  unfold Monomial.eval at h ⊢
  have hu := uro_nonneg (f := f)
  have h1 := mul_error h
  have e : m.ratPoly.eval x.toRat = m.coefficient.toRat * x.toRat ^ m.deg := by simp [Monomial.ratPoly]
  rw [e, abs_mul, abs_pow]
  generalize (upow x m.deg).toRat = y at *
  generalize m.coefficient.toRat = c at *
  have hc := abs_nonneg c
  have j1 := abs_sub_le (m.coefficient * upow x m.deg).toRat (c * y) (c * x.toRat ^ m.deg)
  rw [← mul_sub, abs_mul] at j1
  have j2 : |c * y| ≤ |c| * (|x.toRat| ^ m.deg + |y - x.toRat ^ m.deg|) := by
    rw [abs_mul]
    refine mul_le_mul_of_nonneg_left ?_ hc
    have := abs_add_le (y - x.toRat ^ m.deg) (x.toRat ^ m.deg)
    rw [sub_add_cancel, abs_pow] at this
    linarith
  have j3 := mul_le_mul_of_nonneg_left j2 hu
  have j4 := mul_le_mul_of_nonneg_left hpow (mul_nonneg (by linarith : 0 ≤ 1 + uro f) hc)
  nlinarith

/-- C86: `ArrayPolynomial::eval`: at a zero of either sign the last coefficient, elsewhere the bound of C66. -/
theorem C86_array_eval {size : Nat} (p : ArrayPoly (Fl f) size) (x : Fl f) :
    (isZero x = true → (p.eval x).toRat = (descPoly (p.coefficients.map toRat)).eval 0) ∧
    ((p.eval x).isFinite = true → |(p.eval x).toRat - (descPoly (p.coefficients.map toRat)).eval x.toRat| ≤
      ((1 + uro f) ^ (2 * (size - 1) + 1) - 1) *
          (descPoly (p.coefficients.map fun c => |c.toRat|)).eval |x.toRat| +
        (1 + uro f) * eta f * ∑ i ∈ Finset.range (size - 1), ((1 + uro f) ^ 2 * |x.toRat|) ^ i) := by
  have hu := uro_nonneg (f := f)
  have hη := eta_nonneg (f := f)
  have h0 : isZero x = true → (p.eval x).toRat = (descPoly (p.coefficients.map toRat)).eval 0 := by
    intro hz
    unfold ArrayPoly.eval
    rcases List.eq_nil_or_concat p.coefficients with hl | ⟨l, c, hl⟩
    · rw [hl]; simp
    · rw [hl, List.concat_eq_append]
      simp only [List.getLast?_append, List.getLast?_singleton, Option.some_or, if_pos hz]
      rw [List.map_append, descPoly_append]
      simp [descPoly]
  refine ⟨h0, fun h => ?_⟩
  by_cases hz : isZero x = true
  · have hx : x.toRat = 0 := by
      obtain ⟨s, rfl⟩ := isZero_iff.1 hz
      exact toRat_fin_zero s
    rw [h0 hz, hx, sub_self, abs_zero]
    have h1 : 1 ≤ (1 + uro f) ^ (2 * (size - 1) + 1) := one_le_pow₀ (by linarith)
    have h2 : 0 ≤ (descPoly (p.coefficients.map fun c => |c.toRat|)).eval 0 := by
      rcases List.eq_nil_or_concat p.coefficients with hl | ⟨l, c, hl⟩
      · rw [hl]; simp
      · rw [hl, List.concat_eq_append, List.map_append, descPoly_append]
        simp [descPoly]
    have h3 : 0 ≤ ∑ i ∈ Finset.range (size - 1), ((1 + uro f) ^ 2 * |(0 : ℚ)|) ^ i :=
      Finset.sum_nonneg fun i _ => by positivity
    have h4 := mul_nonneg (by linarith : 0 ≤ (1 + uro f) ^ (2 * (size - 1) + 1) - 1) h2
    have h5 := mul_nonneg (mul_nonneg (by linarith : (0 : ℚ) ≤ 1 + uro f) hη) h3
    rw [abs_zero] at *
    linarith
  · have he : p.eval x = (⟨p.coefficients⟩ : Poly (Fl f)).eval x := by
      unfold ArrayPoly.eval Poly.eval
      dsimp only
      cases p.coefficients.getLast? with
      | none => rfl
      | some c => simp only [if_neg hz]
    rw [he] at h ⊢
    have := C66_eval_error ⟨p.coefficients⟩ x h
    simpa only [p.length_eq] using this

/-- C86: exact evaluation of integer polynomials whose terms stay below `2^53` (`2^24`) in sum. -/
theorem C86_eval_exact (hp : 1 ≤ f.p) (hw : f.p + f.q ≤ f.w) (b : LinearBinomial (Fl f))
    (t : QuadraticTrinomial (Fl f)) (x : Fl f) (hb : b.AllFinite) (ht : t.AllFinite) (hx : x.isFinite = true)
    (b0 b1 t0 t1 t2 z : ℤ) (e0 : b.c0.toRat = b0) (e1 : b.c1.toRat = b1) (g0 : t.c0.toRat = t0)
    (g1 : t.c1.toRat = t1) (g2 : t.c2.toRat = t2) (ez : x.toRat = z) :
    (|(b0 : ℚ) * z| + |(b1 : ℚ)| < 2 ^ f.p →
      (b.eval x).isFinite = true ∧ (b.eval x).toRat = b.ratPoly.eval x.toRat) ∧
    (|(t0 : ℚ) * z| + |(t1 : ℚ)| < 2 ^ f.p → |(t0 : ℚ) * z ^ 2| + |(t1 : ℚ) * z| + |(t2 : ℚ)| < 2 ^ f.p →
      (t.eval x).isFinite = true ∧ (t.eval x).toRat = t.ratPoly.eval x.toRat) := by
  have nn : ∀ y : ℚ, 0 ≤ |y| := fun y => abs_nonneg y
  constructor
  · intro h
    unfold LinearBinomial.eval
    rw [mul_comm']
    have h1 := int_mul hp hw hb.1 hx e0 ez (by have := nn b1; linarith)
    have h2 := int_add hp hw h1.1 hb.2 (a := b0 * z) (by rw [h1.2]; push_cast; rfl) e1
      (by push_cast; exact (abs_add_le _ _).trans_lt h)
    refine ⟨h2.1, ?_⟩
    rw [h2.2]
    simp [LinearBinomial.ratPoly, e0, e1, ez]
  · intro h h'
    unfold QuadraticTrinomial.eval
    rw [mul_comm']
    have h1 := int_mul hp hw ht.1 hx g0 ez (by have := nn t1; linarith)
    have h2 := int_add hp hw h1.1 ht.2.1 (a := t0 * z) (by rw [h1.2]; push_cast; rfl) g1
      (by push_cast; exact (abs_add_le _ _).trans_lt h)
    have hle : |((t0 : ℚ) * z + t1) * z| ≤ |(t0 : ℚ) * z ^ 2| + |(t1 : ℚ) * z| := by
      rw [show ((t0 : ℚ) * z + t1) * z = t0 * z ^ 2 + t1 * z by ring]
      exact abs_add_le _ _
    have h3 := int_mul hp hw h2.1 hx (a := t0 * z + t1) (by rw [h2.2]; push_cast; rfl) ez
      (by push_cast; have := nn t2; linarith)
    have h4 := int_add hp hw h3.1 ht.2.2 (a := (t0 * z + t1) * z) (by rw [h3.2]; push_cast; rfl) g2
      (by push_cast; exact (abs_add_le _ _).trans_lt (by linarith))
    refine ⟨h4.1, ?_⟩
    rw [h4.2]
    simp [QuadraticTrinomial.ratPoly, g0, g1, g2, ez]
    ring

-- `3x^2 - 5x + 7` at 11, `0.1x + 0.2` at 3
example : ((⟨ofNat 3, -ofNat 5, ofNat 7⟩ : QuadraticTrinomial (Fl binary32)).eval (ofNat 11)).toRat = 315 ∧
    ((⟨div 1 (ofNat 10), div 1 (ofNat 5)⟩ : LinearBinomial (Fl binary64)).eval (ofNat 3)).isFinite = true ∧
    ((⟨[inf false, ofNat 3], rfl⟩ : ArrayPoly (Fl binary64) 2).eval (-0)).toRat = 3 := by decide +kernel
section ExamplePow
attribute [local instance] exPow
example : ((⟨ofNat 7, 3⟩ : Monomial (Fl binary64)).eval (ofNat 3)).toRat = 189 ∧
    |(upow (ofNat 3 : Fl binary64) 3).toRat - (ofNat 3 : Fl binary64).toRat ^ 3| ≤
      0 * |(ofNat 3 : Fl binary64).toRat| ^ 3 := by decide +kernel
end ExamplePow

/-! ## Coefficientwise operations -/

theorem coeff_linear (a b : ℚ) (k : Nat) : (C a * X + C b : ℚ[X]).coeff k = if k = 0 then b else if k = 1 then a else 0 := by
  rcases k with _ | _ | k
  all_goals simp [coeff_X]

theorem coeff_quadratic (a b c : ℚ) (k : Nat) : (C a * X ^ 2 + C b * X + C c : ℚ[X]).coeff k =
    if k = 0 then c else if k = 1 then b else if k = 2 then a else 0 := by
  rcases k with _ | _ | _ | k
  all_goals simp [coeff_X]

/-- C86: `LinearBinomial` sums and differences have one rounding per coefficient, negation none. -/
theorem C86_binomial_add (a b : LinearBinomial (Fl f)) :
    ((a.add b).AllFinite → ∀ k,
      |((a.add b).ratPoly - (a.ratPoly + b.ratPoly)).coeff k| ≤ uro f * |(a.ratPoly + b.ratPoly).coeff k|) ∧
    ((a.sub b).AllFinite → ∀ k,
      |((a.sub b).ratPoly - (a.ratPoly - b.ratPoly)).coeff k| ≤ uro f * |(a.ratPoly - b.ratPoly).coeff k|) ∧
    a.neg.ratPoly = -a.ratPoly := by
  refine ⟨fun h k => ?_, fun h k => ?_, ?_⟩
  · rw [coeff_sub, coeff_add]
    simp only [LinearBinomial.ratPoly, coeff_linear]
    have h1 := add_error h.1
    have h2 := add_error h.2
    unfold LinearBinomial.add LinearBinomial.new
    rcases k with _ | _ | k
    · simpa using h2
    · simpa using h1
    · simp
  · rw [coeff_sub, coeff_sub]
    simp only [LinearBinomial.ratPoly, coeff_linear]
    have h1 := sub_error h.1
    have h2 := sub_error h.2
    unfold LinearBinomial.sub LinearBinomial.new
    rcases k with _ | _ | k
    · simpa using h2
    · simpa using h1
    · simp
  · simp only [LinearBinomial.ratPoly, LinearBinomial.neg, LinearBinomial.new, toRat_neg, map_neg]
    ring

/-- C86: the same for `QuadraticTrinomial`s. -/
theorem C86_trinomial_add (a b : QuadraticTrinomial (Fl f)) :
    ((a.add b).AllFinite → ∀ k,
      |((a.add b).ratPoly - (a.ratPoly + b.ratPoly)).coeff k| ≤ uro f * |(a.ratPoly + b.ratPoly).coeff k|) ∧
    ((a.sub b).AllFinite → ∀ k,
      |((a.sub b).ratPoly - (a.ratPoly - b.ratPoly)).coeff k| ≤ uro f * |(a.ratPoly - b.ratPoly).coeff k|) ∧
    a.neg.ratPoly = -a.ratPoly := by
  refine ⟨fun h k => ?_, fun h k => ?_, ?_⟩
  · rw [coeff_sub, coeff_add]
    simp only [QuadraticTrinomial.ratPoly, coeff_quadratic]
    have h1 := add_error h.1
    have h2 := add_error h.2.1
    have h3 := add_error h.2.2
    unfold QuadraticTrinomial.add QuadraticTrinomial.new
    rcases k with _ | _ | _ | k
    · simpa using h3
    · simpa using h2
    · simpa using h1
    · simp
  · rw [coeff_sub, coeff_sub]
    simp only [QuadraticTrinomial.ratPoly, coeff_quadratic]
    have h1 := sub_error h.1
    have h2 := sub_error h.2.1
    have h3 := sub_error h.2.2
    unfold QuadraticTrinomial.sub QuadraticTrinomial.new
    rcases k with _ | _ | _ | k
    · simpa using h3
    · simpa using h2
    · simpa using h1
    · simp
  · simp only [QuadraticTrinomial.ratPoly, QuadraticTrinomial.neg, QuadraticTrinomial.new, toRat_neg, map_neg]
    ring

/-- C86: scaling `LinearBinomial`s and `QuadraticTrinomial`s: one rounding per coefficient. -/
theorem C86_mul_scalar (b : LinearBinomial (Fl f)) (t : QuadraticTrinomial (Fl f)) (m : Monomial (Fl f)) (a : Fl f) :
    ((b.mulScalar a).AllFinite → ∀ k, |(b.mulScalar a).ratPoly.coeff k - b.ratPoly.coeff k * a.toRat| ≤
      uro f * |b.ratPoly.coeff k * a.toRat| + eta f) ∧
    ((t.mulScalar a).AllFinite → ∀ k, |(t.mulScalar a).ratPoly.coeff k - t.ratPoly.coeff k * a.toRat| ≤
      uro f * |t.ratPoly.coeff k * a.toRat| + eta f) ∧
    ((m.mulScalar a).coefficient.isFinite = true → ∀ k,
      |(m.mulScalar a).ratPoly.coeff k - m.ratPoly.coeff k * a.toRat| ≤
      uro f * |m.ratPoly.coeff k * a.toRat| + eta f) ∧
    m.neg.ratPoly = -m.ratPoly := by
  have hη := eta_nonneg (f := f)
  refine ⟨fun h k => ?_, fun h k => ?_, fun h k => ?_, ?_⟩
  · simp only [LinearBinomial.ratPoly, coeff_linear]
    have h1 := mul_error h.1
    have h2 := mul_error h.2
    unfold LinearBinomial.mulScalar LinearBinomial.new
    rcases k with _ | _ | k
    · simpa using h2
    · simpa using h1
    · simpa using hη
  · simp only [QuadraticTrinomial.ratPoly, coeff_quadratic]
    have h1 := mul_error h.1
    have h2 := mul_error h.2.1
    have h3 := mul_error h.2.2
    unfold QuadraticTrinomial.mulScalar QuadraticTrinomial.new
    rcases k with _ | _ | _ | k
    · simpa using h3
    · simpa using h2
    · simpa using h1
    · simpa using hη
  · simp only [Monomial.ratPoly, coeff_C_mul, coeff_X_pow]
    have h1 := mul_error h
    by_cases hk : k = m.deg
    · subst hk
      simpa [Monomial.mulScalar, Monomial.new] using h1
    · have hk' : ¬ k = (m.mulScalar a).deg := hk
      simpa [hk, hk'] using hη
  · simp [Monomial.ratPoly, Monomial.neg, Monomial.new, toRat_neg]

/-- C86: division by a finite non-zero scalar always returns, with one rounding per coefficient. -/
theorem C86_div_scalar (b : LinearBinomial (Fl f)) (t : QuadraticTrinomial (Fl f)) (m : Monomial (Fl f)) (a : Fl f)
    (hb : b.AllFinite) (ht : t.AllFinite) (hm : m.coefficient.isFinite = true) (ha : a.isFinite = true)
    (ha0 : a.toRat ≠ 0) :
    (∃ r, b.divScalar a = .ok r ∧ (r.AllFinite → ∀ k, |r.ratPoly.coeff k - b.ratPoly.coeff k / a.toRat| ≤
      uro f * |b.ratPoly.coeff k / a.toRat| + eta f)) ∧
    (∃ r, t.divScalar a = .ok r ∧ (r.AllFinite → ∀ k, |r.ratPoly.coeff k - t.ratPoly.coeff k / a.toRat| ≤
      uro f * |t.ratPoly.coeff k / a.toRat| + eta f)) ∧
    (∃ r, m.divScalar a = .ok r ∧ (r.coefficient.isFinite = true → ∀ k,
      |r.ratPoly.coeff k - m.ratPoly.coeff k / a.toRat| ≤ uro f * |m.ratPoly.coeff k / a.toRat| + eta f)) := by
  have hη := eta_nonneg (f := f)
  refine ⟨⟨⟨div b.c0 a, div b.c1 a⟩, rfl, fun h k => ?_⟩, ⟨⟨div t.c0 a, div t.c1 a, div t.c2 a⟩, rfl, fun h k => ?_⟩,
    ⟨⟨div m.coefficient a, m.deg⟩, rfl, fun h k => ?_⟩⟩
  · simp only [LinearBinomial.ratPoly, coeff_linear]
    have h1 := div_error hb.1 ha ha0 h.1
    have h2 := div_error hb.2 ha ha0 h.2
    rcases k with _ | _ | k
    · simpa using h2
    · simpa using h1
    · simpa using hη
  · simp only [QuadraticTrinomial.ratPoly, coeff_quadratic]
    have h1 := div_error ht.1 ha ha0 h.1
    have h2 := div_error ht.2.1 ha ha0 h.2.1
    have h3 := div_error ht.2.2 ha ha0 h.2.2
    rcases k with _ | _ | _ | k
    · simpa using h3
    · simpa using h2
    · simpa using h1
    · simpa using hη
  · simp only [Monomial.ratPoly, coeff_C_mul, coeff_X_pow]
    have h1 := div_error hm ha ha0 h
    by_cases hk : k = m.deg
    · subst hk
      simpa using h1
    · simpa [hk] using hη

/-- C86: the product of monomials is rounded once. -/
theorem C86_monomial_mul (m n : Monomial (Fl f)) (h : (m.mul n).coefficient.isFinite = true) (k : Nat) :
    |((m.mul n).ratPoly - m.ratPoly * n.ratPoly).coeff k| ≤
      uro f * |(m.ratPoly * n.ratPoly).coeff k| + eta f := by
  have hη := eta_nonneg (f := f)
  have h1 := mul_error h
  have e : m.ratPoly * n.ratPoly =
      C (m.coefficient.toRat * n.coefficient.toRat) * X ^ (m.deg + n.deg) := by
    simp only [Monomial.ratPoly, map_mul, pow_add]
    ring
  rw [e, coeff_sub, Monomial.ratPoly, coeff_C_mul, coeff_C_mul, coeff_X_pow, coeff_X_pow]
  change |(m.coefficient * n.coefficient).toRat * (if k = m.deg + n.deg then 1 else 0) - _| ≤ _
  by_cases hk : k = m.deg + n.deg
  · simpa [hk] using h1
  · simpa [hk] using hη

-- `0.1x + 0.2` plus `0.2x - 0.2`; thirds of `x² + 2x + 3`
example : ((⟨div 1 (ofNat 10), div 1 (ofNat 5)⟩ : LinearBinomial (Fl binary64)).add
      ⟨div 1 (ofNat 5), -div 1 (ofNat 5)⟩).c0.toRat = 1351079888211149 / 4503599627370496 ∧
    ((⟨1, ofNat 2, ofNat 3⟩ : QuadraticTrinomial (Fl binary64)).divScalar (ofNat 3)) =
      .ok ⟨div 1 (ofNat 3), div (ofNat 2) (ofNat 3), 1⟩ ∧
    (ofNat 3 : Fl binary64).toRat ≠ 0 := by decide +kernel
example : (⟨div 1 (ofNat 10), 5⟩ : Monomial (Fl binary64)).mul ⟨ofNat 3, 2⟩ = ⟨div 1 (ofNat 10) * ofNat 3, 7⟩ ∧
    ((⟨div 1 (ofNat 10), 5⟩ : Monomial (Fl binary64)).mul ⟨ofNat 3, 2⟩).coefficient.isFinite = true ∧
    ((⟨1, 1, 1⟩ : QuadraticTrinomial (Fl binary64)).sub ⟨1, ofNat 2, 0⟩) = ⟨0, -1, 1⟩ := by decide +kernel

/-! ## Derivative and integral -/

theorem quadratic_derivative [FromUsizeExact (Fl f)] (hl : ExactLaw f) (hp : 2 ≤ f.p) (t : QuadraticTrinomial (Fl f)) :
    ∃ r, t.derivative = .ok r ∧ (r.AllFinite → ∀ k,
      |(r.ratPoly - derivative t.ratPoly).coeff k| ≤ uro f * |(derivative t.ratPoly).coeff k|) := by
  have hu := uro_nonneg (f := f)
  have h2 := hl 2 (by norm_num)
  cases ht : (tryFromExact 2 : Option (Fl f)) with
  | none =>
    exact absurd ht (h2.2.2 ⟨2, 0, by
      calc 2 < 2 ^ 2 := by norm_num
        _ ≤ 2 ^ f.p := Nat.pow_le_pow_right (by norm_num) hp, by simp⟩)
  | some two =>
    refine ⟨⟨0, t.c0 * two, t.c1⟩, by simp [QuadraticTrinomial.derivative, ht, QuadraticTrinomial.new], fun hr k => ?_⟩
    obtain ⟨d1, d2⟩ := h2.1 two ht
    have e : derivative t.ratPoly = C 0 * X ^ 2 + C (t.c0.toRat * 2) * X + C t.c1.toRat := by
      simp only [QuadraticTrinomial.ratPoly, derivative_add, derivative_C_mul_X_pow, derivative_C_mul_X, derivative_C]
      simp
    have h1 := mul_int_error hr.2.1 d2
    rw [e, coeff_sub]
    simp only [QuadraticTrinomial.ratPoly, coeff_quadratic]
    rw [d2] at h1
    rcases k with _ | _ | _ | k
    · simp only [if_true, sub_self, abs_zero]; positivity
    · simpa using h1
    · simp
    · simp

/-- C86: derivatives of `LinearBinomial`s are exact; those of `QuadraticTrinomial`s always exist, with one
rounding. -/
theorem C86_derivative (b : LinearBinomial (Fl f)) (t : QuadraticTrinomial (Fl binary64))
    (t' : QuadraticTrinomial (Fl binary32)) :
    b.derivative.ratPoly = derivative b.ratPoly ∧
    (∃ r, t.derivative = .ok r ∧ (r.AllFinite → ∀ k,
      |(r.ratPoly - derivative t.ratPoly).coeff k| ≤ uro binary64 * |(derivative t.ratPoly).coeff k|)) ∧
    (∃ r, t'.derivative = .ok r ∧ (r.AllFinite → ∀ k,
      |(r.ratPoly - derivative t'.ratPoly).coeff k| ≤ uro binary32 * |(derivative t'.ratPoly).coeff k|)) := by
  refine ⟨?_, quadratic_derivative exactLaw64 (by decide) t, quadratic_derivative exactLaw32 (by decide) t'⟩
  simp [LinearBinomial.ratPoly, LinearBinomial.derivative, LinearBinomial.new]

theorem monomial_derivative [FromUsizeExact (Fl f)] (hl : ExactLaw f) (m : Monomial (Fl f)) (hd : m.deg < 2 ^ 64 - 1) :
    ((∃ r, m.derivative = .ok r) ↔ (isZero m.coefficient = true ∨ FitsIn f.p m.deg)) ∧
    ∀ r, m.derivative = .ok r → m.coefficient.isFinite = true → r.coefficient.isFinite = true → ∀ k,
      |(r.ratPoly - derivative m.ratPoly).coeff k| ≤ uro f * |(derivative m.ratPoly).coeff k| := by
  have hu := uro_nonneg (f := f)
  have hl := hl m.deg hd
  unfold Monomial.derivative Monomial.degree
  cases hz : isZero m.coefficient with
  | true =>
    refine ⟨⟨fun _ => .inl rfl, fun _ => ⟨Monomial.zero, rfl⟩⟩, fun r h hf _ k => ?_⟩
    cases h
    have hz0 : m.coefficient.toRat = 0 := (isZero_iff_toRat hf).1 hz
    simp [Monomial.ratPoly, Monomial.zero, Monomial.new, hz0]
  | false =>
    simp only [Bool.false_eq_true, if_false, false_or]
    by_cases h0 : m.deg = 0
    · rw [h0]
      refine ⟨⟨fun _ => ⟨0, 0, by positivity, by simp⟩, fun _ => ⟨Monomial.zero, rfl⟩⟩, fun r h hf _ k => ?_⟩
      cases h
      simp [Monomial.ratPoly, Monomial.zero, Monomial.new, h0]
    · obtain ⟨j, hj⟩ := Nat.exists_eq_succ_of_ne_zero h0
      rw [hj] at hl ⊢
      simp only
      cases ht : (tryFromExact (j + 1) : Option (Fl f)) with
      | none =>
        simp only [reduceCtorEq, exists_false, false_iff, IsEmpty.forall_iff, implies_true, and_true]
        exact fun h => hl.2.2 h ht
      | some d =>
        simp only [Res.ok.injEq, exists_eq', true_iff]
        refine ⟨hl.2.1 (by rw [ht]; simp), ?_⟩
        rintro r rfl hf hr k
        obtain ⟨d1, d2⟩ := hl.1 d ht
        have h1 := mul_int_error hr d2
        have e : derivative m.ratPoly = C (m.coefficient.toRat * ((j + 1 : Nat) : ℚ)) * X ^ j := by
          simp only [Monomial.ratPoly, hj, derivative_C_mul_X_pow]
          simp
        rw [e, coeff_sub]
        simp only [Monomial.ratPoly, Monomial.new, coeff_C_mul, coeff_X_pow]
        rw [d2] at h1
        by_cases hk : k = j
        · simpa [hk] using h1
        · simp [hk]

/-- C86: the derivative of a `Monomial` exists exactly when it is zero or its degree is a number of the format, and
has one rounding. -/
theorem C86_monomial_derivative (m : Monomial (Fl binary64)) (m' : Monomial (Fl binary32))
    (hd : m.deg < 2 ^ 64 - 1) (hd' : m'.deg < 2 ^ 64 - 1) :
    ((∃ r, m.derivative = .ok r) ↔ (isZero m.coefficient = true ∨ FitsIn 53 m.deg)) ∧
    (∀ r, m.derivative = .ok r → m.coefficient.isFinite = true → r.coefficient.isFinite = true → ∀ k,
      |(r.ratPoly - derivative m.ratPoly).coeff k| ≤ uro binary64 * |(derivative m.ratPoly).coeff k|) ∧
    ((∃ r, m'.derivative = .ok r) ↔ (isZero m'.coefficient = true ∨ FitsIn 24 m'.deg)) ∧
    (∀ r, m'.derivative = .ok r → m'.coefficient.isFinite = true → r.coefficient.isFinite = true → ∀ k,
      |(r.ratPoly - derivative m'.ratPoly).coeff k| ≤ uro binary32 * |(derivative m'.ratPoly).coeff k|) :=
  ⟨(monomial_derivative exactLaw64 m hd).1, (monomial_derivative exactLaw64 m hd).2,
    (monomial_derivative exactLaw32 m' hd').1, (monomial_derivative exactLaw32 m' hd').2⟩

theorem monomial_integral [FromUsizeExact (Fl f)] (hl : ExactLaw f) (m : Monomial (Fl f))
    (hm : m.coefficient.isFinite = true) (hd : m.deg + 1 < 2 ^ 64 - 1) :
    ((∃ r, m.integral = .ok r) ↔ (isZero m.coefficient = true ∨ FitsIn f.p (m.deg + 1))) ∧
    ∀ r, m.integral = .ok r → r.AllFinite → r.ratPoly.coeff 0 = 0 ∧ ∀ k,
      |r.ratPoly.coeff (k + 1) - m.ratPoly.coeff k / (k + 1)| ≤
        uro f * |m.ratPoly.coeff k / (k + 1)| + eta f := by
  have hη := eta_nonneg (f := f)
  have hl := hl (m.deg + 1) hd
  unfold Monomial.integral Monomial.degree
  cases hz : isZero m.coefficient with
  | true =>
    refine ⟨⟨fun _ => .inl rfl, fun _ => ⟨Sparse.zero, rfl⟩⟩, fun r h _ => ?_⟩
    cases h
    have hz0 : m.coefficient.toRat = 0 := (isZero_iff_toRat hm).1 hz
    have : (Sparse.zero : Sparse (Fl f)).ratPoly = 0 := by
      simp [Sparse.ratPoly, Sparse.zero, BMap.empty, entriesPoly]
    rw [this]
    refine ⟨by simp, fun k => ?_⟩
    simpa [Monomial.ratPoly, hz0] using hη
  | false =>
    simp only [Bool.false_eq_true, if_false, false_or]
    cases ht : (tryFromExact (m.deg + 1) : Option (Fl f)) with
    | none =>
      simp only [reduceCtorEq, exists_false, false_iff, IsEmpty.forall_iff, implies_true, and_true]
      exact fun h => hl.2.2 h ht
    | some d =>
      simp only
      rw [show (rdiv m.coefficient d : Res (Fl f)) = .ok (div m.coefficient d) from rfl, Res.ok_bind]
      simp only [Res.ok.injEq, exists_eq', true_iff]
      refine ⟨hl.2.1 (by rw [ht]; simp), ?_⟩
      rintro r rfl hr
      obtain ⟨d1, d2⟩ := hl.1 d ht
      have d0 : d.toRat ≠ 0 := by rw [d2]; positivity
      have hent : ∀ q : Fl f, isZero q = false →
          (Sparse.fromTerms [(q, m.deg + 1)]).terms.entries = [(m.deg + 1, q)] := by
        intro q hq
        simp [Sparse.fromTerms, Sparse.addTerm, hq, BMap.upsert, BMap.get, BMap.getList, BMap.insert, BMap.insertList,
          Sparse.new, BMap.empty]
      have hent0 : ∀ q : Fl f, isZero q = true → (Sparse.fromTerms [(q, m.deg + 1)]).terms.entries = [] := by
        intro q hq
        simp [Sparse.fromTerms, Sparse.addTerm, hq, Sparse.new, BMap.empty]
      have hget : ∀ j, (Sparse.fromTerms [(div m.coefficient d, m.deg + 1)]).ratPoly.coeff j =
          if isZero (div m.coefficient d) = true then 0
          else if j = m.deg + 1 then (div m.coefficient d).toRat else 0 := by
        intro j
        unfold Sparse.ratPoly
        cases h0 : isZero (div m.coefficient d) with
        | true => rw [hent0 _ h0]; simp [entriesPoly]
        | false => rw [hent _ h0]; simp [entriesPoly, coeff_X_pow]
      have hfin : (div m.coefficient d).isFinite = true := by
        cases h0 : isZero (div m.coefficient d) with
        | true =>
          obtain ⟨s, hs⟩ := isZero_iff.1 h0
          rw [hs]; rfl
        | false =>
          refine hr (m.deg + 1, div m.coefficient d) ?_
          rw [hent _ h0]; simp
      have h1 := div_error hm d1 d0 hfin
      rw [d2] at h1
      have hval : ∀ j, (Sparse.fromTerms [(div m.coefficient d, m.deg + 1)]).ratPoly.coeff j =
          if j = m.deg + 1 then (div m.coefficient d).toRat else 0 := by
        intro j
        rw [hget]
        by_cases h0 : isZero (div m.coefficient d) = true
        · rw [if_pos h0, (isZero_iff_toRat hfin).1 h0]
          simp
        · rw [if_neg h0]
      refine ⟨by rw [hval]; simp, fun k => ?_⟩
      rw [hval]
      simp only [Monomial.ratPoly, coeff_C_mul, coeff_X_pow]
      by_cases hk : k = m.deg
      · subst hk
        push_cast at h1
        simpa using h1
      · have hk' : ¬ k + 1 = m.deg + 1 := by omega
        simpa [hk, hk'] using hη

/-- C86: the integral of a `Monomial` exists exactly when it is zero or its degree plus one is a number of the
format, has one rounding and no constant. -/
theorem C86_monomial_integral (m : Monomial (Fl binary64)) (m' : Monomial (Fl binary32))
    (hm : m.coefficient.isFinite = true) (hm' : m'.coefficient.isFinite = true)
    (hd : m.deg + 1 < 2 ^ 64 - 1) (hd' : m'.deg + 1 < 2 ^ 64 - 1) :
    ((∃ r, m.integral = .ok r) ↔ (isZero m.coefficient = true ∨ FitsIn 53 (m.deg + 1))) ∧
    (∀ r, m.integral = .ok r → r.AllFinite → r.ratPoly.coeff 0 = 0 ∧ ∀ k,
      |r.ratPoly.coeff (k + 1) - m.ratPoly.coeff k / (k + 1)| ≤
        uro binary64 * |m.ratPoly.coeff k / (k + 1)| + eta binary64) ∧
    ((∃ r, m'.integral = .ok r) ↔ (isZero m'.coefficient = true ∨ FitsIn 24 (m'.deg + 1))) ∧
    (∀ r, m'.integral = .ok r → r.AllFinite → r.ratPoly.coeff 0 = 0 ∧ ∀ k,
      |r.ratPoly.coeff (k + 1) - m'.ratPoly.coeff k / (k + 1)| ≤
        uro binary32 * |m'.ratPoly.coeff k / (k + 1)| + eta binary32) :=
  ⟨(monomial_integral exactLaw64 m hm hd).1, (monomial_integral exactLaw64 m hm hd).2,
    (monomial_integral exactLaw32 m' hm' hd').1, (monomial_integral exactLaw32 m' hm' hd').2⟩

theorem linear_integral (b : LinearBinomial (Fl f)) [FromUsizeCont (Fl f)] (hl : CountLaw f)
    (h2 : (tryFromCont 2 : Option (Fl f)) ≠ none) (hb : b.AllFinite) :
    ∃ r, b.integral = .ok r ∧ ((∀ c ∈ r.terms, c.isFinite = true) →
      (descPoly (r.terms.map toRat)).coeff 0 = 0 ∧ ∀ k,
        |(descPoly (r.terms.map toRat)).coeff (k + 1) - b.ratPoly.coeff k / (k + 1)| ≤
          uro f * |b.ratPoly.coeff k / (k + 1)| + eta f) := by
  have hη := eta_nonneg (f := f)
  have hu := uro_nonneg (f := f)
  cases ht : (tryFromCont 2 : Option (Fl f)) with
  | none => exact absurd ht h2
  | some two =>
    obtain ⟨d1, d2, -⟩ := hl _ _ ht
    have d0 : two.toRat ≠ 0 := by rw [d2]; norm_num
    refine ⟨Poly.new [div b.c0 two, b.c1, 0], by simp only [LinearBinomial.integral, ht]; rfl, fun hr => ?_⟩
    rw [new_terms] at hr ⊢
    rw [descPoly_dropWhile_toRat _ toRat_fin_zero]
    have hfin : (div b.c0 two).isFinite = true := by
      cases hz : isZero (div b.c0 two) with
      | true =>
        obtain ⟨s, hs⟩ := isZero_iff.1 hz
        rw [hs]; rfl
      | false => exact hr _ (by rw [List.dropWhile_cons_of_neg (by simp [hz])]; simp)
    have h1 := div_error hb.1 d1 d0 hfin
    rw [d2] at h1
    have e : descPoly ([div b.c0 two, b.c1, 0].map toRat) =
        C (div b.c0 two).toRat * X ^ 2 + C b.c1.toRat * X + C 0 := by
      simp [descPoly_cons]
    rw [e]
    refine ⟨by simp, fun k => ?_⟩
    simp only [LinearBinomial.ratPoly, coeff_linear, coeff_quadratic]
    rcases k with _ | _ | k
    · simp; positivity
    · norm_num at h1 ⊢
      exact h1
    · simpa using hη

theorem quadratic_integral (t : QuadraticTrinomial (Fl f)) [FromUsizeExact (Fl f)] (hl : ExactLaw f) (hp : 2 ≤ f.p)
    (hb : t.AllFinite) :
    ∃ r, t.integral = .ok r ∧ ((∀ c ∈ r.terms, c.isFinite = true) →
      (descPoly (r.terms.map toRat)).coeff 0 = 0 ∧ ∀ k,
        |(descPoly (r.terms.map toRat)).coeff (k + 1) - t.ratPoly.coeff k / (k + 1)| ≤
          uro f * |t.ratPoly.coeff k / (k + 1)| + eta f) := by
  have hη := eta_nonneg (f := f)
  have hu := uro_nonneg (f := f)
  have hfit : ∀ n, n < 4 → FitsIn f.p n := fun n hn => ⟨n, 0, by
      calc n < 2 ^ 2 := hn
        _ ≤ 2 ^ f.p := Nat.pow_le_pow_right (by norm_num) hp, by simp⟩
  have l2 := hl 2 (by norm_num)
  have l3 := hl 3 (by norm_num)
  cases h3 : (tryFromExact 3 : Option (Fl f)) with
  | none => exact absurd h3 (l3.2.2 (hfit 3 (by norm_num)))
  | some three =>
  cases h2 : (tryFromExact 2 : Option (Fl f)) with
  | none => exact absurd h2 (l2.2.2 (hfit 2 (by norm_num)))
  | some two =>
    obtain ⟨d1, d2⟩ := l2.1 _ h2
    obtain ⟨t1, t2⟩ := l3.1 _ h3
    have d0 : two.toRat ≠ 0 := by rw [d2]; norm_num
    have t0 : three.toRat ≠ 0 := by rw [t2]; norm_num
    refine ⟨Poly.new [div t.c0 three, div t.c1 two, t.c2, 0],
      by simp only [QuadraticTrinomial.integral, h2, h3]; rfl, fun hr => ?_⟩
    rw [new_terms] at hr ⊢
    rw [descPoly_dropWhile_toRat _ toRat_fin_zero]
    have hz : ∀ x : Fl f, isZero x = true → x.isFinite = true := by
      intro x hx
      obtain ⟨s, hs⟩ := isZero_iff.1 hx
      rw [hs]; rfl
    have hf : (div t.c0 three).isFinite = true ∧ (div t.c1 two).isFinite = true := by
      cases z0 : isZero (div t.c0 three) with
      | false =>
        rw [List.dropWhile_cons_of_neg (by simp [z0])] at hr
        exact ⟨hr _ (by simp), hr _ (by simp)⟩
      | true =>
        refine ⟨hz _ z0, ?_⟩
        cases z1 : isZero (div t.c1 two) with
        | false =>
          rw [List.dropWhile_cons_of_pos z0, List.dropWhile_cons_of_neg (by simp [z1])] at hr
          exact hr _ (by simp)
        | true => exact hz _ z1
    have e0 := div_error hb.1 t1 t0 hf.1
    have e1 := div_error hb.2.1 d1 d0 hf.2
    rw [t2] at e0
    rw [d2] at e1
    refine ⟨by simp [descPoly_cons], fun k => ?_⟩
    simp only [QuadraticTrinomial.ratPoly, coeff_quadratic]
    rcases k with _ | _ | _ | k
    · simp [descPoly_cons, coeff_X_pow]; positivity
    · simp [descPoly_cons, coeff_X_pow]
      norm_num at e1 ⊢
      exact e1
    · simp [descPoly_cons, coeff_X_pow]
      norm_num at e0 ⊢
      exact e0
    · simpa [descPoly_cons, coeff_X_pow] using hη

/-- C86: the integrals of `LinearBinomial`s and `QuadraticTrinomial`s always exist, with one rounding for each
coefficient and no constant. -/
theorem C86_integral (b : LinearBinomial (Fl binary64)) (b' : LinearBinomial (Fl binary32))
    (t : QuadraticTrinomial (Fl binary64)) (t' : QuadraticTrinomial (Fl binary32))
    (hb : b.AllFinite) (hb' : b'.AllFinite) (ht : t.AllFinite) (ht' : t'.AllFinite) :
    (∃ r, b.integral = .ok r ∧ ((∀ c ∈ r.terms, c.isFinite = true) →
      (descPoly (r.terms.map toRat)).coeff 0 = 0 ∧ ∀ k,
        |(descPoly (r.terms.map toRat)).coeff (k + 1) - b.ratPoly.coeff k / (k + 1)| ≤
          uro binary64 * |b.ratPoly.coeff k / (k + 1)| + eta binary64)) ∧
    (∃ r, b'.integral = .ok r ∧ ((∀ c ∈ r.terms, c.isFinite = true) →
      (descPoly (r.terms.map toRat)).coeff 0 = 0 ∧ ∀ k,
        |(descPoly (r.terms.map toRat)).coeff (k + 1) - b'.ratPoly.coeff k / (k + 1)| ≤
          uro binary32 * |b'.ratPoly.coeff k / (k + 1)| + eta binary32)) ∧
    (∃ r, t.integral = .ok r ∧ ((∀ c ∈ r.terms, c.isFinite = true) →
      (descPoly (r.terms.map toRat)).coeff 0 = 0 ∧ ∀ k,
        |(descPoly (r.terms.map toRat)).coeff (k + 1) - t.ratPoly.coeff k / (k + 1)| ≤
          uro binary64 * |t.ratPoly.coeff k / (k + 1)| + eta binary64)) ∧
    (∃ r, t'.integral = .ok r ∧ ((∀ c ∈ r.terms, c.isFinite = true) →
      (descPoly (r.terms.map toRat)).coeff 0 = 0 ∧ ∀ k,
        |(descPoly (r.terms.map toRat)).coeff (k + 1) - t'.ratPoly.coeff k / (k + 1)| ≤
          uro binary32 * |t'.ratPoly.coeff k / (k + 1)| + eta binary32)) :=
  ⟨linear_integral b countLaw64 (by decide +kernel) hb, linear_integral b' countLaw32 (by decide +kernel) hb',
    quadratic_integral t exactLaw64 (by decide) ht, quadratic_integral t' exactLaw32 (by decide) ht'⟩

-- the derivative of 0.1x^2 + x + 3 and the integral of x^2 + x + 1, with 1/3 rounded
example : (⟨div 1 (ofNat 10), 1, ofNat 3⟩ : QuadraticTrinomial (Fl binary64)).derivative =
    .ok ⟨0, div 1 (ofNat 5), 1⟩ := by
  have h2 : (tryFromExact 2 : Option (Fl binary64)) = some (ofNat 2) := by decide +kernel
  have h : div 1 (ofNat 10) * ofNat 2 = (div 1 (ofNat 5) : Fl binary64) := by decide +kernel
  simp only [QuadraticTrinomial.derivative, h2, h]
  rfl

example : (⟨1, 1, 1⟩ : QuadraticTrinomial (Fl binary64)).integral = .ok ⟨[div 1 (ofNat 3), div 1 (ofNat 2), 1, 0]⟩ ∧
    (⟨1, ofNat 3⟩ : LinearBinomial (Fl binary32)).integral = .ok ⟨[div 1 (ofNat 2), ofNat 3, 0]⟩ := by decide +kernel

example : (⟨1, 1, 1⟩ : QuadraticTrinomial (Fl binary64)).AllFinite := ⟨rfl, rfl, rfl⟩

-- a monomial whose degree is no `f32`: the derivative panics, the integral returns
example : (⟨1, 2 ^ 24 + 1⟩ : Monomial (Fl binary32)).derivative = .panic ∧
    (∃ r, (⟨1, 2 ^ 24 + 1⟩ : Monomial (Fl binary32)).integral = .ok r) ∧
    (⟨1, 2 ^ 24 + 1⟩ : Monomial (Fl binary64)).derivative = .ok ⟨ofNat (2 ^ 24 + 1), 2 ^ 24⟩ :=
  ⟨by decide +kernel, ⟨_, rfl⟩, by decide +kernel⟩

theorem array_derivLoop (l : List (Fl f)) (c d : Fl f) :
    ArrayPoly.derivLoop (l ++ [c]) l.length d = Poly.derivLoop l d := by
  induction l generalizing d with
  | nil => rfl
  | cons x l ih =>
    simp only [List.cons_append, List.length_cons, ArrayPoly.derivLoop, Poly.derivLoop]
    rw [ih, mul_comm']

theorem array_derivative {size : Nat} [FromUsizeCont (Fl f)] (hl : CountLaw f) (hp : 1 ≤ f.p) (hw : f.p + f.q ≤ f.w)
    (p : ArrayPoly (Fl f) size) (r : List (Fl f)) (h : p.derivative = .ok r) :
    r.length = size ∧ ((∀ c ∈ r, c.isFinite = true) → ∀ k,
      |(descPoly (r.map toRat) - derivative (descPoly (p.coefficients.map toRat))).coeff k| ≤
        uro f * |(derivative (descPoly (p.coefficients.map toRat))).coeff k|) := by
  obtain ⟨l, hlen⟩ := p
  unfold ArrayPoly.derivative at h
  split at h
  · cases h
  · rename_i d hd
    obtain ⟨d1, d2, d3⟩ := hl _ _ hd
    rcases List.eq_nil_or_concat l with rfl | ⟨l', c, hlc⟩
    · simp only [List.length_nil] at hlen
      subst hlen
      simp at h
      subst h
      simp
    · rw [List.concat_eq_append] at hlc
      subst hlc
      have hs : size = l'.length + 1 := by simpa using hlen.symm
      subst hs
      rw [if_pos (by omega), Nat.add_sub_cancel] at h
      simp only [array_derivLoop] at h
      cases h
      obtain ⟨T, t1, t2, t3, t4⟩ := derivLoop_error hp hw l' d d1 d2 (by omega)
      have e : derivative (descPoly ((l' ++ [c]).map toRat)) = descPoly (T.map Prod.snd) := by
        rw [t4, List.map_append, descPoly_append]
        simp [descPoly_cons]
      refine ⟨by rw [← t1]; simp [t3], fun hr k => ?_⟩
      simp only
      rw [e]
      rw [← t1] at hr ⊢
      rw [List.map_cons, toRat_zero, descPoly_cons]
      have := coeff_R1 t2 (fun c hc => hr c (by simp [hc])) k
      simpa using this

theorem array_integral {size : Nat} [FromUsizeCont (Fl f)] (hl : CountLaw f) (hp : 1 ≤ f.p) (hw : f.p + f.q ≤ f.w)
    (p : ArrayPoly (Fl f) size) (r : Poly (Fl f)) (h : p.integral = .ok r)
    (hpf : ∀ c ∈ p.coefficients, c.isFinite = true) (hr : ∀ c ∈ r.terms, c.isFinite = true) :
    (descPoly (r.terms.map toRat)).coeff 0 = 0 ∧ ∀ k,
    |(descPoly (r.terms.map toRat)).coeff (k + 1) - (descPoly (p.coefficients.map toRat)).coeff k / (k + 1)| ≤
      uro f * |(descPoly (p.coefficients.map toRat)).coeff k / (k + 1)| + eta f := by
  obtain ⟨l, hlen⟩ := p
  unfold ArrayPoly.integral at h
  split at h
  · cases h
  · rename_i d hd
    obtain ⟨d1, d2, d3⟩ := hl _ _ hd
    rw [← hlen] at d2 d3
    obtain ⟨T, t1, t2, t3, t4⟩ := integLoop_error hp hw l d d1 d2 d3
    simp only at h hpf ⊢
    rw [t1] at h
    cases h
    simp only [List.map_append, List.map_cons, List.map_nil, toRat_zero] at hr ⊢
    have e : descPoly (((T.map Prod.fst).map toRat) ++ [0]) = descPoly ((T.map Prod.fst).map toRat) * X := by
      rw [descPoly_append]; simp [descPoly_cons]
    rw [e]
    refine ⟨by simp, fun k => ?_⟩
    have hk : (descPoly (l.map toRat)).coeff k / (k + 1) = (descPoly (T.map Prod.snd)).coeff k := by
      rw [← t4, coeff_derivative, coeff_mul_X]
      have : (k : ℚ) + 1 ≠ 0 := by positivity
      field_simp
    rw [hk, coeff_mul_X, List.map_map]
    rcases coeff_cases T k with ⟨x, hx, e⟩ | e
    · rw [e, e]
      exact t2 hpf x hx (hr _ (List.mem_append_left _ (List.mem_map_of_mem hx)))
    · rw [e, e]
      have hη := eta_nonneg (f := f)
      simpa using hη

/-- C86: derivatives and integrals of `ArrayPolynomial`s over `f64`. -/
theorem C86_array_calculus_f64 {size : Nat} (p : ArrayPoly (Fl binary64) size) :
    (size ≤ 2 ^ 52 → (∃ r, p.derivative = .ok r) ∧ ∃ r, p.integral = .ok r) ∧
    (∀ r, p.derivative = .ok r → r.length = size ∧ ((∀ c ∈ r, c.isFinite = true) → ∀ k,
      |(descPoly (r.map toRat) - derivative (descPoly (p.coefficients.map toRat))).coeff k| ≤
        uro binary64 * |(derivative (descPoly (p.coefficients.map toRat))).coeff k|)) ∧
    (∀ r, p.integral = .ok r → (∀ c ∈ p.coefficients, c.isFinite = true) → (∀ c ∈ r.terms, c.isFinite = true) →
      (descPoly (r.terms.map toRat)).coeff 0 = 0 ∧ ∀ k,
      |(descPoly (r.terms.map toRat)).coeff (k + 1) - (descPoly (p.coefficients.map toRat)).coeff k / (k + 1)| ≤
        uro binary64 * |(descPoly (p.coefficients.map toRat)).coeff k / (k + 1)| + eta binary64) := by
  refine ⟨fun hn => ?_, fun r h => array_derivative countLaw64 (by decide) (by decide) p r h,
    fun r h hp hr => array_integral countLaw64 (by decide) (by decide) p r h hp hr⟩
  have ht : ∃ d, (tryFromCont size : Option (Fl binary64)) = some d := by
    refine ⟨ofNat (roundNat 53 size), ?_⟩
    change (tryFromUsizeContF64 size).map ofNat = _
    unfold tryFromUsizeContF64
    have : 2 <<< 51 = 2 ^ 52 := by decide
    rw [if_neg (by omega)]
    rfl
  obtain ⟨d, hd⟩ := ht
  obtain ⟨d1, d2, d3⟩ := countLaw64 _ _ hd
  refine ⟨?_, ?_⟩
  · unfold ArrayPoly.derivative
    rw [hd]
    dsimp only
    split <;> exact ⟨_, rfl⟩
  · obtain ⟨T, t1, -⟩ := integLoop_error (f := binary64) (by decide) (by decide) p.coefficients d d1
      (by rw [d2, p.length_eq]) (by rw [p.length_eq]; exact d3)
    unfold ArrayPoly.integral
    rw [hd]
    dsimp only
    rw [t1]
    exact ⟨_, rfl⟩

/-- C86: derivatives and integrals of `ArrayPolynomial`s over `f32`. -/
theorem C86_array_calculus_f32 {size : Nat} (p : ArrayPoly (Fl binary32) size) :
    (size ≤ 2 ^ 24 → (∃ r, p.derivative = .ok r) ∧ ∃ r, p.integral = .ok r) ∧
    (∀ r, p.derivative = .ok r → r.length = size ∧ ((∀ c ∈ r, c.isFinite = true) → ∀ k,
      |(descPoly (r.map toRat) - derivative (descPoly (p.coefficients.map toRat))).coeff k| ≤
        uro binary32 * |(derivative (descPoly (p.coefficients.map toRat))).coeff k|)) ∧
    (∀ r, p.integral = .ok r → (∀ c ∈ p.coefficients, c.isFinite = true) → (∀ c ∈ r.terms, c.isFinite = true) →
      (descPoly (r.terms.map toRat)).coeff 0 = 0 ∧ ∀ k,
      |(descPoly (r.terms.map toRat)).coeff (k + 1) - (descPoly (p.coefficients.map toRat)).coeff k / (k + 1)| ≤
        uro binary32 * |(descPoly (p.coefficients.map toRat)).coeff k / (k + 1)| + eta binary32) := by
  refine ⟨fun hn => ?_, fun r h => array_derivative countLaw32 (by decide) (by decide) p r h,
    fun r h hp hr => array_integral countLaw32 (by decide) (by decide) p r h hp hr⟩
  have ht : ∃ d, (tryFromCont size : Option (Fl binary32)) = some d := by
    refine ⟨ofNat (roundNat 24 size), ?_⟩
    change (tryFromUsizeContF32 size).map ofNat = _
    unfold tryFromUsizeContF32
    have : 2 <<< 23 = 2 ^ 24 := by decide
    rw [if_neg (by omega)]
    rfl
  obtain ⟨d, hd⟩ := ht
  obtain ⟨d1, d2, d3⟩ := countLaw32 _ _ hd
  refine ⟨?_, ?_⟩
  · unfold ArrayPoly.derivative
    rw [hd]
    dsimp only
    split <;> exact ⟨_, rfl⟩
  · obtain ⟨T, t1, -⟩ := integLoop_error (f := binary32) (by decide) (by decide) p.coefficients d d1
      (by rw [d2, p.length_eq]) (by rw [p.length_eq]; exact d3)
    unfold ArrayPoly.integral
    rw [hd]
    dsimp only
    rw [t1]
    exact ⟨_, rfl⟩

-- x^2 + 0.1x + 3 in an array
example : (⟨[1, div 1 (ofNat 10), ofNat 3], rfl⟩ : ArrayPoly (Fl binary64) 3).derivative =
      .ok [0, ofNat 2, div 1 (ofNat 10)] ∧
    (⟨[1, div 1 (ofNat 10), ofNat 3], rfl⟩ : ArrayPoly (Fl binary32) 3).integral =
      .ok ⟨[div 1 (ofNat 3), div (div 1 (ofNat 10)) (ofNat 2), ofNat 3, 0]⟩ := by decide +kernel

/-- C86: with a library power of relative error at most `e`, `pow` of a `Monomial` is off by at most that factor, and
its degree is the product. -/
theorem C86_monomial_pow [PowUsize (Fl f)] (e : ℚ) (m : Monomial (Fl f)) (n : Nat)
    (h : |(upow m.coefficient n).toRat - m.coefficient.toRat ^ n| ≤ e * |m.coefficient.toRat ^ n|) (k : Nat) :
    |((m.pow n).ratPoly - m.ratPoly ^ n).coeff k| ≤ e * |(m.ratPoly ^ n).coeff k| := by
  have hp : m.ratPoly ^ n = C (m.coefficient.toRat ^ n) * X ^ (m.deg * n) := by
    simp [Monomial.ratPoly, mul_pow, ← pow_mul]
  rw [hp, coeff_sub]
  simp only [Monomial.ratPoly, Monomial.pow, Monomial.new, coeff_C_mul, coeff_X_pow]
  by_cases hk : k = m.deg * n
  · simpa [hk] using h
  · simp [hk]

section ExamplePow
attribute [local instance] exPow
example : (⟨ofNat 3, 2⟩ : Monomial (Fl binary64)).pow 4 = ⟨ofNat 81, 8⟩ ∧
    |(upow (ofNat 3 : Fl binary64) 4).toRat - (ofNat 3 : Fl binary64).toRat ^ 4| ≤
      0 * |(ofNat 3 : Fl binary64).toRat ^ 4| := by decide +kernel
end ExamplePow

end Fl
end Rustnomial
