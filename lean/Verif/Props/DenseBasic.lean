import Verif.Lemmas.DenseArith

/-!
# Dense polynomials: construction, observers, evaluation, addition, subtraction, negation, scaling
(C01–C06, C08–C10, C13)
-/

open Polynomial

namespace Rustnomial

/-! ## C01 – construction and trimming -/

section C01
variable {N : Type} [Zero N] [NumZero N]

/-- C01 (any coefficient type, only `is_zero` is used): `new` removes a prefix of zeros and
nothing else, and what is left is empty or starts with a non-zero coefficient. -/
theorem C01_new_shape (l : List N) :
    (∃ zs : List N, l = zs ++ (Poly.new l).terms ∧ ∀ z ∈ zs, isZero z = true) ∧
    (∀ c cs, (Poly.new l).terms = c :: cs → isZero c = false) := by
  refine ⟨⟨l.takeWhile isZero, ?_, ?_⟩, ?_⟩
  · rw [new_terms, List.takeWhile_append_dropWhile]
  · intro z hz; exact List.mem_takeWhile_imp hz
  · intro c cs h; rw [new_terms] at h; exact dropWhile_head_not h

/-- C01: `trim`, `from(Vec)` and `new` agree, and trimming again changes nothing. -/
theorem C01_trim_idempotent (p : Poly N) :
    p.trim.trim = p.trim ∧ Poly.fromVec p.terms = p.trim ∧ Poly.new p.terms = p.trim := by
  refine ⟨?_, rfl, rfl⟩
  have : p.trim.trim.terms = p.trim.terms := by
    rw [trim_terms, trim_terms, List.dropWhile_idempotent]
  cases h : p.trim.trim; cases h' : p.trim; simp_all

example : (Poly.new [0, 0, 0, 0, 0, 3, 0, (1 : ℤ)]).terms = [3, 0, 1] := by decide

end C01

section
variable {R : Type} [Semiring R] [NumZero R] [LawfulNumZero R]

/-- C01: `new`, `from`, `trim` do not change the polynomial. -/
theorem C01_new_same_polynomial (l : List R) :
    descPoly (Poly.new l).terms = descPoly l := by
  rw [new_terms, descPoly_dropWhile]

/-- C01: canonical form – two vectors represent the same polynomial iff they are trimmed to the
same vector. -/
theorem C01_canonical (a b : List R) :
    descPoly a = descPoly b ↔ (Poly.new a).terms = (Poly.new b).terms := by
  constructor
  · intro h; rw [new_terms, new_terms, dropWhile_eq_of_descPoly_eq h]
  · intro h; rw [← C01_new_same_polynomial a, h, C01_new_same_polynomial]

example : descPoly [0, 0, (2 : ℤ), 1] = descPoly [0, 2, 1] :=
  (C01_canonical _ _).2 (by decide)

/-! ## C02 – degree -/

/-- C02 (Polynomial): `degree()` is the degree of the represented polynomial. -/
theorem C02_dense_degree (p : Poly R) : p.degree.toWithBot = (descPoly p.terms).degree := by
  unfold Poly.degree
  rw [denseDegree_eq]
  cases h : p.terms.dropWhile isZero with
  | nil => simp [Degree.toWithBot, (descPoly_eq_zero_iff _).2 h]
  | cons v vs =>
    have hv : v ≠ 0 := by simpa using dropWhile_head_not h
    rw [← descPoly_dropWhile, h, descPoly_cons_degree vs hv]; rfl

/-- C02 (Polynomial): `is_zero()` holds exactly for the zero polynomial. -/
theorem C02_dense_is_zero (p : Poly R) : p.isZeroPoly = true ↔ descPoly p.terms = 0 := by
  rw [← Polynomial.degree_eq_bot, ← C02_dense_degree]
  unfold Poly.isZeroPoly Degree.isZeroPoly
  cases p.degree <;> simp [Degree.toWithBot]

example : (⟨[0, 0, 5, 0, 0, 0, 0]⟩ : Poly ℤ).degree = .num 4 := by decide

/-! ## C03 – term iteration -/

/-- C03 (Polynomial): the items of `ordered_term_iter()` / `terms_as_vec()` are exactly the
non-zero terms in strictly descending degree. -/
theorem C03_dense_terms (p : Poly R) :
    IsTermListOf p.orderedTermIter (descPoly p.terms) ∧ p.termsAsVec = p.orderedTermIter := by
  refine ⟨?_, rfl⟩
  rw [orderedTermIter_eq]; exact isTermListOf_descTerms _

/-- C03 (Polynomial): the terms sum to the polynomial. -/
theorem C03_dense_terms_sum (p : Poly R) : termsPoly p.orderedTermIter = descPoly p.terms :=
  (C03_dense_terms p).1.termsPoly_eq

example : (⟨[0, 7, 0, -2, 0]⟩ : Poly ℤ).orderedTermIter = [(7, 3), (-2, 1)] := by decide

/-! ## C04 – coefficient access -/

/-- C04 (Polynomial): `term_with_degree(d)` is the term of degree `d`. -/
theorem C04_dense_term (p : Poly R) (d : Nat) :
    ((descPoly p.terms).coeff d = 0 → p.termWithDegree d = .zeroTerm) ∧
    ((descPoly p.terms).coeff d ≠ 0 →
      p.termWithDegree d = .term ((descPoly p.terms).coeff d) d) := by
  unfold Poly.termWithDegree termWithDeg
  by_cases h : d < p.terms.length
  · rw [coeff_descPoly_of_lt h]
    simp only [h, if_true, Term.new]
    constructor
    · intro e; rw [e]; simp
    · intro e
      have : isZero (p.terms.getD (p.terms.length - d - 1) 0) = false := by simpa using e
      rw [this]; rfl
  · rw [coeff_descPoly_of_le (Nat.le_of_not_lt h)]
    simp [h]

example : (⟨[3, 0, 1]⟩ : Poly ℤ).termWithDegree 2 = .term 3 2 ∧
    (⟨[3, 0, 1]⟩ : Poly ℤ).termWithDegree 1 = .zeroTerm ∧
    (⟨[3, 0, 1]⟩ : Poly ℤ).termWithDegree 3 = .zeroTerm := by decide

/-! ## C05 – equality -/

/-- C05 (Polynomial): `==` is equality of the represented polynomials. -/
theorem C05_dense_eq [BEq R] [LawfulBEq R] (p q : Poly R) :
    p.eq q = true ↔ descPoly p.terms = descPoly q.terms := by
  unfold Poly.eq
  rw [beq_iff_eq]
  constructor
  · intro h
    have := (C03_dense_terms p).1
    rw [h] at this
    exact this.poly_unique (C03_dense_terms q).1
  · intro h
    have := (C03_dense_terms p).1
    rw [h] at this
    exact this.unique (C03_dense_terms q).1

/-- C05 (Polynomial): `==` is an equivalence relation. -/
theorem C05_dense_equivalence [BEq R] [LawfulBEq R] :
    Equivalence (fun p q : Poly R => p.eq q = true) where
  refl p := (C05_dense_eq p p).2 rfl
  symm h := (C05_dense_eq _ _).2 ((C05_dense_eq _ _).1 h).symm
  trans h h' := (C05_dense_eq _ _).2 (((C05_dense_eq _ _).1 h).trans ((C05_dense_eq _ _).1 h'))

example : (⟨[0, 0, 1, 2]⟩ : Poly ℤ).eq ⟨[1, 2]⟩ = true ∧ (⟨[1, 2, 0]⟩ : Poly ℤ).eq ⟨[1, 2]⟩ = false := by
  decide

/-! ## C06 – evaluation -/

/-- C06: `eval` is evaluation of the represented polynomial, over any semiring. -/
theorem C06_dense_eval (p : Poly R) (x : R) : p.eval x = (descPoly p.terms).eval x := by
  unfold Poly.eval
  cases h : p.terms.getLast? with
  | none =>
    have : p.terms = [] := by simpa using h
    simp [this]
  | some last =>
    obtain ⟨ini, hini⟩ := List.getLast?_eq_some_iff.1 h
    have e : (descPoly p.terms).eval x = (descPoly ini).eval x * x + last := by
      rw [hini, descPoly_append]
      simp [descPoly_cons]
    simp only [hini, List.dropLast_concat] at *
    split
    · rename_i hx; simp at hx; subst hx; rw [e]; simp
    · rw [foldl_horner, e]; simp

example : (⟨[1, 2, 3, 4]⟩ : Poly ℤ).eval 10 = 1234 ∧ (⟨[1, 2, 3, 4]⟩ : Poly ℤ).eval 0 = 4 ∧
    (⟨[]⟩ : Poly ℤ).eval 7 = 0 := by decide

/-! ## C08 – addition -/

omit [NumZero R] [LawfulNumZero R] in
theorem addAligned_poly (a b : List R) (h : b.length ≤ a.length) :
    ∃ r, sliceFrom a (a.length - b.length) = .ok r ∧
    descPoly (a.take (a.length - b.length) ++ zipMut (fun index val => index + val) r b)
      = descPoly a + descPoly b := by
  refine ⟨a.drop (a.length - b.length), by simp [sliceFrom], ?_⟩
  apply descPoly_take_append
  · simp
  · have hl : (a.drop (a.length - b.length)).length = b.length := by simp; omega
    rw [descPoly_zipMut_add (fun y => y) _ (fun _ _ => rfl) _ _ (by omega), hl]
    simp

/-- C08: `a + b` returns (no panic) the sum of the polynomials. -/
theorem C08_dense_add (p q : Poly R) :
    ∃ r, p.add q = .ok r ∧ descPoly r.terms = descPoly p.terms + descPoly q.terms := by
  unfold Poly.add
  by_cases h : q.terms.length > p.terms.length
  · obtain ⟨r, hr, hs⟩ := addAligned_poly q.terms p.terms h.le
    refine ⟨Poly.new _, by simp only [h, if_true, hr]; rfl, ?_⟩
    rw [C01_new_same_polynomial, hs, add_comm]
  · obtain ⟨r, hr, hs⟩ := addAligned_poly p.terms q.terms (Nat.le_of_not_lt h)
    refine ⟨Poly.new _, by simp only [h, if_false, hr]; rfl, ?_⟩
    rw [C01_new_same_polynomial, hs]

omit [NumZero R] [LawfulNumZero R] in
/-- C08: `a += b` leaves the sum of the polynomials. -/
theorem C08_dense_add_assign (p q : Poly R) :
    ∃ r, p.addAssign q = .ok r ∧ descPoly r.terms = descPoly p.terms + descPoly q.terms := by
  unfold Poly.addAssign
  by_cases h : q.terms.length > p.terms.length
  · obtain ⟨r, hr, hs⟩ := addAligned_poly q.terms p.terms h.le
    refine ⟨_, by simp only [h, if_true, hr]; rfl, ?_⟩
    rw [hs, add_comm]
  · obtain ⟨r, hr, hs⟩ := addAligned_poly p.terms q.terms (Nat.le_of_not_lt h)
    exact ⟨_, by simp only [h, if_false, hr]; rfl, hs⟩

example : (⟨[1, 2]⟩ : Poly ℤ).add ⟨[-3, 1, 0, 5]⟩ = .ok ⟨[-3, 1, 1, 7]⟩ ∧
    (⟨[1, 2, 3]⟩ : Poly ℤ).add ⟨[-1, -2, 5]⟩ = .ok ⟨[8]⟩ ∧
    (⟨[1, 2, 3]⟩ : Poly ℤ).addAssign ⟨[-1, -2, 5]⟩ = .ok ⟨[0, 0, 8]⟩ := by decide

end

/-! ## C09 – subtraction, C10 – negation -/

section
variable {R : Type} [Ring R]

theorem subAligned_poly (a b : List R) (h : b.length ≤ a.length) :
    ∃ r, sliceFrom a (a.length - b.length) = .ok r ∧
    descPoly (a.take (a.length - b.length) ++ zipMut (fun term val => term - val) r b)
      = descPoly a - descPoly b := by
  refine ⟨a.drop (a.length - b.length), by simp [sliceFrom], ?_⟩
  rw [sub_eq_add_neg]
  apply descPoly_take_append
  · simp
  · have hl : (a.drop (a.length - b.length)).length = b.length := by simp; omega
    rw [descPoly_zipMut_sub _ _ (by omega), hl, sub_eq_add_neg]
    simp

/-- C09: `a - b` and `a -= b` (owned right-hand side). -/
theorem C09_dense_sub (p q : Poly R) :
    ∃ r, p.sub q = .ok r ∧ descPoly r.terms = descPoly p.terms - descPoly q.terms := by
  unfold Poly.sub
  by_cases h : q.terms.length > p.terms.length
  · refine ⟨_, by simp only [h, if_true]; rfl, ?_⟩
    have hl : (q.terms.drop (q.terms.length - p.terms.length)).length = p.terms.length := by
      simp; omega
    rw [descPoly_append, descPoly_zipMut_rsub _ _ hl, length_zipMut, descPoly_map_neg,
      descPoly_take_drop q.terms (q.terms.length - p.terms.length), List.length_drop, neg_mul]
    abel
  · obtain ⟨r, hr, hs⟩ := subAligned_poly p.terms q.terms (Nat.le_of_not_lt h)
    exact ⟨_, by simp only [h, if_false, hr]; rfl, hs⟩

/-- C09: `a - &b` and `a -= &b` (borrowed right-hand side). -/
theorem C09_dense_sub_ref (p q : Poly R) :
    ∃ r, p.subRef q = .ok r ∧ descPoly r.terms = descPoly p.terms - descPoly q.terms := by
  unfold Poly.subRef
  by_cases h : q.terms.length > p.terms.length
  · refine ⟨_, by simp only [h, if_true]; rfl, ?_⟩
    have hl : (q.terms.drop (q.terms.length - p.terms.length)).length = p.terms.length := by
      simp; omega
    rw [descPoly_append, descPoly_zipMut_sub _ _ hl.le, length_zipMut, descPoly_map_neg, hl,
      descPoly_take_drop q.terms (q.terms.length - p.terms.length), neg_mul]
    have : q.terms.length - (q.terms.length - p.terms.length) = p.terms.length := by omega
    rw [this]; simp; abel
  · obtain ⟨r, hr, hs⟩ := subAligned_poly p.terms q.terms (Nat.le_of_not_lt h)
    exact ⟨_, by simp only [h, if_false, hr]; rfl, hs⟩

/-- C09: the spellings agree even on the stored vectors. -/
theorem C09_dense_sub_spellings (p q : Poly R) : p.sub q = p.subRef q := by
  unfold Poly.sub Poly.subRef
  by_cases h : q.terms.length > p.terms.length
  · simp only [h, if_true]
    congr 3
    have hl : (q.terms.drop (q.terms.length - p.terms.length)).length = p.terms.length := by
      simp; omega
    revert hl
    generalize q.terms.drop (q.terms.length - p.terms.length) = a
    generalize p.terms = b
    intro hl
    induction a generalizing b with
    | nil => cases b <;> simp_all
    | cons x xs ih =>
      cases b with
      | nil => simp at hl
      | cons y ys =>
        simp only [List.length_cons, Nat.add_right_cancel_iff] at hl
        simp [ih ys hl]
  · simp only [h, if_false]

example : (⟨[1, 2]⟩ : Poly ℤ).sub ⟨[3, 1, 0, 5]⟩ = .ok ⟨[-3, -1, 1, -3]⟩ ∧
    (⟨[1, 2]⟩ : Poly ℤ).subRef ⟨[3, 1, 0, 5]⟩ = .ok ⟨[-3, -1, 1, -3]⟩ ∧
    (⟨[1, 2, 7]⟩ : Poly ℤ).sub ⟨[1, 2, 5]⟩ = .ok ⟨[0, 0, 2]⟩ := by decide

/-- C10 (Polynomial): `-p` represents the negated polynomial; doing it twice is the identity. -/
theorem C10_dense_neg (p : Poly R) :
    descPoly p.neg.terms = - descPoly p.terms ∧ p.neg.neg = p := by
  refine ⟨descPoly_map_neg _, ?_⟩
  cases p; simp [Poly.neg]

/-- C10 (Polynomial): `p + (-p)` is zero. -/
theorem C10_dense_add_neg [NumZero R] [LawfulNumZero R] (p : Poly R) :
    ∃ r, p.add p.neg = .ok r ∧ r.isZeroPoly = true ∧ r.terms = [] := by
  obtain ⟨r, hr, hs⟩ := C08_dense_add p p.neg
  rw [(C10_dense_neg p).1, add_neg_cancel] at hs
  refine ⟨r, hr, (C02_dense_is_zero r).2 hs, ?_⟩
  have h2 := (descPoly_eq_zero_iff _).1 hs
  have : r.terms = r.terms.dropWhile isZero := by
    have hform : ∃ l, r = Poly.new l := by
      unfold Poly.add at hr
      simp only [Res.bind_eq_ok] at hr
      obtain ⟨a, _, ha⟩ := hr
      exact ⟨_, (Res.ok.inj ha).symm⟩
    obtain ⟨l, rfl⟩ := hform
    rw [new_terms, List.dropWhile_idempotent]
  rw [this, h2]

example : (⟨[1, 0, -3]⟩ : Poly ℤ).neg = ⟨[-1, 0, 3]⟩ := by decide

end

/-! ## C13 – scaling -/

section
variable {R : Type} [CommRing R]

/-- C13 (Polynomial): `p *= c` scales the polynomial. -/
theorem C13_dense_mul_assign_scalar (p : Poly R) (c : R) :
    descPoly (p.mulAssignScalar c).terms = C c * descPoly p.terms := by
  rw [mul_comm]; exact descPoly_map_mul_right c p.terms

/-- C13 (Polynomial): `p * c` scales the polynomial. -/
theorem C13_dense_mul_scalar [NumZero R] [LawfulNumZero R] (p : Poly R) (c : R) :
    descPoly (p.mulScalar c).terms = C c * descPoly p.terms := by
  unfold Poly.mulScalar
  rw [C01_new_same_polynomial, mul_comm]; exact descPoly_map_mul_right c p.terms

end

theorem mapM_rdiv {K : Type} [Field K] [RDiv K] [LawfulRDiv K] (l : List K) (c : K) (hc : c ≠ 0) :
    l.mapM (fun x => rdiv x c) = Res.ok (l.map (fun x => x * c⁻¹)) := by
  induction l with
  | nil => rfl
  | cons a l ih => rw [List.mapM_cons, ih, LawfulRDiv.rdiv_eq _ _ hc, div_eq_mul_inv]; rfl

/-- C13 (Polynomial): over a field, `p / c` and `p /= c` with `c ≠ 0` return the polynomial `r` with
`c * r = p`. -/
theorem C13_dense_div_scalar {K : Type} [Field K] [NumZero K] [LawfulNumZero K] [RDiv K]
    [LawfulRDiv K] (p : Poly K) (c : K) (hc : c ≠ 0) :
    (∃ r, p.divScalar c = .ok r ∧ C c * descPoly r.terms = descPoly p.terms) ∧
    (∃ r, p.divAssignScalar c = .ok r ∧ C c * descPoly r.terms = descPoly p.terms) := by
  have key : C c * descPoly (p.terms.map (fun x => x * c⁻¹)) = descPoly p.terms := by
    rw [descPoly_map_mul_right, mul_comm, mul_assoc, ← C_mul, inv_mul_cancel₀ hc]; simp
  refine ⟨⟨_, by rw [Poly.divScalar, mapM_rdiv _ _ hc]; rfl, ?_⟩,
    ⟨_, by rw [Poly.divAssignScalar, mapM_rdiv _ _ hc]; rfl, key⟩⟩
  rw [C01_new_same_polynomial, key]

theorem mapM_rdiv_int (l : List ℤ) (c : ℤ) (hc : c ≠ 0) :
    l.mapM (fun x => rdiv x c) = Res.ok (l.map (fun x => x.tdiv c)) := by
  induction l with
  | nil => rfl
  | cons a l ih => rw [List.mapM_cons, ih]; simp [rdiv, hc]

/-- C13 (Polynomial, integers): `p / c` with `c ≠ 0` divides every coefficient, truncating toward
zero. -/
theorem C13_dense_div_scalar_int (p : Poly ℤ) (c : ℤ) (hc : c ≠ 0) :
    ∃ r, p.divScalar c = .ok r ∧
      ∀ d, (descPoly r.terms).coeff d = ((descPoly p.terms).coeff d).tdiv c := by
  refine ⟨_, by rw [Poly.divScalar, mapM_rdiv_int _ _ hc]; rfl, fun d => ?_⟩
  rw [C01_new_same_polynomial, coeff_descPoly, coeff_descPoly, ← List.map_reverse]
  rw [List.getD_eq_getElem?_getD, List.getD_eq_getElem?_getD, List.getElem?_map]
  cases p.terms.reverse[d]? <;> simp

/-- C13 (Polynomial, integers): dividing a polynomial with at least one stored coefficient by the
scalar zero panics. -/
theorem C13_dense_div_scalar_zero (p : Poly ℤ) (h : p.terms ≠ []) : p.divScalar 0 = .panic := by
  unfold Poly.divScalar
  cases hp : p.terms with
  | nil => exact absurd hp h
  | cons a l => simp [List.mapM_cons, rdiv]

example : (⟨[4, -7, 2]⟩ : Poly ℤ).mulScalar 3 = ⟨[12, -21, 6]⟩ ∧
    (⟨[4, -7, 2]⟩ : Poly ℤ).divScalar 3 = .ok ⟨[1, -2, 0]⟩ := by decide
example : (⟨[1, 2]⟩ : Poly ℚ).divScalar 2 = .ok ⟨[1 / 2, 1]⟩ := by decide +kernel

end Rustnomial
