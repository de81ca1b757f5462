import Verif.Props.SparseBasic
import Verif.Props.DenseMul

/-!
# Ring laws with respect to `==` (C55)
-/

open Polynomial

set_option linter.unusedSectionVars false

namespace Rustnomial

/-- Both computations return, and the results are `==`. -/
def ResEq {α : Type} (eq : α → α → Bool) (x y : Res α) : Prop :=
  ∃ r s, x = .ok r ∧ y = .ok s ∧ eq r s = true

/-- If both computations return, the results are `==`. -/
def ResAgree {α : Type} (eq : α → α → Bool) (x y : Res α) : Prop :=
  ∀ r s, x = .ok r → y = .ok s → eq r s = true

/-! ## Polynomial -/

section Dense
variable {R : Type} [CommRing R] [NumZero R] [LawfulNumZero R] [BEq R] [LawfulBEq R]

theorem add_ok {p q r : Poly R} (h : p.add q = .ok r) : descPoly r.terms = descPoly p.terms + descPoly q.terms := by
  obtain ⟨r', h1, h2⟩ := C08_dense_add p q
  rw [h] at h1; rw [Res.ok.inj h1]; exact h2

theorem mul_ok {p q r : Poly R} (h : p.mul q = .ok r) : descPoly r.terms = descPoly p.terms * descPoly q.terms := by
  have hne : descPoly p.terms ≠ 0 ∨ descPoly q.terms ≠ 0 := by
    by_contra hc
    simp only [ne_eq, not_or, not_not] at hc
    rw [((C11_dense_mul_panics_iff p q).1).2 hc] at h
    simp at h
  obtain ⟨r', h1, h2⟩ := (C11_dense_mul_partial p q hne).1
  rw [h] at h1; rw [Res.ok.inj h1]; exact h2

/-- C55 (Polynomial): `+`, `-` and negation form a commutative group with respect to `==`, for all
values. -/
theorem C55_dense_add_group (p q s : Poly R) :
    ResEq Poly.eq (p.add q) (q.add p) ∧
    ResEq Poly.eq (do let r ← p.add q; r.add s) (do let r ← q.add s; p.add r) ∧
    ResEq Poly.eq (p.add Poly.zero) (.ok p) ∧
    ResEq Poly.eq (p.add p.neg) (.ok Poly.zero) ∧
    ResEq Poly.eq (p.sub q) (p.add q.neg) := by
  obtain ⟨pq, h1, e1⟩ := C08_dense_add p q
  obtain ⟨qp, h2, e2⟩ := C08_dense_add q p
  obtain ⟨pqs, h3, e3⟩ := C08_dense_add pq s
  obtain ⟨qs, h4, e4⟩ := C08_dense_add q s
  obtain ⟨pqs', h5, e5⟩ := C08_dense_add p qs
  obtain ⟨p0, h6, e6⟩ := C08_dense_add p Poly.zero
  obtain ⟨pn, h7, e7⟩ := C08_dense_add p p.neg
  obtain ⟨d, h8, e8⟩ := C09_dense_sub p q
  obtain ⟨d', h9, e9⟩ := C08_dense_add p q.neg
  have hz : descPoly (Poly.zero : Poly R).terms = 0 := by simp [Poly.zero]
  refine ⟨⟨pq, qp, h1, h2, ?_⟩, ⟨pqs, pqs', ?_, ?_, ?_⟩, ⟨p0, p, h6, rfl, ?_⟩, ⟨pn, _, h7, rfl, ?_⟩,
    ⟨d, d', h8, h9, ?_⟩⟩
  · rw [C05_dense_eq, e1, e2, add_comm]
  · rw [h1, Res.ok_bind]; exact h3
  · rw [h4, Res.ok_bind]; exact h5
  · rw [C05_dense_eq, e3, e1, e5, e4, add_assoc]
  · rw [C05_dense_eq, e6, hz, add_zero]
  · rw [C05_dense_eq, e7, hz, (C10_dense_neg p).1, add_neg_cancel]
  · rw [C05_dense_eq, e8, e9, (C10_dense_neg q).1, sub_eq_add_neg]

/-- C55 (Polynomial), multiplication, proved except that a product of two zero polynomials panics
(C11): whenever both sides of a ring law return, they are `==`; for all values. -/
theorem C55_dense_mul_laws_partial (p q s : Poly R) :
    ResAgree Poly.eq (p.mul q) (q.mul p) ∧
    ResAgree Poly.eq (do let r ← p.mul q; r.mul s) (do let r ← q.mul s; p.mul r) ∧
    ResAgree Poly.eq (do let r ← q.add s; p.mul r) (do let a ← p.mul q; let b ← p.mul s; a.add b) ∧
    ResAgree Poly.eq (p.mul ⟨[1]⟩) (.ok p) ∧
    ResAgree Poly.eq (p.mul Poly.zero) (.ok Poly.zero) := by
  have hz : descPoly (Poly.zero : Poly R).terms = 0 := by simp [Poly.zero]
  refine ⟨?_, ?_, ?_, ?_, ?_⟩ <;> intro x y hx hy <;> rw [C05_dense_eq]
  · rw [mul_ok hx, mul_ok hy, mul_comm]
  · obtain ⟨a, ha, hx⟩ := Res.bind_eq_ok.1 hx
    obtain ⟨b, hb, hy⟩ := Res.bind_eq_ok.1 hy
    rw [mul_ok hx, mul_ok hy, mul_ok ha, mul_ok hb, mul_assoc]
  · obtain ⟨a, ha, hx⟩ := Res.bind_eq_ok.1 hx
    obtain ⟨b, hb, hy⟩ := Res.bind_eq_ok.1 hy
    obtain ⟨c, hc, hy⟩ := Res.bind_eq_ok.1 hy
    rw [mul_ok hx, add_ok ha, add_ok hy, mul_ok hb, mul_ok hc, mul_add]
  · rw [mul_ok hx, Res.ok.inj hy]; simp [descPoly]
  · rw [mul_ok hx, ← Res.ok.inj hy, hz, mul_zero]

/-- C55 (Polynomial): in a domain, with non-zero operands (and a non-zero sum for distributivity), all
sides do return. -/
theorem C55_dense_mul_laws_return_partial [NoZeroDivisors R] [Nontrivial R] (p q s : Poly R)
    (hp : descPoly p.terms ≠ 0) (hq : descPoly q.terms ≠ 0) (hs : descPoly s.terms ≠ 0) :
    ResEq Poly.eq (p.mul q) (q.mul p) ∧
    ResEq Poly.eq (do let r ← p.mul q; r.mul s) (do let r ← q.mul s; p.mul r) ∧
    ResEq Poly.eq (do let r ← q.add s; p.mul r) (do let a ← p.mul q; let b ← p.mul s; a.add b) ∧
    ResEq Poly.eq (p.mul ⟨[1]⟩) (.ok p) := by
  obtain ⟨h1, h2, h3, h4, _⟩ := C55_dense_mul_laws_partial p q s
  obtain ⟨pq, e1, f1⟩ := (C11_dense_mul_partial p q (.inl hp)).1
  obtain ⟨qp, e2, f2⟩ := (C11_dense_mul_partial q p (.inl hq)).1
  obtain ⟨x3, e3, f3⟩ := (C11_dense_mul_partial pq s (.inr hs)).1
  obtain ⟨qs, e4, f4⟩ := (C11_dense_mul_partial q s (.inr hs)).1
  obtain ⟨x5, e5, f5⟩ := (C11_dense_mul_partial p qs (.inl hp)).1
  obtain ⟨q_s, e6, f6⟩ := C08_dense_add q s
  obtain ⟨x7, e7, f7⟩ := (C11_dense_mul_partial p q_s (.inl hp)).1
  obtain ⟨ps, e8, f8⟩ := (C11_dense_mul_partial p s (.inl hp)).1
  obtain ⟨x9, e9, f9⟩ := C08_dense_add pq ps
  obtain ⟨x10, e10, f10⟩ := (C11_dense_mul_partial p ⟨[1]⟩ (.inl hp)).1
  have b1 : (do let r ← p.mul q; r.mul s) = .ok x3 := by rw [e1, Res.ok_bind]; exact e3
  have b2 : (do let r ← q.mul s; p.mul r) = .ok x5 := by rw [e4, Res.ok_bind]; exact e5
  have b3 : (do let r ← q.add s; p.mul r) = .ok x7 := by rw [e6, Res.ok_bind]; exact e7
  have b4 : (do let a ← p.mul q; let b ← p.mul s; a.add b) = .ok x9 := by
    rw [e1, Res.ok_bind, e8, Res.ok_bind]; exact e9
  exact ⟨⟨_, _, e1, e2, h1 _ _ e1 e2⟩, ⟨_, _, b1, b2, h2 _ _ b1 b2⟩, ⟨_, _, b3, b4, h3 _ _ b3 b4⟩,
    ⟨_, _, e10, rfl, h4 _ _ e10 rfl⟩⟩

/-- C55 is false as stated for Polynomial: `0 * 0` panics, and so does the left side of
`0 * (1 + (-1)) = 0 * 1 + 0 * (-1)` although the right side returns. -/
theorem C55_dense_false :
    (Poly.zero : Poly ℤ).mul Poly.zero = .panic ∧
    (do let r ← (⟨[1]⟩ : Poly ℤ).add ⟨[-1]⟩; (Poly.zero : Poly ℤ).mul r) = .panic ∧
    ∃ x, (do let a ← (Poly.zero : Poly ℤ).mul ⟨[1]⟩; let b ← (Poly.zero : Poly ℤ).mul ⟨[-1]⟩; a.add b) = .ok x :=
  ⟨by decide, by decide, ⟨[]⟩, by decide⟩

/-- C55 (Polynomial): evaluation is a ring homomorphism. -/
theorem C55_dense_eval_hom (p q : Poly R) (x : R) :
    (∃ r, p.add q = .ok r ∧ r.eval x = p.eval x + q.eval x) ∧
    (∃ r, p.sub q = .ok r ∧ r.eval x = p.eval x - q.eval x) ∧
    p.neg.eval x = - p.eval x ∧
    (∀ r, p.mul q = .ok r → r.eval x = p.eval x * q.eval x) ∧
    (⟨[1]⟩ : Poly R).eval x = 1 ∧ (Poly.zero : Poly R).eval x = 0 := by
  refine ⟨?_, ?_, ?_, ?_, ?_, ?_⟩
  · obtain ⟨r, h, e⟩ := C08_dense_add p q
    exact ⟨r, h, by rw [C06_dense_eval, C06_dense_eval, C06_dense_eval, e, eval_add]⟩
  · obtain ⟨r, h, e⟩ := C09_dense_sub p q
    exact ⟨r, h, by rw [C06_dense_eval, C06_dense_eval, C06_dense_eval, e, eval_sub]⟩
  · rw [C06_dense_eval, C06_dense_eval, (C10_dense_neg p).1, eval_neg]
  · intro r h
    rw [C06_dense_eval, C06_dense_eval, C06_dense_eval, mul_ok h, eval_mul]
  · rw [C06_dense_eval]; simp [descPoly]
  · rw [C06_dense_eval]; simp [Poly.zero]

end Dense

example : ∃ x, (do let r ← (⟨[1, 2]⟩ : Poly ℤ).mul ⟨[0, 1, -3]⟩; r.mul ⟨[5]⟩) = .ok x ∧ x.terms = [5, -5, -30] :=
  ⟨_, rfl, by decide⟩

/-! ## SparsePolynomial -/

section Sparse
variable {R : Type} [CommRing R] [NumZero R] [LawfulNumZero R] [BEq R] [LawfulBEq R]

/-- C55 (SparsePolynomial): the commutative ring laws, for all values. -/
theorem C55_sparse_ring (p q s : Sparse R) :
    (p.add q).eq (q.add p) = true ∧
    ((p.add q).add s).eq (p.add (q.add s)) = true ∧
    (p.add Sparse.zero).eq p = true ∧
    (p.add p.neg).eq Sparse.zero = true ∧
    (p.sub q).eq (p.add q.neg) = true ∧
    (p.mul q).eq (q.mul p) = true ∧
    ((p.mul q).mul s).eq (p.mul (q.mul s)) = true ∧
    (p.mul (q.add s)).eq ((p.mul q).add (p.mul s)) = true ∧
    (p.mul (Sparse.fromVec [1])).eq p = true ∧
    (p.mul Sparse.zero).eq Sparse.zero = true := by
  have hz : entriesPoly (Sparse.zero : Sparse R).terms.entries = 0 := by
    show entriesPoly [] = 0; simp [entriesPoly]
  have ha : ∀ p q : Sparse R, entriesPoly (p.add q).terms.entries =
    entriesPoly p.terms.entries + entriesPoly q.terms.entries := fun p q => (C25_sparse_add p q).1
  simp only [C05_sparse_eq, ha, C26_sparse_mul, C10_sparse_neg, C25_sparse_sub, C28_sparse_from_vec, hz]
  refine ⟨add_comm _ _, add_assoc _ _ _, add_zero _, add_neg_cancel _, sub_eq_add_neg _ _, mul_comm _ _,
    mul_assoc _ _ _, mul_add _ _ _, by simp [descPoly], mul_zero _⟩

/-- C55 (SparsePolynomial): evaluation is a ring homomorphism, for exponents below the bound up to which
the power function of the coefficient type is exact (C07). -/
theorem C55_sparse_eval_hom_partial [PowUsize R] [hl : LawfulPowUsize R] (p q r : Sparse R) (x : R)
    (hp : ∀ e ∈ p.terms.entries, e.1 < hl.bound) (hq : ∀ e ∈ q.terms.entries, e.1 < hl.bound)
    (hr : ∀ e ∈ r.terms.entries, e.1 < hl.bound) :
    (r.eq (p.add q) = true → r.eval x = p.eval x + q.eval x) ∧
    (r.eq (p.sub q) = true → r.eval x = p.eval x - q.eval x) ∧
    (r.eq (p.mul q) = true → r.eval x = p.eval x * q.eval x) ∧
    (r.eq p.neg = true → r.eval x = - p.eval x) := by
  have ha : ∀ p q : Sparse R, entriesPoly (p.add q).terms.entries =
    entriesPoly p.terms.entries + entriesPoly q.terms.entries := fun p q => (C25_sparse_add p q).1
  simp only [C05_sparse_eq, ha, C26_sparse_mul, C10_sparse_neg, C25_sparse_sub,
    C07_sparse_eval_partial p x hp, C07_sparse_eval_partial q x hq, C07_sparse_eval_partial r x hr]
  refine ⟨fun h => ?_, fun h => ?_, fun h => ?_, fun h => ?_⟩ <;> rw [h] <;> simp

end Sparse

end Rustnomial
