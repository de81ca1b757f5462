import Verif.Model.PolyMath
import Verif.Props.Fixed

/-!
# Term mutation, sink arithmetic, the macros and the `Integral` wrapper
(C19, C29, C32, C33)
-/

open Polynomial

set_option linter.unusedSectionVars false

namespace Rustnomial

/-! ## The contract -/

/-- Which polynomial a value of type `S` represents, and the contract of `try_add_term` and
`try_sub_term` (C29): on `Ok` the polynomial changes by exactly the term, on `Err` the *value* is
unchanged. -/
class LawfulMutPoly (N S : Type) [Ring N] [MutPoly N S] where
  repr : S → N[X]
  add_ok : ∀ (s s' : S) (c : N) (d : Nat), MutPoly.tryAddTerm s c d = (s', .ok ()) →
    repr s' = repr s + C c * X ^ d
  add_err : ∀ (s s' : S) (c : N) (d : Nat) (e : TryAddError),
    MutPoly.tryAddTerm s c d = (s', .error e) → s' = s
  sub_ok : ∀ (s s' : S) (c : N) (d : Nat), MutPoly.trySubTerm s c d = (s', .ok ()) →
    repr s' = repr s - C c * X ^ d
  sub_err : ∀ (s s' : S) (c : N) (d : Nat) (e : TryAddError),
    MutPoly.trySubTerm s c d = (s', .error e) → s' = s

section
variable {R : Type} [Ring R]

theorem descPoly_modify_sub (l : List R) (i : Nat) (c : R) (h : i < l.length) :
    descPoly (l.modify i (· - c)) = descPoly l - C c * X ^ (l.length - i - 1) := by
  have : (fun x : R => x - c) = (· + -c) := by funext x; exact sub_eq_add_neg x c
  rw [this, descPoly_modify_add l i (-c) h, C_neg, neg_mul, sub_eq_add_neg]

/-- C29 (Polynomial): the exact outcomes of `try_add_term` and `try_sub_term`.  Adding never fails;
subtracting fails only for a coefficient type without negation, beyond the stored length. -/
theorem C29_dense [CanNegate R] (p : Poly R) (c : R) (d : Nat) :
    (∃ r, p.tryAddTerm c d = (r, .ok ()) ∧ descPoly r.terms = descPoly p.terms + C c * X ^ d) ∧
    ((CanNegate.canNegate R = true ∨ d < p.terms.length) →
      ∃ r, p.trySubTerm c d = (r, .ok ()) ∧ descPoly r.terms = descPoly p.terms - C c * X ^ d) ∧
    (¬ (CanNegate.canNegate R = true ∨ d < p.terms.length) →
      p.trySubTerm c d = (p, .error .canNotNegate)) := by
  classical
  refine ⟨?_, ?_, ?_⟩
  · refine ⟨_, rfl, ?_⟩
    exact C31_dense_add_term p c d
  · intro h
    unfold Poly.trySubTerm
    by_cases hl : p.terms.length < d + 1
    · have hn : CanNegate.canNegate R = true := by rcases h with h | h <;> [exact h; omega]
      simp only [if_pos hl, hn, Bool.not_true, Bool.false_eq_true, if_false]
      refine ⟨_, rfl, ?_⟩
      have hlen : (List.replicate (d + 1 - p.terms.length) (0 : R) ++ p.terms).length = d + 1 := by
        simp; omega
      rw [descPoly_modify_sub _ _ _ (by omega), hlen, descPoly_append, descPoly_replicate_zero,
        zero_mul, zero_add]
      congr 3; omega
    · simp only [if_neg hl]
      refine ⟨_, rfl, ?_⟩
      rw [descPoly_modify_sub _ _ _ (by omega)]
      congr 3; omega
  · intro h
    have h1 : CanNegate.canNegate R = false := by
      cases hc : CanNegate.canNegate R with
      | true => exact absurd (.inl hc) h
      | false => rfl
    have h2 : p.terms.length < d + 1 := by
      have : ¬ d < p.terms.length := fun h' => h (.inr h')
      omega
    simp [Poly.trySubTerm, h1, h2]

/-- C29 (SparsePolynomial): the exact outcomes.  Adding never fails; subtracting fails only for a
coefficient type without negation, for a non-zero coefficient without a stored entry. -/
theorem C29_sparse [NumZero R] [LawfulNumZero R] [CanNegate R] (p : Sparse R) (c : R) (d : Nat) :
    (∃ r, p.tryAddTerm c d = (r, .ok ()) ∧
      entriesPoly r.terms.entries = entriesPoly p.terms.entries + C c * X ^ d) ∧
    ((CanNegate.canNegate R = true ∨ c = 0 ∨ p.terms.get d ≠ none) →
      ∃ r, p.trySubTerm c d = (r, .ok ()) ∧
        entriesPoly r.terms.entries = entriesPoly p.terms.entries - C c * X ^ d) ∧
    (¬ (CanNegate.canNegate R = true ∨ c = 0 ∨ p.terms.get d ≠ none) →
      p.trySubTerm c d = (p, .error .canNotNegate)) := by
  refine ⟨⟨_, rfl, C31_sparse_add_term p c d⟩, ?_, ?_⟩
  · intro h
    unfold Sparse.trySubTerm
    by_cases hc : c = 0
    · rw [if_pos (by simpa using hc)]; exact ⟨_, rfl, by simp [hc]⟩
    · rw [if_neg (by simpa using hc)]
      cases hg : p.terms.get d with
      | none =>
        have hn : CanNegate.canNegate R = true := by
          rcases h with h | h | h
          · exact h
          · exact absurd h hc
          · exact absurd hg h
        simp only [hn, Bool.not_true, Bool.false_eq_true, if_false]
        refine ⟨_, rfl, ?_⟩
        rw [mapPoly_insert_fresh _ _ _ hg]; simp [sub_eq_add_neg]
      | some v =>
        refine ⟨_, rfl, ?_⟩
        ext j
        rw [coeff_sub, coeff_mapPoly, coeff_mapPoly, BMap.get_insert, coeff_C_mul, coeff_X_pow]
        by_cases hj : j = d
        · subst hj; simp [hg]
        · simp [hj]
  · intro h
    simp only [not_or] at h
    obtain ⟨h1, h2, h3⟩ := h
    have hc : isZero c = false := by simpa using h2
    have hg : p.terms.get d = none := by simpa using h3
    simp [Sparse.trySubTerm, hc, hg, h1]

/-- C29 (Monomial): the exact outcomes.  Failure exactly when the value is non-zero and the degree
differs. -/
theorem C29_monomial [NumZero R] [LawfulNumZero R] (m : Monomial R) (c : R) (d : Nat) :
    ((m.poly = 0 ∨ d = m.deg) →
      (∃ r, m.tryAddTerm c d = (r, .ok ()) ∧ r.poly = m.poly + C c * X ^ d) ∧
      (∃ r, m.trySubTerm c d = (r, .ok ()) ∧ r.poly = m.poly - C c * X ^ d)) ∧
    (¬ (m.poly = 0 ∨ d = m.deg) →
      m.tryAddTerm c d = (m, .error .tooManyTerms) ∧ m.trySubTerm c d = (m, .error .tooManyTerms)) := by
  have hz := (C02_fixed_is_zero m (⟨0, 0⟩ : LinearBinomial R) (⟨0, 0, 0⟩ : QuadraticTrinomial R)).1
  constructor
  · intro h
    unfold Monomial.tryAddTerm Monomial.trySubTerm
    by_cases h0 : m.poly = 0
    · rw [if_pos (hz.2 h0), if_pos (hz.2 h0), h0]
      have hc := (m.poly_eq_zero).1 h0
      exact ⟨⟨_, rfl, by simp [Monomial.poly, hc]⟩, ⟨_, rfl, by simp [Monomial.poly, hc]⟩⟩
    · have hd : d = m.deg := h.resolve_left h0
      rw [if_neg (fun e => h0 (hz.1 e)), if_neg (fun e => h0 (hz.1 e)), if_pos hd, if_pos hd]
      exact ⟨⟨_, rfl, by simp [Monomial.poly, hd, add_mul]⟩, ⟨_, rfl, by simp [Monomial.poly, hd, sub_mul]⟩⟩
  · intro h
    simp only [not_or] at h
    unfold Monomial.tryAddTerm Monomial.trySubTerm
    rw [if_neg (fun e => h.1 (hz.1 e)), if_neg (fun e => h.1 (hz.1 e)), if_neg h.2, if_neg h.2]
    exact ⟨rfl, rfl⟩

/-- C29 (LinearBinomial): the exact outcomes. -/
theorem C29_binomial (b : LinearBinomial R) (c : R) (d : Nat) :
    (d ≤ 1 → (∃ r, b.tryAddTerm c d = (r, .ok ()) ∧ r.poly = b.poly + C c * X ^ d) ∧
      (∃ r, b.trySubTerm c d = (r, .ok ()) ∧ r.poly = b.poly - C c * X ^ d)) ∧
    (1 < d → b.tryAddTerm c d = (b, .error .degreeOutOfBounds) ∧
      b.trySubTerm c d = (b, .error .degreeOutOfBounds)) := by
  constructor
  · intro h
    rw [LinearBinomial.tryAddTerm, LinearBinomial.trySubTerm, if_pos h, if_pos h]
    refine ⟨⟨_, rfl, ?_⟩, ⟨_, rfl, ?_⟩⟩ <;>
    · rcases d with _ | _ | d
      · simp [LinearBinomial.modify, LinearBinomial.poly]; try abel
      · simp [LinearBinomial.modify, LinearBinomial.poly, add_mul, sub_mul]; try abel
      · omega
  · intro h
    rw [LinearBinomial.tryAddTerm, LinearBinomial.trySubTerm, if_neg (by omega), if_neg (by omega)]
    exact ⟨rfl, rfl⟩

/-- C29 (QuadraticTrinomial): the exact outcomes. -/
theorem C29_trinomial (t : QuadraticTrinomial R) (c : R) (d : Nat) :
    (d ≤ 2 → (∃ r, t.tryAddTerm c d = (r, .ok ()) ∧ r.poly = t.poly + C c * X ^ d) ∧
      (∃ r, t.trySubTerm c d = (r, .ok ()) ∧ r.poly = t.poly - C c * X ^ d)) ∧
    (2 < d → t.tryAddTerm c d = (t, .error .degreeOutOfBounds) ∧
      t.trySubTerm c d = (t, .error .degreeOutOfBounds)) := by
  constructor
  · intro h
    rw [QuadraticTrinomial.tryAddTerm, QuadraticTrinomial.trySubTerm, if_pos h, if_pos h]
    refine ⟨⟨_, rfl, ?_⟩, ⟨_, rfl, ?_⟩⟩ <;>
    · rcases d with _ | _ | _ | d
      · simp [QuadraticTrinomial.modify, QuadraticTrinomial.poly]; try abel
      · simp [QuadraticTrinomial.modify, QuadraticTrinomial.poly, add_mul, sub_mul]; try abel
      · simp [QuadraticTrinomial.modify, QuadraticTrinomial.poly, add_mul, sub_mul]; try abel
      · omega
  · intro h
    rw [QuadraticTrinomial.tryAddTerm, QuadraticTrinomial.trySubTerm, if_neg (by omega), if_neg (by omega)]
    exact ⟨rfl, rfl⟩

/-- C29 (ArrayPolynomial): the exact outcomes. -/
theorem C29_array {size : Nat} (p : ArrayPoly R size) (c : R) (d : Nat) :
    (d < size →
      (∃ r, p.tryAddTerm c d = (r, .ok ()) ∧
        descPoly r.coefficients = descPoly p.coefficients + C c * X ^ d) ∧
      (∃ r, p.trySubTerm c d = (r, .ok ()) ∧
        descPoly r.coefficients = descPoly p.coefficients - C c * X ^ d)) ∧
    (size ≤ d → p.tryAddTerm c d = (p, .error .degreeOutOfBounds) ∧
      p.trySubTerm c d = (p, .error .degreeOutOfBounds)) := by
  have hl := p.length_eq
  constructor
  · intro h
    rw [ArrayPoly.tryAddTerm, ArrayPoly.trySubTerm, if_pos h, if_pos h]
    refine ⟨⟨_, rfl, ?_⟩, ⟨_, rfl, ?_⟩⟩
    · simp only
      rw [descPoly_modify_add _ _ _ (by omega)]; congr 3; omega
    · simp only
      rw [descPoly_modify_sub _ _ _ (by omega)]; congr 3; omega
  · intro h
    rw [ArrayPoly.tryAddTerm, ArrayPoly.trySubTerm, if_neg (by omega), if_neg (by omega)]
    exact ⟨rfl, rfl⟩

example : (⟨5, 2⟩ : Monomial ℤ).tryAddTerm 3 2 = (⟨8, 2⟩, .ok ()) ∧
    (⟨5, 2⟩ : Monomial ℤ).tryAddTerm 3 1 = (⟨5, 2⟩, .error .tooManyTerms) ∧
    (⟨0, 2⟩ : Monomial ℤ).trySubTerm 3 1 = (⟨-3, 1⟩, .ok ()) ∧
    (⟨5, 2⟩ : LinearBinomial ℤ).trySubTerm 3 1 = (⟨2, 2⟩, .ok ()) ∧
    (⟨5, 2⟩ : LinearBinomial ℤ).trySubTerm 3 2 = (⟨5, 2⟩, .error .degreeOutOfBounds) ∧
    (⟨5, 2, 1⟩ : QuadraticTrinomial ℤ).tryAddTerm 3 1 = (⟨5, 5, 1⟩, .ok ()) := ⟨rfl, rfl, rfl, rfl, rfl, rfl⟩

/-! ### Instances of the contract -/

theorem pair_inj {α β : Type} {a a' : α} {b b' : β} (h : (a, b) = (a', b')) : a = a' ∧ b = b' :=
  Prod.mk.inj h

noncomputable instance [CanNegate R] : LawfulMutPoly R (Poly R) where
  repr p := descPoly p.terms
  add_ok s s' c d h := by
    obtain ⟨r, hr, hp⟩ := (C29_dense s c d).1
    have := (pair_inj (hr.symm.trans h)).1; rw [← this]; exact hp
  add_err s s' c d e h := by
    obtain ⟨r, hr, _⟩ := (C29_dense s c d).1
    exact nomatch (pair_inj (hr.symm.trans h)).2
  sub_ok s s' c d h := by
    by_cases hc : CanNegate.canNegate R = true ∨ d < s.terms.length
    · obtain ⟨r, hr, hp⟩ := (C29_dense s c d).2.1 hc
      have := (pair_inj (hr.symm.trans h)).1; rw [← this]; exact hp
    · have := (C29_dense s c d).2.2 hc
      exact nomatch (pair_inj (this.symm.trans h)).2
  sub_err s s' c d e h := by
    by_cases hc : CanNegate.canNegate R = true ∨ d < s.terms.length
    · obtain ⟨r, hr, hp⟩ := (C29_dense s c d).2.1 hc
      exact nomatch (pair_inj (hr.symm.trans h)).2
    · have := (C29_dense s c d).2.2 hc
      exact (pair_inj (this.symm.trans h)).1.symm

noncomputable instance [NumZero R] [LawfulNumZero R] [CanNegate R] : LawfulMutPoly R (Sparse R) where
  repr p := entriesPoly p.terms.entries
  add_ok s s' c d h := by
    obtain ⟨r, hr, hp⟩ := (C29_sparse s c d).1
    have := (pair_inj (hr.symm.trans h)).1; rw [← this]; exact hp
  add_err s s' c d e h := by
    obtain ⟨r, hr, _⟩ := (C29_sparse s c d).1
    exact nomatch (pair_inj (hr.symm.trans h)).2
  sub_ok s s' c d h := by
    by_cases hc : CanNegate.canNegate R = true ∨ c = 0 ∨ s.terms.get d ≠ none
    · obtain ⟨r, hr, hp⟩ := (C29_sparse s c d).2.1 hc
      have := (pair_inj (hr.symm.trans h)).1; rw [← this]; exact hp
    · have := (C29_sparse s c d).2.2 hc
      exact nomatch (pair_inj (this.symm.trans h)).2
  sub_err s s' c d e h := by
    by_cases hc : CanNegate.canNegate R = true ∨ c = 0 ∨ s.terms.get d ≠ none
    · obtain ⟨r, hr, hp⟩ := (C29_sparse s c d).2.1 hc
      exact nomatch (pair_inj (hr.symm.trans h)).2
    · have := (C29_sparse s c d).2.2 hc
      exact (pair_inj (this.symm.trans h)).1.symm

noncomputable instance [NumZero R] [LawfulNumZero R] : LawfulMutPoly R (Monomial R) where
  repr p := p.poly
  add_ok s s' c d h := by
    by_cases hc : s.poly = 0 ∨ d = s.deg
    · obtain ⟨r, hr, hp⟩ := ((C29_monomial s c d).1 hc).1
      have := (pair_inj (hr.symm.trans h)).1; rw [← this]; exact hp
    · exact nomatch (pair_inj (((C29_monomial s c d).2 hc).1.symm.trans h)).2
  add_err s s' c d e h := by
    by_cases hc : s.poly = 0 ∨ d = s.deg
    · obtain ⟨r, hr, hp⟩ := ((C29_monomial s c d).1 hc).1
      exact nomatch (pair_inj (hr.symm.trans h)).2
    · exact (pair_inj (((C29_monomial s c d).2 hc).1.symm.trans h)).1.symm
  sub_ok s s' c d h := by
    by_cases hc : s.poly = 0 ∨ d = s.deg
    · obtain ⟨r, hr, hp⟩ := ((C29_monomial s c d).1 hc).2
      have := (pair_inj (hr.symm.trans h)).1; rw [← this]; exact hp
    · exact nomatch (pair_inj (((C29_monomial s c d).2 hc).2.symm.trans h)).2
  sub_err s s' c d e h := by
    by_cases hc : s.poly = 0 ∨ d = s.deg
    · obtain ⟨r, hr, hp⟩ := ((C29_monomial s c d).1 hc).2
      exact nomatch (pair_inj (hr.symm.trans h)).2
    · exact (pair_inj (((C29_monomial s c d).2 hc).2.symm.trans h)).1.symm

noncomputable instance : LawfulMutPoly R (LinearBinomial R) where
  repr p := p.poly
  add_ok s s' c d h := by
    by_cases hc : d ≤ 1
    · obtain ⟨r, hr, hp⟩ := ((C29_binomial s c d).1 hc).1
      have := (pair_inj (hr.symm.trans h)).1; rw [← this]; exact hp
    · exact nomatch (pair_inj (((C29_binomial s c d).2 (by omega)).1.symm.trans h)).2
  add_err s s' c d e h := by
    by_cases hc : d ≤ 1
    · obtain ⟨r, hr, hp⟩ := ((C29_binomial s c d).1 hc).1
      exact nomatch (pair_inj (hr.symm.trans h)).2
    · exact (pair_inj (((C29_binomial s c d).2 (by omega)).1.symm.trans h)).1.symm
  sub_ok s s' c d h := by
    by_cases hc : d ≤ 1
    · obtain ⟨r, hr, hp⟩ := ((C29_binomial s c d).1 hc).2
      have := (pair_inj (hr.symm.trans h)).1; rw [← this]; exact hp
    · exact nomatch (pair_inj (((C29_binomial s c d).2 (by omega)).2.symm.trans h)).2
  sub_err s s' c d e h := by
    by_cases hc : d ≤ 1
    · obtain ⟨r, hr, hp⟩ := ((C29_binomial s c d).1 hc).2
      exact nomatch (pair_inj (hr.symm.trans h)).2
    · exact (pair_inj (((C29_binomial s c d).2 (by omega)).2.symm.trans h)).1.symm

noncomputable instance : LawfulMutPoly R (QuadraticTrinomial R) where
  repr p := p.poly
  add_ok s s' c d h := by
    by_cases hc : d ≤ 2
    · obtain ⟨r, hr, hp⟩ := ((C29_trinomial s c d).1 hc).1
      have := (pair_inj (hr.symm.trans h)).1; rw [← this]; exact hp
    · exact nomatch (pair_inj (((C29_trinomial s c d).2 (by omega)).1.symm.trans h)).2
  add_err s s' c d e h := by
    by_cases hc : d ≤ 2
    · obtain ⟨r, hr, hp⟩ := ((C29_trinomial s c d).1 hc).1
      exact nomatch (pair_inj (hr.symm.trans h)).2
    · exact (pair_inj (((C29_trinomial s c d).2 (by omega)).1.symm.trans h)).1.symm
  sub_ok s s' c d h := by
    by_cases hc : d ≤ 2
    · obtain ⟨r, hr, hp⟩ := ((C29_trinomial s c d).1 hc).2
      have := (pair_inj (hr.symm.trans h)).1; rw [← this]; exact hp
    · exact nomatch (pair_inj (((C29_trinomial s c d).2 (by omega)).2.symm.trans h)).2
  sub_err s s' c d e h := by
    by_cases hc : d ≤ 2
    · obtain ⟨r, hr, hp⟩ := ((C29_trinomial s c d).1 hc).2
      exact nomatch (pair_inj (hr.symm.trans h)).2
    · exact (pair_inj (((C29_trinomial s c d).2 (by omega)).2.symm.trans h)).1.symm

noncomputable instance {size : Nat} : LawfulMutPoly R (ArrayPoly R size) where
  repr p := descPoly p.coefficients
  add_ok s s' c d h := by
    by_cases hc : d < size
    · obtain ⟨r, hr, hp⟩ := ((C29_array s c d).1 hc).1
      have := (pair_inj (hr.symm.trans h)).1; rw [← this]; exact hp
    · exact nomatch (pair_inj (((C29_array s c d).2 (by omega)).1.symm.trans h)).2
  add_err s s' c d e h := by
    by_cases hc : d < size
    · obtain ⟨r, hr, hp⟩ := ((C29_array s c d).1 hc).1
      exact nomatch (pair_inj (hr.symm.trans h)).2
    · exact (pair_inj (((C29_array s c d).2 (by omega)).1.symm.trans h)).1.symm
  sub_ok s s' c d h := by
    by_cases hc : d < size
    · obtain ⟨r, hr, hp⟩ := ((C29_array s c d).1 hc).2
      have := (pair_inj (hr.symm.trans h)).1; rw [← this]; exact hp
    · exact nomatch (pair_inj (((C29_array s c d).2 (by omega)).2.symm.trans h)).2
  sub_err s s' c d e h := by
    by_cases hc : d < size
    · obtain ⟨r, hr, hp⟩ := ((C29_array s c d).1 hc).2
      exact nomatch (pair_inj (hr.symm.trans h)).2
    · exact (pair_inj (((C29_array s c d).2 (by omega)).2.symm.trans h)).1.symm

end

/-! ## C32 – sink arithmetic -/

section
variable {N S : Type} [MutPoly N S]

theorem addPoly_append (a b : List (N × Nat)) (s : S) :
    addPoly (a ++ b) s = match addPoly a s with
      | (s', .ok ()) => addPoly b s'
      | (s', .error e) => (s', .error e) := by
  induction a generalizing s with
  | nil => simp [addPoly]
  | cons t ts ih =>
    obtain ⟨c, d⟩ := t
    simp only [List.cons_append, addPoly]
    cases h : MutPoly.tryAddTerm s c d with
    | mk s' r =>
      cases r with
      | ok _ => exact ih s'
      | error e => rfl

theorem subPoly_append (a b : List (N × Nat)) (s : S) :
    subPoly (a ++ b) s = match subPoly a s with
      | (s', .ok ()) => subPoly b s'
      | (s', .error e) => (s', .error e) := by
  induction a generalizing s with
  | nil => simp [subPoly]
  | cons t ts ih =>
    obtain ⟨c, d⟩ := t
    simp only [List.cons_append, subPoly]
    cases h : MutPoly.trySubTerm s c d with
    | mk s' r =>
      cases r with
      | ok _ => exact ih s'
      | error e => rfl

/-- `mul_poly_vec` adds the products one by one, in the order of the nested loops. -/
theorem mulPolyVec_eq_addPoly [Mul N] (rhs lhs : List (N × Nat)) (s : S) :
    mulPolyVec rhs lhs s =
      addPoly (rhs.flatMap fun r => lhs.map fun l => (r.1 * l.1, r.2 + l.2)) s := by
  have inner : ∀ (rc : N) (rd : Nat) (lhs : List (N × Nat)) (s : S), mulPolyVecInner rc rd lhs s =
      addPoly (lhs.map fun l => (rc * l.1, rd + l.2)) s := by
    intro rc rd lhs
    induction lhs with
    | nil => intro s; rfl
    | cons l ls ih =>
      intro s
      obtain ⟨lc, ld⟩ := l
      simp only [mulPolyVecInner, List.map_cons, addPoly]
      cases h : MutPoly.tryAddTerm s (rc * lc) (rd + ld) with
      | mk s' r =>
        cases r with
        | ok _ => exact ih s'
        | error e => rfl
  induction rhs generalizing s with
  | nil => rfl
  | cons r rs ih =>
    obtain ⟨rc, rd⟩ := r
    rw [List.flatMap_cons, addPoly_append, mulPolyVec, inner]
    simp only
    cases h : addPoly (lhs.map fun l => (rc * l.1, rd + l.2)) s with
    | mk s' r =>
      cases r with
      | ok _ => exact ih s'
      | error e => rfl

end

section
variable {R S : Type} [Ring R] [MutPoly R S] [hS : LawfulMutPoly R S]

/-- C32: `add_poly` on any lawful sink.  `Ok`: the sink changed by `+ source`.  `Err(e)`: the first
failing term reported `e`, and the sink holds exactly the terms before it. -/
theorem C32_add_poly (ts : List (R × Nat)) (s s' : S) :
    (addPoly ts s = (s', .ok ()) → hS.repr s' = hS.repr s + termsPoly ts) ∧
    (∀ e, addPoly ts s = (s', .error e) → ∃ pre t post, ts = pre ++ t :: post ∧
      addPoly pre s = (s', .ok ()) ∧ MutPoly.tryAddTerm s' t.1 t.2 = (s', .error e) ∧
      hS.repr s' = hS.repr s + termsPoly pre) := by
  induction ts generalizing s with
  | nil =>
    constructor
    · intro h; simp only [addPoly, Prod.mk.injEq, and_true] at h; simp [h]
    · intro e h; simp [addPoly] at h
  | cons t ts ih =>
    obtain ⟨c, d⟩ := t
    cases h : MutPoly.tryAddTerm s c d with
    | mk s1 r =>
      cases r with
      | error e' =>
        have h1 := LawfulMutPoly.add_err _ _ _ _ _ h
        subst h1
        simp only [addPoly, h]
        constructor
        · intro h'; simp at h'
        · intro e h'
          simp only [Prod.mk.injEq, Except.error.injEq] at h'
          obtain ⟨rfl, rfl⟩ := h'
          exact ⟨[], (c, d), ts, rfl, rfl, h, by simp⟩
      | ok u =>
        have h1 := LawfulMutPoly.add_ok _ _ _ _ h
        simp only [addPoly, h]
        constructor
        · intro h'
          rw [(ih s1).1 h', h1, termsPoly_cons, add_assoc]
        · intro e h'
          obtain ⟨pre, t, post, h2, h3, h4, h5⟩ := (ih s1).2 e h'
          refine ⟨(c, d) :: pre, t, post, by rw [h2]; rfl, ?_, h4, ?_⟩
          · simp only [addPoly, h]; exact h3
          · rw [h5, h1, termsPoly_cons, add_assoc]

/-- C32: `sub_poly` on any lawful sink. -/
theorem C32_sub_poly (ts : List (R × Nat)) (s s' : S) :
    (subPoly ts s = (s', .ok ()) → hS.repr s' = hS.repr s - termsPoly ts) ∧
    (∀ e, subPoly ts s = (s', .error e) → ∃ pre t post, ts = pre ++ t :: post ∧
      subPoly pre s = (s', .ok ()) ∧ MutPoly.trySubTerm s' t.1 t.2 = (s', .error e) ∧
      hS.repr s' = hS.repr s - termsPoly pre) := by
  induction ts generalizing s with
  | nil =>
    constructor
    · intro h; simp only [subPoly, Prod.mk.injEq, and_true] at h; simp [h]
    · intro e h; simp [subPoly] at h
  | cons t ts ih =>
    obtain ⟨c, d⟩ := t
    cases h : MutPoly.trySubTerm s c d with
    | mk s1 r =>
      cases r with
      | error e' =>
        have h1 := LawfulMutPoly.sub_err _ _ _ _ _ h
        subst h1
        simp only [subPoly, h]
        constructor
        · intro h'; simp at h'
        · intro e h'
          simp only [Prod.mk.injEq, Except.error.injEq] at h'
          obtain ⟨rfl, rfl⟩ := h'
          exact ⟨[], (c, d), ts, rfl, rfl, h, by simp⟩
      | ok u =>
        have h1 := LawfulMutPoly.sub_ok _ _ _ _ h
        simp only [subPoly, h]
        constructor
        · intro h'
          rw [(ih s1).1 h', h1, termsPoly_cons, sub_sub]
        · intro e h'
          obtain ⟨pre, t, post, h2, h3, h4, h5⟩ := (ih s1).2 e h'
          refine ⟨(c, d) :: pre, t, post, by rw [h2]; rfl, ?_, h4, ?_⟩
          · simp only [subPoly, h]; exact h3
          · rw [h5, h1, termsPoly_cons, sub_sub]

end

theorem termsPoly_products {R : Type} [CommRing R] (rhs lhs : List (R × Nat)) :
    termsPoly (rhs.flatMap fun r => lhs.map fun l => (r.1 * l.1, r.2 + l.2))
      = termsPoly rhs * termsPoly lhs := by
  have inner : ∀ (r : R × Nat), termsPoly (lhs.map fun l => (r.1 * l.1, r.2 + l.2))
      = C r.1 * X ^ r.2 * termsPoly lhs := by
    intro r
    induction lhs with
    | nil => simp
    | cons l ls ih => rw [List.map_cons, termsPoly_cons, ih, termsPoly_cons, C_mul]; ring
  induction rhs with
  | nil => simp
  | cons r rs ih => rw [List.flatMap_cons, termsPoly_append, inner, ih, termsPoly_cons, add_mul]

/-- C32: `mul_poly_vec` on any lawful sink.  `Ok`: the sink changed by `+ rhs * lhs`; `Err(e)`: the
sink holds the products before the first failing one. -/
theorem C32_mul_poly_vec {R S : Type} [CommRing R] [MutPoly R S] [hS : LawfulMutPoly R S]
    (rhs lhs : List (R × Nat)) (s s' : S) :
    (mulPolyVec rhs lhs s = (s', .ok ()) → hS.repr s' = hS.repr s + termsPoly rhs * termsPoly lhs) ∧
    (∀ e, mulPolyVec rhs lhs s = (s', .error e) →
      ∃ pre t post, (rhs.flatMap fun r => lhs.map fun l => (r.1 * l.1, r.2 + l.2)) = pre ++ t :: post ∧
        MutPoly.tryAddTerm s' t.1 t.2 = (s', .error e) ∧ hS.repr s' = hS.repr s + termsPoly pre) := by
  rw [mulPolyVec_eq_addPoly]
  obtain ⟨h1, h2⟩ := C32_add_poly (rhs.flatMap fun r => lhs.map fun l => (r.1 * l.1, r.2 + l.2)) s s'
  constructor
  · intro h; rw [h1 h, termsPoly_products]
  · intro e h
    obtain ⟨pre, t, post, h3, _, h4, h5⟩ := h2 e h
    exact ⟨pre, t, post, h3, h4, h5⟩

/-- Sinks that never refuse a term. -/
theorem addPoly_total {R S : Type} [MutPoly R S]
    (h : ∀ (s : S) (c : R) d, ∃ s', MutPoly.tryAddTerm s c d = (s', .ok ())) (ts : List (R × Nat)) (s : S) :
    ∃ s', addPoly ts s = (s', .ok ()) := by
  induction ts generalizing s with
  | nil => exact ⟨s, rfl⟩
  | cons t ts ih =>
    obtain ⟨s1, h1⟩ := h s t.1 t.2
    simp only [addPoly, h1]; exact ih s1

theorem subPoly_total {R S : Type} [MutPoly R S]
    (h : ∀ (s : S) (c : R) d, ∃ s', MutPoly.trySubTerm s c d = (s', .ok ())) (ts : List (R × Nat)) (s : S) :
    ∃ s', subPoly ts s = (s', .ok ()) := by
  induction ts generalizing s with
  | nil => exact ⟨s, rfl⟩
  | cons t ts ih =>
    obtain ⟨s1, h1⟩ := h s t.1 t.2
    simp only [subPoly, h1]; exact ih s1

section
variable {R : Type} [CommRing R] [NumZero R] [LawfulNumZero R] [CanNegate R]

/-- C32: with a `Polynomial` sink the three functions always succeed (subtraction: over types that
can be negated), so the sink changes by exactly the source. -/
theorem C32_dense_sink (ts us : List (R × Nat)) (s : Poly R) :
    (∃ s', addPoly ts s = (s', .ok ()) ∧ descPoly s'.terms = descPoly s.terms + termsPoly ts) ∧
    (CanNegate.canNegate R = true →
      ∃ s', subPoly ts s = (s', .ok ()) ∧ descPoly s'.terms = descPoly s.terms - termsPoly ts) ∧
    (∃ s', mulPolyVec ts us s = (s', .ok ()) ∧
      descPoly s'.terms = descPoly s.terms + termsPoly ts * termsPoly us) := by
  have ha : ∀ (s : Poly R) (c : R) d, ∃ s', MutPoly.tryAddTerm s c d = (s', .ok ()) := fun s c d =>
    ⟨_, rfl⟩
  refine ⟨?_, fun hn => ?_, ?_⟩
  · obtain ⟨s', h⟩ := addPoly_total ha ts s
    exact ⟨s', h, (C32_add_poly ts s s').1 h⟩
  · obtain ⟨s', h⟩ := subPoly_total (fun (s : Poly R) (c : R) d => by
      obtain ⟨r, hr, _⟩ := (C29_dense s c d).2.1 (.inl hn); exact ⟨r, hr⟩) ts s
    exact ⟨s', h, (C32_sub_poly ts s s').1 h⟩
  · obtain ⟨s', h⟩ := addPoly_total ha _ s
    have h' := (mulPolyVec_eq_addPoly ts us s).trans h
    exact ⟨s', h', (C32_mul_poly_vec ts us s s').1 h'⟩

/-- C32: with a `SparsePolynomial` sink. -/
theorem C32_sparse_sink (ts us : List (R × Nat)) (s : Sparse R) :
    (∃ s', addPoly ts s = (s', .ok ()) ∧
      entriesPoly s'.terms.entries = entriesPoly s.terms.entries + termsPoly ts) ∧
    (CanNegate.canNegate R = true → ∃ s', subPoly ts s = (s', .ok ()) ∧
      entriesPoly s'.terms.entries = entriesPoly s.terms.entries - termsPoly ts) ∧
    (∃ s', mulPolyVec ts us s = (s', .ok ()) ∧
      entriesPoly s'.terms.entries = entriesPoly s.terms.entries + termsPoly ts * termsPoly us) := by
  have ha : ∀ (s : Sparse R) (c : R) d, ∃ s', MutPoly.tryAddTerm s c d = (s', .ok ()) := fun s c d =>
    ⟨_, rfl⟩
  refine ⟨?_, fun hn => ?_, ?_⟩
  · obtain ⟨s', h⟩ := addPoly_total ha ts s
    exact ⟨s', h, (C32_add_poly ts s s').1 h⟩
  · obtain ⟨s', h⟩ := subPoly_total (fun (s : Sparse R) (c : R) d => by
      obtain ⟨r, hr, _⟩ := (C29_sparse s c d).2.1 (.inl hn); exact ⟨r, hr⟩) ts s
    exact ⟨s', h, (C32_sub_poly ts s s').1 h⟩
  · obtain ⟨s', h⟩ := addPoly_total ha _ s
    have h' := (mulPolyVec_eq_addPoly ts us s).trans h
    exact ⟨s', h', (C32_mul_poly_vec ts us s s').1 h'⟩

end

example : addPoly [(2, 5), (3, 1), ((4 : ℤ), 0)] (⟨1, 1⟩ : LinearBinomial ℤ)
    = (⟨1, 1⟩, .error .degreeOutOfBounds) ∧
    addPoly [(3, 1), (2, 5), ((4 : ℤ), 0)] (⟨1, 1⟩ : LinearBinomial ℤ)
    = (⟨4, 1⟩, .error .degreeOutOfBounds) ∧
    mulPolyVec [(2, 1), (3, 0)] [(1, 1), ((-1 : ℤ), 0)] (⟨[]⟩ : Poly ℤ) = (⟨[2, 1, -3]⟩, .ok ()) :=
  ⟨rfl, rfl, rfl⟩

/-! ## C33 – the macros -/

section
variable {R : Type} [CommRing R] [CanNegate R]

/-- The polynomial that is the sum of several term lists. -/
noncomputable def sumPoly (xs : List (List (R × Nat))) : R[X] := (xs.map termsPoly).sum

theorem firstError_append_ok (rs : List (Except TryAddError Unit)) (u : Unit) :
    firstError (rs ++ [.ok u]) = firstError rs := by
  induction rs with
  | nil => rfl
  | cons r rs ih => cases r with
    | ok _ => exact ih
    | error e => rfl

theorem polyAddSink_aux (xs : List (List (R × Nat))) (s : Poly R) (rs : List (Except TryAddError Unit)) :
    ∃ s' rs', xs.foldl (fun (st : Poly R × List (Except TryAddError Unit)) x =>
        let r := addPoly x st.1
        (r.1, st.2 ++ [r.2])) (s, rs) = (s', rs') ∧
      descPoly s'.terms = descPoly s.terms + sumPoly xs ∧ firstError rs' = firstError rs := by
  classical
  induction xs generalizing s rs with
  | nil => exact ⟨s, rs, rfl, by simp [sumPoly], rfl⟩
  | cons x xs ih =>
    obtain ⟨s1, h1, h2⟩ := (C32_dense_sink x [] s).1
    obtain ⟨s', rs', h3, h4, h5⟩ := ih s1 (rs ++ [.ok ()])
    refine ⟨s', rs', ?_, ?_, ?_⟩
    · rw [List.foldl_cons]; simp only [h1]; exact h3
    · rw [h4, h2, sumPoly, sumPoly, List.map_cons, List.sum_cons, add_assoc]
    · rw [h5, firstError_append_ok]

theorem polySubSink_aux (hn : CanNegate.canNegate R = true) (xs : List (List (R × Nat))) (s : Poly R)
    (rs : List (Except TryAddError Unit)) :
    ∃ s' rs', xs.foldl (fun (st : Poly R × List (Except TryAddError Unit)) x =>
        let r := subPoly x st.1
        (r.1, st.2 ++ [r.2])) (s, rs) = (s', rs') ∧
      descPoly s'.terms = descPoly s.terms - sumPoly xs ∧ firstError rs' = firstError rs := by
  classical
  induction xs generalizing s rs with
  | nil => exact ⟨s, rs, rfl, by simp [sumPoly], rfl⟩
  | cons x xs ih =>
    obtain ⟨s1, h1, h2⟩ := (C32_dense_sink x [] s).2.1 hn
    obtain ⟨s', rs', h3, h4, h5⟩ := ih s1 (rs ++ [.ok ()])
    refine ⟨s', rs', ?_, ?_, ?_⟩
    · rw [List.foldl_cons]; simp only [h1]; exact h3
    · rw [h4, h2, sumPoly, sumPoly, List.map_cons, List.sum_cons, sub_sub]
    · rw [h5, firstError_append_ok]

/-- C33: `poly_add!(x1, ..., xk)` is the sum; `poly_add!(sink; x1, ..., xk)` with a `Polynomial`
sink adds the sum to it and returns `Ok`. -/
theorem C33_poly_add (xs : List (List (R × Nat))) (s : Poly R) :
    descPoly (polyAdd xs).terms = sumPoly xs ∧
    ∃ s', polyAddSink xs s = (s', .ok ()) ∧ descPoly s'.terms = descPoly s.terms + sumPoly xs := by
  constructor
  · obtain ⟨s', rs', h1, h2, _⟩ := polyAddSink_aux xs Poly.zero []
    unfold polyAdd polyAddSink
    simp only [h1, h2]; simp [Poly.zero]
  · obtain ⟨s', rs', h1, h2, h3⟩ := polyAddSink_aux xs s []
    exact ⟨s', by unfold polyAddSink; simp only [h1, h3]; rfl, h2⟩

/-- C33: `poly_sub!(l, x1, ..., xk)` is `l` minus the sum, and the sink form subtracts the sum, for
coefficient types that can be negated.  Missing: types without negation, where the result is wrong
and the error is dropped, see `C33_poly_sub_unsigned_false`. -/
theorem C33_poly_sub_partial (hn : CanNegate.canNegate R = true) (l : List (R × Nat))
    (xs : List (List (R × Nat))) (s : Poly R) :
    descPoly (polySub l xs).terms = termsPoly l - sumPoly xs ∧
    ∃ s', polySubSink xs s = (s', .ok ()) ∧ descPoly s'.terms = descPoly s.terms - sumPoly xs := by
  constructor
  · obtain ⟨s0, h0, h0'⟩ := (C33_poly_add [l] Poly.zero).2
    obtain ⟨s', rs', h1, h2, _⟩ := polySubSink_aux hn xs s0 []
    unfold polySub polySubSink
    simp only [h0, h1, h2, h0']; simp [Poly.zero, sumPoly]
  · obtain ⟨s', rs', h1, h2, h3⟩ := polySubSink_aux hn xs s []
    exact ⟨s', by unfold polySubSink; simp only [h1, h3]; rfl, h2⟩

end

/-- C33: the sink forms report the first error of the sources, in order, on any sink; all sources
are processed. -/
theorem C33_sink_errors {N S : Type} [MutPoly N S] (x : List (N × Nat)) (xs : List (List (N × Nat)))
    (s : S) :
    (polyAddSink ([] : List (List (N × Nat))) s = (s, .ok ())) ∧
    (polyAddSink (x :: xs) s).1 = (polyAddSink xs (addPoly x s).1).1 ∧
    (polyAddSink (x :: xs) s).2 = (match (addPoly x s).2 with
      | .ok () => (polyAddSink xs (addPoly x s).1).2
      | .error e => .error e) ∧
    (polySubSink ([] : List (List (N × Nat))) s = (s, .ok ())) ∧
    (polySubSink (x :: xs) s).1 = (polySubSink xs (subPoly x s).1).1 ∧
    (polySubSink (x :: xs) s).2 = (match (subPoly x s).2 with
      | .ok () => (polySubSink xs (subPoly x s).1).2
      | .error e => .error e) := by
  have key : ∀ (f : List (N × Nat) → S → S × Except TryAddError Unit) (xs : List (List (N × Nat)))
      (s : S) (rs : List (Except TryAddError Unit)),
      xs.foldl (fun (st : S × List (Except TryAddError Unit)) x =>
        let r := f x st.1
        (r.1, st.2 ++ [r.2])) (s, rs) =
      ((xs.foldl (fun (st : S × List (Except TryAddError Unit)) x =>
        let r := f x st.1
        (r.1, st.2 ++ [r.2])) (s, [])).1,
       rs ++ (xs.foldl (fun (st : S × List (Except TryAddError Unit)) x =>
        let r := f x st.1
        (r.1, st.2 ++ [r.2])) (s, [])).2) := by
    intro f xs
    induction xs with
    | nil => intro s rs; simp
    | cons x xs ih =>
      intro s rs
      rw [List.foldl_cons, List.foldl_cons]
      simp only
      rw [ih (f x s).1 (rs ++ [(f x s).2]), ih (f x s).1 ([] ++ [(f x s).2])]
      simp
  refine ⟨rfl, ?_, ?_, rfl, ?_, ?_⟩
  · unfold polyAddSink
    rw [List.foldl_cons]
    simp only
    rw [key]
  · unfold polyAddSink
    rw [List.foldl_cons]
    simp only
    rw [key]
    cases h : (addPoly x s).2 with
    | ok _ => simp [firstError]
    | error e => simp [firstError]
  · unfold polySubSink
    rw [List.foldl_cons]
    simp only
    rw [key]
  · unfold polySubSink
    rw [List.foldl_cons]
    simp only
    rw [key]
    cases h : (subPoly x s).2 with
    | ok _ => simp [firstError]
    | error e => simp [firstError]

/-- C33 is false for coefficient types without negation: `poly_sub!(1, 3x)` returns `1`, with the
error dropped. (Stated over the integers with `can_negate()` answering `false`: the arithmetic that
runs before the error does not depend on the type.) -/
theorem C33_poly_sub_unsigned_false :
    let _ : CanNegate ℤ := ⟨false⟩
    polySub [((1 : ℤ), 0)] [[(3, 1)]] = ⟨[1]⟩ := by
  decide

example : polyAdd [[((1 : ℤ), 2), (5, 0)], [(-1, 2), (2, 3)]] = ⟨[2, 0, 0, 5]⟩ ∧
    polySub [((1 : ℤ), 2), (5, 0)] [[(-1, 2), (2, 3)], [(1, 0)]] = ⟨[-2, 2, 0, 4]⟩ := by decide

/-! ## C19 – the `Integral` wrapper -/

/-- Contract of the part of a polynomial type used by `Integral`: `add_term` adds the term and
`eval`, wherever `good` holds, is evaluation. -/
class LawfulFreeSizeEval (N P : Type) [Ring N] [FreeSizeEval N P] where
  repr : P → N[X]
  good : P → Prop
  addTerm_eq : ∀ (p : P) (c : N) (d : Nat), repr (FreeSizeEval.addTerm p c d) = repr p + C c * X ^ d
  eval_eq : ∀ (p : P) (x : N), good p → FreeSizeEval.eval p x = (repr p).eval x
  good_addTerm : ∀ (p : P) (c : N), good p → good (FreeSizeEval.addTerm p c 0)

noncomputable instance {R : Type} [Ring R] [NumZero R] [LawfulNumZero R] :
    LawfulFreeSizeEval R (Poly R) where
  repr p := descPoly p.terms
  good _ := True
  addTerm_eq := C31_dense_add_term
  eval_eq p x _ := C06_dense_eval p x
  good_addTerm _ _ _ := trivial

noncomputable instance {R : Type} [Ring R] [NumZero R] [LawfulNumZero R] [PowUsize R]
    [hl : LawfulPowUsize R] [hb : Fact (0 < hl.bound)] : LawfulFreeSizeEval R (Sparse R) where
  repr p := entriesPoly p.terms.entries
  good p := ∀ e ∈ p.terms.entries, e.1 < hl.bound
  addTerm_eq := C31_sparse_add_term
  eval_eq p x h := C07_sparse_eval_partial p x h
  good_addTerm p c h := by
    show ∀ e ∈ (p.addTerm c 0).terms.entries, e.1 < hl.bound
    unfold Sparse.addTerm
    split
    · exact h
    · rintro ⟨k, v⟩ he
      rw [BMap.mem_entries, BMap.get_upsert] at he
      by_cases hk : k = 0
      · simpa [hk] using hb.out
      · simp only [hk, if_false] at he
        exact h (k, v) ((BMap.mem_entries _ _ _).2 he)

section
variable {R P : Type} [CommRing R] [FreeSizeEval R P] [hP : LawfulFreeSizeEval R P]

/-- C19: `eval(a, b)` is `F(b) - F(a)`; it is additive, zero on `[a, a]` and antisymmetric. -/
theorem C19_integral_eval (i : Integral P) (h : hP.good i.inner) (a b c : R) :
    i.eval a b = (hP.repr i.inner).eval b - (hP.repr i.inner).eval a ∧
    i.eval a a = (0 : R) ∧ i.eval a b + i.eval b c = (i.eval a c : R) ∧
    i.eval b a = -(i.eval a b : R) := by
  have key : ∀ a b : R, i.eval a b = (hP.repr i.inner).eval b - (hP.repr i.inner).eval a := by
    intro a b
    unfold Integral.eval
    exact congrArg₂ (· - ·) (hP.eval_eq _ _ h) (hP.eval_eq _ _ h)
  refine ⟨key a b, ?_, ?_, ?_⟩ <;> simp only [key] <;> ring

/-- C19: `replace_c(c)` of an antiderivative with constant term zero has constant term `c`, the same
derivative, and the same definite integrals. -/
theorem C19_replace_c (i : Integral P) (h : hP.good i.inner) (h0 : (hP.repr i.inner).coeff 0 = 0) (c a b : R) :
    (hP.repr (i.replaceC c)).coeff 0 = c ∧
    Polynomial.derivative (hP.repr (i.replaceC c)) = Polynomial.derivative (hP.repr i.inner) ∧
    (FreeSizeEval.eval (i.replaceC c) b - FreeSizeEval.eval (i.replaceC c) a : R) = i.eval a b := by
  have e : hP.repr (i.replaceC c) = hP.repr i.inner + C c := by
    unfold Integral.replaceC; rw [hP.addTerm_eq]; simp; rfl
  refine ⟨by simp [e, h0], by simp [e], ?_⟩
  have hg : hP.good (i.replaceC c) := hP.good_addTerm _ _ h
  rw [hP.eval_eq _ _ hg, hP.eval_eq _ _ hg, (C19_integral_eval i h a b c).1, e]
  simp

end

/-- C19 end to end (Polynomial): the wrapper around `p.integral()` integrates `p`: for the
antiderivative `F` with `F' = p` and `F(0) = 0`, `eval(a, b) = F(b) - F(a)`, and `replace_c(c)` has
derivative `p` and constant term `c`. -/
theorem C19_dense_integral {K : Type} [Field K] [CharZero K] [NumZero K] [LawfulNumZero K] [RDiv K]
    [LawfulRDiv K] [FromUsizeCont K] [LawfulFromUsizeCont K] (p : Poly K)
    (h : (tryFromCont (Poly.new p.terms).terms.length : Option K) ≠ none) (a b c : K) :
    ∃ r, p.integral = .ok r ∧ ∃ F : K[X], Polynomial.derivative F = descPoly p.terms ∧ F.coeff 0 = 0 ∧
      (⟨r⟩ : Integral (Poly K)).eval a b = F.eval b - F.eval a ∧
      descPoly ((⟨r⟩ : Integral (Poly K)).replaceC c).terms = F + C c := by
  obtain ⟨r, h1, h2, h3⟩ := C18_dense_integral p h
  refine ⟨r, h1, descPoly r.terms, h2, h3, (C19_integral_eval (⟨r⟩ : Integral (Poly K)) trivial a b c).1, ?_⟩
  rw [Integral.replaceC]
  exact (C31_dense_add_term r c 0).trans (by simp)

/-- C19 end to end (SparsePolynomial), for exponents below the bound of `upow`. -/
theorem C19_sparse_integral_partial {K : Type} [Field K] [CharZero K] [NumZero K] [LawfulNumZero K] [RDiv K]
    [LawfulRDiv K] [FromUsizeExact K] [LawfulFromUsizeExact K] [PowUsize K] [hl : LawfulPowUsize K]
    (p : Sparse K) (h : ∀ e ∈ p.terms.entries, (tryFromExact (e.1 + 1) : Option K) ≠ none)
    (hb : ∀ r, p.integral = .ok r → ∀ e ∈ r.terms.entries, e.1 < hl.bound) (a b c : K) :
    ∃ r, p.integral = .ok r ∧ ∃ F : K[X], Polynomial.derivative F = entriesPoly p.terms.entries ∧
      F.coeff 0 = 0 ∧ (⟨r⟩ : Integral (Sparse K)).eval a b = F.eval b - F.eval a ∧
      entriesPoly ((⟨r⟩ : Integral (Sparse K)).replaceC c).terms.entries = F + C c := by
  obtain ⟨r, h1, h2, h3⟩ := C18_sparse_integral p h
  refine ⟨r, h1, entriesPoly r.terms.entries, h2, h3, ?_, ?_⟩
  · rw [Integral.eval]
    exact congrArg₂ (· - ·) (C07_sparse_eval_partial r b (hb r h1)) (C07_sparse_eval_partial r a (hb r h1))
  · rw [Integral.replaceC]
    exact (C31_sparse_add_term r c 0).trans (by simp)

example : (⟨⟨[1, 1, 0]⟩⟩ : Integral (Poly ℤ)).eval (0 : ℤ) 2 = 6 ∧
    (⟨⟨[1, 1, 0]⟩⟩ : Integral (Poly ℤ)).replaceC (7 : ℤ) = ⟨[1, 1, 7]⟩ := by decide

end Rustnomial
