import Verif.Props.MachinePow

/-!
# C80, continued: the exact condition under which a power overflows, for every integer type
-/

open Polynomial

namespace Rustnomial

/-- Specification: every product and every partial sum of the schoolbook product of `A` and `B` is a value of the type, the
terms of the right factor being taken by descending degree. -/
def MulFitsDesc (t : IntTy) (A B : ℤ[X]) : Prop :=
  (∀ i j, t.InRange (A.coeff i * B.coeff j)) ∧
    ∀ d e, t.InRange (∑ x ∈ Finset.antidiagonal d with e ≤ x.2, A.coeff x.1 * B.coeff x.2)

/-- Specification: the same, the terms of the right factor being taken by ascending degree. -/
def MulFitsAsc (t : IntTy) (A B : ℤ[X]) : Prop :=
  (∀ i j, t.InRange (A.coeff i * B.coeff j)) ∧
    ∀ d e, t.InRange (∑ x ∈ Finset.antidiagonal d with x.2 ≤ e, A.coeff x.1 * B.coeff x.2)

/-- Specification: `P ^ n` by binary powering. Each number `m ≥ 2` got by dropping binary digits of `n` from the right needs the
square of `P ^ (m / 2)`, and if it is odd the product of `P` and `P ^ (m - 1)` as well; all of these have to fit. -/
def PowFits (fits : ℤ[X] → ℤ[X] → Prop) (P : ℤ[X]) (n : Nat) : Prop :=
  ∀ k m, m = n / 2 ^ k → 2 ≤ m →
    fits (P ^ (m / 2)) (P ^ (m / 2)) ∧ (m % 2 = 1 → fits P (P ^ (m - 1)))

variable {fits : ℤ[X] → ℤ[X] → Prop} {P : ℤ[X]}

theorem powFits_small {n : Nat} (h : n ≤ 1) : PowFits fits P n := by
  intro k m hm h2
  have := Nat.div_le_self n (2 ^ k)
  omega

theorem powFits_step {n : Nat} (h : 2 ≤ n) :
    PowFits fits P n ↔ PowFits fits P (n / 2) ∧ fits (P ^ (n / 2)) (P ^ (n / 2)) ∧ (n % 2 = 1 → fits P (P ^ (n - 1))) := by
  constructor
  · intro H
    refine ⟨fun k m hm h2 => H (k + 1) m (by rw [hm, Nat.div_div_eq_div_mul, pow_succ']) h2, H 0 n (by simp) h⟩
  · rintro ⟨H, h0⟩ k m hm h2
    cases k with
    | zero =>
      obtain rfl : m = n := by simpa using hm
      exact h0
    | succ k => exact H k m (by rw [hm, Nat.div_div_eq_div_mul, pow_succ']) h2

theorem powFits_two : PowFits fits P 2 ↔ fits P P := by
  rw [powFits_step le_rfl]
  simp [powFits_small (fits := fits) (P := P) (le_refl 1)]

theorem powFits_odd {n : Nat} (h : 3 ≤ n) (ho : n % 2 = 1) :
    PowFits fits P n ↔ PowFits fits P (n - 1) ∧ fits P (P ^ (n - 1)) := by
  rw [powFits_step (by omega), powFits_step (n := n - 1) (by omega)]
  have e : (n - 1) / 2 = n / 2 := by omega
  have e2 : ¬ (n - 1) % 2 = 1 := by omega
  rw [e]
  tauto

theorem powFits_even {n : Nat} (h : 2 ≤ n) (ho : n % 2 = 0) :
    PowFits fits P n ↔ PowFits fits P (n / 2) ∧ fits (P ^ (n / 2)) (P ^ (n / 2)) := by
  rw [powFits_step h]
  have e2 : ¬ n % 2 = 1 := by omega
  tauto

/-- C80, `Polynomial::pow` with overflow checks, any integer type: the power of a polynomial other than zero returns exactly
when all the products of binary powering fit into the type, and the result is then exact; otherwise it panics. -/
theorem C80_dense_pow_exact (t : IntTy) (p : Poly Int) (n : Nat) (h0 : descPoly p.terms ≠ 0) :
    (PowFits (MulFitsDesc t) (descPoly p.terms) n →
      ∃ r, p.powM (.machine true t) n = .ok r ∧ descPoly r.terms = descPoly p.terms ^ n) ∧
    (¬ PowFits (MulFitsDesc t) (descPoly p.terms) n → p.powM (.machine true t) n = .panic) := by
  have hmul : ∀ (a b : Poly Int) (i j : Nat), descPoly a.terms = descPoly p.terms ^ i →
      descPoly b.terms = descPoly p.terms ^ j →
      (MulFitsDesc t (descPoly p.terms ^ i) (descPoly p.terms ^ j) →
        ∃ r, a.mulRefM (.machine true t) b = .ok r ∧ descPoly r.terms = descPoly p.terms ^ (i + j)) ∧
      (¬ MulFitsDesc t (descPoly p.terms ^ i) (descPoly p.terms ^ j) → a.mulRefM (.machine true t) b = .panic) := by
    intro a b i j ha hb
    have H := C56_mul t a b (.inl (by rw [ha]; exact pow_ne_zero _ h0))
    rw [ha, hb] at H
    refine ⟨fun h => ?_, fun h => (H.2 h).2⟩
    obtain ⟨_, r, h1, h2, _⟩ := H.1 h
    exact ⟨r, h1, by rw [h2, pow_add]⟩
  induction n using Nat.strong_induction_on with
  | _ n ih =>
    rw [Poly.powM.eq_def]
    by_cases n0 : n = 0
    · subst n0
      exact ⟨fun _ => ⟨_, if_pos rfl, by simp [descPoly_cons]⟩, fun h => absurd (powFits_small (by omega)) h⟩
    rw [if_neg n0]
    by_cases n1 : n = 1
    · subst n1
      exact ⟨fun _ => ⟨_, if_pos rfl, by rw [C01_new_same_polynomial, pow_one]⟩, fun h => absurd (powFits_small (by omega)) h⟩
    rw [if_neg n1]
    by_cases n2 : n = 2
    · subst n2
      rw [if_pos rfl, powFits_two]
      simpa using hmul p p 1 1 (pow_one _).symm (pow_one _).symm
    rw [if_neg n2]
    by_cases n3 : n % 2 = 0
    · rw [if_pos n3, powFits_even (by omega) n3]
      obtain ⟨i1, i2⟩ := ih (n / 2) (by omega)
      by_cases hf : PowFits (MulFitsDesc t) (descPoly p.terms) (n / 2)
      · obtain ⟨r, h1, h2⟩ := i1 hf
        rw [h1, Res.ok_bind, Poly.powM.eq_def]
        simp only [OfNat.ofNat_ne_zero, if_false, OfNat.ofNat_ne_one, if_true]
        obtain ⟨m1, m2⟩ := hmul r r (n / 2) (n / 2) h2 h2
        rw [show n / 2 + n / 2 = n by omega] at m1
        exact ⟨fun h => m1 h.2, fun h => m2 fun h' => h ⟨hf, h'⟩⟩
      · rw [i2 hf]
        exact ⟨fun h => absurd h.1 hf, fun _ => rfl⟩
    · rw [if_neg n3, powFits_odd (by omega) (by omega)]
      obtain ⟨i1, i2⟩ := ih (n - 1) (by omega)
      by_cases hf : PowFits (MulFitsDesc t) (descPoly p.terms) (n - 1)
      · obtain ⟨r, h1, h2⟩ := i1 hf
        rw [h1, Res.ok_bind]
        obtain ⟨m1, m2⟩ := hmul p r 1 (n - 1) (pow_one _).symm h2
        rw [show 1 + (n - 1) = n by omega, pow_one] at m1
        rw [pow_one] at m2
        exact ⟨fun h => m1 h.2, fun h => m2 fun h' => h ⟨hf, h'⟩⟩
      · rw [i2 hf]
        exact ⟨fun h => absurd h.1 hf, fun _ => rfl⟩

/-- C80, `SparsePolynomial::pow` with overflow checks, any integer type: the power returns exactly when all the products of
binary powering fit into the type, and the result is then exact; otherwise it panics. -/
theorem C80_sparse_pow_exact (t : IntTy) (p : Sparse Int) (n : Nat) :
    (PowFits (MulFitsAsc t) (entriesPoly p.terms.entries) n →
      ∃ r, p.powM (.machine true t) n = .ok r ∧ entriesPoly r.terms.entries = entriesPoly p.terms.entries ^ n) ∧
    (¬ PowFits (MulFitsAsc t) (entriesPoly p.terms.entries) n → p.powM (.machine true t) n = .panic) := by
  have hmul : ∀ (a b : Sparse Int) (i j : Nat), entriesPoly a.terms.entries = entriesPoly p.terms.entries ^ i →
      entriesPoly b.terms.entries = entriesPoly p.terms.entries ^ j →
      (MulFitsAsc t (entriesPoly p.terms.entries ^ i) (entriesPoly p.terms.entries ^ j) →
        ∃ r, a.mulM (.machine true t) b = .ok r ∧ entriesPoly r.terms.entries = entriesPoly p.terms.entries ^ (i + j)) ∧
      (¬ MulFitsAsc t (entriesPoly p.terms.entries ^ i) (entriesPoly p.terms.entries ^ j) →
        a.mulM (.machine true t) b = .panic) := by
    intro a b i j ha hb
    have H := C76_sparse_mul t a b
    rw [ha, hb] at H
    refine ⟨fun h => ?_, fun h => H.2 h⟩
    obtain ⟨r, h1, h2⟩ := H.1 h
    exact ⟨r, h1, by rw [h2, pow_add]⟩
  induction n using Nat.strong_induction_on with
  | _ n ih =>
    by_cases n0 : n = 0
    · subst n0
      refine ⟨fun _ => ⟨⟨BMap.empty.insert 0 1⟩, by rw [Sparse.powM.eq_def, if_pos rfl], ?_⟩,
        fun h => absurd (powFits_small (by omega)) h⟩
      rw [mapPoly_insert_fresh _ _ _ rfl]; simp [mapPoly_empty]
    rw [Sparse.powM.eq_def]
    rw [if_neg n0]
    by_cases n1 : n = 1
    · subst n1
      refine ⟨fun _ => ⟨_, if_pos rfl, ?_⟩, fun h => absurd (powFits_small (by omega)) h⟩
      rw [pow_one]; rfl
    rw [if_neg n1]
    by_cases n2 : n = 2
    · subst n2
      rw [if_pos rfl, powFits_two]
      simpa using hmul p p 1 1 (pow_one _).symm (pow_one _).symm
    rw [if_neg n2]
    by_cases n3 : n % 2 = 0
    · rw [if_pos n3, powFits_even (by omega) n3]
      obtain ⟨i1, i2⟩ := ih (n / 2) (by omega)
      by_cases hf : PowFits (MulFitsAsc t) (entriesPoly p.terms.entries) (n / 2)
      · obtain ⟨r, h1, h2⟩ := i1 hf
        rw [h1, Res.ok_bind, Sparse.powM.eq_def]
        simp only [OfNat.ofNat_ne_zero, if_false, OfNat.ofNat_ne_one, if_true]
        obtain ⟨m1, m2⟩ := hmul r r (n / 2) (n / 2) h2 h2
        rw [show n / 2 + n / 2 = n by omega] at m1
        exact ⟨fun h => m1 h.2, fun h => m2 fun h' => h ⟨hf, h'⟩⟩
      · rw [i2 hf]
        exact ⟨fun h => absurd h.1 hf, fun _ => rfl⟩
    · rw [if_neg n3, powFits_odd (by omega) (by omega)]
      obtain ⟨i1, i2⟩ := ih (n - 1) (by omega)
      by_cases hf : PowFits (MulFitsAsc t) (entriesPoly p.terms.entries) (n - 1)
      · obtain ⟨r, h1, h2⟩ := i1 hf
        rw [h1, Res.ok_bind]
        obtain ⟨m1, m2⟩ := hmul p r 1 (n - 1) (pow_one _).symm h2
        rw [show 1 + (n - 1) = n by omega, pow_one] at m1
        rw [pow_one] at m2
        exact ⟨fun h => m1 h.2, fun h => m2 fun h' => h ⟨hf, h'⟩⟩
      · rw [i2 hf]
        exact ⟨fun h => absurd h.1 hf, fun _ => rfl⟩

/-- Hypotheses met: in `i8` every product for `(x - 1)^9` fits, and not for `(x - 1)^10`, with the coefficient `-252`. -/
example : PowFits (MulFitsDesc ⟨true, 8⟩) (descPoly [1, -1]) 9 ∧ ¬ PowFits (MulFitsDesc ⟨true, 8⟩) (descPoly [1, -1]) 10 := by
  have h0 : descPoly (⟨[1, -1]⟩ : Poly Int).terms ≠ 0 := by
    intro h
    have := congrArg (fun q => q.coeff 0) h
    simp [descPoly_cons] at this
  refine ⟨by_contra fun h => ?_, fun h => ?_⟩
  · have := (C80_dense_pow_exact ⟨true, 8⟩ ⟨[1, -1]⟩ 9 h0).2 h
    revert this; decide +kernel
  · obtain ⟨r, h1, -⟩ := (C80_dense_pow_exact ⟨true, 8⟩ ⟨[1, -1]⟩ 10 h0).1 h
    have h2 : (⟨[1, -1]⟩ : Poly Int).powM (.machine true ⟨true, 8⟩) 10 = .panic := by decide +kernel
    rw [h2] at h1; exact absurd h1 (by simp)

/-- The power fits and the computation does not: the coefficients of the square of `-2x³ - 11x² + 6x - 1` are values of `i8`
and a partial sum is `-130`. -/
example : (⟨[-2, -11, 6, -1]⟩ : Poly Int).powM (.machine true ⟨true, 8⟩) 2 = .panic ∧
    (⟨[-2, -11, 6, -1]⟩ : Poly Int).powM (.machine true ⟨true, 16⟩) 2 = .ok ⟨[4, 44, 97, -128, 58, -12, 1]⟩ := by
  decide +kernel
example : ((Sparse.fromVec [-2, -11, 6, -1]).powM (.machine true ⟨true, 8⟩) 2).bind (fun r => .ok r.terms.entries) = .panic ∧
    ((Sparse.fromVec [1, -1]).powM (.machine true ⟨true, 8⟩) 5).bind (fun r => .ok r.terms.entries) =
      .ok [(0, -1), (1, 5), (2, -10), (3, 10), (4, -5), (5, 1)] := by decide +kernel

end Rustnomial
