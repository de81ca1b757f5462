import Verif.Props.MachineSparse

/-!
# C80: when powers overflow
-/

open Polynomial

namespace Rustnomial

/-- Sums of some of the products which make up a coefficient of `A * B`, bounded through majorants. -/
theorem majorant_mul {A B Q R : ℤ[X]} (hA : ∀ d, |A.coeff d| ≤ Q.coeff d) (hB : ∀ d, |B.coeff d| ≤ R.coeff d) (d : Nat)
    {s : Finset (ℕ × ℕ)} (hs : s ⊆ Finset.antidiagonal d) :
    |∑ x ∈ s, A.coeff x.1 * B.coeff x.2| ≤ (Q * R).coeff d := by
  rw [coeff_mul]
  have hQ : ∀ d, 0 ≤ Q.coeff d := fun d => (abs_nonneg _).trans (hA d)
  have hR : ∀ d, 0 ≤ R.coeff d := fun d => (abs_nonneg _).trans (hB d)
  calc |∑ x ∈ s, A.coeff x.1 * B.coeff x.2| ≤ ∑ x ∈ s, |A.coeff x.1 * B.coeff x.2| := Finset.abs_sum_le_sum_abs _ _
    _ ≤ ∑ x ∈ s, Q.coeff x.1 * R.coeff x.2 := Finset.sum_le_sum fun x _ => by
        rw [abs_mul]; exact mul_le_mul (hA _) (hB _) (abs_nonneg _) (hQ _)
    _ ≤ ∑ x ∈ Finset.antidiagonal d, Q.coeff x.1 * R.coeff x.2 :=
        Finset.sum_le_sum_of_subset_of_nonneg hs fun x _ _ => mul_nonneg (hQ _) (hR _)

theorem majorant_mul' {A B Q R : ℤ[X]} (hA : ∀ d, |A.coeff d| ≤ Q.coeff d) (hB : ∀ d, |B.coeff d| ≤ R.coeff d) (d : Nat) :
    |(A * B).coeff d| ≤ (Q * R).coeff d := by
  have := majorant_mul hA hB d (subset_refl _)
  rwa [← coeff_mul] at this

theorem majorant_pow {A Q : ℤ[X]} (hA : ∀ d, |A.coeff d| ≤ Q.coeff d) : ∀ n d, |(A ^ n).coeff d| ≤ (Q ^ n).coeff d
  | 0, d => by
    rw [pow_zero, pow_zero, coeff_one]; split <;> simp
  | n + 1, d => by
    rw [pow_succ, pow_succ]; exact majorant_mul' (majorant_pow hA n) hA d

/-- With coefficients which are not negative, those of a power are bounded by those of the higher powers. -/
theorem pow_coeff_le {Q : ℤ[X]} (hQ : ∀ d, 0 ≤ Q.coeff d) (h0 : Q ≠ 0) {k n : Nat} (hkn : k ≤ n) (d : Nat) :
    ∃ e, (Q ^ k).coeff d ≤ (Q ^ n).coeff e := by
  obtain ⟨m, rfl⟩ := Nat.exists_eq_add_of_le hkn
  have nn : ∀ n d, 0 ≤ (Q ^ n).coeff d := fun n d =>
    (abs_nonneg _).trans (majorant_pow (A := Q) (fun d => by rw [abs_of_nonneg (hQ d)]) n d)
  have hm : Q ^ m ≠ 0 := pow_ne_zero _ h0
  refine ⟨d + (Q ^ m).natDegree, ?_⟩
  rw [pow_add, coeff_mul]
  have h1 : 1 ≤ (Q ^ m).coeff (Q ^ m).natDegree := by
    have h2 := nn m (Q ^ m).natDegree
    have h3 : (Q ^ m).coeff (Q ^ m).natDegree ≠ 0 := by rwa [coeff_natDegree, Ne, leadingCoeff_eq_zero]
    omega
  calc (Q ^ k).coeff d ≤ (Q ^ k).coeff d * (Q ^ m).coeff (Q ^ m).natDegree := le_mul_of_one_le_right (nn k d) h1
    _ ≤ _ := Finset.single_le_sum (f := fun x : ℕ × ℕ => (Q ^ k).coeff x.1 * (Q ^ m).coeff x.2)
        (fun x _ => mul_nonneg (nn _ _) (nn _ _)) (Finset.mem_antidiagonal.2 (rfl : ((d, (Q ^ m).natDegree) : ℕ × ℕ).1 + _ = _))

section
variable (t : IntTy)

/-- The values bounded in absolute value by the largest one: a value of the type, unless negative for an unsigned type. -/
theorem inRange_of_abs {t : IntTy} {v : Int} (h : |v| ≤ t.max) (hu : t.signed = false → 0 ≤ v) : t.InRange v := by
  obtain ⟨s, b⟩ := t
  rw [abs_le] at h
  unfold IntTy.InRange IntTy.min IntTy.max at *
  have : (0 : Int) < 2 ^ (b - 1) := by positivity
  cases s
  · simp at *; omega
  · simp only [if_true] at *; omega

/-- The conditions under which a product of two polynomials is computed without overflow, from majorants. -/
theorem mul_fits {t : IntTy} {A B Q R : ℤ[X]} (hA : ∀ d, |A.coeff d| ≤ Q.coeff d) (hB : ∀ d, |B.coeff d| ≤ R.coeff d)
    (hAu : t.signed = false → ∀ d, 0 ≤ A.coeff d) (hBu : t.signed = false → ∀ d, 0 ≤ B.coeff d)
    (h : ∀ d, (Q * R).coeff d ≤ t.max) :
    (∀ i j, t.InRange (A.coeff i * B.coeff j)) ∧
    (∀ d (f : ℕ × ℕ → Prop) [DecidablePred f], t.InRange (∑ x ∈ Finset.antidiagonal d with f x, A.coeff x.1 * B.coeff x.2)) := by
  constructor
  · intro i j
    have hs : ({(i, j)} : Finset (ℕ × ℕ)) ⊆ Finset.antidiagonal (i + j) := by simp
    have := (majorant_mul hA hB _ hs).trans (h (i + j))
    rw [Finset.sum_singleton] at this
    exact inRange_of_abs this (fun hu => mul_nonneg (hAu hu i) (hBu hu j))
  · intro d f _
    exact inRange_of_abs ((majorant_mul hA hB d (Finset.filter_subset _ _)).trans (h d))
      (fun hu => Finset.sum_nonneg fun x _ => mul_nonneg (hAu hu _) (hBu hu _))

theorem pow_nonneg_coeff {A : ℤ[X]} (hA : ∀ d, 0 ≤ A.coeff d) (n d : Nat) : 0 ≤ (A ^ n).coeff d :=
  (abs_nonneg _).trans (majorant_pow (A := A) (Q := A) (fun d => by rw [abs_of_nonneg (hA d)]) n d)

/-- C80, `Polynomial::pow` with overflow checks: let the coefficients of `Q` bound those of the polynomial in absolute value;
if those of `Q ^ n` are at most the largest value of the type, then the power is exact. -/
theorem C80_dense_pow_fits (p : Poly Int) (n : Nat) (hp : ∀ x ∈ p.terms, t.InRange x) (h0 : descPoly p.terms ≠ 0) (Q : ℤ[X])
    (hQ : ∀ d, |(descPoly p.terms).coeff d| ≤ Q.coeff d) (hn : ∀ d, (Q ^ n).coeff d ≤ t.max) :
    ∃ r, p.powM (.machine true t) n = .ok r ∧ descPoly r.terms = descPoly p.terms ^ n := by
  have hQ0 : Q ≠ 0 := by
    rintro rfl
    refine h0 (Polynomial.ext fun d => ?_)
    have := hQ d
    rw [coeff_zero] at this ⊢
    exact abs_nonpos_iff.1 this
  have hQn : ∀ d, 0 ≤ Q.coeff d := fun d => (abs_nonneg _).trans (hQ d)
  have hPu : t.signed = false → ∀ d, 0 ≤ (descPoly p.terms).coeff d := fun hu d => by
    have := ((inRange_descPoly _ _).1 hp d).1
    simpa [IntTy.min, hu] using this
  have hmul : ∀ (a b : Poly Int) (i j : Nat), i + j ≤ n → descPoly a.terms = descPoly p.terms ^ i →
      descPoly b.terms = descPoly p.terms ^ j →
      ∃ r, a.mulRefM (.machine true t) b = .ok r ∧ descPoly r.terms = descPoly p.terms ^ (i + j) := by
    intro a b i j hij ha hb
    have hf := mul_fits (t := t) (majorant_pow hQ i) (majorant_pow hQ j) (fun hu => pow_nonneg_coeff (hPu hu) i)
      (fun hu => pow_nonneg_coeff (hPu hu) j) (fun d => by
        rw [← pow_add]
        obtain ⟨e, he⟩ := pow_coeff_le hQn hQ0 hij d
        exact he.trans (hn e))
    rw [← ha, ← hb] at hf
    obtain ⟨_, r, h1, h2, _⟩ := (C56_mul t a b (.inl (by rw [ha]; exact pow_ne_zero _ h0))).1 ⟨hf.1, fun d e => hf.2 d _⟩
    exact ⟨r, h1, by rw [h2, ha, hb, pow_add]⟩
  have key : ∀ k ≤ n, ∃ r, p.powM (.machine true t) k = .ok r ∧ descPoly r.terms = descPoly p.terms ^ k := by
    intro k
    induction k using Nat.strong_induction_on with
    | _ k ih =>
      intro hk
      rw [Poly.powM.eq_def]
      by_cases k0 : k = 0
      · rw [if_pos k0, k0]; exact ⟨_, rfl, by simp [descPoly_cons]⟩
      rw [if_neg k0]
      by_cases k1 : k = 1
      · rw [if_pos k1, k1]; exact ⟨_, rfl, by rw [C01_new_same_polynomial, pow_one]⟩
      rw [if_neg k1]
      by_cases k2 : k = 2
      · rw [if_pos k2, k2]
        exact hmul p p 1 1 (by omega) (pow_one _).symm (pow_one _).symm
      rw [if_neg k2]
      by_cases k3 : k % 2 = 0
      · rw [if_pos k3]
        obtain ⟨r, h1, h2⟩ := ih (k / 2) (by omega) (by omega)
        rw [h1, Res.ok_bind, Poly.powM.eq_def]
        simp only [OfNat.ofNat_ne_zero, if_false, OfNat.ofNat_ne_one, if_true]
        obtain ⟨s, h3, h4⟩ := hmul r r (k / 2) (k / 2) (by omega) h2 h2
        exact ⟨s, h3, by rw [h4]; congr 1; omega⟩
      · rw [if_neg k3]
        obtain ⟨r, h1, h2⟩ := ih (k - 1) (by omega) (by omega)
        rw [h1, Res.ok_bind]
        obtain ⟨s, h3, h4⟩ := hmul p r 1 (k - 1) (by omega) (pow_one _).symm h2
        exact ⟨s, h3, by rw [h4]; congr 1; omega⟩
  exact key n le_rfl

/-- C80, in particular: it suffices that the power of the sum of the absolute values of the coefficients is at most the
largest value of the type. -/
theorem C80_dense_pow_norm (p : Poly Int) (n : Nat) (hp : ∀ x ∈ p.terms, t.InRange x) (h0 : descPoly p.terms ≠ 0)
    (hn : (p.terms.map (fun x => |x|)).sum ^ n ≤ t.max) :
    ∃ r, p.powM (.machine true t) n = .ok r ∧ descPoly r.terms = descPoly p.terms ^ n := by
  have e1 : ∀ l : List Int, (descPoly l).eval 1 = l.sum := by
    intro l
    induction l with
    | nil => simp
    | cons a l ih => rw [descPoly_cons]; simp [ih]
  refine C80_dense_pow_fits t p n hp h0 (descPoly (p.terms.map (fun x => |x|))) (fun d => ?_) (fun d => le_trans ?_ hn)
  · by_cases hd : d < p.terms.length
    · rw [coeff_descPoly_of_lt hd, coeff_descPoly_of_lt (by simpa using hd), List.getD_eq_getElem _ _ (by omega),
        List.getD_eq_getElem _ _ (by simp; omega)]
      simp
    · rw [coeff_descPoly_of_le (l := p.terms) (by omega), coeff_descPoly_of_le (by rw [List.length_map]; omega)]; simp
  · rw [← e1, ← eval_pow]
    have nn : ∀ d, 0 ≤ (descPoly (p.terms.map (fun x => |x|))).coeff d := by
      intro d
      by_cases hd : d < p.terms.length
      · rw [coeff_descPoly_of_lt (by simpa using hd), List.getD_eq_getElem _ _ (by simp; omega)]
        simp
      · rw [coeff_descPoly_of_le (by rw [List.length_map]; omega)]
    have nn' := pow_nonneg_coeff nn n
    generalize descPoly (p.terms.map (fun x => |x|)) ^ n = S at nn' ⊢
    rw [eval_eq_sum_range]
    simp only [one_pow, mul_one]
    by_cases hd : d ≤ S.natDegree
    · exact Finset.single_le_sum (f := fun i => S.coeff i) (fun i _ => nn' i) (Finset.mem_range.2 (by omega))
    · rw [coeff_eq_zero_of_natDegree_lt (by omega)]
      exact Finset.sum_nonneg fun i _ => nn' i

/-- C80, unsigned types: `pow` returns exactly when the coefficients of the power are values of the type (and the polynomial
is not zero, or the exponent at most one). -/
theorem C80_dense_pow_unsigned (bits : Nat) (hb : 1 ≤ bits) (p : Poly Int) (n : Nat)
    (hp : ∀ x ∈ p.terms, (⟨false, bits⟩ : IntTy).InRange x) :
    ((∀ d, (descPoly p.terms ^ n).coeff d < 2 ^ bits) ∧ (descPoly p.terms ≠ 0 ∨ n ≤ 1) →
      ∃ r, p.powM (.machine true ⟨false, bits⟩) n = .ok r ∧ descPoly r.terms = descPoly p.terms ^ n) ∧
    (¬ ((∀ d, (descPoly p.terms ^ n).coeff d < 2 ^ bits) ∧ (descPoly p.terms ≠ 0 ∨ n ≤ 1)) →
      p.powM (.machine true ⟨false, bits⟩) n = .panic) := by
  have nn : ∀ d, 0 ≤ (descPoly p.terms).coeff d := fun d => ((inRange_descPoly _ _).1 hp d).1
  have hmax : ∀ v : Int, v ≤ (⟨false, bits⟩ : IntTy).max ↔ v < 2 ^ bits := by
    intro v; simp only [IntTy.max, Bool.false_eq_true, if_false]; omega
  by_cases hn : n ≤ 1
  · have h1 : ∀ d, (descPoly p.terms ^ n).coeff d < 2 ^ bits := by
      intro d
      interval_cases n
      · rw [pow_zero, coeff_one]
        have : (2 : Int) ^ 1 ≤ 2 ^ bits := pow_le_pow_right₀ (by norm_num) hb
        split <;> omega
      · rw [pow_one, ← hmax]
        exact ((inRange_descPoly _ _).1 hp d).2
    refine ⟨fun _ => ?_, fun H => absurd ⟨h1, .inr hn⟩ H⟩
    rw [Poly.powM.eq_def]
    interval_cases n
    · exact ⟨_, rfl, by simp [descPoly_cons]⟩
    · exact ⟨_, rfl, by rw [C01_new_same_polynomial, pow_one]⟩
  · constructor
    · rintro ⟨h1, h2⟩
      exact C80_dense_pow_fits _ p n hp (h2.resolve_right hn) (descPoly p.terms) (fun d => by rw [abs_of_nonneg (nn d)])
        (fun d => (hmax _).2 (h1 d))
    · intro H
      rcases C75_dense_pow ⟨false, bits⟩ p n with h | ⟨r, hr, hr'⟩
      · exact h
      · exfalso
        have hin : ∀ a b : Poly Int, a.mulRefM (.machine true ⟨false, bits⟩) b = .ok r → ∀ x ∈ r.terms,
            (⟨false, bits⟩ : IntTy).InRange x := by
          intro a b hab
          by_cases hz : descPoly a.terms ≠ 0 ∨ descPoly b.terms ≠ 0
          · by_cases hc : (∀ i j, (⟨false, bits⟩ : IntTy).InRange ((descPoly a.terms).coeff i * (descPoly b.terms).coeff j)) ∧
                ∀ d e, (⟨false, bits⟩ : IntTy).InRange (∑ x ∈ Finset.antidiagonal d with e ≤ x.2,
                  (descPoly a.terms).coeff x.1 * (descPoly b.terms).coeff x.2)
            · obtain ⟨_, s, h1, _, h3⟩ := (C56_mul _ a b hz).1 hc
              rw [hab] at h1; obtain rfl := Res.ok.inj h1; exact h3
            · rw [((C56_mul _ a b hz).2 hc).2] at hab; cases hab
          · push Not at hz
            rw [(C56_mul_zero_zero true _ a b hz.1 hz.2).2] at hab; cases hab
        have hall : ∀ x ∈ r.terms, (⟨false, bits⟩ : IntTy).InRange x := by
          rw [Poly.powM.eq_def, if_neg (by omega), if_neg (by omega)] at hr
          split at hr
          · exact hin _ _ hr
          · split at hr
            · obtain ⟨s, _, h2⟩ := Res.bind_eq_ok.1 hr
              rw [Poly.powM.eq_def] at h2
              simp only [OfNat.ofNat_ne_zero, if_false, OfNat.ofNat_ne_one, if_true] at h2
              exact hin _ _ h2
            · obtain ⟨s, _, h2⟩ := Res.bind_eq_ok.1 hr
              exact hin _ _ h2
        refine H ⟨fun d => ?_, .inl fun hz => ?_⟩
        · rw [← hr', ← hmax]
          exact ((inRange_descPoly _ _).1 hall d).2
        · rcases Poly.powM_mono (machine_le_exact ⟨false, bits⟩).toLe p n with h | h
          · have h' : p.powM (Arith.machine true ⟨false, bits⟩) n = .panic := h
            rw [h'] at hr; cases hr
          · have h' : p.powM (Arith.machine true ⟨false, bits⟩) n = p.powM Arith2.exact.toArith n := h
            rw [h', show p.powM Arith2.exact.toArith n = _ from p.powM_exact n,
              (C58_dense_pow_outcome p n).1 ⟨hz, by omega⟩] at hr
            cases hr

/-- C80, `SparsePolynomial::pow` with overflow checks: as for dense polynomials. -/
theorem C80_sparse_pow_fits (p : Sparse Int) (n : Nat) (hp : ∀ e ∈ p.terms.entries, t.InRange e.2) (Q : ℤ[X])
    (hQ : ∀ d, |(entriesPoly p.terms.entries).coeff d| ≤ Q.coeff d) (hQ0 : Q ≠ 0) (hn : ∀ d, (Q ^ n).coeff d ≤ t.max) :
    ∃ r, p.powM (.machine true t) n = .ok r ∧ entriesPoly r.terms.entries = entriesPoly p.terms.entries ^ n := by
  have hQn : ∀ d, 0 ≤ Q.coeff d := fun d => (abs_nonneg _).trans (hQ d)
  have hPu : t.signed = false → ∀ d, 0 ≤ (entriesPoly p.terms.entries).coeff d := fun hu d => by
    have := ((inRange_mapPoly _ _).1 hp d).1
    simpa [IntTy.min, hu] using this
  have hmul : ∀ (a b : Sparse Int) (i j : Nat), i + j ≤ n → entriesPoly a.terms.entries = entriesPoly p.terms.entries ^ i →
      entriesPoly b.terms.entries = entriesPoly p.terms.entries ^ j →
      ∃ r, a.mulM (.machine true t) b = .ok r ∧ entriesPoly r.terms.entries = entriesPoly p.terms.entries ^ (i + j) := by
    intro a b i j hij ha hb
    have hf := mul_fits (t := t) (majorant_pow hQ i) (majorant_pow hQ j) (fun hu => pow_nonneg_coeff (hPu hu) i)
      (fun hu => pow_nonneg_coeff (hPu hu) j) (fun d => by
        rw [← pow_add]
        obtain ⟨e, he⟩ := pow_coeff_le hQn hQ0 hij d
        exact he.trans (hn e))
    rw [← ha, ← hb] at hf
    obtain ⟨r, h1, h2⟩ := (C76_sparse_mul t a b).1 ⟨hf.1, fun d e => hf.2 d _⟩
    exact ⟨r, h1, by rw [h2, ha, hb, pow_add]⟩
  have key : ∀ k ≤ n, ∃ r, p.powM (.machine true t) k = .ok r ∧
      entriesPoly r.terms.entries = entriesPoly p.terms.entries ^ k := by
    intro k
    induction k using Nat.strong_induction_on with
    | _ k ih =>
      intro hk
      rw [Sparse.powM.eq_def]
      by_cases k0 : k = 0
      · rw [if_pos k0, k0]; exact ⟨_, rfl, by rw [mapPoly_insert_fresh _ _ _ rfl]; simp [mapPoly_empty]⟩
      rw [if_neg k0]
      by_cases k1 : k = 1
      · rw [if_pos k1, k1]; exact ⟨_, rfl, by rw [pow_one]; rfl⟩
      rw [if_neg k1]
      by_cases k2 : k = 2
      · rw [if_pos k2, k2]
        exact hmul p p 1 1 (by omega) (pow_one _).symm (pow_one _).symm
      rw [if_neg k2]
      by_cases k3 : k % 2 = 0
      · rw [if_pos k3]
        obtain ⟨r, h1, h2⟩ := ih (k / 2) (by omega) (by omega)
        rw [h1, Res.ok_bind, Sparse.powM.eq_def]
        simp only [OfNat.ofNat_ne_zero, if_false, OfNat.ofNat_ne_one, if_true]
        obtain ⟨s, h3, h4⟩ := hmul r r (k / 2) (k / 2) (by omega) h2 h2
        exact ⟨s, h3, by rw [h4]; congr 1; omega⟩
      · rw [if_neg k3]
        obtain ⟨r, h1, h2⟩ := ih (k - 1) (by omega) (by omega)
        rw [h1, Res.ok_bind]
        obtain ⟨s, h3, h4⟩ := hmul p r 1 (k - 1) (by omega) (pow_one _).symm h2
        exact ⟨s, h3, by rw [h4]; congr 1; omega⟩
  exact key n le_rfl

/-- C80, unsigned types: `SparsePolynomial::pow` returns exactly when the coefficients of the power are values of the
type. -/
theorem C80_sparse_pow_unsigned (bits : Nat) (hb : 1 ≤ bits) (p : Sparse Int) (n : Nat)
    (hp : ∀ e ∈ p.terms.entries, (⟨false, bits⟩ : IntTy).InRange e.2) :
    ((∀ d, (entriesPoly p.terms.entries ^ n).coeff d < 2 ^ bits) →
      ∃ r, p.powM (.machine true ⟨false, bits⟩) n = .ok r ∧ entriesPoly r.terms.entries = entriesPoly p.terms.entries ^ n) ∧
    ((¬ ∀ d, (entriesPoly p.terms.entries ^ n).coeff d < 2 ^ bits) →
      p.powM (.machine true ⟨false, bits⟩) n = .panic) := by
  have nn : ∀ d, 0 ≤ (entriesPoly p.terms.entries).coeff d := fun d => ((inRange_mapPoly _ _).1 hp d).1
  have hmax : ∀ v : Int, v ≤ (⟨false, bits⟩ : IntTy).max ↔ v < 2 ^ bits := by
    intro v; simp only [IntTy.max, Bool.false_eq_true, if_false]; omega
  have h2b : (2 : Int) ^ 1 ≤ 2 ^ bits := pow_le_pow_right₀ (by norm_num) hb
  constructor
  · intro h1
    by_cases h0 : entriesPoly p.terms.entries = 0
    · refine C80_sparse_pow_fits _ p n hp 1 (fun d => ?_) one_ne_zero (fun d => ?_)
      · rw [h0, coeff_zero, abs_zero, coeff_one]; split <;> omega
      · rw [one_pow, hmax, coeff_one]; split <;> omega
    · exact C80_sparse_pow_fits _ p n hp (entriesPoly p.terms.entries) (fun d => by rw [abs_of_nonneg (nn d)]) h0
        (fun d => (hmax _).2 (h1 d))
  · intro H
    rcases (C75_sparse_mul_pow ⟨false, bits⟩ p p n).2 with h | ⟨r, hr, hr'⟩
    · exact h
    · exfalso
      have hin : ∀ a b : Sparse Int, a.mulM (.machine true ⟨false, bits⟩) b = .ok r →
          ∀ d, (⟨false, bits⟩ : IntTy).InRange ((entriesPoly r.terms.entries).coeff d) := by
        intro a b hab d
        by_cases hc : (∀ i j, (⟨false, bits⟩ : IntTy).InRange
              ((entriesPoly a.terms.entries).coeff i * (entriesPoly b.terms.entries).coeff j)) ∧
            ∀ d e, (⟨false, bits⟩ : IntTy).InRange (∑ x ∈ Finset.antidiagonal d with x.2 ≤ e,
              (entriesPoly a.terms.entries).coeff x.1 * (entriesPoly b.terms.entries).coeff x.2)
        · obtain ⟨s, h1, h2⟩ := (C76_sparse_mul _ a b).1 hc
          rw [hab] at h1; obtain rfl := Res.ok.inj h1
          rw [h2, coeff_mul]
          have := hc.2 d d
          rwa [Finset.filter_true_of_mem (fun x hx => by rw [Finset.mem_antidiagonal] at hx; omega)] at this
        · rw [(C76_sparse_mul _ a b).2 hc] at hab; cases hab
      by_cases n0 : n = 0
      · refine H fun d => ?_
        rw [n0, pow_zero, coeff_one]; split <;> omega
      by_cases n1 : n = 1
      · refine H fun d => ?_
        rw [n1, pow_one, ← hmax]; exact ((inRange_mapPoly _ _).1 hp d).2
      have hall : ∀ d, (⟨false, bits⟩ : IntTy).InRange ((entriesPoly r.terms.entries).coeff d) := by
        rw [Sparse.powM.eq_def, if_neg (by omega), if_neg (by omega)] at hr
        split at hr
        · exact hin _ _ hr
        · split at hr
          · obtain ⟨s, _, h2⟩ := Res.bind_eq_ok.1 hr
            rw [Sparse.powM.eq_def] at h2
            simp only [OfNat.ofNat_ne_zero, if_false, OfNat.ofNat_ne_one, if_true] at h2
            exact hin _ _ h2
          · obtain ⟨s, _, h2⟩ := Res.bind_eq_ok.1 hr
            exact hin _ _ h2
      exact H fun d => by rw [← hr', ← hmax]; exact (hall d).2

end

-- Non-vacuity: `(x + 1)^n` on `u8` has the largest coefficient 252 for `n = 10` and 462 for `n = 11`; `(x - 1)^6` fits `i8`
-- by the norm.
example : (⟨[1, 1]⟩ : Poly Int).powM (.machine true ⟨false, 8⟩) 10 =
      .ok ⟨[1, 10, 45, 120, 210, 252, 210, 120, 45, 10, 1]⟩ ∧
    (⟨[1, 1]⟩ : Poly Int).powM (.machine true ⟨false, 8⟩) 11 = .panic ∧
    (([1, -1] : List Int).map (fun x => |x|)).sum ^ 6 ≤ (⟨true, 8⟩ : IntTy).max := by decide +kernel
example : ((Sparse.fromVec [1, 1]).powM (.machine true ⟨false, 8⟩) 11).bind (fun r => .ok r.terms.entries) = .panic ∧
    ((Sparse.fromVec [1, 1]).powM (.machine true ⟨false, 8⟩) 5).bind (fun r => .ok r.terms.entries) =
      .ok [(0, 1), (1, 5), (2, 10), (3, 10), (4, 5), (5, 1)] := by decide +kernel

end Rustnomial
