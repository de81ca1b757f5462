import Verif.Props.MachineWrap
import Verif.Props.MachineSparse
import Verif.Model.FloatText
import Mathlib.LinearAlgebra.Lagrange
import Mathlib.RingTheory.Binomial
import Mathlib.RingTheory.Polynomial.Pochhammer

/-!
# C122: what values say about a polynomial
-/

open Polynomial

namespace Rustnomial

section Domain
variable {R : Type} [CommRing R] [IsDomain R] [NumZero R] [LawfulNumZero R] [BEq R] [LawfulBEq R]

/-- C122 (Polynomial): two polynomials with the same values at more points than their degrees are `==`, and conversely. -/
theorem C122_dense_determined (p q : Poly R) (S : Finset R) (hp : p.degree.toWithBot < (S.card : WithBot ℕ))
    (hq : q.degree.toWithBot < (S.card : WithBot ℕ)) : p.eq q = true ↔ ∀ x ∈ S, p.eval x = q.eval x := by
  rw [C05_dense_eq]
  rw [C02_dense_degree] at hp hq
  constructor
  · intro h x _
    rw [C06_dense_eval, C06_dense_eval, h]
  · intro h
    refine eq_of_degrees_lt_of_eval_finset_eq S hp hq fun x hx => ?_
    rw [← C06_dense_eval, ← C06_dense_eval]
    exact h x hx

/-- C122 (SparsePolynomial): the same for exponents of which `upow` is the power. -/
theorem C122_sparse_determined [PowUsize R] [hl : LawfulPowUsize R] (p q : Sparse R) (S : Finset R)
    (h1 : ∀ e ∈ p.terms.entries, e.1 < hl.bound) (h2 : ∀ e ∈ q.terms.entries, e.1 < hl.bound)
    (hp : p.degree.toWithBot < (S.card : WithBot ℕ)) (hq : q.degree.toWithBot < (S.card : WithBot ℕ)) :
    p.eq q = true ↔ ∀ x ∈ S, p.eval x = q.eval x := by
  rw [C05_sparse_eq]
  rw [C02_sparse_degree] at hp hq
  constructor
  · intro h x _
    rw [C07_sparse_eval_partial p x h1, C07_sparse_eval_partial q x h2, h]
  · intro h
    refine eq_of_degrees_lt_of_eval_finset_eq S hp hq fun x hx => ?_
    rw [← C07_sparse_eval_partial p x h1, ← C07_sparse_eval_partial q x h2]
    exact h x hx

omit [BEq R] [LawfulBEq R] in
/-- C122: a polynomial that is zero at more points than its degree is the zero polynomial. -/
theorem C122_dense_zero (p : Poly R) (S : Finset R) (hp : p.degree.toWithBot < (S.card : WithBot ℕ)) (h : ∀ x ∈ S, p.eval x = 0) :
    p.isZeroPoly = true := by
  rw [C02_dense_is_zero]
  rw [C02_dense_degree] at hp
  exact eq_zero_of_degree_lt_of_eval_finset_eq_zero S hp fun x hx => by rw [← C06_dense_eval]; exact h x hx

/-- C122: over an infinite domain `==` is equality at all points. -/
theorem C122_dense_function [Infinite R] (p q : Poly R) : p.eq q = true ↔ ∀ x, p.eval x = q.eval x := by
  rw [C05_dense_eq]
  constructor
  · intro h x
    rw [C06_dense_eval, C06_dense_eval, h]
  · intro h
    refine Polynomial.funext fun x => ?_
    rw [← C06_dense_eval, ← C06_dense_eval]
    exact h x

end Domain

section Ring
variable {R : Type} [CommRing R] [NumZero R] [LawfulNumZero R]

/-- C122: `x - y` divides the difference of the values at `x` and `y`. -/
theorem C122_congruence (p : Poly R) (x y : R) : x - y ∣ p.eval x - p.eval y := by
  rw [C06_dense_eval, C06_dense_eval]
  exact sub_dvd_eval_sub x y _

/-- C122: the value at 0 is the constant term, the value at 1 the sum of the coefficients, the value at -1 their alternating sum. -/
theorem C122_special_points (p : Poly R) :
    p.eval 0 = (p.terms.getLast?.getD 0) ∧ p.eval 1 = p.terms.sum ∧ p.eval (-1) = p.terms.reverse.alternatingSum := by
  refine ⟨?_, ?_, ?_⟩
  · rw [C06_dense_eval, ← coeff_zero_eq_eval_zero, coeff_descPoly]
    cases h : p.terms.reverse with
    | nil => simp_all
    | cons a l =>
      have : p.terms = l.reverse ++ [a] := by rw [← List.reverse_inj, h]; simp
      simp [this]
  · rw [C06_dense_eval]
    induction p.terms with
    | nil => simp
    | cons a l ih => rw [descPoly_cons]; simp [ih]
  · rw [C06_dense_eval]
    have key : ∀ l : List R, (descPoly l.reverse).eval (-1) = l.alternatingSum := by
      intro l
      induction l with
      | nil => simp
      | cons a l ih =>
        rw [List.reverse_cons, descPoly_append, List.alternatingSum_cons, ← ih]
        simp [descPoly_cons]; ring
    rw [← key, List.reverse_reverse]

end Ring

/-! ## Machine integers -/

variable (t : IntTy)

/-- With overflow checks a value that is returned is the value of the polynomial. -/
theorem evalM_checked_value (p : Poly ℤ) (x v : ℤ) (h : p.evalM (.machine true t) x = .ok v) : (descPoly p.terms).eval x = v := by
  obtain ⟨h1, h2⟩ := C56_eval t p x
  by_cases c : (x = 0 ∨ ∀ e, t.InRange ((divX^[e] (descPoly p.terms)).eval x) ∧
        (0 < e → t.InRange ((divX^[e] (descPoly p.terms)).eval x * x)))
  · rw [h1 c] at h; cases h; rfl
  · rw [h2 c] at h; cases h

/-- C122 (overflow checks): if `eval` returns the same numbers for both polynomials at more points than their degrees, they are `==`. -/
theorem C122_checked_determined (p q : Poly ℤ) (S : Finset ℤ) (hp : p.degree.toWithBot < (S.card : WithBot ℕ))
    (hq : q.degree.toWithBot < (S.card : WithBot ℕ))
    (h : ∀ x ∈ S, ∃ v, p.evalM (.machine true t) x = .ok v ∧ q.evalM (.machine true t) x = .ok v) : p.eq q = true := by
  rw [C122_dense_determined p q S hp hq]
  intro x hx
  obtain ⟨v, h1, h2⟩ := h x hx
  rw [C06_dense_eval, C06_dense_eval, evalM_checked_value t p x v h1, evalM_checked_value t q x v h2]

/-- C122 (overflow checks, SparsePolynomial): the same for exponents below 2^32. -/
theorem C122_sparse_checked_determined (p q : Sparse ℤ) (S : Finset ℤ) (h1 : ∀ e ∈ p.terms.entries, e.1 < 2 ^ 32)
    (h2 : ∀ e ∈ q.terms.entries, e.1 < 2 ^ 32) (hp : p.degree.toWithBot < (S.card : WithBot ℕ))
    (hq : q.degree.toWithBot < (S.card : WithBot ℕ))
    (h : ∀ x ∈ S, ∃ v, p.evalM (.machine true t) x = .ok v ∧ q.evalM (.machine true t) x = .ok v) : p.eq q = true := by
  have key : ∀ (p : Sparse ℤ) (x v : ℤ), (∀ e ∈ p.terms.entries, e.1 < 2 ^ 32) → p.evalM (.machine true t) x = .ok v →
      (entriesPoly p.terms.entries).eval x = v := by
    intro p x v h1 h
    obtain ⟨a, b⟩ := C76_sparse_eval t p x h1
    by_cases c : ∀ e ∈ p.terms.entries, t.InRange (x ^ e.1) ∧ t.InRange (e.2 * x ^ e.1) ∧
        t.InRange (∑ i ∈ Finset.range (e.1 + 1), (entriesPoly p.terms.entries).coeff i * x ^ i)
    · rw [a c] at h; cases h; rfl
    · rw [b c] at h; cases h
  rw [C05_sparse_eq]
  rw [C02_sparse_degree] at hp hq
  refine eq_of_degrees_lt_of_eval_finset_eq S hp hq fun x hx => ?_
  obtain ⟨v, e1, e2⟩ := h x hx
  rw [key p x v h1 e1, key q x v h2 e2]

/-- An integer polynomial with coefficients smaller than `B` that is zero at `B` is zero. -/
theorem eq_zero_of_eval_large {B : ℤ} : ∀ (n : ℕ) (P : ℤ[X]), P.natDegree < n → (∀ k, |P.coeff k| < B) → P.eval B = 0 → P = 0 := by
  intro n
  induction n with
  | zero => intro P h; omega
  | succ n ih =>
    intro P hn hc hB
    have hd := P.divX_mul_X_add
    have h0 : B ∣ P.coeff 0 := by
      have : P.eval B = P.divX.eval B * B + P.coeff 0 := by conv_lhs => rw [← hd]; simp
      rw [hB] at this
      exact ⟨-P.divX.eval B, by linarith⟩
    have hB0 : 0 < B := lt_of_le_of_lt (abs_nonneg _) (hc 0)
    have h00 : P.coeff 0 = 0 := Int.eq_zero_of_abs_lt_dvd h0 (hc 0)
    have hx : P.divX = 0 := by
      by_cases hz : P.natDegree = 0
      · rw [Polynomial.eq_C_of_natDegree_eq_zero hz, divX_C]
      · refine ih _ ?_ (fun k => by rw [coeff_divX]; exact hc _) ?_
        · rw [natDegree_divX_eq_natDegree_tsub_one]; omega
        · have : P.eval B = P.divX.eval B * B + P.coeff 0 := by conv_lhs => rw [← hd]; simp
          rw [hB, h00, add_zero] at this
          rcases mul_eq_zero.1 this.symm with h | h
          · exact h
          · omega
    rw [← hd, hx, h00]; simp

/-- C122: one value determines an integer polynomial whose coefficients are known to be small: if corresponding coefficients differ by
less than `B` (as when all are in `[0, B)`, or all below `B/2` in absolute value) and the values at `B` agree, the polynomials are `==`. -/
theorem C122_one_value (p q : Poly ℤ) (B : ℤ) (hc : ∀ k, |(descPoly p.terms).coeff k - (descPoly q.terms).coeff k| < B) :
    (p.eq q = true ↔ p.eval B = q.eval B) ∧
    (∀ v, p.evalM (.machine true t) B = .ok v → q.evalM (.machine true t) B = .ok v → p.eq q = true) := by
  have key : p.eq q = true ↔ p.eval B = q.eval B := by
    rw [C05_dense_eq, C06_dense_eval, C06_dense_eval]
    refine ⟨fun h => by rw [h], fun h => sub_eq_zero.1 ?_⟩
    exact eq_zero_of_eval_large _ _ (Nat.lt_succ_self _) (fun k => by rw [coeff_sub]; exact hc k) (by rw [eval_sub, h, sub_self])
  refine ⟨key, fun v h1 h2 => ?_⟩
  rw [key, C06_dense_eval, C06_dense_eval, evalM_checked_value t p B v h1, evalM_checked_value t q B v h2]

/-! ### Without overflow checks -/

theorem prod_points (d i : ℕ) (hi : i ≤ d) :
    (∏ j ∈ (Finset.range (d + 1)).erase i, ((i : ℤ) - j)) ∣ (d.factorial : ℤ) := by
  have e : (Finset.range (d + 1)).erase i = Finset.range i ∪ Finset.Ico (i + 1) (d + 1) := by
    ext j; simp; omega
  rw [e, Finset.prod_union (by rw [Finset.disjoint_left]; intro j; simp; omega)]
  have h1 : ∏ j ∈ Finset.range i, ((i : ℤ) - j) = (i.factorial : ℤ) := by
    rw [← Finset.prod_range_reflect, ← Finset.prod_range_add_one_eq_factorial]
    push_cast
    refine Finset.prod_congr rfl fun j hj => ?_
    have := Finset.mem_range.1 hj
    rw [show i - 1 - j = i - (1 + j) by omega, Nat.cast_sub (by omega)]; push_cast; ring
  have h2 : ∏ j ∈ Finset.Ico (i + 1) (d + 1), ((i : ℤ) - j) = (-1) ^ (d - i) * ((d - i).factorial : ℤ) := by
    rw [Finset.prod_Ico_eq_prod_range, ← Finset.prod_range_add_one_eq_factorial, show d + 1 - (i + 1) = d - i by omega]
    push_cast
    rw [← Finset.card_range (d - i), ← Finset.prod_const, Finset.card_range, ← Finset.prod_mul_distrib]
    refine Finset.prod_congr rfl fun j _ => by ring
  rw [h1, h2, mul_comm ((-1) ^ _), ← mul_assoc]
  have : ((i.factorial * (d - i).factorial : ℕ) : ℤ) ∣ d.factorial := by
    exact_mod_cast Nat.factorial_mul_factorial_dvd_factorial hi
  push_cast at this
  refine (IsUnit.mul_right_dvd (Int.isUnit_iff.2 ?_)).2 this
  rcases neg_one_pow_eq_or ℤ (d - i) with h | h
  · exact Or.inl h
  · exact Or.inr h

theorem degree_C_mul_le' (a : ℤ) (P : ℤ[X]) : (C a * P).degree ≤ P.degree :=
  (degree_mul_le _ _).trans ((add_le_add_left degree_C_le _).trans (zero_add _).le)

/-- If all values of `P` at `0, …, d` are divisible by `m` and `P` is of degree at most `d`, then all coefficients of `d!·P` are. -/
theorem dvd_factorial_mul_coeff (m : ℤ) (d : ℕ) (P : ℤ[X]) (hd : P.natDegree ≤ d) (h : ∀ i ≤ d, m ∣ P.eval (i : ℤ)) (k : ℕ) :
    m ∣ (d.factorial : ℤ) * P.coeff k := by
  classical
  choose! c hc using prod_points d
  have e : C (d.factorial : ℤ) * P =
      ∑ i ∈ Finset.range (d + 1), C (P.eval (i : ℤ) * c i) * ∏ j ∈ (Finset.range (d + 1)).erase i, (X - C (j : ℤ)) := by
    refine eq_of_degrees_lt_of_eval_finset_eq ((Finset.range (d + 1)).image (Nat.cast : ℕ → ℤ)) ?_ ?_ ?_
    · rw [Finset.card_image_of_injective _ Nat.cast_injective, Finset.card_range]
      refine lt_of_le_of_lt (degree_C_mul_le' _ _) (lt_of_le_of_lt degree_le_natDegree ?_)
      exact_mod_cast Nat.lt_succ_of_le hd
    · rw [Finset.card_image_of_injective _ Nat.cast_injective, Finset.card_range]
      refine lt_of_le_of_lt (degree_sum_le _ _) ?_
      rw [Finset.sup_lt_iff (WithBot.bot_lt_coe _)]
      intro i hi
      refine lt_of_le_of_lt (degree_C_mul_le' _ _) ?_
      rw [degree_prod]
      simp only [degree_X_sub_C, Finset.sum_const, nsmul_eq_mul, mul_one]
      rw [Finset.card_erase_of_mem hi, Finset.card_range]
      exact_mod_cast Nat.lt_succ_self d
    · intro x hx
      obtain ⟨i, hi, rfl⟩ := Finset.mem_image.1 hx
      rw [eval_mul, eval_C, eval_finsetSum, Finset.sum_eq_single i]
      · rw [eval_mul, eval_C, eval_prod]
        simp only [eval_sub, eval_X, eval_C]
        have := hc i (by have := Finset.mem_range.1 hi; omega)
        rw [this]; ring
      · intro j hj hji
        rw [eval_mul, eval_prod, Finset.prod_eq_zero (i := i), mul_zero]
        · exact Finset.mem_erase.2 ⟨hji.symm, hi⟩
        · simp
      · intro hn; exact absurd hi hn
  rw [← coeff_C_mul, e, finsetSum_coeff]
  refine Finset.dvd_sum fun i hi => ?_
  rw [coeff_C_mul]
  exact ((h i (by have := Finset.mem_range.1 hi; omega)).mul_right _).mul_right _

theorem wrap_eq_zero_iff (v : ℤ) : t.wrap v = 0 ↔ (2 : ℤ) ^ t.bits ∣ v := by
  rw [← t.wrap_zero, wrap_eq_iff, Int.cast_zero, ZMod.intCast_zmod_eq_zero_iff_dvd]; norm_cast

theorem AllIn.coeff {p : Poly ℤ} (hb : 1 ≤ t.bits) (hp : AllIn t p.terms) (k : ℕ) : t.InRange ((descPoly p.terms).coeff k) := by
  rw [coeff_descPoly, List.getD_eq_getElem?_getD]
  cases h : p.terms.reverse[k]? with
  | none => rw [Option.getD_none, ← t.wrap_zero]; exact t.wrap_inRange hb 0
  | some c => exact hp c (List.mem_reverse.1 (List.mem_of_getElem? h))

/-- C122 (no overflow checks): if the values at `0, …, d` agree and the degrees are at most `d`, corresponding coefficients differ by
numbers whose `d!`-fold is zero in the type (for `d ≤ 1` the polynomials are `==`). -/
theorem C122_wrap_determined (hb : 1 ≤ t.bits) (p q : Poly ℤ) (hp : AllIn t p.terms) (hq : AllIn t q.terms) (d : ℕ)
    (h1 : p.degree.toWithBot ≤ (d : WithBot ℕ)) (h2 : q.degree.toWithBot ≤ (d : WithBot ℕ))
    (h : ∀ i ≤ d, p.evalM (.machine false t) (i : ℤ) = q.evalM (.machine false t) (i : ℤ)) :
    (∀ k, t.wrap (d.factorial * ((descPoly p.terms).coeff k - (descPoly q.terms).coeff k)) = 0) ∧ (d ≤ 1 → p.eq q = true) := by
  rw [C02_dense_degree] at h1 h2
  have key : ∀ k, (2 : ℤ) ^ t.bits ∣ (d.factorial : ℤ) * ((descPoly p.terms).coeff k - (descPoly q.terms).coeff k) := by
    intro k
    rw [← coeff_sub]
    refine dvd_factorial_mul_coeff _ d _ ?_ ?_ k
    · exact natDegree_le_of_degree_le ((degree_sub_le _ _).trans (max_le h1 h2))
    · intro i hi
      have := h i hi
      rw [C57_eval t hb p _ hp, C57_eval t hb q _ hq] at this
      have := (wrap_eq_iff t _ _).1 (Res.ok.inj this)
      rw [eval_sub]
      have h3 := (ZMod.intCast_eq_intCast_iff_dvd_sub _ _ _).1 this.symm
      exact_mod_cast h3
  refine ⟨fun k => (wrap_eq_zero_iff t _).2 (key k), fun hd => ?_⟩
  rw [C05_dense_eq]
  ext k
  have hf : (d.factorial : ℤ) = 1 := by
    have : d = 0 ∨ d = 1 := by omega
    rcases this with rfl | rfl <;> rfl
  have h3 := key k
  rw [hf, one_mul] at h3
  have h4 : t.wrap ((descPoly p.terms).coeff k) = t.wrap ((descPoly q.terms).coeff k) := by
    rw [wrap_eq_iff, eq_comm, ZMod.intCast_eq_intCast_iff_dvd_sub]; exact_mod_cast h3
  rwa [t.wrap_of_inRange hb _ (AllIn.coeff t hb hp k), t.wrap_of_inRange hb _ (AllIn.coeff t hb hq k)] at h4

/-- C122 (no overflow checks): there is a polynomial of degree `d` with leading coefficient `a` that is zero at every point exactly if `a` is a
number of the type other than zero whose `d!`-fold is zero in the type. -/
theorem C122_wrap_vanishes_iff (hb : 1 ≤ t.bits) (d : ℕ) (a : ℤ) :
    (∃ p : Poly ℤ, AllIn t p.terms ∧ p.degree = .num d ∧ p.termWithDegree d = .term a d ∧ ∀ x, p.evalM (.machine false t) x = .ok 0) ↔
      t.InRange a ∧ a ≠ 0 ∧ t.wrap (d.factorial * a) = 0 := by
  constructor
  · rintro ⟨p, hp, hd, ht, hz⟩
    have hc : (descPoly p.terms).coeff d = a ∧ a ≠ 0 := by
      by_cases h0 : (descPoly p.terms).coeff d = 0
      · rw [(C04_dense_term p d).1 h0] at ht; cases ht
      · rw [(C04_dense_term p d).2 h0] at ht; cases ht; exact ⟨rfl, h0⟩
    have hdeg : (descPoly p.terms).natDegree ≤ d := by
      refine natDegree_le_of_degree_le ?_
      rw [← C02_dense_degree, hd]; rfl
    refine ⟨hc.1 ▸ AllIn.coeff t hb hp d, hc.2, (wrap_eq_zero_iff t _).2 ?_⟩
    rw [← hc.1]
    refine dvd_factorial_mul_coeff _ d _ hdeg (fun i _ => ?_) d
    have := hz i
    rw [C57_eval t hb p _ hp] at this
    exact (wrap_eq_zero_iff t _).1 (Res.ok.inj this)
  · rintro ⟨ha, ha0, h⟩
    let l : List ℤ := (List.range (d + 1)).map fun k => t.wrap (a * (descPochhammer ℤ d).coeff k)
    have hco : ∀ k, (descPoly l.reverse).coeff k = t.wrap (a * (descPochhammer ℤ d).coeff k) := by
      intro k
      rw [coeff_descPoly, List.reverse_reverse]
      by_cases hk : k < d + 1
      · simp [l, hk]
      · have : (descPochhammer ℤ d).coeff k = 0 := coeff_eq_zero_of_natDegree_lt (by rw [descPochhammer_natDegree]; omega)
        rw [this, mul_zero, t.wrap_zero]
        simp [l, hk]
    have hlead : (descPoly l.reverse).coeff d = a := by
      have h1 : (descPochhammer ℤ d).coeff d = 1 := by
        have := (monic_descPochhammer ℤ d).coeff_natDegree
        rwa [descPochhammer_natDegree] at this
      rw [hco, h1, mul_one, t.wrap_of_inRange hb a ha]
    have hin : AllIn t l.reverse := by
      intro c hc
      obtain ⟨k, -, rfl⟩ := List.mem_map.1 (List.mem_reverse.1 hc)
      exact t.wrap_inRange hb _
    refine ⟨⟨l.reverse⟩, hin, ?_, ?_, ?_⟩
    · have h1 : (descPoly l.reverse).degree = d := by
        refine degree_eq_of_le_of_coeff_ne_zero ?_ (by rw [hlead]; exact ha0)
        refine degree_le_iff_coeff_zero _ _ |>.2 fun k hk => ?_
        rw [hco, coeff_eq_zero_of_natDegree_lt (by rw [descPochhammer_natDegree]; exact_mod_cast hk), mul_zero, t.wrap_zero]
      have h2 := C02_dense_degree (⟨l.reverse⟩ : Poly ℤ)
      rw [h1] at h2
      cases hdg : (⟨l.reverse⟩ : Poly ℤ).degree with
      | negInf => rw [hdg] at h2; cases h2
      | num n => rw [hdg] at h2; congr 1; exact WithBot.coe_injective h2
    · have := (C04_dense_term (⟨l.reverse⟩ : Poly ℤ) d).2 (by show (descPoly l.reverse).coeff d ≠ 0; rw [hlead]; exact ha0)
      rw [this]
      congr 1
    · intro x
      rw [C57_eval t hb (⟨l.reverse⟩ : Poly ℤ) x hin]
      congr 1
      rw [wrap_eq_zero_iff]
      have h1 : C ((2 : ℤ) ^ t.bits) ∣ descPoly l.reverse - C a * descPochhammer ℤ d := by
        rw [C_dvd_iff_dvd_coeff]
        intro k
        rw [coeff_sub, hco, coeff_C_mul]
        exact (Int.modEq_iff_dvd.1 (t.wrap_modEq _).symm)
      have h2 : (2 : ℤ) ^ t.bits ∣ (C a * descPochhammer ℤ d).eval x := by
        rw [eval_mul, eval_C, eval_eq_smeval, Ring.descPochhammer_eq_factorial_smul_choose, nsmul_eq_mul]
        have := ((wrap_eq_zero_iff t _).1 h).mul_right (Ring.choose x d)
        rwa [show (d.factorial : ℤ) * a * Ring.choose x d = a * (d.factorial * Ring.choose x d) by ring] at this
      have h3 := eval_dvd (x := x) h1
      rw [eval_C, eval_sub] at h3
      exact (dvd_sub_left h2).1 h3

/-- C122 (no overflow checks): from degree 2 on there are polynomials that are zero at every point, below there are none. -/
theorem C122_wrap_vanishing_degree (hb : 1 ≤ t.bits) (d : ℕ) :
    (∃ p : Poly ℤ, AllIn t p.terms ∧ p.degree = .num d ∧ ∀ x, p.evalM (.machine false t) x = .ok 0) ↔ 2 ≤ d := by
  constructor
  · rintro ⟨p, hp, hd, hz⟩
    by_contra h
    have hdeg := C02_dense_degree p
    rw [hd] at hdeg
    have hc : (descPoly p.terms).coeff d ≠ 0 := coeff_ne_zero_of_eq_degree hdeg.symm
    obtain ⟨h1, h2, h3⟩ := (C122_wrap_vanishes_iff t hb d _).1 ⟨p, hp, hd, (C04_dense_term p d).2 hc, hz⟩
    have hf : (d.factorial : ℤ) = 1 := by
      have : d = 0 ∨ d = 1 := by omega
      rcases this with rfl | rfl <;> rfl
    rw [hf, one_mul, t.wrap_of_inRange hb _ h1] at h3
    exact h2 h3
  · intro h
    have h0 : t.wrap (2 ^ (t.bits - 1)) ≠ 0 := by
      rw [Ne, wrap_eq_zero_iff]
      intro hd
      have := Int.le_of_dvd (by positivity) hd
      have h4 : (2 : ℤ) ^ (t.bits - 1) < 2 ^ t.bits := pow_lt_pow_right₀ (by norm_num) (by omega)
      omega
    have h1 : t.wrap (d.factorial * t.wrap (2 ^ (t.bits - 1))) = 0 := by
      rw [wrap_eq_zero_iff]
      have h5 : (2 : ℤ) ^ t.bits ∣ d.factorial * 2 ^ (t.bits - 1) := by
        have h6 : (2 : ℤ) ∣ d.factorial := by exact_mod_cast Nat.dvd_factorial (by norm_num) h
        have h7 := mul_dvd_mul_right h6 ((2 : ℤ) ^ (t.bits - 1))
        rwa [← pow_succ', Nat.sub_add_cancel hb] at h7
      have h8 := (t.wrap_modEq (2 ^ (t.bits - 1))).mul_left (d.factorial : ℤ)
      exact Int.modEq_zero_iff_dvd.1 (h8.trans (Int.modEq_zero_iff_dvd.2 h5))
    obtain ⟨p, h1, h2, -, h3⟩ := (C122_wrap_vanishes_iff t hb d _).2 ⟨t.wrap_inRange hb (2 ^ (t.bits - 1)), h0, h1⟩
    exact ⟨p, h1, h2, h3⟩

/-- C122 is false in floating point: over `f32` the polynomials `x + 1` and `x` are not `==` but have the same values at `2^30`, `2^31` and
`2^32`. -/
theorem C122_float_false :
    (⟨[1, 1]⟩ : Poly (Fl binary32)).eq ⟨[1, 0]⟩ = false ∧
    ∀ k ∈ [30, 31, 32], (⟨[1, 1]⟩ : Poly (Fl binary32)).eval (Fl.ofNat (2 ^ k)) = (⟨[1, 0]⟩ : Poly (Fl binary32)).eval (Fl.ofNat (2 ^ k)) ∧
      (⟨[1, 1]⟩ : Poly (Fl binary32)).eval (Fl.ofNat (2 ^ k)) = Fl.ofNat (2 ^ k) := by decide +kernel

/-! ## Concrete cases -/

-- `x³ - x` and `0·x⁴ + x³ - x` at five points; `x² - 1` is zero at only two
example : (⟨[1, 0, -1, 0]⟩ : Poly ℤ).degree.toWithBot < (({0, 1, 2, 3} : Finset ℤ).card : WithBot ℕ) ∧
    (∀ x ∈ ({0, 1, 2, 3} : Finset ℤ), (⟨[1, 0, -1, 0]⟩ : Poly ℤ).eval x = (⟨[0, 1, 0, -1, 0]⟩ : Poly ℤ).eval x) ∧
    (⟨[1, 0, -1, 0]⟩ : Poly ℤ).eq ⟨[0, 1, 0, -1, 0]⟩ = true := by decide +kernel

-- with overflow checks, on `i8`
example : ∀ x ∈ ({-2, 0, 3, 5} : Finset ℤ), ∃ v, (⟨[1, 0, -1, 0]⟩ : Poly ℤ).evalM (.machine true ⟨true, 8⟩) x = .ok v ∧
    (⟨[0, 1, 0, -1, 0]⟩ : Poly ℤ).evalM (.machine true ⟨true, 8⟩) x = .ok v := by
  intro x hx
  fin_cases hx
  · exact ⟨-6, by decide +kernel, by decide +kernel⟩
  · exact ⟨0, by decide +kernel, by decide +kernel⟩
  · exact ⟨24, by decide +kernel, by decide +kernel⟩
  · exact ⟨120, by decide +kernel, by decide +kernel⟩

-- decimal digits: the value at 10 of polynomials with coefficients 0 to 9
example : (⟨[4, 0, 7]⟩ : Poly ℤ).eval 10 = 407 ∧ (⟨[40, 7]⟩ : Poly ℤ).eval 10 = 407 ∧ (⟨[4, 0, 7]⟩ : Poly ℤ).eq ⟨[40, 7]⟩ = false := by decide +kernel

-- without overflow checks `128x² + 128x` is zero on all of `u8`, `-128x² - 128x` on all of `i8`
example : (∀ x : Fin 256, (⟨[128, 128, 0]⟩ : Poly ℤ).evalM (.machine false ⟨false, 8⟩) (x : ℕ) = .ok 0) ∧
    (∀ x : Fin 256, (⟨[-128, -128, 0]⟩ : Poly ℤ).evalM (.machine false ⟨true, 8⟩) ((x : ℕ) - 128) = .ok 0) := by decide +kernel

-- the hypotheses for degree 4 on `u8`: 4! · 32 = 768 = 3 · 256
example : (⟨false, 8⟩ : IntTy).InRange 32 ∧ (⟨false, 8⟩ : IntTy).wrap ((Nat.factorial 4 : ℕ) * 32) = 0 := by decide +kernel

end Rustnomial
