import Verif.Model.Newton
import Verif.Props.Taylor
import Mathlib.Algebra.Polynomial.Taylor
import Mathlib.Analysis.Complex.Polynomial.Basic

/-!
# C135: Newton's method with the operators
-/

open Polynomial

set_option linter.unusedSectionVars false

namespace Rustnomial

/-! ## One step -/

theorem newton_sums {Q : ℝ[X]} (hQ : ∀ k, 0 ≤ Q.coeff k) (h0 : Q.coeff 0 = 0) {y : ℝ} (hy : 0 ≤ y) :
    Q.eval y ≤ y * (derivative Q).eval y ∧ y * (derivative Q).eval y ≤ Q.natDegree * Q.eval y ∧
    y * (derivative Q).eval y - Q.eval y ≤ y ^ 2 * (derivative (derivative Q)).eval y ∧ Q.coeff 1 ≤ (derivative Q).eval y ∧
    (Q.coeff 1 = 0 → 2 * Q.eval y ≤ y * (derivative Q).eval y) := by
  have hs : ∀ P : ℝ[X], P.natDegree ≤ Q.natDegree → P.eval y = ∑ i ∈ Finset.range (Q.natDegree + 1), P.coeff i * y ^ i := by
    intro P hP
    exact eval_eq_sum_range' (by omega) y
  have e0 := hs Q le_rfl
  have e1 : y * (derivative Q).eval y = ∑ i ∈ Finset.range (Q.natDegree + 1), (i : ℝ) * (Q.coeff i * y ^ i) := by
    have : y * (derivative Q).eval y = (X * derivative Q).eval y := by simp
    rw [this, hs (X * derivative Q) ?_]
    · refine Finset.sum_congr rfl fun i _ => ?_
      cases i with
      | zero => simp
      | succ i => rw [coeff_X_mul, coeff_derivative]; push_cast; ring
    · refine natDegree_le_iff_coeff_eq_zero.2 fun i hi => ?_
      cases i with
      | zero => simp
      | succ i => rw [coeff_X_mul, coeff_derivative, coeff_eq_zero_of_natDegree_lt hi, zero_mul]
  have e2 : y ^ 2 * (derivative (derivative Q)).eval y = ∑ i ∈ Finset.range (Q.natDegree + 1), ((i : ℝ) * (i - 1)) * (Q.coeff i * y ^ i) := by
    have : y ^ 2 * (derivative (derivative Q)).eval y = (X * (X * derivative (derivative Q))).eval y := by simp; ring
    rw [this, hs (X * (X * derivative (derivative Q))) ?_]
    · refine Finset.sum_congr rfl fun i _ => ?_
      match i with
      | 0 => simp
      | 1 => simp
      | i + 2 => rw [coeff_X_mul, coeff_X_mul, coeff_derivative, coeff_derivative]; push_cast; ring
    · refine natDegree_le_iff_coeff_eq_zero.2 fun i hi => ?_
      match i, hi with
      | 0, _ => simp
      | 1, _ => simp
      | i + 2, hi => rw [coeff_X_mul, coeff_X_mul, coeff_derivative, coeff_derivative, coeff_eq_zero_of_natDegree_lt hi, zero_mul, zero_mul]
  have ht : ∀ i, 0 ≤ Q.coeff i * y ^ i := fun i => mul_nonneg (hQ i) (pow_nonneg hy i)
  refine ⟨?_, ?_, ?_, ?_, fun h1 => ?_⟩
  · rw [e0, e1]
    refine Finset.sum_le_sum fun i _ => ?_
    cases i with
    | zero => simp [h0]
    | succ i => push_cast; nlinarith [ht (i + 1), (Nat.cast_nonneg i : (0 : ℝ) ≤ i)]
  · rw [e0, e1, Finset.mul_sum]
    refine Finset.sum_le_sum fun i hi => ?_
    exact mul_le_mul_of_nonneg_right (by exact_mod_cast Nat.lt_succ_iff.1 (Finset.mem_range.1 hi)) (ht i)
  · rw [e0, e1, e2, ← Finset.sum_sub_distrib]
    refine Finset.sum_le_sum fun i _ => ?_
    cases i with
    | zero => simp [h0]
    | succ i =>
      have := mul_nonneg (mul_self_nonneg (i : ℝ)) (ht (i + 1))
      push_cast
      nlinarith
  · rw [eval_eq_sum_range, Finset.sum_range_succ']
    have : (derivative Q).coeff 0 * y ^ 0 = Q.coeff 1 := by rw [coeff_derivative]; simp
    rw [this]
    refine le_add_of_nonneg_left (Finset.sum_nonneg fun i _ => ?_)
    refine mul_nonneg ?_ (pow_nonneg hy _)
    rw [coeff_derivative]
    exact mul_nonneg (hQ _) (by positivity)
  · rw [e0, e1, Finset.mul_sum]
    refine Finset.sum_le_sum fun i _ => ?_
    match i with
    | 0 => simp [h0]
    | 1 => simp [h1]
    | i + 2 => push_cast; nlinarith [ht (i + 2), (Nat.cast_nonneg i : (0 : ℝ) ≤ i), mul_nonneg (Nat.cast_nonneg i : (0 : ℝ) ≤ i) (ht (i + 2))]

theorem derivative_taylor (r : ℝ) (P : ℝ[X]) : derivative (taylor r P) = taylor r (derivative P) := by
  rw [taylor_apply, taylor_apply, derivative_comp]; simp

theorem iterate_eval (P : ℝ[X]) (z : ℝ) (k : Nat) : (derivative^[k] P).eval z = k.factorial * (taylor z P).coeff k := by
  rw [taylor_coeff, ← Polynomial.factorial_smul_hasseDeriv]
  simp

/-- One step from the right of the root. -/
theorem newton_step {P : ℝ[X]} (hP : P ≠ 0) {z x : ℝ} (h0 : P.eval z = 0) (hk : ∀ k, 0 ≤ (derivative^[k] P).eval z) (hx : z < x) :
    0 < (derivative P).eval x ∧ z ≤ x - P.eval x / (derivative P).eval x ∧ x - P.eval x / (derivative P).eval x ≤ x ∧
    x - P.eval x / (derivative P).eval x - z ≤ (1 - 1 / P.natDegree) * (x - z) ∧
    (derivative P).eval z * (x - P.eval x / (derivative P).eval x - z) ≤ (derivative (derivative P)).eval x * (x - z) ^ 2 ∧
    ((derivative P).eval z = 0 → z < x - P.eval x / (derivative P).eval x) := by
  have hQ : ∀ k, 0 ≤ (taylor z P).coeff k := by
    intro k
    have := hk k
    rw [iterate_eval] at this
    exact nonneg_of_mul_nonneg_right this (by exact_mod_cast k.factorial_pos)
  have hQ0 : (taylor z P).coeff 0 = 0 := by rw [taylor_coeff_zero, h0]
  have hy : 0 < x - z := sub_pos.2 hx
  obtain ⟨a1, a2, a3, a4, a5⟩ := newton_sums hQ hQ0 hy.le
  rw [derivative_taylor, derivative_taylor] at a3
  rw [derivative_taylor, taylor_eval_sub] at a1 a2 a4 a5
  rw [taylor_eval_sub, taylor_eval_sub, taylor_eval_sub] at a3
  rw [taylor_eval_sub] at a1 a2 a5
  rw [natDegree_taylor] at a2
  rw [taylor_coeff_one] at a4 a5
  have hpos : 0 < P.eval x := by
    rw [← taylor_eval_sub (r := z), eval_eq_sum_range]
    refine Finset.sum_pos' (fun i _ => mul_nonneg (hQ i) (pow_nonneg hy.le _)) ⟨(taylor z P).natDegree, by simp, ?_⟩
    refine mul_pos (lt_of_le_of_ne (hQ _) (Ne.symm ?_)) (pow_pos hy _)
    rw [natDegree_taylor, coeff_taylor_natDegree]
    exact leadingCoeff_ne_zero.2 hP
  have hd : 0 < (derivative P).eval x := by
    by_contra h
    have := mul_nonpos_of_nonneg_of_nonpos hy.le (not_lt.1 h)
    linarith
  have hdeg : (0 : ℝ) < P.natDegree := by
    by_contra h
    have := mul_nonpos_of_nonpos_of_nonneg (not_lt.1 h) hpos.le
    linarith [mul_pos hy hd]
  have hq : P.eval x / (derivative P).eval x * (derivative P).eval x = P.eval x := div_mul_cancel₀ _ hd.ne'
  set q := P.eval x / (derivative P).eval x with hqdef
  have hqpos : 0 < q := div_pos hpos hd
  have hle : q ≤ x - z := by
    rw [hqdef, div_le_iff₀ hd]; exact a1
  refine ⟨hd, by linarith, by linarith, ?_, ?_, fun hz => ?_⟩
  · have : (x - z) / P.natDegree ≤ q := by
      rw [div_le_iff₀ hdeg, hqdef, div_mul_eq_mul_div, le_div_iff₀ hd]
      linarith
    have e : (1 - 1 / (P.natDegree : ℝ)) * (x - z) = (x - z) - (x - z) / P.natDegree := by ring
    rw [e]; linarith
  · have h1 : 0 ≤ x - q - z := by linarith
    have h2 := mul_le_mul_of_nonneg_right a4 h1
    have h3 : (derivative P).eval x * (x - q - z) = (x - z) * (derivative P).eval x - P.eval x := by rw [← hq]; ring
    linarith
  · have h2 := a5 hz
    have : q ≤ (x - z) / 2 := by
      rw [hqdef, div_le_iff₀ hd]; linarith
    linarith

/-! ## The program -/

/-- All derivatives of `P` are at least 0 at the root `z`. -/
def AllUp (P : ℚ[X]) (z : ℝ) : Prop := aeval z P = 0 ∧ ∀ k, 0 ≤ aeval z (derivative^[k] P)

theorem eval_cast (P : ℚ[X]) (x : ℚ) : (P.map (algebraMap ℚ ℝ)).eval (x : ℝ) = ((P.eval x : ℚ) : ℝ) := by
  rw [eval_map_algebraMap]
  simpa using Polynomial.aeval_algebraMap_apply_eq_algebraMap_eval (A := ℝ) x P

/-- **C135.** Newton's method from the right of a root at which all derivatives are at least 0: with exact numbers it never divides by zero, the
points go down to the root and never below it, each step takes away at least the `d`-th part of the distance for degree `d`, and close to a
simple root the distance is squared up to a factor. -/
theorem C135_newton (p : Poly ℚ) (hp : descPoly p.terms ≠ 0) {z : ℝ} (hz : AllUp (descPoly p.terms) z) {x : ℚ} (hx : z < x) :
    ∃ s : ℕ → ℚ, s 0 = x ∧ (∀ n, p.newtonMethod n x = .ok (s n)) ∧ Filter.Tendsto (fun n => (s n : ℝ)) Filter.atTop (nhds z) ∧
      ∀ n, z ≤ s n ∧ s (n + 1) ≤ s n ∧ (s (n + 1) : ℝ) - z ≤ (1 - 1 / (descPoly p.terms).natDegree) * (s n - z) ∧
        aeval z (derivative (descPoly p.terms)) * (s (n + 1) - z) ≤
          aeval (s n : ℝ) (derivative (derivative (descPoly p.terms))) * (s n - z) ^ 2 := by
  obtain ⟨d, hd, hd1, -, -⟩ := derivative_returns p (by simp [tryFromCont])
  set P := descPoly p.terms with hPdef
  set R := P.map (algebraMap ℚ ℝ) with hR
  have hR0 : R ≠ 0 := (Polynomial.map_ne_zero_iff (algebraMap ℚ ℝ).injective).2 hp
  have hz0 : R.eval z = 0 := by rw [hR, eval_map_algebraMap]; exact hz.1
  have hzk : ∀ k, 0 ≤ (derivative^[k] R).eval z := by
    intro k; rw [hR, Polynomial.iterate_derivative_map, eval_map_algebraMap]; exact hz.2 k
  have hdR : derivative R = (derivative P).map (algebraMap ℚ ℝ) := by rw [hR, derivative_map]
  have hd2R : derivative (derivative R) = (derivative (derivative P)).map (algebraMap ℚ ℝ) := by rw [hdR, derivative_map]
  have hdeg : R.natDegree = P.natDegree := natDegree_map _
  let step : ℚ → ℚ := fun x => x - P.eval x / (derivative P).eval x
  have hcast : ∀ x : ℚ, ((step x : ℚ) : ℝ) = x - R.eval (x : ℝ) / (derivative R).eval (x : ℝ) := by
    intro x
    rw [hdR, hR, eval_cast, eval_cast]
    simp only [step]
    push_cast
    rfl
  -- what holds along the way
  let Inv : ℚ → Prop := fun x => z < x ∨ (z = x ∧ (derivative R).eval z ≠ 0)
  have hstep : ∀ x, Inv x → Inv (step x) ∧ (derivative P).eval x ≠ 0 ∧ step x ≤ x ∧
      (step x : ℝ) - z ≤ (1 - 1 / P.natDegree) * (x - z) ∧
      (derivative R).eval z * (step x - z) ≤ (derivative (derivative R)).eval (x : ℝ) * (x - z) ^ 2 := by
    intro x hx
    rcases hx with hx | ⟨hx, hne⟩
    · obtain ⟨b1, b2, b3, b4, b5, b6⟩ := newton_step hR0 hz0 hzk hx
      rw [hdeg] at b4
      rw [← hcast] at b2 b3 b4 b5 b6
      refine ⟨?_, ?_, by exact_mod_cast b3, b4, b5⟩
      · rcases b2.lt_or_eq with h | h
        · exact .inl h
        · refine .inr ⟨h, fun h0 => ?_⟩
          have := b6 h0
          linarith
      · intro h0
        rw [hdR, eval_cast, h0] at b1
        simp at b1
    · have e : step x = x := by
        have h0 : P.eval x = 0 := by
          rw [hx, hR, eval_cast] at hz0
          exact_mod_cast hz0
        simp only [step, h0, zero_div, sub_zero]
      rw [e]
      refine ⟨.inr ⟨hx, hne⟩, ?_, le_rfl, by rw [hx]; simp, by rw [hx]; simp⟩
      intro h0
      rw [hx, hdR, eval_cast, h0] at hne
      simp at hne
  have hinv : ∀ n, ∀ x, Inv x → Inv (step^[n] x) := by
    intro n
    induction n with
    | zero => intro x h; exact h
    | succ n ih => intro x h; rw [Function.iterate_succ_apply]; exact ih _ (hstep x h).1
  have hrun : ∀ n, ∀ x, Inv x → newtonLoop p d n x = .ok (step^[n] x) := by
    intro n
    induction n with
    | zero => intro x _; rfl
    | succ n ih =>
      intro x h
      obtain ⟨c1, c2, -⟩ := hstep x h
      unfold newtonLoop
      rw [C06_dense_eval, C06_dense_eval, hd1, LawfulRDiv.rdiv_eq _ _ c2, Res.ok_bind, Function.iterate_succ_apply]
      exact ih _ c1
  have hx0 : Inv x := .inl hx
  have hmain : ∀ n, z ≤ step^[n] x ∧ step^[n + 1] x ≤ step^[n] x ∧ ((step^[n + 1] x : ℚ) : ℝ) - z ≤ (1 - 1 / P.natDegree) * (step^[n] x - z) ∧
        aeval z (derivative P) * (step^[n + 1] x - z) ≤ aeval ((step^[n] x : ℚ) : ℝ) (derivative (derivative P)) * (step^[n] x - z) ^ 2 := by
    intro n
    have h := hinv n x hx0
    obtain ⟨-, -, c3, c4, c5⟩ := hstep _ h
    rw [Function.iterate_succ_apply']
    refine ⟨?_, c3, c4, ?_⟩
    · rcases h with h | ⟨h, -⟩
      · exact h.le
      · exact h.le
    · rw [hd2R, hdR, eval_map_algebraMap, eval_map_algebraMap] at c5
      exact c5
  refine ⟨fun n => step^[n] x, rfl, fun n => ?_, ?_, hmain⟩
  · unfold Poly.newtonMethod
    rw [hd, Res.ok_bind, hrun n x hx0]
  · have hdpos : 0 < P.natDegree := by
      by_contra h
      have h1 := (hstep x hx0).2.1
      rw [derivative_of_natDegree_zero (by omega)] at h1
      simp at h1
    have hd1' : (1 : ℝ) ≤ P.natDegree := by exact_mod_cast hdpos
    set c : ℝ := 1 - 1 / P.natDegree with hc
    have hc0 : 0 ≤ c := by rw [hc, sub_nonneg, div_le_one (by linarith)]; exact hd1'
    have hc1 : c < 1 := by rw [hc]; have : (0 : ℝ) < 1 / P.natDegree := by positivity
                           linarith
    have hgeo : ∀ n, ((step^[n] x : ℚ) : ℝ) - z ≤ c ^ n * (x - z) := by
      intro n
      induction n with
      | zero => simp
      | succ n ih =>
        refine (hmain n).2.2.1.trans ?_
        rw [pow_succ', mul_assoc]
        exact mul_le_mul_of_nonneg_left ih hc0
    have hlim : Filter.Tendsto (fun n => c ^ n * ((x : ℝ) - z)) Filter.atTop (nhds 0) := by
      simpa using (tendsto_pow_atTop_nhds_zero_of_lt_one hc0 hc1).mul_const ((x : ℝ) - z)
    have := squeeze_zero (fun n => sub_nonneg.2 (hmain n).1) hgeo hlim
    simpa using this.add_const z

/-! ## Where the condition holds -/

/-- **C135.** The condition holds at a positive root if the coefficients change their sign once: at least 0 from some degree on, at most 0
below. -/
theorem C135_one_change {P : ℚ[X]} {z : ℝ} (hz : 0 < z) (h0 : aeval z P = 0) {m : Nat} (hm : ∀ i, m ≤ i → 0 ≤ P.coeff i)
    (hm' : ∀ i < m, P.coeff i ≤ 0) : AllUp P z := by
  refine ⟨h0, fun k => ?_⟩
  set R := P.map (algebraMap ℚ ℝ) with hR
  have h1 : aeval z (derivative^[k] P) = (derivative^[k] R).eval z := by
    rw [hR, Polynomial.iterate_derivative_map, eval_map_algebraMap]
  have h0' : R.eval z = 0 := by rw [hR, eval_map_algebraMap]; exact h0
  have hc : ∀ i, m ≤ i → 0 ≤ R.coeff i := fun i hi => by rw [hR, coeff_map]; simpa using hm i hi
  have hc' : ∀ i < m, R.coeff i ≤ 0 := fun i hi => by rw [hR, coeff_map]; simpa using hm' i hi
  rw [h1]
  have e0 : R.eval z = ∑ i ∈ Finset.range (R.natDegree + 1), R.coeff i * z ^ i := eval_eq_sum_range z
  have ek : z ^ k * (derivative^[k] R).eval z = ∑ i ∈ Finset.range (R.natDegree + 1), (i.descFactorial k : ℝ) * (R.coeff i * z ^ i) := by
    have hcoe : ∀ i, (X ^ k * derivative^[k] R).coeff i = (i.descFactorial k : ℝ) * R.coeff i := by
      intro i
      rw [coeff_X_pow_mul']
      by_cases hi : k ≤ i
      · rw [if_pos hi, coeff_iterate_derivative, Nat.sub_add_cancel hi]; simp
      · rw [if_neg hi, Nat.descFactorial_eq_zero_iff_lt.2 (by omega)]; simp
    have : z ^ k * (derivative^[k] R).eval z = (X ^ k * derivative^[k] R).eval z := by simp
    rw [this, eval_eq_sum_range' (n := R.natDegree + 1)]
    · exact Finset.sum_congr rfl fun i _ => by rw [hcoe]; ring
    · refine Nat.lt_succ_of_le (natDegree_le_iff_coeff_eq_zero.2 fun i hi => ?_)
      rw [hcoe, coeff_eq_zero_of_natDegree_lt hi, mul_zero]
  have hge : (m.descFactorial k : ℝ) * R.eval z ≤ z ^ k * (derivative^[k] R).eval z := by
    rw [ek, e0, Finset.mul_sum]
    refine Finset.sum_le_sum fun i _ => ?_
    have hzi := pow_pos hz i
    rcases lt_or_ge i m with hi | hi
    · exact mul_le_mul_of_nonpos_right (by exact_mod_cast Nat.descFactorial_le k hi.le) (mul_nonpos_of_nonpos_of_nonneg (hc' i hi) hzi.le)
    · exact mul_le_mul_of_nonneg_right (by exact_mod_cast Nat.descFactorial_le k hi) (mul_nonneg (hc i hi) hzi.le)
  rw [h0', mul_zero] at hge
  exact nonneg_of_mul_nonneg_right hge (pow_pos hz k)

/-- Multiplying by a polynomial without negative coefficients. -/
theorem nonneg_coeff_mul {P Q : ℝ[X]} (hP : ∀ k, 0 ≤ P.coeff k) (hQ : ∀ k, 0 ≤ Q.coeff k) (k : Nat) : 0 ≤ (P * Q).coeff k := by
  rw [coeff_mul]
  exact Finset.sum_nonneg fun i _ => mul_nonneg (hP _) (hQ _)

theorem nonneg_coeff_of_roots (n : Nat) : ∀ (Q : ℝ[X]), Q.natDegree ≤ n → 0 < Q.leadingCoeff → (∀ w : ℂ, aeval w Q = 0 → w.re ≤ 0) →
    ∀ k, 0 ≤ Q.coeff k := by
  induction n using Nat.strong_induction_on with
  | _ n ih =>
    intro Q hn hl hw k
    have hQ0 : Q ≠ 0 := fun h => by rw [h] at hl; simp at hl
    by_cases hd : Q.natDegree = 0
    · rw [eq_C_of_natDegree_eq_zero hd] at hl ⊢
      rw [leadingCoeff_C] at hl
      rw [coeff_C]
      split
      · exact hl.le
      · exact le_rfl
    · obtain ⟨w, hw0⟩ : ∃ w : ℂ, aeval w Q = 0 := by
        have := IsAlgClosed.exists_aeval_eq_zero ℂ Q (by
          intro h; exact hd (natDegree_eq_of_degree_eq_some h))
        exact this
      have hre := hw w hw0
      -- a real factor with coefficients at least 0
      obtain ⟨F, hF, hFm, hFk, hFd⟩ : ∃ F : ℝ[X], F ∣ Q ∧ F.Monic ∧ (∀ k, 0 ≤ F.coeff k) ∧ 0 < F.natDegree := by
        by_cases him : w.im = 0
        · refine ⟨X - C w.re, ?_, monic_X_sub_C _, fun k => ?_, by rw [natDegree_X_sub_C]; exact one_pos⟩
          · rw [dvd_iff_isRoot, IsRoot]
            have hwr : w = ((w.re : ℝ) : ℂ) := by apply Complex.ext <;> simp [him]
            rw [hwr] at hw0
            have := Polynomial.aeval_algebraMap_apply ℂ w.re Q
            rw [Complex.coe_algebraMap, hw0] at this
            have h2 : ((aeval w.re Q : ℝ) : ℂ) = 0 := this.symm
            exact_mod_cast h2
          · rw [coeff_sub, coeff_X, coeff_C]
            split_ifs <;> first | omega | linarith
        · refine ⟨X ^ 2 - C (2 * w.re) * X + C (‖w‖ ^ 2), quadratic_dvd_of_aeval_eq_zero_im_ne_zero Q hw0 him, ?_, fun k => ?_, ?_⟩
          · monicity!
          · rw [coeff_add, coeff_sub, coeff_X_pow, coeff_C_mul, coeff_X, coeff_C]
            have := sq_nonneg ‖w‖
            split_ifs <;> first | omega | linarith
          · have : (X ^ 2 - C (2 * w.re) * X + C (‖w‖ ^ 2)).natDegree = 2 := by compute_degree!
            omega
      obtain ⟨G, rfl⟩ := hF
      have hG0 : G ≠ 0 := right_ne_zero_of_mul hQ0
      rw [hFm.natDegree_mul' hG0] at hn
      rw [leadingCoeff_mul, hFm.leadingCoeff, one_mul] at hl
      refine nonneg_coeff_mul hFk (ih G.natDegree (by omega) G le_rfl hl fun v hv => hw v (by rw [map_mul, hv, mul_zero])) k

/-- **C135.** It also holds at a real root if no complex root lies further to the right and the leading coefficient is positive, in particular at
the largest root if all roots are real. -/
theorem C135_rightmost {P : ℚ[X]} (hl : 0 < P.leadingCoeff) {z : ℝ} (h0 : aeval z P = 0) (hw : ∀ w : ℂ, aeval w P = 0 → w.re ≤ z) :
    AllUp P z := by
  refine ⟨h0, fun k => ?_⟩
  set R := P.map (algebraMap ℚ ℝ) with hR
  have h1 : aeval z (derivative^[k] P) = (derivative^[k] R).eval z := by
    rw [hR, Polynomial.iterate_derivative_map, eval_map_algebraMap]
  rw [h1, iterate_eval]
  refine mul_nonneg (by positivity) (nonneg_coeff_of_roots _ (taylor z R) le_rfl ?_ (fun w hw0 => ?_) k)
  · rw [leadingCoeff, natDegree_taylor, coeff_taylor_natDegree, hR, leadingCoeff_map]
    simpa using hl
  · have h2 : aeval (w + z) P = 0 := by
      rw [taylor_apply, aeval_comp] at hw0
      simp only [map_add, aeval_X, aeval_C] at hw0
      rw [hR, aeval_map_algebraMap] at hw0
      exact hw0
    have := hw _ h2
    simp at this
    exact this

/-- `x² - 2` from 2: the points 2, 3/2, 17/12, 577/408. -/
example : (⟨[1, 0, -2]⟩ : Poly ℚ).newtonMethod 1 2 = .ok (3 / 2) ∧ (⟨[1, 0, -2]⟩ : Poly ℚ).newtonMethod 2 2 = .ok (17 / 12) ∧
    (⟨[1, 0, -2]⟩ : Poly ℚ).newtonMethod 3 2 = .ok (577 / 408) := by
  decide +kernel

/-- Its coefficients change sign once. -/
example : AllUp (descPoly (⟨[1, 0, -2]⟩ : Poly ℚ).terms) (Real.sqrt 2) := by
  refine C135_one_change (m := 1) (by positivity) (by simp [descPoly]) (fun i hi => ?_) fun i hi => ?_
  · have : descPoly (⟨[1, 0, -2]⟩ : Poly ℚ).terms = X ^ 2 - C 2 := by simp [descPoly, sub_eq_add_neg]
    rw [this, coeff_sub, coeff_X_pow, coeff_C, if_neg (by omega : ¬ i = 0)]
    split <;> simp
  · have : i = 0 := by omega
    subst this
    simp [descPoly]

/-- From the left the condition is needed: `x³ - 3x` at 1 would divide by zero. -/
example : (⟨[1, 0, -3, 0]⟩ : Poly ℚ).newtonMethod 1 1 = .panic := by decide +kernel

end Rustnomial
