import Verif.SpecFloatCertify
import Verif.SpecFloatPow
import Verif.Props.FloatEval
import Verif.Props.FloatFixed
import Verif.Props.FloatPowi
import Verif.Props.FloatExact
import Mathlib.Topology.Algebra.Polynomial
import Mathlib.Topology.Order.IntermediateValue
import Mathlib.Topology.Instances.Real.Lemmas

/-!
# C124: computed values as values of nearby polynomials, and certain signs
-/

open Polynomial

namespace Rustnomial
namespace Fl
variable {f : FlFmt}

/-- An error bounded by `g A(|x|) + e`, `A` with the absolute values of the coefficients, is that of a nearby polynomial. -/
theorem near_of_error {P A : ℚ[X]} (hA : ∀ i, A.coeff i = |P.coeff i|) {x y g e : ℚ} (hg : 0 ≤ g) (he : 0 ≤ e)
    (h : |y - P.eval x| ≤ g * A.eval |x| + e) : ∃ Q, NearPoly g e P Q ∧ Q.eval x = y := by
  obtain ⟨s, hs, hsx⟩ : ∃ s : ℚ, |s| = 1 ∧ s * x = |x| := by
    rcases le_total 0 x with h | h
    · exact ⟨1, by simp, by rw [one_mul, abs_of_nonneg h]⟩
    · exact ⟨-1, by simp, by rw [neg_one_mul, abs_of_nonpos h]⟩
  by_cases h0 : g * A.eval |x| + e = 0
  · refine ⟨P, fun i => ?_, ?_⟩
    · rw [sub_self, abs_zero]
      have : 0 ≤ if i = 0 then e else 0 := by split <;> [exact he; exact le_rfl]
      positivity
    · rw [h0] at h
      have := abs_eq_zero.1 (le_antisymm h (abs_nonneg _))
      linarith
  · have hpos : 0 < g * A.eval |x| + e := lt_of_le_of_ne ((abs_nonneg _).trans h) (Ne.symm h0)
    set t : ℚ := (y - P.eval x) / (g * A.eval |x| + e) with ht
    have ht1 : |t| ≤ 1 := by rw [ht, abs_div, abs_of_pos hpos]; exact (div_le_one hpos).2 h
    refine ⟨P + C (t * g) * A.comp (C s * X) + C (t * e), fun i => ?_, ?_⟩
    · rw [coeff_add, coeff_add, coeff_C_mul, comp_C_mul_X_coeff, coeff_C, hA]
      have e1 : P.coeff i + t * g * (|P.coeff i| * s ^ i) + (if i = 0 then t * e else 0) - P.coeff i =
          t * (g * |P.coeff i| * s ^ i + if i = 0 then e else 0) := by split <;> ring
      rw [e1, abs_mul]
      have e2 : |g * |P.coeff i| * s ^ i + if i = 0 then e else 0| ≤ g * |P.coeff i| + if i = 0 then e else 0 := by
        refine (abs_add_le _ _).trans (add_le_add ?_ ?_)
        · rw [abs_mul, abs_pow, hs, one_pow, mul_one, abs_mul, abs_abs, abs_of_nonneg hg]
        · split
          · rw [abs_of_nonneg he]
          · simp
      calc |t| * _ ≤ 1 * _ := mul_le_mul ht1 e2 (abs_nonneg _) zero_le_one
        _ = _ := one_mul _
    · rw [eval_add, eval_add, eval_C_mul, eval_comp, eval_C_mul, eval_X, eval_C, hsx]
      have : t * (g * A.eval |x| + e) = y - P.eval x := div_mul_cancel₀ _ h0
      linarith

theorem coeff_list_abs (l : List (Fl f)) (i : Nat) :
    (descPoly (l.map fun c => |c.toRat|)).coeff i = |(descPoly (l.map toRat)).coeff i| := by
  rw [coeff_descPoly, coeff_descPoly, ← List.map_reverse, ← List.map_reverse, List.getD_eq_getElem?_getD, List.getD_eq_getElem?_getD,
    List.getElem?_map, List.getElem?_map]
  cases l.reverse[i]? <;> simp

theorem evalGamma_nonneg (n : Nat) : 0 ≤ evalGamma f n := by
  have := one_le_pow₀ (n := 2 * (n - 1) + 1) (show 1 ≤ 1 + uro f by linarith [uro_nonneg (f := f)])
  unfold evalGamma; linarith

theorem evalUnder_nonneg (n : Nat) (x : ℚ) : 0 ≤ evalUnder f n x := by
  have h1 := uro_nonneg (f := f)
  have h2 := eta_nonneg (f := f)
  unfold evalUnder
  positivity

/-- C124 (Polynomial): a finite computed value is the exact value, at the same point, of a polynomial whose coefficients differ from those
stored by a few roundings. -/
theorem C124_dense_backward (p : Poly (Fl f)) (x : Fl f) (h : (p.eval x).isFinite = true) :
    ∃ Q, NearPoly (evalGamma f p.terms.length) (evalUnder f p.terms.length x.toRat) (descPoly (p.terms.map toRat)) Q ∧
      Q.eval x.toRat = (p.eval x).toRat :=
  near_of_error (coeff_list_abs _) (evalGamma_nonneg _) (evalUnder_nonneg _ _) (C66_eval_error p x h)

/-- C124 (ArrayPolynomial): the same. -/
theorem C124_array_backward {size : Nat} (p : ArrayPoly (Fl f) size) (x : Fl f) (h : (p.eval x).isFinite = true) :
    ∃ Q, NearPoly (evalGamma f size) (evalUnder f size x.toRat) (descPoly (p.coefficients.map toRat)) Q ∧
      Q.eval x.toRat = (p.eval x).toRat :=
  near_of_error (coeff_list_abs _) (evalGamma_nonneg _) (evalUnder_nonneg _ _) ((C86_array_eval p x).2 h)

/-- C124 (LinearBinomial): two roundings per coefficient. -/
theorem C124_binomial_backward (b : LinearBinomial (Fl f)) (x : Fl f) (h : (b.eval x).isFinite = true) :
    ∃ Q, NearPoly ((1 + uro f) ^ 2 - 1) ((1 + uro f) * eta f) b.ratPoly Q ∧ Q.eval x.toRat = (b.eval x).toRat := by
  have h1 := uro_nonneg (f := f)
  have h2 := eta_nonneg (f := f)
  have hP : b.ratPoly = descPoly ([b.c0, b.c1].map toRat) := by simp [LinearBinomial.ratPoly, descPoly_cons]
  rw [hP]
  refine near_of_error (coeff_list_abs _) (by nlinarith) (by positivity) ?_
  have := C86_binomial_eval b x h
  rw [hP] at this
  refine this.trans (le_of_eq ?_)
  simp [descPoly_cons]

/-- C124 (QuadraticTrinomial): four roundings per coefficient. -/
theorem C124_trinomial_backward (t : QuadraticTrinomial (Fl f)) (x : Fl f) (h : (t.eval x).isFinite = true) :
    ∃ Q, NearPoly ((1 + uro f) ^ 4 - 1) ((1 + uro f) * ((1 + uro f) ^ 2 * |x.toRat| + 1) * eta f) t.ratPoly Q ∧
      Q.eval x.toRat = (t.eval x).toRat := by
  have h1 := uro_nonneg (f := f)
  have h2 := eta_nonneg (f := f)
  have hP : t.ratPoly = descPoly ([t.c0, t.c1, t.c2].map toRat) := by simp [QuadraticTrinomial.ratPoly, descPoly_cons]; ring
  rw [hP]
  refine near_of_error (coeff_list_abs _) (by linarith [one_le_pow₀ (n := 4) (show 1 ≤ 1 + uro f by linarith)]) (by positivity) ?_
  have := C86_trinomial_eval t x h
  rw [hP] at this
  refine this.trans (le_of_eq ?_)
  simp only [List.map_cons, List.map_nil, descPoly_cons, List.length_cons, List.length_nil, eval_add, eval_mul, eval_C, eval_pow, eval_X,
    descPoly_nil, eval_zero]
  ring

section
/-- Powers by repeated squaring. -/
local instance sqPowCertify : PowUsize (Fl f) := ⟨upowFl⟩

/-- C124 (SparsePolynomial): the same, for exponents at most `d` and powers that do not underflow. -/
theorem C124_sparse_backward (hp : 1 ≤ f.p) (p : Sparse (Fl f)) (x : Fl f) (d : Nat) (hd : d < 2 ^ 31)
    (hdeg : ∀ e ∈ p.terms.entries, e.1 ≤ d)
    (hx : x.toRat = 0 ∨ minNormal f ≤ (1 - uro f) ^ d * min 1 (|x.toRat| ^ d)) (h : (p.eval x).isFinite = true) :
    ∃ Q, NearPoly ((1 + uro f) ^ (p.terms.entries.length + d + 1) - 1)
        (p.terms.entries.length * (1 + uro f) ^ p.terms.entries.length * eta f) p.ratPoly Q ∧
      Q.eval x.toRat = (p.eval x).toRat := by
  have h1 := uro_nonneg (f := f)
  have h2 := eta_nonneg (f := f)
  exact near_of_error (coeff_sparse_abs p)
    (by linarith [one_le_pow₀ (n := p.terms.entries.length + d + 1) (show 1 ≤ 1 + uro f by linarith)]) (by positivity)
    (C100_sparse_eval hp p x d hd hdeg hx h)

end

/-! ## Signs -/

theorem toRat_abs (x : Fl f) : (abs x).toRat = |x.toRat| := by
  cases x with
  | nan => simp [abs, toRat]
  | inf s => simp [abs, toRat]
  | fin s a =>
    rw [abs_toRat]
    simp [abs, toRat]

theorem absCoeffs_error (p : Poly (Fl f)) (x : Fl f) (h : ((absCoeffs p).eval (abs x)).isFinite = true) :
    |((absCoeffs p).eval (abs x)).toRat - (descPoly (p.terms.map fun c => |c.toRat|)).eval (|x.toRat|)| ≤
      evalGamma f p.terms.length * (descPoly (p.terms.map fun c => |c.toRat|)).eval |x.toRat| +
        evalUnder f p.terms.length x.toRat := by
  have := C66_eval_error (absCoeffs p) (abs x) h
  have e1 : (absCoeffs p).terms.map toRat = p.terms.map fun c => |c.toRat| := by
    simp only [absCoeffs, List.map_map]; congr 1; funext c; exact toRat_abs c
  have e2 : (absCoeffs p).terms.map (fun c => |c.toRat|) = p.terms.map fun c => |c.toRat| := by
    simp only [absCoeffs, List.map_map]; congr 1; funext c; simp [toRat_abs]
  have e3 : (absCoeffs p).terms.length = p.terms.length := by simp [absCoeffs]
  rw [e1, e2, e3, toRat_abs, abs_abs] at this
  exact this

/-- C124: an error bound that can be computed: with `m` the computed value of the polynomial with absolute values at `|x|`, the error of
`p.eval(x)` is at most `(γ m + underflows) / (1 - γ)`. -/
theorem C124_error_computed (p : Poly (Fl f)) (x : Fl f) (h : (p.eval x).isFinite = true)
    (hm : ((absCoeffs p).eval (abs x)).isFinite = true) (hg : evalGamma f p.terms.length < 1) :
    |(p.eval x).toRat - (descPoly (p.terms.map toRat)).eval x.toRat| ≤
      (evalGamma f p.terms.length * ((absCoeffs p).eval (abs x)).toRat + evalUnder f p.terms.length x.toRat) /
        (1 - evalGamma f p.terms.length) := by
  have k1 := C66_eval_error p x h
  have k2 := absCoeffs_error p x hm
  have hg0 := evalGamma_nonneg (f := f) p.terms.length
  have he0 := evalUnder_nonneg (f := f) p.terms.length x.toRat
  change _ ≤ evalGamma f p.terms.length * _ + evalUnder f p.terms.length x.toRat at k1
  generalize evalGamma f p.terms.length = g at *
  generalize evalUnder f p.terms.length x.toRat = e at *
  generalize (descPoly (p.terms.map fun c => |c.toRat|)).eval |x.toRat| = A at *
  generalize ((absCoeffs p).eval (abs x)).toRat = m at *
  rw [le_div_iff₀ (by linarith)]
  have k3 := (abs_le.1 k2).1
  calc _ ≤ (g * A + e) * (1 - g) := mul_le_mul_of_nonneg_right k1 (by linarith)
    _ ≤ g * m + e := by nlinarith

/-- C124: when the test succeeds, the computed value has the sign of the exact one. -/
theorem C124_sign (p : Poly (Fl f)) (x : Fl f) (hg : evalGamma f p.terms.length < 1) (h : SignTest p x) :
    (0 < (p.eval x).toRat ∧ 0 < (descPoly (p.terms.map toRat)).eval x.toRat) ∨
    ((p.eval x).toRat < 0 ∧ (descPoly (p.terms.map toRat)).eval x.toRat < 0) := by
  obtain ⟨h1, h2, h3⟩ := h
  have k := C124_error_computed p x h1 h2 hg
  rw [mul_comm (1 - evalGamma f p.terms.length), ← div_lt_iff₀ (by linarith)] at h3
  have k' := lt_of_le_of_lt k h3
  rcases lt_trichotomy (p.eval x).toRat 0 with hy | hy | hy
  · rw [abs_of_neg hy] at k'
    exact .inr ⟨hy, by linarith [(abs_lt.1 k').1]⟩
  · rw [hy, abs_zero] at k'
    exact absurd k' (not_lt.2 (abs_nonneg _))
  · rw [abs_of_pos hy] at k'
    exact .inl ⟨hy, by linarith [(abs_lt.1 k').2]⟩

/-- C124: the test succeeds whenever the exact value is more than about twice the error that is possible at all. -/
theorem C124_sign_complete (p : Poly (Fl f)) (x : Fl f) (hg : evalGamma f p.terms.length < 1) (h1 : (p.eval x).isFinite = true)
    (h2 : ((absCoeffs p).eval (abs x)).isFinite = true)
    (h : 2 * (evalGamma f p.terms.length * (descPoly (p.terms.map fun c => |c.toRat|)).eval |x.toRat| +
        evalUnder f p.terms.length x.toRat) <
      (1 - evalGamma f p.terms.length) * |(descPoly (p.terms.map toRat)).eval x.toRat|) : SignTest p x := by
  refine ⟨h1, h2, ?_⟩
  have k1 := C66_eval_error p x h1
  have k2 := absCoeffs_error p x h2
  have hg0 := evalGamma_nonneg (f := f) p.terms.length
  have he0 := evalUnder_nonneg (f := f) p.terms.length x.toRat
  change _ ≤ evalGamma f p.terms.length * _ + evalUnder f p.terms.length x.toRat at k1
  generalize evalGamma f p.terms.length = g at *
  generalize evalUnder f p.terms.length x.toRat = e at *
  generalize (descPoly (p.terms.map fun c => |c.toRat|)).eval |x.toRat| = A at *
  generalize ((absCoeffs p).eval (abs x)).toRat = m at *
  generalize (descPoly (p.terms.map toRat)).eval x.toRat = v at *
  generalize (p.eval x).toRat = y at *
  have k3 := (abs_le.1 k2).2
  have k4 : |v| - |y| ≤ g * A + e := (abs_sub_abs_le_abs_sub v y).trans (by rw [abs_sub_comm]; exact k1)
  have k5 : (1 - g) * (|v| - |y|) ≤ (1 - g) * (g * A + e) := mul_le_mul_of_nonneg_left k4 (by linarith)
  have k6 := mul_le_mul_of_nonneg_left k3 hg0
  nlinarith

/-- C124: if the test succeeds at two points with values of different sign, there is a real root strictly between them. -/
theorem C124_bracket (p : Poly (Fl f)) (a b : Fl f) (hg : evalGamma f p.terms.length < 1) (hab : a.toRat < b.toRat) (ha : SignTest p a)
    (hb : SignTest p b) (hs : (p.eval a).toRat * (p.eval b).toRat < 0) :
    ∃ z : ℝ, (a.toRat : ℝ) < z ∧ z < (b.toRat : ℝ) ∧ aeval z (descPoly (p.terms.map toRat)) = 0 := by
  have hcont : ContinuousOn (fun z : ℝ => aeval z (descPoly (p.terms.map toRat))) (Set.Icc (a.toRat : ℝ) (b.toRat : ℝ)) :=
    (Polynomial.continuous_aeval _).continuousOn
  have hev : ∀ q : ℚ, aeval (q : ℝ) (descPoly (p.terms.map toRat)) = (((descPoly (p.terms.map toRat)).eval q : ℚ) : ℝ) := by
    intro q
    have := Polynomial.aeval_algebraMap_apply_eq_algebraMap_eval (A := ℝ) q (descPoly (p.terms.map toRat))
    simpa using this
  have hle : (a.toRat : ℝ) ≤ (b.toRat : ℝ) := by exact_mod_cast hab.le
  rcases C124_sign p a hg ha with ⟨ya, va⟩ | ⟨ya, va⟩ <;> rcases C124_sign p b hg hb with ⟨yb, vb⟩ | ⟨yb, vb⟩
  · exact absurd hs (not_lt.2 (mul_pos ya yb).le)
  · have h0 : (0 : ℝ) ∈ Set.Ioo (aeval (b.toRat : ℝ) (descPoly (p.terms.map toRat))) (aeval (a.toRat : ℝ) (descPoly (p.terms.map toRat))) := by
      rw [hev, hev]; exact ⟨by exact_mod_cast vb, by exact_mod_cast va⟩
    obtain ⟨z, ⟨h1, h2⟩, h3⟩ := intermediate_value_Ioo' hle hcont h0
    exact ⟨z, h1, h2, h3⟩
  · have h0 : (0 : ℝ) ∈ Set.Ioo (aeval (a.toRat : ℝ) (descPoly (p.terms.map toRat))) (aeval (b.toRat : ℝ) (descPoly (p.terms.map toRat))) := by
      rw [hev, hev]; exact ⟨by exact_mod_cast va, by exact_mod_cast vb⟩
    obtain ⟨z, ⟨h1, h2⟩, h3⟩ := intermediate_value_Ioo hle hcont h0
    exact ⟨z, h1, h2, h3⟩
  · exact absurd hs (not_lt.2 (mul_pos_of_neg_of_neg ya yb).le)

/-- C124: the constants: with `n` coefficients, `8n ≤ 2^p`, `γ` is below 1 and at most `4n` units of roundoff. -/
theorem C124_gamma_small (n : Nat) (h1 : 1 ≤ n) (h : 8 * n ≤ 2 ^ f.p) : evalGamma f n < 1 ∧ evalGamma f n ≤ 4 * n * uro f := by
  have hu := uro_nonneg (f := f)
  have hu1 : uro f * 2 ^ f.p = 1 := by unfold uro; field_simp
  obtain ⟨k, hk⟩ : ∃ k, k = 2 * (n - 1) + 1 := ⟨_, rfl⟩
  have hk2 : (k : ℚ) ≤ 2 * n := by exact_mod_cast (by omega : k ≤ 2 * n)
  have hku : (4 * k : ℚ) * uro f ≤ 1 := by
    have : (4 * k : ℚ) ≤ 2 ^ f.p := by exact_mod_cast (by omega : 4 * k ≤ 2 ^ f.p)
    calc (4 * k : ℚ) * uro f ≤ 2 ^ f.p * uro f := mul_le_mul_of_nonneg_right this hu
      _ = 1 := by rw [mul_comm, hu1]
  have hk1 : (1 : ℚ) ≤ k := by exact_mod_cast (by omega : 1 ≤ k)
  have hule : uro f ≤ 1 := by nlinarith
  have hb := one_add_mul_le_pow (show (-2 : ℚ) ≤ -uro f by linarith) k
  have hprod : (1 + uro f) ^ k * (1 + -uro f) ^ k ≤ 1 := by
    rw [← mul_pow]
    exact pow_le_one₀ (by nlinarith) (by nlinarith)
  have hG1 := one_le_pow₀ (n := k) (show 1 ≤ 1 + uro f by linarith)
  unfold evalGamma
  rw [← hk]
  generalize (1 + uro f) ^ k = G at *
  generalize (1 + -uro f) ^ k = H at *
  have h2 : G * (1 + k * -uro f) ≤ 1 := (mul_le_mul_of_nonneg_left hb (by linarith)).trans hprod
  have h3 : G ≤ 4 / 3 := by nlinarith
  constructor
  · linarith
  · have : G * (k * uro f) ≤ 4 / 3 * (k * uro f) := mul_le_mul_of_nonneg_right h3 (by positivity)
    have h4 : (k : ℚ) * uro f ≤ 2 * n * uro f := mul_le_mul_of_nonneg_right hk2 hu
    have h5 : 0 ≤ (n : ℚ) * uro f := by positivity
    linarith

theorem absVal_nonneg (l : List (Fl f)) (x : ℚ) : 0 ≤ (descPoly (l.map fun c => |c.toRat|)).eval |x| := by
  induction l with
  | nil => simp
  | cons c l ih =>
    rw [List.map_cons, descPoly_cons, eval_add, eval_C_mul, eval_X_pow]
    positivity

theorem evalUnder_le (n : Nat) (x M : ℚ) (hM : 1 ≤ M) (hx : |x| ≤ M) :
    evalUnder f n x ≤ n * (1 + evalGamma f n) * eta f * M ^ (n - 1) := by
  have hu := uro_nonneg (f := f)
  have hη := eta_nonneg (f := f)
  have hone : 1 ≤ (1 + uro f) ^ 2 * M := by nlinarith [one_le_pow₀ (n := 2) (show 1 ≤ 1 + uro f by linarith)]
  have hsum : ∑ i ∈ Finset.range (n - 1), ((1 + uro f) ^ 2 * |x|) ^ i ≤ n * ((1 + uro f) ^ 2 * M) ^ (n - 1) := by
    calc _ ≤ ∑ _i ∈ Finset.range (n - 1), ((1 + uro f) ^ 2 * M) ^ (n - 1) := by
          refine Finset.sum_le_sum fun i hi => ?_
          have hi' := Finset.mem_range.1 hi
          calc ((1 + uro f) ^ 2 * |x|) ^ i ≤ ((1 + uro f) ^ 2 * M) ^ i :=
                pow_le_pow_left₀ (by positivity) (mul_le_mul_of_nonneg_left hx (by positivity)) _
            _ ≤ _ := pow_le_pow_right₀ hone (by omega)
      _ = (n - 1 : Nat) * ((1 + uro f) ^ 2 * M) ^ (n - 1) := by rw [Finset.sum_const, Finset.card_range, nsmul_eq_mul]
      _ ≤ _ := mul_le_mul_of_nonneg_right (by exact_mod_cast Nat.sub_le n 1) (by positivity)
  unfold evalUnder evalGamma
  calc _ ≤ (1 + uro f) * eta f * (n * ((1 + uro f) ^ 2 * M) ^ (n - 1)) := mul_le_mul_of_nonneg_left hsum (by positivity)
    _ = _ := by rw [mul_pow, ← pow_mul, add_sub_cancel, pow_succ]; ring

/-- C124: a test made entirely in floating point: `c * m < |p.eval(x)|`, with `m` the value of the polynomial with absolute values at `|x|`
and `c` at least `32 n` units of roundoff, is enough, unless numbers are near the underflow threshold. -/
theorem C124_sign_in_floats (p : Poly (Fl f)) (x c : Fl f) (h1 : 1 ≤ p.terms.length) (hn : 8 * p.terms.length ≤ 2 ^ f.p)
    (hy : (p.eval x).isFinite = true) (hcm : (c * (absCoeffs p).eval (abs x)).isFinite = true)
    (hc : 32 * p.terms.length * uro f ≤ c.toRat)
    (hbig : (|x.toRat| ≤ 1 ∧ minNormal f ≤ ((absCoeffs p).eval (abs x)).toRat) ∨
      (1 ≤ |x.toRat| ∧ ∃ a as, p.terms = a :: as ∧ minNormal f ≤ |a.toRat|))
    (h : (c * (absCoeffs p).eval (abs x)).toRat < |(p.eval x).toRat|) : SignTest p x := by
  have hm := (finite_of_mul hcm).2
  refine ⟨hy, hm, ?_⟩
  have hu := uro_nonneg (f := f)
  have hη := eta_nonneg (f := f)
  have hη' := eta_eq (f := f)
  have hN : 0 ≤ minNormal f := by unfold minNormal; positivity
  have hu1 : uro f * 2 ^ f.p = 1 := by unfold uro; field_simp
  have hnu : (8 * p.terms.length : ℚ) * uro f ≤ 1 := by
    have : (8 * p.terms.length : ℚ) ≤ 2 ^ f.p := by exact_mod_cast hn
    calc _ ≤ 2 ^ f.p * uro f := mul_le_mul_of_nonneg_right this hu
      _ = 1 := by rw [mul_comm, hu1]
  have hn1 : (1 : ℚ) ≤ p.terms.length := by exact_mod_cast h1
  obtain ⟨_, hg⟩ := C124_gamma_small (f := f) p.terms.length h1 hn
  have hg0 := evalGamma_nonneg (f := f) p.terms.length
  have k2 := absCoeffs_error p x hm
  have hA0 := absVal_nonneg p.terms x.toRat
  have hmul := (abs_le.1 (mul_error hcm)).1
  have hE0 := evalUnder_nonneg (f := f) p.terms.length x.toRat
  -- everything in terms of the computed `m`
  have key : evalUnder f p.terms.length x.toRat ≤ 5 * p.terms.length * uro f * ((absCoeffs p).eval (abs x)).toRat ∧
      eta f ≤ 4 * uro f * ((absCoeffs p).eval (abs x)).toRat ∧ 0 ≤ ((absCoeffs p).eval (abs x)).toRat := by
    rcases hbig with ⟨hx, hm0⟩ | ⟨hx, a, as, hp, ha⟩
    · have hE := evalUnder_le (f := f) p.terms.length x.toRat 1 le_rfl hx
      rw [one_pow, mul_one] at hE
      generalize evalUnder f p.terms.length x.toRat = e at *
      generalize evalGamma f p.terms.length = g at *
      generalize ((absCoeffs p).eval (abs x)).toRat = m at *
      generalize (p.terms.length : ℚ) = n at *
      have hum : uro f * minNormal f ≤ uro f * m := mul_le_mul_of_nonneg_left hm0 hu
      have h3 : (1 + g) ≤ 3 / 2 := by linarith
      have h4 : n * (1 + g) * eta f ≤ n * (3 / 2) * eta f :=
        mul_le_mul_of_nonneg_right (mul_le_mul_of_nonneg_left h3 (by linarith)) hη
      have h5 : n * eta f ≤ n * (uro f * m) := mul_le_mul_of_nonneg_left (by rw [hη']; exact hum) (by linarith)
      have h6 : 0 ≤ n * (uro f * m) := le_trans (by positivity) h5
      have h7 : 0 ≤ uro f * m := le_trans (by positivity) hum
      exact ⟨by linarith, by rw [hη']; linarith, hN.trans hm0⟩
    · have hE := evalUnder_le (f := f) p.terms.length x.toRat |x.toRat| hx le_rfl
      have hlen : p.terms.length - 1 = as.length := by rw [hp]; simp
      have hA : minNormal f * |x.toRat| ^ (p.terms.length - 1) ≤ (descPoly (p.terms.map fun c => |c.toRat|)).eval |x.toRat| := by
        rw [hlen, hp, List.map_cons, descPoly_cons, eval_add, eval_C_mul, eval_X_pow, List.length_map]
        have := absVal_nonneg as x.toRat
        have h2 : minNormal f * |x.toRat| ^ as.length ≤ |a.toRat| * |x.toRat| ^ as.length :=
          mul_le_mul_of_nonneg_right ha (by positivity)
        linarith
      have hX : (1 : ℚ) ≤ |x.toRat| ^ (p.terms.length - 1) := one_le_pow₀ hx
      generalize evalUnder f p.terms.length x.toRat = e at *
      generalize evalGamma f p.terms.length = g at *
      generalize ((absCoeffs p).eval (abs x)).toRat = m at *
      generalize (descPoly (p.terms.map fun c => |c.toRat|)).eval |x.toRat| = A at *
      generalize |x.toRat| ^ (p.terms.length - 1) = Z at *
      generalize (p.terms.length : ℚ) = n at *
      have huA : uro f * (minNormal f * Z) ≤ uro f * A := mul_le_mul_of_nonneg_left hA hu
      have h3 : (1 + g) ≤ 3 / 2 := by linarith
      have h4 : n * (1 + g) * eta f * Z ≤ n * (3 / 2) * eta f * Z := by
        refine mul_le_mul_of_nonneg_right (mul_le_mul_of_nonneg_right (mul_le_mul_of_nonneg_left h3 (by linarith)) hη) (by linarith)
      have h5 : n * (eta f * Z) ≤ n * (uro f * A) := mul_le_mul_of_nonneg_left (by rw [hη', mul_assoc]; exact huA) (by linarith)
      have h6 : e ≤ 3 / 2 * (n * uro f * A) := by linarith
      have h7 : n * uro f * A ≤ 1 / 8 * A := mul_le_mul_of_nonneg_right (by linarith) hA0
      have h8 : g * A ≤ 1 / 2 * A := mul_le_mul_of_nonneg_right (by linarith) hA0
      have h9 := (abs_le.1 k2).1
      have h10 : A ≤ 16 / 5 * m := by linarith
      have h11 : n * uro f * A ≤ n * uro f * (16 / 5 * m) := mul_le_mul_of_nonneg_left h10 (by positivity)
      have h12 : uro f * A ≤ uro f * (16 / 5 * m) := mul_le_mul_of_nonneg_left h10 hu
      have h13 : uro f * minNormal f ≤ uro f * (minNormal f * Z) :=
        mul_le_mul_of_nonneg_left (le_mul_of_one_le_right hN hX) hu
      have h14 : 0 ≤ m := by linarith
      have h15 : 0 ≤ n * uro f * m := by positivity
      have h16 : 0 ≤ uro f * m := by positivity
      exact ⟨by linarith, by rw [hη']; linarith, h14⟩
  obtain ⟨k3, k4, k5⟩ := key
  rw [abs_mul, abs_of_nonneg k5] at hmul
  have hc0 : 0 ≤ c.toRat := le_trans (by positivity) hc
  rw [abs_of_nonneg hc0] at hmul
  have hu8 : uro f ≤ 1 / 8 := by nlinarith
  generalize evalUnder f p.terms.length x.toRat = e at *
  generalize evalGamma f p.terms.length = g at *
  generalize ((absCoeffs p).eval (abs x)).toRat = m at *
  generalize (p.terms.length : ℚ) = n at *
  have h1' : uro f * (c.toRat * m) ≤ 1 / 8 * (c.toRat * m) := mul_le_mul_of_nonneg_right hu8 (by positivity)
  have h2' : 32 * n * uro f * m ≤ c.toRat * m := mul_le_mul_of_nonneg_right hc k5
  have h3' : 0 ≤ n * uro f * m := by positivity
  have h4' : 1 * (uro f * m) ≤ n * (uro f * m) := mul_le_mul_of_nonneg_right hn1 (by positivity)
  have hyl : 24 * (n * uro f * m) < |(p.eval x).toRat| := by linarith
  have h5' : g * m ≤ 4 * n * uro f * m := mul_le_mul_of_nonneg_right hg k5
  have h6' : 1 / 2 * |(p.eval x).toRat| ≤ (1 - g) * |(p.eval x).toRat| := mul_le_mul_of_nonneg_right (by linarith) (abs_nonneg _)
  linarith

-- `x² - 2` over `f64`: certainly negative at 1.25, positive at 1.5, so there is a root between; at the root computed by `roots` (where the
-- computed value is not zero) the sign is not certain
example : SignTest (⟨[1, 0, -2]⟩ : Poly (Fl binary64)) (div (ofNat 5) (ofNat 4)) ∧
    SignTest (⟨[1, 0, -2]⟩ : Poly (Fl binary64)) (div (ofNat 3) (ofNat 2)) ∧
    ¬ SignTest (⟨[1, 0, -2]⟩ : Poly (Fl binary64)) (sqrt (ofNat 2)) ∧
    ((⟨[1, 0, -2]⟩ : Poly (Fl binary64)).eval (sqrt (ofNat 2))).toRat ≠ 0 ∧
    evalGamma binary64 3 < 1 := by decide +kernel

-- the test in floats, with `c = 2^-46`, at 1.5
example : let p : Poly (Fl binary64) := ⟨[1, 0, -2]⟩
    let x : Fl binary64 := div (ofNat 3) (ofNat 2)
    let c : Fl binary64 := div 1 (ofNat (2 ^ 46))
    (p.eval x).isFinite = true ∧ (c * (absCoeffs p).eval (abs x)).isFinite = true ∧ 32 * 3 * uro binary64 ≤ c.toRat ∧
      1 ≤ |x.toRat| ∧ minNormal binary64 ≤ |(1 : Fl binary64).toRat| ∧
      (c * (absCoeffs p).eval (abs x)).toRat < |(p.eval x).toRat| := by decide +kernel

end Fl
end Rustnomial
