import Verif.Props.FloatShape
import Verif.Props.FloatExact
import Verif.SpecFloatIntegral
import Verif.Props.FloatFixed

/-!
# C93: definite integrals in floating point
-/

set_option linter.unusedVariables false

open Polynomial

namespace Rustnomial
namespace Fl
variable {f : FlFmt}

/-- A number of the format that is at most half of the smallest positive one is zero. -/
theorem toRat_small (x : Fl f) (h : |x.toRat| ≤ eta f) : x.toRat = 0 := by
  cases x with
  | nan => rfl
  | inf s => rfl
  | fin s a =>
    rcases Nat.eq_zero_or_pos a with rfl | ha
    · exact toRat_fin_zero s
    · exfalso
      have h2 : (0 : ℚ) < 2 ^ f.q := by positivity
      have e : |(fin s a : Fl f).toRat| = a / 2 ^ f.q := by
        have hn : (0 : ℚ) ≤ a / 2 ^ f.q := by positivity
        cases s <;> simp only [toRat] <;> simp [abs_of_nonneg hn]
      rw [e, eta, div_div, div_le_div_iff₀ h2 (by positivity)] at h
      have : (1 : ℚ) ≤ a := by exact_mod_cast ha
      nlinarith

theorem eval_support (P : ℚ[X]) (S : Finset ℕ) (h : ∀ i ∉ S, P.coeff i = 0) (x : ℚ) :
    P.eval x = ∑ i ∈ S, P.coeff i * x ^ i := by
  rw [eval_eq_sum]
  exact Polynomial.sum_eq_of_subset (p := P) _ (by simp) (fun i hi => by
    by_contra hc
    exact mem_support_iff.1 hi (h i hc))

theorem coeff_antideriv {F P : ℚ[X]} (h : derivative F = P) (k : Nat) : F.coeff (k + 1) = P.coeff k / (k + 1) := by
  rw [← h, coeff_derivative]
  have : (k : ℚ) + 1 ≠ 0 := by positivity
  field_simp

/-- The integral with rounded coefficients, compared with an antiderivative without constant. -/
theorem integral_core {R A P F G : ℚ[X]} (hR0 : R.coeff 0 = 0)
    (hR : ∀ k, |R.coeff (k + 1) - P.coeff k / (k + 1)| ≤ uro f * |P.coeff k / (k + 1)| + eta f)
    (hfl : ∀ k, ∃ c : Fl f, R.coeff k = c.toRat) (hA : ∀ k, A.coeff k = |R.coeff k|)
    (hF : derivative F = P) (hF0 : F.coeff 0 = 0) (hG : ∀ k, G.coeff k = |F.coeff k|) (x : ℚ) :
    |R.eval x - F.eval x| ≤ uro f * G.eval |x| + eta f * ∑ k ∈ P.support, |x| ^ (k + 1) ∧
    A.eval |x| ≤ (1 + uro f) * G.eval |x| + eta f * ∑ k ∈ P.support, |x| ^ (k + 1) ∧ |F.eval x| ≤ G.eval |x| := by
  have hFk := coeff_antideriv hF
  have hz : ∀ i ∉ P.support.map ⟨Nat.succ, Nat.succ_injective⟩, F.coeff i = 0 ∧ R.coeff i = 0 := by
    intro i hi
    cases i with
    | zero => exact ⟨hF0, hR0⟩
    | succ k =>
      have hk : P.coeff k = 0 := by
        by_contra hc
        exact hi (Finset.mem_map.2 ⟨k, mem_support_iff.2 hc, rfl⟩)
      refine ⟨by rw [hFk, hk, zero_div], ?_⟩
      obtain ⟨c, hc⟩ := hfl (k + 1)
      have := hR k
      rw [hk, zero_div, sub_zero, abs_zero, mul_zero, zero_add, hc] at this
      rw [hc]
      exact toRat_small c this
  have hs : ∀ Q : ℚ[X], (∀ i ∉ P.support.map ⟨Nat.succ, Nat.succ_injective⟩, Q.coeff i = 0) → ∀ y : ℚ,
      Q.eval y = ∑ k ∈ P.support, Q.coeff (k + 1) * y ^ (k + 1) := by
    intro Q hQ y
    rw [eval_support Q _ hQ, Finset.sum_map]
    rfl
  have hGe := hs G (fun i hi => by rw [hG, (hz i hi).1, abs_zero]) |x|
  have hAe := hs A (fun i hi => by rw [hA, (hz i hi).2, abs_zero]) |x|
  have hFe := hs F (fun i hi => (hz i hi).1) x
  have hRe := hs R (fun i hi => (hz i hi).2) x
  have hR' : ∀ k, |R.coeff (k + 1) - F.coeff (k + 1)| ≤ uro f * |F.coeff (k + 1)| + eta f := fun k => by
    rw [hFk]; exact hR k
  refine ⟨?_, ?_, ?_⟩
  · rw [hRe, hFe, hGe, ← Finset.sum_sub_distrib, Finset.mul_sum, Finset.mul_sum, ← Finset.sum_add_distrib]
    refine (Finset.abs_sum_le_sum_abs _ _).trans (Finset.sum_le_sum fun k _ => ?_)
    rw [← sub_mul, abs_mul, abs_pow, hG]
    calc |R.coeff (k + 1) - F.coeff (k + 1)| * |x| ^ (k + 1)
        ≤ (uro f * |F.coeff (k + 1)| + eta f) * |x| ^ (k + 1) := by gcongr; exact hR' k
      _ = _ := by ring
  · rw [hAe, hGe, Finset.mul_sum, Finset.mul_sum, ← Finset.sum_add_distrib]
    refine Finset.sum_le_sum fun k _ => ?_
    have : |R.coeff (k + 1)| ≤ (1 + uro f) * |F.coeff (k + 1)| + eta f := by
      have h1 := abs_sub_abs_le_abs_sub (R.coeff (k + 1)) (F.coeff (k + 1))
      linarith [hR' k]
    rw [hA, hG]
    calc |R.coeff (k + 1)| * |x| ^ (k + 1) ≤ ((1 + uro f) * |F.coeff (k + 1)| + eta f) * |x| ^ (k + 1) := by gcongr
      _ = _ := by ring
  · rw [hFe, hGe]
    refine (Finset.abs_sum_le_sum_abs _ _).trans (Finset.sum_le_sum fun k _ => ?_)
    rw [abs_mul, abs_pow, hG]

/-- The difference of two values with errors. -/
theorem difference_core {ea eb d : Fl f} {K Fa Fb Ga Gb Aa Ab Ra Rb Sa Sb Ta Tb : ℚ} (hK : 1 ≤ K)
    (hd : |d.toRat - (eb.toRat - ea.toRat)| ≤ uro f * |eb.toRat - ea.toRat|)
    (ha : |ea.toRat - Ra| ≤ (K - 1) * Aa + Ta) (hb : |eb.toRat - Rb| ≤ (K - 1) * Ab + Tb)
    (ha' : |Ra - Fa| ≤ uro f * Ga + eta f * Sa ∧ Aa ≤ (1 + uro f) * Ga + eta f * Sa ∧ |Fa| ≤ Ga)
    (hb' : |Rb - Fb| ≤ uro f * Gb + eta f * Sb ∧ Ab ≤ (1 + uro f) * Gb + eta f * Sb ∧ |Fb| ≤ Gb) :
    |d.toRat - (Fb - Fa)| ≤ ((1 + uro f) ^ 2 * K - 1) * (Ga + Gb) + (1 + uro f) * K * eta f * (Sa + Sb) +
      (1 + uro f) * (Ta + Tb) := by
  obtain ⟨a1, a2, a3⟩ := ha'
  obtain ⟨b1, b2, b3⟩ := hb'
  have hu := uro_nonneg (f := f)
  have key : ∀ {e R F G A S T : ℚ}, |e - R| ≤ (K - 1) * A + T → |R - F| ≤ uro f * G + eta f * S →
      A ≤ (1 + uro f) * G + eta f * S → |e - F| ≤ ((1 + uro f) * K - 1) * G + K * eta f * S + T := by
    intro e R F G A S T h1 h2 h3
    have := abs_sub_le e R F
    have h4 : (K - 1) * A ≤ (K - 1) * ((1 + uro f) * G + eta f * S) := mul_le_mul_of_nonneg_left h3 (by linarith)
    calc |e - F| ≤ (K - 1) * A + T + (uro f * G + eta f * S) := by linarith
      _ ≤ (K - 1) * ((1 + uro f) * G + eta f * S) + T + (uro f * G + eta f * S) := by linarith
      _ = _ := by ring
  have ka := key ha a1 a2
  have kb := key hb b1 b2
  set E := ((1 + uro f) * K - 1) * Ga + K * eta f * Sa + Ta with hE
  set E' := ((1 + uro f) * K - 1) * Gb + K * eta f * Sb + Tb with hE'
  have h1 : |(eb.toRat - ea.toRat) - (Fb - Fa)| ≤ E + E' := by
    have : (eb.toRat - ea.toRat) - (Fb - Fa) = (eb.toRat - Fb) - (ea.toRat - Fa) := by ring
    rw [this]
    linarith [abs_sub (eb.toRat - Fb) (ea.toRat - Fa)]
  have h2 : |eb.toRat - ea.toRat| ≤ E + E' + (Ga + Gb) := by
    have h3 := abs_sub_abs_le_abs_sub (eb.toRat - ea.toRat) (Fb - Fa)
    linarith [abs_sub Fb Fa]
  calc |d.toRat - (Fb - Fa)| ≤ uro f * |eb.toRat - ea.toRat| + (E + E') := by
        linarith [abs_sub_le d.toRat (eb.toRat - ea.toRat) (Fb - Fa)]
    _ ≤ uro f * (E + E' + (Ga + Gb)) + (E + E') := by gcongr
    _ = _ := by rw [hE, hE']; ring

theorem dense_integral_coeffs [FromUsizeCont (Fl f)] [FromUsizeExact (Fl f)] (hc : CountLaw f) (he : ExactLaw f)
    (hp : 2 ≤ f.p) (hw : f.p + f.q ≤ f.w) (h2 : (tryFromCont 2 : Option (Fl f)) ≠ none) {P : ℚ[X]} {r : Poly (Fl f)}
    (h : IsDenseIntegral P r) (hr : FloatSink.AllFinite r) :
    (FloatSink.ratPoly r).coeff 0 = 0 ∧ ∀ k,
    |(FloatSink.ratPoly r).coeff (k + 1) - P.coeff k / (k + 1)| ≤ uro f * |P.coeff k / (k + 1)| + eta f := by
  rcases h with ⟨p, h, hf, rfl⟩ | ⟨b, h, hf, rfl⟩ | ⟨t, h, hf, rfl⟩ | ⟨n, a, h, hf, rfl⟩
  · exact integral_error hc (by omega) hw p r h hf hr
  · obtain ⟨r', e, h'⟩ := linear_integral b hc h2 hf
    rw [h] at e; cases e
    exact h' hr
  · obtain ⟨r', e, h'⟩ := quadratic_integral t he hp hf
    rw [h] at e; cases e
    exact h' hr
  · exact array_integral hc (by omega) hw a r h hf hr

theorem sparse_integral_coeffs [FromUsizeExact (Fl f)] (he : ExactLaw f) {P : ℚ[X]} {r : Sparse (Fl f)}
    (h : IsSparseIntegral P r) (hr : FloatSink.AllFinite r) :
    (FloatSink.ratPoly r).coeff 0 = 0 ∧ ∀ k,
    |(FloatSink.ratPoly r).coeff (k + 1) - P.coeff k / (k + 1)| ≤ uro f * |P.coeff k / (k + 1)| + eta f := by
  rcases h with ⟨p, h, hf, rfl, hk⟩ | ⟨m, h, hf, rfl, hk⟩
  · exact sparse_integral_error he p r h hk hf hr
  · exact (monomial_integral he m hf hk).2 r h hr

theorem coeff_isFloat (l : List (Fl f)) (k : Nat) : ∃ c : Fl f, (descPoly (l.map toRat)).coeff k = c.toRat := by
  rcases coeff_cases l k with ⟨x, -, e⟩ | e
  · exact ⟨x, e toRat⟩
  · exact ⟨0, (e toRat).trans toRat_zero.symm⟩

theorem dense_definite [FromUsizeCont (Fl f)] [FromUsizeExact (Fl f)] (hc : CountLaw f) (he : ExactLaw f)
    (hp : 2 ≤ f.p) (hw : f.p + f.q ≤ f.w) (h2 : (tryFromCont 2 : Option (Fl f)) ≠ none) {P F G : ℚ[X]} {r : Poly (Fl f)}
    (h : IsDenseIntegral P r) (hr : FloatSink.AllFinite r) (hF : IsAntiderivative P F G) (a b : Fl f)
    (hf : (Integral.eval ⟨r⟩ a b : Fl f).isFinite = true) :
    |(Integral.eval ⟨r⟩ a b : Fl f).toRat - (F.eval b.toRat - F.eval a.toRat)| ≤
      ((1 + uro f) ^ (2 * (r.terms.length - 1) + 3) - 1) * (G.eval |a.toRat| + G.eval |b.toRat|) +
        (1 + uro f) ^ (2 * (r.terms.length - 1) + 2) * eta f *
          (∑ k ∈ P.support, |a.toRat| ^ (k + 1) + ∑ k ∈ P.support, |b.toRat| ^ (k + 1)) +
        (1 + uro f) ^ 2 * eta f * (∑ i ∈ Finset.range (r.terms.length - 1), ((1 + uro f) ^ 2 * |a.toRat|) ^ i +
          ∑ i ∈ Finset.range (r.terms.length - 1), ((1 + uro f) ^ 2 * |b.toRat|) ^ i) := by
  have hu := uro_nonneg (f := f)
  change (r.eval b - r.eval a).isFinite = true at hf
  change |(r.eval b - r.eval a).toRat - _| ≤ _
  obtain ⟨fb, fa⟩ := finite_of_sub hf
  obtain ⟨h0, hk⟩ := dense_integral_coeffs hc he hp hw h2 h hr
  change (descPoly (r.terms.map toRat)).coeff 0 = 0 at h0
  change ∀ k, |(descPoly (r.terms.map toRat)).coeff (k + 1) - _| ≤ _ at hk
  have core := integral_core h0 hk (coeff_isFloat r.terms) (coeff_dense_abs r.terms) hF.deriv hF.zero hF.abs
  have ca := core a.toRat
  have cb := core b.toRat
  have ea := C66_eval_error r a fa
  have eb := C66_eval_error r b fb
  have ed := sub_error hf
  clear core hk h hF hr h0
  generalize descPoly (r.terms.map fun c => |c.toRat|) = A at *
  generalize descPoly (r.terms.map toRat) = R at *
  generalize r.eval b - r.eval a = z at *
  generalize r.eval b = y at *
  generalize r.eval a = x at *
  generalize ∑ k ∈ P.support, |a.toRat| ^ (k + 1) = s1 at *
  generalize ∑ k ∈ P.support, |b.toRat| ^ (k + 1) = s2 at *
  generalize ∑ i ∈ Finset.range (r.terms.length - 1), ((1 + uro f) ^ 2 * |a.toRat|) ^ i = s3 at *
  generalize ∑ i ∈ Finset.range (r.terms.length - 1), ((1 + uro f) ^ 2 * |b.toRat|) ^ i = s4 at *
  generalize r.terms.length - 1 = n at *
  have hK : (1 : ℚ) ≤ (1 + uro f) ^ (2 * n + 1) := one_le_pow₀ (by linarith)
  have e3 : (1 + uro f) ^ (2 * n + 3) = (1 + uro f) ^ 2 * (1 + uro f) ^ (2 * n + 1) := by ring
  have e2 : (1 + uro f) ^ (2 * n + 2) = (1 + uro f) * (1 + uro f) ^ (2 * n + 1) := by ring
  rw [e3, e2]
  generalize (1 + uro f) ^ (2 * n + 1) = K at *
  refine (difference_core hK ed ea eb ca cb).trans (le_of_eq ?_)
  ring

theorem sparse_definite [FromUsizeExact (Fl f)] [PowUsize (Fl f)] (he : ExactLaw f) {P F G : ℚ[X]} {r : Sparse (Fl f)}
    (h : IsSparseIntegral P r) (hr : FloatSink.AllFinite r) (hF : IsAntiderivative P F G) (a b : Fl f) (δ : ℚ) (hδ : 0 ≤ δ)
    (hpa : ∀ e ∈ r.terms.entries, |(upow a e.1).toRat - a.toRat ^ e.1| ≤ δ * |a.toRat| ^ e.1)
    (hpb : ∀ e ∈ r.terms.entries, |(upow b e.1).toRat - b.toRat ^ e.1| ≤ δ * |b.toRat| ^ e.1)
    (hf : (Integral.eval ⟨r⟩ a b : Fl f).isFinite = true) :
    |(Integral.eval ⟨r⟩ a b : Fl f).toRat - (F.eval b.toRat - F.eval a.toRat)| ≤
      ((1 + uro f) ^ (r.terms.entries.length + 3) * (1 + δ) - 1) * (G.eval |a.toRat| + G.eval |b.toRat|) +
        (1 + uro f) ^ (r.terms.entries.length + 2) * (1 + δ) * eta f *
          (∑ k ∈ P.support, |a.toRat| ^ (k + 1) + ∑ k ∈ P.support, |b.toRat| ^ (k + 1)) +
        2 * r.terms.entries.length * (1 + uro f) ^ (r.terms.entries.length + 1) * eta f := by
  have hu := uro_nonneg (f := f)
  change (r.eval b - r.eval a).isFinite = true at hf
  change |(r.eval b - r.eval a).toRat - _| ≤ _
  obtain ⟨fb, fa⟩ := finite_of_sub hf
  obtain ⟨h0, hk⟩ := sparse_integral_coeffs he h hr
  have core := integral_core (R := r.ratPoly) (A := r.absPoly) h0 hk
    (fun k => by
      rw [coeff_rat]
      cases r.terms.get k with
      | none => exact ⟨0, toRat_zero.symm⟩
      | some c => exact ⟨c, rfl⟩)
    (fun k => by
      rw [coeff_abs, coeff_rat]
      cases r.terms.get k <;> simp) hF.deriv hF.zero hF.abs
  have key := difference_core (K := (1 + uro f) ^ (r.terms.entries.length + 1) * (1 + δ))
    (one_le_mul_of_one_le_of_one_le (one_le_pow₀ (by linarith)) (by linarith))
    (sub_error hf) (C85_eval_error δ hδ r a hpa fa) (C85_eval_error δ hδ r b hpb fb) (core a.toRat) (core b.toRat)
  refine key.trans (le_of_eq ?_)
  ring

/-! ## Whole numbers -/

/-- A computed quotient with its exact value: exact if that is a small whole number. -/
def ExQ (x : Fl f × ℚ) : Prop := ∀ n : ℤ, x.2 = n → |x.2| < 2 ^ f.p → x.1.IntValued ∧ x.1.toRat = x.2

theorem ExQ_same {c : Fl f} (hc : c.isFinite = true) : ExQ (c, c.toRat) := fun n hn _ => ⟨⟨hc, n, hn⟩, rfl⟩

theorem ExQ_div (hp : 1 ≤ f.p) (hw : f.p + f.q ≤ f.w) {x d : Fl f} (hx : x.isFinite = true) (hd : d.isFinite = true)
    (h0 : d.toRat ≠ 0) : ExQ (div x d, x.toRat / d.toRat) := fun n hn h => by
  simp only at hn h ⊢
  rw [hn] at h ⊢
  exact int_div hp hw hx hd h0 hn h

theorem integLoop_exact (hp : 1 ≤ f.p) (hw : f.p + f.q ≤ f.w) : ∀ (xs : List (Fl f)) (d : Fl f),
    d.isFinite = true → d.toRat = (xs.length : ℚ) → xs.length ≤ 2 ^ f.p → (∀ c ∈ xs, c.isFinite = true) →
    ∃ T : List (Fl f × ℚ), Poly.integLoop xs d = .ok (T.map Prod.fst) ∧ (∀ x ∈ T, ExQ x) ∧ T.length = xs.length ∧
      derivative (descPoly (T.map Prod.snd) * X) = descPoly (xs.map toRat)
  | [], _, _, _, _, _ => ⟨[], rfl, by simp, rfl, by simp⟩
  | x :: xs, d, hd, hm, hle, hf => by
    rw [List.length_cons] at hm hle
    obtain ⟨g1, g2⟩ := pred_exact hp hw hd hm (by omega)
    obtain ⟨T, h1, h2, h3, h4⟩ := integLoop_exact hp hw xs (d - 1) g1 g2 (by omega) (fun c hc => hf c (by simp [hc]))
    have hd0 : d.toRat ≠ 0 := by rw [hm]; positivity
    refine ⟨(div x d, x.toRat / d.toRat) :: T, ?_, ?_, ?_, ?_⟩
    · rw [Poly.integLoop, h1]; rfl
    · exact List.forall_mem_cons.2 ⟨ExQ_div hp hw (hf x (by simp)) hd hd0, h2⟩
    · simp [h3]
    · rw [List.map_cons, descPoly_cons, List.length_map, h3, List.map_cons, descPoly_cons, List.length_map,
        add_mul, derivative_add, h4, mul_assoc, ← pow_succ, derivative_C_mul_X_pow, hm]
      have : ((xs.length + 1 : Nat) : ℚ) ≠ 0 := by positivity
      rw [div_mul_cancel₀ _ this]
      simp

theorem dense_integral_quotients [FromUsizeCont (Fl f)] [FromUsizeExact (Fl f)] (hc : CountLaw f) (he : ExactLaw f)
    (hp : 2 ≤ f.p) (hw : f.p + f.q ≤ f.w) {P : ℚ[X]} {r : Poly (Fl f)} (h : IsDenseIntegral P r) :
    ∃ T : List (Fl f × ℚ), (∀ x ∈ T, ExQ x) ∧ derivative (descPoly (T.map Prod.snd) * X) = P ∧
      (r.terms = T.map Prod.fst ++ [0] ∨ r.terms = (T.map Prod.fst ++ [0]).dropWhile isZero) := by
  have hp1 : 1 ≤ f.p := by omega
  rcases h with ⟨p, h, hf, rfl⟩ | ⟨b, h, hf, rfl⟩ | ⟨t, h, hf, rfl⟩ | ⟨n, a, h, hf, rfl⟩
  · unfold Poly.integral at h
    simp only [drop_firstNonzeroIndex] at h
    have hlen := firstNonzeroIndex_add p.terms
    have hlen' : p.terms.length - firstNonzeroIndex p.terms = (p.terms.dropWhile isZero).length := by omega
    rw [hlen'] at h
    split at h
    · cases h
    · rename_i d hd
      obtain ⟨d1, d2, d3⟩ := hc _ _ hd
      obtain ⟨T, t1, t2, t3, t4⟩ := integLoop_exact hp1 hw _ d d1 d2 d3
        (fun c hc => hf c ((List.dropWhile_suffix isZero).subset hc))
      rw [t1] at h
      cases h
      refine ⟨T, t2, ?_, .inl rfl⟩
      rw [t4, descPoly_dropWhile_toRat _ toRat_fin_zero]
      rfl
  · unfold LinearBinomial.integral at h
    split at h
    · cases h
    · rename_i d hd
      obtain ⟨d1, d2, d3⟩ := hc _ _ hd
      cases h
      refine ⟨[(div b.c0 d, b.c0.toRat / d.toRat), (b.c1, b.c1.toRat)], ?_, ?_, .inr (new_terms _)⟩
      · refine List.forall_mem_cons.2 ⟨ExQ_div hp1 hw hf.1 d1 (by rw [d2]; norm_num), ?_⟩
        exact List.forall_mem_cons.2 ⟨ExQ_same hf.2, nofun⟩
      · change _ = b.ratPoly
        ext k
        rw [coeff_derivative, coeff_mul_X, d2]
        unfold LinearBinomial.ratPoly
        rw [coeff_linear]
        rcases k with _ | _ | k
        · simp [descPoly_cons]
        · simp [descPoly_cons]; ring
        · simp [descPoly_cons]
  · unfold QuadraticTrinomial.integral at h
    split at h
    · cases h
    · rename_i d hd
      simp only [show ∀ x y : Fl f, (rdiv x y : Res (Fl f)) = .ok (div x y) from fun _ _ => rfl, Res.ok_bind] at h
      split at h
      · cases h
      · rename_i e he2
        obtain ⟨d1, d2⟩ := (he 3 (by norm_num)).1 d hd
        obtain ⟨e1, e2⟩ := (he 2 (by norm_num)).1 e he2
        cases h
        refine ⟨[(div t.c0 d, t.c0.toRat / d.toRat), (div t.c1 e, t.c1.toRat / e.toRat), (t.c2, t.c2.toRat)], ?_, ?_,
          .inr (new_terms _)⟩
        · refine List.forall_mem_cons.2 ⟨ExQ_div hp1 hw hf.1 d1 (by rw [d2]; norm_num), ?_⟩
          refine List.forall_mem_cons.2 ⟨ExQ_div hp1 hw hf.2.1 e1 (by rw [e2]; norm_num), ?_⟩
          exact List.forall_mem_cons.2 ⟨ExQ_same hf.2.2, nofun⟩
        · change _ = t.ratPoly
          ext k
          rw [coeff_derivative, coeff_mul_X, d2, e2]
          unfold QuadraticTrinomial.ratPoly
          rw [coeff_quadratic]
          rcases k with _ | _ | _ | k
          · simp [descPoly_cons]
          · simp [descPoly_cons, coeff_X_pow]; ring
          · simp [descPoly_cons, coeff_X_pow]; ring
          · simp [descPoly_cons]
  · unfold ArrayPoly.integral at h
    split at h
    · cases h
    · rename_i d hd
      obtain ⟨d1, d2, d3⟩ := hc _ _ hd
      obtain ⟨T, t1, t2, t3, t4⟩ := integLoop_exact hp1 hw a.coefficients d d1 (by rw [d2, a.length_eq])
        (by rw [a.length_eq]; exact d3) hf
      rw [t1] at h
      cases h
      exact ⟨T, t2, t4, .inl rfl⟩

theorem antideriv_unique {F H P : ℚ[X]} (h : derivative F = P) (h' : derivative H = P) (h0 : F.coeff 0 = H.coeff 0) : F = H := by
  ext k
  cases k with
  | zero => exact h0
  | succ k => rw [coeff_antideriv h, coeff_antideriv h']

/-- The integral with whole coefficients below `2^p` is exact. -/
theorem dense_integral_exact [FromUsizeCont (Fl f)] [FromUsizeExact (Fl f)] (hc : CountLaw f) (he : ExactLaw f)
    (hp : 2 ≤ f.p) (hw : f.p + f.q ≤ f.w) {P F : ℚ[X]} {r : Poly (Fl f)} (h : IsDenseIntegral P r)
    (hF : derivative F = P) (hF0 : F.coeff 0 = 0) (hn : ∀ k, ∃ n : ℤ, F.coeff k = n) (hs : ∀ k, |F.coeff k| < 2 ^ f.p) :
    (∀ c ∈ r.terms, c.IntValued) ∧ descPoly (r.terms.map toRat) = F := by
  obtain ⟨T, h1, h2, h3⟩ := dense_integral_quotients hc he hp hw h
  have hFT : F = descPoly (T.map Prod.snd) * X := antideriv_unique hF h2 (by simp [hF0])
  have hT : ∀ x ∈ T, x.1.IntValued ∧ x.1.toRat = x.2 := by
    intro x hx
    obtain ⟨i, hi, hxi⟩ := List.mem_iff_getElem.1 hx
    have hco : F.coeff (T.length - 1 - i + 1) = x.2 := by
      rw [hFT, coeff_mul_X, coeff_descPoly_of_lt (by rw [List.length_map]; omega)]
      rw [List.length_map, show T.length - (T.length - 1 - i) - 1 = i by omega, List.getD_eq_getElem?_getD,
        List.getElem?_map, List.getElem?_eq_getElem hi, hxi]
      rfl
    obtain ⟨n, hn⟩ := hn (T.length - 1 - i + 1)
    have hs := hs (T.length - 1 - i + 1)
    rw [hco] at hn hs
    exact h1 x hx n hn hs
  have hz : (0 : Fl f).IntValued := ⟨rfl, 0, by rw [toRat_zero]; simp⟩
  have hall : ∀ c ∈ T.map Prod.fst ++ [0], c.IntValued := by
    intro c hc
    rcases List.mem_append.1 hc with hc | hc
    · obtain ⟨x, hx, rfl⟩ := List.mem_map.1 hc
      exact (hT x hx).1
    · rw [List.mem_singleton.1 hc]; exact hz
  have hval : descPoly ((T.map Prod.fst ++ [0]).map toRat) = F := by
    have e : (T.map Prod.fst).map toRat = T.map Prod.snd := by
      rw [List.map_map]
      exact List.map_congr_left fun x hx => (hT x hx).2
    rw [List.map_append, e, hFT, descPoly_append]
    simp [descPoly_cons, toRat_zero]
  rcases h3 with h3 | h3 <;> rw [h3]
  · exact ⟨hall, hval⟩
  · refine ⟨fun c hc => hall c (List.dropWhile_subset _ hc), ?_⟩
    rw [descPoly_dropWhile_toRat _ toRat_fin_zero, hval]

theorem sparse_integral_exact [FromUsizeExact (Fl f)] (he : ExactLaw f)
    (hp : 1 ≤ f.p) (hw : f.p + f.q ≤ f.w) {P F : ℚ[X]} {r : Sparse (Fl f)} (h : IsSparseIntegral P r)
    (hF : derivative F = P) (hF0 : F.coeff 0 = 0) (hn : ∀ k, ∃ n : ℤ, F.coeff k = n) (hs : ∀ k, |F.coeff k| < 2 ^ f.p) :
    (∀ e ∈ r.terms.entries, e.2.IntValued) ∧ r.ratPoly = F := by
  have hFk := coeff_antideriv hF
  rcases h with ⟨p, h, hf, rfl, hk⟩ | ⟨m, h, hf, rfl, hk⟩
  · rw [sparse_integral] at h
    split at h
    · rename_i hall
      injection h with h
      have hget : ∀ j v, r.terms.get j = some v ↔ ∃ e ∈ p.terms.entries,
          e.1 + 1 = j ∧ div e.2 ((tryFromExact (e.1 + 1)).getD 0) = v := by
        intro j v
        rw [← h]
        refine (get_foldl_keyed p.terms.entries (fun _ => true) (fun e => e.1 + 1)
          (fun e => div e.2 ((tryFromExact (e.1 + 1)).getD 0)) ?_ .empty j v).trans ?_
        rotate_left
        · simp [BMap.get, BMap.empty, BMap.getList]
        · refine p.terms.sorted.imp ?_
          intro a b hab ha hb
          omega
      have hval : ∀ k c, p.terms.get k = some c → ∃ v, r.terms.get (k + 1) = some v ∧ v.IntValued ∧ v.toRat = F.coeff (k + 1) := by
        intro k c hc
        have hm := (BMap.mem_entries ..).2 hc
        obtain ⟨d, hd⟩ := Option.ne_none_iff_exists'.1 (hall _ hm)
        obtain ⟨hdf, hdn⟩ := (he (k + 1) (hk _ hm)).1 d hd
        have hv := (hget (k + 1) _).2 ⟨(k, c), hm, rfl, rfl⟩
        simp only at hd hv
        rw [hd] at hv
        obtain ⟨n, hn⟩ := hn (k + 1)
        have hs := hs (k + 1)
        have e : F.coeff (k + 1) = c.toRat / d.toRat := by
          rw [hFk, hdn]
          change (p.ratPoly).coeff k / _ = _
          rw [coeff_rat, hc]
          push_cast
          rfl
        have := ExQ_div hp hw (finite_get hf hc) hdf (by rw [hdn]; positivity) n (by rw [← e]; exact hn) (by rw [← e]; exact hs)
        exact ⟨_, hv, this.1, this.2.trans e.symm⟩
      constructor
      · rintro ⟨j, v⟩ hj
        have hv := (BMap.mem_entries ..).1 hj
        obtain ⟨⟨k, c⟩, hm, rfl, -⟩ := (hget j v).1 hv
        obtain ⟨v', h1, h2, -⟩ := hval k c ((BMap.mem_entries ..).1 hm)
        simp only at hv
        rw [h1] at hv
        cases hv
        exact h2
      · ext k
        rw [coeff_rat]
        cases k with
        | zero =>
          rw [hF0]
          cases hv : r.terms.get 0 with
          | none => rfl
          | some v =>
            obtain ⟨e, _, h0, _⟩ := (hget 0 v).1 hv
            omega
        | succ k =>
          cases hc : p.terms.get k with
          | none =>
            have : r.terms.get (k + 1) = none := by
              by_contra hne
              obtain ⟨v, hv⟩ := Option.ne_none_iff_exists'.1 hne
              obtain ⟨⟨i, c⟩, hm, hi, -⟩ := (hget _ v).1 hv
              have : i = k := by simpa using hi
              subst this
              rw [(BMap.mem_entries ..).1 hm] at hc
              cases hc
            rw [this, hFk]
            change _ = (p.ratPoly).coeff k / _
            rw [coeff_rat, hc]
            simp
          | some c =>
            obtain ⟨v, h1, -, h3⟩ := hval k c hc
            rw [h1]
            exact h3
    · cases h
  · have hm : ∀ k, (FloatSink.ratPoly m).coeff k = if k = m.deg then m.coefficient.toRat else 0 := by
      intro k
      change m.ratPoly.coeff k = _
      simp [Monomial.ratPoly, coeff_X_pow]
    unfold Monomial.integral Monomial.degree at h
    have hzero : isZero m.coefficient = true ∨ m.coefficient.toRat = 0 → F = 0 := by
      intro hz
      have hz0 : m.coefficient.toRat = 0 := hz.elim (isZero_iff_toRat hf).1 id
      ext k
      cases k with
      | zero => rw [hF0]; simp
      | succ k => rw [hFk, hm, hz0]; simp
    cases hz : isZero m.coefficient with
    | true =>
      simp only [hz, if_true] at h
      cases h
      refine ⟨by simp [Sparse.zero, BMap.empty], ?_⟩
      rw [hzero (.inl hz)]
      simp [Sparse.ratPoly, Sparse.zero, BMap.empty, entriesPoly]
    | false =>
      simp only [hz, Bool.false_eq_true, if_false] at h
      cases ht : (tryFromExact (m.deg + 1) : Option (Fl f)) with
      | none => rw [ht] at h; cases h
      | some d =>
        rw [ht] at h
        simp only at h
        rw [show (rdiv m.coefficient d : Res (Fl f)) = .ok (div m.coefficient d) from rfl, Res.ok_bind] at h
        cases h
        obtain ⟨d1, d2⟩ := (he (m.deg + 1) hk).1 d ht
        have e : F.coeff (m.deg + 1) = m.coefficient.toRat / d.toRat := by
          rw [hFk, d2, hm, if_pos rfl]
          push_cast
          rfl
        obtain ⟨n, hn⟩ := hn (m.deg + 1)
        have hs := hs (m.deg + 1)
        obtain ⟨g1, g2⟩ := ExQ_div hp hw hf d1 (by rw [d2]; positivity) n (by rw [← e]; exact hn) (by rw [← e]; exact hs)
        simp only at g1 g2
        have hFe : F = C (div m.coefficient d).toRat * X ^ (m.deg + 1) := by
          ext k
          rw [coeff_C_mul, coeff_X_pow, g2, ← e]
          by_cases hkd : k = m.deg + 1
          · simp [hkd]
          · cases k with
            | zero => rw [hF0]; simp
            | succ k => rw [hFk, hm, if_neg (by omega), if_neg hkd]; simp
        cases h0 : isZero (div m.coefficient d) with
        | true =>
          have hent : (Sparse.fromTerms [(div m.coefficient d, m.deg + 1)]).terms.entries = [] := by
            simp [Sparse.fromTerms, Sparse.addTerm, h0, Sparse.new, BMap.empty]
          refine ⟨by rw [hent]; nofun, ?_⟩
          unfold Sparse.ratPoly
          rw [hent, hFe, (isZero_iff_toRat g1.1).1 h0]
          simp [entriesPoly]
        | false =>
          have hent : (Sparse.fromTerms [(div m.coefficient d, m.deg + 1)]).terms.entries = [(m.deg + 1, div m.coefficient d)] := by
            simp [Sparse.fromTerms, Sparse.addTerm, h0, BMap.upsert, BMap.get, BMap.getList, BMap.insert, BMap.insertList,
              Sparse.new, BMap.empty]
          refine ⟨by rw [hent]; exact List.forall_mem_cons.2 ⟨g1, nofun⟩, ?_⟩
          unfold Sparse.ratPoly
          rw [hent, hFe]
          simp [entriesPoly]

theorem int_sub (hp : 1 ≤ f.p) (hw : f.p + f.q ≤ f.w) {x y : Fl f} {a b : ℤ} (hx : x.isFinite = true)
    (hy : y.isFinite = true) (ha : x.toRat = a) (hb : y.toRat = b) (h : |(a : ℚ) - b| < 2 ^ f.p) :
    (x - y).isFinite = true ∧ (x - y).toRat = a - b := by
  have := int_add hp hw hx (y := -y) (b := -b) (by rwa [isFinite_neg]) ha (by rw [toRat_neg, hb]; simp)
    (by push_cast; rwa [← sub_eq_add_neg])
  rw [sub_eq_add]
  refine ⟨this.1, this.2.trans (by push_cast; ring)⟩

theorem pack_neg (s : Bool) (n : Nat) : (pack (!s) n : Fl f) = -pack s n := by
  unfold pack
  split <;> rfl

/-- Swapping the operands of a subtraction changes only the sign, except that equal operands give `+0.0` both times. -/
theorem sub_swap (x y : Fl f) : y - x = -(x - y) ∨ (x - y = 0 ∧ y - x = 0) := by
  rw [sub_eq_add, sub_eq_add]
  cases x with
  | nan => left; cases y <;> rfl
  | inf s =>
    left
    cases y with
    | nan => rfl
    | inf t => cases s <;> cases t <;> rfl
    | fin t b => rfl
  | fin s a =>
    cases y with
    | nan => left; rfl
    | inf t => left; cases t <;> rfl
    | fin t b =>
      change add (fin t b) (fin (!s) a) = -add (fin s a) (fin (!t) b) ∨
        (add (fin s a) (fin (!t) b) = 0 ∧ add (fin t b) (fin (!s) a) = 0)
      have e0 : (0 : Fl f) = fin false 0 := rfl
      rw [e0]
      unfold add
      by_cases hst : s = t
      · subst hst
        have h1 : ¬ s = !s := by cases s <;> simp
        simp only [h1, if_false]
        rcases Nat.lt_trichotomy a b with h | h | h
        · left
          rw [if_neg (by omega), if_pos h, if_neg (by omega), if_neg (by omega), ← pack_neg, Bool.not_not]
        · right
          rw [if_pos h, if_pos h.symm]
          simp
        · left
          rw [if_neg (by omega), if_neg (by omega), if_neg (by omega), if_pos h, ← pack_neg]
      · left
        have h1 : s = !t := by cases s <;> cases t <;> simp_all
        subst h1
        simp only [Bool.not_not, if_true]
        rw [← pack_neg, Bool.not_not, Nat.add_comm]

/-! ## The claims -/

/-- C93: the definite integral `integral().eval(a, b)` of an `f64` `Polynomial`, `LinearBinomial`, `QuadraticTrinomial`
or `ArrayPolynomial`: its error against the exact integral `F(b) - F(a)`, for `n` stored coefficients of the integral
and `G` the antiderivative with absolute values.  Without underflow it is at most `(1 + u)^(2n + 1) - 1` times
`G(|a|) + G(|b|)`. -/
theorem C93_dense_f64 (P F G : ℚ[X]) (r : Poly (Fl binary64)) (a b : Fl binary64) (h : IsDenseIntegral P r)
    (hr : FloatSink.AllFinite r) (hF : IsAntiderivative P F G) (hf : (Integral.eval ⟨r⟩ a b : Fl binary64).isFinite = true) :
    |(Integral.eval ⟨r⟩ a b : Fl binary64).toRat - (F.eval b.toRat - F.eval a.toRat)| ≤
      ((1 + uro binary64) ^ (2 * (r.terms.length - 1) + 3) - 1) * (G.eval |a.toRat| + G.eval |b.toRat|) +
        (1 + uro binary64) ^ (2 * (r.terms.length - 1) + 2) * eta binary64 *
          (∑ k ∈ P.support, |a.toRat| ^ (k + 1) + ∑ k ∈ P.support, |b.toRat| ^ (k + 1)) +
        (1 + uro binary64) ^ 2 * eta binary64 *
          (∑ i ∈ Finset.range (r.terms.length - 1), ((1 + uro binary64) ^ 2 * |a.toRat|) ^ i +
            ∑ i ∈ Finset.range (r.terms.length - 1), ((1 + uro binary64) ^ 2 * |b.toRat|) ^ i) :=
  dense_definite countLaw64 exactLaw64 (by decide) (by decide) (by decide +kernel) h hr hF a b hf

/-- C93: the same for `f32`. -/
theorem C93_dense_f32 (P F G : ℚ[X]) (r : Poly (Fl binary32)) (a b : Fl binary32) (h : IsDenseIntegral P r)
    (hr : FloatSink.AllFinite r) (hF : IsAntiderivative P F G) (hf : (Integral.eval ⟨r⟩ a b : Fl binary32).isFinite = true) :
    |(Integral.eval ⟨r⟩ a b : Fl binary32).toRat - (F.eval b.toRat - F.eval a.toRat)| ≤
      ((1 + uro binary32) ^ (2 * (r.terms.length - 1) + 3) - 1) * (G.eval |a.toRat| + G.eval |b.toRat|) +
        (1 + uro binary32) ^ (2 * (r.terms.length - 1) + 2) * eta binary32 *
          (∑ k ∈ P.support, |a.toRat| ^ (k + 1) + ∑ k ∈ P.support, |b.toRat| ^ (k + 1)) +
        (1 + uro binary32) ^ 2 * eta binary32 *
          (∑ i ∈ Finset.range (r.terms.length - 1), ((1 + uro binary32) ^ 2 * |a.toRat|) ^ i +
            ∑ i ∈ Finset.range (r.terms.length - 1), ((1 + uro binary32) ^ 2 * |b.toRat|) ^ i) :=
  dense_definite countLaw32 exactLaw32 (by decide) (by decide) (by decide +kernel) h hr hF a b hf

/-- C93: the definite integral of an `f64` `SparsePolynomial` or `Monomial`, for powers with relative error at most
`δ`. -/
theorem C93_sparse_f64 [PowUsize (Fl binary64)] (P F G : ℚ[X]) (r : Sparse (Fl binary64)) (a b : Fl binary64) (δ : ℚ)
    (h : IsSparseIntegral P r) (hr : FloatSink.AllFinite r) (hF : IsAntiderivative P F G) (hδ : 0 ≤ δ)
    (hpa : ∀ e ∈ r.terms.entries, |(upow a e.1).toRat - a.toRat ^ e.1| ≤ δ * |a.toRat| ^ e.1)
    (hpb : ∀ e ∈ r.terms.entries, |(upow b e.1).toRat - b.toRat ^ e.1| ≤ δ * |b.toRat| ^ e.1)
    (hf : (Integral.eval ⟨r⟩ a b : Fl binary64).isFinite = true) :
    |(Integral.eval ⟨r⟩ a b : Fl binary64).toRat - (F.eval b.toRat - F.eval a.toRat)| ≤
      ((1 + uro binary64) ^ (r.terms.entries.length + 3) * (1 + δ) - 1) * (G.eval |a.toRat| + G.eval |b.toRat|) +
        (1 + uro binary64) ^ (r.terms.entries.length + 2) * (1 + δ) * eta binary64 *
          (∑ k ∈ P.support, |a.toRat| ^ (k + 1) + ∑ k ∈ P.support, |b.toRat| ^ (k + 1)) +
        2 * r.terms.entries.length * (1 + uro binary64) ^ (r.terms.entries.length + 1) * eta binary64 :=
  sparse_definite exactLaw64 h hr hF a b δ hδ hpa hpb hf

/-- C93: the same for `f32`. -/
theorem C93_sparse_f32 [PowUsize (Fl binary32)] (P F G : ℚ[X]) (r : Sparse (Fl binary32)) (a b : Fl binary32) (δ : ℚ)
    (h : IsSparseIntegral P r) (hr : FloatSink.AllFinite r) (hF : IsAntiderivative P F G) (hδ : 0 ≤ δ)
    (hpa : ∀ e ∈ r.terms.entries, |(upow a e.1).toRat - a.toRat ^ e.1| ≤ δ * |a.toRat| ^ e.1)
    (hpb : ∀ e ∈ r.terms.entries, |(upow b e.1).toRat - b.toRat ^ e.1| ≤ δ * |b.toRat| ^ e.1)
    (hf : (Integral.eval ⟨r⟩ a b : Fl binary32).isFinite = true) :
    |(Integral.eval ⟨r⟩ a b : Fl binary32).toRat - (F.eval b.toRat - F.eval a.toRat)| ≤
      ((1 + uro binary32) ^ (r.terms.entries.length + 3) * (1 + δ) - 1) * (G.eval |a.toRat| + G.eval |b.toRat|) +
        (1 + uro binary32) ^ (r.terms.entries.length + 2) * (1 + δ) * eta binary32 *
          (∑ k ∈ P.support, |a.toRat| ^ (k + 1) + ∑ k ∈ P.support, |b.toRat| ^ (k + 1)) +
        2 * r.terms.entries.length * (1 + uro binary32) ^ (r.terms.entries.length + 1) * eta binary32 :=
  sparse_definite exactLaw32 h hr hF a b δ hδ hpa hpb hf

theorem dense_whole [FromUsizeCont (Fl f)] [FromUsizeExact (Fl f)] (hc : CountLaw f) (he : ExactLaw f)
    (hp : 2 ≤ f.p) (hw : f.p + f.q ≤ f.w) (P F G : ℚ[X]) (r : Poly (Fl f)) (a b : Fl f) (h : IsDenseIntegral P r)
    (hF : IsAntiderivative P F G) (hn : ∀ k, ∃ n : ℤ, F.coeff k = n) (hs : ∀ k, |F.coeff k| < 2 ^ f.p)
    (ha : a.IntValued) (hb : b.IntValued) (hGa : G.eval |a.toRat| < 2 ^ f.p) (hGb : G.eval |b.toRat| < 2 ^ f.p)
    (hd : |F.eval b.toRat - F.eval a.toRat| < 2 ^ f.p) :
    (Integral.eval ⟨r⟩ a b : Fl f).IntValued ∧
      (Integral.eval ⟨r⟩ a b : Fl f).toRat = F.eval b.toRat - F.eval a.toRat := by
  have hp1 : 1 ≤ f.p := by omega
  obtain ⟨h1, h2⟩ := dense_integral_exact hc he hp hw h hF.deriv hF.zero hn hs
  have hG : descPoly (r.terms.map fun c => |c.toRat|) = G := by
    ext k
    rw [coeff_dense_abs, h2, hF.abs]
  obtain ⟨a1, a2⟩ := C66_eval_exact hp1 hw r a h1 ha (by rw [hG]; exact hGa)
  obtain ⟨b1, b2⟩ := C66_eval_exact hp1 hw r b h1 hb (by rw [hG]; exact hGb)
  rw [h2] at a2 b2
  have hint : ∀ x : Fl f, x.IntValued → ∃ n : ℤ, F.eval x.toRat = n := by
    rintro x ⟨-, z, hz⟩
    choose c hc using hn
    refine ⟨∑ i ∈ F.support, c i * z ^ i, ?_⟩
    rw [eval_eq_sum, Polynomial.sum, hz]
    push_cast
    exact Finset.sum_congr rfl fun i _ => by rw [hc]
  obtain ⟨m, hm⟩ := hint a ha
  obtain ⟨n, hn⟩ := hint b hb
  obtain ⟨d1, d2⟩ := int_sub hp1 hw b1 a1 (b2.trans hn) (a2.trans hm) (by rw [← hn, ← hm]; exact hd)
  exact ⟨⟨d1, n - m, d2.trans (by push_cast; rfl)⟩, d2.trans (by rw [hn, hm])⟩

theorem sparse_whole [FromUsizeExact (Fl f)] [PowUsize (Fl f)] (he : ExactLaw f)
    (hp : 1 ≤ f.p) (hw : f.p + f.q ≤ f.w) (P F G : ℚ[X]) (r : Sparse (Fl f)) (a b : Fl f) (h : IsSparseIntegral P r)
    (hF : IsAntiderivative P F G) (hn : ∀ k, ∃ n : ℤ, F.coeff k = n) (hs : ∀ k, |F.coeff k| < 2 ^ f.p)
    (ha : a.IntValued) (hb : b.IntValued)
    (hpw : ∀ e ∈ r.terms.entries, (upow a e.1).isFinite = true ∧ (upow a e.1).toRat = a.toRat ^ e.1 ∧
      (upow b e.1).isFinite = true ∧ (upow b e.1).toRat = b.toRat ^ e.1)
    (hGa : G.eval |a.toRat| < 2 ^ f.p) (hGb : G.eval |b.toRat| < 2 ^ f.p)
    (hd : |F.eval b.toRat - F.eval a.toRat| < 2 ^ f.p) :
    (Integral.eval ⟨r⟩ a b : Fl f).IntValued ∧
      (Integral.eval ⟨r⟩ a b : Fl f).toRat = F.eval b.toRat - F.eval a.toRat := by
  obtain ⟨h1, h2⟩ := sparse_integral_exact he hp hw h hF.deriv hF.zero hn hs
  have hG : r.absPoly = G := by
    ext k
    rw [hF.abs, ← h2, coeff_abs, coeff_rat]
    cases r.terms.get k <;> simp
  have hi : ∀ (x : Fl f) (j : Nat), x.IntValued → ∃ n : ℤ, x.toRat ^ j = n := by
    rintro x j ⟨-, z, hz⟩
    exact ⟨z ^ j, by rw [hz]; push_cast; rfl⟩
  obtain ⟨a1, a2⟩ := C85_eval_exact hp hw r a h1
    (fun e he => ⟨(hpw e he).1, (hpw e he).2.1, by rw [(hpw e he).2.1]; exact hi a _ ha⟩) (by rw [hG]; exact hGa)
  obtain ⟨b1, b2⟩ := C85_eval_exact hp hw r b h1
    (fun e he => ⟨(hpw e he).2.2.1, (hpw e he).2.2.2, by rw [(hpw e he).2.2.2]; exact hi b _ hb⟩) (by rw [hG]; exact hGb)
  rw [h2] at a2 b2
  have hint : ∀ x : Fl f, x.IntValued → ∃ n : ℤ, F.eval x.toRat = n := by
    rintro x ⟨-, z, hz⟩
    choose c hc using hn
    refine ⟨∑ i ∈ F.support, c i * z ^ i, ?_⟩
    rw [eval_eq_sum, Polynomial.sum, hz]
    push_cast
    exact Finset.sum_congr rfl fun i _ => by rw [hc]
  obtain ⟨m, hm⟩ := hint a ha
  obtain ⟨n, hn⟩ := hint b hb
  obtain ⟨d1, d2⟩ := int_sub hp hw b1 a1 (b2.trans hn) (a2.trans hm) (by rw [← hn, ← hm]; exact hd)
  exact ⟨⟨d1, n - m, d2.trans (by push_cast; rfl)⟩, d2.trans (by rw [hn, hm])⟩

/-- C93: if the antiderivative has whole coefficients and the limits are whole numbers, the definite integral is exact
while all sums of absolute values stay below `2^53` (`2^24`). -/
theorem C93_dense_whole (P F G : ℚ[X]) (hF : IsAntiderivative P F G) (hn : ∀ k, ∃ n : ℤ, F.coeff k = n) :
    (∀ (r : Poly (Fl binary64)) (a b : Fl binary64), IsDenseIntegral P r → (∀ k, |F.coeff k| < 2 ^ 53) →
      a.IntValued → b.IntValued → G.eval |a.toRat| < 2 ^ 53 → G.eval |b.toRat| < 2 ^ 53 →
      |F.eval b.toRat - F.eval a.toRat| < 2 ^ 53 →
      (Integral.eval ⟨r⟩ a b : Fl binary64).IntValued ∧
        (Integral.eval ⟨r⟩ a b : Fl binary64).toRat = F.eval b.toRat - F.eval a.toRat) ∧
    (∀ (r : Poly (Fl binary32)) (a b : Fl binary32), IsDenseIntegral P r → (∀ k, |F.coeff k| < 2 ^ 24) →
      a.IntValued → b.IntValued → G.eval |a.toRat| < 2 ^ 24 → G.eval |b.toRat| < 2 ^ 24 →
      |F.eval b.toRat - F.eval a.toRat| < 2 ^ 24 →
      (Integral.eval ⟨r⟩ a b : Fl binary32).IntValued ∧
        (Integral.eval ⟨r⟩ a b : Fl binary32).toRat = F.eval b.toRat - F.eval a.toRat) :=
  ⟨fun r a b h hs ha hb => dense_whole countLaw64 exactLaw64 (by decide) (by decide) P F G r a b h hF hn hs ha hb,
    fun r a b h hs ha hb => dense_whole countLaw32 exactLaw32 (by decide) (by decide) P F G r a b h hF hn hs ha hb⟩

/-- C93: the same for sparse polynomials and monomials whose powers are exact. -/
theorem C93_sparse_whole [PowUsize (Fl binary64)] [PowUsize (Fl binary32)] (P F G : ℚ[X]) (hF : IsAntiderivative P F G)
    (hn : ∀ k, ∃ n : ℤ, F.coeff k = n) :
    (∀ (r : Sparse (Fl binary64)) (a b : Fl binary64), IsSparseIntegral P r → (∀ k, |F.coeff k| < 2 ^ 53) →
      a.IntValued → b.IntValued →
      (∀ e ∈ r.terms.entries, (upow a e.1).isFinite = true ∧ (upow a e.1).toRat = a.toRat ^ e.1 ∧
        (upow b e.1).isFinite = true ∧ (upow b e.1).toRat = b.toRat ^ e.1) →
      G.eval |a.toRat| < 2 ^ 53 → G.eval |b.toRat| < 2 ^ 53 → |F.eval b.toRat - F.eval a.toRat| < 2 ^ 53 →
      (Integral.eval ⟨r⟩ a b : Fl binary64).IntValued ∧
        (Integral.eval ⟨r⟩ a b : Fl binary64).toRat = F.eval b.toRat - F.eval a.toRat) ∧
    (∀ (r : Sparse (Fl binary32)) (a b : Fl binary32), IsSparseIntegral P r → (∀ k, |F.coeff k| < 2 ^ 24) →
      a.IntValued → b.IntValued →
      (∀ e ∈ r.terms.entries, (upow a e.1).isFinite = true ∧ (upow a e.1).toRat = a.toRat ^ e.1 ∧
        (upow b e.1).isFinite = true ∧ (upow b e.1).toRat = b.toRat ^ e.1) →
      G.eval |a.toRat| < 2 ^ 24 → G.eval |b.toRat| < 2 ^ 24 → |F.eval b.toRat - F.eval a.toRat| < 2 ^ 24 →
      (Integral.eval ⟨r⟩ a b : Fl binary32).IntValued ∧
        (Integral.eval ⟨r⟩ a b : Fl binary32).toRat = F.eval b.toRat - F.eval a.toRat) :=
  ⟨fun r a b h hs ha hb => sparse_whole exactLaw64 (by decide) (by decide) P F G r a b h hF hn hs ha hb,
    fun r a b h hs ha hb => sparse_whole exactLaw32 (by decide) (by decide) P F G r a b h hF hn hs ha hb⟩

/-- C93: exchanging the limits changes only the sign, and the integral over an empty interval is `+0.0`, for any
stored coefficients. -/
theorem C93_limits [PowUsize (Fl f)] (r : Poly (Fl f)) (s : Sparse (Fl f)) (a b : Fl f) :
    ((Integral.eval ⟨r⟩ b a : Fl f) = -(Integral.eval ⟨r⟩ a b) ∨
      ((Integral.eval ⟨r⟩ a b : Fl f) = 0 ∧ (Integral.eval ⟨r⟩ b a : Fl f) = 0)) ∧
    ((r.eval a).isFinite = true → (Integral.eval ⟨r⟩ a a : Fl f) = 0) ∧
    ((Integral.eval ⟨s⟩ b a : Fl f) = -(Integral.eval ⟨s⟩ a b) ∨
      ((Integral.eval ⟨s⟩ a b : Fl f) = 0 ∧ (Integral.eval ⟨s⟩ b a : Fl f) = 0)) ∧
    ((s.eval a).isFinite = true → (Integral.eval ⟨s⟩ a a : Fl f) = 0) := by
  have hs : ∀ x : Fl f, x.isFinite = true → x - x = 0 := by
    intro x hx
    cases x with
    | nan => cases hx
    | inf s => cases hx
    | fin s n =>
      change add (fin s n) (fin (!s) n) = fin false 0
      unfold add
      cases s <;> simp
  exact ⟨sub_swap (r.eval b) (r.eval a) |>.imp (fun h => h) (fun h => h), hs _, sub_swap (s.eval b) (s.eval a), hs _⟩

/-- C93: `replace_c` sets the constant of an integral exactly and keeps the other coefficients; the constant of an
integral is zero before.  The coefficients must be finite. -/
theorem C93_replace_c (hp : 1 ≤ f.p) (hw : f.p ≤ f.w) [PowUsize (Fl f)] (r : Poly (Fl f)) (s : Sparse (Fl f)) (c : Fl f)
    (hc : c.isFinite = true) (hv : c.Valid) :
    (FloatSink.AllFinite r → (FloatSink.ratPoly r).coeff 0 = 0 →
      FloatSink.AllFinite (Integral.replaceC ⟨r⟩ c : Poly (Fl f)) ∧
      FloatSink.ratPoly (Integral.replaceC ⟨r⟩ c : Poly (Fl f)) = FloatSink.ratPoly r + C c.toRat) ∧
    (FloatSink.AllFinite s → (FloatSink.ratPoly s).coeff 0 = 0 →
      FloatSink.AllFinite (Integral.replaceC ⟨s⟩ c : Sparse (Fl f)) ∧
      FloatSink.ratPoly (Integral.replaceC ⟨s⟩ c : Sparse (Fl f)) = FloatSink.ratPoly s + C c.toRat) := by
  have h1 := ((C91_try_add r (r.addTerm c 0) c 0).1 rfl).2.1 hp hw
  have h2 := ((C91_try_add s (s.addTerm c 0) c 0).1 rfl).2.1 hp hw
  rw [pow_zero, mul_one] at h1 h2
  exact ⟨fun hr h0 => h1 hr hc hv h0, fun hs h0 => h2 hs hc hv h0⟩

/-! ## Examples -/

-- the example in the documentation: 2x + 1 from 0 to 1, 0 to 2 and 1 to 2
example : (Integral.eval ⟨(⟨[ofNat 1, ofNat 1, 0]⟩ : Poly (Fl binary64))⟩ 0 (ofNat 1) : Fl binary64) = ofNat 2 ∧
    (Integral.eval ⟨(⟨[ofNat 1, ofNat 1, 0]⟩ : Poly (Fl binary64))⟩ 0 (ofNat 2) : Fl binary64) = ofNat 6 ∧
    (Integral.eval ⟨(⟨[ofNat 1, ofNat 1, 0]⟩ : Poly (Fl binary64))⟩ (ofNat 1) (ofNat 2) : Fl binary64) = ofNat 4 ∧
    (⟨[ofNat 2, ofNat 1]⟩ : Poly (Fl binary64)).integral = .ok ⟨[ofNat 1, ofNat 1, 0]⟩ := by decide +kernel

/-- Example: `x^2 + x + 1` as three types, with the integral `x^3/3 + x^2/2 + x`. -/
theorem exSquare : IsDenseIntegral (FloatSink.ratPoly (⟨[1, 1, 1]⟩ : Poly (Fl binary64)))
      (⟨[div 1 (ofNat 3), div 1 (ofNat 2), 1, 0]⟩ : Poly (Fl binary64)) ∧
    IsDenseIntegral (FloatSink.ratPoly (⟨1, 1, 1⟩ : QuadraticTrinomial (Fl binary64)))
      (⟨[div 1 (ofNat 3), div 1 (ofNat 2), 1, 0]⟩ : Poly (Fl binary64)) ∧
    FloatSink.AllFinite (⟨[div 1 (ofNat 3), div 1 (ofNat 2), 1, 0]⟩ : Poly (Fl binary64)) :=
  ⟨.inl ⟨⟨[1, 1, 1]⟩, by decide +kernel, by
      change ∀ c ∈ [(1 : Fl binary64), 1, 1], c.isFinite = true
      decide, rfl⟩,
    .inr (.inr (.inl ⟨⟨1, 1, 1⟩, by decide +kernel, ⟨rfl, rfl, rfl⟩, rfl⟩)), by
      change ∀ c ∈ [(div 1 (ofNat 3) : Fl binary64), div 1 (ofNat 2), 1, 0], c.isFinite = true
      decide +kernel⟩

example : FloatSink.ratPoly (⟨[1, 1, 1]⟩ : Poly (Fl binary64)) = X ^ 2 + X + 1 ∧
    IsAntiderivative (X ^ 2 + X + 1) (C (1 / 3) * X ^ 3 + C (1 / 2) * X ^ 2 + X) (C (1 / 3) * X ^ 3 + C (1 / 2) * X ^ 2 + X) := by
  refine ⟨?_, ⟨?_, by simp, fun k => ?_⟩⟩
  · change descPoly [toRat (1 : Fl binary64), toRat 1, toRat 1] = _
    rw [show toRat (1 : Fl binary64) = 1 by decide +kernel]
    simp [descPoly_cons]
    ring
  · simp only [derivative_add, derivative_C_mul_X_pow, derivative_X]
    norm_num
  · rw [abs_of_nonneg]
    simp only [coeff_add, coeff_C_mul, coeff_X_pow, coeff_X]
    positivity

-- from 0.1 to 2 the result is off in the last place: 2^-52 is the distance of the neighbours of the result
example : let r : Poly (Fl binary64) := ⟨[div 1 (ofNat 3), div 1 (ofNat 2), 1, 0]⟩
    let F := fun x : ℚ => x ^ 3 / 3 + x ^ 2 / 2 + x
    let v : Fl binary64 := Integral.eval ⟨r⟩ (div 1 (ofNat 10)) (ofNat 2)
    v.isFinite = true ∧ v.toRat ≠ F 2 - F (div 1 (ofNat 10) : Fl binary64).toRat ∧
      |v.toRat - (F 2 - F (div 1 (ofNat 10) : Fl binary64).toRat)| < 1 / 2 ^ 50 := by decide +kernel

-- an integral that underflows: the smallest positive number times x has the integral 0
example : (⟨.fin false 1, 0⟩ : LinearBinomial (Fl binary64)).integral = .ok ⟨[]⟩ := by decide +kernel

section ExamplePow
/-- Example: powers by repeated multiplication. -/
local instance exPowI : PowUsize (Fl binary64) := ⟨fun x n => Nat.rec 1 (fun _ y => y * x) n⟩

-- 30x^2 + 2x^9 from -1 to 2 for a sparse polynomial, whose powers are exact
example : let r : Sparse (Fl binary64) := ⟨BMap.ofList [(3, ofNat 10), (10, div 1 (ofNat 5))]⟩
    ((Sparse.new (BMap.ofList [(2, ofNat 30), (9, ofNat 2)]) : Sparse (Fl binary64)).integral.bind fun r =>
      .ok r.terms.entries) = .ok r.terms.entries ∧
    (∀ e ∈ r.terms.entries, (upow (ofNat 2 : Fl binary64) e.1).toRat = 2 ^ e.1 ∧
      (upow (-1 : Fl binary64) e.1).toRat = (-1) ^ e.1) ∧
    |(Integral.eval ⟨r⟩ (-1) (ofNat 2) : Fl binary64).toRat - (90 + 1023 / 5)| < 1 / 2 ^ 40 := by
  refine ⟨?_, by decide +kernel, by decide +kernel⟩
  decide +kernel

-- exchanging the limits, and a constant
example : (Integral.eval ⟨(⟨[ofNat 1, ofNat 1, 0]⟩ : Poly (Fl binary64))⟩ (ofNat 2) (ofNat 1) : Fl binary64) = -ofNat 4 ∧
    Integral.replaceC ⟨(⟨[ofNat 1, ofNat 1, 0]⟩ : Poly (Fl binary64))⟩ (ofNat 7 : Fl binary64) =
      (⟨[ofNat 1, ofNat 1, ofNat 7]⟩ : Poly (Fl binary64)) := by decide +kernel
end ExamplePow

end Fl
end Rustnomial
