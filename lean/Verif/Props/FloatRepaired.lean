import Verif.Model.Repaired
import Verif.Props.FloatPowi
import Verif.Props.FloatFactors

/-!
# C139: the repaired functions in floating point
-/

set_option linter.unusedSectionVars false

open Polynomial

namespace Rustnomial
namespace Fl

variable {f : FlFmt}

/-- C139 (C11): the repaired product returns for all operands, with the error of C68. -/
theorem C139_mul (p q : Poly (Fl f)) : ∃ r, p.mulRepaired q = .ok r ∧
    ((∀ c ∈ r.terms, c.isFinite = true) → ∀ k,
      |(descPoly (r.terms.map toRat) - descPoly (p.terms.map toRat) * descPoly (q.terms.map toRat)).coeff k| ≤
        ((1 + uro f) ^ (q.terms.length + 1) - 1) *
          (descPoly (p.terms.map fun c => |c.toRat|) * descPoly (q.terms.map fun c => |c.toRat|)).coeff k +
        q.terms.length * (1 + uro f) ^ q.terms.length * eta f) := by
  by_cases h0 : (∀ c ∈ p.terms, isZero c = true) ∧ ∀ c ∈ q.terms, isZero c = true
  · have h1 : p.terms.dropWhile isZero = [] := List.dropWhile_eq_nil_iff.2 h0.1
    have h2 : q.terms.dropWhile isZero = [] := List.dropWhile_eq_nil_iff.2 h0.2
    refine ⟨Poly.new [], ?_, fun _ k => ?_⟩
    · unfold Poly.mulRepaired sliceMulRepaired
      simp only [sliceFrom, firstNonzeroIndex_le, if_true, Res.ok_bind, drop_firstNonzeroIndex, h1, h2]
      rfl
    · have hz : ∀ s : Bool, (fun x : Fl f => |x.toRat|) (fin s 0) = 0 := fun s => by simp [toRat_fin_zero]
      rw [new_terms, ← descPoly_dropWhile_toRat toRat toRat_fin_zero p.terms, h1,
        ← descPoly_dropWhile_toRat (fun c => |c.toRat|) hz p.terms, h1]
      have hu := uro_nonneg (f := f)
      have hη := eta_nonneg (f := f)
      simp only [List.dropWhile_nil, List.map_nil, descPoly_nil, zero_mul, sub_self, coeff_zero, abs_zero, mul_zero, zero_add]
      positivity
  · obtain ⟨r, hr⟩ := (C68_mul_panics_iff p q).2.2 h0
    have hsame : p.mulRepaired q = .ok (Poly.new r.terms) ∧ p.mulRef q = .ok (Poly.new r.terms) := by
      unfold Poly.mul sliceMul at hr
      unfold Poly.mulRepaired sliceMulRepaired Poly.mulRef sliceMul
      simp only [sliceFrom, firstNonzeroIndex_le, if_true, Res.ok_bind, drop_firstNonzeroIndex, usub] at hr ⊢
      split at hr
      · rename_i hl
        rw [if_pos hl, Res.ok_bind]
        rw [Res.ok_bind] at hr
        obtain ⟨x, h1, h2⟩ := Res.bind_eq_ok.1 hr
        cases h2
        rw [h1]
        exact ⟨rfl, rfl⟩
      · cases hr
    exact ⟨_, hsame.1, fun hf k => C68_mul_error p q _ (.inr hsame.2) hf k⟩

/-- C139 (C12): the repaired power returns for all polynomials and exponents. -/
theorem C139_pow (p : Poly (Fl f)) (n : Nat) : ∃ r, p.powRepaired n = .ok r := by
  induction n using Nat.strong_induction_on generalizing p with
  | _ n ih =>
    rw [Poly.powRepaired]
    split
    · exact ⟨_, rfl⟩
    split
    · exact ⟨_, rfl⟩
    split
    · exact ⟨_, (C139_mul p p).choose_spec.1⟩
    split
    · obtain ⟨h, hh⟩ := ih (n / 2) (by omega) p
      rw [hh, Res.ok_bind]
      exact ih 2 (by omega) h
    · obtain ⟨h, hh⟩ := ih (n - 1) (by omega) p
      rw [hh, Res.ok_bind]
      exact ⟨_, (C139_mul p h).choose_spec.1⟩

/-- The repaired power is the loop of `powi` without the truncation of the exponent. -/
theorem upowRepaired_powi (r a : Fl f) (n : Nat) : upowRepaired r a n = powiLoop r a n := by
  induction n using Nat.strong_induction_on generalizing r a with
  | _ n ih =>
    rw [upowRepaired, powiLoop]
    by_cases h0 : n = 0
    · subst h0; simp
    · rw [if_neg h0]
      by_cases h2 : n / 2 = 0
      · simp only [h2, if_true]
        rw [upowRepaired, if_pos rfl]
      · simp only [if_neg h2]
        exact ih _ (by omega) _ _

section
/-- Powers by repeated squaring with the whole of the exponent. -/
local instance repairedPow : PowUsize (Fl f) := ⟨fun x n => upowRepaired 1 x n⟩

/-- C139 (C07): a finite power has the relative error of `n` roundings for every exponent, as long as no power of the base up to the
`n`-th, so rounded, lies below the normal numbers. -/
theorem C139_upow (hp : 1 ≤ f.p) (x : Fl f) (n : Nat)
    (hx : x.toRat = 0 ∨ minNormal f ≤ (1 - uro f) ^ n * min 1 (|x.toRat| ^ n)) (h : (upowRepaired 1 x n).isFinite = true) :
    |(upowRepaired 1 x n).toRat - x.toRat ^ n| ≤ ((1 + uro f) ^ n - 1) * |x.toRat| ^ n := by
  rw [upowRepaired_powi] at h ⊢
  have h1 : PowApx x.toRat 0 0 (1 : Fl f) := ⟨1, by simp, by simp, by simp [toRat_one]⟩
  have h2 : PowApx x.toRat 0 1 x := ⟨1, by simp, by simp, by simp⟩
  have := powiLoop_apx hp hx n 1 x 0 1 h1 h2 le_rfl (by omega) h
  rw [zero_add, one_mul] at this
  exact apx_error hp this

/-- C139 (C07): the repaired `eval` of a SparsePolynomial of degree at most `d` with `n` stored terms: a finite result has the error of
`n + d + 1` roundings, relative to the sum of the absolute values of the terms, for exponents of any size. -/
theorem C139_sparse_eval (hp : 1 ≤ f.p) (p : Sparse (Fl f)) (x : Fl f) (d : Nat)
    (hdeg : ∀ e ∈ p.terms.entries, e.1 ≤ d)
    (hx : x.toRat = 0 ∨ minNormal f ≤ (1 - uro f) ^ d * min 1 (|x.toRat| ^ d)) (h : (p.evalRepaired x).isFinite = true) :
    |(p.evalRepaired x).toRat - p.ratPoly.eval x.toRat| ≤
      ((1 + uro f) ^ (p.terms.entries.length + d + 1) - 1) * p.absPoly.eval |x.toRat| +
        p.terms.entries.length * (1 + uro f) ^ p.terms.entries.length * eta f := by
  have e : p.evalRepaired x = p.eval x := rfl
  rw [e] at h ⊢
  have hu := uro_nonneg (f := f)
  have hfin : ∀ (l : List (Nat × Fl f)) (t : Fl f),
      (l.foldl (fun sum e => sum + e.2 * upow x e.1) t).isFinite = true → ∀ e ∈ l, (e.2 * upow x e.1).isFinite = true := by
    intro l
    induction l with
    | nil => intro t _ e he; cases he
    | cons a l ih =>
      have hhead : ∀ (l : List (Nat × Fl f)) (t : Fl f),
          (l.foldl (fun sum e => sum + e.2 * upow x e.1) t).isFinite = true → t.isFinite = true := by
        intro l
        induction l with
        | nil => intro t h; exact h
        | cons b l ihl => intro t h; exact (finite_of_add (ihl _ h)).1
      intro t h e he
      rcases List.mem_cons.1 he with rfl | he
      · exact (finite_of_add (hhead l _ h)).2
      · exact ih _ h e he
  have := C85_eval_error ((1 + uro f) ^ d - 1) (by linarith [one_le_pow₀ (n := d) (show 1 ≤ 1 + uro f by linarith)]) p x
    (fun e he => ?_) h
  · rwa [add_sub_cancel, ← pow_add, show p.terms.entries.length + 1 + d = p.terms.entries.length + d + 1 by omega] at this
  · have hed := hdeg e he
    refine (C139_upow hp x e.1 (normal_mono hp hed hx) (finite_of_mul (hfin p.terms.entries 0 h e he)).2).trans ?_
    refine mul_le_mul_of_nonneg_right ?_ (by positivity)
    have := pow_le_pow_right₀ (show 1 ≤ 1 + uro f by linarith) hed
    linarith

end

/-- C139 (C94): the exact product of the repaired complex factors has the leading coefficient `a`, and its two other coefficients are
close to `b` and `c`, whether the roots are real or complex. -/
theorem C139_complex_factors (hp : 4 ≤ f.p) (hq : 2 * f.p ≤ f.q) (hw : f.p + f.q < f.w) (a b c : Fl f)
    (ha : a.Valid) (ha0 : a.toRat ≠ 0) (ha2 : |a.toRat| * 2 ≤ maxFinite f) (g : ℝ)
    (hg : g = √((b.toRat : ℝ) ^ 2 + 4 * |(a.toRat : ℝ) * c.toRat| + 6 * eta f)) :
    ∃ l m, (QuadraticTrinomial.new a b c).complexFactorsRepaired = .ok (a, l, m) ∧
    (CplxFinite l → CplxFinite m → ∀ P : ℂ[X], P = C (a.toRat : ℂ) * l.flcPoly * m.flcPoly →
      P.coeff 2 = a.toRat ∧ (∀ n, 2 < n → P.coeff n = 0) ∧
      ‖P.coeff 0 - c.toRat‖ ≤ 4 * uro f * g ^ 2 / |(a.toRat : ℝ)| + 3 * g * eta f +
        3 * |(a.toRat : ℝ)| * (eta f : ℝ) ^ 2 + 2 * eta f / |(a.toRat : ℝ)| ∧
      ‖P.coeff 1 - b.toRat‖ ≤ 3 * uro f * g + 3 * |(a.toRat : ℝ)| * eta f) := by
  have hone : (⟨1, 0⟩ : Cplx (Fl f)).flC = 1 := by
    rw [Cplx.flC]
    apply Complex.ext <;> simp [toRat_one]
  have hz : (0 : Fl f).toRat = 0 := toRat_zero
  rcases roots_kind a b c with ⟨x, y, hr⟩ | ⟨x, y, hr⟩
  · refine ⟨.new ⟨1, 0⟩ ⟨-x, 0⟩, .new ⟨1, 0⟩ ⟨-y, 0⟩, ?_, ?_⟩
    · rw [QuadraticTrinomial.complexFactorsRepaired, hr]; rfl
    rintro ⟨-, -, hl, -⟩ ⟨-, -, hm, -⟩ P hP
    have hxf : x.isFinite = true := by rw [← isFinite_neg]; exact hl
    have hyf : y.isFinite = true := by rw [← isFinite_neg]; exact hm
    obtain ⟨k1, k2⟩ := C94_roots_backward hp hq hw a b c ha ha0 ha2 _ hr ⟨(x.toRat : ℝ), 0⟩ ⟨(y.toRat : ℝ), 0⟩
      ⟨hxf, hyf, rfl, rfl⟩ g hg
    have hc : ∀ z : Fl f, (⟨-z, 0⟩ : Cplx (Fl f)).flC = -⟨(z.toRat : ℝ), 0⟩ := by
      intro z
      rw [Cplx.flC]
      apply Complex.ext <;> simp [toRat_neg, hz]
    simp only [LinearBinomial.flcPoly, LinearBinomial.new, hone, hc] at hP
    obtain ⟨q2, q1, q0, qn⟩ := monic_product (a.toRat : ℂ) (-⟨(x.toRat : ℝ), 0⟩) (-⟨(y.toRat : ℝ), 0⟩)
    rw [← hP] at q2 q1 q0 qn
    refine ⟨q2, qn, ?_, ?_⟩
    · refine le_trans (le_of_eq ?_) k2
      rw [q0, neg_mul_neg]
    · refine le_trans (le_of_eq ?_) k1
      rw [q1, ← norm_neg]
      congr 1
      ring
  · refine ⟨.new ⟨1, 0⟩ ⟨-x.re, -x.im⟩, .new ⟨1, 0⟩ ⟨-y.re, -y.im⟩, ?_, ?_⟩
    · rw [QuadraticTrinomial.complexFactorsRepaired, hr]; rfl
    rintro ⟨-, -, hl, hl'⟩ ⟨-, -, hm, hm'⟩ P hP
    simp only [LinearBinomial.new, isFinite_neg] at hl hl' hm hm'
    obtain ⟨k1, k2⟩ := C94_roots_backward hp hq hw a b c ha ha0 ha2 _ hr x.flC y.flC
      ⟨hl, hl', hm, hm', rfl, rfl⟩ g hg
    have hc : ∀ z : Cplx (Fl f), (⟨-z.re, -z.im⟩ : Cplx (Fl f)).flC = -z.flC := by
      intro z
      rw [Cplx.flC, Cplx.flC]
      apply Complex.ext <;> simp [toRat_neg]
    simp only [LinearBinomial.flcPoly, LinearBinomial.new, hone, hc] at hP
    obtain ⟨q2, q1, q0, qn⟩ := monic_product (a.toRat : ℂ) (-x.flC) (-y.flC)
    rw [← hP] at q2 q1 q0 qn
    refine ⟨q2, qn, ?_, ?_⟩
    · refine le_trans (le_of_eq ?_) k2
      rw [q0, neg_mul_neg]
    · refine le_trans (le_of_eq ?_) k1
      rw [q1, ← norm_neg]
      congr 1
      ring

-- 0 * 0, which panics now, and 0^3
example : (⟨[0]⟩ : Poly (Fl binary64)).mulRepaired ⟨[0, -0]⟩ = .ok ⟨[]⟩ ∧ (⟨[0]⟩ : Poly (Fl binary64)).mul ⟨[0, -0]⟩ = .panic := by
  decide +kernel
example : (⟨[]⟩ : Poly (Fl binary64)).powRepaired 3 = .ok ⟨[]⟩ := by decide +kernel
-- `3 * x^(2^32 + 1)` at `-1`, for which the code takes the first power, and at `1 + 2^-40`
example : (Sparse.new (BMap.empty.insert (2 ^ 32 + 1) (ofNat 3)) : Sparse (Fl binary64)).evalRepaired (-1) = -ofNat 3 := by
  decide +kernel
-- `x² + x + 1` with complex roots; the factors are finite
example : (match (QuadraticTrinomial.new 1 1 1 : QuadraticTrinomial (Fl binary64)).complexFactorsRepaired with
    | .ok (_, l, m) => l.c1.re.isFinite && l.c1.im.isFinite && m.c1.re.isFinite && m.c1.im.isFinite &&
        decide (l.c1.im.toRat ≠ 0) && decide (0 < l.c1.re.toRat)
    | _ => false) = true := by decide +kernel

end Fl
end Rustnomial
