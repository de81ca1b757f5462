import Verif.Props.MachineScalar
import Verif.Props.Fixed
import Verif.Props.ArrayPoly
import Verif.Props.Roots

/-!
# C79: fixed-size polynomials over machine integers

Monomials, binomials, trinomials and array polynomials in a build with overflow checks: which operations panic.
-/

open Polynomial

namespace Rustnomial

section
variable (t : IntTy)

theorem chk_upow (x : Int) {e : Nat} (he : e < 2 ^ 32) :
    Chk (t.InRange (x ^ e)) ((Arith2.machine true t).upow x e) (x ^ e) := by
  show Chk _ (t.result true (x ^ (e % 2 ^ 32))) _
  rw [Nat.mod_eq_of_lt he]
  exact chk_result t _

/-! ## Monomials -/

/-- C79, `Monomial::eval`: the power of the point must be a value of the type even when the coefficient is zero. -/
theorem C79_monomial_eval (m : Monomial Int) (x : Int) (hd : m.deg < 2 ^ 32) :
    (t.InRange (x ^ m.deg) ∧ t.InRange (m.poly.eval x) → m.evalM (.machine true t) x = .ok (m.poly.eval x)) ∧
    (¬ (t.InRange (x ^ m.deg) ∧ t.InRange (m.poly.eval x)) → m.evalM (.machine true t) x = .panic) := by
  have e : m.poly.eval x = m.coefficient * x ^ m.deg := by simp [Monomial.poly]
  rw [e]
  exact (chk_upow t x hd).bind (fun _ => chk_result t _)

/-- C79, `Monomial`: negation, product, scaling and power return exactly when the new coefficient is a value of
the type. -/
theorem C79_monomial_ops (m n : Monomial Int) (c : Int) (k : Nat) (hk : k < 2 ^ 32) :
    ((t.InRange (-m.coefficient) → ∃ r, m.negM (.machine true t) = .ok r ∧ r.poly = -m.poly) ∧
      (¬ t.InRange (-m.coefficient) → m.negM (.machine true t) = .panic)) ∧
    ((t.InRange (m.coefficient * n.coefficient) →
        ∃ r, m.mulM (.machine true t) n = .ok r ∧ r.poly = m.poly * n.poly) ∧
      (¬ t.InRange (m.coefficient * n.coefficient) → m.mulM (.machine true t) n = .panic)) ∧
    ((t.InRange (m.coefficient * c) → ∃ r, m.mulScalarM (.machine true t) c = .ok r ∧ r.poly = m.poly * C c) ∧
      (¬ t.InRange (m.coefficient * c) → m.mulScalarM (.machine true t) c = .panic)) ∧
    ((t.InRange (m.coefficient ^ k) → ∃ r, m.powM (.machine true t) k = .ok r ∧ r.poly = m.poly ^ k) ∧
      (¬ t.InRange (m.coefficient ^ k) → m.powM (.machine true t) k = .panic)) := by
  have h1 : Chk _ (m.negM (.machine true t)) _ := (chk_result t (-m.coefficient)).map (fun c => Monomial.new c m.deg)
  have h2 : Chk _ (m.mulM (.machine true t) n) _ :=
    (chk_result t (m.coefficient * n.coefficient)).map (fun c => Monomial.new c (m.deg + n.deg))
  have h3 : Chk _ (m.mulScalarM (.machine true t) c) _ :=
    (chk_result t (m.coefficient * c)).map (fun c => Monomial.new c m.deg)
  have h4 : Chk _ (m.powM (.machine true t) k) _ :=
    (chk_upow t m.coefficient hk).map (fun c => Monomial.new c (m.deg * k))
  refine ⟨⟨fun H => ⟨_, h1.1 H, ?_⟩, h1.2⟩, ⟨fun H => ⟨_, h2.1 H, ?_⟩, h2.2⟩, ⟨fun H => ⟨_, h3.1 H, ?_⟩, h3.2⟩,
    ⟨fun H => ⟨_, h4.1 H, ?_⟩, h4.2⟩⟩
  · simp [Monomial.poly, Monomial.new]
  · simp only [Monomial.poly, Monomial.new, C_mul]; ring
  · simp only [Monomial.poly, Monomial.new, C_mul]; ring
  · simp only [Monomial.poly, Monomial.new, C_pow]; ring

/-- C79, `Monomial / N`, with or without overflow checks. -/
theorem C79_monomial_div_scalar (chk : Bool) (m : Monomial Int) (c : Int) (hm : t.InRange m.coefficient) (hc : t.InRange c) :
    (c ≠ 0 ∧ ¬ (t.signed = true ∧ c = -1 ∧ m.coefficient = t.min) →
      ∃ r, m.divScalarM (.machine chk t) c = .ok r ∧ r.poly = C (m.coefficient.tdiv c) * X ^ m.deg) ∧
    (¬ (c ≠ 0 ∧ ¬ (t.signed = true ∧ c = -1 ∧ m.coefficient = t.min)) → m.divScalarM (.machine chk t) c = .panic) := by
  have h : Chk _ (m.divScalarM (.machine chk t) c) _ := (chk_div chk t m.coefficient c).map (fun c => Monomial.new c m.deg)
  have h' := h.of_iff (div_cond hm hc)
  exact ⟨fun H => ⟨_, h'.1 H, rfl⟩, h'.2⟩

/-- C79, `Monomial::derivative` on a machine with `uw`-bit `usize`. -/
theorem C79_monomial_derivative (uw : Nat) (hb : 1 ≤ t.bits) (m : Monomial Int) (hd : m.deg < 2 ^ uw) :
    (m.coefficient = 0 ∨ m.deg = 0 ∨ (t.InRange m.deg ∧ t.InRange (m.coefficient * m.deg)) →
      ∃ r, m.derivativeM (.machine true t) (tryFromUsizeExactInt uw t) = .ok r ∧ r.poly = derivative m.poly) ∧
    (¬ (m.coefficient = 0 ∨ m.deg = 0 ∨ (t.InRange m.deg ∧ t.InRange (m.coefficient * m.deg))) →
      m.derivativeM (.machine true t) (tryFromUsizeExactInt uw t) = .panic) := by
  obtain ⟨c, d⟩ := m
  unfold Monomial.derivativeM Monomial.degree
  simp only at hd ⊢
  by_cases hz : c = 0
  · rw [if_pos (by simpa using hz)]
    simp [hz, Monomial.poly, Monomial.zero, Monomial.new]
  · rw [if_neg (by simpa using hz)]
    cases d with
    | zero => simp [Monomial.poly, Monomial.zero, Monomial.new]
    | succ d =>
      have hu : tryFromUsizeExactInt uw t (d + 1) =
          if t.InRange ((d + 1 : Nat) : Int) then some ((d + 1 : Nat) : Int) else none :=
        tryFromUsizeContInt_eq uw t hb _ hd
      simp only [hz, false_or, Nat.add_eq_zero_iff, one_ne_zero, and_false, hu]
      by_cases hr : t.InRange ((d + 1 : Nat) : Int)
      · rw [if_pos hr]
        have h := (chk_result t (c * ((d + 1 : Nat) : Int))).map (fun c => Monomial.new c (d + 1 - 1))
        have h' := h.of_iff (Q := t.InRange ((d + 1 : Nat) : Int) ∧ t.InRange (c * ((d + 1 : Nat) : Int)))
          ⟨fun H => ⟨hr, H⟩, fun H => H.2⟩
        refine ⟨fun H => ⟨_, h'.1 H, ?_⟩, h'.2⟩
        simp [Monomial.poly, Monomial.new]
        ring
      · rw [if_neg hr]
        exact ⟨fun H => absurd H.1 hr, fun _ => rfl⟩

/-- C79, `Monomial::integral`, with or without overflow checks, on a machine with `uw`-bit `usize`. -/
theorem C79_monomial_integral (chk : Bool) (uw : Nat) (hb : 1 ≤ t.bits) (m : Monomial Int) (hm : t.InRange m.coefficient)
    (hd : m.deg + 1 < 2 ^ uw) :
    (m.coefficient = 0 ∨ t.InRange (m.deg + 1) →
      ∃ r, m.integralM (.machine chk t) (tryFromUsizeExactInt uw t) = .ok r ∧
        entriesPoly r.terms.entries = C (m.coefficient.tdiv (m.deg + 1)) * X ^ (m.deg + 1)) ∧
    (¬ (m.coefficient = 0 ∨ t.InRange (m.deg + 1)) →
      m.integralM (.machine chk t) (tryFromUsizeExactInt uw t) = .panic) := by
  obtain ⟨c, d⟩ := m
  unfold Monomial.integralM Monomial.degree
  simp only at hm hd ⊢
  by_cases hz : c = 0
  · rw [if_pos (by simpa using hz)]
    simp [hz, Sparse.zero, mapPoly_empty]
  · rw [if_neg (by simpa using hz)]
    have hu : tryFromUsizeExactInt uw t (d + 1) =
        if t.InRange ((d + 1 : Nat) : Int) then some ((d + 1 : Nat) : Int) else none :=
      tryFromUsizeContInt_eq uw t hb _ hd
    simp only [hz, false_or, hu]
    by_cases hr : t.InRange ((d + 1 : Nat) : Int)
    · rw [if_pos hr]
      dsimp only
      rw [div_nat_ok chk hm, Res.ok_bind]
      refine ⟨fun _ => ⟨_, rfl, ?_⟩, fun H => absurd (by exact_mod_cast hr) H⟩
      rw [C31_sparse_from_terms]
      simp [termsPoly]
    · rw [if_neg hr]
      exact ⟨fun H => absurd (by exact_mod_cast H) hr, fun _ => rfl⟩

/-- C79, `Monomial::try_add_term`: when the term has the monomial's degree, or the monomial is zero, the sum must be a value
of the type; otherwise the term is refused and nothing changes. -/
theorem C79_monomial_try_add (m : Monomial Int) (c : Int) (d : Nat) :
    (m.coefficient = 0 ∨ d = m.deg →
      (t.InRange (m.coefficient + c) →
        ∃ r, m.tryAddTermM (.machine true t) c d = .ok (r, .ok ()) ∧ r.poly = m.poly + C c * X ^ d) ∧
      (¬ t.InRange (m.coefficient + c) → m.tryAddTermM (.machine true t) c d = .panic)) ∧
    (¬ (m.coefficient = 0 ∨ d = m.deg) →
      m.tryAddTermM (.machine true t) c d = .ok (m, .error .tooManyTerms)) := by
  have hz : m.isZeroPoly = true ↔ m.coefficient = 0 := by
    unfold Monomial.isZeroPoly Monomial.degree
    by_cases h : m.coefficient = 0
    · rw [if_pos (by simpa using h)]; simp [h, Degree.isZeroPoly]
    · rw [if_neg (by simpa using h)]; simp [h, Degree.isZeroPoly]
  unfold Monomial.tryAddTermM
  by_cases h0 : m.coefficient = 0
  · rw [if_pos (hz.2 h0)]
    have h := (chk_result t (m.coefficient + c)).map (fun v => ((⟨v, d⟩ : Monomial Int), (Except.ok () : Except TryAddError Unit)))
    refine ⟨fun _ => ⟨fun H => ⟨_, h.1 H, ?_⟩, h.2⟩, fun H => absurd (.inl h0) H⟩
    simp [Monomial.poly, h0]
  · rw [if_neg (fun h => h0 (hz.1 h))]
    by_cases hd : d = m.deg
    · rw [if_pos hd]
      have h := (chk_result t (m.coefficient + c)).map
        (fun v => (({ m with coefficient := v } : Monomial Int), (Except.ok () : Except TryAddError Unit)))
      refine ⟨fun _ => ⟨fun H => ⟨_, h.1 H, ?_⟩, h.2⟩, fun H => absurd (.inr hd) H⟩
      simp only [Monomial.poly, hd, C_add]; ring
    · rw [if_neg hd]
      exact ⟨fun H => absurd H (by simp [h0, hd]), fun _ => rfl⟩

/-! ## Binomials -/

theorem linear_coeff {R : Type} [CommRing R] (a b : R) (d : Nat) :
    (C a * X + C b).coeff d = if d = 1 then a else if d = 0 then b else 0 := by
  match d with
  | 0 => simp
  | 1 => simp [coeff_C]
  | d + 2 => simp [coeff_X, coeff_C]

theorem quadratic_coeff {R : Type} [CommRing R] (a b c : R) (d : Nat) :
    (C a * X ^ 2 + C b * X + C c).coeff d = if d = 2 then a else if d = 1 then b else if d = 0 then c else 0 := by
  match d with
  | 0 => simp
  | 1 => simp [coeff_C, coeff_X_pow]
  | 2 => simp [coeff_C, coeff_X]
  | d + 3 => simp [coeff_X, coeff_C, coeff_X_pow]

variable {t} in
theorem linear_fits {P : ℤ[X]} {a b : Int} (e : P = C a * X + C b) :
    (∀ d, t.InRange (P.coeff d)) ↔ t.InRange a ∧ t.InRange b := by
  subst e
  simp only [linear_coeff]
  constructor
  · intro h
    exact ⟨by simpa using h 1, by simpa using h 0⟩
  · rintro ⟨ha, hb⟩ d
    have := t.zero_inRange
    split_ifs <;> assumption

/-- C79, `LinearBinomial::eval`. -/
theorem C79_linear_eval (b : LinearBinomial Int) (x : Int) :
    (t.InRange (x * b.c0) ∧ t.InRange (b.poly.eval x) → b.evalM (.machine true t) x = .ok (b.poly.eval x)) ∧
    (¬ (t.InRange (x * b.c0) ∧ t.InRange (b.poly.eval x)) → b.evalM (.machine true t) x = .panic) := by
  have e : b.poly.eval x = x * b.c0 + b.c1 := by simp [LinearBinomial.poly]; ring
  rw [e]
  exact (chk_result t (x * b.c0)).bind (fun _ => chk_result t _)

/-- C79, `LinearBinomial`: negation, sum, difference and scaling return the exact result when all its coefficients
are values of the type, and panic otherwise. -/
theorem C79_linear_ops (a b : LinearBinomial Int) (c : Int) :
    (((∀ d, t.InRange ((-a.poly).coeff d)) → ∃ r, a.negM (.machine true t) = .ok r ∧ r.poly = -a.poly) ∧
      (¬ (∀ d, t.InRange ((-a.poly).coeff d)) → a.negM (.machine true t) = .panic)) ∧
    (((∀ d, t.InRange ((a.poly + b.poly).coeff d)) →
        ∃ r, a.addM (.machine true t) b = .ok r ∧ r.poly = a.poly + b.poly) ∧
      (¬ (∀ d, t.InRange ((a.poly + b.poly).coeff d)) → a.addM (.machine true t) b = .panic)) ∧
    (((∀ d, t.InRange ((a.poly - b.poly).coeff d)) →
        ∃ r, a.subM (.machine true t) b = .ok r ∧ r.poly = a.poly - b.poly) ∧
      (¬ (∀ d, t.InRange ((a.poly - b.poly).coeff d)) → a.subM (.machine true t) b = .panic)) ∧
    (((∀ d, t.InRange ((a.poly * C c).coeff d)) →
        ∃ r, a.mulScalarM (.machine true t) c = .ok r ∧ r.poly = a.poly * C c) ∧
      (¬ (∀ d, t.InRange ((a.poly * C c).coeff d)) → a.mulScalarM (.machine true t) c = .panic)) := by
  have two : ∀ x y : Int, Chk (t.InRange x ∧ t.InRange y)
      (t.result true x >>= fun c0 => t.result true y >>= fun c1 => Res.ok (LinearBinomial.new c0 c1))
      (LinearBinomial.new x y) := fun x y =>
    (chk_result t x).bind (fun _ => (chk_result t y).map (fun c1 => LinearBinomial.new x c1))
  have e1 : -a.poly = C (-a.c0) * X + C (-a.c1) := by simp [LinearBinomial.poly]; ring
  have e2 : a.poly + b.poly = C (a.c0 + b.c0) * X + C (a.c1 + b.c1) := by simp [LinearBinomial.poly]; ring
  have e3 : a.poly - b.poly = C (a.c0 - b.c0) * X + C (a.c1 - b.c1) := by simp [LinearBinomial.poly]; ring
  have e4 : a.poly * C c = C (a.c0 * c) * X + C (a.c1 * c) := by simp [LinearBinomial.poly]; ring
  have h1 : Chk _ (a.negM (.machine true t)) _ := (two (-a.c0) (-a.c1)).of_iff (linear_fits e1).symm
  have h2 : Chk _ (a.addM (.machine true t) b) _ := (two (a.c0 + b.c0) (a.c1 + b.c1)).of_iff (linear_fits e2).symm
  have h3 : Chk _ (a.subM (.machine true t) b) _ := (two (a.c0 - b.c0) (a.c1 - b.c1)).of_iff (linear_fits e3).symm
  have h4 : Chk _ (a.mulScalarM (.machine true t) c) _ := (two (a.c0 * c) (a.c1 * c)).of_iff (linear_fits e4).symm
  exact ⟨⟨fun H => ⟨_, h1.1 H, e1.symm⟩, h1.2⟩, ⟨fun H => ⟨_, h2.1 H, e2.symm⟩, h2.2⟩,
    ⟨fun H => ⟨_, h3.1 H, e3.symm⟩, h3.2⟩, ⟨fun H => ⟨_, h4.1 H, e4.symm⟩, h4.2⟩⟩

/-- C79, `LinearBinomial / N`, with or without overflow checks. -/
theorem C79_linear_div_scalar (chk : Bool) (b : LinearBinomial Int) (c : Int) (h0 : t.InRange b.c0) (h1 : t.InRange b.c1)
    (hc : t.InRange c) :
    (c ≠ 0 ∧ ¬ (t.signed = true ∧ c = -1 ∧ (b.c0 = t.min ∨ b.c1 = t.min)) →
      b.divScalarM (.machine chk t) c = .ok ⟨b.c0.tdiv c, b.c1.tdiv c⟩) ∧
    (¬ (c ≠ 0 ∧ ¬ (t.signed = true ∧ c = -1 ∧ (b.c0 = t.min ∨ b.c1 = t.min))) →
      b.divScalarM (.machine chk t) c = .panic) := by
  have h : Chk _ (b.divScalarM (.machine chk t) c) _ := ((chk_div chk t b.c0 c).of_iff (div_cond h0 hc)).bind
    (fun _ => ((chk_div chk t b.c1 c).of_iff (div_cond h1 hc)).map (fun q => LinearBinomial.new (b.c0.tdiv c) q))
  exact h.of_iff (by tauto)

/-- C79, `LinearBinomial::integral`, with or without overflow checks: only a type without the value `2` panics. -/
theorem C79_linear_integral (chk : Bool) (uw : Nat) (hb : 1 ≤ t.bits) (hu : 2 < 2 ^ uw) (b : LinearBinomial Int)
    (h0 : t.InRange b.c0) :
    (t.InRange 2 → ∃ r, b.integralM (.machine chk t) (tryFromUsizeExactInt uw t) = .ok r ∧
      descPoly r.terms = C (b.c0.tdiv 2) * X ^ 2 + C b.c1 * X) ∧
    (¬ t.InRange 2 → b.integralM (.machine chk t) (tryFromUsizeExactInt uw t) = .panic) := by
  have hu2 : tryFromUsizeExactInt uw t 2 = if t.InRange ((2 : Nat) : Int) then some ((2 : Nat) : Int) else none :=
    tryFromUsizeContInt_eq uw t hb _ hu
  unfold LinearBinomial.integralM
  rw [hu2]
  by_cases hr : t.InRange ((2 : Nat) : Int)
  · rw [if_pos hr]
    dsimp only
    have := div_nat_ok (t := t) chk h0 1
    rw [show (((1 + 1 : Nat)) : Int) = ((2 : Nat) : Int) from rfl] at this
    rw [this, Res.ok_bind]
    refine ⟨fun _ => ⟨_, rfl, ?_⟩, fun H => absurd hr H⟩
    rw [C01_new_same_polynomial]
    simp [descPoly_cons]
  · rw [if_neg hr]
    exact ⟨fun H => absurd H hr, fun _ => rfl⟩

/-- C79, `LinearBinomial::try_add_term`. -/
theorem C79_linear_try_add (b : LinearBinomial Int) (c : Int) (d : Nat) :
    (d ≤ 1 →
      (t.InRange ((b.poly + C c * X ^ d).coeff d) →
        ∃ r, b.tryAddTermM (.machine true t) c d = .ok (r, .ok ()) ∧ r.poly = b.poly + C c * X ^ d) ∧
      (¬ t.InRange ((b.poly + C c * X ^ d).coeff d) → b.tryAddTermM (.machine true t) c d = .panic)) ∧
    (1 < d → b.tryAddTermM (.machine true t) c d = .ok (b, .error .degreeOutOfBounds)) := by
  refine ⟨fun hd => ?_, fun hd => ?_⟩
  · unfold LinearBinomial.tryAddTermM
    rw [if_pos hd]
    have h := (chk_result t ((if 1 - d = 0 then b.c0 else b.c1) + c)).map
        (fun v => (b.modify (1 - d) (fun _ => v), (Except.ok () : Except TryAddError Unit)))
    have e : (b.poly + C c * X ^ d).coeff d = (if 1 - d = 0 then b.c0 else b.c1) + c := by
      rw [coeff_add, LinearBinomial.poly, linear_coeff, coeff_C_mul, coeff_X_pow]
      interval_cases d <;> simp
    rw [e]
    refine ⟨fun H => ⟨_, h.1 H, ?_⟩, h.2⟩
    interval_cases d <;> simp [LinearBinomial.poly, LinearBinomial.modify] <;> ring
  · unfold LinearBinomial.tryAddTermM
    rw [if_neg (by omega)]

/-! ## Trinomials -/

variable {t} in
theorem quadratic_fits {P : ℤ[X]} {a b c : Int} (e : P = C a * X ^ 2 + C b * X + C c) :
    (∀ d, t.InRange (P.coeff d)) ↔ t.InRange a ∧ t.InRange b ∧ t.InRange c := by
  subst e
  simp only [quadratic_coeff]
  constructor
  · intro h
    exact ⟨by simpa using h 2, by simpa using h 1, by simpa using h 0⟩
  · rintro ⟨ha, hb, hc⟩ d
    have := t.zero_inRange
    split_ifs <;> assumption

/-- C79, `QuadraticTrinomial::eval`, by Horner's scheme. -/
theorem C79_quadratic_eval (q : QuadraticTrinomial Int) (x : Int) :
    (t.InRange (q.c0 * x) ∧ t.InRange (q.c0 * x + q.c1) ∧ t.InRange (x * (q.c0 * x + q.c1)) ∧ t.InRange (q.poly.eval x) →
      q.evalM (.machine true t) x = .ok (q.poly.eval x)) ∧
    (¬ (t.InRange (q.c0 * x) ∧ t.InRange (q.c0 * x + q.c1) ∧ t.InRange (x * (q.c0 * x + q.c1)) ∧
        t.InRange (q.poly.eval x)) → q.evalM (.machine true t) x = .panic) := by
  have e : q.poly.eval x = x * (q.c0 * x + q.c1) + q.c2 := by simp [QuadraticTrinomial.poly]; ring
  rw [e]
  exact (chk_result t (q.c0 * x)).bind fun _ => (chk_result t _).bind fun _ => (chk_result t _).bind fun _ =>
    chk_result t _

/-- C79, `QuadraticTrinomial`: negation, sum, difference and scaling return the exact result when all its
coefficients are values of the type, and panic otherwise. -/
theorem C79_quadratic_ops (a b : QuadraticTrinomial Int) (c : Int) :
    (((∀ d, t.InRange ((-a.poly).coeff d)) → ∃ r, a.negM (.machine true t) = .ok r ∧ r.poly = -a.poly) ∧
      (¬ (∀ d, t.InRange ((-a.poly).coeff d)) → a.negM (.machine true t) = .panic)) ∧
    (((∀ d, t.InRange ((a.poly + b.poly).coeff d)) →
        ∃ r, a.addM (.machine true t) b = .ok r ∧ r.poly = a.poly + b.poly) ∧
      (¬ (∀ d, t.InRange ((a.poly + b.poly).coeff d)) → a.addM (.machine true t) b = .panic)) ∧
    (((∀ d, t.InRange ((a.poly - b.poly).coeff d)) →
        ∃ r, a.subM (.machine true t) b = .ok r ∧ r.poly = a.poly - b.poly) ∧
      (¬ (∀ d, t.InRange ((a.poly - b.poly).coeff d)) → a.subM (.machine true t) b = .panic)) ∧
    (((∀ d, t.InRange ((a.poly * C c).coeff d)) →
        ∃ r, a.mulScalarM (.machine true t) c = .ok r ∧ r.poly = a.poly * C c) ∧
      (¬ (∀ d, t.InRange ((a.poly * C c).coeff d)) → a.mulScalarM (.machine true t) c = .panic)) := by
  have three : ∀ x y z : Int, Chk (t.InRange x ∧ t.InRange y ∧ t.InRange z)
      (t.result true x >>= fun c0 => t.result true y >>= fun c1 => t.result true z >>= fun c2 =>
        Res.ok (QuadraticTrinomial.new c0 c1 c2))
      (QuadraticTrinomial.new x y z) := fun x y z =>
    (chk_result t x).bind (fun _ => (chk_result t y).bind (fun _ => (chk_result t z).map
      (fun c2 => QuadraticTrinomial.new x y c2)))
  have e1 : -a.poly = C (-a.c0) * X ^ 2 + C (-a.c1) * X + C (-a.c2) := by simp [QuadraticTrinomial.poly]; ring
  have e2 : a.poly + b.poly = C (a.c0 + b.c0) * X ^ 2 + C (a.c1 + b.c1) * X + C (a.c2 + b.c2) := by
    simp [QuadraticTrinomial.poly]; ring
  have e3 : a.poly - b.poly = C (a.c0 - b.c0) * X ^ 2 + C (a.c1 - b.c1) * X + C (a.c2 - b.c2) := by
    simp [QuadraticTrinomial.poly]; ring
  have e4 : a.poly * C c = C (a.c0 * c) * X ^ 2 + C (a.c1 * c) * X + C (a.c2 * c) := by
    simp [QuadraticTrinomial.poly]; ring
  have h1 : Chk _ (a.negM (.machine true t)) _ := (three (-a.c0) (-a.c1) (-a.c2)).of_iff (quadratic_fits e1).symm
  have h2 : Chk _ (a.addM (.machine true t) b) _ :=
    (three (a.c0 + b.c0) (a.c1 + b.c1) (a.c2 + b.c2)).of_iff (quadratic_fits e2).symm
  have h3 : Chk _ (a.subM (.machine true t) b) _ :=
    (three (a.c0 - b.c0) (a.c1 - b.c1) (a.c2 - b.c2)).of_iff (quadratic_fits e3).symm
  have h4 : Chk _ (a.mulScalarM (.machine true t) c) _ :=
    (three (a.c0 * c) (a.c1 * c) (a.c2 * c)).of_iff (quadratic_fits e4).symm
  exact ⟨⟨fun H => ⟨_, h1.1 H, e1.symm⟩, h1.2⟩, ⟨fun H => ⟨_, h2.1 H, e2.symm⟩, h2.2⟩,
    ⟨fun H => ⟨_, h3.1 H, e3.symm⟩, h3.2⟩, ⟨fun H => ⟨_, h4.1 H, e4.symm⟩, h4.2⟩⟩

/-- C79, `QuadraticTrinomial / N`, with or without overflow checks. -/
theorem C79_quadratic_div_scalar (chk : Bool) (q : QuadraticTrinomial Int) (c : Int) (h0 : t.InRange q.c0)
    (h1 : t.InRange q.c1) (h2 : t.InRange q.c2) (hc : t.InRange c) :
    (c ≠ 0 ∧ ¬ (t.signed = true ∧ c = -1 ∧ (q.c0 = t.min ∨ q.c1 = t.min ∨ q.c2 = t.min)) →
      q.divScalarM (.machine chk t) c = .ok ⟨q.c0.tdiv c, q.c1.tdiv c, q.c2.tdiv c⟩) ∧
    (¬ (c ≠ 0 ∧ ¬ (t.signed = true ∧ c = -1 ∧ (q.c0 = t.min ∨ q.c1 = t.min ∨ q.c2 = t.min))) →
      q.divScalarM (.machine chk t) c = .panic) := by
  have h : Chk _ (q.divScalarM (.machine chk t) c) _ := ((chk_div chk t q.c0 c).of_iff (div_cond h0 hc)).bind
    (fun _ => ((chk_div chk t q.c1 c).of_iff (div_cond h1 hc)).bind (fun _ =>
      ((chk_div chk t q.c2 c).of_iff (div_cond h2 hc)).map
        (fun x => QuadraticTrinomial.new (q.c0.tdiv c) (q.c1.tdiv c) x)))
  exact h.of_iff (by tauto)

/-- C79, `QuadraticTrinomial::derivative`. -/
theorem C79_quadratic_derivative (uw : Nat) (hb : 1 ≤ t.bits) (hu : 2 < 2 ^ uw) (q : QuadraticTrinomial Int) :
    (t.InRange 2 ∧ t.InRange (q.c0 * 2) → ∃ r, q.derivativeM (.machine true t) (tryFromUsizeExactInt uw t) = .ok r ∧
      r.poly = derivative q.poly) ∧
    (¬ (t.InRange 2 ∧ t.InRange (q.c0 * 2)) → q.derivativeM (.machine true t) (tryFromUsizeExactInt uw t) = .panic) := by
  have hu2 : tryFromUsizeExactInt uw t 2 = if t.InRange ((2 : Nat) : Int) then some ((2 : Nat) : Int) else none :=
    tryFromUsizeContInt_eq uw t hb _ hu
  unfold QuadraticTrinomial.derivativeM
  rw [hu2]
  by_cases hr : t.InRange ((2 : Nat) : Int)
  · rw [if_pos hr]
    have h := ((chk_result t (q.c0 * 2)).map (fun x => QuadraticTrinomial.new 0 x q.c1)).of_iff
      (Q := t.InRange 2 ∧ t.InRange (q.c0 * 2)) ⟨fun H => ⟨hr, H⟩, fun H => H.2⟩
    refine ⟨fun H => ⟨_, h.1 H, ?_⟩, h.2⟩
    simp [QuadraticTrinomial.poly, QuadraticTrinomial.new]
    ring
  · rw [if_neg hr]
    exact ⟨fun H => absurd H.1 hr, fun _ => rfl⟩

/-- C79, `QuadraticTrinomial::integral`, with or without overflow checks: only a type without the value `3` panics. -/
theorem C79_quadratic_integral (chk : Bool) (uw : Nat) (hb : 1 ≤ t.bits) (hu : 3 < 2 ^ uw) (q : QuadraticTrinomial Int)
    (h0 : t.InRange q.c0) (h1 : t.InRange q.c1) :
    (t.InRange 3 → ∃ r, q.integralM (.machine chk t) (tryFromUsizeExactInt uw t) = .ok r ∧
      descPoly r.terms = C (q.c0.tdiv 3) * X ^ 3 + C (q.c1.tdiv 2) * X ^ 2 + C q.c2 * X) ∧
    (¬ t.InRange 3 → q.integralM (.machine chk t) (tryFromUsizeExactInt uw t) = .panic) := by
  have hu2 : tryFromUsizeExactInt uw t 2 = if t.InRange ((2 : Nat) : Int) then some ((2 : Nat) : Int) else none :=
    tryFromUsizeContInt_eq uw t hb _ (by omega)
  have hu3 : tryFromUsizeExactInt uw t 3 = if t.InRange ((3 : Nat) : Int) then some ((3 : Nat) : Int) else none :=
    tryFromUsizeContInt_eq uw t hb _ hu
  unfold QuadraticTrinomial.integralM
  rw [hu3]
  by_cases hr : t.InRange ((3 : Nat) : Int)
  · rw [if_pos hr]
    have hr2 : t.InRange ((2 : Nat) : Int) := by
      have := t.zero_inRange
      exact ⟨le_trans this.1 (by simp), le_trans (by simp) hr.2⟩
    rw [hu2, if_pos hr2]
    dsimp only
    have e2 := div_nat_ok (t := t) chk h1 1
    have e3 := div_nat_ok (t := t) chk h0 2
    rw [show (((1 + 1 : Nat)) : Int) = ((2 : Nat) : Int) from rfl] at e2
    rw [show (((2 + 1 : Nat)) : Int) = ((3 : Nat) : Int) from rfl] at e3
    rw [e3, Res.ok_bind, e2, Res.ok_bind]
    refine ⟨fun _ => ⟨_, rfl, ?_⟩, fun H => absurd hr H⟩
    rw [C01_new_same_polynomial]
    simp [descPoly_cons]; ring
  · rw [if_neg hr]
    exact ⟨fun H => absurd H hr, fun _ => rfl⟩

/-- C79, `QuadraticTrinomial::try_add_term`. -/
theorem C79_quadratic_try_add (b : QuadraticTrinomial Int) (c : Int) (d : Nat) :
    (d ≤ 2 →
      (t.InRange ((b.poly + C c * X ^ d).coeff d) →
        ∃ r, b.tryAddTermM (.machine true t) c d = .ok (r, .ok ()) ∧ r.poly = b.poly + C c * X ^ d) ∧
      (¬ t.InRange ((b.poly + C c * X ^ d).coeff d) → b.tryAddTermM (.machine true t) c d = .panic)) ∧
    (2 < d → b.tryAddTermM (.machine true t) c d = .ok (b, .error .degreeOutOfBounds)) := by
  refine ⟨fun hd => ?_, fun hd => ?_⟩
  · unfold QuadraticTrinomial.tryAddTermM
    rw [if_pos hd]
    have h := (chk_result t ((if 2 - d = 0 then b.c0 else if 2 - d = 1 then b.c1 else b.c2) + c)).map
        (fun v => (b.modify (2 - d) (fun _ => v), (Except.ok () : Except TryAddError Unit)))
    have e : (b.poly + C c * X ^ d).coeff d = (if 2 - d = 0 then b.c0 else if 2 - d = 1 then b.c1 else b.c2) + c := by
      rw [coeff_add, QuadraticTrinomial.poly, quadratic_coeff, coeff_C_mul, coeff_X_pow]
      interval_cases d <;> simp
    rw [e]
    refine ⟨fun H => ⟨_, h.1 H, ?_⟩, h.2⟩
    interval_cases d <;> simp [QuadraticTrinomial.poly, QuadraticTrinomial.modify] <;> ring
  · unfold QuadraticTrinomial.tryAddTermM
    rw [if_neg (by omega)]

/-- C79, `QuadraticTrinomial::discriminant`. -/
theorem C79_quadratic_discriminant (q : QuadraticTrinomial Int) :
    (t.InRange (q.c1 ^ 2) ∧ t.InRange (q.c0 * q.c2) ∧ t.InRange (4 * q.c0 * q.c2) ∧
        t.InRange (discrim q.c0 q.c1 q.c2) → q.discriminantM (.machine true t) = .ok (discrim q.c0 q.c1 q.c2)) ∧
    (¬ (t.InRange (q.c1 ^ 2) ∧ t.InRange (q.c0 * q.c2) ∧ t.InRange (4 * q.c0 * q.c2) ∧
        t.InRange (discrim q.c0 q.c1 q.c2)) → q.discriminantM (.machine true t) = .panic) := by
  have h : Chk _ (q.discriminantM (.machine true t)) _ := (chk_result t (q.c1 * q.c1)).bind fun _ =>
    (chk_result t (q.c0 * q.c2)).bind fun _ => (chk_result t (q.c0 * q.c2 * 4)).bind fun _ => chk_result t _
  have e1 : q.c1 * q.c1 = q.c1 ^ 2 := by ring
  have e2 : q.c0 * q.c2 * 4 = 4 * q.c0 * q.c2 := by ring
  rw [e1, e2] at h
  exact h

/-- C79, `QuadraticTrinomial::roots` for a signed type of even width at least four, with overflow checks: it returns
exactly when the leading coefficient `a` is not zero and `b²`, `4ac`, the discriminant and `2a` are values of the type.  No
other operation overflows. -/
theorem C79_quadratic_roots (h : Nat) (hh : 2 ≤ h) (q : QuadraticTrinomial Int) :
    (q.c0 ≠ 0 ∧ (⟨true, 2 * h⟩ : IntTy).InRange (q.c1 ^ 2) ∧ (⟨true, 2 * h⟩ : IntTy).InRange (4 * q.c0 * q.c2) ∧
        (⟨true, 2 * h⟩ : IntTy).InRange (discrim q.c0 q.c1 q.c2) ∧ (⟨true, 2 * h⟩ : IntTy).InRange (2 * q.c0) →
      ∀ fuel, (discrim q.c0 q.c1 q.c2).natAbs + 2 ≤ fuel →
        ∃ m s : Int, m = (-q.c1).tdiv (2 * q.c0) ∧
          s = ((discrim q.c0 q.c1 q.c2).natAbs.sqrt : Int).tdiv (2 * q.c0) ∧
          q.rootsM (.machine true ⟨true, 2 * h⟩) true (2 * h) fuel = .ok (
            if discrim q.c0 q.c1 q.c2 < 0 then .twoComplexRoots ⟨m, s⟩ ⟨m, -s⟩ else .twoRealRoots (m + s) (m - s))) ∧
    (¬ (q.c0 ≠ 0 ∧ (⟨true, 2 * h⟩ : IntTy).InRange (q.c1 ^ 2) ∧ (⟨true, 2 * h⟩ : IntTy).InRange (4 * q.c0 * q.c2) ∧
        (⟨true, 2 * h⟩ : IntTy).InRange (discrim q.c0 q.c1 q.c2) ∧ (⟨true, 2 * h⟩ : IntTy).InRange (2 * q.c0)) →
      ∀ fuel, q.rootsM (.machine true ⟨true, 2 * h⟩) true (2 * h) fuel = .panic) := by
  have hd := C79_quadratic_discriminant ⟨true, 2 * h⟩ q
  obtain ⟨a, b, c⟩ := q
  simp only at hd ⊢
  set D := discrim a b c with hD
  have rng : ∀ v : Int, (⟨true, 2 * h⟩ : IntTy).InRange v ↔ -2 ^ (2 * h - 1) ≤ v ∧ v < 2 ^ (2 * h - 1) := by
    intro v; simp only [IntTy.InRange, IntTy.min, IntTy.max, if_true]; omega
  have hpos : (8 : Int) ≤ 2 ^ (2 * h - 1) := by
    have : (2 : Int) ^ 3 ≤ 2 ^ (2 * h - 1) := pow_le_pow_right₀ (by norm_num) (by omega)
    simpa using this
  constructor
  · rintro ⟨ha, hb2, h4, hDr, h2a⟩ fuel hf
    refine ⟨_, _, rfl, rfl, ?_⟩
    have hac : (⟨true, 2 * h⟩ : IntTy).InRange (a * c) := by
      rw [rng] at h4 ⊢
      have : 4 * a * c = 4 * (a * c) := by ring
      omega
    rw [rng] at hb2 h4
    have hbabs : b.natAbs < 2 ^ (2 * h - 1) := by
      have h1 : b.natAbs ≤ b.natAbs ^ 2 := Nat.le_self_pow (by norm_num) _
      have h2 : ((b.natAbs ^ 2 : Nat) : Int) = b ^ 2 := by push_cast; exact sq_abs b
      have h3 : ((2 ^ (2 * h - 1) : Nat) : Int) = 2 ^ (2 * h - 1) := by push_cast; rfl
      omega
    have h3 : ((2 ^ (2 * h - 1) : Nat) : Int) = 2 ^ (2 * h - 1) := by push_cast; rfl
    have hDval : D = b ^ 2 - 4 * a * c := rfl
    have hDmin : D ≠ (⟨true, 2 * h⟩ : IntTy).min := by
      simp only [IntTy.min, if_true]
      have := sq_nonneg b
      omega
    have hDabs : D.natAbs < 2 ^ (2 * h - 1) := by
      simp only [IntTy.min, if_true] at hDmin
      rw [rng] at hDr
      omega
    have hsq : D.natAbs.sqrt < 2 ^ (2 * h - 1) := lt_of_le_of_lt (Nat.sqrt_le_self _) hDabs
    have h2a0 : a * 2 ≠ 0 := by omega
    have half : ∀ x : Int, 2 * (x.tdiv (a * 2)).natAbs ≤ x.natAbs := by
      intro x
      rw [Int.natAbs_tdiv]
      have : x.natAbs / (a * 2).natAbs ≤ x.natAbs / 2 := Nat.div_le_div_left (by omega) (by norm_num)
      show 2 * (x.natAbs / (a * 2).natAbs) ≤ _
      omega
    have hm := half (-b)
    have hs := half (D.natAbs.sqrt : Int)
    rw [Int.natAbs_neg] at hm
    rw [Int.natAbs_natCast] at hs
    have e2 : a * 2 = 2 * a := by ring
    have r1 : (Arith2.machine true ⟨true, 2 * h⟩).mul a 2 = .ok (2 * a) := by
      rw [← e2] at h2a ⊢; exact (chk_result _ _).1 h2a
    have r2 : (Arith2.machine true ⟨true, 2 * h⟩).neg b = .ok (-b) :=
      (chk_result _ _).1 ((rng _).2 (by omega))
    have r3 : (Arith2.machine true ⟨true, 2 * h⟩).div (-b) (2 * a) = .ok ((-b).tdiv (2 * a)) := by
      rw [← e2]; exact (chk_div true _ _ _).1 ⟨h2a0, (rng _).2 (by omega)⟩
    have r4 : (Arith2.machine true ⟨true, 2 * h⟩).div (D.natAbs.sqrt : Int) (2 * a) = .ok ((D.natAbs.sqrt : Int).tdiv (2 * a)) := by
      rw [← e2]; exact (chk_div true _ _ _).1 ⟨h2a0, (rng _).2 (by omega)⟩
    rw [e2] at hm hs
    generalize (-b).tdiv (2 * a) = m at *
    have r0 := C40_signed true h D hh hDr hDmin fuel hf
    unfold QuadraticTrinomial.rootsM
    rw [show (QuadraticTrinomial.discriminantM (Arith2.machine true ⟨true, 2 * h⟩).toArith ⟨a, b, c⟩) = .ok D from
      hd.1 ⟨(rng _).2 hb2, hac, (rng _).2 h4, hDr⟩, Res.ok_bind]
    dsimp only
    rw [r1, Res.ok_bind, r2, Res.ok_bind, r3, Res.ok_bind]
    by_cases hD0 : D = 0
    · rw [if_pos hD0, if_neg (by omega)]
      rw [hD0]; simp
    · rw [if_neg hD0, r0, Res.ok_bind, r4, Res.ok_bind]
      generalize (D.natAbs.sqrt : Int).tdiv (2 * a) = s at *
      by_cases hDn : D < 0
      · rw [if_pos hDn, if_neg (by simp [isPositiveInt]; omega)]
        rw [show (Arith2.machine true ⟨true, 2 * h⟩).neg s = .ok (-s) from (chk_result _ _).1 ((rng _).2 (by omega)),
          Res.ok_bind]
      · rw [if_neg hDn, if_pos (by simp [isPositiveInt]; omega)]
        rw [show (Arith2.machine true ⟨true, 2 * h⟩).add m s = .ok (m + s) from (chk_result _ _).1 ((rng _).2 (by omega)),
          Res.ok_bind,
          show (Arith2.machine true ⟨true, 2 * h⟩).sub m s = .ok (m - s) from (chk_result _ _).1 ((rng _).2 (by omega)),
          Res.ok_bind]
  · intro hn fuel
    unfold QuadraticTrinomial.rootsM
    by_cases hdc : (⟨true, 2 * h⟩ : IntTy).InRange (b ^ 2) ∧ (⟨true, 2 * h⟩ : IntTy).InRange (a * c) ∧
        (⟨true, 2 * h⟩ : IntTy).InRange (4 * a * c) ∧ (⟨true, 2 * h⟩ : IntTy).InRange D
    · rw [show (QuadraticTrinomial.discriminantM (Arith2.machine true ⟨true, 2 * h⟩).toArith ⟨a, b, c⟩) = .ok D from
        hd.1 hdc, Res.ok_bind]
      dsimp only
      by_cases h2a : (⟨true, 2 * h⟩ : IntTy).InRange (a * 2)
      · have ha : a = 0 := by
          by_contra ha
          exact hn ⟨ha, hdc.1, hdc.2.2.1, hdc.2.2.2, by rwa [mul_comm 2 a]⟩
        rw [show (Arith2.machine true ⟨true, 2 * h⟩).mul a 2 = .ok (a * 2) from (chk_result _ _).1 h2a, Res.ok_bind]
        have hn' : (Arith2.machine true ⟨true, 2 * h⟩).neg b = .ok (-b) ∨
            (Arith2.machine true ⟨true, 2 * h⟩).neg b = .panic := by
          by_cases hb : (⟨true, 2 * h⟩ : IntTy).InRange (-b)
          · exact .inl ((chk_result _ _).1 hb)
          · exact .inr ((chk_result _ _).2 hb)
        rcases hn' with hn' | hn'
        · rw [hn', Res.ok_bind, show (Arith2.machine true ⟨true, 2 * h⟩).div (-b) (a * 2) = .panic from
            (chk_div true _ _ _).2 (by simp [ha])]
          rfl
        · rw [hn']; rfl
      · rw [show (Arith2.machine true ⟨true, 2 * h⟩).mul a 2 = .panic from (chk_result _ _).2 h2a]
        rfl
    · rw [show (QuadraticTrinomial.discriminantM (Arith2.machine true ⟨true, 2 * h⟩).toArith ⟨a, b, c⟩) = .panic from
        hd.2 hdc]
      rfl

/-! ## Array polynomials -/

variable {size : Nat}

/-- C79, `ArrayPolynomial::eval`, by Horner's scheme: every partial value, and its product by the point, must be a value
of the type. -/
theorem C79_array_eval (p : ArrayPoly Int size) (x : Int) :
    ((x = 0 ∨ ∀ e, t.InRange ((divX^[e] (descPoly p.coefficients)).eval x) ∧
        (0 < e → t.InRange ((divX^[e] (descPoly p.coefficients)).eval x * x))) →
      p.evalM (.machine true t) x = .ok ((descPoly p.coefficients).eval x)) ∧
    (¬ (x = 0 ∨ ∀ e, t.InRange ((divX^[e] (descPoly p.coefficients)).eval x) ∧
        (0 < e → t.InRange ((divX^[e] (descPoly p.coefficients)).eval x * x))) →
      p.evalM (.machine true t) x = .panic) := by
  have e : p.evalM (.machine true t) x = (⟨p.coefficients⟩ : Poly Int).evalM (.machine true t) x := by
    unfold ArrayPoly.evalM Poly.evalM
    simp
    rfl
  rw [e]
  exact C56_eval t ⟨p.coefficients⟩ x

/-- C79, `ArrayPolynomial::derivative` on a machine with `uw`-bit `usize`: the type must represent the size of the array,
and every coefficient of the derivative. -/
theorem C79_array_derivative (uw : Nat) (hb : 1 ≤ t.bits) (hu : size < 2 ^ uw) (p : ArrayPoly Int size) :
    (t.InRange size ∧ (∀ d, t.InRange ((derivative (descPoly p.coefficients)).coeff d)) →
      ∃ r, p.derivativeM (.machine true t) (tryFromUsizeContInt uw t) = .ok r ∧ r.length = size ∧
        descPoly r = derivative (descPoly p.coefficients)) ∧
    (¬ (t.InRange size ∧ (∀ d, t.InRange ((derivative (descPoly p.coefficients)).coeff d))) →
      p.derivativeM (.machine true t) (tryFromUsizeContInt uw t) = .panic) := by
  have loop : ∀ (l : List Int) (n : Nat) (d : Int), ArrayPoly.derivLoopM (.machine true t) l n d =
      Poly.derivLoopM (.machine true t) (l.take n) d := by
    intro l
    induction l with
    | nil => intro n d; cases n <;> rfl
    | cons x l ih =>
      intro n d
      cases n with
      | zero => rfl
      | succ n =>
        simp only [ArrayPoly.derivLoopM, List.take_succ_cons, Poly.derivLoopM, ih]
        congr 1; funext d'
        rw [show (Arith.machine true t).mul d' x = (Arith.machine true t).mul x d' by
          show t.result true (d' * x) = t.result true (x * d'); rw [mul_comm]]
  have hl := p.length_eq
  unfold ArrayPoly.derivativeM
  rw [tryFromUsizeContInt_eq uw t hb _ hu]
  by_cases hr : t.InRange (size : Int)
  · rw [if_pos hr]
    dsimp only
    by_cases h1 : size ≥ 1
    · rw [if_pos h1, loop]
      obtain ⟨n, rfl⟩ : ∃ n, size = n + 1 := ⟨size - 1, by omega⟩
      have hne : p.coefficients ≠ [] := by intro e; rw [e] at hl; simp at hl
      obtain ⟨ini, c, hc⟩ : ∃ ini c, p.coefficients = ini ++ [c] :=
        ⟨_, _, (List.dropLast_append_getLast hne).symm⟩
      have hi : ini.length = n := by rw [hc] at hl; simpa using hl
      have ht : p.coefficients.take (n + 1 - 1) = ini := by
        rw [hc, Nat.add_sub_cancel, ← hi, List.take_left' rfl]
      rw [ht, hc]
      have ck := (chk_derivLoopM t hb ini (n + 1) (by omega) hr).map (fun vs => (0 : Int) :: vs)
      have e := derivLoop_poly ini c
      rw [hi] at e
      unfold AllIn at ck
      rw [inRange_descPoly, e] at ck
      refine ⟨fun H => ⟨_, ck.1 H.2, by simp [derivLoop_length, hi], ?_⟩, fun H => ck.2 (fun h => H ⟨hr, h⟩)⟩
      rw [descPoly_cons, C_0, zero_mul, zero_add, e]
    · rw [if_neg h1]
      have h0 : p.coefficients = [] := List.eq_nil_of_length_eq_zero (by omega)
      refine ⟨fun _ => ⟨_, rfl, by simp; omega, by simp [h0]⟩, fun H => absurd ⟨hr, ?_⟩ H⟩
      intro d; simp [h0, t.zero_inRange]
  · rw [if_neg hr]
    exact ⟨fun H => absurd H.1 hr, fun _ => rfl⟩

/-- C79, `ArrayPolynomial::integral`, with or without overflow checks: only a type which cannot represent the size of the
array panics, whatever the polynomial's degree. -/
theorem C79_array_integral (chk : Bool) (uw : Nat) (hb : 1 ≤ t.bits) (hu : size < 2 ^ uw) (p : ArrayPoly Int size)
    (hp : ∀ x ∈ p.coefficients, t.InRange x) :
    (t.InRange size →
      ∃ r, p.integralM (.machine chk t) (tryFromUsizeContInt uw t) = .ok r ∧ (descPoly r.terms).coeff 0 = 0 ∧
        ∀ d, (descPoly r.terms).coeff (d + 1) = ((descPoly p.coefficients).coeff d).tdiv (d + 1)) ∧
    (¬ t.InRange size → p.integralM (.machine chk t) (tryFromUsizeContInt uw t) = .panic) := by
  unfold ArrayPoly.integralM
  rw [tryFromUsizeContInt_eq uw t hb _ hu]
  by_cases hr : t.InRange (size : Int)
  · rw [if_pos hr]
    dsimp only
    have hl := p.length_eq
    have hr' : t.InRange (p.coefficients.length : Int) := by rw [hl]; exact hr
    have h := integLoopM_machine chk hb p.coefficients hp hr'
    obtain ⟨ts, h1, _, h3⟩ := integLoop_int p.coefficients
    rw [hl] at h h1
    rw [h, Poly.integLoopM_exact, h1, Res.ok_bind]
    refine ⟨fun _ => ⟨_, rfl, ?_, ?_⟩, fun H => absurd hr H⟩
    · simp [descPoly_append, descPoly_cons]
    · intro d
      have : descPoly (ts ++ [0]) = descPoly ts * X := by simp [descPoly_append, descPoly_cons]
      rw [this, coeff_mul_X, h3]
  · rw [if_neg hr]
    exact ⟨fun H => absurd H hr, fun _ => rfl⟩

/-- C79, `ArrayPolynomial::try_add_term`. -/
theorem C79_array_try_add (p : ArrayPoly Int size) (c : Int) (d : Nat) :
    (d < size →
      (t.InRange ((descPoly p.coefficients).coeff d + c) →
        ∃ r, p.tryAddTermM (.machine true t) c d = .ok (r, .ok ()) ∧ r.length = size ∧
          descPoly r = descPoly p.coefficients + C c * X ^ d) ∧
      (¬ t.InRange ((descPoly p.coefficients).coeff d + c) → p.tryAddTermM (.machine true t) c d = .panic)) ∧
    (size ≤ d → p.tryAddTermM (.machine true t) c d = .ok (p.coefficients, .error .degreeOutOfBounds)) := by
  have hl := p.length_eq
  refine ⟨fun hd => ?_, fun hd => ?_⟩
  · unfold ArrayPoly.tryAddTermM
    rw [if_pos hd]
    have hlt : size - d - 1 < p.coefficients.length := by omega
    have h := (chk_modifyM (f := fun x => (Arith.machine true t).add x c) (fun x => chk_result t (x + c)) p.coefficients
      (size - d - 1) hlt).map (fun l => (l, (Except.ok () : Except TryAddError Unit)))
    have e : (descPoly p.coefficients).coeff d = p.coefficients[size - d - 1] := by
      rw [coeff_descPoly_of_lt (by omega), List.getD_eq_getElem _ _ (by omega)]
      congr 1; omega
    rw [e]
    refine ⟨fun H => ⟨_, h.1 H, by simp [hl], ?_⟩, h.2⟩
    ext k
    rw [coeff_add, coeff_C_mul, coeff_X_pow]
    by_cases hk : k < size
    · rw [coeff_descPoly_of_lt (by simpa [hl] using hk), coeff_descPoly_of_lt (by omega),
        List.getD_eq_getElem _ _ (by simp; omega), List.getD_eq_getElem _ _ (by omega), List.getElem_modify]
      simp only [List.length_modify, hl]
      by_cases hkd : k = d
      · subst hkd; simp
      · rw [if_neg (by omega), if_neg hkd]; simp
    · rw [coeff_descPoly_of_le (by simp [hl]; omega), coeff_descPoly_of_le (by omega), if_neg (by omega)]; simp
  · unfold ArrayPoly.tryAddTermM
    rw [if_neg (by omega)]

end

-- Non-vacuity, on `i8` (`h = 4`) and `u8`: at the ends of the range, and beyond.
example : (Monomial.new 1 7 : Monomial Int).evalM (.machine true ⟨true, 8⟩) (-2) = .ok (-128) ∧
    (Monomial.new 1 7 : Monomial Int).evalM (.machine true ⟨true, 8⟩) 2 = .panic ∧
    (Monomial.new 0 7 : Monomial Int).evalM (.machine true ⟨true, 8⟩) 2 = .panic ∧
    (Monomial.new (-1) 7 : Monomial Int).evalM (.machine true ⟨true, 8⟩) (-2) = .panic := by decide
example : (Monomial.new (-2) 3 : Monomial Int).powM (.machine true ⟨true, 8⟩) 7 = .ok (Monomial.new (-128) 21) ∧
    (Monomial.new (-2) 3 : Monomial Int).powM (.machine true ⟨true, 8⟩) 8 = .panic ∧
    (Monomial.new (-128) 3 : Monomial Int).divScalarM (.machine false ⟨true, 8⟩) (-1) = .panic ∧
    (Monomial.new 5 3 : Monomial Int).tryAddTermM (.machine true ⟨false, 8⟩) 250 3 = .ok (Monomial.new 255 3, .ok ()) ∧
    (Monomial.new 5 3 : Monomial Int).tryAddTermM (.machine true ⟨false, 8⟩) 251 3 = .panic := by decide
example : (Monomial.new 1 127 : Monomial Int).derivativeM (.machine true ⟨true, 8⟩) (tryFromUsizeExactInt 64 ⟨true, 8⟩) =
      .ok (Monomial.new 127 126) ∧
    (Monomial.new 1 128 : Monomial Int).derivativeM (.machine true ⟨true, 8⟩) (tryFromUsizeExactInt 64 ⟨true, 8⟩) = .panic ∧
    (Monomial.new 0 128 : Monomial Int).derivativeM (.machine true ⟨true, 8⟩) (tryFromUsizeExactInt 64 ⟨true, 8⟩) =
      .ok (Monomial.new 0 0) := by decide
example : (⟨100, 27⟩ : LinearBinomial Int).evalM (.machine true ⟨true, 8⟩) 1 = .ok 127 ∧
    (⟨100, -100⟩ : LinearBinomial Int).evalM (.machine true ⟨true, 8⟩) 2 = .panic ∧
    (⟨100, 27⟩ : LinearBinomial Int).addM (.machine true ⟨true, 8⟩) ⟨27, 100⟩ = .ok ⟨127, 127⟩ ∧
    (⟨100, 27⟩ : LinearBinomial Int).addM (.machine true ⟨true, 8⟩) ⟨27, 101⟩ = .panic := by decide
-- x² - 3x + 2 has roots 2 and 1; `i8` overflows in `b²`, in `4ac`, and for `a = 64` in `2a`; x² + 2x + 5 has -1 ± 2i.
example : (⟨1, -3, 2⟩ : QuadraticTrinomial Int).rootsM (.machine true ⟨true, 8⟩) true 8 10 = .ok (.twoRealRoots 1 1) ∧
    (⟨1, -4, 3⟩ : QuadraticTrinomial Int).rootsM (.machine true ⟨true, 8⟩) true 8 10 = .ok (.twoRealRoots 3 1) ∧
    (⟨1, 2, 5⟩ : QuadraticTrinomial Int).rootsM (.machine true ⟨true, 8⟩) true 8 20 =
      .ok (.twoComplexRoots ⟨-1, 2⟩ ⟨-1, -2⟩) ∧
    (⟨1, 12, 36⟩ : QuadraticTrinomial Int).rootsM (.machine true ⟨true, 8⟩) true 8 20 = .panic ∧
    (⟨64, 0, 0⟩ : QuadraticTrinomial Int).rootsM (.machine true ⟨true, 8⟩) true 8 20 = .panic := by decide
example : (⟨[0, 0, 42, 7], rfl⟩ : ArrayPoly Int 4).derivativeM (.machine true ⟨true, 8⟩)
      (tryFromUsizeContInt 64 ⟨true, 8⟩) = .ok [0, 0, 0, 42] ∧
    (⟨[43, 0, 0, 7], rfl⟩ : ArrayPoly Int 4).derivativeM (.machine true ⟨true, 8⟩)
      (tryFromUsizeContInt 64 ⟨true, 8⟩) = .panic ∧
    (⟨[0, 0, 42, 7], rfl⟩ : ArrayPoly Int 4).tryAddTermM (.machine true ⟨true, 8⟩) 86 1 = .panic ∧
    (⟨[0, 0, 42, 7], rfl⟩ : ArrayPoly Int 4).tryAddTermM (.machine true ⟨true, 8⟩) 85 1 = .ok ([0, 0, 127, 7], .ok ()) := by
  decide
end Rustnomial
