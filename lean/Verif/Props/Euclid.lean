import Verif.Model.Euclid
import Verif.SpecEuclid
import Verif.Props.DenseDiv
import Verif.Props.DenseMul
import Verif.Props.DenseCalc
import Verif.Props.SparseDiv
import Verif.Props.Assign
import Mathlib.FieldTheory.Perfect

/-!
# C123: Euclid's algorithm with the operators, over a field
-/

open Polynomial

set_option linter.unusedSectionVars false

namespace Rustnomial

section
variable {K : Type} [CommRing K] [NumZero K] [LawfulNumZero K] [RDiv K]

/-! ## Lengths of remainders -/

theorem euclid_remAssignLoop_length {b : List K} {rf : K} {rd : Nat} (hb : firstTerm b = .term rf rd) :
    ∀ (fuel : Nat) (s c : K) (sd : Nat) (terms out : List K), firstTerm terms = .term c sd →
      Poly.remAssignLoop b rf rd fuel s sd terms = .ok out → out.length = terms.length := by
  intro fuel
  induction fuel with
  | zero => intro s c sd terms out _ h; simp [Poly.remAssignLoop] at h
  | succ fuel ih =>
    intro s c sd terms out hr h
    unfold Poly.remAssignLoop at h
    by_cases hle : rd ≤ sd
    · obtain ⟨rem', hv, hvl, _⟩ := vecSubWScale_poly s hr hb hle
      simp only [if_pos hle, hv, Res.ok_bind] at h
      cases hf : firstTerm rem' with
      | zeroTerm => simp only [hf] at h; injection h with h; rw [← h, hvl]
      | term c' sd' =>
        simp only [hf] at h
        obtain ⟨s', _, h⟩ := Res.bind_eq_ok.1 h
        rw [ih s' c' sd' rem' out hf h, hvl]
    · rw [if_neg hle] at h
      injection h with h; rw [h]

theorem remAssign_length {p b r : Poly K} {fuel : Nat} (h : p.remAssign fuel b = .ok r) : r.terms.length = p.terms.length := by
  unfold Poly.remAssign at h
  cases hb : firstTerm b.terms with
  | zeroTerm => simp [hb] at h
  | term rf rd =>
    cases hp : firstTerm p.terms with
    | zeroTerm => simp only [hb, hp] at h; injection h with h; rw [h]
    | term c d =>
      simp only [hb, hp] at h
      split at h
      · injection h with h; rw [h]
      · obtain ⟨s, _, h⟩ := Res.bind_eq_ok.1 h
        obtain ⟨out, h1, h⟩ := Res.bind_eq_ok.1 h
        injection h with h
        rw [← h]
        exact euclid_remAssignLoop_length hb fuel s c d _ out hp h1

theorem degree_lt_length (l : List K) : (descPoly l).degree < (l.length : WithBot ℕ) := by
  cases h : firstTerm l with
  | zeroTerm => rw [firstTerm_zero_poly.1 h, degree_zero]; exact WithBot.bot_lt_coe _
  | term c d =>
    obtain ⟨_, _, _, h3, _⟩ := firstTerm_term h
    rw [(firstTerm_poly h).2.1]
    exact_mod_cast h3

end

section
variable {K : Type} [Field K] [NumZero K] [LawfulNumZero K] [RDiv K] [LawfulRDiv K]

theorem euclid_divModLoop_length {b : List K} {rf : K} {rd off : Nat} (hb : firstTerm b = .term rf rd) :
    ∀ (fuel : Nat) (c : K) (sd : Nat) (terms div out div' : List K), firstTerm terms = .term c sd →
      Poly.divModLoop b rf rd off fuel c sd terms div = .ok (div', out) → out.length = terms.length := by
  intro fuel
  induction fuel with
  | zero => intro c sd terms div out div' _ h; simp [Poly.divModLoop] at h
  | succ fuel ih =>
    intro c sd terms div out div' hr h
    unfold Poly.divModLoop at h
    by_cases hle : rd ≤ sd
    · rw [if_pos hle] at h
      obtain ⟨s, _, h⟩ := Res.bind_eq_ok.1 h
      obtain ⟨rem', hv, hvl, _⟩ := vecSubWScale_poly s hr hb hle
      rw [hv, Res.ok_bind] at h
      obtain ⟨i, _, h⟩ := Res.bind_eq_ok.1 h
      split at h
      · cases hf : firstTerm rem' with
        | zeroTerm => simp only [hf] at h; injection h with h; injection h with _ h; rw [← h, hvl]
        | term c' sd' =>
          simp only [hf] at h
          rw [ih c' sd' rem' _ out div' hf h, hvl]
      · simp at h
    · rw [if_neg hle] at h
      injection h with h; injection h with _ h; rw [h]

theorem divMod_length {p b q r : Poly K} {fuel : Nat} (h : p.divMod fuel b = .ok (q, r)) : r.terms.length ≤ p.terms.length := by
  unfold Poly.divMod at h
  cases hb : firstTerm b.terms with
  | zeroTerm => simp [hb] at h
  | term rf rd =>
    cases hp : firstTerm p.terms with
    | zeroTerm => simp only [hb, hp] at h; injection h with h; injection h with _ h; rw [h]
    | term c d =>
      simp only [hb, hp] at h
      split at h
      · injection h with h; injection h with _ h; rw [h]
      · obtain ⟨⟨div, out⟩, h1, h⟩ := Res.bind_eq_ok.1 h
        injection h with h; injection h with _ h
        rw [← h, ← euclid_divModLoop_length hb fuel c d _ _ out div hp h1, new_terms]
        exact (List.dropWhile_sublist _).length_le

/-! ## The loop -/

theorem isGcd_zero (P : K[X]) : IsGcd P P 0 := ⟨dvd_rfl, dvd_zero _, fun _ h _ => h⟩

theorem isGcd_step {G P Q : K[X]} (h : IsGcd G Q (P % Q)) : IsGcd G P Q := by
  obtain ⟨h1, h2, h3⟩ := h
  have hP : P = Q * (P / Q) + P % Q := (EuclideanDomain.div_add_mod P Q).symm
  refine ⟨?_, h1, fun D hD hD' => h3 D hD' ?_⟩
  · rw [hP]; exact dvd_add (h1.mul_right _) h2
  · exact (EuclideanDomain.dvd_mod_iff hD').2 hD

/-- The loop, for any operator that gives remainders no longer than the dividend. -/
theorem euclid_ok {P : Type} {isZ : P → Bool} {op : P → P → Res P} {φ : P → K[X]} {len : P → Nat} {L : Nat}
    (hz : ∀ p, isZ p = true ↔ φ p = 0)
    (hop : ∀ a b, φ b ≠ 0 → len a ≤ L → ∃ r, op a b = .ok r ∧ φ r = φ a % φ b ∧ len r ≤ L) :
    ∀ (n : Nat) (a b : P), (φ b).degree < (n : WithBot ℕ) → len a ≤ L → len b ≤ L →
      ∃ g, euclid isZ op (n + 1) a b = .ok g ∧ IsGcd (φ g) (φ a) (φ b) := by
  intro n
  induction n with
  | zero =>
    intro a b hd ha hb
    have h0 : φ b = 0 := by
      rw [← degree_eq_bot]
      by_contra hne
      rw [degree_eq_natDegree (fun h => hne (by rw [h, degree_zero]))] at hd
      exact absurd hd (by exact_mod_cast Nat.not_lt_zero _)
    refine ⟨a, ?_, ?_⟩
    · unfold euclid; rw [if_pos ((hz b).2 h0)]
    · rw [h0]; exact isGcd_zero _
  | succ n ih =>
    intro a b hd ha hb
    unfold euclid
    by_cases h0 : φ b = 0
    · rw [if_pos ((hz b).2 h0)]
      exact ⟨a, rfl, by rw [h0]; exact isGcd_zero _⟩
    · rw [if_neg (fun h => h0 ((hz b).1 h))]
      obtain ⟨r, h1, h2, h3⟩ := hop a b h0 ha
      have hlt : (φ r).degree < (φ b).degree := by rw [h2]; exact EuclideanDomain.mod_lt _ h0
      obtain ⟨g, h4, h5⟩ := ih b r (by
        rw [degree_eq_natDegree h0] at hlt hd
        have : (φ b).natDegree < n + 1 := by exact_mod_cast hd
        exact lt_of_lt_of_le hlt (by exact_mod_cast Nat.lt_succ_iff.1 this)) hb h3
      refine ⟨g, ?_, isGcd_step (by rw [← h2]; exact h5)⟩
      rw [h1, Res.ok_bind, h4]

theorem euclid_steps_mono {P : Type} {isZ : P → Bool} {op : P → P → Res P} :
    ∀ (n : Nat) (a b g : P), euclid isZ op n a b = .ok g → ∀ m, n ≤ m → euclid isZ op m a b = .ok g := by
  intro n
  induction n with
  | zero => intro a b g h; simp [euclid] at h
  | succ n ih =>
    intro a b g h m hm
    obtain ⟨m, rfl⟩ : ∃ k, m = k + 1 := ⟨m - 1, by omega⟩
    unfold euclid at h ⊢
    split at h
    · rwa [if_pos ‹_›]
    · rw [if_neg ‹_›]
      obtain ⟨r, h1, h2⟩ := Res.bind_eq_ok.1 h
      rw [h1, Res.ok_bind]
      exact ih b r g h2 m (by omega)

/-- C123: over a field Euclid's algorithm written with `%=` returns a greatest common divisor of any two polynomials, after at most
`len(b) + 1` tests of its condition, each division making at most `max(len(a), len(b)) + 1` rounds. -/
theorem C123_gcd_rem_assign (a b : Poly K) (fuel steps : Nat) (hf : max a.terms.length b.terms.length + 1 ≤ fuel)
    (hs : b.terms.length + 1 ≤ steps) :
    ∃ g, a.gcdRemAssign fuel steps b = .ok g ∧ IsGcd (descPoly g.terms) (descPoly a.terms) (descPoly b.terms) := by
  obtain ⟨g, h1, h2⟩ := euclid_ok (isZ := Poly.isZeroPoly) (op := Poly.remAssign fuel) (φ := fun p : Poly K => descPoly p.terms)
    (len := fun p => p.terms.length) (L := max a.terms.length b.terms.length) C02_dense_is_zero
    (fun x y hy hx => by
      obtain ⟨r, h1, h2⟩ := C23_dense_rem_assign x y hy fuel (by omega)
      exact ⟨r, h1, h2, by rw [remAssign_length h1]; exact hx⟩)
    b.terms.length a b (degree_lt_length _) (le_max_left _ _) (le_max_right _ _)
  exact ⟨g, euclid_steps_mono _ _ _ _ h1 steps hs, h2⟩

/-- C123: the same for the algorithm written with `div_mod`. -/
theorem C123_gcd_div_mod (a b : Poly K) (fuel steps : Nat) (hf : max a.terms.length b.terms.length + 1 ≤ fuel)
    (hs : b.terms.length + 1 ≤ steps) :
    ∃ g, a.gcdDivMod fuel steps b = .ok g ∧ IsGcd (descPoly g.terms) (descPoly a.terms) (descPoly b.terms) := by
  obtain ⟨g, h1, h2⟩ := euclid_ok (isZ := Poly.isZeroPoly) (φ := fun p : Poly K => descPoly p.terms)
    (op := fun a b => do let (_, r) ← a.divMod fuel b; .ok r)
    (len := fun p => p.terms.length) (L := max a.terms.length b.terms.length) C02_dense_is_zero
    (fun x y hy hx => by
      obtain ⟨q, r, h1, _, _, _, h2⟩ := C20_dense_div_mod x y hy fuel (by omega)
      exact ⟨r, by simp [h1], h2, (divMod_length h1).trans hx⟩)
    b.terms.length a b (degree_lt_length _) (le_max_left _ _) (le_max_right _ _)
  exact ⟨g, euclid_steps_mono _ _ _ _ h1 steps hs, h2⟩

/-! ## What the result says -/

/-- C123: `x` is a root of the polynomial found just if it is a common root. -/
theorem C123_common_roots (a b g : Poly K) (hg : IsGcd (descPoly g.terms) (descPoly a.terms) (descPoly b.terms)) (x : K) :
    g.eval x = 0 ↔ a.eval x = 0 ∧ b.eval x = 0 := by
  rw [C06_dense_eval, C06_dense_eval, C06_dense_eval]
  obtain ⟨h1, h2, h3⟩ := hg
  constructor
  · intro h
    exact ⟨eval_eq_zero_of_dvd_of_eval_eq_zero h1 h, eval_eq_zero_of_dvd_of_eval_eq_zero h2 h⟩
  · rintro ⟨ha, hb⟩
    have h := h3 (X - C x) (dvd_iff_isRoot.2 ha) (dvd_iff_isRoot.2 hb)
    exact dvd_iff_isRoot.1 h

theorem isGcd_coprime_iff {G P Q : K[X]} (h : IsGcd G P Q) : G.degree = 0 ↔ IsCoprime P Q := by
  classical
  obtain ⟨h1, h2, h3⟩ := h
  constructor
  · intro hd
    rw [← EuclideanDomain.gcd_isUnit_iff]
    have := h3 _ (EuclideanDomain.gcd_dvd_left P Q) (EuclideanDomain.gcd_dvd_right P Q)
    exact isUnit_of_dvd_unit this (isUnit_iff_degree_eq_zero.2 hd)
  · intro hc
    exact isUnit_iff_degree_eq_zero.1 (hc.isUnit_of_dvd' h1 h2)

/-- C123: its degree is 0 just if the two have no common factor. -/
theorem C123_coprime (a b g : Poly K) (hg : IsGcd (descPoly g.terms) (descPoly a.terms) (descPoly b.terms)) :
    g.degree = .num 0 ↔ IsCoprime (descPoly a.terms) (descPoly b.terms) := by
  rw [← isGcd_coprime_iff hg, ← C02_dense_degree]
  cases g.degree <;> simp [Degree.toWithBot]

/-- C123: for a polynomial and its derivative, over a field of characteristic 0 whose numbers `derivative` can make, the algorithm
decides whether there are repeated factors. -/
theorem C123_squarefree [CharZero K] [FromUsizeCont K] [LawfulFromUsizeCont K] (p d : Poly K) (hd : p.derivative = .ok d)
    (fuel steps : Nat) (hf : max p.terms.length d.terms.length + 1 ≤ fuel) (hs : d.terms.length + 1 ≤ steps) :
    ∃ g, p.gcdRemAssign fuel steps d = .ok g ∧ (g.degree = .num 0 ↔ Squarefree (descPoly p.terms)) := by
  obtain ⟨g, h1, h2⟩ := C123_gcd_rem_assign p d fuel steps hf hs
  refine ⟨g, h1, ?_⟩
  rw [C123_coprime p d g h2]
  rcases C16_dense_derivative p with h | ⟨r, h, h'⟩
  · rw [h] at hd; cases hd
  · rw [h] at hd; injection hd with hd; subst hd
    rw [h', ← PerfectField.separable_iff_squarefree]
    rfl

/-! ## The extended algorithm -/

theorem extLoop_ok {A B : K[X]} {L fuel : Nat} (hf : L + 1 ≤ fuel) :
    ∀ (n : Nat) (a b s0 s1 t0 t1 : Poly K), (descPoly b.terms).degree < (n : WithBot ℕ) →
      (descPoly b.terms = 0 ∨ (descPoly b.terms).degree ≤ (descPoly a.terms).degree) →
      a.terms.length ≤ L → b.terms.length ≤ L →
      descPoly a.terms = A * descPoly s0.terms + B * descPoly t0.terms →
      descPoly b.terms = A * descPoly s1.terms + B * descPoly t1.terms →
      ∃ g s t, Poly.extLoop fuel (n + 1) a b s0 s1 t0 t1 = .ok (g, s, t) ∧
        IsGcd (descPoly g.terms) (descPoly a.terms) (descPoly b.terms) ∧
        descPoly g.terms = A * descPoly s.terms + B * descPoly t.terms := by
  intro n
  induction n with
  | zero =>
    intro a b s0 s1 t0 t1 hd _ _ _ ha _
    have h0 : descPoly b.terms = 0 := by
      rw [← degree_eq_bot]
      by_contra hne
      rw [degree_eq_natDegree (fun h => hne (by rw [h, degree_zero]))] at hd
      exact absurd hd (by exact_mod_cast Nat.not_lt_zero _)
    refine ⟨a, s0, t0, ?_, by rw [h0]; exact isGcd_zero _, ha⟩
    unfold Poly.extLoop; rw [if_pos ((C02_dense_is_zero b).2 h0)]
  | succ n ih =>
    intro a b s0 s1 t0 t1 hd hle hla hlb ha hb
    unfold Poly.extLoop
    by_cases h0 : descPoly b.terms = 0
    · rw [if_pos ((C02_dense_is_zero b).2 h0)]
      exact ⟨a, s0, t0, rfl, by rw [h0]; exact isGcd_zero _, ha⟩
    · rw [if_neg (fun h => h0 ((C02_dense_is_zero b).1 h))]
      obtain ⟨q, r, h1, h2, h3, h4, h5⟩ := C20_dense_div_mod a b h0 fuel (by omega)
      have hq : descPoly q.terms ≠ 0 := by
        intro hq
        rw [hq, zero_mul, zero_add] at h2
        rcases hle with h | h
        · exact h0 h
        · rw [h2] at h; exact absurd h3 (not_lt.2 h)
      obtain ⟨m, hm1, hm2⟩ := (C11_dense_mul_in_place_partial q s1 (.inl hq)).2.2.2
      obtain ⟨s2, hs1, hs2⟩ := C09_dense_sub s0 m
      obtain ⟨m', hm1', hm2'⟩ := (C11_dense_mul_in_place_partial q t1 (.inl hq)).2.2.2
      obtain ⟨t2, ht1, ht2⟩ := C09_dense_sub t0 m'
      obtain ⟨g, s, t, h6, h7, h8⟩ := ih b r s1 s2 t1 t2 (by
        have hlt := h3
        rw [degree_eq_natDegree h0] at hlt hd
        have : (descPoly b.terms).natDegree < n + 1 := by exact_mod_cast hd
        exact lt_of_lt_of_le hlt (by exact_mod_cast Nat.lt_succ_iff.1 this)) (.inr h3.le)
        hlb ((divMod_length h1).trans hla) hb (by
          rw [hs2, ht2, hm2, hm2', eq_sub_of_add_eq' h2.symm, ha, hb]; ring)
      refine ⟨g, s, t, ?_, isGcd_step (by rw [← h5]; exact h7), h8⟩
      simp only [h1, Res.ok_bind, hm1, hs1, hm1', ht1, h6]

/-- C123: the extended algorithm, called with the operand of larger degree first (or a zero second one), returns a greatest common divisor
and the factors that give it. -/
theorem C123_extended (a b : Poly K) (h : descPoly b.terms = 0 ∨ (descPoly b.terms).degree ≤ (descPoly a.terms).degree)
    (fuel : Nat) (hf : max a.terms.length b.terms.length + 1 ≤ fuel) (steps : Nat) (hs : b.terms.length + 1 ≤ steps) :
    ∃ g s t, a.extGcd fuel steps b = .ok (g, s, t) ∧ IsGcd (descPoly g.terms) (descPoly a.terms) (descPoly b.terms) ∧
      descPoly g.terms = descPoly a.terms * descPoly s.terms + descPoly b.terms * descPoly t.terms := by
  obtain ⟨n, rfl⟩ : ∃ n, steps = n + 1 := ⟨steps - 1, by omega⟩
  have h1 : descPoly (Poly.new [(1 : K)]).terms = 1 := by rw [C01_new_same_polynomial]; simp [descPoly_cons]
  have h0 : descPoly (Poly.zero : Poly K).terms = 0 := rfl
  exact extLoop_ok hf n a b (Poly.new [1]) Poly.zero Poly.zero (Poly.new [1])
    (lt_of_lt_of_le (degree_lt_length _) (by exact_mod_cast (by omega : b.terms.length ≤ n))) h (le_max_left _ _) (le_max_right _ _)
    (by rw [h1, h0]; ring) (by rw [h1, h0]; ring)

/-- C123: called with the operand of smaller degree first it panics: its first quotient is zero, and `0 * 0` panics (C11). -/
theorem C123_extended_panics (a b : Poly K) (h : (descPoly a.terms).degree < (descPoly b.terms).degree) (fuel steps : Nat)
    (hs : 1 ≤ steps) : a.extGcd fuel steps b = .panic := by
  obtain ⟨n, rfl⟩ : ∃ n, steps = n + 1 := ⟨steps - 1, by omega⟩
  have hb : descPoly b.terms ≠ 0 := by rintro h0; rw [h0] at h; simp at h
  have hd : a.divMod fuel b = .ok (Poly.zero, a) := by
    unfold Poly.divMod
    cases hbf : firstTerm b.terms with
    | zeroTerm => exact absurd (firstTerm_zero_poly.1 hbf) hb
    | term rf rd =>
      cases haf : firstTerm a.terms with
      | zeroTerm => rfl
      | term c d =>
        rw [(firstTerm_poly hbf).2.1, (firstTerm_poly haf).2.1] at h
        simp only
        rw [if_pos (by exact_mod_cast h)]
  have hm : (Poly.zero : Poly K).refMulRef Poly.zero = .panic :=
    (C11_dense_mul_panics_iff (Poly.zero : Poly K) Poly.zero).2.2 ⟨rfl, rfl⟩
  unfold Poly.extGcd Poly.extLoop
  rw [if_neg (fun h => hb ((C02_dense_is_zero b).1 h)), hd, Res.ok_bind]
  simp only [hm, Res.panic_bind]

/-! ## The other remainder operators -/

/-- C123 (the `%` operator): for two non-zero polynomials the algorithm written with `%` never returns. -/
theorem C123_gcd_rem_diverges (a b : Poly K) (ha : descPoly a.terms ≠ 0) (hb : descPoly b.terms ≠ 0) (fuel steps : Nat) :
    a.gcdRem fuel steps b = .fuel := by
  have hok : ∀ x y : K, y ≠ 0 → ∃ z, rdiv x y = .ok z := fun x y h => ⟨_, LawfulRDiv.rdiv_eq x y h⟩
  have key : ∀ (n : Nat) (a b : Poly K), descPoly b.terms ≠ 0 → (descPoly b.terms).degree ≤ (descPoly a.terms).degree →
      euclid Poly.isZeroPoly (Poly.rem fuel) n a b = .fuel := by
    intro n a b hb h
    cases n with
    | zero => rfl
    | succ n =>
      unfold euclid
      rw [if_neg (fun h => hb ((C02_dense_is_zero b).1 h)), C22_dense_rem_diverges hok a b hb h fuel]
      rfl
  unfold Poly.gcdRem
  rcases le_or_gt (descPoly b.terms).degree (descPoly a.terms).degree with h | h
  · exact key steps a b hb h
  · cases steps with
    | zero => rfl
    | succ n =>
      unfold euclid
      rw [if_neg (fun h => hb ((C02_dense_is_zero b).1 h)), C22_dense_rem_partial a b h fuel, Res.ok_bind]
      exact key n b a ha h.le

/-- C123 (the `%` operator): if one of the two is zero it returns the other (or a zero polynomial if both are). -/
theorem C123_gcd_rem_zero (a b : Poly K) (h : descPoly a.terms = 0 ∨ descPoly b.terms = 0) (fuel steps : Nat) (hs : 2 ≤ steps) :
    ∃ g, a.gcdRem fuel steps b = .ok g ∧ IsGcd (descPoly g.terms) (descPoly a.terms) (descPoly b.terms) := by
  obtain ⟨n, rfl⟩ : ∃ n, steps = n + 2 := ⟨steps - 2, by omega⟩
  unfold Poly.gcdRem euclid
  by_cases hb : descPoly b.terms = 0
  · rw [if_pos ((C02_dense_is_zero b).2 hb)]
    exact ⟨a, rfl, by rw [hb]; exact isGcd_zero _⟩
  · have ha := h.resolve_right hb
    have hlt : (descPoly a.terms).degree < (descPoly b.terms).degree := by
      rw [ha, degree_zero, bot_lt_iff_ne_bot]; exact fun h => hb (degree_eq_bot.1 h)
    rw [if_neg (fun h => hb ((C02_dense_is_zero b).1 h)), C22_dense_rem_partial a b hlt fuel, Res.ok_bind]
    unfold euclid
    rw [if_pos ((C02_dense_is_zero a).2 ha)]
    exact ⟨b, rfl, by rw [ha]; exact ⟨dvd_zero _, dvd_rfl, fun _ _ h => h⟩⟩

theorem mod_zero_of_associated {P Q : K[X]} (h : Associated P Q) : P % Q = 0 :=
  (EuclideanDomain.mod_eq_zero).2 h.symm.dvd

theorem associated_of_mod_zero {P Q : K[X]} (hP : P ≠ 0) (hd : P.degree = Q.degree) (h : P % Q = 0) : Associated P Q := by
  have hdvd : Q ∣ P := (EuclideanDomain.mod_eq_zero).1 h
  obtain ⟨U, hU⟩ := hdvd
  have hQ0 : Q ≠ 0 := by rintro rfl; rw [zero_mul] at hU; exact hP hU
  have hU0 : U ≠ 0 := by rintro rfl; rw [mul_zero] at hU; exact hP hU
  have hUd : U.degree = 0 := by
    rw [hU, degree_mul, degree_eq_natDegree hQ0, degree_eq_natDegree hU0] at hd
    rw [degree_eq_natDegree hU0]
    have : Q.natDegree + U.natDegree = Q.natDegree := by exact_mod_cast hd
    exact_mod_cast (by omega : U.natDegree = 0)
  obtain ⟨u, hu⟩ := isUnit_iff_degree_eq_zero.2 hUd
  exact Associated.symm ⟨u, by rw [hu, ← hU]⟩

/-- C123 (SparsePolynomial): the algorithm returns just if one of the two polynomials is zero or they are constant multiples of each other;
then it finds a greatest common divisor. -/
theorem C123_sparse_gcd (a b : Sparse K) :
    (entriesPoly a.terms.entries = 0 ∨ entriesPoly b.terms.entries = 0 ∨
      Associated (entriesPoly a.terms.entries) (entriesPoly b.terms.entries) →
      ∀ fuel steps, 2 ≤ fuel → 2 ≤ steps → ∃ g, a.gcdRem fuel steps b = .ok g ∧
        IsGcd (entriesPoly g.terms.entries) (entriesPoly a.terms.entries) (entriesPoly b.terms.entries)) ∧
    (entriesPoly a.terms.entries ≠ 0 → entriesPoly b.terms.entries ≠ 0 →
      ¬ Associated (entriesPoly a.terms.entries) (entriesPoly b.terms.entries) →
      ∀ fuel steps, 2 ≤ fuel → a.gcdRem fuel steps b = .fuel) := by
  have hok : ∀ x y : K, y ≠ 0 → ∃ z, rdiv x y = .ok z := fun x y h => ⟨_, LawfulRDiv.rdiv_eq x y h⟩
  constructor
  · intro h fuel steps hf hs
    obtain ⟨n, rfl⟩ : ∃ n, steps = n + 2 := ⟨steps - 2, by omega⟩
    unfold Sparse.gcdRem euclid
    by_cases hb : entriesPoly b.terms.entries = 0
    · rw [if_pos ((C02_sparse_is_zero b).2 hb)]
      exact ⟨a, rfl, by rw [hb]; exact isGcd_zero _⟩
    · rw [if_neg (fun h => hb ((C02_sparse_is_zero b).1 h))]
      by_cases ha : entriesPoly a.terms.entries = 0
      · have hlt : (entriesPoly a.terms.entries).degree < (entriesPoly b.terms.entries).degree := by
          rw [ha, degree_zero, bot_lt_iff_ne_bot]; exact fun h => hb (degree_eq_bot.1 h)
        rw [(C27_sparse_div_mod_small_partial a b hlt fuel).2, Res.ok_bind]
        unfold euclid
        rw [if_pos ((C02_sparse_is_zero a).2 ha)]
        exact ⟨b, rfl, by rw [ha]; exact ⟨dvd_zero _, dvd_rfl, fun _ _ h => h⟩⟩
      · have has := (h.resolve_left ha).resolve_left hb
        obtain ⟨_, r, _, h1, _, h2⟩ := C27_sparse_div_mod_equal_partial a b hb (degree_eq_degree_of_associated has) fuel hf
        rw [h1, Res.ok_bind]
        unfold euclid
        rw [if_pos ((C02_sparse_is_zero r).2 (by rw [h2]; exact mod_zero_of_associated has))]
        exact ⟨b, rfl, has.symm.dvd, dvd_rfl, fun _ _ h => h⟩
  · intro ha hb hna fuel steps hf
    have key : ∀ (n : Nat) (a b : Sparse K), entriesPoly b.terms.entries ≠ 0 →
        (entriesPoly b.terms.entries).degree < (entriesPoly a.terms.entries).degree →
        euclid Sparse.isZeroPoly (Sparse.rem fuel) n a b = .fuel := by
      intro n a b hb h
      cases n with
      | zero => rfl
      | succ n =>
        unfold euclid
        rw [if_neg (fun h => hb ((C02_sparse_is_zero b).1 h)), (C27_sparse_div_mod_diverges hok a b hb h fuel).2]
        rfl
    unfold Sparse.gcdRem
    rcases lt_trichotomy (entriesPoly b.terms.entries).degree (entriesPoly a.terms.entries).degree with h | h | h
    · exact key steps a b hb h
    · cases steps with
      | zero => rfl
      | succ n =>
        unfold euclid
        obtain ⟨_, r, _, h1, _, h2⟩ := C27_sparse_div_mod_equal_partial a b hb h.symm fuel hf
        rw [if_neg (fun h => hb ((C02_sparse_is_zero b).1 h)), h1, Res.ok_bind]
        refine key n b r (fun h0 => hna (associated_of_mod_zero ha h.symm (h2 ▸ h0))) ?_
        rw [h2]; exact EuclideanDomain.mod_lt _ hb
    · cases steps with
      | zero => rfl
      | succ n =>
        unfold euclid
        rw [if_neg (fun h => hb ((C02_sparse_is_zero b).1 h)), (C27_sparse_div_mod_small_partial a b h fuel).2, Res.ok_bind]
        exact key n b a ha h

end

/-! ## Cases -/

/-- `x³ - x` and `x² + 3x + 2`: the common divisor found is `6x + 6`. -/
example : (⟨[1, 0, -1, 0]⟩ : Poly ℚ).gcdRemAssign 5 5 ⟨[1, 3, 2]⟩ = .ok ⟨[0, 0, 6, 6]⟩ ∧
    (⟨[1, 0, -1, 0]⟩ : Poly ℚ).gcdDivMod 5 5 ⟨[1, 3, 2]⟩ = .ok ⟨[6, 6]⟩ := by decide +kernel

/-- `6x + 6 = (x³ - x) · 1 + (x² + 3x + 2) · (-x + 3)`. -/
example : (⟨[1, 0, -1, 0]⟩ : Poly ℚ).extGcd 5 5 ⟨[1, 3, 2]⟩ = .ok (⟨[6, 6]⟩, ⟨[1]⟩, ⟨[-1, 3]⟩) ∧
    (⟨[1, 3, 2]⟩ : Poly ℚ).extGcd 5 5 ⟨[1, 0, -1, 0]⟩ = .panic := by decide +kernel

/-- `(x - 1)²` has a repeated factor: the common divisor with its derivative is not constant. -/
example : (⟨[1, -2, 1]⟩ : Poly ℚ).derivative = .ok ⟨[2, -2]⟩ ∧
    (⟨[1, -2, 1]⟩ : Poly ℚ).gcdRemAssign 4 3 ⟨[2, -2]⟩ = .ok ⟨[2, -2]⟩ := by decide +kernel

example : (⟨[1, 0, -1]⟩ : Poly ℚ).gcdRem 9 9 ⟨[1, -1]⟩ = .fuel ∧ (⟨[1, 0, -1]⟩ : Poly ℚ).gcdRem 9 9 ⟨[0]⟩ = .ok ⟨[1, 0, -1]⟩ := by
  decide +kernel

example : ((·.terms.entries) <$> (Sparse.fromVec [(2 : ℚ), 4]).gcdRem 9 9 (Sparse.fromVec [1, 2])) = .ok [(0, 2), (1, 1)] ∧
    ((·.terms.entries) <$> (Sparse.fromVec [(1 : ℚ), 0, -1]).gcdRem 9 9 (Sparse.fromVec [1, -1])) = .fuel := by decide +kernel

end Rustnomial
