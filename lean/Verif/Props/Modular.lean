import Verif.Model.Modular
import Verif.Props.Euclid
import Verif.Props.Stored

/-!
# C130: calculating modulo a polynomial with the operators, over a field
-/

open Polynomial

set_option linter.unusedSectionVars false

namespace Rustnomial

section
variable {K : Type} [Field K] [NumZero K] [LawfulNumZero K] [RDiv K] [LawfulRDiv K]

theorem mulRef_length {a b p : Poly K} (h : a.mulRef b = .ok p) :
    p.terms.length ≤ (descPoly a.terms).natDegree + (descPoly b.terms).natDegree + 1 := by
  have ht := (trimmed_iff_coreLen _).1 (trimmed_mulRef h)
  have hab : descPoly a.terms ≠ 0 ∨ descPoly b.terms ≠ 0 := by
    by_contra hc
    rw [not_or, not_not, not_not] at hc
    rw [(C11_dense_mul_panics_iff a b).2.2 hc] at h
    cases h
  obtain ⟨r, h1, h2⟩ := (C11_dense_mul_partial a b hab).2
  rw [h] at h1; injection h1 with h1; subst h1
  rw [← ht]
  by_cases hp : descPoly p.terms = 0
  · rw [(coreLen_zero _).2 hp]; omega
  · rw [coreLen_natDegree _ hp, h2]
    have := natDegree_mul_le (p := descPoly a.terms) (q := descPoly b.terms)
    omega

/-- **C130.** The product modulo `m`; multiplying zero by zero panics. -/
theorem C130_mul_mod (a b m : Poly K) (hm : descPoly m.terms ≠ 0) (fuel : Nat)
    (hf : (descPoly a.terms).natDegree + (descPoly b.terms).natDegree + 2 ≤ fuel) :
    (descPoly a.terms = 0 ∧ descPoly b.terms = 0 → a.mulMod fuel b m = .panic) ∧
    (¬ (descPoly a.terms = 0 ∧ descPoly b.terms = 0) →
      ∃ r, a.mulMod fuel b m = .ok r ∧ descPoly r.terms = descPoly a.terms * descPoly b.terms % descPoly m.terms) := by
  constructor
  · intro h
    rw [Poly.mulMod, (C11_dense_mul_panics_iff a b).2.2 h]; rfl
  · intro h
    obtain ⟨p, h1, h2⟩ := (C11_dense_mul_partial a b (by tauto)).2
    have hl := mulRef_length h1
    obtain ⟨r, h3, h4⟩ := C23_dense_rem_assign p m hm fuel (by omega)
    exact ⟨r, by rw [Poly.mulMod, h1, Res.ok_bind, h3], by rw [h4, h2]⟩

theorem powModLoop_step (fuel : Nat) (m : Poly K) (n : Nat) (r b : Poly K) (hn : n ≠ 0) : Poly.powModLoop fuel m n r b =
    (if n % 2 = 1 then r.mulMod fuel b m else .ok r).bind fun r => (b.mulMod fuel b m).bind fun b => Poly.powModLoop fuel m (n / 2) r b := by
  rw [Poly.powModLoop, if_neg hn]
  split <;> rfl

theorem powModLoop_outcome (m : Poly K) (hm : descPoly m.terms ≠ 0) (fuel : Nat) (hf : 2 * (descPoly m.terms).natDegree + 2 ≤ fuel) :
    ∀ (n : Nat), 1 ≤ n → ∀ r b : Poly K, (descPoly r.terms).natDegree ≤ (descPoly m.terms).natDegree →
      (descPoly b.terms).degree < (descPoly m.terms).degree →
      (descPoly m.terms ∣ descPoly b.terms ^ 2 ^ Nat.log 2 n → Poly.powModLoop fuel m n r b = .panic) ∧
      (¬ descPoly m.terms ∣ descPoly b.terms ^ 2 ^ Nat.log 2 n → ∃ s, Poly.powModLoop fuel m n r b = .ok s ∧
        descPoly s.terms = descPoly r.terms * descPoly b.terms ^ n % descPoly m.terms) := by
  intro n
  induction n using Nat.strong_induction_on with
  | _ n ih =>
    intro hn r b hr hb
    have hbn : (descPoly b.terms).natDegree ≤ (descPoly m.terms).natDegree := natDegree_le_natDegree hb.le
    rw [powModLoop_step _ _ _ _ _ (by omega)]
    by_cases hb0 : descPoly b.terms = 0
    · have hpan : b.mulMod fuel b m = .panic := (C130_mul_mod b b m hm fuel (by omega)).1 ⟨hb0, hb0⟩
      refine ⟨fun _ => ?_, fun h => absurd (by rw [hb0, zero_pow (by positivity)]; exact dvd_zero _) h⟩
      rw [hpan]
      by_cases ho : n % 2 = 1
      · rw [if_pos ho]
        by_cases hr0 : descPoly r.terms = 0
        · rw [(C130_mul_mod r b m hm fuel (by omega)).1 ⟨hr0, hb0⟩]; rfl
        · obtain ⟨s, hs, _⟩ := (C130_mul_mod r b m hm fuel (by omega)).2 (by tauto)
          rw [hs]; rfl
      · rw [if_neg ho]; rfl
    · -- one turn of the loop
      have hnd : ¬ descPoly m.terms ∣ descPoly b.terms := fun h => absurd (degree_le_of_dvd h hb0) (not_le.2 hb)
      obtain ⟨r', e1, e2, e3⟩ : ∃ r', (if n % 2 = 1 then r.mulMod fuel b m else Res.ok r) = .ok r' ∧
          (n % 2 = 1 → descPoly r'.terms = descPoly r.terms * descPoly b.terms % descPoly m.terms) ∧ (n % 2 ≠ 1 → r' = r) := by
        by_cases ho : n % 2 = 1
        · obtain ⟨s, hs, hs'⟩ := (C130_mul_mod r b m hm fuel (by omega)).2 (by tauto)
          exact ⟨s, by rw [if_pos ho, hs], fun _ => hs', fun h => absurd ho h⟩
        · exact ⟨r, by rw [if_neg ho], fun h => absurd h ho, fun _ => rfl⟩
      obtain ⟨b', e4, e5⟩ := (C130_mul_mod b b m hm fuel (by omega)).2 (by tauto)
      rw [e1, e4]
      simp only [Res.bind]
      by_cases h2 : n = 1
      · subst h2
        rw [show 1 / 2 = 0 from rfl, Poly.powModLoop, if_pos rfl]
        refine ⟨fun h => absurd ?_ hnd, fun _ => ⟨r', rfl, by rw [e2 rfl, pow_one]⟩⟩
        simpa using h
      · have hlog : Nat.log 2 n = Nat.log 2 (n / 2) + 1 := by
          rw [Nat.log_of_one_lt_of_le (by norm_num) (by omega)]
        have hr' : (descPoly r'.terms).natDegree ≤ (descPoly m.terms).natDegree := by
          by_cases ho : n % 2 = 1
          · rw [e2 ho]; exact natDegree_le_natDegree (EuclideanDomain.mod_lt _ hm).le
          · rw [e3 ho]; exact hr
        have hI := ih (n / 2) (by omega) (by omega) r' b' hr' (by rw [e5]; exact EuclideanDomain.mod_lt _ hm)
        have hdm : ∀ P : K[X], descPoly m.terms ∣ P - P % descPoly m.terms := fun P =>
          ⟨P / descPoly m.terms, by rw [sub_eq_iff_eq_add, EuclideanDomain.div_add_mod]⟩
        have hsub : ∀ j, descPoly m.terms ∣ (descPoly b.terms * descPoly b.terms) ^ j - descPoly b'.terms ^ j := fun j => by
          rw [e5]; exact (hdm _).trans (sub_dvd_pow_sub_pow _ _ j)
        have hsq : ∀ j, (descPoly b.terms * descPoly b.terms) ^ j = descPoly b.terms ^ (2 * j) := fun j => by
          rw [← pow_two, ← pow_mul]
        have hiff : descPoly m.terms ∣ descPoly b.terms ^ 2 ^ Nat.log 2 n ↔ descPoly m.terms ∣ descPoly b'.terms ^ 2 ^ Nat.log 2 (n / 2) := by
          have := hsub (2 ^ Nat.log 2 (n / 2))
          rw [hsq, ← pow_succ', ← hlog] at this
          exact ⟨fun h => (dvd_sub_right h).1 this, fun h => (dvd_sub_left h).1 this⟩
        rw [hiff]
        refine ⟨hI.1, fun h => ?_⟩
        obtain ⟨s, i1, i2⟩ := hI.2 h
        refine ⟨s, i1, ?_⟩
        rw [i2]
        apply mod_eq_of_dvd_sub
        have h3 := hsub (n / 2)
        rw [hsq] at h3
        by_cases ho : n % 2 = 1
        · have hn2 : descPoly b.terms ^ n = descPoly b.terms * descPoly b.terms ^ (2 * (n / 2)) := by
            rw [← pow_succ']; congr 1; omega
          rw [hn2]
          have h4 := hdm (descPoly r.terms * descPoly b.terms)
          rw [← e2 ho] at h4
          have : descPoly r'.terms * descPoly b'.terms ^ (n / 2) - descPoly r.terms * (descPoly b.terms * descPoly b.terms ^ (2 * (n / 2))) =
              -(descPoly r'.terms * (descPoly b.terms ^ (2 * (n / 2)) - descPoly b'.terms ^ (n / 2))) -
                (descPoly r.terms * descPoly b.terms - descPoly r'.terms) * descPoly b.terms ^ (2 * (n / 2)) := by ring
          rw [this]
          exact dvd_sub ((dvd_neg.2 (Dvd.dvd.mul_left h3 _))) (Dvd.dvd.mul_right h4 _)
        · have hn2 : descPoly b.terms ^ n = descPoly b.terms ^ (2 * (n / 2)) := by congr 1; omega
          rw [hn2, e3 ho]
          have : descPoly r.terms * descPoly b'.terms ^ (n / 2) - descPoly r.terms * descPoly b.terms ^ (2 * (n / 2)) =
              -(descPoly r.terms * (descPoly b.terms ^ (2 * (n / 2)) - descPoly b'.terms ^ (n / 2))) := by ring
          rw [this]
          exact dvd_neg.2 (Dvd.dvd.mul_left h3 _)

/-- **C130.** Repeated squaring modulo `m` gives `a^n` modulo `m`, unless it squares a zero: it panics exactly if `m` divides `a^(2^k)`, where
`2^k` is the largest power of two up to `n` (the loop squares once more than needed).  For `n = 0` it gives 1, unreduced. -/
theorem C130_pow_mod (a m : Poly K) (n : Nat) (hm : descPoly m.terms ≠ 0) (fuel : Nat) (hf : 2 * m.terms.length + 1 ≤ fuel)
    (hf' : a.terms.length + 1 ≤ fuel) :
    (n = 0 → ∃ r, a.powMod fuel n m = .ok r ∧ descPoly r.terms = 1) ∧
    (1 ≤ n → descPoly m.terms ∣ descPoly a.terms ^ 2 ^ Nat.log 2 n → a.powMod fuel n m = .panic) ∧
    (1 ≤ n → ¬ descPoly m.terms ∣ descPoly a.terms ^ 2 ^ Nat.log 2 n →
      ∃ r, a.powMod fuel n m = .ok r ∧ descPoly r.terms = descPoly a.terms ^ n % descPoly m.terms) := by
  obtain ⟨b, h1, h2⟩ := C23_dense_rem_assign a m hm fuel hf'
  have hone : descPoly (Poly.new [(1 : K)]).terms = 1 := by rw [C01_new_same_polynomial]; simp [descPoly_cons]
  have hlen : (descPoly m.terms).natDegree + 1 ≤ m.terms.length := by
    have h4 : coreLen m.terms ≤ m.terms.length := List.length_dropWhile_le _ _
    rwa [coreLen_natDegree _ hm] at h4
  have hdm : descPoly m.terms ∣ descPoly a.terms - descPoly b.terms := by
    rw [h2]
    exact ⟨descPoly a.terms / descPoly m.terms, by rw [sub_eq_iff_eq_add, EuclideanDomain.div_add_mod]⟩
  have hpow : ∀ j, descPoly m.terms ∣ descPoly a.terms ^ j - descPoly b.terms ^ j := fun j => hdm.trans (sub_dvd_pow_sub_pow _ _ j)
  have hkey := fun hn => powModLoop_outcome m hm fuel (by omega) n hn (Poly.new [1]) b (by rw [hone, natDegree_one]; omega)
    (by rw [h2]; exact EuclideanDomain.mod_lt _ hm)
  refine ⟨fun h => ⟨Poly.new [1], ?_, hone⟩, fun hn hd => ?_, fun hn hd => ?_⟩
  · rw [Poly.powMod, h1, Res.ok_bind, h, Poly.powModLoop, if_pos rfl]
  · rw [Poly.powMod, h1, Res.ok_bind]
    exact (hkey hn).1 ((dvd_sub_right hd).1 (hpow _))
  · obtain ⟨s, i1, i2⟩ := (hkey hn).2 (fun h => hd ((dvd_sub_left h).1 (hpow _)))
    refine ⟨s, by rw [Poly.powMod, h1, Res.ok_bind, i1], ?_⟩
    rw [i2, hone, one_mul]
    apply mod_eq_of_dvd_sub
    rw [← neg_sub]
    exact dvd_neg.2 (hpow n)

/-- **C130.** Modulo an irreducible polynomial the power is found for every `a` that is not a multiple of it. -/
theorem C130_pow_mod_irreducible (a m : Poly K) (n : Nat) (hm : Irreducible (descPoly m.terms)) (ha : ¬ descPoly m.terms ∣ descPoly a.terms)
    (fuel : Nat) (hf : 2 * m.terms.length + 1 ≤ fuel) (hf' : a.terms.length + 1 ≤ fuel) :
    ∃ r, a.powMod fuel n m = .ok r ∧ descPoly r.terms = descPoly a.terms ^ n % descPoly m.terms := by
  obtain ⟨h0, _, h1⟩ := C130_pow_mod a m n hm.ne_zero fuel hf hf'
  by_cases hn : n = 0
  · obtain ⟨r, h2, h3⟩ := h0 hn
    refine ⟨r, h2, ?_⟩
    rw [h3, hn, pow_zero, eq_comm, mod_eq_self_iff hm.ne_zero, degree_one]
    exact degree_pos_of_irreducible hm
  · exact h1 (by omega) (fun h => ha (hm.prime.dvd_of_dvd_pow h))

/-- **C130.** The extended algorithm finds the inverse modulo `m` exactly if there is one, and never panics. -/
theorem C130_inv_mod (a m : Poly K) (hm : descPoly m.terms ≠ 0) (fuel steps : Nat) (hf : max a.terms.length m.terms.length + 1 ≤ fuel)
    (hs : a.terms.length + 1 ≤ steps) :
    (IsCoprime (descPoly a.terms) (descPoly m.terms) → ∃ t, a.invMod fuel steps m = .ok (some t) ∧
      descPoly m.terms ∣ descPoly a.terms * descPoly t.terms - 1) ∧
    (¬ IsCoprime (descPoly a.terms) (descPoly m.terms) → a.invMod fuel steps m = .ok none) := by
  obtain ⟨b, h1, h2⟩ := C23_dense_rem_assign a m hm fuel (by omega)
  have hbl := remAssign_length h1
  have hlt := EuclideanDomain.mod_lt (descPoly a.terms) hm
  obtain ⟨g, s, t, e1, e2, e3⟩ := C123_extended m b (.inr (by rw [h2]; exact le_of_lt hlt)) fuel (by omega) steps (by omega)
  have hcop : g.degree = .num 0 ↔ IsCoprime (descPoly a.terms) (descPoly m.terms) := by
    rw [C123_coprime m b g e2, h2]
    have hP : descPoly a.terms = descPoly a.terms % descPoly m.terms + descPoly m.terms * (descPoly a.terms / descPoly m.terms) :=
      (EuclideanDomain.mod_add_div _ _).symm
    rw [isCoprime_comm]
    conv_rhs => rw [hP]
    exact IsCoprime.add_mul_left_left_iff.symm
  constructor
  · intro hc
    have hdeg := hcop.2 hc
    have hd : (descPoly g.terms).degree = 0 := by rw [← C02_dense_degree, hdeg]; rfl
    have hg : descPoly g.terms = C (g.eval 0) := by
      rw [C06_dense_eval, ← coeff_zero_eq_eval_zero]; exact eq_C_of_degree_eq_zero hd
    have hg0 : g.eval 0 ≠ 0 := by intro h; rw [h, C_0] at hg; rw [hg] at hd; simp at hd
    obtain ⟨u, u1, u2⟩ := (C13_dense_div_scalar t (g.eval 0) hg0).1
    refine ⟨u, ?_, ?_⟩
    · rw [Poly.invMod, h1, Res.ok_bind, e1, Res.ok_bind]
      show (if g.degree = .num 0 then _ else _) = _
      rw [if_pos hdeg, u1]; rfl
    · rw [hg, ← u2] at e3
      have hC : C (g.eval 0) * C ((g.eval 0)⁻¹) = (1 : K[X]) := by rw [← C_mul, mul_inv_cancel₀ hg0, C_1]
      have h3 : descPoly b.terms * descPoly u.terms - 1 = -(descPoly m.terms * (descPoly s.terms * C ((g.eval 0)⁻¹))) := by
        have h4 := congrArg (· * C ((g.eval 0)⁻¹)) e3
        rw [hC] at h4
        have h5 : descPoly b.terms * (C (g.eval 0) * descPoly u.terms) * C ((g.eval 0)⁻¹) = descPoly b.terms * descPoly u.terms := by
          rw [show descPoly b.terms * (C (g.eval 0) * descPoly u.terms) * C ((g.eval 0)⁻¹) =
            descPoly b.terms * descPoly u.terms * (C (g.eval 0) * C ((g.eval 0)⁻¹)) by ring, hC, mul_one]
        rw [add_mul, h5] at h4
        rw [h4]; ring
      have h6 : descPoly a.terms * descPoly u.terms - 1 =
          (descPoly b.terms * descPoly u.terms - 1) + descPoly m.terms * (descPoly a.terms / descPoly m.terms) * descPoly u.terms := by
        conv_lhs => rw [← EuclideanDomain.mod_add_div (descPoly a.terms) (descPoly m.terms), ← h2]
        ring
      rw [h6, h3]
      exact dvd_add (dvd_neg.2 (Dvd.intro _ rfl)) (Dvd.dvd.mul_right (Dvd.intro _ rfl) _)
  · intro hc
    rw [Poly.invMod, h1, Res.ok_bind, e1, Res.ok_bind]
    show (if g.degree = .num 0 then _ else _) = _
    rw [if_neg (fun h => hc (hcop.1 h))]

end

-- x^5 + 1 to the 13th power modulo x^2 + 1 (x^2 = -1); inverses modulo x^2 + 1 and x^2
example : (⟨[1, 0, 0, 0, 0, 1]⟩ : Poly ℚ).powMod 9 13 ⟨[1, 0, 1]⟩ = .ok ⟨[-64, -64]⟩ ∧
    (⟨[1, 1]⟩ : Poly ℚ).invMod 5 5 ⟨[1, 0, 1]⟩ = .ok (some ⟨[-1 / 2, 1 / 2]⟩) ∧ (⟨[1, 0]⟩ : Poly ℚ).invMod 5 5 ⟨[1, 0, 0]⟩ = .ok none := by
  decide +kernel

/-- **C130.** The panics are not those of the mathematics: `x^2` modulo `x^2` and `x^4` modulo `x^3` panic, `x^3` modulo `x^3` is zero. -/
theorem C130_pow_mod_panics : (⟨[1, 0]⟩ : Poly ℚ).powMod 9 2 ⟨[1, 0, 0]⟩ = .panic ∧ (⟨[1, 0]⟩ : Poly ℚ).powMod 9 4 ⟨[1, 0, 0, 0]⟩ = .panic ∧
    ∃ z, (⟨[1, 0]⟩ : Poly ℚ).powMod 9 3 ⟨[1, 0, 0, 0]⟩ = .ok z ∧ z.isZeroPoly = true := by
  refine ⟨by decide +kernel, by decide +kernel, ⟨[0, 0, 0, 0]⟩, by decide +kernel, by decide +kernel⟩

end Rustnomial
