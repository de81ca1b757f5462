import Verif.Model.Sturm
import Verif.Lemmas.Sturm
import Verif.Props.Taylor
import Verif.Props.FloatBounds

/-!
# C133: counting real roots with the remainder operators
-/

open Polynomial

set_option linter.unusedSectionVars false

namespace Rustnomial

/-- The polynomial a value stands for, over the real numbers. -/
noncomputable def realPoly (p : Poly ℚ) : ℝ[X] := (descPoly p.terms).map (algebraMap ℚ ℝ)

theorem realPoly_eq_zero (p : Poly ℚ) : realPoly p = 0 ↔ descPoly p.terms = 0 :=
  Polynomial.map_eq_zero (algebraMap ℚ ℝ)

theorem realPoly_eval (p : Poly ℚ) (x : ℚ) : (realPoly p).eval (x : ℝ) = ((p.eval x : ℚ) : ℝ) := by
  rw [C06_dense_eval, realPoly]
  have := eval_map_algebraMap (descPoly p.terms) (x : ℝ)
  rw [this]
  simpa using Polynomial.aeval_algebraMap_apply_eq_algebraMap_eval (A := ℝ) x (descPoly p.terms)

theorem sturmLoop_ok {L fuel : Nat} (hfuel : L + 1 ≤ fuel) : ∀ (n : Nat) (a b : Poly ℚ), (descPoly b.terms).degree < (n : WithBot ℕ) →
    a.terms.length ≤ L → b.terms.length ≤ L → ∃ ch, Poly.sturmLoop fuel (n + 1) a b = .ok ch ∧
      ((realPoly b = 0 ∧ ch = [a]) ∨
        ∃ rest, ch.map realPoly = realPoly a :: realPoly b :: rest ∧ RemSeq (ch.map realPoly) ∧ ∀ s ∈ realPoly b :: rest, s ≠ 0) := by
  intro n
  induction n with
  | zero =>
    intro a b hd ha hb
    have h0 : descPoly b.terms = 0 := by
      rw [← degree_eq_bot]
      by_contra hne
      rw [degree_eq_natDegree (fun h => hne (by rw [h, degree_zero]))] at hd
      exact absurd hd (by exact_mod_cast Nat.not_lt_zero _)
    refine ⟨[a], ?_, .inl ⟨(realPoly_eq_zero b).2 h0, rfl⟩⟩
    unfold Poly.sturmLoop; rw [if_pos ((C02_dense_is_zero b).2 h0)]
  | succ n ih =>
    intro a b hd ha hb
    unfold Poly.sturmLoop
    by_cases h0 : descPoly b.terms = 0
    · rw [if_pos ((C02_dense_is_zero b).2 h0)]
      exact ⟨[a], rfl, .inl ⟨(realPoly_eq_zero b).2 h0, rfl⟩⟩
    · rw [if_neg (fun h => h0 ((C02_dense_is_zero b).1 h))]
      obtain ⟨r, h1, h2⟩ := C23_dense_rem_assign a b h0 fuel (by omega)
      have hn : descPoly r.neg.terms = -(descPoly a.terms % descPoly b.terms) := by rw [(C10_dense_neg r).1, h2]
      have hlt : (descPoly r.neg.terms).degree < (descPoly b.terms).degree := by
        rw [hn, degree_neg]; exact EuclideanDomain.mod_lt _ h0
      have hdiv : realPoly a = (descPoly a.terms / descPoly b.terms).map (algebraMap ℚ ℝ) * realPoly b - realPoly r.neg := by
        unfold realPoly
        rw [hn, ← Polynomial.map_mul, ← Polynomial.map_sub]
        congr 1
        have := EuclideanDomain.div_add_mod (descPoly a.terms) (descPoly b.terms)
        linear_combination -this
      obtain ⟨ch, h4, h5⟩ := ih b r.neg (by
        rw [degree_eq_natDegree h0] at hlt hd
        have : (descPoly b.terms).natDegree < n + 1 := by exact_mod_cast hd
        exact lt_of_lt_of_le hlt (by exact_mod_cast Nat.lt_succ_iff.1 this)) hb
        (by simp [Poly.neg, remAssign_length h1]; omega)
      refine ⟨a :: ch, by rw [h1, Res.ok_bind, h4, Res.ok_bind], .inr ?_⟩
      have hb0 : realPoly b ≠ 0 := fun h => h0 ((realPoly_eq_zero b).1 h)
      rcases h5 with ⟨h5, rfl⟩ | ⟨rest, h5, h6, h7⟩
      · refine ⟨[], rfl, ?_, by simpa using hb0⟩
        rw [h5, sub_zero] at hdiv
        exact ⟨_, by rw [hdiv, mul_comm]⟩
      · refine ⟨realPoly r.neg :: rest, by rw [List.map_cons, h5], ?_, ?_⟩
        · rw [h5] at h6
          rw [List.map_cons, h5]
          exact ⟨⟨_, hdiv⟩, h6⟩
        · intro s hs
          rcases List.mem_cons.1 hs with rfl | hs
          · exact hb0
          · exact h7 s hs

theorem variationsFrom_eq (x : ℚ) : ∀ (ch : List (Poly ℚ)) (last : Option Bool),
    variationsFrom x last ch = vch last ((ch.map realPoly).map (eval (x : ℝ)))
  | [], last => rfl
  | p :: ps, last => by
    simp only [List.map_cons, variationsFrom]
    by_cases h : p.eval x = 0
    · rw [if_pos ((LawfulNumZero.isZero_iff _).2 h), vch_zero _ _ (by rw [realPoly_eval, h, Rat.cast_zero]), variationsFrom_eq x ps]
    · rw [if_neg (fun k => h ((LawfulNumZero.isZero_iff _).1 k)), vch_ne _ _ (by rw [realPoly_eval]; exact_mod_cast h), variationsFrom_eq x ps]
      have : isPositive (p.eval x) = decide (0 < (realPoly p).eval (x : ℝ)) := by
        rw [realPoly_eval]; simp [isPositive]
      rw [this]

/-- The distinct real roots of `P` in the interval without its left and with its right end. -/
noncomputable def rootsIn (P : ℚ[X]) (a b : ℝ) : Finset ℝ := (P.aroots ℝ).toFinset.filter fun z => a < z ∧ z ≤ b

theorem mem_rootsIn {P : ℚ[X]} (hP : P ≠ 0) {a b z : ℝ} : z ∈ rootsIn P a b ↔ aeval z P = 0 ∧ a < z ∧ z ≤ b := by
  simp [rootsIn, hP]

theorem chain_count (p : Poly ℚ) (hp : descPoly p.terms ≠ 0) {fuel steps : Nat} (hfuel : p.terms.length + 1 ≤ fuel)
    (hsteps : p.terms.length + 1 ≤ steps) : ∃ ch, p.sturmChain fuel steps = .ok ch ∧ ∀ a b : ℚ, a < b →
      ((descPoly p.terms).eval a = 0 → (derivative (descPoly p.terms)).eval a ≠ 0) →
      ((descPoly p.terms).eval b = 0 → (derivative (descPoly p.terms)).eval b ≠ 0) →
      variationsFrom a none ch = variationsFrom b none ch + (rootsIn (descPoly p.terms) a b).card := by
  obtain ⟨d, hd, hd1, hd2, -⟩ := derivative_returns p (by simp [tryFromCont])
  obtain ⟨n, rfl⟩ : ∃ n, steps = n + 1 := ⟨steps - 1, by omega⟩
  obtain ⟨ch, h1, h2⟩ := sturmLoop_ok (L := p.terms.length) hfuel n p d
    (lt_of_lt_of_le (degree_lt_length d.terms) (by exact_mod_cast (by omega : d.terms.length ≤ n))) le_rfl hd2
  have hdr : realPoly d = derivative (realPoly p) := by rw [realPoly, hd1, realPoly, derivative_map]
  have hp0 : realPoly p ≠ 0 := fun h => hp ((realPoly_eq_zero p).1 h)
  refine ⟨ch, by unfold Poly.sturmChain; rw [hd, Res.ok_bind, h1], fun a b hab ha hb => ?_⟩
  rw [variationsFrom_eq, variationsFrom_eq, rootsIn]
  rcases h2 with ⟨h2, rfl⟩ | ⟨rest, h2, h3, h4⟩
  · rw [hdr] at h2
    have hc := Polynomial.derivative_eq_zero.1 h2
    rw [natDegree_eq_zero] at hc
    obtain ⟨c, hc⟩ := hc
    have : (descPoly p.terms).aroots ℝ = 0 := by
      rw [aroots_def]; change (realPoly p).roots = 0; rw [← hc, roots_C]
    rw [this, List.map_singleton, List.map_singleton, List.map_singleton, ← hc, eval_C, eval_C]
    simp
  · rw [h2] at h3 ⊢
    rw [hdr] at h3 h4 ⊢
    have hev : ∀ P : ℚ[X], ∀ x : ℚ, (P.map (algebraMap ℚ ℝ)).eval (x : ℝ) = ((P.eval x : ℚ) : ℝ) := by
      intro P x
      rw [eval_map_algebraMap]
      simpa using Polynomial.aeval_algebraMap_apply_eq_algebraMap_eval (A := ℝ) x P
    have hends : ∀ x : ℚ, ((descPoly p.terms).eval x = 0 → (derivative (descPoly p.terms)).eval x ≠ 0) →
        (realPoly p).eval (x : ℝ) = 0 → (derivative (realPoly p)).eval (x : ℝ) ≠ 0 := by
      intro x hx
      unfold realPoly
      rw [derivative_map, hev, hev]
      exact_mod_cast hx
    exact sturm_remSeq h3 (fun s hs => by
      rcases List.mem_cons.1 hs with rfl | hs
      · exact hp0
      · exact h4 s hs) (by exact_mod_cast hab) (hends a ha) (hends b hb)

/-- **C133.** The program counts the distinct real roots in the interval without its left and with its right end, whatever their
multiplicities, if no multiple root is at an end; neither the remainders nor the subtraction panic. -/
theorem C133_count (p : Poly ℚ) (hp : descPoly p.terms ≠ 0) {a b : ℚ} (hab : a < b)
    (ha : (descPoly p.terms).eval a = 0 → (derivative (descPoly p.terms)).eval a ≠ 0)
    (hb : (descPoly p.terms).eval b = 0 → (derivative (descPoly p.terms)).eval b ≠ 0)
    {fuel steps : Nat} (hfuel : p.terms.length + 1 ≤ fuel) (hsteps : p.terms.length + 1 ≤ steps) :
    p.countRoots fuel steps a b = .ok (rootsIn (descPoly p.terms) a b).card := by
  obtain ⟨ch, h1, h2⟩ := chain_count p hp hfuel hsteps
  have hkey := h2 a b hab ha hb
  unfold Poly.countRoots
  rw [h1, Res.ok_bind]
  simp only
  rw [if_neg (by omega)]
  congr 1
  omega

/-- **C133.** With the ends exchanged the program panics if there is a root between them. -/
theorem C133_count_reversed (p : Poly ℚ) (hp : descPoly p.terms ≠ 0) {a b : ℚ} (hab : a < b)
    (ha : (descPoly p.terms).eval a = 0 → (derivative (descPoly p.terms)).eval a ≠ 0)
    (hb : (descPoly p.terms).eval b = 0 → (derivative (descPoly p.terms)).eval b ≠ 0)
    {fuel steps : Nat} (hfuel : p.terms.length + 1 ≤ fuel) (hsteps : p.terms.length + 1 ≤ steps) :
    p.countRoots fuel steps b a = if rootsIn (descPoly p.terms) a b = ∅ then .ok 0 else .panic := by
  obtain ⟨ch, h1, h2⟩ := chain_count p hp hfuel hsteps
  have hkey := h2 a b hab ha hb
  unfold Poly.countRoots
  rw [h1, Res.ok_bind]
  simp only
  by_cases h : rootsIn (descPoly p.terms) a b = ∅
  · rw [if_pos h]
    rw [h, Finset.card_empty] at hkey
    rw [if_neg (by omega)]
    congr 1
    omega
  · rw [if_neg h, if_pos]
    have := Finset.card_pos.2 (Finset.nonempty_iff_ne_empty.2 h)
    omega

/-- **C133.** Between `-(r + 1)` and `r + 1`, with the `r` of `C132_root_bound`, it counts all distinct real roots. -/
theorem C133_all (p : Poly ℚ) (hp : descPoly p.terms ≠ 0) {fuel steps : Nat} (hfuel : p.terms.length + 1 ≤ fuel)
    (hsteps : p.terms.length + 1 ≤ steps) : ∃ r, maxRatio (fun x y => decide (x < y)) p.orderedTermIter = .ok (some r) ∧
      p.countRoots fuel steps (-(r + 1)) (r + 1) = .ok ((descPoly p.terms).aroots ℝ).toFinset.card := by
  obtain ⟨r, h1, h2, h3, h4⟩ := (Fl.C132_root_bound (Fl.C132_exact_terms p Sparse.zero).1).2 hp
  have hr : 0 ≤ r := by
    rcases h3 with h | ⟨k, -, h⟩
    · exact h.ge
    · rw [← h]; exact abs_nonneg _
  have hreal : ∀ z : ℝ, aeval z (descPoly p.terms) = 0 → |z| < r + 1 := by
    intro z hz
    have := h4 (z : ℂ) (by
      have := Polynomial.aeval_algebraMap_apply ℂ z (descPoly p.terms)
      rw [hz, map_zero] at this
      exact this)
    simpa using this
  have hrat : ∀ x : ℚ, r + 1 ≤ |x| → (descPoly p.terms).eval x ≠ 0 := by
    intro x hx h0
    have := hreal (x : ℝ) (by
      have := Polynomial.aeval_algebraMap_apply_eq_algebraMap_eval (A := ℝ) x (descPoly p.terms)
      rw [h0] at this
      simpa using this)
    have h' : (|x| : ℚ) < r + 1 := by exact_mod_cast this
    linarith
  refine ⟨r, h1, ?_⟩
  rw [C133_count p hp (by linarith) (fun h => absurd h (hrat _ (by rw [abs_neg]; exact le_abs_self _)))
    (fun h => absurd h (hrat _ (le_abs_self _))) hfuel hsteps]
  congr 2
  ext z
  rw [mem_rootsIn hp]
  simp only [Multiset.mem_toFinset, mem_aroots]
  refine ⟨fun h => ⟨hp, h.1⟩, fun h => ⟨h.2, ?_⟩⟩
  have := abs_lt.1 (hreal z h.2)
  push_cast
  exact ⟨by linarith [this.1], this.2.le⟩

/-- The roots 0 and 1 of `x³ - x²` (0 twice) are in (-1, 1]; `x³ - 2` has one root in (1, 2]. -/
example : (⟨[1, -1, 0, 0]⟩ : Poly ℚ).countRoots 5 5 (-1) 1 = .ok 2 ∧ (⟨[1, 0, 0, -2]⟩ : Poly ℚ).countRoots 5 5 1 2 = .ok 1 := by
  decide +kernel

/-- All roots of `x³ - x²`: the bound is 1 + 1, the roots 0 and 1. -/
example : maxRatio (fun x y => decide (x < y)) (⟨[1, -1, 0, 0]⟩ : Poly ℚ).orderedTermIter = .ok (some 1) ∧
    (⟨[1, -1, 0, 0]⟩ : Poly ℚ).countRoots 5 5 (-(1 + 1)) (1 + 1) = .ok 2 := by
  decide +kernel

/-- With a multiple root at the left end the root 1 is not counted. -/
example : (⟨[1, -1, 0, 0]⟩ : Poly ℚ).countRoots 5 5 0 2 = .ok 0 := by decide +kernel

/-- **C133.** With integer coefficients the program does not return for any polynomial of degree 2 or more: the leading coefficient of the
derivative does not divide that of the polynomial, and `%=` does not end (`C21_dense_div_mod_int_diverges`). -/
theorem C133_integer_false (p : Poly ℤ) (hp : 2 ≤ (descPoly p.terms).natDegree) (fuel steps : Nat) (a b : ℤ) :
    p.countRoots fuel steps a b = .fuel := by
  obtain ⟨d, hd, hd1, -, -⟩ := derivative_returns p (by simp [tryFromCont])
  have hp0 : descPoly p.terms ≠ 0 := by rintro h; rw [h] at hp; simp at hp
  have hn : (derivative (descPoly p.terms)).natDegree = (descPoly p.terms).natDegree - 1 := natDegree_derivative _
  have hlc : (derivative (descPoly p.terms)).leadingCoeff = (descPoly p.terms).leadingCoeff * (descPoly p.terms).natDegree := by
    rw [leadingCoeff, hn, coeff_derivative, show (descPoly p.terms).natDegree - 1 + 1 = (descPoly p.terms).natDegree by omega, leadingCoeff]
    congr 1
    have : 1 ≤ (descPoly p.terms).natDegree := by omega
    push_cast [Nat.cast_sub this]
    ring
  have hl0 : (descPoly p.terms).leadingCoeff ≠ 0 := leadingCoeff_ne_zero.2 hp0
  have hd0 : descPoly d.terms ≠ 0 := by
    rw [hd1]
    intro h
    rw [h, leadingCoeff_zero] at hlc
    rcases mul_eq_zero.1 hlc.symm with h | h
    · exact hl0 h
    · have : (descPoly p.terms).natDegree = 0 := by exact_mod_cast h
      omega
  have hfuel := (C21_dense_div_mod_int_diverges p d hd0 (by
      rw [hd1]; exact degree_derivative_le) (by
      rw [hd1, hlc]
      rintro ⟨k, hk⟩
      have h1 : (descPoly p.terms).leadingCoeff * (1 - (descPoly p.terms).natDegree * k) = 0 := by linear_combination hk
      rcases mul_eq_zero.1 h1 with h | h
      · exact hl0 h
      · have h2 : ((descPoly p.terms).natDegree : ℤ) ∣ 1 := ⟨k, by linarith⟩
        have := Int.le_of_dvd one_pos h2
        omega) fuel).2
  unfold Poly.countRoots Poly.sturmChain
  rw [hd, Res.ok_bind]
  cases steps with
  | zero => rfl
  | succ n =>
    unfold Poly.sturmLoop
    rw [if_neg (fun h => hd0 ((C02_dense_is_zero d).1 h)), hfuel]
    rfl

/-! ## Separating the roots -/

/-- Intervals from left to right within `(a, b]`, without left ends, each with one real root of `P`; every root in `(a, b]` is in one. -/
def Isolates (P : ℚ[X]) (a b : ℚ) (L : List (ℚ × ℚ)) : Prop :=
  L.Pairwise (fun s t => s.2 ≤ t.1) ∧ (∀ s ∈ L, a ≤ s.1 ∧ s.1 < s.2 ∧ s.2 ≤ b ∧ ∃! z : ℝ, aeval z P = 0 ∧ s.1 < z ∧ z ≤ s.2) ∧
    ∀ z : ℝ, aeval z P = 0 → a < z → z ≤ b → ∃ s ∈ L, (s.1 : ℝ) < z ∧ z ≤ s.2

theorem isolate_sound {P : ℚ[X]} (hP : P ≠ 0) {ch : List (Poly ℚ)} (hch : ∀ a b : ℚ, a < b →
    variationsFrom a none ch = variationsFrom b none ch + (rootsIn P a b).card) :
    ∀ (depth : Nat) (a b : ℚ), a < b → isolate ch depth a b ≠ .panic ∧ (∀ L, isolate ch depth a b = .ok L → Isolates P a b L) ∧
      (∀ δ : ℝ, (∀ z w : ℝ, aeval z P = 0 → aeval w P = 0 → z < w → δ ≤ w - z) → ∀ n < depth, ((b - a : ℚ) : ℝ) ≤ δ * 2 ^ n →
        ∃ L, isolate ch depth a b = .ok L) := by
  intro depth
  induction depth with
  | zero => intro a b _; simp [isolate]
  | succ depth ih =>
    intro a b hab
    have hv := hch a b hab
    unfold isolate
    simp only
    rw [if_neg (by omega)]
    have hsub : variationsFrom a none ch - variationsFrom b none ch = (rootsIn P a b).card := by omega
    rw [hsub]
    by_cases h0 : (rootsIn P a b).card = 0
    · rw [if_pos h0]
      refine ⟨by simp, fun L hL => ?_, fun δ _ n _ _ => ⟨_, rfl⟩⟩
      injection hL with hL
      subst hL
      refine ⟨.nil, by simp, fun z hz h1 h2 => ?_⟩
      have := (mem_rootsIn hP).2 ⟨hz, h1, h2⟩
      rw [Finset.card_eq_zero.1 h0] at this
      simp at this
    · rw [if_neg h0]
      by_cases h1 : (rootsIn P a b).card = 1
      · rw [if_pos h1]
        refine ⟨by simp, fun L hL => ?_, fun δ _ n _ _ => ⟨_, rfl⟩⟩
        injection hL with hL
        subst hL
        obtain ⟨z, hz⟩ := Finset.card_eq_one.1 h1
        refine ⟨by simp, ?_, fun w k1 k2 k3 => ⟨(a, b), by simp, k2, k3⟩⟩
        simp only [List.mem_singleton, forall_eq]
        refine ⟨le_rfl, hab, le_rfl, z, (mem_rootsIn hP).1 (by rw [hz]; simp), fun w hw => ?_⟩
        have := (mem_rootsIn hP).2 hw
        rw [hz] at this
        simpa using this
      · rw [if_neg h1]
        have hm : rdiv (a + b) (1 + 1) = .ok ((a + b) / 2) := by
          rw [LawfulRDiv.rdiv_eq _ _ (by norm_num)]; norm_num
        rw [hm, Res.ok_bind]
        set m := (a + b) / 2 with hmdef
        have ham : a < m := by rw [hmdef]; linarith
        have hmb : m < b := by rw [hmdef]; linarith
        obtain ⟨l1, l2, l3⟩ := ih a m ham
        obtain ⟨r1, r2, r3⟩ := ih m b hmb
        refine ⟨?_, ?_, ?_⟩
        · cases hl : isolate ch depth a m with
          | panic => exact absurd hl l1
          | fuel => exact fun h => nomatch h
          | ok l =>
            rw [Res.ok_bind]
            cases hr : isolate ch depth m b with
            | panic => exact absurd hr r1
            | fuel => exact fun h => nomatch h
            | ok r => exact fun h => nomatch h
        · intro L hL
          obtain ⟨l, hl, hL⟩ := Res.bind_eq_ok.1 hL
          obtain ⟨r, hr, hL⟩ := Res.bind_eq_ok.1 hL
          injection hL with hL
          subst hL
          obtain ⟨p1, p2, p3⟩ := l2 l hl
          obtain ⟨q1, q2, q3⟩ := r2 r hr
          refine ⟨List.pairwise_append.2 ⟨p1, q1, fun s hs t ht => (p2 s hs).2.2.1.trans (q2 t ht).1⟩, fun s hs => ?_, fun z hz k1 k2 => ?_⟩
          · rcases List.mem_append.1 hs with hs | hs
            · obtain ⟨k1, k2, k3, k4⟩ := p2 s hs
              exact ⟨k1, k2, k3.trans hmb.le, k4⟩
            · obtain ⟨k1, k2, k3, k4⟩ := q2 s hs
              exact ⟨ham.le.trans k1, k2, k3, k4⟩
          · by_cases hzm : z ≤ (m : ℝ)
            · obtain ⟨s, hs, h⟩ := p3 z hz k1 hzm
              exact ⟨s, List.mem_append_left _ hs, h⟩
            · obtain ⟨s, hs, h⟩ := q3 z hz (not_le.1 hzm) k2
              exact ⟨s, List.mem_append_right _ hs, h⟩
        · intro δ hδ n hn hw
          cases n with
          | zero =>
            exfalso
            obtain ⟨z, hz, w, hw', hne⟩ := Finset.one_lt_card.1 (show 1 < (rootsIn P a b).card by omega)
            rw [mem_rootsIn hP] at hz hw'
            push_cast at hw
            rcases lt_or_gt_of_ne hne with h | h
            · have := hδ z w hz.1 hw'.1 h
              linarith [hz.2.1, hw'.2.2]
            · have := hδ w z hw'.1 hz.1 h
              linarith [hw'.2.1, hz.2.2]
          | succ n =>
            have hhalf : ((m - a : ℚ) : ℝ) ≤ δ * 2 ^ n ∧ ((b - m : ℚ) : ℝ) ≤ δ * 2 ^ n := by
              rw [hmdef]
              push_cast at hw ⊢
              rw [pow_succ] at hw
              constructor <;> linarith
            obtain ⟨l, hl⟩ := l3 δ hδ n (by omega) hhalf.1
            obtain ⟨r, hr⟩ := r3 δ hδ n (by omega) hhalf.2
            exact ⟨l ++ r, by rw [hl, Res.ok_bind, hr, Res.ok_bind]⟩

/-- **C134.** For a polynomial without rational multiple roots the program separates the real roots: whatever it returns are intervals from
left to right with one root each and none outside; it does not panic; and it returns as soon as `2 ^ n` steps of the distance of the roots,
`n` less than the depth, cover the interval. -/
theorem C134_isolate (p : Poly ℚ) (hp : ∀ x : ℚ, (descPoly p.terms).eval x = 0 → (derivative (descPoly p.terms)).eval x ≠ 0) {a b : ℚ}
    (hab : a < b) {fuel steps : Nat} (hfuel : p.terms.length + 1 ≤ fuel) (hsteps : p.terms.length + 1 ≤ steps) (depth : Nat) :
    p.isolateRoots fuel steps depth a b ≠ .panic ∧
    (∀ L, p.isolateRoots fuel steps depth a b = .ok L → Isolates (descPoly p.terms) a b L) ∧
    (∀ δ : ℝ, (∀ z w : ℝ, aeval z (descPoly p.terms) = 0 → aeval w (descPoly p.terms) = 0 → z < w → δ ≤ w - z) →
      ∀ n < depth, ((b - a : ℚ) : ℝ) ≤ δ * 2 ^ n → ∃ L, p.isolateRoots fuel steps depth a b = .ok L) := by
  have hp0 : descPoly p.terms ≠ 0 := fun h => hp 0 (by rw [h]; simp) (by rw [h]; simp)
  obtain ⟨ch, h1, h2⟩ := chain_count p hp0 hfuel hsteps
  unfold Poly.isolateRoots
  rw [h1, Res.ok_bind]
  exact isolate_sound hp0 (fun a b hab => h2 a b hab (hp a) (hp b)) depth a b hab

/-- **C134.** There is a depth from which on the program returns. -/
theorem C134_isolate_returns (p : Poly ℚ) (hp : ∀ x : ℚ, (descPoly p.terms).eval x = 0 → (derivative (descPoly p.terms)).eval x ≠ 0)
    {a b : ℚ} (hab : a < b) {fuel steps : Nat} (hfuel : p.terms.length + 1 ≤ fuel) (hsteps : p.terms.length + 1 ≤ steps) :
    ∃ n, ∀ depth > n, ∃ L, p.isolateRoots fuel steps depth a b = .ok L := by
  have hp0 : descPoly p.terms ≠ 0 := fun h => hp 0 (by rw [h]; simp) (by rw [h]; simp)
  obtain ⟨δ, hδ, hsep⟩ : ∃ δ : ℝ, 0 < δ ∧ ∀ z w : ℝ, aeval z (descPoly p.terms) = 0 → aeval w (descPoly p.terms) = 0 → z < w → δ ≤ w - z := by
    set R := ((descPoly p.terms).aroots ℝ).toFinset with hR
    set D := ((R ×ˢ R).filter fun t => t.1 < t.2).image fun t => t.2 - t.1 with hD
    have hmem : ∀ z, z ∈ R ↔ aeval z (descPoly p.terms) = 0 := by intro z; simp [hR, hp0]
    by_cases hne : D.Nonempty
    · obtain ⟨δ, h1, h2⟩ := Finset.exists_min_image D id hne
      refine ⟨δ, ?_, fun z w hz hw hzw => h2 (w - z) ?_⟩
      · rw [hD, Finset.mem_image] at h1
        obtain ⟨t, ht, rfl⟩ := h1
        exact sub_pos.2 (Finset.mem_filter.1 ht).2
      · rw [hD, Finset.mem_image]
        exact ⟨(z, w), by simp [hmem, hz, hw, hzw], rfl⟩
    · refine ⟨1, one_pos, fun z w hz hw hzw => absurd ?_ hne⟩
      exact ⟨w - z, by rw [hD, Finset.mem_image]; exact ⟨(z, w), by simp [hmem, hz, hw, hzw], rfl⟩⟩
  obtain ⟨n, hn⟩ := pow_unbounded_of_one_lt (((b - a : ℚ) : ℝ) / δ) (one_lt_two)
  refine ⟨n, fun depth hd => (C134_isolate p hp hab hfuel hsteps depth).2.2 δ hsep n hd ?_⟩
  rw [div_lt_iff₀ hδ] at hn
  linarith

/-- **C134.** For any polynomial other than zero, the program applied to its squarefree part separates the real roots. -/
theorem C134_isolate_any (p : Poly ℚ) (hp : descPoly p.terms ≠ 0) {fuel steps : Nat} (hfuel : p.terms.length + 1 ≤ fuel)
    (hsteps : p.terms.length + 1 ≤ steps) {a b : ℚ} (hab : a < b) :
    ∃ q, p.squarefreePart fuel steps = .ok q ∧ ∀ fuel' steps', q.terms.length + 1 ≤ fuel' → q.terms.length + 1 ≤ steps' →
      ∃ n, ∀ depth > n, ∃ L, q.isolateRoots fuel' steps' depth a b = .ok L ∧ Isolates (descPoly p.terms) a b L := by
  obtain ⟨q, h1, h2, h3, -, -⟩ := C129_squarefree_part p hp (fun n _ => by simp [tryFromCont]) fuel steps hfuel hsteps
  refine ⟨q, h1, fun fuel' steps' hf hs => ?_⟩
  have hroots : ∀ z : ℝ, aeval z (descPoly q.terms) = 0 ↔ aeval z (descPoly p.terms) = 0 := by
    intro z
    by_cases hz : IsIntegral ℚ z
    · rw [← minpoly.dvd_iff, ← minpoly.dvd_iff, h3 _ (minpoly.irreducible hz)]
    · have hno : ∀ P : ℚ[X], P ≠ 0 → aeval z P ≠ 0 := fun P hP h0 => hz (isAlgebraic_iff_isIntegral.1 ⟨P, hP, h0⟩)
      exact ⟨fun h => absurd h (hno _ h2.ne_zero), fun h => absurd h (hno _ hp)⟩
  have hsimple : ∀ x : ℚ, (descPoly q.terms).eval x = 0 → (derivative (descPoly q.terms)).eval x ≠ 0 := by
    have hsep : (descPoly q.terms).Separable := PerfectField.separable_iff_squarefree.2 h2
    intro x hx hdx
    obtain ⟨u, v, huv⟩ := hsep
    have := congrArg (eval x) huv
    rw [eval_add, eval_mul, eval_mul, hx, hdx] at this
    simp at this
  obtain ⟨n, hn⟩ := C134_isolate_returns q hsimple hab hf hs
  refine ⟨n, fun depth hd => ?_⟩
  obtain ⟨L, hL⟩ := hn depth hd
  refine ⟨L, hL, ?_⟩
  have := (C134_isolate q hsimple hab hf hs depth).2.1 L hL
  simpa only [Isolates, hroots] using this

/-- The roots -√2 and √2 of `x² - 2`; the three of `x³ - 3x + 1`. -/
example : (⟨[1, 0, -2]⟩ : Poly ℚ).isolateRoots 4 4 3 (-2) 2 = .ok [(-2, 0), (0, 2)] ∧
    (⟨[1, 0, -3, 1]⟩ : Poly ℚ).isolateRoots 5 5 4 (-4) 4 = .ok [(-4, 0), (0, 1), (1, 2)] := by
  decide +kernel

/-- A polynomial that meets the condition of `C134_isolate`: if `x² = 2` then `2x ≠ 0`. -/
example : Isolates (descPoly (⟨[1, 0, -2]⟩ : Poly ℚ).terms) (-2) 2 [(-2, 0), (0, 2)] := by
  refine (C134_isolate (⟨[1, 0, -2]⟩ : Poly ℚ) (fun x hx hd => ?_) (by norm_num) (fuel := 4) (steps := 4) (by decide) (by decide) 3).2.1 _
    (by decide +kernel)
  simp [descPoly] at hx hd
  rw [hd] at hx
  norm_num at hx

/-- `x²(x - 1)` has the multiple root 0; its squarefree part has the roots 0 and 1, and the midpoint 0 is the right end of its interval. -/
example : ((⟨[1, -1, 0, 0]⟩ : Poly ℚ).squarefreePart 5 5).bind (fun q => q.isolateRoots 5 5 3 (-2) 2) = .ok [(-2, 0), (0, 2)] := by
  decide +kernel

end Rustnomial
