import Verif.Props.PseudoMachine
import Mathlib.Analysis.Complex.Polynomial.Basic
import Mathlib.Algebra.Polynomial.FieldDivision

/-!
# C143: common roots, and the number of distinct complex roots, of integer polynomials
-/

open Polynomial

set_option linter.unusedSectionVars false

namespace Rustnomial

/-- Bézout. -/
theorem isGcd_bezout {K : Type} [Field K] {G P Q : K[X]} (h : IsGcd G P Q) : ∃ u v : K[X], G = u * P + v * Q := by
  classical
  have h1 : EuclideanDomain.gcd P Q ∣ G := h.2.2 _ (EuclideanDomain.gcd_dvd_left P Q) (EuclideanDomain.gcd_dvd_right P Q)
  obtain ⟨w, hw⟩ := h1
  refine ⟨EuclideanDomain.gcdA P Q * w, EuclideanDomain.gcdB P Q * w, ?_⟩
  rw [hw, EuclideanDomain.gcd_eq_gcd_ab P Q]
  ring

/-- A polynomial over ℂ has as many distinct roots as its degree exceeds that of the gcd with its derivative. -/
theorem card_distinct {P G u v : ℂ[X]} (hP : P ≠ 0) (h1 : G ∣ P) (h2 : G ∣ derivative P) (h3 : G = u * P + v * derivative P) :
    P.natDegree = G.natDegree + P.roots.toFinset.card := by
  have hG : G ≠ 0 := fun h => hP (by rw [h, zero_dvd_iff] at h1; exact h1)
  rw [(IsAlgClosed.splits P).natDegree_eq_card_roots, (IsAlgClosed.splits G).natDegree_eq_card_roots,
    ← Multiset.sum_count_eq_card (s := P.roots.toFinset) (m := P.roots) (fun a ha => Multiset.mem_toFinset.2 ha),
    ← Multiset.sum_count_eq_card (s := P.roots.toFinset) (m := G.roots) (fun a ha => Multiset.mem_toFinset.2 (by
      rw [mem_roots hP]; rw [mem_roots hG] at ha; exact ha.dvd h1)),
    Finset.card_eq_sum_ones, ← Finset.sum_add_distrib]
  refine Finset.sum_congr rfl fun z hz => ?_
  rw [Multiset.mem_toFinset, mem_roots hP] at hz
  rw [count_roots, count_roots]
  have hm : 0 < P.rootMultiplicity z := (rootMultiplicity_pos hP).2 hz
  have hd : derivative P ≠ 0 := by
    intro h0
    have h4 := Polynomial.derivative_eq_zero.1 h0
    rw [natDegree_eq_zero] at h4
    obtain ⟨c, rfl⟩ := h4
    rw [IsRoot, eval_C] at hz
    exact hP (by rw [hz, C_0])
  have hd1 := derivative_rootMultiplicity_of_root hz
  have le1 : G.rootMultiplicity z ≤ P.rootMultiplicity z - 1 := by
    rw [← hd1]; exact rootMultiplicity_le_rootMultiplicity_of_dvd hd h2 z
  have le2 : P.rootMultiplicity z - 1 ≤ G.rootMultiplicity z := by
    rw [le_rootMultiplicity_iff hG, h3]
    refine dvd_add (Dvd.dvd.mul_left ?_ _) (Dvd.dvd.mul_left ?_ _)
    · exact (pow_dvd_pow _ (Nat.sub_le _ _)).trans (pow_rootMultiplicity_dvd P z)
    · rw [← hd1]; exact pow_rootMultiplicity_dvd _ z
  omega

/-- The polynomial over the complex numbers. -/
noncomputable def complexOf (P : ℤ[X]) : ℂ[X] := P.map (Int.castRingHom ℂ)

theorem complexOf_ratOf (P : ℤ[X]) : (ratOf P).map (algebraMap ℚ ℂ) = complexOf P := by
  unfold ratOf complexOf
  rw [Polynomial.map_map]
  congr 1

theorem complexOf_ne {P : ℤ[X]} (h : P ≠ 0) : complexOf P ≠ 0 :=
  (Polynomial.map_ne_zero_iff (RingHom.injective_int _)).2 h

theorem complexOf_natDegree (P : ℤ[X]) : (complexOf P).natDegree = P.natDegree := natDegree_map_eq_of_injective (RingHom.injective_int _) _

theorem complexOf_gcd {G P Q : ℤ[X]} (h : IsGcd (ratOf G) (ratOf P) (ratOf Q)) : complexOf G ∣ complexOf P ∧ complexOf G ∣ complexOf Q ∧
    ∃ u v : ℂ[X], complexOf G = u * complexOf P + v * complexOf Q := by
  obtain ⟨u, v, huv⟩ := isGcd_bezout h
  rw [← complexOf_ratOf G, ← complexOf_ratOf P, ← complexOf_ratOf Q]
  refine ⟨Polynomial.map_dvd _ h.1, Polynomial.map_dvd _ h.2.1, u.map (algebraMap ℚ ℂ), v.map (algebraMap ℚ ℂ), ?_⟩
  rw [huv, Polynomial.map_add, Polynomial.map_mul, Polynomial.map_mul]

theorem share_iff {G P Q : ℤ[X]} (h : IsGcd (ratOf G) (ratOf P) (ratOf Q)) (hPQ : P ≠ 0 ∨ Q ≠ 0) :
    G.natDegree ≠ 0 ↔ ∃ z : ℂ, aeval z P = 0 ∧ aeval z Q = 0 := by
  obtain ⟨h1, h2, u, v, h3⟩ := complexOf_gcd h
  have he : ∀ (R : ℤ[X]) (z : ℂ), aeval z R = (complexOf R).eval z := fun R z => by
    rw [complexOf, aeval_def, eval_map]; rfl
  have hG : complexOf G ≠ 0 := by
    intro h0
    rw [h0, zero_dvd_iff] at h1 h2
    rcases hPQ with k | k
    · exact complexOf_ne k h1
    · exact complexOf_ne k h2
  simp only [he]
  rw [← complexOf_natDegree G]
  constructor
  · intro hd
    obtain ⟨z, hz⟩ := IsAlgClosed.exists_root (complexOf G) (fun h0 => hd (natDegree_eq_of_degree_eq_some h0))
    exact ⟨z, hz.dvd h1, hz.dvd h2⟩
  · rintro ⟨z, hz1, hz2⟩ hd
    rw [natDegree_eq_zero] at hd
    obtain ⟨c, hc⟩ := hd
    have := congrArg (eval z) h3
    rw [eval_add, eval_mul, eval_mul, hz1, hz2, mul_zero, mul_zero, add_zero, ← hc, eval_C] at this
    exact hG (by rw [← hc, this, C_0])

theorem distinct_iff {G P : ℤ[X]} (h : IsGcd (ratOf G) (ratOf P) (ratOf (derivative P))) (hP : P ≠ 0) :
    P.natDegree = G.natDegree + (P.aroots ℂ).toFinset.card := by
  obtain ⟨h1, h2, u, v, h3⟩ := complexOf_gcd h
  have hd : complexOf (derivative P) = derivative (complexOf P) := (derivative_map P _).symm
  rw [hd] at h2 h3
  have := card_distinct (complexOf_ne hP) h1 h2 h3
  rwa [complexOf_natDegree, complexOf_natDegree] at this

/-- **C143.** Whether two integer polynomials have a complex root in common is what the program answers: for all that are not both zero. -/
theorem C143_share_root (a b : Poly ℤ) (hab : descPoly a.terms ≠ 0 ∨ descPoly b.terms ≠ 0) (fuel steps : Nat)
    (hf : max a.terms.length b.terms.length + 1 ≤ fuel) (hs : b.terms.length + 1 ≤ steps) :
    ∃ r, a.shareRoot fuel steps b = .ok r ∧ (r = true ↔ ∃ z : ℂ, aeval z (descPoly a.terms) = 0 ∧ aeval z (descPoly b.terms) = 0) := by
  obtain ⟨g, h1, h2⟩ := C141_gcd a b fuel steps hf hs
  refine ⟨_, by unfold Poly.shareRoot; rw [h1, Res.ok_bind], ?_⟩
  rw [bne_iff_ne, degreeOrZero_eq]
  exact share_iff h2 hab

/-- **C143.** The number of distinct complex roots of an integer polynomial other than zero. -/
theorem C143_distinct_roots (p : Poly ℤ) (hp : descPoly p.terms ≠ 0) (fuel steps : Nat)
    (hf : p.terms.length + 1 ≤ fuel) (hs : p.terms.length + 1 ≤ steps) :
    p.distinctRoots fuel steps = .ok ((descPoly p.terms).aroots ℂ).toFinset.card := by
  obtain ⟨d, hd, hd1, hd2, -⟩ := derivative_returns p (by simp [tryFromCont])
  obtain ⟨g, h1, h2⟩ := C141_gcd p d fuel steps (by omega) (by omega)
  rw [hd1] at h2
  have := distinct_iff h2 hp
  unfold Poly.distinctRoots
  rw [hd, Res.ok_bind, h1, Res.ok_bind, degreeOrZero_eq, degreeOrZero_eq, if_neg (by omega)]
  congr 1
  omega

variable {t : IntTy}

/-- **C143.** On machine integers with overflow checks both are right or panic. -/
theorem C143_machine (uw : Nat) (hbits : 1 ≤ t.bits) (a b p : Poly Int) (hab : descPoly a.terms ≠ 0 ∨ descPoly b.terms ≠ 0)
    (hlen : p.terms.length < 2 ^ uw) (hp : descPoly p.terms ≠ 0) (fuel steps : Nat)
    (hf : max a.terms.length b.terms.length + 1 ≤ fuel) (hs : b.terms.length + 1 ≤ steps)
    (hf' : p.terms.length + 1 ≤ fuel) (hs' : p.terms.length + 1 ≤ steps) :
    (a.shareRootM (.machine true t) fuel steps b = .panic ∨ ∃ r, a.shareRootM (.machine true t) fuel steps b = .ok r ∧
      (r = true ↔ ∃ z : ℂ, aeval z (descPoly a.terms) = 0 ∧ aeval z (descPoly b.terms) = 0)) ∧
    (p.distinctRootsM (.machine true t) (tryFromUsizeContInt uw t) fuel steps = .panic ∨
      p.distinctRootsM (.machine true t) (tryFromUsizeContInt uw t) fuel steps = .ok ((descPoly p.terms).aroots ℂ).toFinset.card) := by
  constructor
  · unfold Poly.shareRootM
    rcases C142_gcd (t := t) a b fuel steps hf hs with h | ⟨g, h, h2⟩
    · rw [h]; exact .inl rfl
    · refine .inr ⟨_, by rw [h, Res.ok_bind], ?_⟩
      rw [bne_iff_ne, degreeOrZero_eq]
      exact share_iff h2 hab
  · unfold Poly.distinctRootsM
    obtain ⟨d1, d2⟩ := C56_derivative uw t hbits p hlen
    by_cases hd : (descPoly p.terms ≠ 0 → t.InRange ((descPoly p.terms).natDegree + 1)) ∧ ∀ d, t.InRange ((descPoly p.terms).derivative.coeff d)
    · obtain ⟨d, e1, e2, -⟩ := d1 hd
      have e1' : p.derivativeM (Arith2.machine true t).toArith (tryFromUsizeContInt uw t) = .ok d := e1
      have hl := derivativeM_length e1
      rw [e1', Res.ok_bind]
      rcases C142_gcd (t := t) p d fuel steps (by omega) (by omega) with h | ⟨g, h, h2⟩
      · rw [h]; exact .inl rfl
      · rw [e2] at h2
        have := distinct_iff h2 hp
        rw [h, Res.ok_bind, degreeOrZero_eq, degreeOrZero_eq, if_neg (by omega)]
        right
        congr 1
        omega
    · have e1' : p.derivativeM (Arith2.machine true t).toArith (tryFromUsizeContInt uw t) = .panic := d2 hd
      rw [e1']; exact .inl rfl

-- `(x² + 1) (x - 1)` and `(x² + 1) (2 x + 3)` have `i` in common, `x² + 1` and `x² + 2` nothing; `(x² + 1)²` has two roots, `x³ - 2` three
example : (⟨[1, -1, 1, -1]⟩ : Poly ℤ).shareRoot 5 5 ⟨[2, 3, 2, 3]⟩ = .ok true ∧ (⟨[1, 0, 1]⟩ : Poly ℤ).shareRoot 4 4 ⟨[1, 0, 2]⟩ = .ok false ∧
    (⟨[1, 0, 2, 0, 1]⟩ : Poly ℤ).distinctRoots 6 6 = .ok 2 ∧ (⟨[1, 0, 0, -2]⟩ : Poly ℤ).distinctRoots 5 5 = .ok 3 := by decide +kernel
example : (⟨[1, -1, 1, -1]⟩ : Poly Int).shareRootM (.machine true ⟨true, 64⟩) 5 5 ⟨[2, 3, 2, 3]⟩ = .ok true ∧
    (⟨[1, 0, 0, -2]⟩ : Poly Int).distinctRootsM (.machine true ⟨true, 64⟩) (tryFromUsizeContInt 64 ⟨true, 64⟩) 5 5 = .ok 3 ∧
    (⟨[1, 0, 0, -2]⟩ : Poly Int).distinctRootsM (.machine true ⟨true, 8⟩) (tryFromUsizeContInt 64 ⟨true, 8⟩) 5 5 = .panic := by decide +kernel

end Rustnomial
