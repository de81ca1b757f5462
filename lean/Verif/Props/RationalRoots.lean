import Verif.Model.RationalRoots
import Verif.Props.Resultant
import Mathlib.RingTheory.Polynomial.RationalRoot
import Mathlib.RingTheory.Localization.Rat
import Mathlib.Algebra.Polynomial.SpecificDegree

/-!
# C144: all rational roots of an integer polynomial
-/

open Polynomial

namespace Rustnomial

theorem mem_trialLoop (pr : Poly ℚ) : ∀ (cs : List (ℤ × ℕ)) (roots : List ℚ), roots.Nodup →
    (trialLoop pr cs roots).Nodup ∧
    ∀ x, x ∈ trialLoop pr cs roots ↔ x ∈ roots ∨ (pr.eval x = 0 ∧ ∃ c ∈ cs, x = (c.1 : ℚ) / (c.2 : ℚ))
  | [], roots, h => ⟨h, fun x => by simp [trialLoop]⟩
  | (k, q) :: cs, roots, h => by
    unfold trialLoop
    simp only
    by_cases hc : pr.eval ((k : ℚ) / (q : ℚ)) = 0 ∧ (k : ℚ) / (q : ℚ) ∉ roots
    · rw [if_pos (by simp [hc])]
      obtain ⟨i1, i2⟩ := mem_trialLoop pr cs (roots ++ [(k : ℚ) / (q : ℚ)]) (by
        rw [List.nodup_append]
        refine ⟨h, by simp, ?_⟩
        rintro a ha b hb rfl
        rw [List.mem_singleton] at hb
        exact hc.2 (hb ▸ ha))
      refine ⟨i1, fun x => ?_⟩
      rw [i2 x, List.mem_append, List.mem_singleton]
      constructor
      · rintro ((h1 | rfl) | ⟨h1, c, h2, h3⟩)
        · exact .inl h1
        · exact .inr ⟨hc.1, (k, q), by simp, rfl⟩
        · exact .inr ⟨h1, c, List.mem_cons_of_mem _ h2, h3⟩
      · rintro (h1 | ⟨h1, c, h2, h3⟩)
        · exact .inl (.inl h1)
        · rcases List.mem_cons.1 h2 with rfl | h2
          · exact .inl (.inr h3)
          · exact .inr ⟨h1, c, h2, h3⟩
    · rw [if_neg (by
        rw [Bool.and_eq_true, Bool.not_eq_true', decide_eq_true_eq]
        rintro ⟨h1, h2⟩
        exact hc ⟨h1, by simpa using h2⟩)]
      obtain ⟨i1, i2⟩ := mem_trialLoop pr cs roots h
      refine ⟨i1, fun x => ?_⟩
      rw [i2 x]
      constructor
      · rintro (h1 | ⟨h1, c, h2, h3⟩)
        · exact .inl h1
        · exact .inr ⟨h1, c, List.mem_cons_of_mem _ h2, h3⟩
      · rintro (h1 | ⟨h1, c, h2, h3⟩)
        · exact .inl h1
        · rcases List.mem_cons.1 h2 with rfl | h2
          · left
            by_contra h4
            exact hc ⟨h3 ▸ h1, h3 ▸ h4⟩
          · exact .inr ⟨h1, c, h2, h3⟩

theorem mem_candidates {m n : ℕ} {k : ℤ} {q : ℕ} (hk : k.natAbs ≤ m) (hq : 0 < q) (hqn : q ≤ n) : (k, q) ∈ candidates m n := by
  unfold candidates
  rw [List.mem_flatMap]
  refine ⟨q - 1, List.mem_range.2 (by omega), List.mem_map.2 ⟨(k + m).toNat, List.mem_range.2 (by omega), ?_⟩⟩
  rw [Prod.mk.injEq]
  omega

/-- The last of the terms: what is below it is zero. -/
theorem termIter_last {p : Poly ℤ} {c : ℤ} {e : ℕ} (h : p.orderedTermIter.getLast? = some (c, e)) :
    c ≠ 0 ∧ ∃ R : ℤ[X], descPoly p.terms = X ^ e * R ∧ R.coeff 0 = c := by
  obtain ⟨h1, h2⟩ := (C03_dense_terms p).1
  obtain ⟨l, hl⟩ := List.getLast?_eq_some_iff.1 h
  obtain ⟨hc, hce⟩ := (h2 c e).1 (by rw [hl]; simp)
  have hdvd : X ^ e ∣ descPoly p.terms := by
    rw [X_pow_dvd_iff]
    intro d hd
    by_contra h0
    have hm := (h2 _ d).2 ⟨h0, rfl⟩
    rw [hl] at hm h1
    rw [List.mem_append, List.mem_singleton] at hm
    rcases hm with hm | hm
    · have := (List.pairwise_append.1 h1).2.2 _ hm _ (List.mem_singleton.2 rfl)
      simp at this
      omega
    · simp only [Prod.mk.injEq] at hm; omega
  obtain ⟨R, hR⟩ := hdvd
  refine ⟨hc, R, hR, ?_⟩
  rw [← hce, hR, coeff_X_pow_mul' , if_pos le_rfl, Nat.sub_self]

theorem descPoly_map_cast (l : List ℤ) : descPoly (l.map fun c : ℤ => (c : ℚ)) = (descPoly l).map (Int.castRingHom ℚ) := by
  induction l with
  | nil => simp [descPoly]
  | cons x l ih => simp [descPoly_cons, ih]

/-- **C144.** For every integer polynomial other than zero the program returns every rational root once, and nothing else. -/
theorem C144_rational_roots (p : Poly ℤ) (hp : descPoly p.terms ≠ 0) :
    ∃ roots, p.rationalRoots = .ok roots ∧ roots.Nodup ∧ ∀ x : ℚ, x ∈ roots ↔ aeval x (descPoly p.terms) = 0 := by
  unfold Poly.rationalRoots
  simp only
  cases h : p.orderedTermIter with
  | nil => exact absurd (termIter_nil h) hp
  | cons t ts =>
    obtain ⟨l, n⟩ := t
    obtain ⟨-, hl, hl0⟩ := termIter_cons h
    obtain ⟨⟨c, e⟩, hlast⟩ : ∃ y, p.orderedTermIter.getLast? = some y := by
      rw [h]; exact ⟨_, List.getLast?_eq_some_getLast (List.cons_ne_nil _ _)⟩
    obtain ⟨hc, R, hR, hR0⟩ := termIter_last hlast
    rw [h] at hlast
    rw [List.head?_cons, hlast]
    simp only
    obtain ⟨i1, i2⟩ := mem_trialLoop (Poly.new (p.terms.map fun c : ℤ => (c : ℚ))) (candidates c.natAbs l.natAbs) [] List.nodup_nil
    refine ⟨_, rfl, i1, fun x => ?_⟩
    have he : (Poly.new (p.terms.map fun c : ℤ => (c : ℚ))).eval x = aeval x (descPoly p.terms) := by
      rw [C06_dense_eval, C01_new_same_polynomial, descPoly_map_cast, eval_map, aeval_def]
      rfl
    rw [i2 x, he]
    constructor
    · rintro (h1 | ⟨h1, -⟩)
      · cases h1
      · exact h1
    · intro hx
      refine .inr ⟨hx, ?_⟩
      by_cases hx0 : x = 0
      · exact ⟨(0, 1), mem_candidates (by simp) one_pos (Int.natAbs_pos.2 hl0), by simp [hx0]⟩
      · have hxR : aeval x R = 0 := by
          rw [hR, map_mul, map_pow, aeval_X] at hx
          exact (mul_eq_zero.1 hx).resolve_left (pow_ne_zero _ hx0)
        have d1 : IsFractionRing.num ℤ x ∣ c := hR0 ▸ num_dvd_of_is_root hxR
        have d2 : (IsFractionRing.den ℤ x : ℤ) ∣ l := hl ▸ den_dvd_of_is_root hx
        set u := IsFractionRing.num ℤ x with hu
        set v := (IsFractionRing.den ℤ x : ℤ) with hv
        have hv0 : v ≠ 0 := nonZeroDivisors.coe_ne_zero _
        have hxuv : x = (u : ℚ) / (v : ℚ) := by
          have := IsFractionRing.mk'_num_den ℤ x
          rw [IsFractionRing.mk'_eq_div] at this
          rw [← this]
          simp [hu, hv]
        have b1 : u.natAbs ≤ c.natAbs := Nat.le_of_dvd (Int.natAbs_pos.2 hc) (Int.natAbs_dvd_natAbs.2 d1)
        have b2 : v.natAbs ≤ l.natAbs := Nat.le_of_dvd (Int.natAbs_pos.2 hl0) (Int.natAbs_dvd_natAbs.2 d2)
        have b3 : 0 < v.natAbs := Int.natAbs_pos.2 hv0
        rcases lt_or_gt_of_ne hv0 with hneg | hpos
        · refine ⟨(-u, v.natAbs), mem_candidates (by simpa using b1) b3 b2, ?_⟩
          have : ((v.natAbs : ℕ) : ℚ) = -(v : ℚ) := by
            have h1 : ((v.natAbs : ℕ) : ℤ) = -v := by omega
            rw [← Int.cast_natCast, h1, Int.cast_neg]
          simp only [this, Int.cast_neg, neg_div_neg_eq]
          exact hxuv
        · refine ⟨(u, v.natAbs), mem_candidates b1 b3 b2, ?_⟩
          have : ((v.natAbs : ℕ) : ℚ) = (v : ℚ) := by
            have h1 : ((v.natAbs : ℕ) : ℤ) = v := by omega
            rw [← Int.cast_natCast, h1]
          simp only [this]
          exact hxuv

/-- **C144.** For zero it panics. -/
theorem C144_zero (p : Poly ℤ) (hp : descPoly p.terms = 0) : p.rationalRoots = .panic := by
  unfold Poly.rationalRoots
  simp only
  cases h : p.orderedTermIter with
  | nil => rfl
  | cons t ts =>
    obtain ⟨l, n⟩ := t
    obtain ⟨-, h2, h3⟩ := termIter_cons h
    rw [hp, leadingCoeff_zero] at h2
    exact absurd h2.symm h3

/-- **C144.** An integer polynomial of degree 2 or 3 is irreducible over the rational numbers exactly if the program returns an empty list. -/
theorem C144_irreducible (p : Poly ℤ) (h2 : 2 ≤ (descPoly p.terms).natDegree) (h3 : (descPoly p.terms).natDegree ≤ 3) :
    p.rationalRoots = .ok [] ↔ Irreducible ((descPoly p.terms).map (Int.castRingHom ℚ)) := by
  have hp : descPoly p.terms ≠ 0 := by rintro h0; rw [h0, natDegree_zero] at h2; omega
  obtain ⟨roots, h1, -, h4⟩ := C144_rational_roots p hp
  have hd : ((descPoly p.terms).map (Int.castRingHom ℚ)).natDegree = (descPoly p.terms).natDegree :=
    natDegree_map_eq_of_injective (RingHom.injective_int _) _
  have hq : (descPoly p.terms).map (Int.castRingHom ℚ) ≠ 0 := (Polynomial.map_ne_zero_iff (RingHom.injective_int _)).2 hp
  rw [irreducible_iff_roots_eq_zero_of_degree_le_three (by omega) (by omega), h1, Multiset.eq_zero_iff_forall_notMem]
  have hm : ∀ x, x ∈ ((descPoly p.terms).map (Int.castRingHom ℚ)).roots ↔ x ∈ roots := by
    intro x
    rw [h4 x, mem_roots hq, IsRoot, eval_map, aeval_def]
    rfl
  constructor
  · intro h x hx
    have : roots = [] := by simpa using h
    rw [hm, this] at hx
    cases hx
  · intro h
    rw [List.eq_nil_iff_forall_not_mem.2 fun x hx => h x ((hm x).2 hx)]

-- `(2 x - 1) (x + 3) x²`; `x³ - 2` is irreducible
example : (⟨[2, 5, -3, 0, 0]⟩ : Poly ℤ).rationalRoots = .ok [-3, 0, 1 / 2] ∧ (⟨[1, 0, 0, -2]⟩ : Poly ℤ).rationalRoots = .ok [] := by
  decide +kernel

end Rustnomial
