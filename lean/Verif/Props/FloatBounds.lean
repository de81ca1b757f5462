import Verif.Model.Bounds
import Verif.Props.FloatBisect
import Verif.Props.FloatFixed
import Verif.Props.FloatSparse
import Verif.Props.SparseBasic
import Mathlib.Algebra.Polynomial.RuleOfSigns
import Mathlib.Analysis.Polynomial.CauchyBound
import Mathlib.Analysis.Polynomial.Basic

/-!
# C132: counting and bounding roots from the terms
-/

open Polynomial

set_option linter.unusedSectionVars false

namespace Rustnomial
namespace Fl

/-! ## Terms and sign variations -/

section
variable {K : Type} [Field K] [LinearOrder K] [IsStrictOrderedRing K]

theorem IsTermListOf.nil {P : K[X]} (h : IsTermListOf ([] : List (K × Nat)) P) : P = 0 := by
  ext d
  by_contra hne
  have := (h.2 (P.coeff d) d).2 ⟨by simpa using hne, rfl⟩
  simp at this

theorem IsTermListOf.cons {c : K} {e : Nat} {ts : List (K × Nat)} {P : K[X]} (h : IsTermListOf ((c, e) :: ts) P) :
    P.natDegree = e ∧ P.leadingCoeff = c ∧ c ≠ 0 ∧ IsTermListOf ts P.eraseLead := by
  obtain ⟨h1, h2⟩ := h
  obtain ⟨hp, hts⟩ := List.pairwise_cons.1 h1
  obtain ⟨hc, hce⟩ := (h2 c e).1 (by simp)
  have hdeg : P.natDegree = e := by
    refine le_antisymm ?_ (le_natDegree_of_ne_zero (by rw [hce]; exact hc))
    by_contra hlt
    have hP0 : P ≠ 0 := by rintro rfl; simp at hce; exact hc hce.symm
    have := (h2 P.leadingCoeff P.natDegree).2 ⟨leadingCoeff_ne_zero.2 hP0, rfl⟩
    rcases List.mem_cons.1 this with h | h
    · simp only [Prod.mk.injEq] at h; omega
    · have := hp _ h; simp at this; omega
  refine ⟨hdeg, by rw [leadingCoeff, hdeg, hce], hc, hts, fun c' d => ?_⟩
  rw [eraseLead_coeff, hdeg]
  constructor
  · intro hm
    obtain ⟨k1, k2⟩ := (h2 c' d).1 (List.mem_cons_of_mem _ hm)
    have := hp _ hm
    simp at this
    exact ⟨k1, by rw [if_neg (by omega), k2]⟩
  · rintro ⟨k1, k2⟩
    by_cases hd : d = e
    · rw [if_pos hd] at k2; exact absurd k2.symm k1
    · rw [if_neg hd] at k2
      rcases List.mem_cons.1 ((h2 c' d).2 ⟨k1, k2⟩) with h | h
      · simp only [Prod.mk.injEq] at h; exact absurd h.2 hd
      · exact h

/-- The sign changes of a list of signs. -/
def boolChanges : Option Bool → List Bool → Nat
  | _, [] => 0
  | last, s :: ss => (if last = some (!s) then 1 else 0) + boolChanges (some s) ss

theorem changes_eq (ts : List (K × Nat)) (P : K[X]) (h : IsTermListOf ts P) (last : K) (hl : last ≠ 0) :
    boolChanges none (ts.map fun t => decide (0 < t.1)) = P.signVariations ∧
    boolChanges (some (decide (0 < last))) (ts.map fun t => decide (0 < t.1)) =
      P.signVariations + if SignType.sign last = -SignType.sign P.leadingCoeff then 1 else 0 := by
  induction ts generalizing P last with
  | nil =>
    rw [IsTermListOf.nil h]
    simp [boolChanges, hl]
  | cons t ts ih =>
    obtain ⟨c, e⟩ := t
    obtain ⟨-, hlc, hc, hts⟩ := IsTermListOf.cons h
    have hP0 : P ≠ 0 := by rintro rfl; simp at hlc; exact hc hlc.symm
    have h2 := (ih _ hts c hc).2
    rw [← hlc, ← signVariations_eq_eraseLead_add_ite hP0, hlc] at h2
    have e1 : ∀ o, boolChanges o (((c, e) :: ts).map fun t => decide (0 < t.1)) =
      (if o = some (!decide (0 < c)) then 1 else 0) + boolChanges (some (decide (0 < c))) (ts.map fun t => decide (0 < t.1)) := fun _ => rfl
    rw [e1, e1, h2, hlc]
    refine ⟨by simp, ?_⟩
    rw [Nat.add_comm]
    congr 1
    rcases lt_or_gt_of_ne hl with h | h <;> rcases lt_or_gt_of_ne hc with h' | h' <;>
      simp [h, h', not_lt.2 h.le, not_lt.2 h'.le]

theorem termList_neg {ts : List (K × Nat)} {P : K[X]} (h : IsTermListOf ts P) :
    IsTermListOf (ts.map fun t => (t.1 * (-1) ^ t.2, t.2)) (P.comp (-X)) := by
  obtain ⟨h1, h2⟩ := h
  have hne : ∀ d : Nat, ((-1 : K) ^ d) * (-1) ^ d = 1 := fun d => by rw [← mul_pow]; simp
  refine ⟨List.pairwise_map.2 h1, fun c d => ?_⟩
  have hco : (P.comp (-X)).coeff d = P.coeff d * (-1) ^ d := by
    rw [show (-X : K[X]) = C (-1) * X by simp, comp_C_mul_X_coeff]
  rw [hco]
  constructor
  · rw [List.mem_map]
    rintro ⟨⟨c', d'⟩, hm, he⟩
    simp only [Prod.mk.injEq] at he
    obtain ⟨rfl, rfl⟩ := he
    obtain ⟨k1, k2⟩ := (h2 _ _).1 hm
    exact ⟨mul_ne_zero k1 (pow_ne_zero _ (by simp)), by rw [k2]⟩
  · rintro ⟨k1, k2⟩
    refine List.mem_map.2 ⟨(P.coeff d, d), (h2 _ _).2 ⟨?_, rfl⟩, by simp [k2]⟩
    intro h0
    rw [h0, zero_mul] at k2
    exact k1 k2.symm

end

section
variable {N : Type} [IsPositive N]

theorem signChanges_bools (neg : Bool) (last : Option Bool) (ts : List (N × Nat)) :
    signChangesFrom neg last ts = boolChanges last (ts.map fun t => isPositive t.1 != (neg && t.2 % 2 == 1)) := by
  induction ts generalizing last with
  | nil => rfl
  | cons t ts ih =>
    show _ + signChangesFrom neg _ ts = _ + boolChanges _ _
    rw [ih]

/-- The terms `ts`, as numbers `val c`, are those of `P`, and `is_positive` tells their signs. -/
def TermsOf (val : N → ℚ) (ts : List (N × Nat)) (P : ℚ[X]) : Prop :=
  IsTermListOf (ts.map fun t => (val t.1, t.2)) P ∧ ∀ t ∈ ts, (isPositive t.1 = true ↔ 0 < val t.1)

theorem termList_real {ts : List (ℚ × Nat)} {P : ℚ[X]} (h : IsTermListOf ts P) :
    IsTermListOf (ts.map fun t => ((t.1 : ℝ), t.2)) (P.map (algebraMap ℚ ℝ)) := by
  obtain ⟨h1, h2⟩ := h
  refine ⟨List.pairwise_map.2 h1, fun c d => ?_⟩
  rw [coeff_map, List.mem_map]
  constructor
  · rintro ⟨⟨c', d'⟩, hm, he⟩
    simp only [Prod.mk.injEq] at he
    obtain ⟨rfl, rfl⟩ := he
    obtain ⟨k1, k2⟩ := (h2 _ _).1 hm
    exact ⟨by exact_mod_cast k1, by rw [k2]; rfl⟩
  · rintro ⟨k1, k2⟩
    refine ⟨(P.coeff d, d), (h2 _ _).2 ⟨?_, rfl⟩, by simpa using k2⟩
    intro h0
    rw [h0, map_zero] at k2
    exact k1 k2.symm

theorem signChanges_pos {val : N → ℚ} {ts : List (N × Nat)} {P : ℚ[X]} (h : TermsOf val ts P) :
    signChanges false ts = (P.map (algebraMap ℚ ℝ)).signVariations := by
  rw [signChanges, signChanges_bools, ← (changes_eq _ _ (termList_real h.1) 1 one_ne_zero).1, List.map_map, List.map_map]
  congr 1
  refine List.map_congr_left fun t ht => ?_
  have := h.2 t ht
  simp only [Function.comp, Bool.false_and, Bool.bne_false]
  rw [Bool.eq_iff_iff, this, decide_eq_true_iff]
  exact_mod_cast Iff.rfl

theorem signChanges_neg {val : N → ℚ} {ts : List (N × Nat)} {P : ℚ[X]} (h : TermsOf val ts P) :
    signChanges true ts = ((P.map (algebraMap ℚ ℝ)).comp (-X)).signVariations := by
  have hl := termList_real h.1
  rw [signChanges, signChanges_bools, ← (changes_eq _ _ (termList_neg hl) 1 one_ne_zero).1, List.map_map, List.map_map, List.map_map]
  congr 1
  refine List.map_congr_left fun t ht => ?_
  have h1 := h.2 t ht
  have h0 : val t.1 ≠ 0 := ((h.1.2 (val t.1) t.2).1 (List.mem_map_of_mem ht)).1
  simp only [Function.comp, Bool.true_and]
  have hcast : (0 : ℝ) < val t.1 ↔ 0 < val t.1 := by exact_mod_cast Iff.rfl
  have hneg : (val t.1 : ℝ) < 0 ↔ ¬ (0 < val t.1) := by
    rw [not_lt]; constructor
    · intro h; exact_mod_cast h.le
    · intro h; exact_mod_cast lt_of_le_of_ne h h0
  rw [Bool.eq_iff_iff, decide_eq_true_iff]
  rcases Nat.mod_two_eq_zero_or_one t.2 with hm | hm
  · rw [(Nat.even_iff.2 hm).neg_one_pow, mul_one, hm, hcast, ← h1]; simp
  · rw [(Nat.odd_iff.2 hm).neg_one_pow, hm, mul_neg_one, neg_pos, hneg, ← h1]; simp

/-- The number of positive (negative) real roots with their multiplicities. -/
noncomputable def posRoots (P : ℚ[X]) : Nat := (P.map (algebraMap ℚ ℝ)).roots.countP (0 < ·)

noncomputable def negRoots (P : ℚ[X]) : Nat := (P.map (algebraMap ℚ ℝ)).roots.countP (· < 0)

theorem roots_comp_neg (P : ℝ[X]) : (P.comp (-X)).roots = P.roots.map (-·) := by
  classical
  by_cases hP : P = 0
  · simp [hP]
  have hP' : P.comp (-X) ≠ 0 := fun h => hP (by have := congrArg (fun Q => Q.comp (-X)) h; simpa [comp_assoc] using this)
  ext z
  rw [count_roots, show z = - -z by ring, Multiset.count_map_eq_count' _ _ neg_injective, count_roots, neg_neg]
  have key : ∀ n, (X - C z) ^ n ∣ P.comp (-X) ↔ (X - C (-z)) ^ n ∣ P := by
    intro n
    rw [dvd_comp_neg_X_iff, pow_comp, show (X - C z : ℝ[X]).comp (-X) = -(X - C (-z)) by simp; ring, neg_pow]
    rcases neg_one_pow_eq_or ℝ[X] n with h | h <;> rw [h] <;> simp
  refine le_antisymm ?_ ?_
  · rw [le_rootMultiplicity_iff hP, ← key, ← le_rootMultiplicity_iff hP']
  · rw [le_rootMultiplicity_iff hP', key, ← le_rootMultiplicity_iff hP]

theorem negRoots_eq (P : ℚ[X]) : negRoots P = ((P.map (algebraMap ℚ ℝ)).comp (-X)).roots.countP (0 < ·) := by
  rw [roots_comp_neg, Multiset.countP_map, negRoots, Multiset.countP_eq_card_filter]
  simp

/-- **C132.** There are at most as many positive real roots, with their multiplicities, as sign changes. -/
theorem C132_positive_roots {val : N → ℚ} {ts : List (N × Nat)} {P : ℚ[X]} (h : TermsOf val ts P) : posRoots P ≤ signChanges false ts := by
  rw [signChanges_pos h]
  exact roots_countP_pos_le_signVariations _

/-- **C132.** The same with the signs of the odd powers reversed, for negative ones. -/
theorem C132_negative_roots {val : N → ℚ} {ts : List (N × Nat)} {P : ℚ[X]} (h : TermsOf val ts P) : negRoots P ≤ signChanges true ts := by
  rw [signChanges_neg h, negRoots_eq]
  exact roots_countP_pos_le_signVariations _

theorem boolChanges_odd (s : Bool) (ss : List Bool) : Odd (boolChanges (some s) ss) ↔ (s :: ss).getLast (by simp) ≠ s := by
  induction ss generalizing s with
  | nil => simp [boolChanges]
  | cons t ss ih =>
    rw [List.getLast_cons (by simp)]
    have e : boolChanges (some s) (t :: ss) = (if some s = some (!t) then 1 else 0) + boolChanges (some t) ss := rfl
    rw [e, Nat.odd_add, ← Nat.not_odd_iff_even, ih t]
    generalize (t :: ss).getLast _ = l
    cases s <;> cases t <;> cases l <;> simp

theorem exists_pos_root_aux {Q : ℝ[X]} (h0 : Q.eval 0 < 0) (hl : 0 < Q.leadingCoeff) : ∃ z : ℝ, 0 < z ∧ Q.eval z = 0 := by
  have hdeg : 0 < Q.degree := by
    by_contra hd
    have := eq_C_of_degree_le_zero (not_lt.1 hd)
    rw [this] at h0 hl
    simp at h0 hl
    linarith
  have ht := Q.tendsto_atTop_of_leadingCoeff_nonneg hdeg hl.le
  obtain ⟨M, hM1, hM2⟩ := ((Filter.tendsto_atTop.1 ht 1).and (Filter.eventually_gt_atTop 0)).exists
  have hcont : ContinuousOn (fun z => Q.eval z) (Set.Icc 0 M) := Q.continuous.continuousOn
  obtain ⟨z, ⟨h1, h2⟩, h3⟩ := intermediate_value_Icc hM2.le hcont (show (0 : ℝ) ∈ Set.Icc (Q.eval 0) (Q.eval M) from ⟨h0.le, by linarith⟩)
  refine ⟨z, lt_of_le_of_ne h1 ?_, h3⟩
  rintro rfl
  exact h0.ne h3

theorem exists_pos_root {ts : List (ℝ × Nat)} {P : ℝ[X]} (h : IsTermListOf ts P) (ho : Odd (boolChanges none (ts.map fun t => decide (0 < t.1)))) :
    ∃ z : ℝ, 0 < z ∧ P.eval z = 0 := by
  match ts, h, ho with
  | [], _, ho => simp [boolChanges] at ho
  | (c, e) :: ts, h, ho =>
    have hcons := IsTermListOf.cons h
    have e1 : boolChanges none (((c, e) :: ts).map fun t => decide (0 < t.1)) =
      (if none = some (!decide (0 < c)) then 1 else 0) + boolChanges (some (decide (0 < c))) (ts.map fun t => decide (0 < t.1)) := rfl
    rw [e1, if_neg (by simp), Nat.zero_add, boolChanges_odd] at ho
    have hlast : (decide (0 < c) :: (ts.map fun t => decide (0 < t.1))).getLast (by simp) =
        decide (0 < (((c, e) :: ts).getLast (by simp)).1) := by
      have := List.getLast_map (f := fun t : ℝ × Nat => decide (0 < t.1)) (l := (c, e) :: ts) (by simp)
      simpa using this
    rw [hlast] at ho
    generalize hcd : ((c, e) :: ts).getLast (by simp) = t at ho
    obtain ⟨c', d⟩ := t
    have hmem : (c', d) ∈ (c, e) :: ts := by rw [← hcd]; exact List.getLast_mem _
    obtain ⟨hc', hPd⟩ := (h.2 c' d).1 hmem
    have hmin : ∀ k < d, P.coeff k = 0 := by
      intro k hk
      by_contra hne
      have hm := (h.2 (P.coeff k) k).2 ⟨hne, rfl⟩
      have hpw := h.1
      rw [← List.dropLast_append_getLast (show (c, e) :: ts ≠ [] by simp), hcd] at hpw hm
      rcases List.mem_append.1 hm with h' | h'
      · have := (List.pairwise_append.1 hpw).2.2 _ h' (c', d) (by simp)
        simp at this; omega
      · simp at h'; omega
    obtain ⟨Q, hQ⟩ := X_pow_dvd_iff.2 hmin
    have hQ0 : Q.eval 0 = c' := by
      rw [← coeff_zero_eq_eval_zero, ← hPd, hQ]
      simpa using (coeff_X_pow_mul Q d 0).symm
    have hQl : Q.leadingCoeff = c := by
      rw [← hcons.2.1, hQ, leadingCoeff_mul, leadingCoeff_X_pow, one_mul]
    have hroot : ∃ z : ℝ, 0 < z ∧ Q.eval z = 0 := by
      rcases lt_or_gt_of_ne hcons.2.2.1 with hc | hc
      · obtain ⟨z, h1, h2⟩ := exists_pos_root_aux (Q := -Q) (by
          rw [eval_neg, hQ0, neg_lt_zero]
          by_contra hn
          exact ho (by simp [hn, not_lt.2 hc.le])) (by rw [leadingCoeff_neg, hQl]; linarith)
        exact ⟨z, h1, by simpa using h2⟩
      · exact exists_pos_root_aux (Q := Q) (by
          rw [hQ0]
          by_contra hn
          exact ho (by simp [hc, lt_of_le_of_ne (not_lt.1 hn) hc'.symm])) (by rw [hQl]; exact hc)
    obtain ⟨z, h1, h2⟩ := hroot
    exact ⟨z, h1, by rw [hQ, eval_mul, h2, mul_zero]⟩

/-- **C132.** If the number of sign changes is odd, there is a positive real root; if it is 1, exactly one, and that is simple. -/
theorem C132_odd_changes {val : N → ℚ} {ts : List (N × Nat)} {P : ℚ[X]} (h : TermsOf val ts P) :
    (Odd (signChanges false ts) → ∃ z : ℝ, 0 < z ∧ aeval z P = 0) ∧ (signChanges false ts = 1 → posRoots P = 1) := by
  have key : Odd (signChanges false ts) → ∃ z : ℝ, 0 < z ∧ aeval z P = 0 := by
    intro ho
    rw [signChanges_pos h, ← (changes_eq _ _ (termList_real h.1) 1 one_ne_zero).1] at ho
    obtain ⟨z, h1, h2⟩ := exists_pos_root (termList_real h.1) ho
    exact ⟨z, h1, by rwa [eval_map_algebraMap] at h2⟩
  refine ⟨key, fun h1 => le_antisymm (h1 ▸ C132_positive_roots h) ?_⟩
  obtain ⟨z, hz, hz0⟩ := key (by rw [h1]; exact odd_one)
  refine Multiset.countP_pos.2 ⟨z, ?_, hz⟩
  rw [mem_roots', IsRoot, eval_map_algebraMap]
  refine ⟨?_, hz0⟩
  intro h0
  have hv : (P.map (algebraMap ℚ ℝ)).signVariations = 1 := by rw [← signChanges_pos h]; exact h1
  rw [h0, signVariations_zero] at hv
  exact zero_ne_one hv

end

/-! ## The types -/

section
variable {f : FlFmt}

theorem isPositive_rat (c : ℚ) : isPositive c = true ↔ 0 < c := by simp [isPositive]

/-- **C132.** The terms of the exact `Polynomial` and `SparsePolynomial`. -/
theorem C132_exact_terms (p : Poly ℚ) (s : Sparse ℚ) :
    TermsOf id p.orderedTermIter (descPoly p.terms) ∧ TermsOf id s.orderedTermIter (entriesPoly s.terms.entries) := by
  refine ⟨⟨?_, fun t _ => isPositive_rat _⟩, ⟨?_, fun t _ => isPositive_rat _⟩⟩
  · simpa using (C03_dense_terms p).1
  · simpa using (C03_sparse_terms s).1

theorem termList_int {ts : List (ℤ × Nat)} {P : ℤ[X]} (h : IsTermListOf ts P) :
    TermsOf (fun c : ℤ => (c : ℚ)) ts (P.map (Int.castRingHom ℚ)) := by
  obtain ⟨h1, h2⟩ := h
  refine ⟨⟨List.pairwise_map.2 h1, fun c d => ?_⟩, fun t _ => by simp [isPositive]⟩
  rw [coeff_map, List.mem_map]
  constructor
  · rintro ⟨⟨c', d'⟩, hm, he⟩
    simp only [Prod.mk.injEq] at he
    obtain ⟨rfl, rfl⟩ := he
    obtain ⟨k1, k2⟩ := (h2 _ _).1 hm
    exact ⟨by exact_mod_cast k1, by rw [k2]; rfl⟩
  · rintro ⟨k1, k2⟩
    refine ⟨(P.coeff d, d), (h2 _ _).2 ⟨?_, rfl⟩, by simpa using k2⟩
    intro h0
    rw [h0, map_zero] at k2
    exact k1 k2.symm

/-- **C132.** The terms of `Polynomial` and `SparsePolynomial` over the integer types (no arithmetic is done with them, so there is no overflow). -/
theorem C132_integer_terms (p : Poly ℤ) (s : Sparse ℤ) :
    TermsOf (fun c : ℤ => (c : ℚ)) p.orderedTermIter ((descPoly p.terms).map (Int.castRingHom ℚ)) ∧
    TermsOf (fun c : ℤ => (c : ℚ)) s.orderedTermIter ((entriesPoly s.terms.entries).map (Int.castRingHom ℚ)) :=
  ⟨termList_int (C03_dense_terms p).1, termList_int (C03_sparse_terms s).1⟩

theorem termsOf_float {ts : List (Fl f × Nat)} {P : ℚ[X]} (h : IsTermListOf (ts.map fun t => (t.1.toRat, t.2)) P) : TermsOf toRat ts P := by
  refine ⟨h, fun t ht => isPositive_toRat ?_⟩
  have h0 : t.1.toRat ≠ 0 := ((h.2 t.1.toRat t.2).1 (List.mem_map_of_mem ht)).1
  cases ht1 : t.1 with
  | fin s a => rfl
  | nan => rw [ht1] at h0; simp [toRat] at h0
  | inf s => rw [ht1] at h0; simp [toRat] at h0

/-- **C132.** The terms of `Polynomial` and `SparsePolynomial` over floats, as long as the coefficients are finite. -/
theorem C132_float_terms (p : Poly (Fl f)) (hp : ∀ c ∈ p.terms, c.isFinite = true) (s : Sparse (Fl f)) (hs : s.AllFinite) :
    TermsOf toRat p.orderedTermIter (descPoly (p.terms.map toRat)) ∧ TermsOf toRat s.orderedTermIter s.ratPoly :=
  ⟨termsOf_float (C86_dense p p hp).2.2.1, termsOf_float (C85_terms s hs)⟩

/-! ## The size of the roots -/

theorem cauchy_terms {c : ℚ} {e : Nat} {ts : List (ℚ × Nat)} {P : ℚ[X]} (h : IsTermListOf ((c, e) :: ts) P) {b : ℚ} (hb0 : 0 ≤ b)
    (hb : ∀ t ∈ ts, |t.1 / c| ≤ b) (z : ℂ) (hz : aeval z P = 0) : ‖z‖ < b + 1 := by
  obtain ⟨hd, hl, hc, hts⟩ := IsTermListOf.cons h
  have hinj : Function.Injective (algebraMap ℚ ℂ) := (algebraMap ℚ ℂ).injective
  have hP0 : P ≠ 0 := by rintro rfl; simp at hl; exact hc hl.symm
  have hQ0 : P.map (algebraMap ℚ ℂ) ≠ 0 := (Polynomial.map_ne_zero_iff hinj).2 hP0
  have key := IsRoot.norm_lt_cauchyBound hQ0 (a := z) (by rw [IsRoot, eval_map_algebraMap]; exact hz)
  have hnorm : ∀ q : ℚ, ‖(algebraMap ℚ ℂ) q‖ = ((|q| : ℚ) : ℝ) := fun q => by simp
  have hcpos : 0 < |c| := abs_pos.2 hc
  have hle : cauchyBound (P.map (algebraMap ℚ ℂ)) ≤ Real.toNNReal b + 1 := by
    unfold cauchyBound
    refine add_le_add_left ?_ 1
    rw [div_le_iff₀ (by rw [pos_iff_ne_zero, nnnorm_ne_zero_iff]; exact leadingCoeff_ne_zero.2 hQ0)]
    refine Finset.sup_le fun k hk => ?_
    rw [leadingCoeff_map_of_injective hinj, coeff_map, hl]
    rw [← NNReal.coe_le_coe, NNReal.coe_mul, coe_nnnorm, coe_nnnorm, Real.coe_toNNReal _ (by exact_mod_cast hb0), hnorm, hnorm]
    have hk' : k < e := by
      rw [Finset.mem_range, natDegree_map_eq_of_injective hinj, hd] at hk; exact hk
    by_cases h0 : P.coeff k = 0
    · rw [h0]; simp; positivity
    · have hm : (P.coeff k, k) ∈ ts := by
        rcases List.mem_cons.1 ((h.2 _ _).2 ⟨h0, rfl⟩) with h' | h'
        · simp only [Prod.mk.injEq] at h'; omega
        · exact h'
      have := hb _ hm
      rw [abs_div, div_le_iff₀ hcpos] at this
      exact_mod_cast this
  have := lt_of_lt_of_le key hle
  rw [← NNReal.coe_lt_coe, NNReal.coe_add, Real.coe_toNNReal _ (by exact_mod_cast hb0)] at this
  simpa using this

theorem maxRatioFrom_rat (l : ℚ) (hl : l ≠ 0) (b : ℚ) (ts : List (ℚ × Nat)) :
    ∃ r, maxRatioFrom (fun x y => decide (x < y)) l b ts = .ok r ∧ b ≤ r ∧ (∀ t ∈ ts, |t.1 / l| ≤ r) ∧ (r = b ∨ ∃ t ∈ ts, |t.1 / l| = r) := by
  induction ts generalizing b with
  | nil => exact ⟨b, rfl, le_rfl, by simp, .inl rfl⟩
  | cons t ts ih =>
    obtain ⟨c, e⟩ := t
    have hq : (if isPositive (c / l) then c / l else -(c / l)) = |c / l| := by
      by_cases h : 0 < c / l
      · rw [if_pos ((isPositive_rat _).2 h), abs_of_pos h]
      · rw [if_neg (by rw [isPositive_rat]; exact h), abs_of_nonpos (not_lt.1 h)]
    unfold maxRatioFrom
    rw [show (rdiv c l : Res ℚ) = .ok (c / l) by simp [rdiv, hl], Res.ok_bind]
    simp only [hq]
    obtain ⟨r, h1, h2, h3, h4⟩ := ih (if decide (b < |c / l|) = true then |c / l| else b)
    refine ⟨r, h1, ?_, ?_, ?_⟩
    · split at h2
      · next h => exact (le_of_lt (by simpa using h)).trans h2
      · exact h2
    · intro t ht
      rcases List.mem_cons.1 ht with rfl | ht
      · split at h2
        · exact h2
        · next h => exact (not_lt.1 (by simpa using h)).trans h2
      · exact h3 t ht
    · rcases h4 with h | ⟨t, ht, h⟩
      · split at h
        · exact .inr ⟨(c, e), by simp, h.symm⟩
        · exact .inl h
      · exact .inr ⟨t, List.mem_cons_of_mem _ ht, h⟩

/-- **C132.** With exact numbers the program finds for every polynomial other than zero the largest quotient `b` of a coefficient by the leading
one in absolute value (0 if there is only one term), and all complex roots are smaller than `b + 1` in absolute value. -/
theorem C132_root_bound {ts : List (ℚ × Nat)} {P : ℚ[X]} (h : TermsOf id ts P) :
    (P = 0 → maxRatio (fun x y => decide (x < y)) ts = .ok none) ∧
    (P ≠ 0 → ∃ b, maxRatio (fun x y => decide (x < y)) ts = .ok (some b) ∧
      (∀ k < P.natDegree, |P.coeff k / P.leadingCoeff| ≤ b) ∧ (b = 0 ∨ ∃ k < P.natDegree, |P.coeff k / P.leadingCoeff| = b) ∧
      ∀ z : ℂ, aeval z P = 0 → ‖z‖ < b + 1) := by
  have ht : IsTermListOf ts P := by simpa using h.1
  match ts, ht with
  | [], ht => exact ⟨fun _ => rfl, fun h0 => absurd (IsTermListOf.nil ht) h0⟩
  | (c, e) :: ts, ht =>
    obtain ⟨hd, hl, hc, -⟩ := IsTermListOf.cons ht
    refine ⟨fun h0 => absurd hl (by rw [h0]; simpa using hc.symm), fun _ => ?_⟩
    obtain ⟨r, h1, h2, h3, h4⟩ := maxRatioFrom_rat c hc 0 ts
    refine ⟨r, ?_, ?_, ?_, fun z hz => cauchy_terms ht h2 h3 z hz⟩
    · show (maxRatioFrom (fun x y => decide (x < y)) c 0 ts).bind (fun b => .ok (some b)) = _
      rw [h1]; rfl
    · intro k hk
      by_cases h0 : P.coeff k = 0
      · rw [h0, zero_div, abs_zero]; exact h2
      · rcases List.mem_cons.1 ((ht.2 (P.coeff k) k).2 ⟨h0, rfl⟩) with h' | h'
        · have h5 := congrArg Prod.snd h'
          simp only at h5
          omega
        · have h5 := h3 _ h'
          rw [hl]
          exact h5
    · refine h4.imp id ?_
      rintro ⟨⟨c', k⟩, hm, hr⟩
      refine ⟨k, ?_, ?_⟩
      · have := (List.pairwise_cons.1 ht.1).1 _ hm; simpa [hd] using this
      · rw [((ht.2 c' k).1 (List.mem_cons_of_mem _ hm)).2, hl]; exact hr

theorem div_cases {c l : Fl f} (hc : c.isFinite = true) (hl : l.isFinite = true) (h0 : l.toRat ≠ 0) :
    (div c l).isFinite = true ∨ ∃ s, div c l = .inf s := by
  obtain ⟨s, a, rfl⟩ := isFinite_iff.1 hc
  obtain ⟨t, b, rfl⟩ := isFinite_iff.1 hl
  have hb : b ≠ 0 := by rintro rfl; simp [toRat] at h0
  simp only [div, if_neg hb, pack]
  split
  · exact .inl rfl
  · exact .inr ⟨_, rfl⟩

theorem maxRatioFrom_fl {l : Fl f} (hl : l.isFinite = true) (h0 : l.toRat ≠ 0) (b : Fl f) (hb : b.isFinite = true ∨ b = .inf false)
    (ts : List (Fl f × Nat)) (hts : ∀ t ∈ ts, t.1.isFinite = true) :
    ∃ r, maxRatioFrom ltFl l b ts = .ok r ∧ (r.isFinite = true → b.isFinite = true ∧ b.toRat ≤ r.toRat ∧
      ∀ t ∈ ts, (div t.1 l).isFinite = true ∧ |(div t.1 l).toRat| ≤ r.toRat) := by
  induction ts generalizing b with
  | nil => exact ⟨b, rfl, fun h => ⟨h, le_rfl, by simp⟩⟩
  | cons t ts ih =>
    obtain ⟨c, e⟩ := t
    have hc : c.isFinite = true := hts _ List.mem_cons_self
    have hts' : ∀ t ∈ ts, t.1.isFinite = true := fun t ht => hts t (List.mem_cons_of_mem _ ht)
    unfold maxRatioFrom
    rw [show (rdiv c l : Res (Fl f)) = .ok (div c l) from rfl, Res.ok_bind]
    show ∃ r, maxRatioFrom ltFl l (if ltFl b (if isPositive (div c l) then div c l else -div c l) then
      (if isPositive (div c l) then div c l else -div c l) else b) ts = .ok r ∧ _
    rcases div_cases hc hl h0 with hd | ⟨s, hd⟩
    · have hq : (if isPositive (div c l) then div c l else -div c l).isFinite = true := by
        split
        · exact hd
        · rw [isFinite_neg]; exact hd
      have hqv : (if isPositive (div c l) then div c l else -div c l).toRat = |(div c l).toRat| := by
        have := isPositive_toRat hd
        split
        · next h => rw [abs_of_pos (this.1 h)]
        · next h => rw [toRat_neg, abs_of_nonpos (not_lt.1 fun h' => h (this.2 h'))]
      generalize (if isPositive (div c l) then div c l else -div c l) = q at *
      by_cases hlt : ltFl b q = true
      · rw [if_pos hlt]
        obtain ⟨r, h1, h2⟩ := ih q (.inl hq) hts'
        refine ⟨r, h1, fun hr => ?_⟩
        obtain ⟨h3, h4, h5⟩ := h2 hr
        have hbf : b.isFinite = true := by
          rcases hb with h | h
          · exact h
          · obtain ⟨s, a, rfl⟩ := isFinite_iff.1 hq
            rw [h] at hlt; simp [ltFl] at hlt
        refine ⟨hbf, ((ltFl_iff hbf hq).1 hlt).le.trans h4, fun t ht => ?_⟩
        rcases List.mem_cons.1 ht with rfl | ht
        · exact ⟨hd, by rw [← hqv]; exact h4⟩
        · exact h5 t ht
      · rw [if_neg hlt]
        obtain ⟨r, h1, h2⟩ := ih b hb hts'
        refine ⟨r, h1, fun hr => ?_⟩
        obtain ⟨h3, h4, h5⟩ := h2 hr
        refine ⟨h3, h4, fun t ht => ?_⟩
        rcases List.mem_cons.1 ht with rfl | ht
        · refine ⟨hd, ?_⟩
          rw [← hqv]
          exact (not_lt.1 fun h => hlt ((ltFl_iff h3 hq).2 h)).trans h4
        · exact h5 t ht
    · have hq : (if isPositive (div c l) then div c l else -div c l) = .inf false := by
        rw [hd]; cases s <;> rfl
      rw [hq]
      have hnew : (if ltFl b (.inf false) then (.inf false) else b) = (.inf false : Fl f) := by
        rcases hb with h | h
        · obtain ⟨s, a, rfl⟩ := isFinite_iff.1 h
          simp [ltFl]
        · rw [h]; simp [ltFl]
      rw [hnew]
      obtain ⟨r, h1, h2⟩ := ih (.inf false) (.inr rfl) hts'
      exact ⟨r, h1, fun hr => absurd (h2 hr).1 (by simp [isFinite])⟩

/-- **C132.** In floating point the program never panics; if the `b` found is such that `(b + b) + 2` is finite, all complex roots of the stored
polynomial are smaller than that in absolute value. -/
theorem C132_root_bound_float (hp : 3 ≤ f.p) (hq : 1 ≤ f.q) (hw : f.p + f.q ≤ f.w) {ts : List (Fl f × Nat)} {P : ℚ[X]}
    (h : TermsOf toRat ts P) :
    (P = 0 → maxRatio ltFl ts = .ok none) ∧
    (P ≠ 0 → ∃ b, maxRatio ltFl ts = .ok (some b) ∧
      (((b + b) + (1 + 1)).isFinite = true → ∀ z : ℂ, aeval z P = 0 → ‖z‖ < ((b + b) + (1 + 1)).toRat)) := by
  have hfin : ∀ t ∈ ts, t.1.isFinite = true := by
    intro t ht
    have h0 : t.1.toRat ≠ 0 := ((h.1.2 t.1.toRat t.2).1 (List.mem_map_of_mem ht)).1
    cases ht1 : t.1 with
    | fin s a => rfl
    | nan => rw [ht1] at h0; simp [toRat] at h0
    | inf s => rw [ht1] at h0; simp [toRat] at h0
  have ht := h.1
  clear h
  match ts, ht, hfin with
  | [], ht, _ => exact ⟨fun _ => rfl, fun h0 => absurd (IsTermListOf.nil ht) h0⟩
  | (l, e) :: ts, ht, hfin =>
    obtain ⟨hd, hlc, hc, -⟩ := IsTermListOf.cons ht
    have hl : l.isFinite = true := hfin _ List.mem_cons_self
    refine ⟨fun h0 => absurd hlc (by rw [h0, leadingCoeff_zero]; exact hc.symm), fun _ => ?_⟩
    obtain ⟨r, h1, h2⟩ := maxRatioFrom_fl hl hc 0 (.inl rfl) ts (fun t ht => hfin t (List.mem_cons_of_mem _ ht))
    refine ⟨r, ?_, fun hf z hz => ?_⟩
    · show (maxRatioFrom ltFl l 0 ts).bind (fun b => .ok (some b)) = _
      rw [h1]; rfl
    have hrr := (finite_of_add hf).1
    obtain ⟨-, h3, h4⟩ := h2 (finite_of_add hrr).1
    rw [toRat_zero] at h3
    have a1 := add_error hrr
    have a2 := add_error hf
    rw [(two_exact (f := f) (by omega) hw).2] at a2
    have hu0 := uro_nonneg (f := f)
    have hη0 := eta_nonneg (f := f)
    have hu : uro f ≤ 1 / 8 := by
      unfold uro
      rw [div_le_div_iff₀ (by positivity) (by norm_num)]
      calc (1 : ℚ) * 8 = 2 ^ 3 := by norm_num
        _ ≤ 1 * 2 ^ f.p := by rw [one_mul]; exact pow_le_pow_right₀ (by norm_num) hp
    have hη : eta f ≤ 1 / 4 := by
      unfold eta
      have : (2 : ℚ) ^ 1 ≤ 2 ^ f.q := pow_le_pow_right₀ (by norm_num) hq
      rw [div_div, div_le_div_iff₀ (by positivity) (by norm_num)]
      linarith
    have hbound : ∀ t ∈ ts.map (fun t => (t.1.toRat, t.2)), |t.1 / l.toRat| ≤ 8 / 7 * (r.toRat + 1 / 4) := by
      intro t ht'
      obtain ⟨t', ht'', rfl⟩ := List.mem_map.1 ht'
      obtain ⟨k1, k2⟩ := h4 t' ht''
      have k3 := div_error (hfin t' (List.mem_cons_of_mem _ ht'')) hl hc k1
      have k4 := abs_sub_abs_le_abs_sub (t'.1.toRat / l.toRat) (div t'.1 l).toRat
      rw [abs_sub_comm] at k4
      have k5 : uro f * |t'.1.toRat / l.toRat| ≤ 1 / 8 * |t'.1.toRat / l.toRat| := mul_le_mul_of_nonneg_right hu (abs_nonneg _)
      show |t'.1.toRat / l.toRat| ≤ _
      linarith
    have key := cauchy_terms ht (by linarith) hbound z hz
    refine key.trans_le ?_
    have fin : 8 / 7 * (r.toRat + 1 / 4) + 1 ≤ (r + r + (1 + 1)).toRat := by
      rw [abs_of_nonneg (by linarith : (0 : ℚ) ≤ r.toRat + r.toRat)] at a1
      have b1 := (abs_le.1 a1).1
      have b2 : uro f * (r.toRat + r.toRat) ≤ 1 / 8 * (r.toRat + r.toRat) := mul_le_mul_of_nonneg_right hu (by linarith)
      have b3 : 0 ≤ (r + r).toRat := by linarith
      rw [abs_of_nonneg (by linarith : (0 : ℚ) ≤ (r + r).toRat + 2)] at a2
      have b4 := (abs_le.1 a2).1
      have b5 : uro f * ((r + r).toRat + 2) ≤ 1 / 8 * ((r + r).toRat + 2) := mul_le_mul_of_nonneg_right hu (by linarith)
      linarith
    exact_mod_cast fin

-- `x³ - 2x² - 5x + 6 = (x - 1)(x - 3)(x + 2)`: two sign changes, one for `-x`; the largest quotient is 6
example : signChanges false (⟨[1, -2, -5, 6]⟩ : Poly ℚ).orderedTermIter = 2 ∧ signChanges true (⟨[1, -2, -5, 6]⟩ : Poly ℚ).orderedTermIter = 1 ∧
    maxRatio (fun x y => decide (x < y)) (⟨[1, -2, -5, 6]⟩ : Poly ℚ).orderedTermIter = .ok (some 6) := by decide +kernel

-- `x⁵ - x - 1` over `f64`: exactly one positive root; all complex roots are below 4
example : (∀ c ∈ (⟨[1, 0, 0, 0, -1, -1]⟩ : Poly (Fl binary64)).terms, c.isFinite = true) ∧
    signChanges false (⟨[1, 0, 0, 0, -1, -1]⟩ : Poly (Fl binary64)).orderedTermIter = 1 ∧
    maxRatio ltFl (⟨[1, 0, 0, 0, -1, -1]⟩ : Poly (Fl binary64)).orderedTermIter = .ok (some 1) ∧
    (((1 + 1) + (1 + 1) : Fl binary64)).toRat = 4 := by decide +kernel

end

end Fl
end Rustnomial
