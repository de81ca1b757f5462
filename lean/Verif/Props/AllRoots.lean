import Verif.Model.AllRoots
import Verif.Props.PseudoMachine
import Mathlib.Analysis.Polynomial.CauchyBound
import Mathlib.Topology.Algebra.Polynomial

/-!
# C146: all real roots of an integer polynomial, and whether it is positive everywhere
-/

open Polynomial

set_option linter.unusedSectionVars false

namespace Rustnomial

theorem absSumFrom_eq : ∀ (ts : List (ℤ × Nat)) (m : ℤ), absSumFrom m ts = m + (ts.map fun t => |t.1|).sum
  | [], m => by simp [absSumFrom]
  | (c, e) :: ts, m => by
    unfold absSumFrom
    rw [absSumFrom_eq ts, List.map_cons, List.sum_cons, ← add_assoc]
    congr 2
    by_cases h : 0 < c
    · simp [isPositive, h, abs_of_pos h]
    · simp [isPositive, h, abs_of_nonpos (not_lt.1 h)]

theorem le_absSum {ts : List (ℤ × Nat)} {t : ℤ × Nat} (ht : t ∈ ts) : |t.1| ≤ (ts.map fun t => |t.1|).sum :=
  List.single_le_sum (by
    intro x hx
    obtain ⟨a, -, rfl⟩ := List.mem_map.1 hx
    exact abs_nonneg _) _ (List.mem_map_of_mem ht)

theorem coeff_le_absSum (p : Poly ℤ) (i : ℕ) : |(descPoly p.terms).coeff i| + 1 ≤ absSumFrom 1 p.orderedTermIter := by
  rw [absSumFrom_eq, add_comm]
  have h0 : 0 ≤ (p.orderedTermIter.map fun t => |t.1|).sum := List.sum_nonneg (by
    intro x hx
    obtain ⟨a, -, rfl⟩ := List.mem_map.1 hx
    exact abs_nonneg _)
  by_cases h : (descPoly p.terms).coeff i = 0
  · rw [h, abs_zero]; omega
  · have := le_absSum (((C03_dense_terms p).1.2 _ i).2 ⟨h, rfl⟩)
    simp only at this
    omega

/-- The sum bounds the real roots. -/
theorem root_lt_absSum (p : Poly ℤ) (hp : descPoly p.terms ≠ 0) {z : ℝ} (hz : aeval z (descPoly p.terms) = 0) :
    |z| < (absSumFrom 1 p.orderedTermIter : ℤ) := by
  set P := descPoly p.terms
  set m := absSumFrom 1 p.orderedTermIter with hm
  have hP : P.map (Int.castRingHom ℝ) ≠ 0 := (Polynomial.map_ne_zero_iff (RingHom.injective_int _)).2 hp
  have hroot : (P.map (Int.castRingHom ℝ)).IsRoot z := by
    rw [IsRoot, eval_map]; exact hz
  have hb := hroot.norm_lt_cauchyBound hP
  have hm1 : (1 : ℤ) ≤ m := by
    have := coeff_le_absSum p 0
    have h0 := abs_nonneg ((descPoly p.terms).coeff 0)
    omega
  have hlead : (1 : ℝ) ≤ ‖(P.map (Int.castRingHom ℝ)).leadingCoeff‖ := by
    rw [leadingCoeff_map_of_injective (RingHom.injective_int _), eq_intCast, Real.norm_eq_abs]
    have : (1 : ℤ) ≤ |P.leadingCoeff| := Int.one_le_abs (leadingCoeff_ne_zero.2 hp)
    exact_mod_cast this
  have hle : (cauchyBound (P.map (Int.castRingHom ℝ)) : ℝ) ≤ m := by
    unfold cauchyBound
    push_cast
    have h1 : (((Finset.range (P.map (Int.castRingHom ℝ)).natDegree).sup fun i => ‖(P.map (Int.castRingHom ℝ)).coeff i‖₊ : NNReal) : ℝ) ≤ m - 1 := by
      have h2 : ((Finset.range (P.map (Int.castRingHom ℝ)).natDegree).sup fun i => ‖(P.map (Int.castRingHom ℝ)).coeff i‖₊) ≤
          Real.toNNReal ((m : ℝ) - 1) := by
        refine Finset.sup_le fun i _ => ?_
        rw [← NNReal.coe_le_coe, Real.coe_toNNReal _ (by have : (1 : ℝ) ≤ m := by exact_mod_cast hm1
                                                         linarith)]
        rw [coe_nnnorm, coeff_map, eq_intCast, Real.norm_eq_abs]
        have := coeff_le_absSum p i
        have h3 : ((|P.coeff i| : ℤ) : ℝ) + 1 ≤ m := by exact_mod_cast this
        rw [Int.cast_abs] at h3
        linarith
      calc _ ≤ ((Real.toNNReal ((m : ℝ) - 1) : NNReal) : ℝ) := NNReal.coe_le_coe.2 h2
        _ = m - 1 := Real.coe_toNNReal _ (by have : (1 : ℝ) ≤ m := by exact_mod_cast hm1
                                             linarith)
    have h4 := div_le_self (NNReal.coe_nonneg ((Finset.range (P.map (Int.castRingHom ℝ)).natDegree).sup
      fun i => ‖(P.map (Int.castRingHom ℝ)).coeff i‖₊)) hlead
    linarith
  calc |z| = ‖z‖ := (Real.norm_eq_abs z).symm
    _ < cauchyBound (P.map (Int.castRingHom ℝ)) := by exact_mod_cast hb
    _ ≤ m := hle

theorem absSum_pos (p : Poly ℤ) : 0 < absSumFrom 1 p.orderedTermIter := by
  have := coeff_le_absSum p 0
  have h0 := abs_nonneg ((descPoly p.terms).coeff 0)
  omega

theorem eval_ne_of_absSum (p : Poly ℤ) (hp : descPoly p.terms ≠ 0) {x : ℤ} (hx : absSumFrom 1 p.orderedTermIter ≤ |x|) :
    (descPoly p.terms).eval x ≠ 0 := by
  intro h0
  have := root_lt_absSum p hp (z := (x : ℝ)) (by
    have := Polynomial.aeval_algebraMap_apply_eq_algebraMap_eval (A := ℝ) x (descPoly p.terms)
    rw [h0] at this
    simpa using this)
  have h1 : |x| < absSumFrom 1 p.orderedTermIter := by exact_mod_cast this
  omega

theorem rootsIn_all (p : Poly ℤ) (hp : descPoly p.terms ≠ 0) :
    rootsIn ((descPoly p.terms).map (Int.castRingHom ℚ)) ((-absSumFrom 1 p.orderedTermIter : ℤ) : ℝ) ((absSumFrom 1 p.orderedTermIter : ℤ) : ℝ) =
      ((descPoly p.terms).aroots ℝ).toFinset := by
  have hq : (descPoly p.terms).map (Int.castRingHom ℚ) ≠ 0 := (Polynomial.map_ne_zero_iff (RingHom.injective_int _)).2 hp
  ext z
  have he : aeval z ((descPoly p.terms).map (Int.castRingHom ℚ)) = aeval z (descPoly p.terms) := by
    rw [aeval_def, eval₂_map, aeval_def]
    congr 1
  rw [mem_rootsIn hq, he]
  simp only [Multiset.mem_toFinset, mem_aroots]
  refine ⟨fun h => ⟨hp, h.1⟩, fun h => ⟨h.2, ?_⟩⟩
  have := abs_lt.1 (root_lt_absSum p hp h.2)
  push_cast
  exact ⟨this.1, this.2.le⟩

/-- **C146.** The number of distinct real roots of an integer polynomial other than zero. -/
theorem C146_count_all (p : Poly ℤ) (hp : descPoly p.terms ≠ 0) (fuel steps : Nat)
    (hf : p.terms.length + 1 ≤ fuel) (hs : p.terms.length + 1 ≤ steps) :
    p.countAllRoots fuel steps = .ok ((descPoly p.terms).aroots ℝ).toFinset.card := by
  have hm := absSum_pos p
  unfold Poly.countAllRoots
  simp only
  rw [C141_count p hp (by omega) (fun h => absurd h (eval_ne_of_absSum p hp (by rw [abs_neg]; exact le_abs_self _)))
    (fun h => absurd h (eval_ne_of_absSum p hp (le_abs_self _))) hf hs, rootsIn_all p hp]

/-- Positive everywhere: no real root, and positive at zero. -/
theorem positive_iff {P : ℤ[X]} (hP : P ≠ 0) : (∀ x : ℝ, 0 < aeval x P) ↔ (P.aroots ℝ).toFinset.card = 0 ∧ 0 < P.eval 0 := by
  have h0 : aeval (0 : ℝ) P = ((P.eval 0 : ℤ) : ℝ) := by
    have := Polynomial.aeval_algebraMap_apply_eq_algebraMap_eval (A := ℝ) (0 : ℤ) P
    simpa using this
  rw [Finset.card_eq_zero]
  constructor
  · intro h
    refine ⟨?_, by have := h 0; rw [h0] at this; exact_mod_cast this⟩
    rw [Finset.eq_empty_iff_forall_notMem]
    intro z hz
    rw [Multiset.mem_toFinset, mem_aroots] at hz
    exact (h z).ne' hz.2
  · rintro ⟨h1, h2⟩ x
    by_contra hx
    obtain ⟨z, hz⟩ := mem_range_of_exists_le_of_exists_ge (c := (0 : ℝ)) (f := fun x : ℝ => aeval x P) (Polynomial.continuous_aeval P)
      ⟨x, not_lt.1 hx⟩ ⟨0, by rw [h0]; exact_mod_cast h2.le⟩
    have : z ∈ (P.aroots ℝ).toFinset := by rw [Multiset.mem_toFinset, mem_aroots]; exact ⟨hP, hz⟩
    rw [h1] at this
    exact absurd this (Finset.notMem_empty z)

/-- **C146.** Whether an integer polynomial is positive at every real number is what the program answers. -/
theorem C146_positive (p : Poly ℤ) (fuel steps : Nat) (hf : p.terms.length + 1 ≤ fuel) (hs : p.terms.length + 1 ≤ steps) :
    ∃ r, p.positiveEverywhere fuel steps = .ok r ∧ (r = true ↔ ∀ x : ℝ, 0 < aeval x (descPoly p.terms)) := by
  unfold Poly.positiveEverywhere
  by_cases hp : descPoly p.terms = 0
  · rw [if_pos ((C02_dense_is_zero p).2 hp)]
    exact ⟨false, rfl, by simp [hp]⟩
  · rw [if_neg (fun h => hp ((C02_dense_is_zero p).1 h)), C146_count_all p hp fuel steps hf hs, Res.ok_bind]
    refine ⟨_, rfl, ?_⟩
    rw [positive_iff hp, Bool.and_eq_true, beq_iff_eq, C06_dense_eval]
    simp [isPositive]

variable {t : IntTy}

theorem absSumFromM_ref : ∀ (ts : List (Int × Nat)) (m : Int), Ref (absSumFromM (Arith2.machine true t).toArith m ts) (.ok (absSumFrom m ts))
  | [], m => .refl _
  | (c, e) :: ts, m => by
    unfold absSumFromM absSumFrom
    have h1 : Ref (absM (Arith2.machine true t).toArith c) (.ok (if isPositive c then c else -c)) := by
      unfold absM
      split
      · exact .refl _
      · exact ref_result t _
    rcases h1 with h1 | h1
    · rw [h1]; exact .inl rfl
    · rw [h1, Res.ok_bind]
      have h2 : Ref ((Arith2.machine true t).add m (if isPositive c then c else -c)) (.ok (m + if isPositive c then c else -c)) := ref_result t _
      rcases h2 with h2 | h2
      · rw [h2]; exact .inl rfl
      · rw [h2, Res.ok_bind]; exact absSumFromM_ref ts _

/-- **C146.** On machine integers with overflow checks both are right or panic. -/
theorem C146_machine (uw : Nat) (hbits : 1 ≤ t.bits) (p : Poly Int) (hlen : p.terms.length < 2 ^ uw) (fuel steps : Nat)
    (hf : p.terms.length + 1 ≤ fuel) (hs : p.terms.length + 1 ≤ steps) :
    (descPoly p.terms ≠ 0 → p.countAllRootsM (.machine true t) (tryFromUsizeContInt uw t) fuel steps = .panic ∨
      p.countAllRootsM (.machine true t) (tryFromUsizeContInt uw t) fuel steps = .ok ((descPoly p.terms).aroots ℝ).toFinset.card) ∧
    (p.positiveEverywhereM (.machine true t) (tryFromUsizeContInt uw t) fuel steps = .panic ∨
      ∃ r, p.positiveEverywhereM (.machine true t) (tryFromUsizeContInt uw t) fuel steps = .ok r ∧
        (r = true ↔ ∀ x : ℝ, 0 < aeval x (descPoly p.terms))) := by
  have key : descPoly p.terms ≠ 0 → p.countAllRootsM (.machine true t) (tryFromUsizeContInt uw t) fuel steps = .panic ∨
      p.countAllRootsM (.machine true t) (tryFromUsizeContInt uw t) fuel steps = .ok ((descPoly p.terms).aroots ℝ).toFinset.card := by
    intro hp
    have hm := absSum_pos p
    unfold Poly.countAllRootsM
    rcases absSumFromM_ref (t := t) p.orderedTermIter 1 with h | h
    · rw [h]; exact .inl rfl
    · rw [h, Res.ok_bind]
      have h2 : Ref ((Arith2.machine true t).neg (absSumFrom 1 p.orderedTermIter)) (.ok (-absSumFrom 1 p.orderedTermIter)) := ref_result t _
      rcases h2 with h2 | h2
      · rw [h2]; exact .inl rfl
      · rw [h2, Res.ok_bind, ← rootsIn_all p hp]
        exact C142_count uw hbits p hlen hp (by omega)
          (fun h => absurd h (eval_ne_of_absSum p hp (by rw [abs_neg]; exact le_abs_self _)))
          (fun h => absurd h (eval_ne_of_absSum p hp (le_abs_self _))) hf hs
  refine ⟨key, ?_⟩
  unfold Poly.positiveEverywhereM
  by_cases hp : descPoly p.terms = 0
  · rw [if_pos ((C02_dense_is_zero p).2 hp)]
    exact .inr ⟨false, rfl, by simp [hp]⟩
  · rw [if_neg (fun h => hp ((C02_dense_is_zero p).1 h))]
    rcases key hp with h | h
    · rw [h]; exact .inl rfl
    · rw [h, Res.ok_bind]
      right
      by_cases hn : ((descPoly p.terms).aroots ℝ).toFinset.card = 0
      · rw [if_pos hn]
        have he : p.evalM (Arith2.machine true t).toArith 0 = .ok ((descPoly p.terms).eval 0) := (C56_eval t p 0).1 (.inl rfl)
        rw [he, Res.ok_bind]
        refine ⟨_, rfl, ?_⟩
        rw [positive_iff hp]
        simp [isPositive, hn]
      · rw [if_neg hn]
        exact ⟨false, rfl, by rw [positive_iff hp]; simp [hn]⟩

-- `x² - 2` has two real roots, `x³ - 2` one; `2 x² - 2 x + 1` is positive everywhere, `x² - 2 x + 1` is not
example : (⟨[1, 0, -2]⟩ : Poly ℤ).countAllRoots 4 4 = .ok 2 ∧ (⟨[1, 0, 0, -2]⟩ : Poly ℤ).countAllRoots 5 5 = .ok 1 ∧
    (⟨[2, -2, 1]⟩ : Poly ℤ).positiveEverywhere 4 4 = .ok true ∧ (⟨[1, -2, 1]⟩ : Poly ℤ).positiveEverywhere 4 4 = .ok false := by decide +kernel
example : (⟨[2, -2, 1]⟩ : Poly Int).positiveEverywhereM (.machine true ⟨true, 32⟩) (tryFromUsizeContInt 64 ⟨true, 32⟩) 4 4 = .ok true ∧
    (⟨[2, -2, 1]⟩ : Poly Int).positiveEverywhereM (.machine true ⟨true, 8⟩) (tryFromUsizeContInt 64 ⟨true, 8⟩) 4 4 = .panic := by decide +kernel

end Rustnomial
