import Verif.Model.IntegerRoots
import Verif.Props.RationalRoots
import Verif.Props.Checked

/-!
# C145: all integer roots of a polynomial over a signed integer type
-/

open Polynomial

namespace Rustnomial

variable {t : IntTy}

/-- The value at `x` can be computed in the type: the point is zero, or no value of the Horner scheme overflows (C56). -/
def EvalFits (t : IntTy) (P : ℤ[X]) (x : ℤ) : Prop :=
  x = 0 ∨ ∀ e, t.InRange ((divX^[e] P).eval x) ∧ (0 < e → t.InRange ((divX^[e] P).eval x * x))

theorem trialLoopM_chk (p : Poly Int) : ∀ ks : List Int, Chk (∀ k ∈ ks, EvalFits t (descPoly p.terms) k)
    (trialLoopM (.machine true t) p ks) (ks.filter fun k => (descPoly p.terms).eval k = 0)
  | [] => ⟨fun _ => rfl, fun h => absurd (by simp) h⟩
  | k :: ks => by
    obtain ⟨e1, e2⟩ := C56_eval t p k
    obtain ⟨i1, i2⟩ := trialLoopM_chk p ks
    unfold trialLoopM
    constructor
    · intro h
      rw [e1 (h k (by simp)), Res.ok_bind, i1 fun x hx => h x (List.mem_cons_of_mem _ hx), Res.ok_bind, List.filter_cons]
      simp
    · intro h
      by_cases hk : EvalFits t (descPoly p.terms) k
      · rw [e1 hk, Res.ok_bind, i2 fun h' => h fun x hx => by
          rcases List.mem_cons.1 hx with rfl | hx
          · exact hk
          · exact h' x hx]
        rfl
      · rw [e2 hk]; rfl

theorem trailing_of_last {P R : ℤ[X]} {c : ℤ} {e : ℕ} (hc : c ≠ 0) (hP : P = X ^ e * R) (hR : R.coeff 0 = c) : P.trailingCoeff = c := by
  have hRn : R.natTrailingDegree = 0 := natTrailingDegree_eq_zero.2 (.inr (by rw [hR]; exact hc))
  have h1 : R.trailingCoeff = c := by rw [trailingCoeff, hRn, hR]
  have h2 : (X ^ e : ℤ[X]).trailingCoeff = 1 := by rw [trailingCoeff, natTrailingDegree_X_pow, coeff_X_pow_self]
  rw [hP, trailingCoeff_mul, h1, h2, one_mul]

/-- **C145.** For every polynomial other than zero over a signed integer type, with overflow checks: if the absolute value of the coefficient of the
lowest term, and the value at every number not above it in absolute value, can be computed in the type, the program returns all integer roots of the
polynomial in ascending order; otherwise it panics. -/
theorem C145_integer_roots (hsig : t.signed = true) (p : Poly Int) (hp : descPoly p.terms ≠ 0) :
    ((t.InRange |(descPoly p.terms).trailingCoeff| ∧
        ∀ k : ℤ, |k| ≤ |(descPoly p.terms).trailingCoeff| → EvalFits t (descPoly p.terms) k) →
      ∃ roots, p.integerRootsM true t = .ok roots ∧ roots.Pairwise (· < ·) ∧ ∀ k : ℤ, k ∈ roots ↔ (descPoly p.terms).eval k = 0) ∧
    (¬ (t.InRange |(descPoly p.terms).trailingCoeff| ∧
        ∀ k : ℤ, |k| ≤ |(descPoly p.terms).trailingCoeff| → EvalFits t (descPoly p.terms) k) →
      p.integerRootsM true t = .panic) := by
  obtain ⟨⟨c, e⟩, hlast⟩ : ∃ y, p.orderedTermIter.getLast? = some y := by
    cases h : p.orderedTermIter with
    | nil => exact absurd (termIter_nil h) hp
    | cons y ys => exact ⟨_, List.getLast?_eq_some_getLast (List.cons_ne_nil _ _)⟩
  obtain ⟨hc, R, hR, hR0⟩ := termIter_last hlast
  rw [trailing_of_last hc hR hR0]
  unfold Poly.integerRootsM
  rw [hlast]
  simp only
  have habs : absInt true t c = t.checked |c| := by simp [absInt, hsig]
  rw [habs]
  set ks : List ℤ := (List.range (2 * |c|.toNat + 1)).map fun (j : ℕ) => (j : ℤ) - |c| with hks
  have h0 : 0 ≤ |c| := abs_nonneg c
  have hmem : ∀ k : ℤ, k ∈ ks ↔ |k| ≤ |c| := by
    intro k
    rw [hks, List.mem_map, abs_le]
    constructor
    · rintro ⟨j, hj, rfl⟩
      rw [List.mem_range] at hj
      omega
    · rintro ⟨h1, h2⟩
      exact ⟨(k + |c|).toNat, List.mem_range.2 (by omega), by omega⟩
  obtain ⟨i1, i2⟩ := trialLoopM_chk (t := t) p ks
  by_cases hr : t.InRange |c|
  · rw [show t.checked |c| = .ok |c| by simp [IntTy.checked, hr], Res.ok_bind]
    constructor
    · intro h
      refine ⟨_, i1 fun k hk => h.2 k ((hmem k).1 hk), ?_, ?_⟩
      · refine List.Pairwise.filter _ ?_
        rw [hks, List.pairwise_map]
        exact List.pairwise_lt_range.imp fun h => by omega
      · intro k
        rw [List.mem_filter, hmem, decide_eq_true_eq]
        refine ⟨fun h => h.2, fun hk => ⟨?_, hk⟩⟩
        by_cases hk0 : k = 0
        · rw [hk0, abs_zero]; exact h0
        · have hRk : R.eval k = 0 := by
            rw [hR, eval_mul, eval_pow, eval_X] at hk
            exact (mul_eq_zero.1 hk).resolve_left (pow_ne_zero _ hk0)
          have hd : k ∣ c := by
            have := sub_dvd_eval_sub k 0 R
            rw [hRk, sub_zero, zero_sub, ← coeff_zero_eq_eval_zero, hR0, dvd_neg] at this
            exact this
          rw [Int.abs_eq_natAbs, Int.abs_eq_natAbs]
          exact_mod_cast Nat.le_of_dvd (Int.natAbs_pos.2 hc) (Int.natAbs_dvd_natAbs.2 hd)
    · intro h
      exact i2 fun h' => h ⟨hr, fun k hk => h' k ((hmem k).2 hk)⟩
  · rw [show t.checked |c| = .panic by simp [IntTy.checked, hr]]
    exact ⟨fun h => absurd h.1 hr, fun _ => rfl⟩

/-- **C145.** For zero it panics. -/
theorem C145_zero (chk : Bool) (p : Poly Int) (hp : descPoly p.terms = 0) : p.integerRootsM chk t = .panic := by
  unfold Poly.integerRootsM
  cases h : p.orderedTermIter with
  | nil => rfl
  | cons y ys =>
    obtain ⟨l, n⟩ := y
    obtain ⟨-, h2, h3⟩ := termIter_cons h
    rw [hp, leadingCoeff_zero] at h2
    exact absurd h2.symm h3

/-- **C145.** Without overflow checks this is false: in `i8`, `x² + x + 16` has no integer root, and the program returns two. -/
theorem C145_unchecked_false : (⟨[1, 1, 16]⟩ : Poly Int).integerRootsM false ⟨true, 8⟩ = .ok [-16, 15] ∧
    ∀ k : ℤ, (descPoly ([1, 1, 16] : List ℤ)).eval k ≠ 0 := by
  refine ⟨by decide +kernel, fun k => ?_⟩
  have : (descPoly ([1, 1, 16] : List ℤ)).eval k = k ^ 2 + k + 16 := by simp [descPoly_cons]; ring
  rw [this]
  nlinarith [sq_nonneg (2 * k + 1)]

-- `(x - 2) (x + 3) x²` in `i16`; in `i8` the value at 6 is too large; `-128` has no absolute value in `i8`
example : (⟨[1, 1, -6, 0, 0]⟩ : Poly Int).integerRootsM true ⟨true, 16⟩ = .ok [-3, 0, 2] ∧
    (⟨[1, 1, -6, 0, 0]⟩ : Poly Int).integerRootsM true ⟨true, 8⟩ = .panic ∧ (⟨[-128]⟩ : Poly Int).integerRootsM true ⟨true, 8⟩ = .panic := by
  decide +kernel

end Rustnomial
