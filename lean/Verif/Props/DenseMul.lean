import Verif.Props.DenseBasic
import Mathlib.Algebra.Polynomial.RingDivision

/-!
# Dense polynomials: multiplication and powers (C11, C12)
-/

open Polynomial

namespace Rustnomial

section
variable {R : Type} [CommSemiring R] [NumZero R] [LawfulNumZero R]

theorem sliceMulLoop_ok (lhs : List R) : ∀ (rest : List R) (index : Nat) (terms : List R),
    terms.length + 1 = index + rest.length + lhs.length →
    ∃ out, sliceMulLoop lhs rest index terms = .ok out ∧ out.length = terms.length ∧
      descPoly out = descPoly terms + descPoly rest * descPoly lhs
  | [], index, terms, _ => ⟨terms, rfl, rfl, by simp⟩
  | r :: rest, index, terms, h => by
    simp only [List.length_cons] at h
    by_cases hr : isZero r = true
    · obtain ⟨out, h1, h2, h3⟩ := sliceMulLoop_ok lhs rest (index + 1) terms (by omega)
      refine ⟨out, ?_, h2, ?_⟩
      · simp [sliceMulLoop, sliceMulStep, hr, h1]
      · simp at hr; subst hr; rw [h3, descPoly_cons]; simp
    · have hidx : index ≤ terms.length := by omega
      let terms' := terms.take index ++
        zipMut (fun term lterm => term + r * lterm) (terms.drop index) lhs
      have hlen : terms'.length = terms.length := by simp [terms']; omega
      obtain ⟨out, h1, h2, h3⟩ := sliceMulLoop_ok lhs rest (index + 1) terms' (by omega)
      refine ⟨out, ?_, h2.trans hlen, ?_⟩
      · simp only [sliceMulLoop, sliceMulStep, hr, sliceFrom, hidx, if_true]
        exact h1
      · have ht : descPoly terms' = descPoly terms + C r * X ^ rest.length * descPoly lhs := by
          apply descPoly_take_append
          · simp
          · rw [descPoly_zipMut_add (fun y => r * y) _ (fun _ _ => rfl) _ _ (by simp; omega),
              descPoly_map_mul_left]
            have : (terms.drop index).length - lhs.length = rest.length := by simp; omega
            rw [this]; ring
        rw [h3, ht, descPoly_cons]; ring

theorem sliceMul_ok (a b : List R) (h : descPoly a ≠ 0 ∨ descPoly b ≠ 0) :
    ∃ out, sliceMul a b = .ok out ∧ descPoly out = descPoly a * descPoly b := by
  unfold sliceMul
  simp only [sliceFrom, firstNonzeroIndex_le, if_true, Res.ok_bind, drop_firstNonzeroIndex]
  have hl : 1 ≤ (b.dropWhile isZero).length + (a.dropWhile isZero).length := by
    rcases h with h | h
    · have := mt (descPoly_eq_zero_iff a).2 h
      have := List.length_pos_iff.2 this; omega
    · have := mt (descPoly_eq_zero_iff b).2 h
      have := List.length_pos_iff.2 this; omega
  simp only [usub, hl, if_true, Res.ok_bind]
  obtain ⟨out, h1, _, h3⟩ := sliceMulLoop_ok (a.dropWhile isZero) (b.dropWhile isZero) 0
    (List.replicate ((b.dropWhile isZero).length + (a.dropWhile isZero).length - 1) 0)
    (by simp; omega)
  exact ⟨out, h1, by rw [h3]; simp [descPoly_dropWhile, mul_comm]⟩

theorem sliceMul_zero (a b : List R) (ha : descPoly a = 0) (hb : descPoly b = 0) :
    sliceMul a b = .panic := by
  unfold sliceMul
  simp only [sliceFrom, firstNonzeroIndex_le, if_true, Res.ok_bind, drop_firstNonzeroIndex,
    (descPoly_eq_zero_iff a).1 ha, (descPoly_eq_zero_iff b).1 hb]
  simp [usub]

/-! ## C11 – multiplication

Full claim: `a * b` never panics and represents the product, for all operands.  It is false when
both operands are zero (`C11_dense_mul_zero_zero_false`); everything else is proved. -/

/-- C11, missing: both operands zero (there the code panics).  All spellings of `*` and `*=` return
the product polynomial if at least one operand is non-zero. -/
theorem C11_dense_mul_partial (p q : Poly R)
    (h : descPoly p.terms ≠ 0 ∨ descPoly q.terms ≠ 0) :
    (∃ r, p.mul q = .ok r ∧ descPoly r.terms = descPoly p.terms * descPoly q.terms) ∧
    (∃ r, p.mulRef q = .ok r ∧ descPoly r.terms = descPoly p.terms * descPoly q.terms) := by
  obtain ⟨out, h1, h2⟩ := sliceMul_ok p.terms q.terms h
  refine ⟨⟨⟨out⟩, by simp [Poly.mul, h1], h2⟩, ⟨Poly.new out, by simp [Poly.mulRef, h1], ?_⟩⟩
  rw [C01_new_same_polynomial, h2]

/-- C11: the exact panic condition of multiplication. -/
theorem C11_dense_mul_panics_iff (p q : Poly R) :
    (p.mul q = .panic ↔ descPoly p.terms = 0 ∧ descPoly q.terms = 0) ∧
    (p.mulRef q = .panic ↔ descPoly p.terms = 0 ∧ descPoly q.terms = 0) := by
  by_cases h : descPoly p.terms ≠ 0 ∨ descPoly q.terms ≠ 0
  · obtain ⟨⟨r, h1, _⟩, ⟨r', h2, _⟩⟩ := C11_dense_mul_partial p q h
    rw [h1, h2]
    have : ¬ (descPoly p.terms = 0 ∧ descPoly q.terms = 0) := by tauto
    simp [this]
  · have h' : descPoly p.terms = 0 ∧ descPoly q.terms = 0 := by tauto
    simp [Poly.mul, Poly.mulRef, sliceMul_zero _ _ h'.1 h'.2, h']

/-- C11 is false as stated: the product of two zero polynomials panics. -/
theorem C11_dense_mul_zero_zero_false :
    (Poly.zero : Poly ℤ).mul Poly.zero = .panic ∧ (⟨[0, 0]⟩ : Poly ℤ).mulRef ⟨[0]⟩ = .panic := by
  decide

example : (⟨[1, 2]⟩ : Poly ℤ).mul ⟨[0, 3, 0, -1]⟩ = .ok ⟨[3, 6, -1, -2]⟩ ∧
    (⟨[]⟩ : Poly ℤ).mul ⟨[0, 3, 1]⟩ = .ok ⟨[0]⟩ := by decide

/-! ## C12 – powers

Full claim: `p.pow(n)` is the `n`-th power for every `p` and `n`.  False for `p = 0`, `n ≥ 2`. -/

/-- C12: whenever `pow` returns, it returns the power (any commutative coefficient semiring, also
wrapping machine integers). -/
theorem C12_dense_pow_sound (p : Poly R) (n : Nat) (r : Poly R) (h : p.pow n = .ok r) :
    descPoly r.terms = descPoly p.terms ^ n := by
  induction n using Nat.strong_induction_on generalizing p r with
  | _ n ih =>
    have hmul : ∀ a b c : Poly R, a.mulRef b = .ok c →
        descPoly c.terms = descPoly a.terms * descPoly b.terms := by
      intro a b c hc
      by_cases hz : descPoly a.terms ≠ 0 ∨ descPoly b.terms ≠ 0
      · obtain ⟨r', h1, h2⟩ := (C11_dense_mul_partial a b hz).2
        rw [h1] at hc; cases hc; exact h2
      · have := (C11_dense_mul_panics_iff a b).2.2 (by tauto)
        rw [this] at hc; cases hc
    rw [Poly.pow] at h
    split at h
    · rename_i h0; cases h; simp [h0, descPoly_cons]
    · split at h
      · rename_i h1; cases h; rw [C01_new_same_polynomial, h1, pow_one]
      · split at h
        · rename_i h2; rw [hmul _ _ _ h, h2, pow_two]
        · split at h
          · rename_i h0 h1 h2 he
            obtain ⟨s, hs1, hs2⟩ := Res.bind_eq_ok.1 h
            rw [ih 2 (by omega) s r hs2, ih (n / 2) (by omega) p s hs1, ← pow_mul]
            congr 1; omega
          · rename_i h0 h1 h2 he
            obtain ⟨s, hs1, hs2⟩ := Res.bind_eq_ok.1 h
            rw [hmul _ _ _ hs2, ih (n - 1) (by omega) p s hs1, ← pow_succ']
            congr 1; omega

/-- C12, missing: `p = 0` with `n ≥ 2` (there the code panics).  Over a coefficient type without
zero divisors, `p.pow(n)` returns the `n`-th power for every non-zero `p` and every `n`. -/
theorem C12_dense_pow_partial [NoZeroDivisors R] (p : Poly R) (n : Nat)
    (hp : descPoly p.terms ≠ 0) :
    ∃ r, p.pow n = .ok r ∧ descPoly r.terms = descPoly p.terms ^ n := by
  have hex : ∀ (n : Nat) (p : Poly R), descPoly p.terms ≠ 0 → ∃ r, p.pow n = .ok r := by
    intro n
    induction n using Nat.strong_induction_on with
    | _ n ih =>
      intro p hp
      rw [Poly.pow]
      split
      · exact ⟨_, rfl⟩
      · split
        · exact ⟨_, rfl⟩
        · split
          · obtain ⟨r, hr, _⟩ := (C11_dense_mul_partial p p (Or.inl hp)).2; exact ⟨r, hr⟩
          · split
            · obtain ⟨s, hs⟩ := ih (n / 2) (by omega) p hp
              have hsp := C12_dense_pow_sound p _ s hs
              obtain ⟨r, hr⟩ := ih 2 (by omega) s (by rw [hsp]; exact pow_ne_zero _ hp)
              exact ⟨r, by rw [hs]; exact hr⟩
            · obtain ⟨s, hs⟩ := ih (n - 1) (by omega) p hp
              obtain ⟨r, hr, _⟩ := (C11_dense_mul_partial p s (Or.inl hp)).2
              exact ⟨r, by rw [hs]; exact hr⟩
  obtain ⟨r, hr⟩ := hex n p hp
  exact ⟨r, hr, C12_dense_pow_sound p n r hr⟩

/-- C12: what happens on the zero polynomial: `0^0 = 1`, `0^1 = 0`, and every higher power panics.
So the claim is false for the zero polynomial. -/
theorem C12_dense_pow_zero_false (p : Poly R) (hp : descPoly p.terms = 0) (n : Nat) :
    (n = 0 → p.pow n = .ok ⟨[1]⟩) ∧ (n = 1 → p.pow n = .ok ⟨[]⟩) ∧ (2 ≤ n → p.pow n = .panic) := by
  have h1 : p.pow 1 = .ok ⟨[]⟩ := by
    rw [Poly.pow]; simp
    have : (Poly.new p.terms).terms = [] := by rw [new_terms]; exact (descPoly_eq_zero_iff _).1 hp
    cases h : Poly.new p.terms; simp_all
  refine ⟨?_, ?_, ?_⟩
  · rintro rfl; rw [Poly.pow]; simp
  · rintro rfl; exact h1
  · intro hn
    have hgen : ∀ n, 2 ≤ n → p.pow n = .panic := by
      intro n
      induction n using Nat.strong_induction_on with
      | _ n ih =>
        intro hn
        rw [Poly.pow]
        rw [if_neg (by omega), if_neg (by omega)]
        split
        · exact (C11_dense_mul_panics_iff p p).2.2 ⟨hp, hp⟩
        · split
          · rw [ih (n / 2) (by omega) (by omega)]; rfl
          · rw [ih (n - 1) (by omega) (by omega)]; rfl
    exact hgen n hn

/-- C12: `pow` always terminates (it returns or panics). -/
theorem C12_dense_pow_terminates (p : Poly R) (n : Nat) : p.pow n ≠ .fuel := by
  have hmul : ∀ a b : Poly R, a.mulRef b ≠ .fuel := by
    intro a b
    by_cases hz : descPoly a.terms ≠ 0 ∨ descPoly b.terms ≠ 0
    · obtain ⟨r', h1, h2⟩ := (C11_dense_mul_partial a b hz).2
      rw [h1]; simp
    · rw [(C11_dense_mul_panics_iff a b).2.2 (by tauto)]; simp
  induction n using Nat.strong_induction_on generalizing p with
  | _ n ih =>
    rw [Poly.pow]
    split
    · simp
    · split
      · simp
      · split
        · exact hmul _ _
        · split
          · have h1 := ih (n / 2) (by omega) p
            cases h : p.pow (n / 2) with
            | ok s => exact ih 2 (by omega) s
            | panic => simp
            | fuel => exact absurd h h1
          · have h1 := ih (n - 1) (by omega) p
            cases h : p.pow (n - 1) with
            | ok s => exact hmul _ _
            | panic => simp
            | fuel => exact absurd h h1

example : descPoly (⟨[1, 2]⟩ : Poly ℤ).terms ≠ 0 := by
  intro h; have := (descPoly_eq_zero_iff _).1 h; revert this; decide

end
end Rustnomial
