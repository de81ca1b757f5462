import Verif.Props.Checked
import Verif.Props.Mutation

/-!
# C30: subtracting a term when the coefficient type is unsigned

Full claim: for coefficient types that cannot be negated, `try_sub_term` of a term whose coefficient is absent
(zero) reports `CanNotNegate` and leaves the polynomial unchanged rather than underflowing, for every
polynomial type.

It holds for dense polynomials at degrees not covered by the stored vector and for sparse polynomials at degrees
without an entry.  It is false where a zero coefficient is stored, and for the other four types, which never
report `CanNotNegate`.
-/

open Polynomial

namespace Rustnomial

theorem unsigned_inRange (bits : Nat) (v : Int) : (⟨false, bits⟩ : IntTy).InRange v ↔ 0 ≤ v ∧ v < 2 ^ bits := by
  simp only [IntTy.InRange, IntTy.min, IntTy.max, Bool.false_eq_true, if_false]
  omega

/-- The wrapped result of `0 - c`. -/
theorem unsigned_wrap_neg (bits : Nat) (c : Int) (h0 : 0 < c) (h1 : c < 2 ^ bits) :
    (⟨false, bits⟩ : IntTy).wrap (0 - c) = 2 ^ bits - c := by
  have hb : 1 ≤ bits := by
    rcases Nat.eq_zero_or_pos bits with h | h
    · subst h; simp at h1; omega
    · exact h
  refine ((wrap_unique _ hb _ _).2 ⟨(unsigned_inRange _ _).2 ⟨by omega, by omega⟩, ?_⟩).symm
  show (2 ^ bits - c) % 2 ^ bits = (0 - c) % 2 ^ bits
  rw [show (2 : Int) ^ bits - c = (0 - c) + 2 ^ bits by ring, Int.add_emod_right]

/-- C30, missing: degrees below the stored length.  Dense polynomials over an unsigned type refuse to subtract
at any degree beyond the stored vector, with or without overflow checks, and do not change. -/
theorem C30_dense_partial (chk : Bool) (bits : Nat) (p : Poly Int) (c : Int) (d : Nat) (h : p.terms.length ≤ d) :
    p.trySubTermM (.machine chk ⟨false, bits⟩) (⟨false, bits⟩ : IntTy).canNegate c d =
      .ok (p, .error .canNotNegate) := by
  unfold Poly.trySubTermM
  rw [if_pos (by omega)]
  rfl

/-- C30: what happens below the stored length in a build with overflow checks: the subtraction is carried out if
the coefficient is large enough, and panics otherwise. -/
theorem C30_dense_stored (bits : Nat) (p : Poly Int) (c : Int) (d : Nat) (h : d < p.terms.length)
    (hp : AllIn ⟨false, bits⟩ p.terms) (hc : 0 ≤ c) :
    (c ≤ (descPoly p.terms).coeff d →
      ∃ r, p.trySubTermM (.machine true ⟨false, bits⟩) (⟨false, bits⟩ : IntTy).canNegate c d = .ok (r, .ok ()) ∧
        descPoly r.terms = descPoly p.terms - monomial d c) ∧
    ((descPoly p.terms).coeff d < c →
      p.trySubTermM (.machine true ⟨false, bits⟩) (⟨false, bits⟩ : IntTy).canNegate c d = .panic) := by
  have hi : p.terms.length - d - 1 < p.terms.length := by omega
  have ck := (chk_modifyM (f := fun x => (Arith.machine true ⟨false, bits⟩).sub x c) (g := fun x => x - c)
    (fun x => chk_result ⟨false, bits⟩ (x - c)) p.terms _ hi).map (fun l => ((⟨l⟩ : Poly Int), (Except.ok () : Except TryAddError Unit)))
  unfold Poly.trySubTermM
  rw [if_neg (by omega : ¬ p.terms.length < d + 1)]
  have hget : (descPoly p.terms).coeff d = p.terms[p.terms.length - d - 1] := by
    rw [coeff_descPoly_of_lt h, List.getD_eq_getElem _ _ hi]
  rw [hget]
  have hr := (unsigned_inRange _ _).1 (hp _ (List.getElem_mem hi))
  constructor
  · intro hle
    refine ⟨_, ck.1 ((unsigned_inRange _ _).2 ⟨by omega, by omega⟩), ?_⟩
    have : (fun x : Int => x - c) = (fun x => x + -c) := by funext x; ring
    simp only [this]
    rw [descPoly_modify_add _ _ _ hi, show p.terms.length - (p.terms.length - d - 1) - 1 = d by omega]
    rw [← C_mul_X_pow_eq_monomial, C_neg]; ring
  · intro hlt
    exact ck.2 (fun H => by have := (unsigned_inRange _ _).1 H; omega)

/-- C30 is false for dense polynomials: where a zero coefficient is stored, subtracting underflows.  Any unsigned
type, any positive `c`: a panic with overflow checks, and `Ok` with the coefficient `2^bits - c` without. -/
theorem C30_dense_false (bits : Nat) (c : Int) (h0 : 0 < c) (h1 : c < 2 ^ bits) :
    (⟨[1, 0]⟩ : Poly Int).trySubTermM (.machine true ⟨false, bits⟩) (⟨false, bits⟩ : IntTy).canNegate c 0 = .panic ∧
    (⟨[1, 0]⟩ : Poly Int).trySubTermM (.machine false ⟨false, bits⟩) (⟨false, bits⟩ : IntTy).canNegate c 0 =
      .ok (⟨[1, 2 ^ bits - c]⟩, .ok ()) := by
  have hn : ¬ (⟨false, bits⟩ : IntTy).InRange (0 - c) := by rw [unsigned_inRange]; omega
  have hw := unsigned_wrap_neg bits c h0 h1
  constructor
  · rw [zero_sub] at hn
    simp [Poly.trySubTermM, modifyM, Arith.machine, IntTy.result, IntTy.checked, hn]
  · simp [Poly.trySubTermM, modifyM, Arith.machine, IntTy.result]
    simpa using hw

/-- C30, missing: degrees with a stored zero.  Sparse polynomials over an unsigned type refuse to subtract a
non-zero term at any degree without an entry, with or without overflow checks, and do not change.  (Subtracting
zero succeeds and changes nothing.) -/
theorem C30_sparse_partial (chk : Bool) (bits : Nat) (p : Sparse Int) (c : Int) (d : Nat)
    (h : p.terms.get d = none) :
    p.trySubTermM (.machine chk ⟨false, bits⟩) (⟨false, bits⟩ : IntTy).canNegate c d =
      .ok (p, if c = 0 then .ok () else .error .canNotNegate) := by
  unfold Sparse.trySubTermM
  by_cases hc : c = 0
  · simp [hc]
  · simp [hc, h, IntTy.canNegate]

/-- C30: what happens at a stored entry of a sparse polynomial in a build with overflow checks. -/
theorem C30_sparse_stored (bits : Nat) (p : Sparse Int) (c v : Int) (d : Nat) (h : p.terms.get d = some v)
    (hv : (⟨false, bits⟩ : IntTy).InRange v) (hc : 0 < c) :
    (c ≤ v → ∃ r, p.trySubTermM (.machine true ⟨false, bits⟩) (⟨false, bits⟩ : IntTy).canNegate c d = .ok (r, .ok ()) ∧
        entriesPoly r.terms.entries = entriesPoly p.terms.entries - monomial d c) ∧
    (v < c → p.trySubTermM (.machine true ⟨false, bits⟩) (⟨false, bits⟩ : IntTy).canNegate c d = .panic) := by
  have hv' := (unsigned_inRange _ _).1 hv
  have hc0 : c ≠ 0 := by omega
  unfold Sparse.trySubTermM
  rw [if_neg hc0, h]
  simp only
  have ck := chk_result ⟨false, bits⟩ (v - c)
  constructor
  · intro hle
    have := ck.1 ((unsigned_inRange _ _).2 ⟨by omega, by omega⟩)
    refine ⟨_, by show (IntTy.result true _ (v - c) >>= _) = _; rw [this]; rfl, ?_⟩
    ext k
    rw [coeff_sub, coeff_monomial, coeff_mapPoly, coeff_mapPoly, BMap.get_insert]
    by_cases hk : k = d
    · subst hk; simp [h]
    · simp [hk, Ne.symm hk]
  · intro hlt
    show (IntTy.result true _ (v - c) >>= _) = _
    rw [ck.2 (fun H => by have := (unsigned_inRange _ _).1 H; omega)]
    rfl

/-- C30 is false for sparse polynomials: where a zero coefficient is stored (subtracting a coefficient from
itself leaves one), subtracting underflows. -/
theorem C30_sparse_false (bits : Nat) (c : Int) (h0 : 0 < c) (h1 : c < 2 ^ bits) :
    (⟨BMap.empty.insert 3 0⟩ : Sparse Int).trySubTermM (.machine true ⟨false, bits⟩) (⟨false, bits⟩ : IntTy).canNegate c 3
      = .panic ∧
    (⟨BMap.empty.insert 3 0⟩ : Sparse Int).trySubTermM (.machine false ⟨false, bits⟩) (⟨false, bits⟩ : IntTy).canNegate c 3
      = .ok (⟨BMap.empty.insert 3 (2 ^ bits - c)⟩, .ok ()) ∧
    (⟨BMap.empty.insert 3 c⟩ : Sparse Int).trySubTermM (.machine true ⟨false, bits⟩) (⟨false, bits⟩ : IntTy).canNegate c 3
      = .ok (⟨BMap.empty.insert 3 0⟩, .ok ()) := by
  have hn : ¬ (⟨false, bits⟩ : IntTy).InRange (0 - c) := by rw [unsigned_inRange]; omega
  have hw := unsigned_wrap_neg bits c h0 h1
  have hc0 : c ≠ 0 := by omega
  have hg : ∀ v : Int, (BMap.empty.insert 3 v : BMap Int).get 3 = some v := fun v => by
    rw [BMap.get_insert]; simp
  have hi : ∀ v w : Int, ((BMap.empty.insert 3 v : BMap Int).insert 3 w) = BMap.empty.insert 3 w := fun v w => rfl
  refine ⟨?_, ?_, ?_⟩
  · unfold Sparse.trySubTermM
    rw [if_neg hc0, hg]
    show (IntTy.result true _ (0 - c) >>= _) = _
    rw [(chk_result _ _).2 hn]; rfl
  · unfold Sparse.trySubTermM
    rw [if_neg hc0, hg]
    show (Res.ok (IntTy.wrap _ (0 - c)) >>= _) = _
    rw [hw, Res.ok_bind, hi]
  · unfold Sparse.trySubTermM
    rw [if_neg hc0, hg]
    show (IntTy.result true _ (c - c) >>= _) = _
    rw [sub_self, (chk_result _ _).1 (IntTy.zero_inRange _), Res.ok_bind, hi]

/-- C30 is false for the four remaining types, for every unsigned type and every positive `c` of it: at a zero
coefficient within bounds they panic with overflow checks and store `2^bits - c` without. -/
theorem C30_fixed_false (bits : Nat) (c : Int) (h0 : 0 < c) (h1 : c < 2 ^ bits) (d : Nat) (cs : List Int)
    (hd : d < cs.length) (hcs : (descPoly cs).coeff d = 0) (b1 : Int) (t0 t1 : Int) :
    (Monomial.zero : Monomial Int).trySubTermM (.machine true ⟨false, bits⟩) c d = .panic ∧
    (Monomial.zero : Monomial Int).trySubTermM (.machine false ⟨false, bits⟩) c d = .ok (⟨2 ^ bits - c, d⟩, .ok ()) ∧
    (⟨b1, 0⟩ : LinearBinomial Int).trySubTermM (.machine true ⟨false, bits⟩) c 0 = .panic ∧
    (⟨b1, 0⟩ : LinearBinomial Int).trySubTermM (.machine false ⟨false, bits⟩) c 0 =
      .ok (⟨b1, 2 ^ bits - c⟩, .ok ()) ∧
    (⟨t0, t1, 0⟩ : QuadraticTrinomial Int).trySubTermM (.machine true ⟨false, bits⟩) c 0 = .panic ∧
    (⟨t0, t1, 0⟩ : QuadraticTrinomial Int).trySubTermM (.machine false ⟨false, bits⟩) c 0 =
      .ok (⟨t0, t1, 2 ^ bits - c⟩, .ok ()) ∧
    arrayTrySubTermM (.machine true ⟨false, bits⟩) cs c d = .panic ∧
    (∃ r, arrayTrySubTermM (.machine false ⟨false, bits⟩) cs c d = .ok (r, .ok ()) ∧
      (descPoly r).coeff d = 2 ^ bits - c) := by
  have hn : ¬ (⟨false, bits⟩ : IntTy).InRange (0 - c) := by rw [unsigned_inRange]; omega
  have hw := unsigned_wrap_neg bits c h0 h1
  have s1 : (Arith.machine true ⟨false, bits⟩).sub 0 c = .panic := (chk_result _ _).2 hn
  have s2 : (Arith.machine false ⟨false, bits⟩).sub 0 c = .ok (2 ^ bits - c) := congrArg Res.ok hw
  have hi : cs.length - d - 1 < cs.length := by omega
  have hget : cs[cs.length - d - 1] = 0 := by
    rw [coeff_descPoly_of_lt hd, List.getD_eq_getElem _ _ hi] at hcs; exact hcs
  have hz : (Monomial.zero : Monomial Int).isZeroPoly = true := by decide
  have hz0 : (Monomial.zero : Monomial Int).coefficient = 0 := rfl
  refine ⟨?_, ?_, ?_, ?_, ?_, ?_, ?_, ?_⟩
  · simp [Monomial.trySubTermM, hz, hz0, s1]
  · simp [Monomial.trySubTermM, hz, hz0, s2]
  · simp [LinearBinomial.trySubTermM, s1]
  · simp [LinearBinomial.trySubTermM, s2, LinearBinomial.modify]
  · simp [QuadraticTrinomial.trySubTermM, s1]
  · simp [QuadraticTrinomial.trySubTermM, s2, QuadraticTrinomial.modify]
  · have ck := chk_modifyM (f := fun x => (Arith.machine true ⟨false, bits⟩).sub x c) (g := fun x => x - c)
      (fun x => chk_result ⟨false, bits⟩ (x - c)) cs _ hi
    rw [hget] at ck
    simp [arrayTrySubTermM, hd, ck.2 hn]
  · have ck := chk_modifyM (f := fun x => (Arith.machine false ⟨false, bits⟩).sub x c)
      (g := fun x => (⟨false, bits⟩ : IntTy).wrap (x - c)) (P := fun _ => True)
      (fun x => ⟨fun _ => rfl, fun h => absurd trivial h⟩) cs _ hi
    refine ⟨_, by simp [arrayTrySubTermM, hd, ck.1 trivial]; rfl, ?_⟩
    rw [coeff_descPoly_of_lt (by simpa using hd), List.getD_eq_getElem _ _ (by simp; omega)]
    simp [hget]
    simpa using hw

/-- C30: `CanNotNegate` is never reported by the four fixed-size types, whatever the arithmetic. -/
theorem C30_fixed_never_reported (A : Arith) (c : Int) (d : Nat) :
    (∀ (m : Monomial Int) r, m.trySubTermM A c d ≠ .ok (r, .error .canNotNegate)) ∧
    (∀ (b : LinearBinomial Int) r, b.trySubTermM A c d ≠ .ok (r, .error .canNotNegate)) ∧
    (∀ (t : QuadraticTrinomial Int) r, t.trySubTermM A c d ≠ .ok (r, .error .canNotNegate)) ∧
    (∀ (cs : List Int) r, arrayTrySubTermM A cs c d ≠ .ok (r, .error .canNotNegate)) := by
  refine ⟨fun m r => ?_, fun m r => ?_, fun m r => ?_, fun m r => ?_⟩
  · unfold Monomial.trySubTermM
    split
    · rw [Ne, Res.bind_eq_ok]; rintro ⟨v, _, h⟩; simp at h
    · split
      · rw [Ne, Res.bind_eq_ok]; rintro ⟨v, _, h⟩; simp at h
      · simp
  · unfold LinearBinomial.trySubTermM
    split
    · rw [Ne, Res.bind_eq_ok]; rintro ⟨v, _, h⟩; simp at h
    · simp
  · unfold QuadraticTrinomial.trySubTermM
    split
    · rw [Ne, Res.bind_eq_ok]; rintro ⟨v, _, h⟩; simp at h
    · simp
  · unfold arrayTrySubTermM
    split
    · rw [Ne, Res.bind_eq_ok]; rintro ⟨v, _, h⟩; simp at h
    · simp

/-- With exact arithmetic the functions of this file are those of the ideal model. -/
theorem C30_exact (c : Int) (d : Nat) :
    (∀ p : Poly Int, p.trySubTermM .exact (CanNegate.canNegate Int) c d = .ok (p.trySubTerm c d)) ∧
    (∀ p : Sparse Int, p.trySubTermM .exact (CanNegate.canNegate Int) c d = .ok (p.trySubTerm c d)) ∧
    (∀ m : Monomial Int, m.trySubTermM .exact c d = .ok (m.trySubTerm c d)) ∧
    (∀ b : LinearBinomial Int, b.trySubTermM .exact c d = .ok (b.trySubTerm c d)) ∧
    (∀ t : QuadraticTrinomial Int, t.trySubTermM .exact c d = .ok (t.trySubTerm c d)) ∧
    (∀ (n : Nat) (p : ArrayPoly Int n), arrayTrySubTermM .exact p.coefficients c d =
      .ok ((p.trySubTerm c d).1.coefficients, (p.trySubTerm c d).2)) ∧
    (∀ p : Poly Int, p.addTermM .exact c d = .ok (p.addTerm c d)) := by
  have hmod : ∀ (f : Int → Res Int) (g : Int → Int) (_ : ∀ x, f x = .ok (g x)) (l : List Int) (i : Nat)
      (hi : i < l.length), modifyM f l i = .ok (l.modify i g) := fun f g h l i hi =>
    (chk_modifyM (P := fun _ => True) (fun x => ⟨fun _ => h x, fun h => absurd trivial h⟩) l i hi).1 trivial
  refine ⟨fun p => ?_, fun p => ?_, fun p => ?_, fun p => ?_, fun p => ?_, fun n p => ?_, fun p => ?_⟩
  · unfold Poly.trySubTermM Poly.trySubTerm
    split
    · split
      · rfl
      · simp only
        rw [hmod (fun x => Arith.exact.sub x c) (fun x => x - c) (fun _ => rfl) _ _ (by simp; omega)]; rfl
    · rw [hmod (fun x => Arith.exact.sub x c) (fun x => x - c) (fun _ => rfl) _ _ (by omega)]; rfl
  · unfold Sparse.trySubTermM Sparse.trySubTerm
    by_cases hc : c = 0
    · simp [hc]
    · simp only [isZero_eq_true, hc, if_false]
      cases p.terms.get d with
      | none => simp only; split <;> rfl
      | some v => rfl
  · unfold Monomial.trySubTermM Monomial.trySubTerm
    split
    · rfl
    · split <;> rfl
  · unfold LinearBinomial.trySubTermM LinearBinomial.trySubTerm LinearBinomial.modify
    split
    · by_cases h : 1 - d = 0
      · simp [h, Arith.exact]
      · simp [h, Arith.exact]
    · rfl
  · unfold QuadraticTrinomial.trySubTermM QuadraticTrinomial.trySubTerm QuadraticTrinomial.modify
    split
    · by_cases h : 2 - d = 0
      · simp [h, Arith.exact]
      · by_cases h2 : 2 - d = 1
        · simp [h2, Arith.exact]
        · simp [h, h2, Arith.exact]
    · rfl
  · unfold arrayTrySubTermM ArrayPoly.trySubTerm
    rw [p.length_eq]
    by_cases h : d < n
    · rw [if_pos h, if_pos h, hmod (fun x => Arith.exact.sub x c) (fun x => x - c) (fun _ => rfl) _ _ (by rw [p.length_eq]; omega)]; rfl
    · rw [if_neg h, if_neg h]
  · unfold Poly.addTermM Poly.addTerm
    simp only
    rw [hmod (fun x => Arith.exact.add x c) (fun x => x + c) (fun _ => rfl) _ _
      (by split <;> (try simp only [List.length_append, List.length_replicate]) <;> omega)]
    rfl

-- Non-vacuity: `u8`.
example : (⟨[5, 7]⟩ : Poly Int).trySubTermM (.machine true ⟨false, 8⟩) false 1 2 = .ok (⟨[5, 7]⟩, .error .canNotNegate) :=
  C30_dense_partial true 8 ⟨[5, 7]⟩ 1 2 (by simp)
example : (⟨[5, 7]⟩ : Poly Int).trySubTermM (.machine true ⟨false, 8⟩) false 7 0 = .ok (⟨[5, 0]⟩, .ok ()) ∧
    (⟨[5, 7]⟩ : Poly Int).trySubTermM (.machine true ⟨false, 8⟩) false 8 0 = .panic ∧
    (⟨[5, 7]⟩ : Poly Int).trySubTermM (.machine false ⟨false, 8⟩) false 8 0 = .ok (⟨[5, 255]⟩, .ok ()) :=
  ⟨rfl, rfl, rfl⟩

end Rustnomial
