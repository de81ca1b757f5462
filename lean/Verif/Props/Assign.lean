import Verif.Model.Assign
import Verif.Props.DenseMul
import Verif.Props.SparseBasic
import Verif.Props.SparseDiv
import Verif.Props.Fixed

/-!
# In-place and by-reference operators (C96, and the in-place halves of C11, C13, C15, C25, C26, C27, C50, C51)

`C96_*` hold for any coefficient type whatsoever, with no law of arithmetic assumed: the variants of an operator leave the
very same value (floating point and wrapping integers included), and panic or run for ever on the same operands.  The
others say what that value is.
-/

namespace Rustnomial
open Polynomial

/-! ## Any coefficient type -/

section
variable {N : Type}

/-- C96 (Monomial). -/
theorem C96_monomial_in_place [Zero N] [Mul N] [RDiv N] (m n : Monomial N) (c : N) (k : Int) :
    m.mulAssign n = m.mul n ∧ m.mulRef n = m.mul n ∧ m.mulAssignRef n = m.mul n ∧
    m.mulAssignScalar c = m.mulScalar c ∧ m.divAssignScalar c = m.divScalar c ∧
    m.shlAssign k = m.shl k ∧ m.shrAssign k = m.shr k := by
  refine ⟨rfl, rfl, rfl, rfl, rfl, rfl, ?_⟩
  rfl

/-- C96 (LinearBinomial). -/
theorem C96_binomial_in_place [Add N] [Sub N] [Mul N] [RDiv N] (a b : LinearBinomial N) (c : N) :
    a.addAssign b = a.add b ∧ a.subAssign b = a.sub b ∧ a.mulAssignScalar c = a.mulScalar c ∧
    a.divAssignScalar c = a.divScalar c := ⟨rfl, rfl, rfl, rfl⟩

/-- C96 (QuadraticTrinomial). -/
theorem C96_trinomial_in_place [Add N] [Sub N] [Mul N] [RDiv N] (a b : QuadraticTrinomial N) (c : N) :
    a.addAssign b = a.add b ∧ a.subAssign b = a.sub b ∧ a.mulAssignScalar c = a.mulScalar c ∧
    a.divAssignScalar c = a.divScalar c := ⟨rfl, rfl, rfl, rfl⟩

theorem sparse_remAssignLoop_eq [Zero N] [NumZero N] [Neg N] [Sub N] [Mul N] [Add N] [RDiv N] (rhs : BMap N) (rf : N)
    (rd fuel : Nat) (scale : N) (d : Nat) (p : Sparse N) :
    Sparse.remAssignLoop rhs rf rd fuel scale d p =
      (Sparse.remLoop rhs rf rd fuel scale d p.terms >>= fun t => .ok (Sparse.new t)) := by
  induction fuel generalizing scale d p with
  | zero => rfl
  | succ fuel ih =>
    rw [Sparse.remAssignLoop, Sparse.remLoop]
    split
    · dsimp only
      cases sparseFirstTerm (mapSubWScale p.terms rhs scale) with
      | zeroTerm => rfl
      | term c e =>
        dsimp only
        cases rdiv c rf with
        | ok s => rw [Res.ok_bind, Res.ok_bind, ih]
        | panic => rfl
        | fuel => rfl
    · rfl

theorem sparse_subAssign_eq [Neg N] [Sub N] (p q : Sparse N) : p.subAssign q = p.sub q := by
  unfold Sparse.subAssign Sparse.sub
  induction q.terms.entries generalizing p with
  | nil => rfl
  | cons e l ih =>
    rw [List.foldl_cons, List.foldl_cons, ih]
    congr 2
    unfold BMap.upsert
    cases p.terms.get e.1 <;> rfl

/-- C96 (SparsePolynomial): `%=` and `%` in every run, the others outright. -/
theorem C96_sparse_in_place [Zero N] [NumZero N] [Neg N] [Sub N] [Mul N] [Add N] [RDiv N] (p q : Sparse N) (k : Int)
    (fuel : Nat) :
    p.mulOwned q = p.mul q ∧ p.mulRef q = p.mul q ∧ p.mulAssign q = p.mul q ∧ p.mulAssignRef q = p.mul q ∧
    p.subAssign q = p.sub q ∧ p.shlAssign k = p.shl k ∧ p.shrAssign k = p.shr k ∧
    p.remAssign fuel q = p.rem fuel q := by
  refine ⟨rfl, rfl, rfl, rfl, ?_, rfl, rfl, ?_⟩
  · exact sparse_subAssign_eq p q
  · unfold Sparse.remAssign Sparse.rem
    cases sparseFirstTerm q.terms with
    | zeroTerm => rfl
    | term rf rd =>
      cases sparseFirstTerm p.terms with
      | zeroTerm => rfl
      | term c d =>
        dsimp only
        split
        · rfl
        · cases rdiv c rf with
          | ok s => rw [Res.ok_bind, Res.ok_bind, sparse_remAssignLoop_eq]
          | panic => rfl
          | fuel => rfl

/-- C96 (Polynomial): the products differ only in trimming; `-` is defined by `-=` in the code. -/
theorem C96_dense_in_place [Zero N] [NumZero N] [Add N] [Mul N] (p q : Poly N) :
    p.mulAssign q = p.mul q ∧ p.mulAssignRef q = p.mul q ∧ p.refMul q = p.mul q ∧ p.refMulRef q = p.mulRef q ∧
    p.mulRef q = (p.mul q >>= fun r => .ok (Poly.new r.terms)) := by
  refine ⟨rfl, rfl, rfl, rfl, ?_⟩
  unfold Poly.mulRef Poly.mul
  cases sliceMul p.terms q.terms <;> rfl

end

example : (⟨3, 2⟩ : Monomial ℤ).mulAssign ⟨-2, 5⟩ = ⟨-6, 7⟩ ∧ (⟨3, 2⟩ : Monomial ℤ).shrAssign 3 = .ok ⟨0, 0⟩ ∧
    (⟨3, 2⟩ : Monomial ℤ).shlAssign (-1) = .ok ⟨3, 1⟩ ∧ (⟨7, 2⟩ : Monomial ℤ).divAssignScalar (-2) = .ok ⟨-3, 2⟩ := by
  decide

example : (⟨1, 2, 3⟩ : QuadraticTrinomial ℤ).subAssign ⟨5, 5, 5⟩ = ⟨-4, -3, -2⟩ ∧
    (⟨9, 2⟩ : LinearBinomial ℤ).divAssignScalar 4 = .ok ⟨2, 0⟩ ∧
    (⟨9, 2⟩ : LinearBinomial ℤ).divAssignScalar 0 = .panic := by decide

example : ((Sparse.fromVec [1, 2, (3 : ℤ)]).subAssign (Sparse.fromVec [4, 0, 0, 1])).terms.entries
    = [(0, 2), (1, 2), (2, 1), (3, -4)] := by decide

/-! ## What the values are -/

/-- C50: all four spellings of the product of monomials. -/
theorem C50_monomial_mul_in_place {R : Type} [CommSemiring R] (m n : Monomial R) :
    (m.mulAssign n).poly = m.poly * n.poly ∧ (m.mulRef n).poly = m.poly * n.poly ∧
    (m.mulAssignRef n).poly = m.poly * n.poly :=
  ⟨C50_monomial_mul m n, C50_monomial_mul m n, C50_monomial_mul m n⟩

/-- C51: `+=` and `-=`. -/
theorem C51_in_place {R : Type} [CommRing R] (a b : LinearBinomial R) (s t : QuadraticTrinomial R) :
    (a.addAssign b).poly = a.poly + b.poly ∧ (a.subAssign b).poly = a.poly - b.poly ∧
    (s.addAssign t).poly = s.poly + t.poly ∧ (s.subAssign t).poly = s.poly - t.poly :=
  ⟨(C51_binomial_add_sub a b).1, (C51_binomial_add_sub a b).2, (C51_trinomial_add_sub s t).1,
    (C51_trinomial_add_sub s t).2⟩

/-- C13 (fixed-size types): `*=` by a scalar. -/
theorem C13_fixed_mul_assign_scalar {R : Type} [CommSemiring R] (m : Monomial R) (b : LinearBinomial R)
    (t : QuadraticTrinomial R) (c : R) :
    (m.mulAssignScalar c).poly = C c * m.poly ∧ (b.mulAssignScalar c).poly = C c * b.poly ∧
    (t.mulAssignScalar c).poly = C c * t.poly := C13_fixed_mul_scalar m b t c

/-- C13 (fixed-size types): `/=` by a non-zero scalar over a field. -/
theorem C13_fixed_div_assign_scalar {K : Type} [Field K] [RDiv K] [LawfulRDiv K] (m : Monomial K)
    (b : LinearBinomial K) (t : QuadraticTrinomial K) (c : K) (hc : c ≠ 0) :
    (∃ r, m.divAssignScalar c = .ok r ∧ C c * r.poly = m.poly) ∧
    (∃ r, b.divAssignScalar c = .ok r ∧ C c * r.poly = b.poly) ∧
    (∃ r, t.divAssignScalar c = .ok r ∧ C c * r.poly = t.poly) := C13_fixed_div_scalar m b t c hc

/-- C13 (fixed-size types, integers): `/=` truncates toward zero, and panics for the scalar zero. -/
theorem C13_fixed_div_assign_scalar_int (m : Monomial ℤ) (b : LinearBinomial ℤ) (t : QuadraticTrinomial ℤ) (c : ℤ) :
    (c ≠ 0 → (∃ r, m.divAssignScalar c = .ok r ∧ ∀ d, r.poly.coeff d = (m.poly.coeff d).tdiv c) ∧
      (∃ r, b.divAssignScalar c = .ok r ∧ ∀ d, r.poly.coeff d = (b.poly.coeff d).tdiv c) ∧
      (∃ r, t.divAssignScalar c = .ok r ∧ ∀ d, r.poly.coeff d = (t.poly.coeff d).tdiv c)) ∧
    m.divAssignScalar 0 = .panic ∧ b.divAssignScalar 0 = .panic ∧ t.divAssignScalar 0 = .panic :=
  C13_fixed_div_scalar_int m b t c

/-- C15 (Monomial): `<<=` and `>>=`, with the exception of `i32::MIN` (`C15_monomial_shift_assign_false`). -/
theorem C15_monomial_shift_assign_partial {R : Type} [CommSemiring R] (m : Monomial R) (k : Int) (hk : k ≠ -2 ^ 31) :
    (∃ r, m.shlAssign k = .ok r ∧ (0 ≤ k → r.poly = m.poly * X ^ k.toNat) ∧
      (k < 0 → IsShiftRight m.poly r.poly (-k).toNat)) ∧
    (∃ r, m.shrAssign k = .ok r ∧ (0 ≤ k → IsShiftRight m.poly r.poly k.toNat) ∧
      (k < 0 → r.poly = m.poly * X ^ (-k).toNat)) := C15_monomial_shift_partial m k hk

/-- C15: `<<=` and `>>=` by `i32::MIN` panic as well. -/
theorem C15_monomial_shift_assign_false {R : Type} [CommSemiring R] (m : Monomial R) :
    m.shlAssign (-2 ^ 31) = .panic ∧ m.shrAssign (-2 ^ 31) = .panic := C15_monomial_shift_false m

/-- C15 (SparsePolynomial): `<<=` and `>>=`, with the same exception. -/
theorem C15_sparse_shift_assign_partial {R : Type} [CommSemiring R] (p : Sparse R) (k : Int) (hk : k ≠ -2 ^ 31) :
    (∃ r, p.shlAssign k = .ok r ∧
      (0 ≤ k → entriesPoly r.terms.entries = entriesPoly p.terms.entries * X ^ k.toNat) ∧
      (k < 0 → IsShiftRight (entriesPoly p.terms.entries) (entriesPoly r.terms.entries) (-k).toNat)) ∧
    (∃ r, p.shrAssign k = .ok r ∧
      (0 ≤ k → IsShiftRight (entriesPoly p.terms.entries) (entriesPoly r.terms.entries) k.toNat) ∧
      (k < 0 → entriesPoly r.terms.entries = entriesPoly p.terms.entries * X ^ (-k).toNat)) :=
  C15_sparse_shift_partial p k hk

/-- C25: `-=` of sparse polynomials. -/
theorem C25_sparse_sub_assign {R : Type} [CommRing R] (p q : Sparse R) :
    entriesPoly (p.subAssign q).terms.entries
      = entriesPoly p.terms.entries - entriesPoly q.terms.entries := by
  rw [sparse_subAssign_eq, C25_sparse_sub]

/-- C26: all spellings of the product of sparse polynomials. -/
theorem C26_sparse_mul_in_place {R : Type} [CommSemiring R] [NumZero R] [LawfulNumZero R] (p q : Sparse R) :
    let P := entriesPoly p.terms.entries * entriesPoly q.terms.entries
    entriesPoly (p.mulOwned q).terms.entries = P ∧ entriesPoly (p.mulRef q).terms.entries = P ∧
    entriesPoly (p.mulAssign q).terms.entries = P ∧ entriesPoly (p.mulAssignRef q).terms.entries = P :=
  ⟨C26_sparse_mul p q, C26_sparse_mul p q, C26_sparse_mul p q, C26_sparse_mul p q⟩

/-- C11: all spellings of the product of dense polynomials, both operands zero excepted (there they panic, `C11_dense_mul_zero_zero_false`). -/
theorem C11_dense_mul_in_place_partial {R : Type} [CommSemiring R] [NumZero R] [LawfulNumZero R] (p q : Poly R)
    (h : descPoly p.terms ≠ 0 ∨ descPoly q.terms ≠ 0) :
    (∃ r, p.mulAssign q = .ok r ∧ descPoly r.terms = descPoly p.terms * descPoly q.terms) ∧
    (∃ r, p.mulAssignRef q = .ok r ∧ descPoly r.terms = descPoly p.terms * descPoly q.terms) ∧
    (∃ r, p.refMul q = .ok r ∧ descPoly r.terms = descPoly p.terms * descPoly q.terms) ∧
    (∃ r, p.refMulRef q = .ok r ∧ descPoly r.terms = descPoly p.terms * descPoly q.terms) :=
  have h' := C11_dense_mul_partial p q h
  ⟨h'.1, h'.1, h'.1, h'.2⟩

/-- C27: what `%=` of sparse polynomials does over a field: with operands of equal degree the Euclidean remainder, with a
smaller left operand nothing, with a larger one it never returns. -/
theorem C27_sparse_rem_assign_partial {K : Type} [Field K] [NumZero K] [LawfulNumZero K] [RDiv K] [LawfulRDiv K]
    (p b : Sparse K) (hb : entriesPoly b.terms.entries ≠ 0) (fuel : Nat) (hf : 2 ≤ fuel) :
    ((entriesPoly p.terms.entries).degree < (entriesPoly b.terms.entries).degree → p.remAssign fuel b = .ok p) ∧
    ((entriesPoly p.terms.entries).degree = (entriesPoly b.terms.entries).degree →
      ∃ r, p.remAssign fuel b = .ok r ∧
        entriesPoly r.terms.entries = entriesPoly p.terms.entries % entriesPoly b.terms.entries) ∧
    ((entriesPoly b.terms.entries).degree < (entriesPoly p.terms.entries).degree → p.remAssign fuel b = .fuel) := by
  rw [(C96_sparse_in_place p b 0 fuel).2.2.2.2.2.2.2]
  refine ⟨fun h => (C27_sparse_div_mod_small_partial p b h fuel).2, fun h => ?_, fun h => ?_⟩
  · obtain ⟨_, r, _, h2, _, h4⟩ := C27_sparse_div_mod_equal_partial p b hb h fuel hf
    exact ⟨r, h2, h4⟩
  · exact (C27_sparse_div_mod_diverges (fun x y h => ⟨_, LawfulRDiv.rdiv_eq x y h⟩) p b hb h fuel).2

end Rustnomial
