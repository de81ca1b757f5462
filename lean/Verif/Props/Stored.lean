import Verif.SpecStored
import Verif.Model.Assign
import Verif.Model.History
import Verif.Lemmas.Dense
import Verif.Lemmas.Sparse
import Verif.Props.DenseMul
import Verif.Props.DenseCalc

/-!
# C101 – the stored form of results

Which results are trimmed, how many coefficients a `Polynomial` stores and for which degrees a `SparsePolynomial` has
entries.  Nothing is assumed about the arithmetic of the coefficients, so all of this holds for machine integers and floats
as well.
-/

namespace Rustnomial

section Dense
variable {N : Type} [Zero N] [NumZero N]

theorem trimmed_dropWhile (l : List N) : Trimmed (l.dropWhile isZero) := by
  intro x hx
  induction l with
  | nil => simp at hx
  | cons a l ih =>
    by_cases h : isZero a = true
    · rw [List.dropWhile_cons, if_pos h] at hx; exact ih hx
    · rw [List.dropWhile_cons, if_neg h] at hx
      simp only [List.head?_cons, Option.some.injEq] at hx
      rw [← hx]; simpa using h

theorem trimmed_new (l : List N) : Trimmed (Poly.new l).terms := by rw [new_terms]; exact trimmed_dropWhile l

theorem trimmed_mulRef [Add N] [Mul N] {p q r : Poly N} (h : p.mulRef q = .ok r) : Trimmed r.terms := by
  unfold Poly.mulRef at h
  obtain ⟨t, _, h2⟩ := Res.bind_eq_ok.1 h
  cases h2
  exact trimmed_new _

theorem trimmed_pow [Add N] [Mul N] [One N] (p : Poly N) (n : Nat) (hn : 1 ≤ n) {r : Poly N} (h : p.pow n = .ok r) :
    Trimmed r.terms := by
  unfold Poly.pow at h
  rw [if_neg (by omega)] at h
  split at h
  · cases h; exact trimmed_new _
  · split at h
    · exact trimmed_mulRef h
    · split at h
      · obtain ⟨t, _, h2⟩ := Res.bind_eq_ok.1 h
        unfold Poly.pow at h2
        simp only [OfNat.ofNat_ne_zero, if_false, OfNat.ofNat_ne_one, if_true] at h2
        exact trimmed_mulRef h2
      · obtain ⟨t, _, h2⟩ := Res.bind_eq_ok.1 h
        exact trimmed_mulRef h2

/-- C101: `new`, `From<Vec>`, `trim`, `+`, the products by reference, scalar `*` and `/`, casts and `pow` with a positive
exponent return trimmed vectors whatever the operands are. -/
theorem C101_trimmed [One N] [Add N] [Mul N] [RDiv N] {A : Type} (p q : Poly N) (l : List N) (c : N) (n : Nat)
    (cast : A → N) (a : Poly A) :
    Trimmed (Poly.new l).terms ∧ Trimmed (Poly.fromVec l).terms ∧ Trimmed p.trim.terms ∧
    (∀ r, p.add q = .ok r → Trimmed r.terms) ∧
    (∀ r, p.mulRef q = .ok r → Trimmed r.terms) ∧ (∀ r, p.refMulRef q = .ok r → Trimmed r.terms) ∧
    Trimmed (p.mulScalar c).terms ∧ (∀ r, p.divScalar c = .ok r → Trimmed r.terms) ∧
    Trimmed (a.upcast cast).terms ∧ (1 ≤ n → ∀ r, p.pow n = .ok r → Trimmed r.terms) := by
  refine ⟨trimmed_new l, trimmed_new l, trimmed_new p.terms, ?_, fun r h => trimmed_mulRef h,
    fun r h => trimmed_mulRef h, trimmed_new _, ?_, trimmed_new _, fun hn r h => trimmed_pow p n hn h⟩
  · intro r h
    unfold Poly.add at h
    dsimp only at h
    obtain ⟨t, _, h2⟩ := Res.bind_eq_ok.1 h
    cases h2
    exact trimmed_new _
  · intro r h
    unfold Poly.divScalar at h
    obtain ⟨t, _, h2⟩ := Res.bind_eq_ok.1 h
    cases h2
    exact trimmed_new _

example : (⟨[1, 2, 3]⟩ : Poly ℤ).add ⟨[-1, -2, 5]⟩ = .ok ⟨[8]⟩ ∧
    (⟨[0, 1, 1]⟩ : Poly ℤ).mulRef ⟨[1, -1]⟩ = .ok ⟨[1, 0, -1]⟩ := by decide

/-- C101: a division returns a trimmed quotient, and a trimmed remainder unless there was nothing to divide, when the
dividend itself is returned, trimmed or not.  The same for `%`. -/
theorem C101_trimmed_div [Sub N] [Mul N] [RDiv N] (fuel : Nat) (p b : Poly N) :
    (∀ q r, p.divMod fuel b = .ok (q, r) → Trimmed q.terms ∧ (Trimmed r.terms ∨ (q = Poly.zero ∧ r = p))) ∧
    (∀ q, p.floorDiv fuel b = .ok q → Trimmed q.terms) ∧
    (∀ r, p.rem fuel b = .ok r → Trimmed r.terms ∨ r = p) := by
  have h1 : ∀ q r, p.divMod fuel b = .ok (q, r) → Trimmed q.terms ∧ (Trimmed r.terms ∨ (q = Poly.zero ∧ r = p)) := by
    intro q r h
    unfold Poly.divMod at h
    have hz : Trimmed (Poly.zero : Poly N).terms := by intro x hx; simp [Poly.zero] at hx
    split at h
    · cases h
    · split at h
      · cases h; exact ⟨hz, .inr ⟨rfl, rfl⟩⟩
      · split at h
        · cases h; exact ⟨hz, .inr ⟨rfl, rfl⟩⟩
        · obtain ⟨t, _, h2⟩ := Res.bind_eq_ok.1 h
          cases h2
          exact ⟨trimmed_new _, .inl (trimmed_new _)⟩
  refine ⟨h1, ?_, ?_⟩
  · intro q h
    unfold Poly.floorDiv at h
    obtain ⟨t, h3, h2⟩ := Res.bind_eq_ok.1 h
    cases h2
    exact (h1 t.1 t.2 h3).1
  · intro r h
    unfold Poly.rem at h
    split at h
    · cases h
    · split at h
      · cases h; exact .inr rfl
      · split at h
        · cases h; exact .inr rfl
        · obtain ⟨t, _, h2⟩ := Res.bind_eq_ok.1 h
          obtain ⟨t, _, h2⟩ := Res.bind_eq_ok.1 h2
          cases h2
          exact .inl (trimmed_new _)

example : (⟨[0, 2, 4]⟩ : Poly ℚ).divMod 10 ⟨[1, 1]⟩ = .ok (⟨[2]⟩, ⟨[2]⟩) ∧
    (⟨[0, 4]⟩ : Poly ℚ).divMod 10 ⟨[1, 1]⟩ = .ok (⟨[]⟩, ⟨[0, 4]⟩) := by decide +kernel

omit [NumZero N] in
theorem addTerm_length [Add N] (p : Poly N) (c : N) (d : Nat) :
    (p.addTerm c d).terms.length = max p.terms.length (d + 1) := by
  unfold Poly.addTerm
  dsimp only
  rw [List.length_modify]
  split
  · rw [List.length_append, List.length_replicate]; omega
  · omega

omit [NumZero N] in
theorem fromTerms_length_from [Add N] (ts : List (N × Nat)) : ∀ p : Poly N,
    (ts.foldl (fun a t => a.addTerm t.1 t.2) p).terms.length = max p.terms.length (maxOf (ts.map fun t => t.2 + 1)) := by
  induction ts with
  | nil => intro p; simp [maxOf]
  | cons t ts ih =>
    intro p
    rw [List.foldl_cons, ih, addTerm_length, List.map_cons, maxOf]
    omega

omit [NumZero N] in
/-- C101: growing a `Polynomial`: `add_term` and a successful `try_sub_term` of degree `d` leave `max(len, d + 1)`
coefficients and `from_terms` one more than the largest degree in the list – also for zero coefficients and for terms which
cancel. -/
theorem C101_grow_length [Add N] [Sub N] [CanNegate N] (p : Poly N) (c : N) (d : Nat) (ts : List (N × Nat)) :
    (p.addTerm c d).terms.length = max p.terms.length (d + 1) ∧
    (p.tryAddTerm c d).1.terms.length = max p.terms.length (d + 1) ∧
    ((p.trySubTerm c d).2 = .ok () → (p.trySubTerm c d).1.terms.length = max p.terms.length (d + 1)) ∧
    (Poly.fromTerms ts).terms.length = maxOf (ts.map fun t => t.2 + 1) := by
  refine ⟨addTerm_length p c d, addTerm_length p c d, ?_, ?_⟩
  · unfold Poly.trySubTerm
    split
    · split
      · intro h; cases h
      · intro _
        dsimp only
        rw [List.length_modify, List.length_append, List.length_replicate]; omega
    · intro _
      dsimp only
      rw [List.length_modify]; omega
  · unfold Poly.fromTerms
    rw [fromTerms_length_from]; simp

example : (Poly.fromTerms [((3 : ℤ), 4), (-3, 4), (0, 6)]).terms = [0, 0, 0, 0, 0, 0, 0] := by decide

omit [Zero N] [NumZero N] in
theorem mapM_length {α β : Type} (f : α → Res β) : ∀ (l : List α) (r : List β), l.mapM f = .ok r → r.length = l.length
  | [], r, h => by cases h; rfl
  | a :: l, r, h => by
    rw [List.mapM_cons] at h
    obtain ⟨x, _, h2⟩ := Res.bind_eq_ok.1 h
    obtain ⟨y, h3, h4⟩ := Res.bind_eq_ok.1 h2
    cases h4
    simp [mapM_length f l y h3]

omit [NumZero N] in
theorem sliceFrom_ok {α : Type} {l : List α} {i : Nat} (h : i ≤ l.length) : sliceFrom l i = .ok (l.drop i) := if_pos h

omit [Zero N] [NumZero N] in
/-- C101: sums and differences other than `+` (`-` and `-=` in all forms, `+=`) always return and store as many coefficients
as the longer operand; negation and scaling in place as many as the operand. -/
theorem C101_sum_length [Add N] [Sub N] [Neg N] [Mul N] [RDiv N] (p q : Poly N) (c : N) :
    (∃ r, p.sub q = .ok r ∧ r.terms.length = max p.terms.length q.terms.length) ∧
    (∃ r, p.subRef q = .ok r ∧ r.terms.length = max p.terms.length q.terms.length) ∧
    (∃ r, p.addAssign q = .ok r ∧ r.terms.length = max p.terms.length q.terms.length) ∧
    p.neg.terms.length = p.terms.length ∧ (p.mulAssignScalar c).terms.length = p.terms.length ∧
    (∀ r, p.divAssignScalar c = .ok r → r.terms.length = p.terms.length) := by
  refine ⟨?_, ?_, ?_, by simp [Poly.neg], by simp [Poly.mulAssignScalar], ?_⟩
  · unfold Poly.sub
    split
    · refine ⟨_, rfl, ?_⟩
      simp only [List.length_append, List.length_map, List.length_take, length_zipMut, List.length_drop]
      omega
    · dsimp only
      rw [sliceFrom_ok (by omega), Res.ok_bind]
      refine ⟨_, rfl, ?_⟩
      simp only [List.length_append, List.length_take, length_zipMut, List.length_drop]
      omega
  · unfold Poly.subRef
    split
    · refine ⟨_, rfl, ?_⟩
      simp only [List.length_append, List.length_map, List.length_take, length_zipMut]
      omega
    · dsimp only
      rw [sliceFrom_ok (by omega), Res.ok_bind]
      refine ⟨_, rfl, ?_⟩
      simp only [List.length_append, List.length_take, length_zipMut, List.length_drop]
      omega
  · unfold Poly.addAssign
    split
    · dsimp only
      rw [sliceFrom_ok (by omega), Res.ok_bind]
      refine ⟨_, rfl, ?_⟩
      simp only [List.length_append, List.length_take, length_zipMut, List.length_drop]
      omega
    · dsimp only
      rw [sliceFrom_ok (by omega), Res.ok_bind]
      refine ⟨_, rfl, ?_⟩
      simp only [List.length_append, List.length_take, length_zipMut, List.length_drop]
      omega
  · intro r h
    unfold Poly.divAssignScalar at h
    obtain ⟨t, h1, h2⟩ := Res.bind_eq_ok.1 h
    cases h2
    exact mapM_length _ _ _ h1

example : (⟨[1, 2, 3]⟩ : Poly ℤ).sub ⟨[1, 2, 3]⟩ = .ok ⟨[0, 0, 0]⟩ := by decide

theorem sliceMulLoop_length [Add N] [Mul N] (lhs : List N) : ∀ (rhs : List N) (i : Nat) (terms r : List N),
    sliceMulLoop lhs rhs i terms = .ok r → r.length = terms.length
  | [], i, terms, r, h => by cases h; rfl
  | a :: rhs, i, terms, r, h => by
    rw [sliceMulLoop] at h
    obtain ⟨t, h1, h2⟩ := Res.bind_eq_ok.1 h
    rw [sliceMulLoop_length lhs rhs _ t r h2]
    unfold sliceMulStep at h1
    split at h1
    · cases h1; rfl
    · obtain ⟨u, h3, h4⟩ := Res.bind_eq_ok.1 h1
      unfold sliceFrom at h3
      split at h3
      · cases h3; cases h4
        simp only [List.length_append, List.length_take, length_zipMut, List.length_drop]; omega
      · cases h3

theorem coreLen_eq (l : List N) : coreLen l = l.length - firstNonzeroIndex l := by
  have := firstNonzeroIndex_add l
  unfold coreLen; omega

theorem sliceMul_length [Add N] [Mul N] {l m r : List N} (h : sliceMul l m = .ok r) :
    r.length + 1 = coreLen l + coreLen m := by
  unfold sliceMul at h
  rw [sliceFrom_ok (firstNonzeroIndex_le _), Res.ok_bind, sliceFrom_ok (firstNonzeroIndex_le _), Res.ok_bind] at h
  obtain ⟨len, h1, h2⟩ := Res.bind_eq_ok.1 h
  rw [sliceMulLoop_length _ _ _ _ _ h2, List.length_replicate]
  unfold usub at h1
  split at h1
  · cases h1
    rw [coreLen_eq, coreLen_eq]
    simp only [List.length_drop] at *
    omega
  · cases h1

/-- C101: products not by reference (`*`, `*=`) store one coefficient less than the operands together, leading zeros of the
operands not counted: `deg p + deg q + 1` for non-zero ones, and `deg p` zeros for the product of `p` with zero. -/
theorem C101_product_length [Add N] [Mul N] (p q : Poly N) :
    (∀ r, p.mul q = .ok r → r.terms.length + 1 = coreLen p.terms + coreLen q.terms) ∧
    (∀ r, p.refMul q = .ok r → r.terms.length + 1 = coreLen p.terms + coreLen q.terms) ∧
    (∀ r, p.mulAssign q = .ok r → r.terms.length + 1 = coreLen p.terms + coreLen q.terms) ∧
    (∀ r, p.mulAssignRef q = .ok r → r.terms.length + 1 = coreLen p.terms + coreLen q.terms) := by
  refine ⟨?_, ?_, ?_, ?_⟩ <;>
  · intro r h
    obtain ⟨t, h1, h2⟩ := Res.bind_eq_ok.1 h
    cases h2
    exact sliceMul_length h1

example : (⟨[0, 1, 2, 3]⟩ : Poly ℤ).mul ⟨[0]⟩ = .ok ⟨[0, 0]⟩ ∧
    (⟨[0, 1, 2, 3]⟩ : Poly ℤ).mul ⟨[1, 1]⟩ = .ok ⟨[1, 3, 5, 3]⟩ := by decide

omit [Zero N] [NumZero N] in
theorem derivLoop_len [Sub N] [One N] [Mul N] : ∀ (l : List N) (d : N), (Poly.derivLoop l d).length = l.length
  | [], _ => rfl
  | a :: l, d => by simp [Poly.derivLoop, derivLoop_len l]

omit [Zero N] [NumZero N] in
theorem integLoop_length [Sub N] [One N] [RDiv N] : ∀ (l : List N) (d : N) (r : List N),
    Poly.integLoop l d = .ok r → r.length = l.length
  | [], _, r, h => by cases h; rfl
  | a :: l, d, r, h => by
    rw [Poly.integLoop] at h
    obtain ⟨x, _, h2⟩ := Res.bind_eq_ok.1 h
    obtain ⟨y, h3, h4⟩ := Res.bind_eq_ok.1 h2
    cases h4
    simp [integLoop_length l _ y h3]

/-- C101: `derivative` stores one coefficient less, `integral` one more than the operand without its leading zeros; so the
integral of zero stores a zero. -/
theorem C101_calculus_length [One N] [Sub N] [Mul N] [RDiv N] [FromUsizeCont N] (p : Poly N) :
    (∀ r, p.derivative = .ok r → r.terms.length = coreLen p.terms - 1) ∧
    (∀ r, p.integral = .ok r → r.terms.length = coreLen p.terms + 1) := by
  have hd : (p.terms.drop (firstNonzeroIndex p.terms)).length = coreLen p.terms := by
    rw [drop_firstNonzeroIndex]; rfl
  refine ⟨?_, ?_⟩
  · intro r h
    unfold Poly.derivative at h
    dsimp only at h
    split at h
    · cases h
    · split at h
      · rename_i h0
        cases h
        rw [h0] at hd
        simp only [List.length_nil] at hd
        simp [Poly.zero, ← hd]
      · rename_i x xs h0
        cases h
        rw [h0] at hd
        dsimp only
        rw [derivLoop_len, List.length_dropLast, hd]
  · intro r h
    unfold Poly.integral at h
    dsimp only at h
    split at h
    · cases h
    · obtain ⟨t, h1, h2⟩ := Res.bind_eq_ok.1 h
      cases h2
      dsimp only
      rw [List.length_append, integLoop_length _ _ _ h1, hd]; rfl

example : (⟨[0, 0]⟩ : Poly ℚ).integral = .ok ⟨[0]⟩ ∧ (⟨[0, 3, 1]⟩ : Poly ℚ).derivative = .ok ⟨[3]⟩ := by
  decide +kernel

/-- C101: `p << k` stores `k` coefficients more than `p` without its leading zeros, `<<=` `k` more than `p` as it is;
`p >> k`, when it returns, `k` less than `p` without its leading zeros and is trimmed, `>>=` `k` less than `p` as it is. -/
theorem C101_shift_length (hz : isZero (0 : N) = true) (p : Poly N) (k : Nat) :
    (∃ r, p.shl k = .ok r ∧ r.terms.length = coreLen p.terms + k ∧ (Trimmed r.terms ↔ coreLen p.terms ≠ 0 ∨ k = 0)) ∧
    (∃ r, p.shlAssign k = .ok r ∧ r.terms.length = p.terms.length + k) ∧
    (∀ r, p.shr k = .ok r → r.terms.length = coreLen p.terms - k ∧ Trimmed r.terms) ∧
    (∃ r, p.shrAssign k = .ok r ∧ r.terms.length = p.terms.length - k) := by
  have hk : ¬ ((k : ℤ) < 0) := by omega
  have ht : ((k : ℤ)).toNat = k := by omega
  have hadd := firstNonzeroIndex_add p.terms
  refine ⟨?_, ?_, ?_, ?_⟩
  · unfold Poly.shl Poly.shlPos
    rw [if_neg hk, ht, sliceFrom_ok (firstNonzeroIndex_le _), Res.ok_bind, drop_firstNonzeroIndex]
    refine ⟨_, rfl, by simp [coreLen], ?_⟩
    dsimp only
    have hx := trimmed_dropWhile p.terms
    unfold coreLen
    cases h : p.terms.dropWhile isZero with
    | nil =>
      simp only [List.nil_append, List.length_nil, ne_eq, not_true_eq_false, false_or]
      constructor
      · intro h'
        by_contra hk
        obtain ⟨j, rfl⟩ := Nat.exists_eq_succ_of_ne_zero hk
        have := h' 0 (by simp [List.replicate_succ])
        rw [hz] at this
        cases this
      · rintro rfl x hx
        simp at hx
    | cons a l =>
      simp only [List.length_cons, ne_eq, Nat.add_eq_zero_iff, one_ne_zero, and_false, not_false_eq_true, true_or, iff_true]
      intro x hx'
      rw [h] at hx
      exact hx x (by simpa using hx')
  · unfold Poly.shlAssign
    rw [if_neg hk, ht]
    exact ⟨_, rfl, by simp [Poly.shlAssignPos]⟩
  · intro r h
    unfold Poly.shr Poly.shrPos at h
    rw [if_neg hk, ht] at h
    dsimp only at h
    split at h
    · cases h
      refine ⟨?_, fun x hx => by simp at hx⟩
      simp only [List.length_nil]
      unfold coreLen; omega
    · obtain ⟨t, h1, h2⟩ := Res.bind_eq_ok.1 h
      cases h2
      unfold sliceRange at h1
      split at h1
      · cases h1
        refine ⟨?_, ?_⟩
        · simp only [List.length_drop, List.length_take]
          unfold coreLen; omega
        · have hx := trimmed_dropWhile p.terms
          rw [← drop_firstNonzeroIndex] at hx
          intro x h'
          apply hx x
          rw [List.head?_drop] at h' ⊢
          rw [List.getElem?_take] at h'
          split at h'
          · exact h'
          · cases h'
      · cases h1
  · unfold Poly.shrAssign Poly.shrAssignPos
    rw [if_neg hk, ht]
    split
    · exact ⟨_, rfl, by simp; omega⟩
    · unfold sliceRange
      rw [if_pos ⟨Nat.zero_le _, by omega⟩, Res.ok_bind]
      exact ⟨_, rfl, by simp⟩

example : (⟨[0]⟩ : Poly ℤ).shl 3 = .ok ⟨[0, 0, 0]⟩ ∧ (⟨[0, 1, 2, 3]⟩ : Poly ℤ).shr 2 = .ok ⟨[1]⟩ ∧
    (⟨[0, 1, 2, 3]⟩ : Poly ℤ).shrAssign 2 = .ok ⟨[0, 1]⟩ := by decide

omit [Zero N] [NumZero N] in
theorem vecSubWScale_length [Sub N] [Mul N] {l r t : List N} {a b : Nat} {s : N}
    (h : vecSubWScale l a r b s = .ok t) : t.length = l.length := by
  unfold vecSubWScale at h
  obtain ⟨l1, h1, h⟩ := Res.bind_eq_ok.1 h
  obtain ⟨l2, h2, h⟩ := Res.bind_eq_ok.1 h
  obtain ⟨l3, h3, h⟩ := Res.bind_eq_ok.1 h
  obtain ⟨l4, h4, h⟩ := Res.bind_eq_ok.1 h
  obtain ⟨l5, h5, h⟩ := Res.bind_eq_ok.1 h
  obtain ⟨l6, h6, h⟩ := Res.bind_eq_ok.1 h
  cases h
  unfold sliceFrom at h3
  split at h3
  · cases h3
    simp only [List.length_append, List.length_take, length_zipMut, List.length_drop]; omega
  · cases h3

theorem remAssignLoop_length [Sub N] [Mul N] [RDiv N] (b : List N) (c : N) (d : Nat) :
    ∀ (fuel : Nat) (s : N) (e : Nat) (l r : List N), Poly.remAssignLoop b c d fuel s e l = .ok r → r.length = l.length
  | 0, _, _, _, _, h => by cases h
  | fuel + 1, s, e, l, r, h => by
    rw [Poly.remAssignLoop] at h
    split at h
    · obtain ⟨t, h1, h2⟩ := Res.bind_eq_ok.1 h
      have hl := vecSubWScale_length h1
      split at h2
      · cases h2; exact hl
      · obtain ⟨s', _, h3⟩ := Res.bind_eq_ok.1 h2
        rw [remAssignLoop_length b c d fuel _ _ t r h3, hl]
    · cases h; rfl

/-- C101: `%=` never changes the number of stored coefficients: the remainder is padded with zeros. -/
theorem C101_rem_assign_length [Sub N] [Mul N] [RDiv N] (fuel : Nat) (p b r : Poly N) (h : p.remAssign fuel b = .ok r) :
    r.terms.length = p.terms.length := by
  unfold Poly.remAssign at h
  split at h
  · cases h
  · split at h
    · cases h; rfl
    · split at h
      · cases h; rfl
      · obtain ⟨s, _, h2⟩ := Res.bind_eq_ok.1 h
        obtain ⟨t, h3, h4⟩ := Res.bind_eq_ok.1 h2
        cases h4
        exact remAssignLoop_length _ _ _ _ _ _ _ _ h3

example : (⟨[1, 0, 0, 5]⟩ : Poly ℚ).remAssign 10 ⟨[1, 0]⟩ = .ok ⟨[0, 0, 0, 5]⟩ := by decide +kernel

end Dense

section Sparse
variable {N : Type}

/-- The map has an entry for `k`. -/
def HasKey (m : BMap N) (k : Nat) : Prop := ∃ v, (k, v) ∈ m.entries

theorem hasKey_iff (m : BMap N) (k : Nat) : HasKey m k ↔ m.get k ≠ none := by
  unfold HasKey
  constructor
  · rintro ⟨v, hv⟩
    rw [BMap.mem_entries] at hv
    simp [hv]
  · intro h
    obtain ⟨v, hv⟩ := Option.ne_none_iff_exists'.1 h
    exact ⟨v, (BMap.mem_entries m k v).2 hv⟩

theorem hasKey_empty (k : Nat) : ¬ HasKey (BMap.empty : BMap N) k := by
  rintro ⟨v, hv⟩; simp [BMap.empty] at hv

theorem hasKey_insert (m : BMap N) (j : Nat) (v : N) (k : Nat) : HasKey (m.insert j v) k ↔ HasKey m k ∨ k = j := by
  rw [hasKey_iff, hasKey_iff, BMap.get_insert]
  split <;> simp_all

theorem hasKey_upsert (m : BMap N) (j : Nat) (v : N) (f : N → N) (k : Nat) :
    HasKey (m.upsert j v f) k ↔ HasKey m k ∨ k = j := by
  unfold BMap.upsert
  split <;> exact hasKey_insert ..

theorem hasKey_foldl {α : Type} (step : BMap N → α → BMap N) (c : α → Prop) (key : α → Nat)
    (hs : ∀ m e k, HasKey (step m e) k ↔ HasKey m k ∨ (c e ∧ k = key e)) (l : List α) (k : Nat) :
    ∀ m, HasKey (l.foldl step m) k ↔ HasKey m k ∨ ∃ e ∈ l, c e ∧ k = key e := by
  induction l with
  | nil => intro m; simp
  | cons a l ih =>
    intro m
    rw [List.foldl_cons, ih, hs]
    simp only [List.mem_cons, exists_eq_or_imp]
    tauto

theorem hasKey_foldlM {α : Type} (step : BMap N → α → Res (BMap N)) (c : α → Prop) (key : α → Nat)
    (hs : ∀ m e r k, step m e = .ok r → (HasKey r k ↔ HasKey m k ∨ (c e ∧ k = key e))) (l : List α) (k : Nat) :
    ∀ m r, l.foldlM step m = .ok r → (HasKey r k ↔ HasKey m k ∨ ∃ e ∈ l, c e ∧ k = key e) := by
  induction l with
  | nil => intro m r h; cases h; simp
  | cons a l ih =>
    intro m r h
    rw [List.foldlM_cons] at h
    obtain ⟨m', h1, h2⟩ := Res.bind_eq_ok.1 h
    rw [ih m' r h2, hs _ _ _ _ h1]
    simp only [List.mem_cons, exists_eq_or_imp]
    tauto

theorem hasKey_iff_entries (m : BMap N) (k : Nat) : HasKey m k ↔ ∃ e ∈ m.entries, True ∧ k = e.1 := by
  unfold HasKey
  constructor
  · rintro ⟨v, hv⟩; exact ⟨_, hv, trivial, rfl⟩
  · rintro ⟨e, he, _, rfl⟩; exact ⟨e.2, he⟩

/-- C101: a `SparsePolynomial` stores an entry for every degree at which either operand of a sum or difference has one, even
if the two cancel; negation and scaling (by zero as well) keep the degrees. -/
theorem C101_sparse_sum_entries [Add N] [Sub N] [Neg N] [Mul N] [RDiv N] (p q : Sparse N) (c : N) (k : Nat) :
    (Stores (p.add q) k ↔ Stores p k ∨ Stores q k) ∧ (Stores (p.addAssign q) k ↔ Stores p k ∨ Stores q k) ∧
    (Stores (p.sub q) k ↔ Stores p k ∨ Stores q k) ∧
    (Stores p.neg k ↔ Stores p k) ∧ (Stores (p.mulScalar c) k ↔ Stores p k) ∧
    (Stores (p.mulAssignScalar c) k ↔ Stores p k) ∧
    (∀ r, p.divScalar c = .ok r → (Stores r k ↔ Stores p k)) ∧
    (∀ r, p.divAssignScalar c = .ok r → (Stores r k ↔ Stores p k)) := by
  have hi : ∀ (f : Nat × N → N), ∀ m : BMap N, ∀ l : List (Nat × N),
      HasKey (l.foldl (fun terms e => terms.insert e.1 (f e)) m) k ↔ HasKey m k ∨ ∃ e ∈ l, True ∧ k = e.1 := fun f m l =>
    hasKey_foldl _ (fun _ => True) (fun e => e.1) (fun m e k => by rw [hasKey_insert]; simp) l k m
  have hu : ∀ (f : Nat × N → N) (g : Nat × N → N → N), ∀ m : BMap N, ∀ l : List (Nat × N),
      HasKey (l.foldl (fun terms e => terms.upsert e.1 (f e) (g e)) m) k ↔ HasKey m k ∨ ∃ e ∈ l, True ∧ k = e.1 :=
    fun f g m l => hasKey_foldl _ (fun _ => True) (fun e => e.1) (fun m e k => by rw [hasKey_upsert]; simp) l k m
  have hm : ∀ (m : BMap N) (l : List (Nat × N)) (r : BMap N), l.foldlM (fun terms e => do
      let v ← rdiv e.2 c
      Res.ok (terms.insert e.1 v)) m = .ok r → (HasKey r k ↔ HasKey m k ∨ ∃ e ∈ l, True ∧ k = e.1) := fun m l r h =>
    hasKey_foldlM _ (fun _ => True) (fun e => e.1) (fun m e r k h => by
      obtain ⟨v, _, h2⟩ := Res.bind_eq_ok.1 h
      cases h2
      rw [hasKey_insert]; simp) l k m r h
  refine ⟨?_, ?_, ?_, ?_, ?_, ?_, ?_, ?_⟩
  · show HasKey _ k ↔ HasKey _ k ∨ HasKey _ k
    rw [hasKey_iff_entries p.terms, hasKey_iff_entries q.terms]
    unfold Sparse.add
    dsimp only
    rw [hu, hi]
    simp only [hasKey_empty, false_or]
    exact or_comm
  · show HasKey _ k ↔ HasKey _ k ∨ HasKey _ k
    rw [hasKey_iff_entries q.terms]
    exact hu _ _ _ _
  · show HasKey _ k ↔ HasKey _ k ∨ HasKey _ k
    rw [hasKey_iff_entries q.terms]
    exact hu _ _ _ _
  · show HasKey _ k ↔ HasKey _ k
    unfold Sparse.neg Sparse.new
    dsimp only
    rw [hi, hasKey_iff_entries p.terms]
    simp [hasKey_empty]
  · show HasKey _ k ↔ HasKey _ k
    unfold Sparse.mulScalar Sparse.new
    dsimp only
    rw [hi, hasKey_iff_entries p.terms]
    simp [hasKey_empty]
  · show HasKey _ k ↔ HasKey _ k
    unfold Sparse.mulAssignScalar BMap.mapVals HasKey
    simp
  · intro r h
    unfold Sparse.divScalar at h
    obtain ⟨t, h1, h2⟩ := Res.bind_eq_ok.1 h
    cases h2
    show HasKey _ k ↔ HasKey _ k
    have := hm _ _ _ h1
    rw [hasKey_iff_entries p.terms]
    simpa [hasKey_empty, Sparse.new] using this
  · intro r h
    unfold Sparse.divAssignScalar at h
    obtain ⟨t, h1, h2⟩ := Res.bind_eq_ok.1 h
    cases h2
    show HasKey _ k ↔ HasKey _ k
    have := hm _ _ _ h1
    rw [← hasKey_iff_entries p.terms] at this
    simpa using this

variable [Zero N] [NumZero N]

theorem hasKey_addTerm [Add N] (p : Sparse N) (c : N) (d k : Nat) :
    HasKey (p.addTerm c d).terms k ↔ HasKey p.terms k ∨ (isZero c = false ∧ k = d) := by
  unfold Sparse.addTerm
  split
  · simp_all
  · rw [hasKey_upsert]; simp_all

theorem hasKey_addTerms [Add N] (ts : List (N × Nat)) (k : Nat) : ∀ p : Sparse N,
    HasKey (ts.foldl (fun a t => a.addTerm t.1 t.2) p).terms k ↔
      HasKey p.terms k ∨ ∃ t ∈ ts, isZero t.1 = false ∧ k = t.2 := by
  induction ts with
  | nil => intro p; simp
  | cons a l ih =>
    intro p
    rw [List.foldl_cons, ih, hasKey_addTerm]
    simp only [List.mem_cons, exists_eq_or_imp]
    tauto

/-- C101: `add_term` and a successful `try_sub_term` add an entry for their degree unless the coefficient is zero (and never
remove one); `from_terms` stores an entry for each degree that occurs with a non-zero coefficient, even if they cancel;
`From<Vec>` and `trim` store non-zero entries only. -/
theorem C101_sparse_build_entries [Add N] [Sub N] [CanNegate N] (p : Sparse N) (c : N) (d k : Nat) (ts : List (N × Nat))
    (l : List N) :
    (Stores (p.addTerm c d) k ↔ Stores p k ∨ (isZero c = false ∧ k = d)) ∧
    ((p.trySubTerm c d).2 = .ok () → (Stores (p.trySubTerm c d).1 k ↔ Stores p k ∨ (isZero c = false ∧ k = d))) ∧
    (Stores (Sparse.fromTerms ts) k ↔ ∃ t ∈ ts, isZero t.1 = false ∧ k = t.2) ∧
    (Stores (Sparse.fromVec l) k ↔ ∃ v, isZero v = false ∧ l.reverse[k]? = some v) ∧
    (Stores p.trim k ↔ StoresNonzero p k) ∧ (∀ j v, (j, v) ∈ p.trim.terms.entries → isZero v = false) := by
  refine ⟨hasKey_addTerm p c d k, ?_, ?_, ?_, ?_, ?_⟩
  · show _ → (HasKey _ k ↔ HasKey _ k ∨ _)
    unfold Sparse.trySubTerm
    split
    · simp_all
    · split
      · split
        · intro h; cases h
        · intro _; dsimp only; rw [hasKey_insert]; simp_all
      · intro _; dsimp only; rw [hasKey_insert]; simp_all
  · show HasKey _ k ↔ _
    unfold Sparse.fromTerms
    rw [hasKey_addTerms]
    simp [Sparse.new, hasKey_empty]
  · show HasKey _ k ↔ _
    unfold Sparse.fromVec
    split
    · rename_i h
      have : l = [] := by simpa using h
      simp [this, hasKey_empty]
    · dsimp only
      rw [hasKey_foldl _ (fun e : N × Nat => isZero e.1 = false) (fun e => l.length - 1 - e.2)
        (fun m e k => by
          split
          · rw [hasKey_insert]; simp_all
          · simp_all)]
      simp only [hasKey_empty, false_or]
      constructor
      · rintro ⟨⟨v, i⟩, he, hz, rfl⟩
        have hi := List.mem_zipIdx' he
        dsimp only at hi hz ⊢
        refine ⟨v, hz, ?_⟩
        rw [List.getElem?_reverse (by omega)]
        rw [show l.length - 1 - (l.length - 1 - i) = i by omega, List.getElem?_eq_getElem hi.1]
        exact congrArg some hi.2.symm
      · rintro ⟨v, hz, hv⟩
        have hk : k < l.length := by
          have := (List.getElem?_eq_some_iff.1 hv).1
          simpa using this
        rw [List.getElem?_reverse hk] at hv
        refine ⟨(v, l.length - 1 - k), ?_, hz, by dsimp only; omega⟩
        rw [List.mk_mem_zipIdx_iff_getElem?]
        exact hv
  · unfold Stores StoresNonzero Sparse.trim BMap.retain
    simp
  · intro j v h
    unfold Sparse.trim BMap.retain at h
    simp only [List.mem_filter] at h
    simpa using h.2

theorem hasKey_mapMul [Add N] [Mul N] (p q : Sparse N) (k : Nat) :
    HasKey (mapMul p.terms q.terms) k ↔ ∃ a b, Stores p a ∧ StoresNonzero q b ∧ k = a + b := by
  have hin : ∀ (l : List (Nat × N)) (d : Nat) (c : N) (m : BMap N),
      HasKey (mapMulInner d c l m) k ↔ HasKey m k ∨ ∃ e ∈ l, True ∧ k = d + e.1 := fun l d c m =>
    hasKey_foldl (fun (terms : BMap N) (e : Nat × N) => terms.upsert (d + e.1) (c * e.2) (· + c * e.2)) (fun _ => True)
      (fun e => d + e.1) (fun m e k => by rw [hasKey_upsert]; simp) l k m
  have hout : ∀ (l : List (Nat × N)) (m : BMap N), HasKey (l.foldl (fun terms e =>
      if isZero e.2 then terms else mapMulInner e.1 e.2 p.terms.entries terms) m) k ↔
      HasKey m k ∨ ∃ e ∈ l, isZero e.2 = false ∧ ∃ e' ∈ p.terms.entries, True ∧ k = e.1 + e'.1 := by
    intro l
    induction l with
    | nil => intro m; simp
    | cons a l ih =>
      intro m
      rw [List.foldl_cons, ih]
      simp only [List.mem_cons, exists_eq_or_imp]
      split
      · simp_all
      · rename_i hz
        rw [hin]
        simp only [Bool.not_eq_true] at hz
        simp only [hz, true_and]
        exact or_assoc
  show HasKey (mapMul p.terms q.terms) k ↔ _
  unfold mapMul
  rw [hout]
  simp only [hasKey_empty, false_or, true_and]
  constructor
  · rintro ⟨⟨b, v⟩, he, hz, ⟨a, u⟩, he', rfl⟩
    exact ⟨a, b, ⟨u, he'⟩, ⟨v, he, hz⟩, Nat.add_comm ..⟩
  · rintro ⟨a, b, ⟨u, he'⟩, ⟨v, he, hz⟩, rfl⟩
    exact ⟨(b, v), he, hz, (a, u), he', Nat.add_comm ..⟩

/-- C101: a product has an entry for each sum of a degree stored in the left operand and one stored with a non-zero
coefficient in the right operand – the two operands are not treated alike.  Shifts move the entries; `derivative` has one for
each non-zero entry of positive degree, `integral` one for each entry. -/
theorem C101_sparse_product_entries [Add N] [Mul N] [RDiv N] [FromUsizeExact N] (p q : Sparse N) (j k : Nat) :
    (Stores (p.mul q) k ↔ ∃ a b, Stores p a ∧ StoresNonzero q b ∧ k = a + b) ∧
    (Stores (p.shlPos j) k ↔ ∃ a, Stores p a ∧ k = a + j) ∧ (Stores (p.shrPos j) k ↔ Stores p (k + j)) ∧
    (∀ r, p.derivative = .ok r → (Stores r k ↔ StoresNonzero p (k + 1))) ∧
    (∀ r, p.integral = .ok r → (Stores r k ↔ ∃ a, Stores p a ∧ k = a + 1)) := by
  refine ⟨?_, ?_, ?_, ?_, ?_⟩
  · exact hasKey_mapMul p q k
  · show HasKey _ k ↔ _
    unfold Sparse.shlPos Sparse.new
    dsimp only
    rw [hasKey_foldl _ (fun _ => True) (fun e : Nat × N => e.1 + j) (fun m e k => by rw [hasKey_insert]; simp)]
    simp only [hasKey_empty, false_or, true_and]
    constructor
    · rintro ⟨⟨a, v⟩, he, rfl⟩; exact ⟨a, ⟨v, he⟩, rfl⟩
    · rintro ⟨a, ⟨v, he⟩, rfl⟩; exact ⟨(a, v), he, rfl⟩
  · show HasKey _ k ↔ _
    unfold Sparse.shrPos Sparse.new
    dsimp only
    rw [hasKey_foldl _ (fun e : Nat × N => e.1 ≥ j) (fun e : Nat × N => e.1 - j) (fun m e k => by
      split
      · rw [hasKey_insert]; simp_all
      · simp_all)]
    simp only [hasKey_empty, false_or]
    constructor
    · rintro ⟨⟨a, v⟩, he, ha, rfl⟩
      exact ⟨v, by rw [show a - j + j = a from Nat.sub_add_cancel ha]; exact he⟩
    · rintro ⟨v, he⟩; exact ⟨(k + j, v), he, by simp, by simp⟩
  · intro r h
    unfold Sparse.derivative at h
    obtain ⟨t, h1, h2⟩ := Res.bind_eq_ok.1 h
    cases h2
    show HasKey _ k ↔ _
    rw [hasKey_foldlM _ (fun e : Nat × N => isZero e.2 = false ∧ e.1 ≠ 0) (fun e : Nat × N => e.1 - 1) (fun m e r k h => by
      split at h
      · split at h
        · cases h
        · cases h
          rw [hasKey_insert]; simp_all
      · cases h; simp_all) _ _ _ _ h1]
    simp only [hasKey_empty, false_or]
    constructor
    · rintro ⟨⟨a, v⟩, he, ⟨hz, ha⟩, rfl⟩
      refine ⟨v, ?_, hz⟩
      dsimp only at ha ⊢
      rw [show a - 1 + 1 = a by omega]; exact he
    · rintro ⟨v, he, hz⟩; exact ⟨(k + 1, v), he, ⟨hz, by simp⟩, by simp⟩
  · intro r h
    unfold Sparse.integral at h
    obtain ⟨t, h1, h2⟩ := Res.bind_eq_ok.1 h
    cases h2
    show HasKey _ k ↔ _
    unfold Sparse.new
    dsimp only
    rw [hasKey_foldlM _ (fun e : Nat × N => True) (fun e : Nat × N => e.1 + 1) (fun m e r k h => by
      split at h
      · cases h
      · obtain ⟨v, _, h2⟩ := Res.bind_eq_ok.1 h
        cases h2
        rw [hasKey_insert]; simp) _ _ _ _ h1]
    simp only [hasKey_empty, false_or, true_and]
    constructor
    · rintro ⟨⟨a, v⟩, he, rfl⟩; exact ⟨a, ⟨v, he⟩, rfl⟩
    · rintro ⟨a, ⟨v, he⟩, rfl⟩; exact ⟨(a, v), he, rfl⟩

omit [Zero N] [NumZero N] in
theorem hasKey_mapSub [Neg N] [Sub N] [Mul N] (m b : BMap N) (s : N) (k : Nat) :
    HasKey (mapSubWScale m b s) k ↔ HasKey m k ∨ HasKey b k := by
  unfold mapSubWScale
  rw [hasKey_iff_entries b]
  exact hasKey_foldl (fun (m : BMap N) (e : Nat × N) => m.upsert e.1 (-e.2 * s) (· - e.2 * s)) (fun _ => True) (fun e => e.1)
    (fun m e k => by rw [hasKey_upsert]; simp) _ k m

theorem divModLoop_keys [Neg N] [Sub N] [Mul N] [Add N] [RDiv N] (b : BMap N) (c : N) (d o k : Nat) :
    ∀ (fuel : Nat) (s : N) (e : Nat) (m : BMap N) (v : Sparse N) (q : Sparse N) (r : BMap N),
    Sparse.divModLoop b c d o fuel s e m v = .ok (q, r) →
      (HasKey q.terms k → HasKey v.terms k ∨ k = o) ∧ (HasKey r k → HasKey m k ∨ HasKey b k) ∧
      (HasKey m k → HasKey r k) ∧ (d ≤ e → HasKey b k → HasKey r k)
  | 0, _, _, _, _, _, _, h => by cases h
  | fuel + 1, s, e, m, v, q, r, h => by
    rw [Sparse.divModLoop] at h
    split at h
    · dsimp only at h
      have hs := hasKey_mapSub m b s k
      have ha := hasKey_addTerm v s o k
      split at h
      · cases h
        refine ⟨fun h' => ?_, hs.1, fun h' => hs.2 (.inl h'), fun _ h' => hs.2 (.inr h')⟩
        rcases ha.1 h' with h' | h'
        exacts [.inl h', .inr h'.2]
      · obtain ⟨s', _, h2⟩ := Res.bind_eq_ok.1 h
        obtain ⟨h3, h4, h5, _⟩ := divModLoop_keys b c d o k fuel _ _ _ _ q r h2
        refine ⟨fun h' => ?_, fun h' => ?_, fun h' => h5 (hs.2 (.inl h')), fun _ h' => h5 (hs.2 (.inr h'))⟩
        · rcases h3 h' with h' | h'
          · rcases ha.1 h' with h' | h'
            exacts [.inl h', .inr h'.2]
          · exact .inr h'
        · have := h4 h'; rw [hs] at this; tauto
    · cases h
      exact ⟨fun h' => .inl h', fun h' => .inl h', fun h' => h', fun h' => absurd h' ‹_›⟩

theorem remLoop_keys [Neg N] [Sub N] [Mul N] [Add N] [RDiv N] (b : BMap N) (c : N) (d k : Nat) :
    ∀ (fuel : Nat) (s : N) (e : Nat) (m : BMap N) (r : BMap N), Sparse.remLoop b c d fuel s e m = .ok r →
      (HasKey r k → HasKey m k ∨ HasKey b k) ∧ (HasKey m k → HasKey r k) ∧ (d ≤ e → HasKey b k → HasKey r k)
  | 0, _, _, _, _, h => by cases h
  | fuel + 1, s, e, m, r, h => by
    rw [Sparse.remLoop] at h
    split at h
    · dsimp only at h
      have hs := hasKey_mapSub m b s k
      split at h
      · cases h
        exact ⟨hs.1, fun h' => hs.2 (.inl h'), fun _ h' => hs.2 (.inr h')⟩
      · obtain ⟨s', _, h2⟩ := Res.bind_eq_ok.1 h
        obtain ⟨h4, h5, _⟩ := remLoop_keys b c d k fuel _ _ _ r h2
        refine ⟨fun h' => ?_, fun h' => h5 (hs.2 (.inl h')), fun _ h' => h5 (hs.2 (.inr h'))⟩
        have := h4 h'; rw [hs] at this; tauto
    · cases h
      exact ⟨fun h' => .inl h', fun h' => h', fun h' => absurd h' ‹_›⟩

/-- C101: the quotient of `div_mod` has at most one entry, whatever the degrees (a division of more than one round writes
all its terms to the same degree).  The remainder of `div_mod` and of `%` keeps every entry of the dividend; it has exactly
those of dividend and divisor after a division, and those of the dividend if there was nothing to divide. -/
theorem C101_sparse_div_entries [Neg N] [Sub N] [Mul N] [Add N] [RDiv N] (fuel : Nat) (p b : Sparse N) :
    (∀ q r, p.divMod fuel b = .ok (q, r) → q.terms.entries.length ≤ 1 ∧
      (r.terms.entries = p.terms.entries ∧ q.terms.entries = [] ∨ ∀ k, Stores r k ↔ Stores p k ∨ Stores b k)) ∧
    (∀ r, p.rem fuel b = .ok r →
      (r.terms.entries = p.terms.entries ∨ ∀ k, Stores r k ↔ Stores p k ∨ Stores b k)) := by
  have hone : ∀ (m : BMap N) (o : Nat), (∀ k, HasKey m k → k = o) → m.entries.length ≤ 1 := by
    intro m o h
    match hm : m.entries with
    | [] => simp
    | [a] => simp
    | a :: b :: l =>
      have h1 := h a.1 ⟨a.2, by rw [hm]; simp⟩
      have h2 := h b.1 ⟨b.2, by rw [hm]; simp⟩
      have h3 := m.sorted
      rw [hm, List.pairwise_cons] at h3
      have := h3.1 b (by simp)
      omega
  constructor
  · intro q r h
    unfold Sparse.divMod at h
    split at h
    · cases h
    · split at h
      · cases h; exact ⟨by simp [Sparse.zero, BMap.empty], .inl ⟨rfl, rfl⟩⟩
      · split at h
        · cases h; exact ⟨by simp [Sparse.zero, BMap.empty], .inl ⟨rfl, rfl⟩⟩
        · rename_i _ rhsDeg _ _ _ degree _ hlt
          obtain ⟨s, _, h2⟩ := Res.bind_eq_ok.1 h
          obtain ⟨⟨q', r'⟩, h3, h4⟩ := Res.bind_eq_ok.1 h2
          cases h4
          refine ⟨hone _ (degree - rhsDeg) fun k hk => ?_, .inr fun k => ?_⟩
          · rcases (divModLoop_keys _ _ _ _ k _ _ _ _ _ _ _ h3).1 hk with h' | h'
            · simp [Sparse.fromVec, hasKey_empty] at h'
            · exact h'
          · obtain ⟨_, h5, h6, h7⟩ := divModLoop_keys _ _ _ _ k _ _ _ _ _ _ _ h3
            exact ⟨h5, fun h' => h'.elim h6 (h7 (by omega))⟩
  · intro r h
    unfold Sparse.rem at h
    split at h
    · cases h
    · split at h
      · cases h; exact .inl rfl
      · split at h
        · cases h; exact .inl rfl
        · rename_i hlt
          obtain ⟨s, _, h2⟩ := Res.bind_eq_ok.1 h
          obtain ⟨r', h3, h4⟩ := Res.bind_eq_ok.1 h2
          cases h4
          refine .inr fun k => ?_
          obtain ⟨h5, h6, h7⟩ := remLoop_keys _ _ _ k _ _ _ _ _ h3
          exact ⟨h5, fun h' => h'.elim h6 (h7 (by omega))⟩

/-- The degrees with an entry. -/
def keySet (m : BMap N) : Finset ℕ := (m.entries.map Prod.fst).toFinset

omit [Zero N] [NumZero N] in
theorem card_keySet (m : BMap N) : (keySet m).card = m.entries.length := by
  unfold keySet
  rw [List.toFinset_card_of_nodup (BMap.keys_nodup m), List.length_map]

omit [Zero N] [NumZero N] in
theorem mem_keySet (m : BMap N) (k : Nat) : k ∈ keySet m ↔ HasKey m k := by
  unfold keySet HasKey
  simp

/-- C101: how many entries there are at most: after `+`, `-` those of both operands together, after `*` their product,
after `add_term` one more than before, after `from_terms` one for each term, after `div_mod` in the remainder those of
dividend and divisor together. -/
theorem C101_sparse_counts [Neg N] [Sub N] [Add N] [Mul N] [RDiv N] (p q : Sparse N) (c : N) (d : Nat)
    (ts : List (N × Nat)) :
    (p.add q).terms.entries.length ≤ p.terms.entries.length + q.terms.entries.length ∧
    (p.addAssign q).terms.entries.length ≤ p.terms.entries.length + q.terms.entries.length ∧
    (p.sub q).terms.entries.length ≤ p.terms.entries.length + q.terms.entries.length ∧
    (p.mul q).terms.entries.length ≤ p.terms.entries.length * q.terms.entries.length ∧
    (p.addTerm c d).terms.entries.length ≤ p.terms.entries.length + 1 ∧
    (Sparse.fromTerms ts).terms.entries.length ≤ ts.length ∧
    (∀ fuel b v r, p.divMod fuel b = .ok (v, r) →
      r.terms.entries.length ≤ p.terms.entries.length + b.terms.entries.length) := by
  have hun : ∀ r a b : Sparse N, (∀ k, Stores r k ↔ Stores a k ∨ Stores b k) →
      r.terms.entries.length ≤ a.terms.entries.length + b.terms.entries.length := by
    intro r a b h
    rw [← card_keySet, ← card_keySet a.terms, ← card_keySet b.terms]
    refine (Finset.card_le_card fun k hk => ?_).trans (Finset.card_union_le _ _)
    rw [Finset.mem_union, mem_keySet, mem_keySet]
    exact (h k).1 ((mem_keySet _ k).1 hk)
  refine ⟨hun _ _ _ fun k => (C101_sparse_sum_entries p q c k).1, hun _ _ _ fun k => (C101_sparse_sum_entries p q c k).2.1,
    hun _ _ _ fun k => (C101_sparse_sum_entries p q c k).2.2.1, ?_, ?_, ?_, ?_⟩
  · rw [← card_keySet, ← card_keySet p.terms, ← card_keySet q.terms, ← Finset.card_product]
    have hsub : keySet (p.mul q).terms ⊆ (keySet p.terms ×ˢ keySet q.terms).image fun x => x.1 + x.2 := by
      intro k hk
      have hk' : HasKey (mapMul p.terms q.terms) k := (mem_keySet _ k).1 hk
      obtain ⟨a, b, ⟨u, hu⟩, ⟨v, hv, _⟩, rfl⟩ := (hasKey_mapMul p q k).1 hk'
      rw [Finset.mem_image]
      exact ⟨(a, b), Finset.mem_product.2 ⟨(mem_keySet _ _).2 ⟨u, hu⟩, (mem_keySet _ _).2 ⟨v, hv⟩⟩, rfl⟩
    exact (Finset.card_le_card hsub).trans Finset.card_image_le
  · rw [← card_keySet, ← card_keySet p.terms]
    refine (Finset.card_le_card fun k hk => ?_).trans (Finset.card_insert_le d _)
    rw [Finset.mem_insert, mem_keySet]
    rcases (hasKey_addTerm p c d k).1 ((mem_keySet _ k).1 hk) with h | h
    exacts [.inr h, .inl h.2]
  · rw [← card_keySet]
    have hsub : keySet (Sparse.fromTerms ts).terms ⊆ (ts.map Prod.snd).toFinset := by
      intro k hk
      rcases (hasKey_addTerms ts k _).1 ((mem_keySet _ k).1 hk) with h | ⟨t, ht, _, rfl⟩
      · exact absurd h (hasKey_empty k)
      · rw [List.mem_toFinset, List.mem_map]
        exact ⟨t, ht, rfl⟩
    exact (Finset.card_le_card hsub).trans ((List.toFinset_card_le _).trans (by simp))
  · intro fuel b v r h
    rcases ((C101_sparse_div_entries fuel p b).1 v r h).2 with h' | h'
    · rw [h'.1]; omega
    · exact hun _ _ _ h'

example : ((Sparse.fromVec [1, 0, (0 : ℤ)]).sub (Sparse.fromVec [1, 0, 0])).terms.entries = [(2, 0)] := by decide
example : (((Sparse.fromVec [1, (2 : ℤ)]).mulScalar 0).mul (Sparse.fromVec [1, 1])).terms.entries =
    [(0, 0), (1, 0), (2, 0)] := by decide
example : ((Sparse.fromVec [1, (1 : ℤ)]).mul ((Sparse.fromVec [1, (2 : ℤ)]).mulScalar 0)).terms.entries = [] := by decide
example : (Sparse.fromTerms [((3 : ℤ), 7), (-3, 7), (0, 9)]).terms.entries = [(7, 0)] := by decide
example : ((Sparse.fromVec [4, 0, (2 : ℚ)]).divMod 10 (Sparse.fromVec [2, 0, 1])).bind (fun r =>
    .ok (r.1.terms.entries, r.2.terms.entries)) = .ok ([(0, 2)], [(0, 0), (2, 0)]) := by decide +kernel

end Sparse

theorem sub_length {N : Type} [Neg N] [Sub N] {p q r : Poly N} (h : p.sub q = .ok r) :
    p.terms.length ≤ r.terms.length := by
  unfold Poly.sub at h
  split at h
  · cases h
    simp only [List.length_append, List.length_map, List.length_take, length_zipMut, List.length_drop]
    omega
  · dsimp only at h
    rw [sliceFrom_ok (by omega), Res.ok_bind] at h
    cases h
    simp only [List.length_append, List.length_take, length_zipMut, List.length_drop]
    omega

theorem addAssign_length {N : Type} [Add N] {p q r : Poly N} (h : p.addAssign q = .ok r) :
    p.terms.length ≤ r.terms.length := by
  unfold Poly.addAssign at h
  split at h <;>
  · dsimp only at h
    rw [sliceFrom_ok (by omega), Res.ok_bind] at h
    cases h
    simp only [List.length_append, List.length_take, length_zipMut, List.length_drop]
    omega

section History
variable {N : Type} [Zero N] [NumZero N] [Add N] [Sub N] [Neg N] [Mul N] [CanNegate N]

/-- The operations of a history that can free storage: `trim`, `set_to_zero`, products and shifts. -/
def Op.frees {P : Type} : Op P N → Bool
  | .trim | .setToZero | .mulAssign _ | .shlAssign _ | .shrAssign _ => true
  | _ => false

/-- C101: storage only grows.  In any sequence of `add_term`, `try_sub_term`, `+=`, `-=` and scalar `*=` a `Polynomial`
never stores fewer coefficients, and a `SparsePolynomial` never loses an entry, than at the start – whatever cancels. -/
theorem C101_storage_grows :
    (∀ (ops : List (Op (Poly N) N)) (p r : Poly N), (∀ o ∈ ops, o.frees = false) → runOps Poly.step p ops = .ok r →
      p.terms.length ≤ r.terms.length) ∧
    (∀ (ops : List (Op (Sparse N) N)) (p r : Sparse N), (∀ o ∈ ops, o.frees = false) →
      runOps Sparse.step p ops = .ok r → ∀ k, Stores p k → Stores r k) := by
  constructor
  · intro ops
    induction ops with
    | nil => intro p r _ h; cases h; exact le_rfl
    | cons o ops ih =>
      intro p r hf h
      unfold runOps at h
      rw [List.foldlM_cons] at h
      obtain ⟨t, h1, h2⟩ := Res.bind_eq_ok.1 h
      refine le_trans ?_ (ih t r (fun o ho => hf o (List.mem_cons_of_mem _ ho)) h2)
      have hfo := hf o (List.mem_cons_self ..)
      cases o with
      | addTerm c d => cases h1; rw [addTerm_length]; omega
      | trySubTerm c d =>
        cases h1
        unfold Poly.trySubTerm
        split
        · split
          · exact le_rfl
          · dsimp only; rw [List.length_modify, List.length_append]; omega
        · dsimp only; rw [List.length_modify]
      | addAssign q => exact addAssign_length h1
      | subAssign q => exact sub_length h1
      | mulAssignScalar c => cases h1; simp [Poly.mulAssignScalar]
      | _ => cases hfo
  · intro ops
    induction ops with
    | nil => intro p r _ h; cases h; exact fun k hk => hk
    | cons o ops ih =>
      intro p r hf h k hk
      unfold runOps at h
      rw [List.foldlM_cons] at h
      obtain ⟨t, h1, h2⟩ := Res.bind_eq_ok.1 h
      refine ih t r (fun o ho => hf o (List.mem_cons_of_mem _ ho)) h2 k ?_
      have hfo := hf o (List.mem_cons_self ..)
      have hk' : HasKey p.terms k := hk
      cases o with
      | addTerm c d => cases h1; exact (hasKey_addTerm p c d k).2 (.inl hk')
      | trySubTerm c d =>
        cases h1
        show HasKey _ k
        unfold Sparse.trySubTerm
        split
        · exact hk'
        · split
          · split
            · exact hk'
            · exact (hasKey_insert _ _ _ _).2 (.inl hk')
          · exact (hasKey_insert _ _ _ _).2 (.inl hk')
      | addAssign q =>
        cases h1
        exact (hasKey_foldl (fun (m : BMap N) (e : Nat × N) => m.upsert e.1 e.2 (· + e.2)) (fun _ => True) (fun e => e.1)
          (fun m e k => by rw [hasKey_upsert]; simp) _ k _).2 (.inl hk')
      | subAssign q =>
        cases h1
        exact (hasKey_foldl (fun (m : BMap N) (e : Nat × N) => m.upsert e.1 (-e.2) (· - e.2)) (fun _ => True)
          (fun e => e.1) (fun m e k => by rw [hasKey_upsert]; simp) _ k _).2 (.inl hk')
      | mulAssignScalar c =>
        cases h1
        obtain ⟨v, hv⟩ := hk'
        exact ⟨v * c, List.mem_map.2 ⟨(k, v), hv, rfl⟩⟩
      | _ => cases hfo

example : runOps Poly.step (⟨[1, 2]⟩ : Poly ℤ) [.addTerm 1 4, .trySubTerm 1 4, .subAssign ⟨[1, 2]⟩] =
    .ok ⟨[0, 0, 0, 0, 0]⟩ := by decide

end History

section Ring
variable {R : Type} [CommRing R] [NumZero R] [LawfulNumZero R]

theorem trimmed_iff_coreLen (l : List R) : Trimmed l ↔ coreLen l = l.length := by
  cases l with
  | nil => exact ⟨fun _ => rfl, fun _ x hx => by simp at hx⟩
  | cons a l =>
    unfold Trimmed coreLen
    rw [List.dropWhile_cons]
    by_cases h : isZero a = true
    · rw [if_pos h]
      constructor
      · intro h'
        have := h' a rfl
        simp [h] at this
      · intro h'
        have := List.length_dropWhile_le isZero l
        rw [h', List.length_cons] at this
        omega
    · rw [if_neg h]
      simp only [iff_true]
      intro x hx
      simp only [List.head?_cons, Option.some.injEq] at hx
      rw [← hx]; simpa using h

theorem coreLen_zero (l : List R) : coreLen l = 0 ↔ descPoly l = 0 := by
  unfold coreLen
  rw [List.length_eq_zero_iff, descPoly_eq_zero_iff]

theorem coreLen_natDegree (l : List R) (h : descPoly l ≠ 0) : coreLen l = (descPoly l).natDegree + 1 := by
  have h1 := C02_dense_degree (⟨l⟩ : Poly R)
  unfold Poly.degree at h1
  rw [denseDegree_eq] at h1
  unfold coreLen
  cases hl : l.dropWhile isZero with
  | nil => exact absurd ((descPoly_eq_zero_iff _).2 hl) h
  | cons v vs =>
    simp only [hl, Degree.toWithBot] at h1
    rw [Polynomial.natDegree_eq_of_degree_eq_some h1.symm, List.length_cons]

/-- C101: in terms of the polynomial.  A trimmed vector has one coefficient more than the degree, or none for zero; over a
domain the product of two non-zero polynomials is trimmed, that of a non-zero one with zero is not unless it is empty;
negation keeps trimmed vectors trimmed. -/
theorem C101_trimmed_degree [IsDomain R] (p q : Poly R) :
    (Trimmed p.terms ↔ p.terms = [] ∨ descPoly p.terms ≠ 0 ∧ p.terms.length = (descPoly p.terms).natDegree + 1) ∧
    (∀ r, p.mul q = .ok r → descPoly p.terms ≠ 0 → descPoly q.terms ≠ 0 → Trimmed r.terms) ∧
    (∀ r, p.mul q = .ok r → descPoly q.terms = 0 → r.terms = List.replicate (descPoly p.terms).natDegree 0) ∧
    (Trimmed p.terms → Trimmed p.neg.terms) := by
  refine ⟨?_, ?_, ?_, ?_⟩
  · rw [trimmed_iff_coreLen]
    by_cases hp : descPoly p.terms = 0
    · rw [(coreLen_zero _).2 hp, eq_comm, List.length_eq_zero_iff]
      simp [hp]
    · rw [coreLen_natDegree _ hp, eq_comm]
      have : p.terms ≠ [] := by rintro h; rw [h] at hp; exact hp rfl
      simp [hp, this]
  · intro r h hp hq
    have hl := (C101_product_length p q).1 r h
    obtain ⟨⟨r', h1, h2⟩, _⟩ := C11_dense_mul_partial p q (.inl hp)
    rw [h] at h1
    cases h1
    have hne : descPoly r.terms ≠ 0 := by rw [h2]; exact mul_ne_zero hp hq
    rw [trimmed_iff_coreLen, coreLen_natDegree _ hne, h2, Polynomial.natDegree_mul hp hq]
    rw [coreLen_natDegree _ hp, coreLen_natDegree _ hq] at hl
    omega
  · intro r h hq
    have hl := (C101_product_length p q).1 r h
    by_cases hp : descPoly p.terms = 0
    · rw [((C11_dense_mul_panics_iff p q).1).2 ⟨hp, hq⟩] at h
      cases h
    · obtain ⟨⟨r', h1, h2⟩, _⟩ := C11_dense_mul_partial p q (.inl hp)
      rw [h] at h1
      cases h1
      rw [hq, mul_zero, descPoly_eq_zero_iff] at h2
      rw [(coreLen_zero _).2 hq, coreLen_natDegree _ hp] at hl
      rw [List.eq_replicate_iff]
      refine ⟨by omega, fun x hx => ?_⟩
      have := List.dropWhile_eq_nil_iff.1 h2 x hx
      simpa using this
  · intro h x hx
    unfold Poly.neg at hx
    rw [List.head?_map] at hx
    obtain ⟨y, hy, rfl⟩ := Option.map_eq_some_iff.1 hx
    have := h y hy
    rw [Bool.eq_false_iff] at this ⊢
    simpa using this

example : (⟨[1, 2]⟩ : Poly ℤ).mul ⟨[3, 4]⟩ = .ok ⟨[3, 10, 8]⟩ ∧ (⟨[1, 2, 3]⟩ : Poly ℤ).mul ⟨[]⟩ = .ok ⟨[0, 0]⟩ := by
  decide

/-- C101: derivatives of trimmed or untrimmed polynomials are trimmed, and integrals exactly of non-zero
ones, over a field of characteristic zero. -/
theorem C101_calculus_trimmed {K : Type} [Field K] [CharZero K] [NumZero K] [LawfulNumZero K] [FromUsizeCont K]
    [LawfulFromUsizeCont K] [RDiv K] [LawfulRDiv K] (p : Poly K) :
    (∀ r, p.derivative = .ok r → Trimmed r.terms) ∧
    (∀ r, p.integral = .ok r → (Trimmed r.terms ↔ descPoly p.terms ≠ 0)) := by
  have hl := C101_calculus_length p
  constructor
  · intro r h
    have h1 := hl.1 r h
    rcases C16_dense_derivative p with h2 | ⟨r', h2, h3⟩
    · rw [h] at h2; cases h2
    · rw [h] at h2
      cases h2
      rw [trimmed_iff_coreLen, h1]
      by_cases hp : descPoly p.terms = 0
      · rw [(coreLen_zero _).2 hp, coreLen_zero, h3, hp]; simp
      · rw [coreLen_natDegree _ hp]
        by_cases hd : descPoly r.terms = 0
        · rw [(coreLen_zero _).2 hd]
          rw [hd] at h3
          have := Polynomial.derivative_eq_zero.1 h3.symm
          omega
        · rw [coreLen_natDegree _ hd, h3]
          have hne : (descPoly p.terms).natDegree ≠ 0 := by
            intro h0
            apply hd
            rw [h3, Polynomial.eq_C_of_natDegree_eq_zero h0, Polynomial.derivative_C]
          rw [Polynomial.natDegree_derivative]
          omega
  · intro r h
    have h1 := hl.2 r h
    have hnp : (tryFromCont (Poly.new p.terms).terms.length : Option K) ≠ none := by
      intro hn
      unfold Poly.integral at h
      have hlen : p.terms.length - firstNonzeroIndex p.terms = (Poly.new p.terms).terms.length := by
        rw [new_terms]; have := firstNonzeroIndex_add p.terms; omega
      simp only [hlen, hn] at h
      cases h
    obtain ⟨r', h2, h3, h4⟩ := C18_dense_integral p hnp
    rw [h] at h2
    cases h2
    rw [trimmed_iff_coreLen, h1]
    by_cases hp : descPoly p.terms = 0
    · have h5 : descPoly r.terms = 0 := by
        rw [hp] at h3
        have := Polynomial.eq_C_of_natDegree_eq_zero (Polynomial.derivative_eq_zero.1 h3)
        rw [this, h4, Polynomial.C_0]
      rw [(coreLen_zero _).2 h5, (coreLen_zero _).2 hp]
      simp [hp]
    · have h5 : descPoly r.terms ≠ 0 := by
        intro h0
        rw [h0, Polynomial.derivative_zero] at h3
        exact hp h3.symm
      have hne : (descPoly r.terms).natDegree ≠ 0 := by
        intro h0
        rw [Polynomial.eq_C_of_natDegree_eq_zero h0, Polynomial.derivative_C] at h3
        exact hp h3.symm
      have h6 := Polynomial.natDegree_derivative (descPoly r.terms)
      rw [h3] at h6
      rw [coreLen_natDegree _ h5, coreLen_natDegree _ hp]
      simp only [ne_eq, hp, not_false_eq_true, iff_true]
      omega

example : (⟨[0, 3, 0, 1]⟩ : Poly ℚ).derivative = .ok ⟨[6, 0]⟩ ∧ (⟨[0, 3]⟩ : Poly ℚ).integral = .ok ⟨[3, 0]⟩ := by
  decide +kernel

end Ring

end Rustnomial
