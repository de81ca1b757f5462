import Verif.Props.Assign
import Verif.Props.Upcast

/-!
# In-place operators of `SparsePolynomial` and `Polynomial` (C96, continued)

As in `Props/Assign.lean`, for any coefficient type.  `+=` of sparse polynomials adds the coefficients in the other order than
`+`, so the two agree when addition is commutative, as it is for the primitive types, floats included.
-/

namespace Rustnomial

section
variable {N : Type}

theorem BMap.eq_of_entries {m n : BMap N} (h : m.entries = n.entries) : m = n := by
  cases m; cases n; cases h; rfl

theorem foldl_insert_entries (m : BMap N) : m.entries.foldl (fun m e => m.insert e.1 e.2) .empty = m :=
  BMap.eq_of_entries (ofList_entries m.entries m.sorted)

theorem BMap.eq_of_get {m n : BMap N} (h : ∀ k, m.get k = n.get k) : m = n := by
  apply BMap.eq_of_entries
  have hp : m.entries.Perm n.entries := by
    rw [List.perm_ext_iff_of_nodup (List.Nodup.of_map _ m.keys_nodup) (List.Nodup.of_map _ n.keys_nodup)]
    rintro ⟨k, v⟩
    rw [BMap.mem_entries, BMap.mem_entries, h]
  exact hp.eq_of_pairwise (fun a b _ _ hab hba => absurd hab (by omega)) m.sorted n.sorted

theorem get_foldl_upsert_add [Add N] (l : List (Nat × N)) (hl : (l.map Prod.fst).Nodup) (m : BMap N) (k : Nat) :
    (l.foldl (fun m e => m.upsert e.1 e.2 (· + e.2)) m).get k =
      match BMap.getList k l with
      | none => m.get k
      | some v => some ((m.get k).elim v (· + v)) := by
  induction l generalizing m with
  | nil => rfl
  | cons a t ih =>
    obtain ⟨j, w⟩ := a
    rw [List.map_cons, List.nodup_cons] at hl
    rw [List.foldl_cons, ih hl.2]
    simp only [BMap.getList, BMap.get_upsert]
    by_cases hk : k = j
    · subst hk
      have : BMap.getList k t = none := by
        cases h : BMap.getList k t with
        | none => rfl
        | some v => exact absurd (List.mem_map.2 ⟨_, BMap.getList_mem h, rfl⟩) hl.1
      simp [this]
    · simp [hk]

/-- C96 (LinearBinomial, QuadraticTrinomial): `>>=` and `>>`. -/
theorem C96_fixed_shift_in_place [Zero N] (b : LinearBinomial N) (t : QuadraticTrinomial N) (k : Nat) :
    b.shrAssign k = b.shr k ∧ t.shrAssign k = t.shr k := by
  constructor
  · match k with
    | 0 => rfl
    | 1 => rfl
    | k + 2 => rfl
  · match k with
    | 0 => rfl
    | 1 => rfl
    | 2 => rfl
    | k + 3 => rfl

/-- C96 (SparsePolynomial): `p += q` is `q + p`, and so `p + q` when addition is commutative. -/
theorem C96_sparse_add_in_place [Add N] (p q : Sparse N) :
    p.addAssign q = q.add p ∧ ((∀ a b : N, a + b = b + a) → p.addAssign q = p.add q) := by
  have h1 : p.addAssign q = q.add p := by
    unfold Sparse.addAssign Sparse.add
    dsimp only
    rw [foldl_insert_entries]
  refine ⟨h1, fun hc => ?_⟩
  unfold Sparse.addAssign Sparse.add
  dsimp only
  rw [foldl_insert_entries]
  congr 1
  apply BMap.eq_of_get
  intro k
  rw [get_foldl_upsert_add _ q.terms.keys_nodup, get_foldl_upsert_add _ p.terms.keys_nodup]
  change (match q.terms.get k with | none => p.terms.get k | some v => some ((p.terms.get k).elim v (· + v))) =
    (match p.terms.get k with | none => q.terms.get k | some v => some ((q.terms.get k).elim v (· + v)))
  cases p.terms.get k <;> cases q.terms.get k <;> simp
  exact hc _ _

theorem insertList_mid (k : Nat) (v w : N) (pre l : List (Nat × N)) (h : ∀ e ∈ pre, e.1 < k) :
    BMap.insertList k w (pre ++ (k, v) :: l) = pre ++ (k, w) :: l := by
  induction pre with
  | nil => simp [BMap.insertList]
  | cons a t ih =>
    obtain ⟨k', v'⟩ := a
    have := h (k', v') (List.mem_cons_self ..)
    simp only at this
    rw [List.cons_append, BMap.insertList, if_neg (by omega), if_neg (by omega),
      ih (fun e he => h e (List.mem_cons_of_mem _ he))]
    rfl

theorem sparse_divAssign_aux [RDiv N] (c : N) (l : List (Nat × N)) : ∀ (pre : List (Nat × N)) (m n : BMap N),
    m.entries = pre ++ l → n.entries = pre →
    l.foldlM (fun terms e => do
      let v ← rdiv e.2 c
      Res.ok (BMap.insert terms e.1 v)) m =
    l.foldlM (fun terms e => do
      let v ← rdiv e.2 c
      Res.ok (BMap.insert terms e.1 v)) n := by
  induction l with
  | nil =>
    intro pre m n hm hn
    rw [BMap.eq_of_entries (show m.entries = n.entries by rw [hm, hn, List.append_nil])]
  | cons a t ih =>
    intro pre m n hm hn
    obtain ⟨k, v⟩ := a
    have hlt : ∀ e ∈ pre, e.1 < k := by
      intro e he
      have := m.sorted
      rw [hm] at this
      exact (List.pairwise_append.1 this).2.2 e he (k, v) (List.mem_cons_self ..)
    rw [List.foldlM_cons, List.foldlM_cons]
    cases hr : rdiv v c with
    | panic => rfl
    | fuel => rfl
    | ok w =>
      simp only [Res.ok_bind]
      refine ih (pre ++ [(k, w)]) _ _ ?_ ?_
      · show BMap.insertList k w m.entries = _
        rw [hm, insertList_mid _ _ _ _ _ hlt]
        simp
      · show BMap.insertList k w n.entries = _
        rw [hn, insertList_last _ _ _ hlt]

/-- C96 (SparsePolynomial): `*=` and `*`, `/=` and `/` by a scalar. -/
theorem C96_sparse_scalar_in_place [Mul N] [RDiv N] (p : Sparse N) (c : N) :
    p.mulAssignScalar c = p.mulScalar c ∧ p.divAssignScalar c = p.divScalar c := by
  constructor
  · unfold Sparse.mulAssignScalar Sparse.mulScalar Sparse.new
    congr 1
    apply BMap.eq_of_entries
    have h := ofList_entries (p.terms.mapVals (· * c)).entries (p.terms.mapVals (· * c)).sorted
    rw [← h, BMap.ofList]
    show _ = _
    simp only [BMap.mapVals, List.foldl_map]
  · unfold Sparse.divAssignScalar Sparse.divScalar
    rw [sparse_divAssign_aux c p.terms.entries [] p.terms .empty rfl rfl]
    rfl

/-- C96 (Polynomial): `-=` by reference and by value; `+`, and `*` and `/` by a scalar, are the compound assignments
followed by trimming. -/
theorem C96_dense_more_in_place [Zero N] [NumZero N] [Add N] [Neg N] [Sub N] [Mul N] [RDiv N] (p q : Poly N) (c : N) :
    p.subRef q = p.sub q ∧
    p.add q = (p.addAssign q >>= fun r => .ok r.trim) ∧
    p.mulScalar c = (p.mulAssignScalar c).trim ∧
    p.divScalar c = (p.divAssignScalar c >>= fun r => .ok r.trim) := by
  refine ⟨?_, ?_, rfl, ?_⟩
  · unfold Poly.subRef Poly.sub
    split
    · rename_i h
      dsimp only
      congr 3
      have hlen : (List.drop (q.terms.length - p.terms.length) q.terms).length = p.terms.length := by
        rw [List.length_drop]; omega
      generalize List.drop (q.terms.length - p.terms.length) q.terms = l at hlen
      generalize p.terms = m at hlen
      clear h
      induction l generalizing m with
      | nil => cases m with
        | nil => rfl
        | cons => simp at hlen
      | cons a l ih => cases m with
        | nil => simp at hlen
        | cons b m => simp only [zipMut, ih m (by simpa using hlen)]
    · rfl
  · unfold Poly.add Poly.addAssign
    by_cases h : q.terms.length > p.terms.length
    · simp only [if_pos h]
      cases sliceFrom q.terms (q.terms.length - p.terms.length) <;> rfl
    · simp only [if_neg h]
      cases sliceFrom p.terms (p.terms.length - q.terms.length) <;> rfl
  · unfold Poly.divScalar Poly.divAssignScalar
    cases List.mapM (fun x => rdiv x c) p.terms <;> rfl

/-- C96 (Polynomial): `<<` is trimming followed by `<<=`.  `>>` is trimming followed by `>>=`, unless it panics (exactly when:
C14, C92). -/
theorem C96_dense_shift_in_place [Zero N] [NumZero N] (p : Poly N) (k : Nat) :
    p.shl k = p.trim.shlAssign k ∧ (p.shr k = .panic ∨ p.shr k = p.trim.shrAssign k) ∧
    (0 < k → k < 2 ^ 31 → p.shr (-k) = p.trim.shrAssign (-k) ∧ (p.shl (-k) = .panic ∨ p.shl (-k) = p.trim.shlAssign (-k))) := by
  have hl := firstNonzeroIndex_add p.terms
  have htr : p.trim.terms = p.terms.drop (firstNonzeroIndex p.terms) := by
    rw [trim_terms, drop_firstNonzeroIndex]
  have e1 : p.shlPos k = .ok (p.trim.shlAssignPos k) := by
    unfold Poly.shlPos Poly.shlAssignPos
    rw [sliceFrom, if_pos (by omega), Res.ok_bind, htr]
  have e2 : p.shrPos k = .panic ∨ p.shrPos k = p.trim.shrAssignPos k := by
    unfold Poly.shrPos Poly.shrAssignPos
    dsimp only
    have hlt : p.trim.terms.length = p.terms.length - firstNonzeroIndex p.terms := by rw [htr, List.length_drop]
    by_cases h : k > p.terms.length
    · rw [if_pos h, if_pos (by omega)]
      exact .inr rfl
    · rw [if_neg h]
      by_cases h' : firstNonzeroIndex p.terms ≤ p.terms.length - k
      · right
        rw [if_neg (by omega), sliceRange, if_pos ⟨h', by omega⟩, sliceRange, if_pos ⟨by omega, by omega⟩, hlt, htr]
        simp only [Res.ok_bind, List.drop_zero]
        rw [List.drop_take]
        congr 3
        omega
      · left
        rw [sliceRange, if_neg (fun h => h' h.1)]
        rfl
  have hk0 : ¬ ((k : ℤ) < 0) := by omega
  refine ⟨?_, ?_, fun hpos hk => ?_⟩
  · rw [Poly.shl, Poly.shlAssign, if_neg hk0, if_neg hk0]
    exact e1
  · rw [Poly.shr, Poly.shrAssign, if_neg hk0, if_neg hk0]
    exact e2
  · have hkn : (-(k : ℤ)) < 0 := by omega
    have hkm : (-(k : ℤ)) ≠ -2 ^ 31 := by omega
    constructor
    · rw [Poly.shr, Poly.shrAssign, if_pos hkn, if_pos hkn, negI32_ok hkm]
      simpa using e1
    · rw [Poly.shl, Poly.shlAssign, if_pos hkn, if_pos hkn, negI32_ok hkm]
      simpa using e2

end

example : (Sparse.fromVec [1, 2, (3 : ℤ)]).addAssign (Sparse.fromVec [4, 0, 0, 1]) =
      (Sparse.fromVec [1, 2, 3]).add (Sparse.fromVec [4, 0, 0, 1]) ∧
    ((Sparse.fromVec [1, 2, (3 : ℤ)]).addAssign (Sparse.fromVec [4, 0, 0, 1])).terms.entries
      = [(0, 4), (1, 2), (2, 1), (3, 4)] :=
  ⟨(C96_sparse_add_in_place _ _).2 add_comm, by decide⟩

example : ((Sparse.fromVec [9, 0, (7 : ℤ)]).divAssignScalar 2 >>= fun r => .ok r.terms.entries) = .ok [(0, 3), (2, 4)] ∧
    ((Sparse.fromVec [9, 0, (7 : ℤ)]).divScalar 0 >>= fun r => .ok r.terms.entries) = .panic := by decide

example : (⟨[0, 0, 1, 2]⟩ : Poly ℤ).shr 1 = .ok ⟨[1]⟩ ∧ (⟨[0, 0, 1, 2]⟩ : Poly ℤ).shr 3 = .panic ∧
    (⟨[0, 0, 1, 2]⟩ : Poly ℤ).shrAssign 1 = .ok ⟨[0, 0, 1]⟩ ∧ (⟨[0, 0, 1, 2]⟩ : Poly ℤ).shl 1 = .ok ⟨[1, 2, 0]⟩ := by decide

example : (⟨[1, 2]⟩ : Poly ℤ).add ⟨[-1, 5]⟩ = .ok ⟨[7]⟩ ∧ (⟨[1, 2]⟩ : Poly ℤ).addAssign ⟨[-1, 5]⟩ = .ok ⟨[0, 7]⟩ ∧
    (⟨[1]⟩ : Poly ℤ).sub ⟨[3, 5]⟩ = .ok ⟨[-3, -4]⟩ := by decide

end Rustnomial
