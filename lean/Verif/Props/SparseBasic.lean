import Verif.Lemmas.Sparse
import Verif.Props.DenseCalc

/-!
# Sparse polynomials: observers and arithmetic
(C02 – C05, C07, C10, C13, C15, C17, C18, C25, C26, C31)
-/

open Polynomial

set_option linter.unusedSectionVars false

namespace Rustnomial

section
variable {R : Type} [Semiring R] [NumZero R] [LawfulNumZero R]

/-! ## Observers -/

/-- C02 (SparsePolynomial). -/
theorem C02_sparse_degree (p : Sparse R) :
    p.degree.toWithBot = (entriesPoly p.terms.entries).degree := sparseDegree_spec p.terms

/-- C02 (SparsePolynomial). -/
theorem C02_sparse_is_zero (p : Sparse R) :
    p.isZeroPoly = true ↔ entriesPoly p.terms.entries = 0 := by
  rw [← Polynomial.degree_eq_bot, ← C02_sparse_degree]
  unfold Sparse.isZeroPoly Degree.isZeroPoly
  cases p.degree <;> simp [Degree.toWithBot]

/-- C02: `zero()` and `set_to_zero()` give the zero polynomial. -/
theorem C02_sparse_zero (p : Sparse R) :
    (Sparse.zero : Sparse R).isZeroPoly = true ∧ p.setToZero.isZeroPoly = true ∧
    entriesPoly (Sparse.zero : Sparse R).terms.entries = 0 ∧
    entriesPoly p.setToZero.terms.entries = 0 :=
  ⟨(C02_sparse_is_zero _).2 rfl, (C02_sparse_is_zero _).2 rfl, rfl, rfl⟩

/-- C02: `zero()` and `set_to_zero()` of the dense type. -/
theorem C02_dense_zero (p : Poly R) :
    (Poly.zero : Poly R).isZeroPoly = true ∧ p.setToZero.isZeroPoly = true ∧
    descPoly (Poly.zero : Poly R).terms = 0 ∧ descPoly p.setToZero.terms = 0 :=
  ⟨(C02_dense_is_zero _).2 rfl, (C02_dense_is_zero _).2 rfl, rfl, rfl⟩

example : (Sparse.new (.ofList [(0, 0), (3, 5), (7, (0 : ℤ))])).degree = .num 3 ∧
    (Sparse.new (.ofList [(2, 0), (7, (0 : ℤ))])).degree = .negInf := by decide

/-- C03 (SparsePolynomial). -/
theorem C03_sparse_terms (p : Sparse R) :
    IsTermListOf p.orderedTermIter (entriesPoly p.terms.entries) ∧ p.termsAsVec = p.orderedTermIter :=
  ⟨sparse_isTermListOf p, rfl⟩

/-- C03 (SparsePolynomial): the terms sum to the polynomial. -/
theorem C03_sparse_terms_sum (p : Sparse R) :
    termsPoly p.orderedTermIter = entriesPoly p.terms.entries :=
  (C03_sparse_terms p).1.termsPoly_eq

example : (Sparse.new (.ofList [(0, 0), (3, 5), (1, -2), (7, (0 : ℤ))])).orderedTermIter
    = [(5, 3), (-2, 1)] := by decide

/-- C04 (SparsePolynomial). -/
theorem C04_sparse_term (p : Sparse R) (d : Nat) :
    ((entriesPoly p.terms.entries).coeff d = 0 → p.termWithDegree d = .zeroTerm) ∧
    ((entriesPoly p.terms.entries).coeff d ≠ 0 →
      p.termWithDegree d = .term ((entriesPoly p.terms.entries).coeff d) d) := by
  rw [coeff_mapPoly]
  unfold Sparse.termWithDegree
  cases p.terms.get d with
  | none => simp
  | some v =>
    simp only [Option.getD_some, Term.new]
    constructor
    · intro h; simp [h]
    · intro h
      have : isZero v = false := by simpa using h
      simp [this]

example : (Sparse.new (.ofList [(0, 0), (3, (5 : ℤ))])).termWithDegree 3 = .term 5 3 ∧
    (Sparse.new (.ofList [(0, 0), (3, (5 : ℤ))])).termWithDegree 0 = .zeroTerm := by decide

/-- C05 (SparsePolynomial): `==` is equality of polynomials. -/
theorem C05_sparse_eq [BEq R] [LawfulBEq R] (p q : Sparse R) :
    p.eq q = true ↔ entriesPoly p.terms.entries = entriesPoly q.terms.entries := by
  have key : ∀ p q : Sparse R, (p.terms.entries.all fun e =>
      match q.terms.get e.1 with
      | none => isZero e.2
      | some v => e.2 == v) = true ↔
      ∀ k v, p.terms.get k = some v → v = (q.terms.get k).getD 0 := by
    intro p q
    rw [List.all_eq_true]
    constructor
    · intro h k v hk
      have := h (k, v) ((BMap.mem_entries _ _ _).2 hk)
      simp only at this
      cases hq : q.terms.get k with
      | none => rw [hq] at this; simpa using this
      | some w => rw [hq] at this; simpa using this
    · rintro h ⟨k, v⟩ he
      have := h k v ((BMap.mem_entries _ _ _).1 he)
      simp only
      cases hq : q.terms.get k with
      | none => rw [hq] at this; simpa using this
      | some w => rw [hq] at this; simpa using this
  have key' : p.eq q = true ↔ _ := Iff.trans (by
    unfold Sparse.eq; rw [Bool.and_eq_true]; exact Iff.rfl) (and_congr (key p q) (key q p))
  rw [key']
  constructor
  · rintro ⟨h1, h2⟩
    ext d
    rw [coeff_mapPoly, coeff_mapPoly]
    cases hp : p.terms.get d with
    | some v => exact h1 d v hp
    | none =>
      cases hq : q.terms.get d with
      | none => rfl
      | some w => have := h2 d w hq; rw [hp] at this; exact this.symm
  · intro h
    constructor
    · intro k v hk
      rw [← coeff_mapPoly, ← h, coeff_mapPoly, hk]; rfl
    · intro k v hk
      rw [← coeff_mapPoly, h, coeff_mapPoly, hk]; rfl

/-- C05 (SparsePolynomial): `==` is an equivalence relation. -/
theorem C05_sparse_equivalence [BEq R] [LawfulBEq R] :
    Equivalence (fun p q : Sparse R => p.eq q = true) where
  refl p := (C05_sparse_eq p p).2 rfl
  symm h := (C05_sparse_eq _ _).2 ((C05_sparse_eq _ _).1 h).symm
  trans h h' := (C05_sparse_eq _ _).2 (((C05_sparse_eq _ _).1 h).trans ((C05_sparse_eq _ _).1 h'))

example : (Sparse.new (.ofList [(0, 0), (3, (5 : ℤ))])).eq (Sparse.new (.ofList [(3, 5), (9, 0)])) = true ∧
    (Sparse.new (.ofList [(3, (5 : ℤ))])).eq (Sparse.new (.ofList [(3, 5), (9, 1)])) = false := by decide

/-! ## Construction -/

/-- `SparsePolynomial::from(Vec)` represents the vector's polynomial. -/
theorem C28_sparse_from_vec (l : List R) :
    entriesPoly (Sparse.fromVec l).terms.entries = descPoly l := by
  unfold Sparse.fromVec
  split
  · rename_i h; rw [List.isEmpty_iff.1 h]; rfl
  · rename_i h
    have hne : l ≠ [] := by simpa using h
    have e : (l.zipIdx.foldl (fun (terms : BMap R) (e : R × Nat) =>
        if !isZero e.1 then terms.insert (l.length - 1 - e.2) e.1 else terms) .empty)
        = l.zipIdx.foldl (fun (terms : BMap R) (e : R × Nat) =>
          if (fun e : R × Nat => !isZero e.1) e = true then
            terms.insert ((fun e : R × Nat => l.length - 1 - e.2) e) ((fun e : R × Nat => e.1) e)
          else terms) .empty := rfl
    simp only
    rw [e, mapPoly_foldl_keyed]
    · rw [mapPoly_empty, zero_add]
      have key : ∀ (l : List R) (n i : Nat), n = i + l.length →
          ((l.zipIdx i).map fun e => if (!isZero e.1) = true then C e.1 * X ^ (n - 1 - e.2) else 0).sum
            = descPoly l := by
        intro l
        induction l with
        | nil => intros; rfl
        | cons a l ih =>
          intro n i hn
          rw [List.length_cons] at hn
          rw [List.zipIdx_cons, List.map_cons, List.sum_cons, ih n (i + 1) (by omega), descPoly_cons]
          congr 1
          have : n - 1 - i = l.length := by omega
          by_cases ha : a = 0
          · simp [ha]
          · have hz : isZero a = false := by simpa using ha
            simp [hz, this]
      exact key l l.length 0 (by simp)
    · have hlt : ∀ e ∈ l.zipIdx, e.2 < l.length := by
        intro e he
        have := List.snd_lt_of_mem_zipIdx he
        omega
      have hp : (l.zipIdx).Pairwise (fun a b => a.2 < b.2) := by
        have := List.pairwise_lt_range' (s := 0) (n := l.length) (step := 1)
        rw [← List.zipIdx_map_snd 0 l, List.pairwise_map] at this
        exact this
      rw [List.pairwise_iff_getElem] at hp ⊢
      intro i j hi hj hij _ _
      have h1 := hp i j hi hj hij
      have h2 := hlt _ (List.getElem_mem hj)
      have h3 := hlt _ (List.getElem_mem hi)
      omega
    · simp

example : (Sparse.fromVec [3, 0, (1 : ℤ)]).terms.entries = [(0, 1), (2, 3)] := by decide

/-- C53/C01: the optional `trim` of the sparse type keeps the polynomial and leaves exactly the
non-zero terms. -/
theorem C01_sparse_trim (p : Sparse R) :
    entriesPoly p.trim.terms.entries = entriesPoly p.terms.entries ∧
    ∀ k v, (k, v) ∈ p.trim.terms.entries ↔ v ≠ 0 ∧ (entriesPoly p.terms.entries).coeff k = v := by
  have h2 : ∀ k v, (k, v) ∈ p.trim.terms.entries ↔ v ≠ 0 ∧ (entriesPoly p.terms.entries).coeff k = v := by
    intro k v
    unfold Sparse.trim BMap.retain
    simp only [List.mem_filter, BMap.mem_entries, coeff_mapPoly]
    constructor
    · rintro ⟨h1, h2⟩; exact ⟨by simpa using h2, by rw [h1]; rfl⟩
    · rintro ⟨h1, h2⟩
      cases hg : p.terms.get k with
      | none => rw [hg] at h2; exact absurd h2.symm h1
      | some w =>
        rw [hg] at h2
        exact ⟨by rw [show w = v from h2], by simpa using h1⟩
  refine ⟨?_, h2⟩
  ext d
  rw [coeff_mapPoly p.trim.terms]
  cases hg : p.trim.terms.get d with
  | some v => exact ((h2 d v).1 ((BMap.mem_entries _ _ _).2 hg)).2.symm
  | none =>
    by_contra hne
    have := (h2 d _).2 ⟨fun h => hne h.symm, rfl⟩
    rw [BMap.mem_entries, hg] at this
    cases this

/-- C31 (SparsePolynomial): `add_term` adds the term. -/
theorem C31_sparse_add_term (p : Sparse R) (c : R) (d : Nat) :
    entriesPoly (p.addTerm c d).terms.entries = entriesPoly p.terms.entries + C c * X ^ d := by
  unfold Sparse.addTerm
  split
  · rename_i h; have : c = 0 := by simpa using h
    simp [this]
  · exact mapPoly_upsert_add _ _ _ _ (fun _ => rfl)

/-- C31 (SparsePolynomial): `from_terms` sums the terms. -/
theorem C31_sparse_from_terms (ts : List (R × Nat)) :
    entriesPoly (Sparse.fromTerms ts).terms.entries = termsPoly ts := by
  have key : ∀ (ts : List (R × Nat)) (p : Sparse R),
      entriesPoly (ts.foldl (fun a t => a.addTerm t.1 t.2) p).terms.entries
        = entriesPoly p.terms.entries + termsPoly ts := by
    intro ts
    induction ts with
    | nil => intro p; simp [termsPoly_nil]
    | cons t ts ih => intro p; rw [List.foldl_cons, ih, C31_sparse_add_term, termsPoly_cons, add_assoc]
  rw [Sparse.fromTerms, key]
  simp [Sparse.new, mapPoly_empty]

/-- C31 (SparsePolynomial): the order of the terms is irrelevant. -/
theorem C31_sparse_from_terms_perm [BEq R] [LawfulBEq R] {ts us : List (R × Nat)} (h : ts.Perm us) :
    (Sparse.fromTerms ts).eq (Sparse.fromTerms us) = true := by
  rw [C05_sparse_eq, C31_sparse_from_terms, C31_sparse_from_terms, termsPoly_perm h]

/-- C31 (Polynomial): `add_term` adds the term. -/
theorem C31_dense_add_term (p : Poly R) (c : R) (d : Nat) :
    descPoly (p.addTerm c d).terms = descPoly p.terms + C c * X ^ d := by
  unfold Poly.addTerm
  simp only
  have hpad : descPoly (if p.terms.length < d + 1 then
      List.replicate (d + 1 - p.terms.length) 0 ++ p.terms else p.terms) = descPoly p.terms := by
    split
    · rw [descPoly_append, descPoly_replicate_zero, zero_mul, zero_add]
    · rfl
  have hlen : d + 1 ≤ (if p.terms.length < d + 1 then
      List.replicate (d + 1 - p.terms.length) 0 ++ p.terms else p.terms).length := by
    split
    · simp; omega
    · omega
  generalize (if p.terms.length < d + 1 then
      List.replicate (d + 1 - p.terms.length) 0 ++ p.terms else p.terms) = l at *
  rw [descPoly_modify_add _ _ _ (by omega), hpad]
  congr 3
  omega

/-- C31 (Polynomial): `from_terms` sums the terms. -/
theorem C31_dense_from_terms (ts : List (R × Nat)) :
    descPoly (Poly.fromTerms ts).terms = termsPoly ts := by
  have key : ∀ (ts : List (R × Nat)) (p : Poly R),
      descPoly (ts.foldl (fun a t => a.addTerm t.1 t.2) p).terms = descPoly p.terms + termsPoly ts := by
    intro ts
    induction ts with
    | nil => intro p; simp [termsPoly_nil]
    | cons t ts ih => intro p; rw [List.foldl_cons, ih, C31_dense_add_term, termsPoly_cons, add_assoc]
  rw [Poly.fromTerms, key]
  simp

/-- C31 (Polynomial): the order of the terms is irrelevant. -/
theorem C31_dense_from_terms_perm [BEq R] [LawfulBEq R] {ts us : List (R × Nat)} (h : ts.Perm us) :
    (Poly.fromTerms ts).eq (Poly.fromTerms us) = true := by
  rw [C05_dense_eq, C31_dense_from_terms, C31_dense_from_terms, termsPoly_perm h]

example : Poly.fromTerms [(2, 1), (5, 3), ((4 : ℤ), 1), (0, 7)] = ⟨[0, 0, 0, 0, 5, 0, 6, 0]⟩ ∧
    (Sparse.fromTerms [(2, 1), (5, 3), ((4 : ℤ), 1), (0, 7)]).terms.entries = [(1, 6), (3, 5)] := by
  decide

end

/-! ## C07 – evaluation -/

section
variable {R : Type} [Semiring R] [PowUsize R]

/-- C07 (SparsePolynomial), missing: exponents at or above the bound under which `upow` is
exponentiation (2^32 for integers, 2^31 for floats); there it is false, see
`C07_sparse_eval_false`. -/
theorem C07_sparse_eval_partial [hl : LawfulPowUsize R] (p : Sparse R) (x : R)
    (h : ∀ e ∈ p.terms.entries, e.1 < hl.bound) :
    p.eval x = (entriesPoly p.terms.entries).eval x := by
  unfold Sparse.eval
  have key : ∀ (l : List (Nat × R)), (∀ e ∈ l, e.1 < hl.bound) → ∀ s,
      l.foldl (fun sum e => sum + e.2 * upow x e.1) s = s + (entriesPoly l).eval x := by
    intro l
    induction l with
    | nil => intro _ s; simp
    | cons e l ih =>
      intro h s
      rw [List.foldl_cons, ih (fun e he => h e (List.mem_cons_of_mem _ he)),
        LawfulPowUsize.upow_eq _ _ (h e (List.mem_cons_self ..)), entriesPoly_cons]
      simp [add_assoc]
  rw [key _ h, zero_add]

end

/-- C07 is false as stated: `x^(2^32)` evaluated at 2 with integer coefficients gives 1, because
the exponent is truncated to 32 bits. -/
theorem C07_sparse_eval_false (n : Nat) (hn : n = 2 ^ 32) :
    let p : Sparse ℤ := ⟨BMap.empty.insert n 1⟩
    p.eval 2 = 1 ∧ (entriesPoly p.terms.entries).eval 2 ≠ 1 := by
  intro p
  constructor
  · have h0 : n % 2 ^ 32 = 0 := by rw [hn]; exact Nat.mod_self _
    show (0 : ℤ) + 1 * (2 : ℤ) ^ (n % 2 ^ 32) = 1
    rw [h0]; rfl
  · have hne : n ≠ 0 := by rw [hn]; norm_num
    have : (entriesPoly p.terms.entries).eval 2 = (2 : ℤ) ^ n := by
      show (entriesPoly [(n, (1 : ℤ))]).eval 2 = _
      simp
    rw [this]
    exact ne_of_gt (one_lt_pow₀ (by norm_num) hne)

example : (Sparse.fromVec [1, 2, (3 : ℤ)]).eval 5 = 38 := by decide

/-! ## C10, C13, C15 – negation, scalars, shifts -/

theorem sparse_pairwise_ne {N : Type} (m : BMap N) : m.entries.Pairwise (fun a b => a.1 ≠ b.1) :=
  m.sorted.imp (fun h => by omega)

section
variable {R : Type} [Ring R]

/-- C10 (SparsePolynomial). -/
theorem C10_sparse_neg (p : Sparse R) :
    entriesPoly p.neg.terms.entries = - entriesPoly p.terms.entries := by
  unfold Sparse.neg Sparse.new
  rw [mapPoly_foldl_keyed' p.terms.entries (fun e => e.1) (fun e => -e.2) (sparse_pairwise_ne _)]
  unfold entriesPoly
  induction p.terms.entries with
  | nil => simp
  | cons e l ih => rw [List.map_cons, List.sum_cons, ih, List.map_cons, List.sum_cons, neg_add, C_neg, neg_mul]

end

section
variable {R : Type} [CommSemiring R]

theorem entriesPoly_scale (l : List (Nat × R)) (c : R) :
    (l.map fun e => C (e.2 * c) * X ^ e.1).sum = C c * entriesPoly l := by
  induction l with
  | nil => simp
  | cons e l ih =>
    rw [List.map_cons, List.sum_cons, ih, entriesPoly_cons, C_mul]; ring

/-- C13 (SparsePolynomial): `p * c` and `p *= c` scale the polynomial. -/
theorem C13_sparse_mul_scalar (p : Sparse R) (c : R) :
    entriesPoly (p.mulScalar c).terms.entries = C c * entriesPoly p.terms.entries ∧
    entriesPoly (p.mulAssignScalar c).terms.entries = C c * entriesPoly p.terms.entries := by
  constructor
  · unfold Sparse.mulScalar Sparse.new
    rw [mapPoly_foldl_keyed' p.terms.entries (fun e => e.1) (fun e => e.2 * c) (sparse_pairwise_ne _),
      entriesPoly_scale]
  · unfold Sparse.mulAssignScalar BMap.mapVals
    rw [entriesPoly_map]
    exact entriesPoly_scale _ _

end

section
variable {R : Type} [Semiring R] [RDiv R]

theorem get_foldl_keyed {N α : Type} (l : List α) (key : α → Nat) (val : α → N)
    (hl : l.Pairwise (fun a b => key a ≠ key b)) (m : BMap N) :
    (∀ e ∈ l, (l.foldl (fun m e => m.insert (key e) (val e)) m).get (key e) = some (val e)) ∧
    (∀ k, (∀ e ∈ l, key e ≠ k) → (l.foldl (fun m e => m.insert (key e) (val e)) m).get k = m.get k) := by
  induction l generalizing m with
  | nil => simp
  | cons a t ih =>
    rw [List.pairwise_cons] at hl
    obtain ⟨h1, h2⟩ := ih hl.2 (m.insert (key a) (val a))
    constructor
    · intro e he
      rcases List.mem_cons.1 he with rfl | he
      · rw [List.foldl_cons, h2 _ (fun b hb => (hl.1 b hb).symm), BMap.get_insert, if_pos rfl]
      · rw [List.foldl_cons, h1 e he]
    · intro k hk
      rw [List.foldl_cons, h2 k (fun e he => hk e (List.mem_cons_of_mem _ he)), BMap.get_insert,
        if_neg (fun h => hk a (List.mem_cons_self ..) h.symm)]

theorem get_foldl_vals (m m0 : BMap R) (f : R → R) (h0 : m0 = .empty ∨ m0 = m) (k : Nat) :
    (m.entries.foldl (fun t e => t.insert e.1 (f e.2)) m0).get k = (m.get k).map f := by
  obtain ⟨h1, h2⟩ := get_foldl_keyed m.entries (fun e => e.1) (fun e => f e.2) (sparse_pairwise_ne m) m0
  cases hg : m.get k with
  | some v => exact h1 (k, v) ((BMap.mem_entries _ _ _).2 hg)
  | none =>
    rw [h2 k]
    · rcases h0 with rfl | rfl
      · rfl
      · exact hg
    · rintro ⟨k', v⟩ he rfl
      rw [(BMap.mem_entries _ _ _).1 he] at hg
      cases hg

theorem sparse_divScalar (p : Sparse R) (c : R) (f : R → R) (h0 : f 0 = 0)
    (h : ∀ x, rdiv x c = .ok (f x)) :
    (∃ r, p.divScalar c = .ok r ∧
      ∀ d, (entriesPoly r.terms.entries).coeff d = f ((entriesPoly p.terms.entries).coeff d)) ∧
    (∃ r, p.divAssignScalar c = .ok r ∧
      ∀ d, (entriesPoly r.terms.entries).coeff d = f ((entriesPoly p.terms.entries).coeff d)) := by
  have hm : ∀ m0, p.terms.entries.foldlM (fun (terms : BMap R) (e : Nat × R) => do
      let v ← rdiv e.2 c
      Res.ok (terms.insert e.1 v)) m0
      = .ok (p.terms.entries.foldl (fun (t : BMap R) e => t.insert e.1 (f e.2)) m0) := by
    intro m0
    apply foldlM_ok
    intro e _ m
    rw [h]; rfl
  have hc : ∀ m0 : BMap R, (m0 = .empty ∨ m0 = p.terms) → ∀ d,
      (entriesPoly (p.terms.entries.foldl (fun (t : BMap R) e => t.insert e.1 (f e.2)) m0).entries).coeff d
        = f ((entriesPoly p.terms.entries).coeff d) := by
    intro m0 hm0 d
    rw [coeff_mapPoly, coeff_mapPoly, get_foldl_vals _ _ _ hm0]
    cases p.terms.get d <;> simp [h0]
  refine ⟨⟨_, by unfold Sparse.divScalar; rw [hm]; rfl, hc _ (.inl rfl)⟩,
    ⟨_, by unfold Sparse.divAssignScalar; rw [hm]; rfl, hc _ (.inr rfl)⟩⟩

end

/-- C13 (SparsePolynomial, field): `p / c` and `p /= c` divide every coefficient; multiplying back
gives `p`. -/
theorem C13_sparse_div_scalar {K : Type} [Field K] [RDiv K] [LawfulRDiv K] (p : Sparse K) (c : K)
    (hc : c ≠ 0) :
    (∃ r, p.divScalar c = .ok r ∧ C c * entriesPoly r.terms.entries = entriesPoly p.terms.entries) ∧
    (∃ r, p.divAssignScalar c = .ok r ∧
      C c * entriesPoly r.terms.entries = entriesPoly p.terms.entries) := by
  obtain ⟨⟨r, h1, h2⟩, ⟨r', h1', h2'⟩⟩ := sparse_divScalar p c (· / c) (zero_div c)
    (fun x => LawfulRDiv.rdiv_eq x c hc)
  refine ⟨⟨r, h1, ?_⟩, ⟨r', h1', ?_⟩⟩
  · ext d; rw [coeff_C_mul, h2, mul_div_cancel₀ _ hc]
  · ext d; rw [coeff_C_mul, h2', mul_div_cancel₀ _ hc]

/-- C13 (SparsePolynomial, integers): division of every coefficient truncates toward zero. -/
theorem C13_sparse_div_scalar_int (p : Sparse ℤ) (c : ℤ) (hc : c ≠ 0) :
    (∃ r, p.divScalar c = .ok r ∧
      ∀ d, (entriesPoly r.terms.entries).coeff d = ((entriesPoly p.terms.entries).coeff d).tdiv c) ∧
    (∃ r, p.divAssignScalar c = .ok r ∧
      ∀ d, (entriesPoly r.terms.entries).coeff d = ((entriesPoly p.terms.entries).coeff d).tdiv c) :=
  sparse_divScalar p c (·.tdiv c) (Int.zero_tdiv c) (fun x => by simp [rdiv, hc])

example : ((Sparse.fromVec [4, -7, (2 : ℤ)]).mulScalar 3).terms.entries = [(0, 6), (1, -21), (2, 12)] := by
  decide

section
variable {R : Type} [Semiring R]

theorem sparse_shlPos (p : Sparse R) (k : Nat) :
    entriesPoly (p.shlPos k).terms.entries = entriesPoly p.terms.entries * X ^ k := by
  unfold Sparse.shlPos Sparse.new
  rw [mapPoly_foldl_keyed' p.terms.entries (fun e => e.1 + k) (fun e => e.2)
    ((sparse_pairwise_ne _).imp (fun h => by omega))]
  induction p.terms.entries with
  | nil => simp
  | cons e l ih =>
    rw [List.map_cons, List.sum_cons, ih, entriesPoly_cons, add_mul, mul_assoc, ← pow_add]

theorem sparse_shrPos (p : Sparse R) (k : Nat) :
    IsShiftRight (entriesPoly p.terms.entries) (entriesPoly (p.shrPos k).terms.entries) k := by
  intro d
  unfold Sparse.shrPos Sparse.new
  have := mapPoly_foldl_keyed p.terms.entries (fun e => decide (e.1 ≥ k)) (fun e => e.1 - k)
    (fun e => e.2) ((sparse_pairwise_ne _).imp (fun h h1 h2 => by simp at h1 h2; omega)) .empty (by simp)
  simp only [decide_eq_true_eq] at this
  rw [this, mapPoly_empty, zero_add]
  induction p.terms.entries with
  | nil => simp
  | cons e l ih =>
    rw [List.map_cons, List.sum_cons, entriesPoly_cons, coeff_add, coeff_add, ih]
    congr 1
    split
    · rw [coeff_C_mul, coeff_C_mul, coeff_X_pow, coeff_X_pow]
      congr 2
      simp only [eq_iff_iff]; omega
    · rw [coeff_C_mul, coeff_X_pow, if_neg (by omega)]; simp

/-- C15 (SparsePolynomial), missing: `k = i32::MIN`, where negating `k` overflows (false there, see
`C15_sparse_shift_false`).  The assigning forms are the same functions. -/
theorem C15_sparse_shift_partial (p : Sparse R) (k : Int) (hk : k ≠ -2 ^ 31) :
    (∃ r, p.shl k = .ok r ∧
      (0 ≤ k → entriesPoly r.terms.entries = entriesPoly p.terms.entries * X ^ k.toNat) ∧
      (k < 0 → IsShiftRight (entriesPoly p.terms.entries) (entriesPoly r.terms.entries) (-k).toNat)) ∧
    (∃ r, p.shr k = .ok r ∧
      (0 ≤ k → IsShiftRight (entriesPoly p.terms.entries) (entriesPoly r.terms.entries) k.toNat) ∧
      (k < 0 → entriesPoly r.terms.entries = entriesPoly p.terms.entries * X ^ (-k).toNat)) := by
  unfold Sparse.shl Sparse.shr
  by_cases h : k < 0
  · simp only [if_pos h, negI32_ok hk, Res.ok_bind]
    exact ⟨⟨_, rfl, fun h' => by omega, fun _ => sparse_shrPos _ _⟩,
      ⟨_, rfl, fun h' => by omega, fun _ => sparse_shlPos _ _⟩⟩
  · simp only [if_neg h]
    exact ⟨⟨_, rfl, fun _ => sparse_shlPos _ _, fun h' => absurd h' h⟩,
      ⟨_, rfl, fun _ => sparse_shrPos _ _, fun h' => absurd h' h⟩⟩

/-- C15 is false for the shift amount `i32::MIN`: every shift by it panics. -/
theorem C15_sparse_shift_false (p : Sparse R) :
    p.shl (-2 ^ 31) = .panic ∧ p.shr (-2 ^ 31) = .panic := by
  have h : (-2 ^ 31 : Int) < 0 := by norm_num
  unfold Sparse.shl Sparse.shr
  simp only [if_pos h, negI32_min]
  exact ⟨rfl, rfl⟩

end

/-! ## C17, C18 – derivative and integral -/

section
variable {R : Type} [CommSemiring R] [NumZero R] [LawfulNumZero R] [FromUsizeExact R]

/-- C17 (SparsePolynomial): the derivative panics exactly if some non-zero term has a positive
degree that is not representable; otherwise the formal derivative is returned. -/
theorem C17_sparse_derivative [LawfulFromUsizeExact R] (p : Sparse R) :
    ((∃ d, d ≠ 0 ∧ (entriesPoly p.terms.entries).coeff d ≠ 0 ∧ (tryFromExact d : Option R) = none) →
      p.derivative = .panic) ∧
    ((∀ d, d ≠ 0 → (entriesPoly p.terms.entries).coeff d ≠ 0 → (tryFromExact d : Option R) ≠ none) →
      ∃ r, p.derivative = .ok r ∧
        entriesPoly r.terms.entries = Polynomial.derivative (entriesPoly p.terms.entries)) := by
  have hcond : ∀ e : Nat × R, (!isZero e.2 && e.1 != 0) = true ↔ e.2 ≠ 0 ∧ e.1 ≠ 0 := by
    intro e; rw [Bool.and_eq_true, Bool.not_eq_true', isZero_eq_false, bne_iff_ne]
  unfold Sparse.derivative
  constructor
  · rintro ⟨d, hd, hc, ht⟩
    rw [foldlM_panic]; · rfl
    · intro e _ m
      split
      · cases (tryFromExact e.1 : Option R) <;> simp
      · exact .inr ⟨_, rfl⟩
    · rw [coeff_mapPoly] at hc
      cases hg : p.terms.get d with
      | none => rw [hg] at hc; simp at hc
      | some v =>
        rw [hg] at hc
        refine ⟨(d, v), (BMap.mem_entries _ _ _).2 hg, fun m => ?_⟩
        rw [if_pos ((hcond _).2 ⟨hc, hd⟩)]
        simp [ht]
  · intro h
    rw [foldlM_ok (step' := fun (terms : BMap R) (e : Nat × R) =>
      if (fun e : Nat × R => !isZero e.2 && e.1 != 0) e = true then
        terms.insert ((fun e : Nat × R => e.1 - 1) e) ((fun e : Nat × R => e.2 * (e.1 : R)) e)
      else terms)]
    · refine ⟨_, rfl, ?_⟩
      rw [mapPoly_foldl_keyed]
      · rw [mapPoly_empty, zero_add]
        induction p.terms.entries with
        | nil => simp
        | cons e l ih =>
          rw [List.map_cons, List.sum_cons, entriesPoly_cons, derivative_add, ih]
          congr 1
          rw [derivative_C_mul, derivative_X_pow]
          split
          · rw [C_mul, mul_assoc]
          · rename_i hn
            rw [hcond] at hn
            by_cases h2 : e.2 = 0
            · simp [h2]
            · have : e.1 = 0 := by tauto
              simp [this]
      · refine (sparse_pairwise_ne _).imp ?_
        intro a b hab h1 h2
        rw [hcond] at h1 h2
        show a.1 - 1 ≠ b.1 - 1
        omega
      · simp
    · rintro ⟨k, v⟩ he m
      simp only
      by_cases hz : (!isZero v && k != 0) = true
      · rw [if_pos hz, if_pos hz]
        have h2 := (hcond (k, v)).1 hz
        have hg := (BMap.mem_entries _ _ _).1 he
        have := h k h2.2 (by rw [coeff_mapPoly, hg]; exact h2.1)
        cases ht : (tryFromExact k : Option R) with
        | none => exact absurd ht this
        | some d => simp [LawfulFromUsizeExact.tryFromExact_eq _ _ ht]
      · rw [if_neg hz, if_neg hz]

end

example : ((Sparse.fromVec [4, 0, 1, (5 : ℤ)]).derivative).bind (fun r => .ok r.terms.entries)
    = .ok [(0, 1), (2, 12)] := by decide

section
variable {K : Type} [Field K] [CharZero K] [NumZero K] [LawfulNumZero K] [FromUsizeExact K]
  [LawfulFromUsizeExact K] [RDiv K] [LawfulRDiv K]

/-- C18 (SparsePolynomial): the integral has constant term zero and differentiates to `p`; it
panics only if degree + 1 of some stored entry is not representable. -/
theorem C18_sparse_integral (p : Sparse K)
    (h : ∀ e ∈ p.terms.entries, (tryFromExact (e.1 + 1) : Option K) ≠ none) :
    ∃ r, p.integral = .ok r ∧
      Polynomial.derivative (entriesPoly r.terms.entries) = entriesPoly p.terms.entries ∧
      (entriesPoly r.terms.entries).coeff 0 = 0 := by
  unfold Sparse.integral
  rw [foldlM_ok (step' := fun (terms : BMap K) (e : Nat × K) =>
      terms.insert ((fun e : Nat × K => e.1 + 1) e) ((fun e : Nat × K => e.2 / ((e.1 + 1 : Nat) : K)) e))]
  · refine ⟨_, rfl, ?_, ?_⟩
    · unfold Sparse.new
      rw [mapPoly_foldl_keyed' _ _ _ ((sparse_pairwise_ne _).imp (fun h => by omega))]
      induction p.terms.entries with
      | nil => simp
      | cons e l ih =>
        rw [List.map_cons, List.sum_cons, derivative_add, ih, entriesPoly_cons]
        congr 1
        have hne : ((e.1 + 1 : Nat) : K) ≠ 0 := Nat.cast_ne_zero.2 (by omega)
        rw [derivative_C_mul, derivative_X_pow, Nat.add_sub_cancel, ← mul_assoc, ← C_mul,
          div_mul_cancel₀ _ hne]
    · unfold Sparse.new
      rw [mapPoly_foldl_keyed' _ _ _ ((sparse_pairwise_ne _).imp (fun h => by omega))]
      clear h
      induction p.terms.entries with
      | nil => simp
      | cons e l ih =>
        rw [List.map_cons, List.sum_cons, coeff_add, ih]
        simp [coeff_X_pow]
  · rintro ⟨k, v⟩ he m
    simp only
    cases ht : (tryFromExact (k + 1) : Option K) with
    | none => exact absurd ht (h _ he)
    | some d =>
      have hne : ((k + 1 : Nat) : K) ≠ 0 := Nat.cast_ne_zero.2 (by omega)
      rw [LawfulFromUsizeExact.tryFromExact_eq _ _ ht]
      simp only [LawfulRDiv.rdiv_eq _ _ hne]
      rfl

/-- C18 (SparsePolynomial), through the API. -/
theorem C18_sparse_derivative_integral [DecidableEq K] (p : Sparse K)
    (h : ∀ n, (tryFromExact n : Option K) ≠ none) :
    ∃ r s, p.integral = .ok r ∧ r.derivative = .ok s ∧ s.eq p = true := by
  obtain ⟨r, hr, hd, _⟩ := C18_sparse_integral p (fun e _ => h _)
  obtain ⟨s, hs, hds⟩ := (C17_sparse_derivative r).2 (fun d _ _ => h d)
  exact ⟨r, s, hr, hs, (C05_sparse_eq s p).2 (hds.trans hd)⟩

end

/-- C18 (SparsePolynomial over exact integers): coefficients are truncated quotients. -/
theorem C18_sparse_integral_int (p : Sparse ℤ) :
    ∃ r, p.integral = .ok r ∧ (entriesPoly r.terms.entries).coeff 0 = 0 ∧
      ∀ d, (entriesPoly r.terms.entries).coeff (d + 1)
        = ((entriesPoly p.terms.entries).coeff d).tdiv (d + 1) := by
  unfold Sparse.integral
  rw [foldlM_ok (step' := fun (terms : BMap ℤ) (e : Nat × ℤ) =>
      terms.insert ((fun e : Nat × ℤ => e.1 + 1) e) ((fun e : Nat × ℤ => e.2.tdiv ((e.1 + 1 : Nat) : ℤ)) e))]
  · obtain ⟨h1, h2⟩ := get_foldl_keyed p.terms.entries (fun e => e.1 + 1)
      (fun e => e.2.tdiv ((e.1 + 1 : Nat) : ℤ)) ((sparse_pairwise_ne _).imp (fun h => by omega)) .empty
    refine ⟨_, rfl, ?_, fun d => ?_⟩
    · rw [coeff_mapPoly, Sparse.new, h2 0 (by intro e _; omega)]; rfl
    · rw [coeff_mapPoly, coeff_mapPoly, Sparse.new]
      cases hg : p.terms.get d with
      | some v =>
        have := h1 (d, v) ((BMap.mem_entries _ _ _).2 hg)
        simp only at this
        rw [this]; simp
      | none =>
        rw [h2 (d + 1)]
        · simp
        · rintro ⟨k, v⟩ he hk
          have hk : k = d := by simpa using hk
          subst hk
          rw [(BMap.mem_entries _ _ _).1 he] at hg
          cases hg
  · rintro ⟨k, v⟩ he m
    have : ((k : ℤ) + 1) ≠ 0 := by omega
    simp [tryFromExact, rdiv, this]

/-! ## C25, C26 – ring operations -/

section
variable {R : Type} [Semiring R]

/-- C25: `a + b` and `a += b` on sparse polynomials. -/
theorem C25_sparse_add (p q : Sparse R) :
    entriesPoly (p.add q).terms.entries = entriesPoly p.terms.entries + entriesPoly q.terms.entries ∧
    entriesPoly (p.addAssign q).terms.entries
      = entriesPoly p.terms.entries + entriesPoly q.terms.entries := by
  have key : ∀ (l : List (Nat × R)) (m : BMap R),
      entriesPoly (l.foldl (fun m e => m.upsert e.1 e.2 (· + e.2)) m).entries
        = entriesPoly m.entries + entriesPoly l := by
    intro l m
    rw [mapPoly_foldl _ (fun e => C e.2 * X ^ e.1) l
      (fun m e _ => mapPoly_upsert_add m e.1 e.2 _ (fun _ => rfl))]
    rfl
  constructor
  · unfold Sparse.add
    simp only
    rw [key, mapPoly_foldl_keyed' q.terms.entries (fun e => e.1) (fun e => e.2) (sparse_pairwise_ne _),
      add_comm]
    rfl
  · exact key _ _

end

section
variable {R : Type} [Ring R]

/-- C25: `a - b` and `a -= b` on sparse polynomials, and `SparsePolynomial - Polynomial`. -/
theorem C25_sparse_sub (p q : Sparse R) :
    entriesPoly (p.sub q).terms.entries
      = entriesPoly p.terms.entries - entriesPoly q.terms.entries := by
  unfold Sparse.sub
  rw [mapPoly_foldl _ (fun e => - (C e.2 * X ^ e.1)) _ (fun m e _ => by
    rw [mapPoly_upsert_add m e.1 (-e.2) _ (fun x => sub_eq_add_neg x e.2)]; simp), sub_eq_add_neg]
  congr 1
  unfold entriesPoly
  induction q.terms.entries with
  | nil => simp
  | cons e l ih => simp only [List.map_cons, List.sum_cons, ih, neg_add]

/-- C25: `SparsePolynomial - Polynomial`. -/
theorem C25_sparse_sub_dense [NumZero R] [LawfulNumZero R] (p : Sparse R) (q : Poly R) :
    entriesPoly (p.subDense q).terms.entries = entriesPoly p.terms.entries - descPoly q.terms := by
  unfold Sparse.subDense
  rw [mapPoly_foldl _ (fun e => - (C e.1 * X ^ e.2)) _ (fun m e _ => by
    rw [mapPoly_upsert_add m e.2 (-e.1) _ (fun x => sub_eq_add_neg x e.1)]; simp), sub_eq_add_neg]
  congr 1
  rw [← C03_dense_terms_sum q, termsPoly]
  induction q.orderedTermIter with
  | nil => simp
  | cons e l ih => simp only [List.map_cons, List.sum_cons, ih, neg_add]

end

example : ((Sparse.fromVec [1, 2, (3 : ℤ)]).sub (Sparse.fromVec [2, 0])).terms.entries
      = [(0, 3), (1, 0), (2, 1)] ∧
    ((Sparse.fromVec [1, 2, (3 : ℤ)]).subDense ⟨[0, 7, 0, 0, 3]⟩).terms.entries
      = [(0, 0), (1, 2), (2, 1), (3, -7)] := by decide

section
variable {R : Type} [CommSemiring R] [NumZero R] [LawfulNumZero R]

/-- C26: `a * b` (every spelling) on sparse polynomials. -/
theorem C26_sparse_mul (p q : Sparse R) :
    entriesPoly (p.mul q).terms.entries
      = entriesPoly p.terms.entries * entriesPoly q.terms.entries := by
  unfold Sparse.mul mapMul
  rw [mapPoly_foldl _ (fun e => C e.2 * X ^ e.1 * entriesPoly p.terms.entries)]
  · rw [mapPoly_empty, zero_add, mul_comm]
    unfold entriesPoly
    rw [← List.sum_map_mul_right]
  · intro m e _
    split
    · rename_i h
      have : e.2 = 0 := by simpa using h
      simp [this]
    · unfold mapMulInner
      rw [mapPoly_foldl _ (fun e' : Nat × R => C (e.2 * e'.2) * X ^ (e.1 + e'.1)) _
        (fun m e' _ => mapPoly_upsert_add m _ _ _ (fun _ => rfl))]
      congr 1
      unfold entriesPoly
      rw [← List.sum_map_mul_left]
      congr 2
      funext e'
      rw [C_mul, pow_add]; ring

/-- C26: `pow` on sparse polynomials (total, hence terminating). -/
theorem C26_sparse_pow (p : Sparse R) (n : Nat) :
    entriesPoly (p.pow n).terms.entries = entriesPoly p.terms.entries ^ n := by
  induction n using Nat.strong_induction_on generalizing p with
  | _ n ih =>
    rw [Sparse.pow]
    split
    · rename_i h0
      rw [h0, mapPoly_insert_fresh _ _ _ rfl]; simp [mapPoly_empty]
    · split
      · rename_i h1; simp [h1, Sparse.new]
      · split
        · rename_i h2; rw [C26_sparse_mul, h2, pow_two]
        · split
          · rename_i h0 h1 h2 he
            rw [ih 2 (by omega), ih (n / 2) (by omega), ← pow_mul]
            congr 1; omega
          · rename_i h0 h1 h2 he
            rw [C26_sparse_mul, ih (n - 1) (by omega), ← pow_succ']
            congr 1; omega

end

example : ((Sparse.fromVec [1, (2 : ℤ)]).mul (Sparse.fromVec [3, 0, -1])).terms.entries
    = [(0, -2), (1, -1), (2, 6), (3, 3)] := by decide

end Rustnomial
