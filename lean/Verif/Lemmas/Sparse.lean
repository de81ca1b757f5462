import Verif.Model.Sparse
import Verif.Lemmas.TermList

/-!
# Lemmas about maps and sparse polynomials
-/

open Polynomial

set_option linter.unusedSectionVars false

namespace Rustnomial

namespace BMap
variable {N : Type}

theorem getList_insertList (k : Nat) (v : N) (l : List (Nat × N)) (j : Nat) :
    getList j (insertList k v l) = if j = k then some v else getList j l := by
  induction l with
  | nil => simp [insertList, getList]
  | cons a t ih =>
    obtain ⟨k', v'⟩ := a
    unfold insertList
    split
    · simp [getList]
    · split
      · rename_i h; subst h
        simp only [getList]
        split <;> simp_all
      · simp only [getList, ih]
        split
        · rename_i h; subst h; rw [if_neg (by omega)]
        · rfl

@[simp] theorem get_empty (k : Nat) : (empty : BMap N).get k = none := rfl

theorem get_insert (m : BMap N) (k : Nat) (v : N) (j : Nat) :
    (m.insert k v).get j = if j = k then some v else m.get j := getList_insertList k v m.entries j

theorem get_upsert (m : BMap N) (k : Nat) (v : N) (f : N → N) (j : Nat) :
    (m.upsert k v f).get j = if j = k then some ((m.get k).elim v f) else m.get j := by
  unfold upsert
  cases h : m.get k <;> simp [get_insert]

theorem getList_mem {k : Nat} {v : N} {l : List (Nat × N)} (h : getList k l = some v) : (k, v) ∈ l := by
  induction l with
  | nil => cases h
  | cons a t ih =>
    obtain ⟨k', v'⟩ := a
    simp only [getList] at h
    split at h
    · rename_i he; subst he; injection h with h; subst h; simp
    · exact List.mem_cons_of_mem _ (ih h)

theorem getList_of_mem {k : Nat} {v : N} {l : List (Nat × N)} (hl : (l.map Prod.fst).Nodup)
    (h : (k, v) ∈ l) : getList k l = some v := by
  induction l with
  | nil => cases h
  | cons a t ih =>
    obtain ⟨k', v'⟩ := a
    rw [List.map_cons, List.nodup_cons] at hl
    simp only [getList]
    rcases List.mem_cons.1 h with h | hm
    · injection h with h1 h2; subst h1 h2; simp
    · rw [if_neg, ih hl.2 hm]
      rintro rfl
      exact hl.1 (List.mem_map.2 ⟨_, hm, rfl⟩)

theorem keys_nodup (m : BMap N) : (m.entries.map Prod.fst).Nodup := by
  have := m.sorted
  rw [List.Nodup, List.pairwise_map]
  exact this.imp (fun h => by omega)

theorem mem_entries (m : BMap N) (k : Nat) (v : N) : (k, v) ∈ m.entries ↔ m.get k = some v :=
  ⟨getList_of_mem m.keys_nodup, getList_mem⟩

end BMap

section
variable {R : Type} [Semiring R]

@[simp] theorem entriesPoly_nil : entriesPoly ([] : List (Nat × R)) = 0 := rfl
@[simp] theorem entriesPoly_cons (e : Nat × R) (l : List (Nat × R)) :
    entriesPoly (e :: l) = C e.2 * X ^ e.1 + entriesPoly l := by simp [entriesPoly]

theorem coeff_entriesPoly_getList {l : List (Nat × R)} (hl : (l.map Prod.fst).Nodup) (d : Nat) :
    (entriesPoly l).coeff d = (BMap.getList d l).getD 0 := by
  induction l with
  | nil => simp [BMap.getList]
  | cons a t ih =>
    obtain ⟨k, v⟩ := a
    rw [List.map_cons, List.nodup_cons] at hl
    simp only [entriesPoly_cons, coeff_add, coeff_C_mul, coeff_X_pow, BMap.getList, ih hl.2]
    by_cases hd : d = k
    · subst hd
      have : BMap.getList d t = none := by
        cases h : BMap.getList d t with
        | none => rfl
        | some w => exact absurd (List.mem_map.2 ⟨_, BMap.getList_mem h, rfl⟩) hl.1
      simp [this]
    · simp [hd]

theorem coeff_mapPoly (m : BMap R) (d : Nat) :
    (entriesPoly m.entries).coeff d = (m.get d).getD 0 :=
  coeff_entriesPoly_getList m.keys_nodup d

theorem mapPoly_empty : entriesPoly (BMap.empty : BMap R).entries = 0 := rfl

theorem mapPoly_upsert_add (m : BMap R) (k : Nat) (c : R) (f : R → R) (hf : ∀ x, f x = x + c) :
    entriesPoly (m.upsert k c f).entries = entriesPoly m.entries + C c * X ^ k := by
  ext d
  rw [coeff_mapPoly, BMap.get_upsert, coeff_add, coeff_mapPoly, coeff_C_mul, coeff_X_pow]
  by_cases h : d = k
  · subst h
    cases m.get d <;> simp [hf]
  · simp [h]

theorem mapPoly_insert_fresh (m : BMap R) (k : Nat) (c : R) (h : m.get k = none) :
    entriesPoly (m.insert k c).entries = entriesPoly m.entries + C c * X ^ k := by
  ext d
  rw [coeff_mapPoly, BMap.get_insert, coeff_add, coeff_mapPoly, coeff_C_mul, coeff_X_pow]
  by_cases hd : d = k
  · subst hd; simp [h]
  · simp [hd]

theorem mapPoly_foldl {α : Type} (step : BMap R → α → BMap R) (g : α → R[X]) (l : List α)
    (h : ∀ m, ∀ e ∈ l, entriesPoly (step m e).entries = entriesPoly m.entries + g e) (m : BMap R) :
    entriesPoly (l.foldl step m).entries = entriesPoly m.entries + (l.map g).sum := by
  induction l generalizing m with
  | nil => simp
  | cons e l ih =>
    rw [List.foldl_cons, ih (fun m e he => h m e (List.mem_cons_of_mem _ he)),
      h m e (List.mem_cons_self ..), List.map_cons, List.sum_cons, add_assoc]

theorem get_foldl_insert (l : List (Nat × R)) (m : BMap R) (k : Nat)
    (hk : k ∉ l.map Prod.fst) :
    (l.foldl (fun m e => m.insert e.1 e.2) m).get k = m.get k := by
  induction l generalizing m with
  | nil => rfl
  | cons a t ih =>
    rw [List.map_cons, List.mem_cons, not_or] at hk
    rw [List.foldl_cons, ih _ hk.2, BMap.get_insert, if_neg hk.1]

theorem mapPoly_foldl_insert (l : List (Nat × R)) (hl : (l.map Prod.fst).Nodup) (m : BMap R)
    (hm : ∀ e ∈ l, m.get e.1 = none) :
    entriesPoly (l.foldl (fun m e => m.insert e.1 e.2) m).entries
      = entriesPoly m.entries + entriesPoly l := by
  induction l generalizing m with
  | nil => simp
  | cons a t ih =>
    rw [List.map_cons, List.nodup_cons] at hl
    rw [List.foldl_cons, ih hl.2, mapPoly_insert_fresh _ _ _ (hm a (List.mem_cons_self ..)),
      entriesPoly_cons, add_assoc]
    intro e he
    rw [BMap.get_insert, if_neg, hm e (List.mem_cons_of_mem _ he)]
    intro h
    exact hl.1 (h ▸ List.mem_map.2 ⟨e, he, rfl⟩)

/-- Building a map by inserting each selected element under a key of its own. -/
theorem mapPoly_foldl_keyed {α : Type} (l : List α) (c : α → Bool) (key : α → Nat) (val : α → R)
    (hl : l.Pairwise (fun a b => c a = true → c b = true → key a ≠ key b)) (m : BMap R)
    (hm : ∀ e ∈ l, c e = true → m.get (key e) = none) :
    entriesPoly (l.foldl (fun m e => if c e = true then m.insert (key e) (val e) else m) m).entries
      = entriesPoly m.entries + (l.map fun e => if c e = true then C (val e) * X ^ key e else 0).sum := by
  induction l generalizing m with
  | nil => simp
  | cons a t ih =>
    rw [List.pairwise_cons] at hl
    rw [List.foldl_cons, ih hl.2, List.map_cons, List.sum_cons, ← add_assoc]
    · congr 1
      split
      · rename_i h
        exact mapPoly_insert_fresh _ _ _ (hm a (List.mem_cons_self ..) h)
      · rw [add_zero]
    · intro e he hc
      have := hm e (List.mem_cons_of_mem _ he) hc
      split
      · rename_i h
        rw [BMap.get_insert, if_neg (fun h' => hl.1 e he h hc h'.symm), this]
      · exact this

theorem mapPoly_foldl_keyed' {α : Type} (l : List α) (key : α → Nat) (val : α → R)
    (hl : l.Pairwise (fun a b => key a ≠ key b)) :
    entriesPoly (l.foldl (fun m e => m.insert (key e) (val e)) (BMap.empty : BMap R)).entries
      = (l.map fun e => C (val e) * X ^ key e).sum := by
  have := mapPoly_foldl_keyed l (fun _ => true) key val (hl.imp (fun h _ _ => h)) .empty (by simp)
  simpa [mapPoly_empty] using this

theorem foldlM_ok {α β : Type} (l : List α) (step : β → α → Res β) (step' : β → α → β)
    (h : ∀ e ∈ l, ∀ m, step m e = .ok (step' m e)) (m : β) :
    l.foldlM step m = .ok (l.foldl step' m) := by
  induction l generalizing m with
  | nil => rfl
  | cons a t ih =>
    rw [List.foldlM_cons, h a (List.mem_cons_self ..), Res.ok_bind, List.foldl_cons]
    exact ih (fun e he => h e (List.mem_cons_of_mem _ he)) _

theorem foldlM_panic {α β : Type} (l : List α) (step : β → α → Res β)
    (h : ∀ e ∈ l, ∀ m, step m e = .panic ∨ ∃ m', step m e = .ok m')
    (h' : ∃ e ∈ l, ∀ m, step m e = .panic) (m : β) : l.foldlM step m = .panic := by
  induction l generalizing m with
  | nil => obtain ⟨e, he, _⟩ := h'; cases he
  | cons a t ih =>
    rw [List.foldlM_cons]
    obtain ⟨e, he, hp⟩ := h'
    rcases List.mem_cons.1 he with rfl | he
    · rw [hp]; rfl
    · rcases h a (List.mem_cons_self ..) m with hs | ⟨m', hs⟩
      · rw [hs]; rfl
      · rw [hs, Res.ok_bind]
        exact ih (fun e he => h e (List.mem_cons_of_mem _ he)) ⟨e, he, hp⟩ m'

theorem mapPoly_ofList (l : List (Nat × R)) (hl : (l.map Prod.fst).Nodup) :
    entriesPoly (BMap.ofList l).entries = entriesPoly l := by
  rw [BMap.ofList, mapPoly_foldl_insert l hl _ (by simp), mapPoly_empty, zero_add]

theorem entriesPoly_map (l : List (Nat × R)) {S : Type} [Semiring S] (f : Nat × R → Nat × S) :
    entriesPoly (l.map f) = (l.map fun e => C (f e).2 * X ^ (f e).1).sum := by
  simp [entriesPoly, Function.comp_def]

variable [NumZero R] [LawfulNumZero R]

theorem sparseDegreeLoop_spec (l : List (Nat × R)) : ∀ (t : R) (d : Nat) (L : R[X]),
    l.Pairwise (fun a b => a.1 < b.1) → (∀ e ∈ l, d < e.1) → L.degree < d → (t = 0 → L = 0) →
    ((sparseDegreeLoop l (t, d)).1 = 0 → L + C t * X ^ d + entriesPoly l = 0) ∧
    ((sparseDegreeLoop l (t, d)).1 ≠ 0 →
      (L + C t * X ^ d + entriesPoly l).degree = ((sparseDegreeLoop l (t, d)).2 : WithBot ℕ) ∧
      (L + C t * X ^ d + entriesPoly l).coeff (sparseDegreeLoop l (t, d)).2
        = (sparseDegreeLoop l (t, d)).1) := by
  induction l with
  | nil =>
    intro t d L _ _ hL h0
    simp only [sparseDegreeLoop, entriesPoly_nil, add_zero]
    constructor
    · intro h; simp [h0 h, h]
    · intro h
      have hd : (C t * X ^ d).degree = (d : WithBot ℕ) := degree_C_mul_X_pow d h
      constructor
      · rw [degree_add_eq_right_of_degree_lt (by rw [hd]; exact hL), hd]
      · rw [coeff_add, coeff_eq_zero_of_degree_lt hL]; simp
  | cons a l ih =>
    obtain ⟨k, c⟩ := a
    intro t d L hs hd hL h0
    rw [List.pairwise_cons] at hs
    have hdk : d < k := hd (k, c) (List.mem_cons_self ..)
    simp only [sparseDegreeLoop, entriesPoly_cons]
    by_cases hc : c = 0
    · have : isZero c = true := by simpa using hc
      simp only [this, Bool.not_true, Bool.and_false, Bool.false_eq_true, if_false]
      simp only [hc, map_zero, zero_mul, zero_add]
      exact ih t d L hs.2 (fun e he => hd e (List.mem_cons_of_mem _ he)) hL h0
    · have : isZero c = false := by simpa using hc
      simp only [this, Bool.not_false, Bool.and_true, decide_eq_true_eq, gt_iff_lt, if_pos hdk]
      have h' := ih c k (L + C t * X ^ d) hs.2 (fun e he => hs.1 e he) (by
        refine lt_of_le_of_lt (degree_add_le _ _) (max_lt (lt_trans hL ?_) ?_)
        · exact_mod_cast hdk
        · exact lt_of_le_of_lt (degree_C_mul_X_pow_le _ _) (by exact_mod_cast hdk))
        (fun h => absurd h hc)
      rw [← add_assoc]
      exact h'

/-- `degree` of a map. -/
theorem sparseDegree_spec (m : BMap R) :
    (sparseDegree m).toWithBot = (entriesPoly m.entries).degree := by
  unfold sparseDegree
  have hs := m.sorted
  cases hm : m.entries with
  | nil => simp [Degree.toWithBot]
  | cons a t =>
    obtain ⟨k, c⟩ := a
    rw [hm, List.pairwise_cons] at hs
    have h := sparseDegreeLoop_spec t c k 0 hs.2 (fun e he => hs.1 e he) (by simp) (fun _ => rfl)
    simp only [zero_add] at h
    rw [entriesPoly_cons]
    by_cases hz : (sparseDegreeLoop t (c, k)).1 = 0
    · simp [hz, h.1 hz, Degree.toWithBot]
    · have : isZero (sparseDegreeLoop t (c, k)).1 = false := by simpa using hz
      simp only [this, if_false, Degree.toWithBot, (h.2 hz).1]
      rfl

theorem sparseFirstTerm_zero {m : BMap R} :
    sparseFirstTerm m = .zeroTerm ↔ entriesPoly m.entries = 0 := by
  have hd := sparseDegree_spec m
  unfold sparseFirstTerm
  cases h : sparseDegree m with
  | negInf =>
    rw [h] at hd
    simp only [true_iff]
    exact degree_eq_bot.1 hd.symm
  | num d =>
    rw [h] at hd
    have hc : (entriesPoly m.entries).coeff d ≠ 0 := coeff_ne_zero_of_eq_degree hd.symm
    have hne : entriesPoly m.entries ≠ 0 := by rintro h0; rw [h0] at hc; simp at hc
    rw [coeff_mapPoly] at hc
    cases hg : m.get d with
    | none => rw [hg] at hc; simp at hc
    | some v =>
      rw [hg] at hc
      have : isZero v = false := by simpa using hc
      simp only [hg, Term.new, this]
      simp [hne]

theorem sparseFirstTerm_term {m : BMap R} {c : R} {d : Nat} (hf : sparseFirstTerm m = .term c d) :
    c ≠ 0 ∧ (entriesPoly m.entries).degree = d ∧ (entriesPoly m.entries).leadingCoeff = c := by
  have hd := sparseDegree_spec m
  unfold sparseFirstTerm at hf
  cases h : sparseDegree m with
  | negInf => rw [h] at hf; cases hf
  | num e =>
    rw [h] at hf hd
    simp only at hf
    have hc := coeff_mapPoly m e
    cases hg : m.get e with
    | none => rw [hg] at hf; cases hf
    | some v =>
      rw [hg] at hf hc
      simp only [Term.new] at hf
      split at hf
      · cases hf
      · rename_i hz
        injection hf with h1 h2
        subst h1 h2
        refine ⟨by simpa using hz, hd.symm, ?_⟩
        rw [leadingCoeff, natDegree_eq_of_degree_eq_some hd.symm, hc]
        rfl

theorem sparse_isTermListOf (p : Sparse R) :
    IsTermListOf p.orderedTermIter (entriesPoly p.terms.entries) := by
  constructor
  · unfold Sparse.orderedTermIter
    rw [List.pairwise_filterMap]
    rw [List.pairwise_reverse]
    refine p.terms.sorted.imp ?_
    intro a b hab c hc c' hc'
    split at hc <;> split at hc'
    all_goals first
      | (cases hc; done)
      | (cases hc'; done)
      | (injection hc with hc; injection hc' with hc'; subst hc hc'; exact hab)
  · intro c d
    unfold Sparse.orderedTermIter
    rw [List.mem_filterMap, coeff_mapPoly]
    constructor
    · rintro ⟨⟨k, v⟩, hm, he⟩
      rw [List.mem_reverse, BMap.mem_entries] at hm
      simp only at he
      split at he
      · cases he
      · rename_i hz
        injection he with he; injection he with h1 h2
        subst h1 h2
        exact ⟨by simpa using hz, by rw [hm]; rfl⟩
    · rintro ⟨hc, hd⟩
      cases hg : p.terms.get d with
      | none => rw [hg] at hd; exact absurd hd.symm hc
      | some v =>
        rw [hg] at hd
        replace hd : v = c := hd
        subst hd
        refine ⟨(d, v), by rw [List.mem_reverse, BMap.mem_entries]; exact hg, ?_⟩
        have : isZero v = false := by simpa using hc
        simp [this]

end

end Rustnomial
