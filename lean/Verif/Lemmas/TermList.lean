import Verif.Lemmas.Dense
import Mathlib.Data.List.Sort

open Polynomial

namespace Rustnomial

section
variable {R : Type} [Semiring R]

theorem IsTermListOf.nodup {ts : List (R × Nat)} {P : R[X]} (h : IsTermListOf ts P) : ts.Nodup :=
  h.1.imp (fun {a b} hab e => by subst e; exact absurd hab (lt_irrefl _))

theorem IsTermListOf.unique {ts us : List (R × Nat)} {P : R[X]} (h : IsTermListOf ts P)
    (h' : IsTermListOf us P) : ts = us := by
  have hp : ts.Perm us := by
    rw [List.perm_ext_iff_of_nodup h.nodup h'.nodup]
    rintro ⟨c, d⟩
    rw [h.2, h'.2]
  exact hp.eq_of_pairwise (fun a b _ _ h1 h2 => absurd (lt_trans h1 h2) (lt_irrefl _)) h.1 h'.1

theorem IsTermListOf.poly_unique {ts : List (R × Nat)} {P Q : R[X]} (h : IsTermListOf ts P)
    (h' : IsTermListOf ts Q) : P = Q := by
  ext n
  by_cases hP : P.coeff n = 0
  · by_contra hne
    have hQ : Q.coeff n ≠ 0 := fun e => hne (by rw [hP, e])
    have := (h.2 _ _).1 ((h'.2 (Q.coeff n) n).2 ⟨hQ, rfl⟩)
    exact hQ (by rw [← this.2, hP])
  · have := (h'.2 _ _).1 ((h.2 (P.coeff n) n).2 ⟨hP, rfl⟩)
    exact this.2.symm

theorem termsPoly_cons (t : R × Nat) (ts : List (R × Nat)) :
    termsPoly (t :: ts) = C t.1 * X ^ t.2 + termsPoly ts := by simp [termsPoly]

@[simp] theorem termsPoly_nil : termsPoly ([] : List (R × Nat)) = 0 := rfl

theorem termsPoly_append (a b : List (R × Nat)) :
    termsPoly (a ++ b) = termsPoly a + termsPoly b := by simp [termsPoly]

theorem termsPoly_perm {a b : List (R × Nat)} (h : a.Perm b) : termsPoly a = termsPoly b :=
  (h.map _).sum_eq

end

/-- Clean recursive form of the dense term iterator. -/
def descTerms {N : Type} [Zero N] [NumZero N] : List N → List (N × Nat)
  | [] => []
  | c :: cs => if isZero c then descTerms cs else (c, cs.length) :: descTerms cs

section
variable {N : Type} [Zero N] [NumZero N]

theorem zipIdx_filterMap_eq (l : List N) : ∀ (D k : Nat), l.length + k = D + 1 →
    (l.zipIdx k).filterMap (fun x => if isZero x.1 then none else some (x.1, D - x.2))
      = descTerms l := by
  induction l with
  | nil => intro D k _; simp [descTerms]
  | cons c cs ih =>
    intro D k h
    simp only [List.length_cons] at h
    have := ih D (k + 1) (by omega)
    simp only [List.zipIdx_cons, List.filterMap_cons, descTerms]
    by_cases hc : isZero c = true
    · simp [hc, this]
    · simp only [Bool.not_eq_true] at hc
      simp only [hc, this]
      have : D - k = cs.length := by omega
      simp [this]

theorem descTerms_dropWhile (l : List N) : descTerms (l.dropWhile isZero) = descTerms l := by
  induction l with
  | nil => simp
  | cons c cs ih =>
    by_cases h : isZero c = true
    · simp [h, ih, descTerms]
    · simp [h]

theorem orderedTermIter_eq (p : Poly N) : p.orderedTermIter = descTerms p.terms := by
  unfold Poly.orderedTermIter
  simp only
  rw [drop_firstNonzeroIndex, ← descTerms_dropWhile]
  cases h : p.terms.dropWhile isZero with
  | nil => simp [descTerms]
  | cons c cs =>
    exact zipIdx_filterMap_eq (c :: cs) _ 0 (by simp)

theorem descTerms_deg_lt (l : List N) : ∀ t ∈ descTerms l, t.2 < l.length := by
  induction l with
  | nil => simp [descTerms]
  | cons c cs ih =>
    intro t ht
    simp only [descTerms] at ht
    split at ht
    · have := ih t ht; simp; omega
    · rcases List.mem_cons.1 ht with rfl | h
      · simp
      · have := ih t h; simp; omega

theorem descTerms_pairwise (l : List N) : (descTerms l).Pairwise (fun s t => s.2 > t.2) := by
  induction l with
  | nil => simp [descTerms]
  | cons c cs ih =>
    simp only [descTerms]
    split
    · exact ih
    · exact List.pairwise_cons.2 ⟨fun t ht => descTerms_deg_lt cs t ht, ih⟩

end

section
variable {R : Type} [Semiring R] [NumZero R] [LawfulNumZero R]

theorem termsPoly_descTerms (l : List R) : termsPoly (descTerms l) = descPoly l := by
  induction l with
  | nil => rfl
  | cons c cs ih =>
    simp only [descTerms, descPoly_cons]
    split
    · rename_i h; simp at h; simp [h, ih]
    · simp [termsPoly_cons, ih]

theorem isTermListOf_descTerms (l : List R) : IsTermListOf (descTerms l) (descPoly l) := by
  refine ⟨descTerms_pairwise l, ?_⟩
  induction l with
  | nil => intro c d; simp [descTerms]; intro h e; exact h e.symm
  | cons a cs ih =>
    intro c d
    have hcoef : (descPoly (a :: cs)).coeff d = if d = cs.length then a else (descPoly cs).coeff d := by
      rw [descPoly_cons, coeff_add, coeff_C_mul, coeff_X_pow]
      split
      · rename_i h; subst h; simp [coeff_descPoly_of_le le_rfl]
      · simp
    simp only [descTerms, hcoef]
    have hcs : (descPoly cs).coeff cs.length = 0 := coeff_descPoly_of_le le_rfl
    by_cases hd : d = cs.length
    · subst hd
      split
      · rename_i h; simp at h; subst h
        rw [ih, hcs]; simp
      · rename_i h; simp at h
        simp only [List.mem_cons, Prod.mk.injEq, and_true, ih, hcs, if_true]
        constructor
        · rintro (rfl | ⟨h1, h2⟩)
          · exact ⟨h, rfl⟩
          · exact absurd h2.symm h1
        · rintro ⟨_, h2⟩; exact Or.inl h2.symm
    · split
      · rw [ih]
      · simp only [List.mem_cons, Prod.mk.injEq, hd, and_false, false_or, ih]

omit [NumZero R] [LawfulNumZero R] in
/-- A list with strictly descending degrees and no zero coefficients is the term list of its sum. -/
theorem isTermListOf_termsPoly {ts : List (R × Nat)} (hp : ts.Pairwise (fun s t => s.2 > t.2))
    (hz : ∀ t ∈ ts, t.1 ≠ 0) : IsTermListOf ts (termsPoly ts) := by
  refine ⟨hp, ?_⟩
  induction ts with
  | nil => intro c d; simp; intro h e; exact h e.symm
  | cons t ts ih =>
    intro c d
    obtain ⟨h1, h2⟩ := List.pairwise_cons.1 hp
    have ih' := ih h2 (fun u hu => hz u (List.mem_cons_of_mem _ hu))
    have hc0 : (termsPoly ts).coeff t.2 = 0 := by
      by_contra h
      have := h1 _ ((ih' _ _).2 ⟨h, rfl⟩)
      simp at this
    rw [termsPoly_cons, coeff_add, coeff_C_mul, coeff_X_pow]
    by_cases hd : d = t.2
    · subst hd
      rw [hc0]
      simp only [if_true, mul_one, add_zero, List.mem_cons]
      constructor
      · rintro (h | h)
        · have : t.1 = c := by rw [← h]
          exact ⟨this ▸ hz _ (by simp), this⟩
        · have := h1 _ h; simp at this
      · rintro ⟨_, h⟩; left; rw [← h]
    · simp only [hd, if_false, mul_zero, zero_add, List.mem_cons, ← ih']
      constructor
      · rintro (h | h)
        · subst h; exact absurd rfl hd
        · exact h
      · exact Or.inr

omit [NumZero R] [LawfulNumZero R] in
theorem IsTermListOf.termsPoly_eq {ts : List (R × Nat)} {P : R[X]} (h : IsTermListOf ts P) :
    termsPoly ts = P :=
  (isTermListOf_termsPoly h.1 (fun t ht => ((h.2 t.1 t.2).1 ht).1)).poly_unique h

end
end Rustnomial
