import Verif.SpecParam
import Verif.Lemmas.RootRel
import Verif.Lemmas.Dense
import Verif.Lemmas.TermList

/-!
# Two runs over two number types side by side
-/

namespace Rustnomial
namespace Par
open List

variable {A B : Type} {r s : A → B → Prop}

theorem rel_ok {α β : Type} {P : α → β → Prop} {a : α} {b : β} (h : P a b) : Res.Rel P (.ok a) (.ok b) := h

theorem bind_same {α γ δ : Type} {Q : γ → δ → Prop} (a : Res α) {g : α → Res γ} {h : α → Res δ} (H : ∀ x, Res.Rel Q (g x) (h x)) :
    Res.Rel Q (a >>= g) (a >>= h) := by
  cases a <;> first | exact H _ | trivial

theorem f2_replicate (n : Nat) {x : A} {y : B} (h : r x y) : Forall₂ r (replicate n x) (replicate n y) := by
  induction n with
  | zero => exact .nil
  | succ n ih => exact .cons h ih

theorem f2_set {l : List A} {l' : List B} (h : Forall₂ r l l') {x : A} {x' : B} (hx : r x x') :
    ∀ i, Forall₂ r (l.set i x) (l'.set i x') := by
  induction h with
  | nil => intro i; simp
  | cons hab hl ih =>
    intro i
    cases i with
    | zero => exact .cons hx hl
    | succ i => exact .cons hab (ih i)

theorem f2_modify {l : List A} {l' : List B} (h : Forall₂ r l l') {g : A → A} {g' : B → B} (hg : ∀ x x', r x x' → r (g x) (g' x')) :
    ∀ i, Forall₂ r (l.modify i g) (l'.modify i g') := by
  induction h with
  | nil => intro i; simp
  | cons hab hl ih =>
    intro i
    cases i with
    | zero => simpa using ⟨hg _ _ hab, hl⟩
    | succ i => simpa using ⟨hab, ih i⟩

theorem f2_zipMut {C D : Type} {t : C → D → Prop} {g : A → C → A} {g' : B → D → B} (hg : ∀ {x x' y y'}, r x x' → t y y' → r (g x y) (g' x' y'))
    {l : List A} {l' : List B} (h : Forall₂ r l l') : ∀ {m : List C} {m' : List D}, Forall₂ t m m' → Forall₂ r (zipMut g l m) (zipMut g' l' m') := by
  induction h with
  | nil => intro m m' _; simp
  | cons hab hl ih =>
    intro m m' hm
    cases hm with
    | nil => simpa using ⟨hab, hl⟩
    | cons hcd hm => simpa using ⟨hg hab hcd, ih hm⟩

theorem f2_map {C D : Type} {t : C → D → Prop} {g : A → C} {g' : B → D} (hg : ∀ {x x'}, r x x' → t (g x) (g' x')) {l : List A} {l' : List B}
    (h : Forall₂ r l l') : Forall₂ t (l.map g) (l'.map g') := by
  induction h with
  | nil => exact .nil
  | cons hab _ ih => exact .cons (hg hab) ih

theorem f2_append {l m : List A} {l' m' : List B} (h : Forall₂ r l l') (hm : Forall₂ r m m') : Forall₂ r (l ++ m) (l' ++ m') :=
  List.rel_append h hm

theorem f2_dropLast {l : List A} {l' : List B} (h : Forall₂ r l l') : Forall₂ r l.dropLast l'.dropLast := by
  rw [dropLast_eq_take, dropLast_eq_take, h.length_eq]; exact forall₂_take _ h

theorem f2_getLast? {l : List A} {l' : List B} (h : Forall₂ r l l') : Option.Rel r l.getLast? l'.getLast? := by
  induction h with
  | nil => exact .none
  | @cons a b l l' hab hl ih =>
    cases hl with
    | nil => exact .some hab
    | cons h2 hl2 => simpa [getLast?_cons_cons] using ih

theorem f2_getD {l : List A} {l' : List B} (h : Forall₂ r l l') {x : A} {y : B} (hx : r x y) : ∀ i, r (l.getD i x) (l'.getD i y) := by
  induction h with
  | nil => intro i; simpa using hx
  | cons hab _ ih =>
    intro i
    cases i with
    | zero => simpa using hab
    | succ i => simpa using ih i

theorem f2_foldl {C D : Type} {t : C → D → Prop} {g : C → A → C} {g' : D → B → D} (hg : ∀ {x x' y y'}, t x x' → r y y' → t (g x y) (g' x' y'))
    {l : List A} {l' : List B} (h : Forall₂ r l l') : ∀ {c : C} {d : D}, t c d → t (l.foldl g c) (l'.foldl g' d) := by
  induction h with
  | nil => intro c d h; exact h
  | cons hab _ ih => intro c d h; exact ih (hg h hab)

theorem f2_foldlM {C D : Type} {t : C → D → Prop} {g : C → A → Res C} {g' : D → B → Res D}
    (hg : ∀ {x x' y y'}, t x x' → r y y' → Res.Rel t (g x y) (g' x' y')) {l : List A} {l' : List B} (h : Forall₂ r l l') :
    ∀ {c : C} {d : D}, t c d → Res.Rel t (l.foldlM g c) (l'.foldlM g' d) := by
  induction h with
  | nil => intro c d h; exact h
  | cons hab _ ih =>
    intro c d h
    rw [List.foldlM_cons, List.foldlM_cons]
    exact Res.Rel.bind (hg h hab) fun _ _ h => ih h

theorem f2_mapM {C D : Type} {t : C → D → Prop} {g : A → Res C} {g' : B → Res D} (hg : ∀ {x x'}, r x x' → Res.Rel t (g x) (g' x')) {l : List A}
    {l' : List B} (h : Forall₂ r l l') : Res.Rel (Forall₂ t) (l.mapM g) (l'.mapM g') := by
  induction h with
  | nil => rw [List.mapM_nil, List.mapM_nil]; exact rel_ok .nil
  | cons hab _ ih =>
    rw [List.mapM_cons, List.mapM_cons]
    exact Res.Rel.bind (hg hab) fun _ _ h => Res.Rel.bind ih fun _ _ h2 => rel_ok (.cons h h2)

theorem f2_filterMap {C D : Type} {t : C → D → Prop} {g : A → Option C} {g' : B → Option D} (hg : ∀ {x x'}, r x x' → Option.Rel t (g x) (g' x'))
    {l : List A} {l' : List B} (h : Forall₂ r l l') : Forall₂ t (l.filterMap g) (l'.filterMap g') := by
  induction h with
  | nil => exact .nil
  | @cons a b l l' hab _ ih =>
    rw [filterMap_cons, filterMap_cons]
    cases ha : g a <;> cases hb : g' b <;> have h2 := hg hab <;> rw [ha, hb] at h2 <;> cases h2
    · exact ih
    · rename_i h3; exact .cons h3 ih

theorem f2_zipIdx {l : List A} {l' : List B} (h : Forall₂ r l l') :
    ∀ n, Forall₂ (fun e e' => r e.1 e'.1 ∧ e.2 = e'.2) (l.zipIdx n) (l'.zipIdx n) := by
  induction h with
  | nil => intro n; exact .nil
  | cons hab _ ih => intro n; rw [zipIdx_cons, zipIdx_cons]; exact .cons ⟨hab, rfl⟩ (ih _)

theorem f2_beq {C D : Type} {t : C → D → Prop} [BEq C] [BEq D] (hb : ∀ {x y x' y'}, t x y → t x' y' → (x == x') = (y == y')) {l : List C}
    {m : List D} (h : Forall₂ t l m) : ∀ {l' : List C} {m' : List D}, Forall₂ t l' m' → (l == l') = (m == m') := by
  induction h with
  | nil => intro l' m' h; cases h <;> rfl
  | cons hab hl ih =>
    intro l' m' h
    cases h with
    | nil => rfl
    | cons h1 h2 => rw [List.cons_beq_cons, List.cons_beq_cons, hb hab h1, ih h2]

theorem sliceFrom_rel {l : List A} {l' : List B} (h : Forall₂ r l l') (i : Nat) : Res.Rel (Forall₂ r) (sliceFrom l i) (sliceFrom l' i) := by
  unfold sliceFrom
  rw [h.length_eq]
  split
  · exact rel_ok (forall₂_drop _ h)
  · trivial

theorem sliceRange_rel {l : List A} {l' : List B} (h : Forall₂ r l l') (i j : Nat) :
    Res.Rel (Forall₂ r) (sliceRange l i j) (sliceRange l' i j) := by
  unfold sliceRange
  rw [h.length_eq]
  split
  · exact rel_ok (forall₂_drop _ (forall₂_take _ h))
  · trivial

theorem f2_of_map (φ : A → B) (l : List A) : Forall₂ (fun x y => φ x = y) l (l.map φ) := by
  induction l with
  | nil => exact .nil
  | cons a l ih => exact .cons rfl ih

theorem map_of_f2 {φ : A → B} {l : List A} {l' : List B} (h : Forall₂ (fun x y => φ x = y) l l') : l.map φ = l' := by
  induction h with
  | nil => rfl
  | cons hab _ ih => rw [map_cons, hab, ih]

section
variable [Zero A] [NumZero A] [One A] [Neg A] [Add A] [Sub A] [Mul A] [Zero B] [NumZero B] [One B] [Neg B] [Add B] [Sub B] [Mul B]
variable (hr : Alike r)
include hr

theorem f2_dropWhile {l : List A} {l' : List B} (h : Forall₂ r l l') : Forall₂ r (l.dropWhile isZero) (l'.dropWhile isZero) := by
  induction h with
  | nil => exact .nil
  | @cons a a' t t' hab hl ih =>
    rw [dropWhile_cons, dropWhile_cons, hr.isZero hab]
    split
    · exact ih
    · exact .cons hab hl

theorem fnz_rel {l : List A} {l' : List B} (h : Forall₂ r l l') : firstNonzeroIndex l = firstNonzeroIndex l' := by
  have h1 := firstNonzeroIndex_add l
  have h2 := firstNonzeroIndex_add l'
  have h3 := (f2_dropWhile hr h).length_eq
  have h4 := h.length_eq
  omega

theorem new_rel {l : List A} {l' : List B} (h : Forall₂ r l l') : (Poly.new l).Alike r (Poly.new l') := by
  unfold Poly.Alike
  rw [new_terms, new_terms]
  exact f2_dropWhile hr h

theorem firstTerm_rel {l : List A} {l' : List B} (h : Forall₂ r l l') :
    (firstTerm l = .zeroTerm ∧ firstTerm l' = .zeroTerm) ∨
    ∃ c c' d, firstTerm l = .term c d ∧ firstTerm l' = .term c' d ∧ r c c' ∧ isZero c = false := by
  rw [firstTerm_eq, firstTerm_eq]
  have h2 := f2_dropWhile hr h
  generalize l'.dropWhile isZero = m at h2
  cases e : l.dropWhile isZero with
  | nil => rw [e] at h2; cases h2; exact .inl ⟨rfl, rfl⟩
  | cons v vs =>
    rw [e] at h2
    cases h2 with
    | cons hab hl => exact .inr ⟨_, _, _, rfl, by rw [hl.length_eq], hab, dropWhile_head_not e⟩

theorem degree_rel {l : List A} {l' : List B} (h : Forall₂ r l l') : denseDegree l = denseDegree l' := by
  unfold denseDegree
  rw [fnz_rel hr h, h.length_eq]

theorem termNew_rel {c : A} {c' : B} (h : r c c') (d : Nat) : (Term.new c d).Alike r (Term.new c' d) := by
  unfold Term.new
  rw [hr.isZero h]
  split
  · trivial
  · exact ⟨h, rfl⟩

theorem termWithDeg_rel {l : List A} {l' : List B} (h : Forall₂ r l l') (d : Nat) : (termWithDeg l d).Alike r (termWithDeg l' d) := by
  unfold termWithDeg
  rw [h.length_eq]
  split
  · exact termNew_rel hr (f2_getD h hr.zero _) _
  · trivial

theorem iter_rel {p : Poly A} {q : Poly B} (h : p.Alike r q) : termsAlike r p.orderedTermIter q.orderedTermIter := by
  unfold Poly.orderedTermIter
  simp only
  rw [fnz_rel hr h]
  have h2 := forall₂_drop (firstNonzeroIndex q.terms) h
  rw [h2.length_eq]
  refine f2_filterMap ?_ (f2_zipIdx h2 0)
  rintro ⟨a, i⟩ ⟨b, _⟩ ⟨hab, rfl⟩
  simp only at hab
  simp only [hr.isZero hab]
  split
  · exact .none
  · exact .some ⟨hab, rfl⟩

theorem eval_rel {p : Poly A} {q : Poly B} (h : p.Alike r q) {x : A} {y : B} (hx : r x y) : r (p.eval x) (q.eval y) := by
  unfold Poly.eval
  have h1 := f2_getLast? h
  cases e : p.terms.getLast? <;> cases e' : q.terms.getLast? <;> rw [e, e'] at h1 <;> cases h1
  · exact hr.zero
  · rename_i hl
    simp only
    rw [hr.isZero hx]
    split
    · exact hl
    · exact hr.add (f2_foldl (r := r) (t := r) (fun h h' => hr.mul (hr.add h h') hx) (f2_dropLast h) hr.zero) hl

theorem addTerm_rel {p : Poly A} {q : Poly B} (h : p.Alike r q) {c : A} {c' : B} (hc : r c c') (d : Nat) :
    (p.addTerm c d).Alike r (q.addTerm c' d) := by
  unfold Poly.addTerm Poly.Alike
  simp only [h.length_eq]
  have h2 : Forall₂ r (if q.terms.length < d + 1 then replicate (d + 1 - q.terms.length) 0 ++ p.terms else p.terms)
      (if q.terms.length < d + 1 then replicate (d + 1 - q.terms.length) 0 ++ q.terms else q.terms) := by
    split
    · exact f2_append (f2_replicate _ hr.zero) h
    · exact h
  rw [h2.length_eq]
  exact f2_modify h2 (fun _ _ h => hr.add h hc) _

theorem trySubTerm_rel [CanNegate A] [CanNegate B] (hn : CanNegate.canNegate A = CanNegate.canNegate B) {p : Poly A} {q : Poly B}
    (h : p.Alike r q) {c : A} {c' : B} (hc : r c c') (d : Nat) :
    (p.trySubTerm c d).1.Alike r (q.trySubTerm c' d).1 ∧ (p.trySubTerm c d).2 = (q.trySubTerm c' d).2 := by
  unfold Poly.trySubTerm
  rw [h.length_eq, hn]
  have h2 : Forall₂ r (replicate (d + 1 - q.terms.length) 0 ++ p.terms) (replicate (d + 1 - q.terms.length) 0 ++ q.terms) :=
    f2_append (f2_replicate _ hr.zero) h
  split
  · split
    · exact ⟨h, rfl⟩
    · refine ⟨?_, rfl⟩
      simp only
      rw [h2.length_eq]
      exact f2_modify h2 (fun _ _ h => hr.sub h hc) _
  · exact ⟨f2_modify h (fun _ _ h => hr.sub h hc) _, rfl⟩

theorem sliceMul_rel {l m : List A} {l' m' : List B} (h : Forall₂ r l l') (hm : Forall₂ r m m') :
    Res.Rel (Forall₂ r) (sliceMul l m) (sliceMul l' m') := by
  have loop : ∀ {l : List A} {l' : List B}, Forall₂ r l l' → ∀ {m : List A} {m' : List B}, Forall₂ r m m' → ∀ i {t : List A} {t' : List B},
      Forall₂ r t t' → Res.Rel (Forall₂ r) (sliceMulLoop l m i t) (sliceMulLoop l' m' i t') := by
    intro l l' hl m m' hm
    induction hm with
    | nil => intro i t t' ht; exact ht
    | cons hab _ ih =>
      intro i t t' ht
      unfold sliceMulLoop sliceMulStep
      rw [hr.isZero hab]
      split
      · exact ih _ ht
      · refine Res.Rel.bind (P := Forall₂ r) (Res.Rel.bind (sliceFrom_rel ht i) fun x y hxy => rel_ok ?_) fun _ _ h => ih _ h
        exact f2_append (forall₂_take _ ht) (f2_zipMut (r := r) (t := r) (fun {_ _ _ _} h1 h2 => hr.add h1 (hr.mul hab h2)) hxy hl)
  unfold sliceMul
  rw [fnz_rel hr h, fnz_rel hr hm]
  refine Res.Rel.bind (sliceFrom_rel hm _) fun x y hxy => Res.Rel.bind (sliceFrom_rel h _) fun u v huv => ?_
  rw [hxy.length_eq, huv.length_eq]
  exact bind_same _ fun n => loop huv hxy 0 (f2_replicate _ hr.zero)

theorem mul_rel {p p' : Poly A} {q q' : Poly B} (h : p.Alike r q) (h' : p'.Alike r q') : Res.Rel (Poly.Alike r) (p.mul p') (q.mul q') :=
  Res.Rel.bind (sliceMul_rel hr h h') fun _ _ h => rel_ok h

theorem mulRef_rel {p p' : Poly A} {q q' : Poly B} (h : p.Alike r q) (h' : p'.Alike r q') :
    Res.Rel (Poly.Alike r) (p.mulRef p') (q.mulRef q') :=
  Res.Rel.bind (sliceMul_rel hr h h') fun _ _ h => rel_ok (new_rel hr h)

theorem pow_rel (n : Nat) : ∀ {p : Poly A} {q : Poly B}, p.Alike r q → Res.Rel (Poly.Alike r) (p.pow n) (q.pow n) := by
  induction n using Nat.strong_induction_on with
  | _ n ih =>
    intro p q h
    unfold Poly.pow
    split
    · exact rel_ok (f2_replicate 1 hr.one)
    split
    · exact rel_ok (new_rel hr h)
    split
    · exact mulRef_rel hr h h
    split
    · exact Res.Rel.bind (ih _ (by omega) h) fun _ _ h => ih 2 (by omega) h
    · exact Res.Rel.bind (ih _ (by omega) h) fun _ _ h' => mulRef_rel hr h h'

theorem neg_rel {p : Poly A} {q : Poly B} (h : p.Alike r q) : p.neg.Alike r q.neg := f2_map (r := r) (t := r) hr.neg h

theorem sub_rel {p p' : Poly A} {q q' : Poly B} (h : p.Alike r q) (h' : p'.Alike r q') : Res.Rel (Poly.Alike r) (p.sub p') (q.sub q') := by
  unfold Poly.sub
  rw [h.length_eq, h'.length_eq]
  split
  · exact rel_ok (f2_append (f2_map (r := r) (t := r) hr.neg (forall₂_take _ h')) (f2_zipMut (r := r) (t := r) (fun h1 h2 => hr.sub h2 h1) (forall₂_drop _ h') h))
  · exact Res.Rel.bind (sliceFrom_rel h _) fun _ _ h2 => rel_ok (f2_append (forall₂_take _ h) (f2_zipMut (r := r) (t := r) hr.sub h2 h'))

theorem subRef_rel {p p' : Poly A} {q q' : Poly B} (h : p.Alike r q) (h' : p'.Alike r q') :
    Res.Rel (Poly.Alike r) (p.subRef p') (q.subRef q') := by
  unfold Poly.subRef
  rw [h.length_eq, h'.length_eq]
  split
  · exact rel_ok (f2_append (f2_map (r := r) (t := r) hr.neg (forall₂_take _ h')) (f2_zipMut (r := r) (t := r) hr.sub h (forall₂_drop _ h')))
  · exact Res.Rel.bind (sliceFrom_rel h _) fun _ _ h2 => rel_ok (f2_append (forall₂_take _ h) (f2_zipMut (r := r) (t := r) hr.sub h2 h'))

theorem add_rel {p p' : Poly A} {q q' : Poly B} (h : p.Alike r q) (h' : p'.Alike r q') : Res.Rel (Poly.Alike r) (p.add p') (q.add q') := by
  unfold Poly.add
  rw [h.length_eq, h'.length_eq]
  split
  all_goals
    rename_i hs
    split at hs
    · cases hs
      split
      rename_i hs2
      rw [if_pos (by assumption)] at hs2
      cases hs2
      rw [h.length_eq, h'.length_eq]
      exact Res.Rel.bind (sliceFrom_rel h' _) fun _ _ h2 => rel_ok (new_rel hr (f2_append (forall₂_take _ h') (f2_zipMut (r := r) (t := r) hr.add h2 h)))
    · cases hs
      split
      rename_i hs2
      rw [if_neg (by assumption)] at hs2
      cases hs2
      rw [h.length_eq, h'.length_eq]
      exact Res.Rel.bind (sliceFrom_rel h _) fun _ _ h2 => rel_ok (new_rel hr (f2_append (forall₂_take _ h) (f2_zipMut (r := r) (t := r) hr.add h2 h')))

theorem addAssign_rel {p p' : Poly A} {q q' : Poly B} (h : p.Alike r q) (h' : p'.Alike r q') :
    Res.Rel (Poly.Alike r) (p.addAssign p') (q.addAssign q') := by
  unfold Poly.addAssign
  rw [h.length_eq, h'.length_eq]
  split
  · exact Res.Rel.bind (sliceFrom_rel h' _) fun _ _ h2 => rel_ok (f2_append (forall₂_take _ h') (f2_zipMut (r := r) (t := r) hr.add h2 h))
  · exact Res.Rel.bind (sliceFrom_rel h _) fun _ _ h2 => rel_ok (f2_append (forall₂_take _ h) (f2_zipMut (r := r) (t := r) hr.add h2 h'))

theorem mulScalar_rel {p : Poly A} {q : Poly B} (h : p.Alike r q) {c : A} {c' : B} (hc : r c c') : (p.mulScalar c).Alike r (q.mulScalar c') :=
  new_rel hr (f2_map (fun h => hr.mul h hc) h)

theorem mulAssignScalar_rel {p : Poly A} {q : Poly B} (h : p.Alike r q) {c : A} {c' : B} (hc : r c c') :
    (p.mulAssignScalar c).Alike r (q.mulAssignScalar c') := f2_map (fun h => hr.mul h hc) h

theorem shlPos_rel {p : Poly A} {q : Poly B} (h : p.Alike r q) (k : Nat) : Res.Rel (Poly.Alike r) (p.shlPos k) (q.shlPos k) := by
  unfold Poly.shlPos
  rw [fnz_rel hr h]
  exact Res.Rel.bind (sliceFrom_rel h _) fun _ _ h2 => rel_ok (f2_append h2 (f2_replicate _ hr.zero))

theorem shrPos_rel {p : Poly A} {q : Poly B} (h : p.Alike r q) (k : Nat) : Res.Rel (Poly.Alike r) (p.shrPos k) (q.shrPos k) := by
  unfold Poly.shrPos
  simp only
  rw [fnz_rel hr h, h.length_eq]
  split
  · exact rel_ok (Forall₂.nil)
  · exact Res.Rel.bind (sliceRange_rel h _ _) fun _ _ h2 => rel_ok h2

theorem shl_rel {p : Poly A} {q : Poly B} (h : p.Alike r q) (k : Int) : Res.Rel (Poly.Alike r) (p.shl k) (q.shl k) := by
  unfold Poly.shl
  split
  · exact bind_same _ fun n => shrPos_rel hr h n
  · exact shlPos_rel hr h _

theorem shr_rel {p : Poly A} {q : Poly B} (h : p.Alike r q) (k : Int) : Res.Rel (Poly.Alike r) (p.shr k) (q.shr k) := by
  unfold Poly.shr
  split
  · exact bind_same _ fun n => shlPos_rel hr h n
  · exact shrPos_rel hr h _

omit [NumZero A] [One A] [Neg A] [Add A] [Sub A] [Mul A] [NumZero B] [One B] [Neg B] [Add B] [Sub B] [Mul B] [Zero A] [Zero B] hr in
theorem shrAssignPos_rel {p : Poly A} {q : Poly B} (h : p.Alike r q) (k : Nat) : Res.Rel (Poly.Alike r) (p.shrAssignPos k) (q.shrAssignPos k) := by
  unfold Poly.shrAssignPos
  rw [h.length_eq]
  split
  · exact rel_ok (Forall₂.nil)
  · exact Res.Rel.bind (sliceRange_rel h _ _) fun _ _ h2 => rel_ok h2

theorem shlAssign_rel {p : Poly A} {q : Poly B} (h : p.Alike r q) (k : Int) : Res.Rel (Poly.Alike r) (p.shlAssign k) (q.shlAssign k) := by
  unfold Poly.shlAssign
  split
  · exact bind_same _ fun n => shrAssignPos_rel h n
  · exact rel_ok (f2_append h (f2_replicate _ hr.zero))

theorem shrAssign_rel {p : Poly A} {q : Poly B} (h : p.Alike r q) (k : Int) : Res.Rel (Poly.Alike r) (p.shrAssign k) (q.shrAssign k) := by
  unfold Poly.shrAssign
  split
  · exact bind_same _ fun n => rel_ok (f2_append h (f2_replicate _ hr.zero))
  · exact shrAssignPos_rel h _

section Div
variable [RDiv A] [RDiv B] (hd : AlikeDiv r)
include hd

omit [RDiv A] [RDiv B] hd in
theorem vecSub_rel {l m : List A} {l' m' : List B} (h : Forall₂ r l l') (hm : Forall₂ r m m') (d e : Nat) {c : A} {c' : B} (hc : r c c') :
    Res.Rel (Forall₂ r) (vecSubWScale l d m e c) (vecSubWScale l' d m' e c') := by
  unfold vecSubWScale
  rw [h.length_eq, hm.length_eq]
  refine bind_same _ fun _ => bind_same _ fun i => Res.Rel.bind (sliceFrom_rel h _) fun _ _ h2 => bind_same _ fun _ => bind_same _ fun _ =>
    Res.Rel.bind (sliceFrom_rel hm _) fun _ _ h3 => rel_ok ?_
  exact f2_append (forall₂_take _ h) (f2_zipMut (r := r) (t := r) (fun h1 h2 => hr.sub h1 (hr.mul h2 hc)) h2 h3)

theorem divScalar_rel {p : Poly A} {q : Poly B} (h : p.Alike r q) {c : A} {c' : B} (hc : r c c') (hz : isZero c = false) :
    Res.Rel (Poly.Alike r) (p.divScalar c) (q.divScalar c') ∧ Res.Rel (Poly.Alike r) (p.divAssignScalar c) (q.divAssignScalar c') :=
  ⟨Res.Rel.bind (f2_mapM (fun h => hd h hc hz) h) fun _ _ h => rel_ok (new_rel hr h), Res.Rel.bind (f2_mapM (fun h => hd h hc hz) h) fun _ _ h => rel_ok h⟩

theorem divModLoop_rel {m : List A} {m' : List B} (hm : Forall₂ r m m') {f : A} {f' : B} (hf : r f f') (hz : isZero f = false) (e off : Nat) :
    ∀ (fuel : Nat) {c : A} {c' : B} (d : Nat) {t v : List A} {t' v' : List B}, r c c' → Forall₂ r t t' → Forall₂ r v v' →
    Res.Rel (fun a b => Forall₂ r a.1 b.1 ∧ Forall₂ r a.2 b.2) (Poly.divModLoop m f e off fuel c d t v) (Poly.divModLoop m' f' e off fuel c' d t' v')
  | 0, _, _, _, _, _, _, _, _, _, _ => trivial
  | fuel + 1, c, c', d, t, v, t', v', hc, ht, hv => by
    unfold Poly.divModLoop
    split
    · refine Res.Rel.bind (hd hc hf hz) fun x y hxy => Res.Rel.bind (vecSub_rel hr ht hm d e hxy) fun u w huw => bind_same _ fun i => ?_
      rw [hv.length_eq]
      split
      · have h2 := f2_set hv hxy i
        rcases firstTerm_rel hr huw with ⟨e1, e2⟩ | ⟨a, a', n, e1, e2, ha, _⟩
        · simp only [e1, e2]; exact ⟨h2, huw⟩
        · simp only [e1, e2]; exact divModLoop_rel hm hf hz e off fuel n ha huw h2
      · trivial
    · exact ⟨hv, ht⟩

theorem divMod_rel (fuel : Nat) {p p' : Poly A} {q q' : Poly B} (h : p.Alike r q) (h' : p'.Alike r q') :
    Res.Rel (fun a b => a.1.Alike r b.1 ∧ a.2.Alike r b.2) (p.divMod fuel p') (q.divMod fuel q') := by
  unfold Poly.divMod
  rcases firstTerm_rel hr h' with ⟨e1, e2⟩ | ⟨a, a', n, e1, e2, ha, hz⟩
  · simp only [e1, e2]; trivial
  · simp only [e1, e2]
    rcases firstTerm_rel hr h with ⟨e3, e4⟩ | ⟨b, b', k, e3, e4, hb, _⟩
    · simp only [e3, e4]; exact ⟨.nil, h⟩
    · simp only [e3, e4]
      split
      · exact ⟨.nil, h⟩
      · exact Res.Rel.bind (divModLoop_rel hr hd h' ha hz n k fuel k hb h (f2_replicate _ hr.zero)) fun _ _ h2 =>
          rel_ok (P := fun (a : Poly A × Poly A) (b : Poly B × Poly B) => a.1.Alike r b.1 ∧ a.2.Alike r b.2) ⟨new_rel hr h2.1, new_rel hr h2.2⟩

theorem floorDiv_rel (fuel : Nat) {p p' : Poly A} {q q' : Poly B} (h : p.Alike r q) (h' : p'.Alike r q') :
    Res.Rel (Poly.Alike r) (p.floorDiv fuel p') (q.floorDiv fuel q') :=
  Res.Rel.bind (divMod_rel hr hd fuel h h') fun _ _ h2 => rel_ok h2.1

theorem remLoop_rel {l m : List A} {l' m' : List B} (hl : Forall₂ r l l') (hm : Forall₂ r m m') {f : A} {f' : B} (hf : r f f')
    (hz : isZero f = false) (e : Nat) : ∀ (fuel : Nat) {c : A} {c' : B} (d : Nat) {t : List A} {t' : List B}, r c c' → Forall₂ r t t' →
    Res.Rel (Forall₂ r) (Poly.remLoop l m f e fuel c d t) (Poly.remLoop l' m' f' e fuel c' d t')
  | 0, _, _, _, _, _, _, _ => trivial
  | fuel + 1, c, c', d, t, t', hc, ht => by
    unfold Poly.remLoop
    split
    · refine Res.Rel.bind (vecSub_rel hr ht hm d e hc) fun u w huw => ?_
      rcases firstTerm_rel hr hl with ⟨e1, e2⟩ | ⟨a, a', n, e1, e2, ha, _⟩
      · simp only [e1, e2]; exact huw
      · simp only [e1, e2]
        exact Res.Rel.bind (hd ha hf hz) fun _ _ h => remLoop_rel hl hm hf hz e fuel n h huw
    · exact ht

theorem remAssignLoop_rel {m : List A} {m' : List B} (hm : Forall₂ r m m') {f : A} {f' : B} (hf : r f f')
    (hz : isZero f = false) (e : Nat) : ∀ (fuel : Nat) {c : A} {c' : B} (d : Nat) {t : List A} {t' : List B}, r c c' → Forall₂ r t t' →
    Res.Rel (Forall₂ r) (Poly.remAssignLoop m f e fuel c d t) (Poly.remAssignLoop m' f' e fuel c' d t')
  | 0, _, _, _, _, _, _, _ => trivial
  | fuel + 1, c, c', d, t, t', hc, ht => by
    unfold Poly.remAssignLoop
    split
    · refine Res.Rel.bind (vecSub_rel hr ht hm d e hc) fun u w huw => ?_
      rcases firstTerm_rel hr huw with ⟨e1, e2⟩ | ⟨a, a', n, e1, e2, ha, _⟩
      · simp only [e1, e2]; exact huw
      · simp only [e1, e2]
        exact Res.Rel.bind (hd ha hf hz) fun _ _ h => remAssignLoop_rel hm hf hz e fuel n h huw
    · exact ht

theorem rem_rel (fuel : Nat) {p p' : Poly A} {q q' : Poly B} (h : p.Alike r q) (h' : p'.Alike r q') :
    Res.Rel (Poly.Alike r) (p.rem fuel p') (q.rem fuel q') := by
  unfold Poly.rem
  rcases firstTerm_rel hr h' with ⟨e1, e2⟩ | ⟨a, a', n, e1, e2, ha, hz⟩
  · simp only [e1, e2]; trivial
  · simp only [e1, e2]
    rcases firstTerm_rel hr h with ⟨e3, e4⟩ | ⟨b, b', k, e3, e4, hb, _⟩
    · simp only [e3, e4]; exact h
    · simp only [e3, e4]
      split
      · exact h
      · exact Res.Rel.bind (hd hb ha hz) fun _ _ hc => Res.Rel.bind (remLoop_rel hr hd h h' ha hz n fuel k hc h) fun _ _ h2 => rel_ok (new_rel hr h2)

theorem remAssign_rel (fuel : Nat) {p p' : Poly A} {q q' : Poly B} (h : p.Alike r q) (h' : p'.Alike r q') :
    Res.Rel (Poly.Alike r) (p.remAssign fuel p') (q.remAssign fuel q') := by
  unfold Poly.remAssign
  rcases firstTerm_rel hr h' with ⟨e1, e2⟩ | ⟨a, a', n, e1, e2, ha, hz⟩
  · simp only [e1, e2]; trivial
  · simp only [e1, e2]
    rcases firstTerm_rel hr h with ⟨e3, e4⟩ | ⟨b, b', k, e3, e4, hb, _⟩
    · simp only [e3, e4]; exact h
    · simp only [e3, e4]
      split
      · exact h
      · exact Res.Rel.bind (hd hb ha hz) fun _ _ hc => Res.Rel.bind (remAssignLoop_rel hr hd h' ha hz n fuel k hc h) fun _ _ h2 => rel_ok h2

end Div

section Count
variable [FromUsizeCont A] [FromUsizeExact A] [FromUsizeCont B] [FromUsizeExact B] (hs : AlikeCount r s)
include hs

theorem derivative_rel {p : Poly A} {q : Poly B} (h : p.Alike r q) : Res.Rel (Poly.Alike r) p.derivative q.derivative := by
  have loop : ∀ {l : List A} {l' : List B}, Forall₂ r l l' → ∀ {d : A} {d' : B}, s d d' → Forall₂ r (Poly.derivLoop l d) (Poly.derivLoop l' d') := by
    intro l l' h
    induction h with
    | nil => intro d d' _; exact .nil
    | cons hab _ ih => intro d d' hd; exact .cons (hr.mul hab (hs.le (hs.pred hd))) (ih (hs.pred hd))
  unfold Poly.derivative
  simp only
  rw [fnz_rel hr h, h.length_eq]
  have h2 := forall₂_drop (firstNonzeroIndex q.terms) h
  have h1 := hs.cont (q.terms.length - firstNonzeroIndex q.terms)
  cases e : (tryFromCont (q.terms.length - firstNonzeroIndex q.terms) : Option A) <;>
    cases e' : (tryFromCont (q.terms.length - firstNonzeroIndex q.terms) : Option B) <;> rw [e, e'] at h1 <;> cases h1
  · trivial
  · rename_i hd
    simp only
    cases e3 : p.terms.drop (firstNonzeroIndex q.terms) <;> cases e4 : q.terms.drop (firstNonzeroIndex q.terms) <;> rw [e3, e4] at h2 <;> cases h2
    · exact rel_ok (Forall₂.nil)
    · rename_i h5 h6
      exact rel_ok (loop (f2_dropLast (.cons h5 h6)) hd)

theorem integral_rel [RDiv A] [RDiv B] (hd : AlikeCountDiv r s) {p : Poly A} {q : Poly B} (h : p.Alike r q) :
    Res.Rel (Poly.Alike r) p.integral q.integral := by
  have loop : ∀ {l : List A} {l' : List B}, Forall₂ r l l' → ∀ {d : A} {d' : B}, s d d' →
      Res.Rel (Forall₂ r) (Poly.integLoop l d) (Poly.integLoop l' d') := by
    intro l l' h
    induction h with
    | nil => intro d d' _; exact Forall₂.nil
    | cons hab _ ih =>
      intro d d' hdd
      exact Res.Rel.bind (hd hab hdd) fun _ _ h1 => Res.Rel.bind (ih (hs.pred hdd)) fun _ _ h2 => rel_ok (.cons h1 h2)
  unfold Poly.integral
  simp only
  rw [fnz_rel hr h, h.length_eq]
  have h2 := forall₂_drop (firstNonzeroIndex q.terms) h
  have h1 := hs.cont (q.terms.length - firstNonzeroIndex q.terms)
  cases e : (tryFromCont (q.terms.length - firstNonzeroIndex q.terms) : Option A) <;>
    cases e' : (tryFromCont (q.terms.length - firstNonzeroIndex q.terms) : Option B) <;> rw [e, e'] at h1 <;> cases h1
  · trivial
  · rename_i hd
    exact Res.Rel.bind (loop h2 hd) fun _ _ h3 => rel_ok (f2_append h3 (.cons hr.zero .nil))

end Count

end

/-! ## Sparse -/

/-- Entry lists related entry by entry. -/
def MapRel (r : A → B → Prop) (m : BMap A) (m' : BMap B) : Prop := Forall₂ (entryAlike r) m.entries m'.entries

theorem map_empty : MapRel r (BMap.empty : BMap A) (BMap.empty : BMap B) := Forall₂.nil

theorem map_insert {m : BMap A} {m' : BMap B} (h : MapRel r m m') (k : Nat) {v : A} {v' : B} (hv : r v v') :
    MapRel r (m.insert k v) (m'.insert k v') := by
  unfold MapRel BMap.insert
  simp only
  unfold MapRel at h
  generalize m.entries = l at h
  generalize m'.entries = l' at h
  induction h with
  | nil => exact .cons ⟨rfl, hv⟩ .nil
  | @cons a b l l' hab hl ih =>
    obtain ⟨a1, a2⟩ := a
    obtain ⟨b1, b2⟩ := b
    obtain ⟨rfl, h2⟩ := hab
    unfold BMap.insertList
    split
    · exact .cons ⟨rfl, hv⟩ (.cons ⟨rfl, h2⟩ hl)
    · split
      · exact .cons ⟨rfl, hv⟩ hl
      · exact .cons ⟨rfl, h2⟩ ih

theorem map_get {m : BMap A} {m' : BMap B} (h : MapRel r m m') (k : Nat) : Option.Rel r (m.get k) (m'.get k) := by
  unfold BMap.get
  unfold MapRel at h
  generalize m.entries = l at h
  generalize m'.entries = l' at h
  induction h with
  | nil => exact .none
  | @cons a b l l' hab hl ih =>
    obtain ⟨a1, a2⟩ := a
    obtain ⟨b1, b2⟩ := b
    obtain ⟨rfl, h2⟩ := hab
    unfold BMap.getList
    split
    · exact .some h2
    · exact ih

theorem map_upsert {m : BMap A} {m' : BMap B} (h : MapRel r m m') (k : Nat) {v : A} {v' : B} (hv : r v v') {g : A → A} {g' : B → B}
    (hg : ∀ x y, r x y → r (g x) (g' y)) : MapRel r (m.upsert k v g) (m'.upsert k v' g') := by
  unfold BMap.upsert
  have h1 := map_get h k
  cases e : m.get k <;> cases e' : m'.get k <;> rw [e, e'] at h1 <;> cases h1
  · exact map_insert h k hv
  · rename_i h2; exact map_insert h k (hg _ _ h2)

theorem map_foldl {C D : Type} {t : C → D → Prop} {g : BMap A → C → BMap A} {g' : BMap B → D → BMap B}
    (hg : ∀ m m' x y, MapRel r m m' → t x y → MapRel r (g m x) (g' m' y)) {l : List C} {l' : List D} (h : Forall₂ t l l') {m : BMap A} {m' : BMap B}
    (hm : MapRel r m m') : MapRel r (l.foldl g m) (l'.foldl g' m') :=
  f2_foldl (r := t) (t := MapRel r) (fun h1 h2 => hg _ _ _ _ h1 h2) h hm

theorem map_foldlM {C D : Type} {t : C → D → Prop} {g : BMap A → C → Res (BMap A)} {g' : BMap B → D → Res (BMap B)}
    (hg : ∀ m m' x y, MapRel r m m' → t x y → Res.Rel (MapRel r) (g m x) (g' m' y)) {l : List C} {l' : List D} (h : Forall₂ t l l') {m : BMap A}
    {m' : BMap B} (hm : MapRel r m m') : Res.Rel (MapRel r) (l.foldlM g m) (l'.foldlM g' m') :=
  f2_foldlM (r := t) (t := MapRel r) (fun h1 h2 => hg _ _ _ _ h1 h2) h hm

theorem s_shlPos {p : Sparse A} {q : Sparse B} (h : p.Alike r q) (k : Nat) : (p.shlPos k).Alike r (q.shlPos k) := by
  refine map_foldl (t := entryAlike r) ?_ h map_empty
  rintro m m' ⟨a, x⟩ ⟨b, y⟩ hm ⟨rfl, hxy⟩
  exact map_insert hm _ hxy

theorem s_shrPos {p : Sparse A} {q : Sparse B} (h : p.Alike r q) (k : Nat) : (p.shrPos k).Alike r (q.shrPos k) := by
  refine map_foldl (t := entryAlike r) ?_ h map_empty
  rintro m m' ⟨a, x⟩ ⟨b, y⟩ hm ⟨hab, hxy⟩
  cases hab
  simp only
  split
  · exact map_insert hm _ hxy
  · exact hm

theorem s_shl {p : Sparse A} {q : Sparse B} (h : p.Alike r q) (k : Int) : Res.Rel (Sparse.Alike r) (p.shl k) (q.shl k) := by
  unfold Sparse.shl
  split
  · exact bind_same _ fun n => rel_ok (s_shrPos h n)
  · exact rel_ok (s_shlPos h _)

theorem s_shr {p : Sparse A} {q : Sparse B} (h : p.Alike r q) (k : Int) : Res.Rel (Sparse.Alike r) (p.shr k) (q.shr k) := by
  unfold Sparse.shr
  split
  · exact bind_same _ fun n => rel_ok (s_shlPos h n)
  · exact rel_ok (s_shrPos h _)

section
variable [Zero A] [NumZero A] [One A] [Neg A] [Add A] [Sub A] [Mul A] [Zero B] [NumZero B] [One B] [Neg B] [Add B] [Sub B] [Mul B]
variable (hr : Alike r)
include hr

theorem s_degree {m : BMap A} {m' : BMap B} (h : MapRel r m m') : sparseDegree m = sparseDegree m' := by
  have loop : ∀ {l : List (Nat × A)} {l' : List (Nat × B)}, Forall₂ (entryAlike r) l l' → ∀ {c : A} {c' : B} (d : Nat), r c c' →
      r (sparseDegreeLoop l (c, d)).1 (sparseDegreeLoop l' (c', d)).1 ∧ (sparseDegreeLoop l (c, d)).2 = (sparseDegreeLoop l' (c', d)).2 := by
    intro l l' h
    induction h with
    | nil => intro c c' d hc; exact ⟨hc, rfl⟩
    | @cons a b l l' hab hl ih =>
      intro c c' d hc
      obtain ⟨a1, a2⟩ := a
      obtain ⟨b1, b2⟩ := b
      obtain ⟨e, h2⟩ := hab
      simp only at e h2
      subst e
      unfold sparseDegreeLoop
      rw [hr.isZero h2]
      split
      · exact ih _ h2
      · exact ih _ hc
  unfold sparseDegree
  unfold MapRel at h
  cases e : m.entries <;> cases e' : m'.entries <;> rw [e, e'] at h
  · cases h
  · cases h
  · rename_i a l b l'
    obtain ⟨h1, h2⟩ := List.forall₂_cons.1 h
    obtain ⟨a1, a2⟩ := a
    obtain ⟨b1, b2⟩ := b
    obtain ⟨e, h3⟩ := h1
    simp only at e h3
    subst e
    have := loop h2 a1 h3
    simp only
    rw [hr.isZero this.1, this.2]

theorem s_firstTerm {m : BMap A} {m' : BMap B} (h : MapRel r m m') :
    (sparseFirstTerm m = .zeroTerm ∧ sparseFirstTerm m' = .zeroTerm) ∨
    ∃ c c' d, sparseFirstTerm m = .term c d ∧ sparseFirstTerm m' = .term c' d ∧ r c c' ∧ isZero c = false := by
  unfold sparseFirstTerm
  rw [s_degree hr h]
  cases sparseDegree m' with
  | negInf => exact .inl ⟨rfl, rfl⟩
  | num d =>
    simp only
    have h1 := map_get h d
    cases e : m.get d <;> cases e' : m'.get d <;> rw [e, e'] at h1 <;> cases h1
    · exact .inl ⟨rfl, rfl⟩
    · rename_i h2
      simp only
      unfold Term.new
      rw [hr.isZero h2]
      split
      · exact .inl ⟨rfl, rfl⟩
      · rename_i hz; exact .inr ⟨_, _, _, rfl, rfl, h2, by rw [hr.isZero h2]; simpa using hz⟩

theorem s_termWithDegree {p : Sparse A} {q : Sparse B} (h : p.Alike r q) (d : Nat) : (p.termWithDegree d).Alike r (q.termWithDegree d) := by
  unfold Sparse.termWithDegree
  have h1 := map_get (m := p.terms) (m' := q.terms) h d
  cases e : p.terms.get d <;> cases e' : q.terms.get d <;> rw [e, e'] at h1 <;> cases h1
  · trivial
  · rename_i h2; exact termNew_rel hr h2 d

theorem s_iter {p : Sparse A} {q : Sparse B} (h : p.Alike r q) : termsAlike r p.orderedTermIter q.orderedTermIter := by
  unfold Sparse.orderedTermIter
  refine f2_filterMap (r := entryAlike r) ?_ (List.rel_reverse h)
  rintro ⟨a, x⟩ ⟨b, y⟩ ⟨hab, hxy⟩
  simp only at hab hxy
  simp only [hr.isZero hxy]
  split
  · exact .none
  · exact .some ⟨hxy, hab⟩

theorem s_trim {p : Sparse A} {q : Sparse B} (h : p.Alike r q) : p.trim.Alike r q.trim := by
  unfold Sparse.trim Sparse.Alike BMap.retain
  simp only
  unfold Sparse.Alike at h
  generalize p.terms.entries = l at h
  generalize q.terms.entries = l' at h
  induction h with
  | nil => exact .nil
  | @cons a b l l' hab hl ih =>
    rw [filter_cons, filter_cons, hr.isZero hab.2]
    split
    · exact .cons hab ih
    · exact ih

theorem s_addTerm {p : Sparse A} {q : Sparse B} (h : p.Alike r q) {c : A} {c' : B} (hc : r c c') (d : Nat) :
    (p.addTerm c d).Alike r (q.addTerm c' d) := by
  unfold Sparse.addTerm
  rw [hr.isZero hc]
  split
  · exact h
  · exact map_upsert h d hc fun _ _ h => hr.add h hc

theorem s_trySubTerm [CanNegate A] [CanNegate B] (hn : CanNegate.canNegate A = CanNegate.canNegate B) {p : Sparse A} {q : Sparse B}
    (h : p.Alike r q) {c : A} {c' : B} (hc : r c c') (d : Nat) :
    (p.trySubTerm c d).1.Alike r (q.trySubTerm c' d).1 ∧ (p.trySubTerm c d).2 = (q.trySubTerm c' d).2 := by
  unfold Sparse.trySubTerm
  rw [hr.isZero hc, hn]
  split
  · exact ⟨h, rfl⟩
  · have h1 := map_get (m := p.terms) (m' := q.terms) h d
    cases e : p.terms.get d <;> cases e' : q.terms.get d <;> rw [e, e'] at h1 <;> cases h1
    · simp only
      split
      · exact ⟨h, rfl⟩
      · exact ⟨map_insert h d (hr.sub hr.zero hc), rfl⟩
    · rename_i h2; exact ⟨map_insert h d (hr.sub h2 hc), rfl⟩

theorem s_fromVec {l : List A} {l' : List B} (h : Forall₂ r l l') : (Sparse.fromVec l).Alike r (Sparse.fromVec l') := by
  unfold Sparse.fromVec
  cases h with
  | nil => exact Forall₂.nil
  | cons h1 h2 =>
    simp only [List.isEmpty_cons, Bool.false_eq_true, if_false]
    rw [(Forall₂.cons h1 h2).length_eq]
    refine map_foldl (t := fun e e' => r e.1 e'.1 ∧ e.2 = e'.2) ?_ (f2_zipIdx (.cons h1 h2) 0) map_empty
    rintro m m' ⟨x, i⟩ ⟨y, j⟩ hm ⟨hxy, hij⟩
    simp only at hxy hij
    subst hij
    simp only [hr.isZero hxy]
    split
    · exact map_insert hm _ hxy
    · exact hm

theorem s_eval [PowUsize A] [PowUsize B] {p : Sparse A} {q : Sparse B} (h : p.Alike r q) {x : A} {y : B}
    (hp : ∀ e ∈ p.terms.entries, r (upow x e.1) (upow y e.1)) : r (p.eval x) (q.eval y) := by
  unfold Sparse.eval
  unfold Sparse.Alike at h
  generalize p.terms.entries = l at h hp
  generalize q.terms.entries = l' at h
  have key : ∀ {a : A} {b : B}, r a b → r (l.foldl (fun sum e => sum + e.2 * upow x e.1) a) (l'.foldl (fun sum e => sum + e.2 * upow y e.1) b) := by
    induction h with
    | nil => intro a b h; exact h
    | cons hab _ ih =>
      intro a b h
      refine ih (fun e he => hp e (List.mem_cons_of_mem _ he)) (hr.add h (hr.mul hab.2 ?_))
      rw [← hab.1]
      exact hp _ (List.mem_cons_self ..)
  exact key hr.zero

theorem s_mapMul {m n : BMap A} {m' n' : BMap B} (h : MapRel r m m') (hn : MapRel r n n') : MapRel r (mapMul m n) (mapMul m' n') := by
  unfold mapMul
  refine map_foldl (t := entryAlike r) ?_ hn map_empty
  rintro u v ⟨d, x⟩ ⟨e, y⟩ huv ⟨hde, hxy⟩
  simp only at hde hxy
  subst hde
  simp only [hr.isZero hxy]
  split
  · exact huv
  · unfold mapMulInner
    refine map_foldl (t := entryAlike r) ?_ h huv
    rintro u v ⟨d', x'⟩ ⟨e', y'⟩ huv ⟨hde, hxy'⟩
    simp only at hde hxy'
    subst hde
    exact map_upsert huv _ (hr.mul hxy hxy') fun _ _ h => hr.add h (hr.mul hxy hxy')

theorem s_mul {p p' : Sparse A} {q q' : Sparse B} (h : p.Alike r q) (h' : p'.Alike r q') : (p.mul p').Alike r (q.mul q') := s_mapMul hr h h'

theorem s_pow (n : Nat) : ∀ {p : Sparse A} {q : Sparse B}, p.Alike r q → (p.pow n).Alike r (q.pow n) := by
  induction n using Nat.strong_induction_on with
  | _ n ih =>
    intro p q h
    unfold Sparse.pow
    split
    · exact map_insert map_empty 0 hr.one
    split
    · exact h
    split
    · exact s_mul hr h h
    split
    · exact ih 2 (by omega) (ih _ (by omega) h)
    · exact s_mul hr h (ih _ (by omega) h)

theorem s_neg {p : Sparse A} {q : Sparse B} (h : p.Alike r q) : p.neg.Alike r q.neg := by
  refine map_foldl (t := entryAlike r) ?_ h map_empty
  rintro m m' ⟨a, x⟩ ⟨b, y⟩ hm ⟨hab, hxy⟩
  cases hab
  exact map_insert hm _ (hr.neg hxy)

theorem s_sub {p p' : Sparse A} {q q' : Sparse B} (h : p.Alike r q) (h' : p'.Alike r q') : (p.sub p').Alike r (q.sub q') := by
  refine map_foldl (t := entryAlike r) ?_ h' h
  rintro m m' ⟨a, x⟩ ⟨b, y⟩ hm ⟨hab, hxy⟩
  cases hab
  exact map_upsert hm _ (hr.neg hxy) fun _ _ h => hr.sub h hxy

theorem s_subDense {p : Sparse A} {q : Sparse B} (h : p.Alike r q) {p' : Poly A} {q' : Poly B} (h' : p'.Alike r q') :
    (p.subDense p').Alike r (q.subDense q') := by
  refine map_foldl (t := fun (e : A × Nat) (e' : B × Nat) => r e.1 e'.1 ∧ e.2 = e'.2) ?_ (iter_rel hr h') h
  rintro m m' ⟨x, a⟩ ⟨y, b⟩ hm ⟨hxy, hab⟩
  cases hab
  exact map_upsert hm _ (hr.neg hxy) fun _ _ h => hr.sub h hxy

theorem s_addAssign {p p' : Sparse A} {q q' : Sparse B} (h : p.Alike r q) (h' : p'.Alike r q') : (p.addAssign p').Alike r (q.addAssign q') := by
  refine map_foldl (t := entryAlike r) ?_ h' h
  rintro m m' ⟨a, x⟩ ⟨b, y⟩ hm ⟨hab, hxy⟩
  cases hab
  exact map_upsert hm _ hxy fun _ _ h => hr.add h hxy

theorem s_add {p p' : Sparse A} {q q' : Sparse B} (h : p.Alike r q) (h' : p'.Alike r q') : (p.add p').Alike r (q.add q') := by
  refine map_foldl (t := entryAlike r) ?_ h (map_foldl (t := entryAlike r) ?_ h' map_empty)
  · rintro m m' ⟨a, x⟩ ⟨b, y⟩ hm ⟨hab, hxy⟩
    cases hab
    exact map_upsert hm _ hxy fun _ _ h => hr.add h hxy
  · rintro m m' ⟨a, x⟩ ⟨b, y⟩ hm ⟨hab, hxy⟩
    cases hab
    exact map_insert hm _ hxy

theorem s_mulScalar {p : Sparse A} {q : Sparse B} (h : p.Alike r q) {c : A} {c' : B} (hc : r c c') :
    (p.mulScalar c).Alike r (q.mulScalar c') := by
  refine map_foldl (t := entryAlike r) ?_ h map_empty
  rintro m m' ⟨a, x⟩ ⟨b, y⟩ hm ⟨hab, hxy⟩
  cases hab
  exact map_insert hm _ (hr.mul hxy hc)

theorem s_mulAssignScalar {p : Sparse A} {q : Sparse B} (h : p.Alike r q) {c : A} {c' : B} (hc : r c c') :
    (p.mulAssignScalar c).Alike r (q.mulAssignScalar c') :=
  f2_map (r := entryAlike r) (t := entryAlike r) (g := fun e => (e.1, e.2 * c)) (g' := fun e => (e.1, e.2 * c')) (fun h => ⟨h.1, hr.mul h.2 hc⟩) h

section Div
variable [RDiv A] [RDiv B] (hd : AlikeDiv r)
include hd

omit [One A] [Neg A] [Add A] [Sub A] [Mul A] [Zero B] [NumZero B] [One B] [Neg B] [Add B] [Sub B] [Mul B] hr in
theorem s_divScalar {p : Sparse A} {q : Sparse B} (h : p.Alike r q) {c : A} {c' : B} (hc : r c c') (hz : isZero c = false) :
    Res.Rel (Sparse.Alike r) (p.divScalar c) (q.divScalar c') ∧ Res.Rel (Sparse.Alike r) (p.divAssignScalar c) (q.divAssignScalar c') := by
  have step : ∀ (m : BMap A) (m' : BMap B) (x : Nat × A) (y : Nat × B), MapRel r m m' → entryAlike r x y →
      Res.Rel (MapRel r) (rdiv x.2 c >>= fun v => Res.ok (m.insert x.1 v)) (rdiv y.2 c' >>= fun v => Res.ok (m'.insert y.1 v)) := by
    rintro m m' ⟨a, x⟩ ⟨b, y⟩ hm ⟨hab, hxy⟩
    cases hab
    exact Res.Rel.bind (hd hxy hc hz) fun _ _ h => rel_ok (map_insert hm _ h)
  exact ⟨Res.Rel.bind (map_foldlM step h map_empty) fun _ _ h => rel_ok h, Res.Rel.bind (map_foldlM step h h) fun _ _ h => rel_ok h⟩

omit [RDiv A] [RDiv B] hd in
theorem s_mapSub {m n : BMap A} {m' n' : BMap B} (h : MapRel r m m') (hn : MapRel r n n') {c : A} {c' : B} (hc : r c c') :
    MapRel r (mapSubWScale m n c) (mapSubWScale m' n' c') := by
  refine map_foldl (t := entryAlike r) ?_ hn h
  rintro m m' ⟨a, x⟩ ⟨b, y⟩ hm ⟨hab, hxy⟩
  cases hab
  exact map_upsert hm _ (hr.mul (hr.neg hxy) hc) fun _ _ h => hr.sub h (hr.mul hxy hc)

theorem s_divModLoop {m : BMap A} {m' : BMap B} (hm : MapRel r m m') {f : A} {f' : B} (hf : r f f') (hz : isZero f = false) (e off : Nat) :
    ∀ (fuel : Nat) {c : A} {c' : B} (d : Nat) {t : BMap A} {t' : BMap B} {v : Sparse A} {v' : Sparse B}, r c c' → MapRel r t t' → v.Alike r v' →
    Res.Rel (fun a b => a.1.Alike r b.1 ∧ MapRel r a.2 b.2) (Sparse.divModLoop m f e off fuel c d t v) (Sparse.divModLoop m' f' e off fuel c' d t' v')
  | 0, _, _, _, _, _, _, _, _, _, _ => trivial
  | fuel + 1, c, c', d, t, t', v, v', hc, ht, hv => by
    unfold Sparse.divModLoop
    split
    · have h1 := s_mapSub hr ht hm hc
      have h2 := s_addTerm hr hv hc off
      simp only
      rcases s_firstTerm hr h1 with ⟨e1, e2⟩ | ⟨a, a', n, e1, e2, ha, _⟩
      · simp only [e1, e2]; exact ⟨h2, h1⟩
      · simp only [e1, e2]
        exact Res.Rel.bind (hd ha hf hz) fun _ _ h => s_divModLoop hm hf hz e off fuel n h h1 h2
    · exact ⟨hv, ht⟩

theorem s_divMod (fuel : Nat) {p p' : Sparse A} {q q' : Sparse B} (h : p.Alike r q) (h' : p'.Alike r q') :
    Res.Rel (fun a b => a.1.Alike r b.1 ∧ a.2.Alike r b.2) (p.divMod fuel p') (q.divMod fuel q') := by
  unfold Sparse.divMod
  rcases s_firstTerm hr (m := p'.terms) (m' := q'.terms) h' with ⟨e1, e2⟩ | ⟨a, a', n, e1, e2, ha, hz⟩
  · simp only [e1, e2]; trivial
  · simp only [e1, e2]
    rcases s_firstTerm hr (m := p.terms) (m' := q.terms) h with ⟨e3, e4⟩ | ⟨b, b', k, e3, e4, hb, _⟩
    · simp only [e3, e4]; exact ⟨.nil, h⟩
    · simp only [e3, e4]
      split
      · exact ⟨.nil, h⟩
      · exact Res.Rel.bind (hd hb ha hz) fun _ _ hc => Res.Rel.bind (s_divModLoop hr hd h' ha hz n (k - n) fuel k hc h (s_fromVec hr .nil)) fun _ _ h2 =>
          rel_ok (P := fun (a : Sparse A × Sparse A) (b : Sparse B × Sparse B) => a.1.Alike r b.1 ∧ a.2.Alike r b.2) h2

theorem s_remLoop {m : BMap A} {m' : BMap B} (hm : MapRel r m m') {f : A} {f' : B} (hf : r f f') (hz : isZero f = false) (e : Nat) :
    ∀ (fuel : Nat) {c : A} {c' : B} (d : Nat) {t : BMap A} {t' : BMap B}, r c c' → MapRel r t t' →
    Res.Rel (MapRel r) (Sparse.remLoop m f e fuel c d t) (Sparse.remLoop m' f' e fuel c' d t')
  | 0, _, _, _, _, _, _, _ => trivial
  | fuel + 1, c, c', d, t, t', hc, ht => by
    unfold Sparse.remLoop
    split
    · have h1 := s_mapSub hr ht hm hc
      simp only
      rcases s_firstTerm hr h1 with ⟨e1, e2⟩ | ⟨a, a', n, e1, e2, ha, _⟩
      · simp only [e1, e2]; exact h1
      · simp only [e1, e2]
        exact Res.Rel.bind (hd ha hf hz) fun _ _ h => s_remLoop hm hf hz e fuel n h h1
    · exact ht

theorem s_rem (fuel : Nat) {p p' : Sparse A} {q q' : Sparse B} (h : p.Alike r q) (h' : p'.Alike r q') :
    Res.Rel (Sparse.Alike r) (p.rem fuel p') (q.rem fuel q') := by
  unfold Sparse.rem
  rcases s_firstTerm hr (m := p'.terms) (m' := q'.terms) h' with ⟨e1, e2⟩ | ⟨a, a', n, e1, e2, ha, hz⟩
  · simp only [e1, e2]; trivial
  · simp only [e1, e2]
    rcases s_firstTerm hr (m := p.terms) (m' := q.terms) h with ⟨e3, e4⟩ | ⟨b, b', k, e3, e4, hb, _⟩
    · simp only [e3, e4]; exact h
    · simp only [e3, e4]
      split
      · exact h
      · exact Res.Rel.bind (hd hb ha hz) fun _ _ hc => Res.Rel.bind (s_remLoop hr hd h' ha hz n fuel k hc h) fun _ _ h2 => rel_ok h2

end Div

section Count
variable [FromUsizeCont A] [FromUsizeExact A] [FromUsizeCont B] [FromUsizeExact B] (hs : AlikeCount r s)
include hs

theorem s_derivative {p : Sparse A} {q : Sparse B} (h : p.Alike r q) : Res.Rel (Sparse.Alike r) p.derivative q.derivative := by
  unfold Sparse.derivative
  refine Res.Rel.bind (map_foldlM (r := r) (t := entryAlike r) ?_ h map_empty) fun _ _ h => rel_ok h
  rintro m m' ⟨a, x⟩ ⟨b, y⟩ hm ⟨hab, hxy⟩
  simp only at hab hxy
  subst hab
  simp only [hr.isZero hxy]
  split
  · have h1 := hs.exact a
    cases e : (tryFromExact a : Option A) <;> cases e' : (tryFromExact a : Option B) <;> rw [e, e'] at h1 <;> cases h1
    · trivial
    · rename_i h2; exact rel_ok (map_insert hm _ (hr.mul hxy (hs.le h2)))
  · exact rel_ok hm

omit [Zero A] [NumZero A] [Neg A] [Add A] [Mul A] [Zero B] [NumZero B] [Neg B] [Add B] [Mul B] hr in
theorem s_integral [RDiv A] [RDiv B] (hd : AlikeCountDiv r s) {p : Sparse A} {q : Sparse B} (h : p.Alike r q) :
    Res.Rel (Sparse.Alike r) p.integral q.integral := by
  unfold Sparse.integral
  refine Res.Rel.bind (map_foldlM (r := r) (t := entryAlike r) ?_ h map_empty) fun _ _ h => rel_ok h
  rintro m m' ⟨a, x⟩ ⟨b, y⟩ hm ⟨hab, hxy⟩
  simp only at hab hxy
  subst hab
  have h1 := hs.exact (a + 1)
  cases e : (tryFromExact (a + 1) : Option A) <;> cases e' : (tryFromExact (a + 1) : Option B) <;> rw [e, e'] at h1 <;> cases h1
  · trivial
  · rename_i h2; exact Res.Rel.bind (hd hxy h2) fun _ _ h => rel_ok (map_insert hm _ h)

end Count

theorem s_eq [BEq A] [BEq B] (hb : ∀ {x y x' y'}, r x y → r x' y' → (x == x') = (y == y')) {p p' : Sparse A} {q q' : Sparse B}
    (h : p.Alike r q) (h' : p'.Alike r q') : p.eq p' = q.eq q' := by
  have one : ∀ {m n : BMap A} {m' n' : BMap B}, MapRel r m m' → MapRel r n n' →
      (m.entries.all fun e => match n.get e.1 with | none => isZero e.2 | some v => e.2 == v) =
      (m'.entries.all fun e => match n'.get e.1 with | none => isZero e.2 | some v => e.2 == v) := by
    intro m n m' n' hm hn
    unfold MapRel at hm
    generalize m.entries = l at hm
    generalize m'.entries = l' at hm
    induction hm with
    | nil => rfl
    | @cons a b l l' hab _ ih =>
      rw [List.all_cons, List.all_cons, ih]
      congr 1
      obtain ⟨a1, a2⟩ := a
      obtain ⟨b1, b2⟩ := b
      obtain ⟨e, h2⟩ := hab
      simp only at e h2
      subst e
      have h1 := map_get hn a1
      simp only
      cases e : n.get a1 <;> cases e' : n'.get a1 <;> rw [e, e'] at h1 <;> cases h1
      · exact hr.isZero h2
      · rename_i h3; exact hb h2 h3
  unfold Sparse.eq
  exact congrArg₂ and (one (m := p.terms) (n := p'.terms) h h') (one (m := p'.terms) (n := p.terms) h' h)

end
end Par
end Rustnomial
