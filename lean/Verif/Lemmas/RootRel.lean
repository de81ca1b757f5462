import Verif.SpecRootSymmetry
import Verif.Lemmas.Dense
import Verif.Lemmas.DenseDiv

/-!
# Two runs of `find_roots` side by side

Lists related element by element stay related through `div`, `normalize` and the loop of `find_roots`.
-/

namespace Rustnomial
open List

theorem Res.Rel.bind {α β γ δ : Type} {P : α → β → Prop} {Q : γ → δ → Prop} {a : Res α} {b : Res β} {g : α → Res γ} {h : β → Res δ}
    (hab : Res.Rel P a b) (H : ∀ x y, P x y → Res.Rel Q (g x) (h y)) : Res.Rel Q (a >>= g) (b >>= h) := by
  cases a <;> cases b <;> first | exact H _ _ hab | exact hab.elim | trivial

theorem Res.Rel.imp {α β : Type} {P Q : α → β → Prop} {a : Res α} {b : Res β} (h : Res.Rel P a b) (H : ∀ x y, P x y → Q x y) :
    Res.Rel Q a b := by
  cases a <;> cases b <;> first | exact H _ _ h | exact h.elim | trivial

theorem Res.Rel.same {α : Type} {P : α → α → Prop} (h : ∀ x, P x x) (a : Res α) : Res.Rel P a a := by
  cases a <;> first | exact h _ | trivial

theorem Res.Rel.eq {α : Type} {a b : Res α} (h : Res.Rel Eq a b) : a = b := by
  cases a <;> cases b <;> first | exact congrArg _ h | exact h.elim | rfl

section
variable {N : Type} {R S : N → N → Prop}

theorem forall₂_set {l l' : List N} (h : Forall₂ R l l') {x x' : N} (hx : R x x') : ∀ i, Forall₂ R (l.set i x) (l'.set i x') := by
  induction h with
  | nil => intro i; simp
  | cons hab hl ih =>
    intro i
    cases i with
    | zero => exact .cons hx hl
    | succ i => exact .cons hab (ih i)

theorem forall₂_modify {l l' : List N} (h : Forall₂ R l l') {g g' : N → N} (hg : ∀ x x', R x x' → R (g x) (g' x')) :
    ∀ i, Forall₂ R (l.modify i g) (l'.modify i g') := by
  induction h with
  | nil => intro i; simp
  | cons hab hl ih =>
    intro i
    cases i with
    | zero => simpa using ⟨hg _ _ hab, hl⟩
    | succ i => simpa using ⟨hab, ih i⟩

theorem forall₂_replicate (n : Nat) {x x' : N} (h : R x x') : Forall₂ R (replicate n x) (replicate n x') := by
  induction n with
  | zero => exact .nil
  | succ n ih => exact .cons h ih

/-- What is used of two related runs: `R` relates coefficients, `S` quotients. -/
structure Respects [Zero N] [NumZero N] [One N] [Add N] [Sub N] [Mul N] [RDiv N] (R S : N → N → Prop) : Prop where
  zero : R 0 0
  isZero : ∀ {x x'}, R x x' → isZero x = isZero x'
  sub : ∀ {x x' s s'}, R x x' → R s s' → R (x - 1 * s) (x' - 1 * s')
  add : ∀ {x x' s s' r r'}, R x x' → R s s' → S r r' → R (x + r * s) (x' + r' * s')
  one : ∀ {x x'}, R x x' → ∃ q q', rdiv x 1 = .ok q ∧ rdiv x' 1 = .ok q' ∧ R q q' ∧ Rustnomial.isZero q = Rustnomial.isZero x
  quot : ∀ {x x' y y'}, R x x' → R y y' → Rustnomial.isZero y = false → ∃ q q', rdiv x y = .ok q ∧ rdiv x' y' = .ok q' ∧ S q q'
  self : ∀ {y q : N}, Rustnomial.isZero y = false → rdiv y y = .ok q → Rustnomial.isZero q = false

variable [Zero N] [NumZero N] [One N] [Add N] [Sub N] [Mul N] [RDiv N]

theorem forall₂_dropWhile (hR : Respects R S) {l l' : List N} (h : Forall₂ R l l') :
    Forall₂ R (l.dropWhile isZero) (l'.dropWhile isZero) := by
  induction h with
  | nil => exact .nil
  | @cons a a' t t' hab hl ih =>
    rw [dropWhile_cons, dropWhile_cons, hR.isZero hab]
    split
    · exact ih
    · exact .cons hab hl

theorem firstTerm_rel (hR : Respects R S) {l l' : List N} (h : Forall₂ R l l') :
    (firstTerm l = .zeroTerm ∧ firstTerm l' = .zeroTerm) ∨
    ∃ c c' d, firstTerm l = .term c d ∧ firstTerm l' = .term c' d ∧ R c c' ∧ isZero c = false := by
  rw [firstTerm_eq, firstTerm_eq]
  have h2 := forall₂_dropWhile hR h
  generalize l'.dropWhile isZero = m at h2
  cases e : l.dropWhile isZero with
  | nil => rw [e] at h2; cases h2; exact .inl ⟨rfl, rfl⟩
  | cons v vs =>
    rw [e] at h2
    cases h2 with
    | cons hab hl => exact .inr ⟨_, _, _, rfl, by rw [hl.length_eq], hab, dropWhile_head_not e⟩

/-- The first entry, if there is one, is not a zero. -/
def GoodHead (l : List N) : Prop := ∀ c, l.head? = some c → isZero c = false

theorem divLoop_rel (hR : Respects R S) {root root' : N} (hr : S root root') (off : Nat) : ∀ (fuel : Nat) {v v' d d' : List N} {c c' : N} {sd : Nat},
    Forall₂ R v v' → Forall₂ R d d' → R c c' → isZero c = false → (sd = off ∧ 1 ≤ sd ∨ GoodHead d) →
    Res.Rel (fun a b => Forall₂ R a b ∧ GoodHead a) (divLoop root off fuel v d c sd) (divLoop root' off fuel v' d' c' sd)
  | 0, _, _, _, _, _, _, _, _, _, _, _, _ => trivial
  | fuel + 1, v, v', d, d', c, c', sd, hv, hd, hc, hz, hg => by
    unfold divLoop
    split
    case isFalse h => exact ⟨hd, hg.resolve_left fun h' => h h'.2⟩
    case isTrue h =>
    obtain ⟨q, q', e1, e2, hq, hqz⟩ := hR.one hc
    rw [e1, e2, Res.ok_bind, Res.ok_bind, hv.length_eq]
    refine Res.Rel.bind (Res.Rel.same (P := Eq) (fun _ => rfl) _) ?_
    rintro l _ rfl
    refine Res.Rel.bind (Res.Rel.same (P := Eq) (fun _ => rfl) _) ?_
    rintro loc _ rfl
    split
    case isFalse => trivial
    have hv1 : Forall₂ R (v.modify loc (· - 1 * q)) (v'.modify loc (· - 1 * q')) := forall₂_modify hv (fun _ _ h => hR.sub h hq) _
    have hv2 := forall₂_modify hv1 (g := (· + root * q)) (g' := (· + root' * q')) (fun _ _ h => hR.add h hq hr) (loc + 1)
    cases hi : usub off sd with
    | panic => trivial
    | fuel => trivial
    | ok i =>
      simp only [Res.ok_bind]
      rw [hd.length_eq]
      split
      case isFalse => trivial
      have hd2 := forall₂_set hd hq i
      have hg2 : GoodHead (d.set i q) := by
        intro a ha
        cases d with
        | nil => simp at ha
        | cons y ys =>
          cases i with
          | zero => simp at ha; rw [← ha, hqz, hz]
          | succ i =>
            simp at ha
            rcases hg with ⟨rfl, _⟩ | hg
            · unfold usub at hi; simp at hi
            · exact hg a (by simpa using ha)
      rcases firstTerm_rel hR hv2 with ⟨f1, f2⟩ | ⟨cx, cx', dg, f1, f2, hcx, hzx⟩
      · rw [f1, f2]; exact ⟨hd2, hg2⟩
      · rw [f1, f2]; exact divLoop_rel hR hr off fuel hv2 hd2 hcx hzx (.inr hg2)

theorem divRoot_rel (hR : Respects R S) {root root' : N} (hr : S root root') (fuel : Nat) {v v' : List N} (hv : Forall₂ R v v') :
    Res.Rel (fun a b => Forall₂ R a b ∧ GoodHead a) (divRoot fuel v root) (divRoot fuel v' root') := by
  unfold divRoot
  have hnil : Forall₂ R ([] : List N) [] ∧ GoodHead ([] : List N) := ⟨.nil, by simp [GoodHead]⟩
  rcases firstTerm_rel hR hv with ⟨f1, f2⟩ | ⟨c, c', d, f1, f2, hc, hz⟩
  · rw [f1, f2]; exact hnil
  · rw [f1, f2]
    match d with
    | 0 => exact divLoop_rel hR hr 0 fuel hv .nil hc hz (.inr hnil.2)
    | 1 => exact hnil
    | d + 2 => exact divLoop_rel hR hr _ fuel hv (forall₂_replicate _ hR.zero) hc hz (.inl ⟨rfl, by omega⟩)

theorem mapM_quot (hR : Respects R S) {y y' : N} (hy : R y y') (hz : isZero y = false) {l l' : List N} (h : Forall₂ R l l') :
    Res.Rel (Forall₂ S) (l.mapM fun v => rdiv v y) (l'.mapM fun v => rdiv v y') := by
  induction h with
  | nil => exact .nil
  | @cons a a' t t' hab hl ih =>
    rw [mapM_cons, mapM_cons]
    obtain ⟨q, q', e1, e2, hq⟩ := hR.quot hab hy hz
    rw [e1, e2]
    simp only [Res.ok_bind]
    refine Res.Rel.bind ih fun x y hxy => ?_
    exact .cons hq hxy

theorem normalize_rel (hR : Respects R S) {l l' : List N} (h : Forall₂ R l l') (hg : GoodHead l) :
    Res.Rel (fun a b => Forall₂ S a b ∧ GoodHead a) (normalize l) (normalize l') := by
  unfold normalize
  cases h with
  | nil => exact ⟨.nil, by simp [GoodHead]⟩
  | @cons a a' t t' hab hl =>
    have hz : isZero a = false := hg a rfl
    have hz' : isZero a' = false := by rw [← hR.isZero hab, hz]
    have f1 : firstNonzeroIndex (a :: t) = 0 := by rw [firstNonzeroIndex_eq, findIdx_cons, hz]; rfl
    have f2 : firstNonzeroIndex (a' :: t') = 0 := by rw [firstNonzeroIndex_eq, findIdx_cons, hz']; rfl
    simp only [f1, f2, drop_zero, take_zero, nil_append]
    obtain ⟨q, q', e1, e2, hq⟩ := hR.quot hab hab hz
    rw [mapM_cons, mapM_cons, e1, e2]
    simp only [Res.ok_bind]
    refine Res.Rel.bind (P := fun x y => Forall₂ S x y ∧ GoodHead x) (Res.Rel.bind (mapM_quot hR hab hz hl) fun x y hxy => ?_) fun x y h => h
    exact ⟨.cons hq hxy, fun c hc => by cases hc; exact hR.self hz e1⟩

theorem deflate_rel (hR : Respects R S) {rnd eval eval' : N → N} [AbsLess N]
    (hpick : ∀ r r', S r r' → S (pickRoot rnd eval r) (pickRoot rnd eval' r')) (fuel : Nat) {ts ts' : List N} (ht : Forall₂ S ts ts') :
    ∀ {rs rs' v v' : List N}, Forall₂ S rs rs' → Forall₂ R v v' → (ts ≠ [] ∨ GoodHead v) →
    Res.Rel (fun a b => Forall₂ S a.1 b.1 ∧ Forall₂ R a.2 b.2 ∧ GoodHead a.2) (deflate rnd eval fuel ts rs v) (deflate rnd eval' fuel ts' rs' v') := by
  induction ht with
  | nil => intro rs rs' v v' hr hv hg; exact ⟨hr, hv, hg.resolve_left (by simp)⟩
  | @cons a a' t t' hab hl ih =>
    intro rs rs' v v' hr hv hg
    unfold deflate
    refine Res.Rel.bind (divRoot_rel hR (hpick _ _ hab) fuel hv) fun x y hxy => ?_
    exact ih (rel_append hr (.cons (hpick _ _ hab) .nil)) hxy.1 (.inr hxy.2)

theorem findRootsLoop_rel [AbsLess N] {oracle : List N → List N} (hS : Respects S S) {rnd eval eval' : N → N}
    (ho : ∀ l l', Forall₂ S l l' → Forall₂ S (oracle l) (oracle l'))
    (hpick : ∀ r r', S r r' → S (pickRoot rnd eval r) (pickRoot rnd eval' r')) (degree : Degree) (fuel0 : Nat) :
    ∀ (fuel : Nat) {R : N → N → Prop} {v v' nv nv' rs rs' : List N}, Respects R S → Forall₂ S v v' → Forall₂ R nv nv' → Forall₂ S rs rs' →
    Res.Rel (Roots.Rel S) (findRootsLoop oracle rnd eval degree fuel0 fuel v nv rs) (findRootsLoop oracle rnd eval' degree fuel0 fuel v' nv' rs')
  | 0, _, _, _, _, _, _, _, _, _, _, _ => trivial
  | fuel + 1, R, v, v', nv, nv', rs, rs', hR, hv, hnv, hrs => by
    unfold findRootsLoop
    have hsl : Res.Rel (Forall₂ S) (sliceFrom v 1) (sliceFrom v' 1) := by
      unfold sliceFrom
      rw [hv.length_eq]
      split
      · exact forall₂_drop 1 hv
      · trivial
    refine Res.Rel.bind hsl fun tl tl' htl => ?_
    have ht := ho _ _ htl
    generalize oracle tl = ts at ht
    generalize oracle tl' = ts' at ht
    have he : ts.isEmpty = ts'.isEmpty := by cases ht <;> rfl
    have hel : ∀ {R : N → N → Prop} {a b : List N}, Forall₂ R a b → a.isEmpty = b.isEmpty := fun h => by cases h <;> rfl
    simp only []
    rw [he]
    split
    case isTrue =>
      cases degree with
      | negInf => trivial
      | num x =>
        simp only [ht.length_eq, hel hrs]
        split
        · exact hrs
        · split
          · trivial
          · exact hrs
    case isFalse h0 =>
      have hne : ts ≠ [] := by rintro rfl; exact h0 he.symm
      refine Res.Rel.bind (deflate_rel hR hpick fuel0 ht hrs hnv (.inl hne)) ?_
      rintro ⟨r1, n1⟩ ⟨r2, n2⟩ ⟨h1, h2, h3⟩
      simp only at h1 h2 h3 ⊢
      rw [hel h1, hel h2]
      split
      · split
        · trivial
        · exact h1
      · refine Res.Rel.bind (normalize_rel hR h2 h3) ?_
        rintro m m' ⟨hm, hg⟩
        cases hm with
        | nil => trivial
        | @cons a a' t t' hab hl =>
          refine Res.Rel.bind (mapM_quot hS hab (hg a rfl) (.cons hab hl)) fun w w' hw => ?_
          exact findRootsLoop_rel hS ho hpick degree fuel0 fuel hS hw (.cons hab hl) h1

theorem fillValues_rel (hR : Respects R S) {lead lead' : N} (hl : R lead lead') (hz : isZero lead = false) (degree : Nat) {vals vals' : List (N × Nat)}
    (h : Forall₂ (fun a b => R a.1 b.1 ∧ a.2 = b.2) vals vals') : ∀ {v v' nv nv' : List N}, Forall₂ S v v' → Forall₂ R nv nv' →
    Res.Rel (fun a b => Forall₂ S a.1 b.1 ∧ Forall₂ R a.2 b.2) (fillValues lead degree vals v nv) (fillValues lead' degree vals' v' nv') := by
  induction h with
  | nil => intro v v' nv nv' hv hnv; exact ⟨hv, hnv⟩
  | @cons a a' t t' hab hl2 ih =>
    intro v v' nv nv' hv hnv
    obtain ⟨a, da⟩ := a
    obtain ⟨a', da'⟩ := a'
    obtain ⟨h1, h2⟩ := hab
    simp only at h1 h2
    subst h2
    unfold fillValues
    refine Res.Rel.bind (Res.Rel.same (P := Eq) (fun _ => rfl) _) ?_
    rintro i _ rfl
    rw [hv.length_eq, hnv.length_eq]
    split
    · obtain ⟨q, q', e1, e2, hq⟩ := hR.quot h1 hl hz
      rw [e1, e2]
      simp only [Res.ok_bind]
      exact ih (forall₂_set hv hq _) (forall₂_set hnv h1 _)
    · trivial

/-- Terms of the same degrees with related coefficients. -/
abbrev TermsRel (R : N → N → Prop) : List (N × Nat) → List (N × Nat) → Prop := Forall₂ (fun a b => R a.1 b.1 ∧ a.2 = b.2)

omit [NumZero N] [One N] [Add N] [Sub N] [Mul N] [RDiv N] in
theorem quadCoeffs_rel (h0 : R 0 0) {l l' : List (N × Nat)} (h : TermsRel R l l') :
    Res.Rel (fun a b => R a.1 b.1 ∧ R a.2 b.2) (quadCoeffs l) (quadCoeffs l') := by
  match l, l', h with
  | [], _, .nil => exact ⟨h0, h0⟩
  | [(x, 0)], [(y, _)], .cons ⟨h1, rfl⟩ .nil => exact ⟨h0, h1⟩
  | [(x, 1)], [(y, _)], .cons ⟨h1, rfl⟩ .nil => exact ⟨h1, h0⟩
  | [(x, d + 2)], [(y, _)], .cons ⟨h1, rfl⟩ .nil => trivial
  | (x, 0) :: _ :: _, (y, _) :: _ :: _, .cons ⟨h1, rfl⟩ (.cons _ _) => trivial
  | (x, d + 2) :: _ :: _, (y, _) :: _ :: _, .cons ⟨h1, rfl⟩ (.cons _ _) => trivial
  | [(x, 1), (u, 0)], [(y, _), (w, _)], .cons ⟨h1, rfl⟩ (.cons ⟨h2, rfl⟩ .nil) => exact ⟨h1, h2⟩
  | [(x, 1), (u, d + 1)], [(y, _), (w, _)], .cons ⟨h1, rfl⟩ (.cons ⟨h2, rfl⟩ .nil) => trivial
  | (x, 1) :: (u, 0) :: _ :: _, (y, _) :: (w, _) :: _ :: _, .cons ⟨h1, rfl⟩ (.cons ⟨h2, rfl⟩ (.cons _ _)) => trivial
  | (x, 1) :: (u, d + 1) :: _ :: _, (y, _) :: (w, _) :: _ :: _, .cons ⟨h1, rfl⟩ (.cons ⟨h2, rfl⟩ (.cons _ _)) => trivial

omit [NumZero N] [One N] [Add N] [Sub N] [Mul N] [RDiv N] in
theorem cubicCoeffs_rel (h0 : R 0 0) {l l' : List (N × Nat)} (h : TermsRel R l l') :
    Res.Rel (fun a b => R a.1 b.1 ∧ R a.2.1 b.2.1 ∧ R a.2.2 b.2.2) (cubicCoeffs l) (cubicCoeffs l') := by
  match l, l', h with
  | [], _, .nil => exact ⟨h0, h0, h0⟩
  | [(x, 0)], [(y, _)], .cons ⟨h1, rfl⟩ .nil => exact ⟨h0, h0, h1⟩
  | [(x, 1)], [(y, _)], .cons ⟨h1, rfl⟩ .nil => exact ⟨h0, h1, h0⟩
  | [(x, 2)], [(y, _)], .cons ⟨h1, rfl⟩ .nil => exact ⟨h1, h0, h0⟩
  | [(x, d + 3)], [(y, _)], .cons ⟨h1, rfl⟩ .nil => trivial
  | (x, 0) :: _ :: _, (y, _) :: _ :: _, .cons ⟨h1, rfl⟩ (.cons _ _) => trivial
  | (x, d + 3) :: _ :: _, (y, _) :: _ :: _, .cons ⟨h1, rfl⟩ (.cons _ _) => trivial
  | [(x, 1), (u, 0)], [(y, _), (w, _)], .cons ⟨h1, rfl⟩ (.cons ⟨h2, rfl⟩ .nil) => exact ⟨h0, h1, h2⟩
  | [(x, 1), (u, d + 1)], [(y, _), (w, _)], .cons ⟨h1, rfl⟩ (.cons ⟨h2, rfl⟩ .nil) => trivial
  | (x, 1) :: (u, 0) :: _ :: _, (y, _) :: (w, _) :: _ :: _, .cons ⟨h1, rfl⟩ (.cons ⟨h2, rfl⟩ (.cons _ _)) => trivial
  | (x, 1) :: (u, d + 1) :: _ :: _, (y, _) :: (w, _) :: _ :: _, .cons ⟨h1, rfl⟩ (.cons ⟨h2, rfl⟩ (.cons _ _)) => trivial
  | [(x, 2), (u, 0)], [(y, _), (w, _)], .cons ⟨h1, rfl⟩ (.cons ⟨h2, rfl⟩ .nil) => exact ⟨h1, h0, h2⟩
  | [(x, 2), (u, 1)], [(y, _), (w, _)], .cons ⟨h1, rfl⟩ (.cons ⟨h2, rfl⟩ .nil) => exact ⟨h1, h2, h0⟩
  | [(x, 2), (u, d + 2)], [(y, _), (w, _)], .cons ⟨h1, rfl⟩ (.cons ⟨h2, rfl⟩ .nil) => trivial
  | (x, 2) :: (u, 0) :: _ :: _, (y, _) :: (w, _) :: _ :: _, .cons ⟨h1, rfl⟩ (.cons ⟨h2, rfl⟩ (.cons _ _)) => trivial
  | (x, 2) :: (u, d + 2) :: _ :: _, (y, _) :: (w, _) :: _ :: _, .cons ⟨h1, rfl⟩ (.cons ⟨h2, rfl⟩ (.cons _ _)) => trivial
  | [(x, 2), (u, 1), (v, 0)], [(y, _), (w, _), (z, _)], .cons ⟨h1, rfl⟩ (.cons ⟨h2, rfl⟩ (.cons ⟨h3, rfl⟩ .nil)) => exact ⟨h1, h2, h3⟩
  | [(x, 2), (u, 1), (v, d + 1)], [(y, _), (w, _), (z, _)], .cons ⟨h1, rfl⟩ (.cons ⟨h2, rfl⟩ (.cons ⟨h3, rfl⟩ .nil)) => trivial
  | (x, 2) :: (u, 1) :: (v, 0) :: _ :: _, (y, _) :: (w, _) :: (z, _) :: _ :: _, .cons ⟨h1, rfl⟩ (.cons ⟨h2, rfl⟩ (.cons ⟨h3, rfl⟩ (.cons _ _))) => trivial
  | (x, 2) :: (u, 1) :: (v, d + 1) :: _ :: _, (y, _) :: (w, _) :: (z, _) :: _ :: _, .cons ⟨h1, rfl⟩ (.cons ⟨h2, rfl⟩ (.cons ⟨h3, rfl⟩ (.cons _ _))) => trivial

variable [AbsSqrt N] [Cbrt N] [IsPositive N] [Neg N] [NatCast N]

/-- What is used of the formulas for degrees 1, 2 and 3; `flip`: the quadratic formula gives its two roots in the other order. -/
structure Formulas (R S : N → N → Prop) (flip : Bool) : Prop where
  lin : ∀ {a a' b b'}, R a a' → R b b' → isZero a = false → Res.Rel S (rdiv (-b) a) (rdiv (-b') a')
  quad : ∀ {a a' b b' c c'}, R a a' → R b b' → R c c' → isZero a = false →
    Res.Rel (fun r r' => Roots.Rel S (if flip then r.swap else r) r') (trinomialRoots a b c) (trinomialRoots a' b' c')
  cub : ∀ {a a' b b' c c' d d'}, R a a' → R b b' → R c c' → R d d' → isZero a = false →
    Res.Rel (Roots.Rel S) (cubicRoots a b c d) (cubicRoots a' b' c' d')

/-- The degree of the first term. -/
def leadDegree : List (N × Nat) → Degree
  | [] => .negInf
  | t :: _ => .num t.2

theorem findRootsSpecial_rel (hR : Respects R S) (hS : Respects S S) {flip : Bool} (hF : Formulas R S flip) {l l' : List (N × Nat)} (h : TermsRel R l l')
    (hz : ∀ t ∈ l, isZero t.1 = false) :
    Res.Rel (fun o o' => (o = none ∧ o' = none ∧ leadDegree l ≠ .num 2) ∨ ∃ r r', o = some r ∧ o' = some r' ∧
      Roots.Rel S (if flip && leadDegree l == .num 2 then r.reversed else r) r') (findRootsSpecial l) (findRootsSpecial l') := by
  have hnd : ∀ {d : Nat}, d ≠ 2 → (flip && Degree.num d == .num 2) = false := fun h => by
    simp [h]
  match l, l', h with
  | [], _, .nil => exact .inr ⟨_, _, rfl, rfl, by simp [leadDegree, Roots.Rel]⟩
  | [(x, 0)], [(y, _)], .cons ⟨h1, rfl⟩ .nil => exact .inr ⟨_, _, rfl, rfl, by simp [leadDegree, Roots.Rel]⟩
  | [(x, d + 1)], [(y, _)], .cons ⟨h1, rfl⟩ .nil =>
    have e : ∀ z : N, findRootsSpecial [(z, d + 1)] = .ok (some (.manyRealRoots [0])) := fun z => by simp [findRootsSpecial]
    rw [e, e]
    refine Or.inr ⟨.manyRealRoots [0], .manyRealRoots [0], rfl, rfl, ?_⟩
    split
    · exact .cons hS.zero .nil
    · exact .cons hS.zero .nil
  | (x, 0) :: _ :: _, (y, _) :: _ :: _, .cons ⟨h1, rfl⟩ (.cons _ _) => exact .inl ⟨rfl, rfl, by simp [leadDegree]⟩
  | (x, d + 4) :: _ :: _, (y, _) :: _ :: _, .cons ⟨h1, rfl⟩ (.cons _ _) => exact .inl ⟨rfl, rfl, by simp [leadDegree]⟩
  | [(x, 1), (u, 0)], [(y, _), (w, _)], .cons ⟨h1, rfl⟩ (.cons ⟨h2, rfl⟩ .nil) =>
    refine Res.Rel.bind (hF.lin h1 h2 (hz _ List.mem_cons_self)) fun q q' hq => ?_
    exact .inr ⟨_, _, rfl, rfl, by rw [show leadDegree ((x, 1) :: [(u, 0)]) = .num 1 from rfl, hnd (by decide)]; exact .cons hq .nil⟩
  | [(x, 1), (u, d + 1)], [(y, _), (w, _)], .cons ⟨h1, rfl⟩ (.cons ⟨h2, rfl⟩ .nil) => exact .inl ⟨rfl, rfl, by simp [leadDegree]⟩
  | (x, 1) :: (u, 0) :: _ :: _, (y, _) :: (w, _) :: _ :: _, .cons ⟨h1, rfl⟩ (.cons ⟨h2, rfl⟩ (.cons _ _)) => exact .inl ⟨rfl, rfl, by simp [leadDegree]⟩
  | (x, 1) :: (u, d + 1) :: _ :: _, (y, _) :: (w, _) :: _ :: _, .cons ⟨h1, rfl⟩ (.cons ⟨h2, rfl⟩ (.cons _ _)) => exact .inl ⟨rfl, rfl, by simp [leadDegree]⟩
  | (x, 2) :: u :: v, (y, _) :: u' :: v', .cons ⟨h1, rfl⟩ h2 =>
    refine Res.Rel.bind (quadCoeffs_rel hR.zero h2) ?_
    rintro ⟨b, c⟩ ⟨b', c'⟩ ⟨hb, hc⟩
    refine Res.Rel.bind (hF.quad h1 hb hc (hz _ List.mem_cons_self)) fun q q' hq => ?_
    rw [show leadDegree ((x, 2) :: u :: v) = .num 2 from rfl]
    cases flip <;> cases q <;> cases q' <;> simp only [Roots.swap, Bool.false_eq_true, if_true, if_false] at hq <;> first
      | exact hq.elim
      | trivial
      | exact .inr ⟨_, _, rfl, rfl, .cons hq.1 (.cons hq.2 .nil)⟩
  | (x, 3) :: u :: v, (y, _) :: u' :: v', .cons ⟨h1, rfl⟩ h2 =>
    refine Res.Rel.bind (cubicCoeffs_rel hR.zero h2) ?_
    rintro ⟨b, c, d⟩ ⟨b', c', d'⟩ ⟨hb, hc, hd⟩
    refine Res.Rel.bind (hF.cub h1 hb hc hd (hz _ List.mem_cons_self)) fun q q' hq => ?_
    rw [show leadDegree ((x, 3) :: u :: v) = .num 3 from rfl, hnd (by decide)]
    cases q <;> cases q' <;> first
      | exact hq.elim
      | trivial
      | exact .inr ⟨_, _, rfl, rfl, .cons hq.1 (.cons hq.2.1 (.cons hq.2.2 .nil))⟩

/-- Two related runs of `find_roots`. -/
theorem findRoots_rel [AbsLess N] (hR : Respects R S) (hS : Respects S S) {flip : Bool} (hF : Formulas R S flip) {oracle : List N → List N}
    {rnd eval eval' : N → N} (ho : ∀ l l', Forall₂ S l l' → Forall₂ S (oracle l) (oracle l'))
    (hpick : ∀ r r', S r r' → S (pickRoot rnd eval r) (pickRoot rnd eval' r')) (fuel : Nat) {l l' : List (N × Nat)} (h : TermsRel R l l')
    (hz : ∀ t ∈ l, isZero t.1 = false) {degree : Degree} (hd : degree = leadDegree l) :
    Res.Rel (fun r r' => Roots.Rel S (if flip && degree == .num 2 then r.reversed else r) r')
      (findRoots oracle rnd fuel l degree eval) (findRoots oracle rnd fuel l' degree eval') := by
  unfold findRoots
  refine Res.Rel.bind (findRootsSpecial_rel hR hS hF h hz) ?_
  rintro o o' (⟨rfl, rfl, hne⟩ | ⟨r, r', rfl, rfl, hr⟩)
  · have hfl : (flip && degree == .num 2) = false := by rw [hd]; simp [hne]
    simp only [hfl, Bool.false_eq_true, if_false]
    cases h with
    | nil => trivial
    | @cons a a' t t' hab hl =>
      obtain ⟨a, da⟩ := a
      obtain ⟨a', da'⟩ := a'
      obtain ⟨h1, h2⟩ := hab
      simp only at h1 h2
      subst h2
      refine Res.Rel.bind (fillValues_rel hR h1 (hz _ List.mem_cons_self) da hl (forall₂_replicate _ hS.zero) (forall₂_set (forall₂_replicate _ hR.zero) h1 0)) ?_
      rintro ⟨v, nv⟩ ⟨v', nv'⟩ ⟨hv, hnv⟩
      exact findRootsLoop_rel hS ho hpick degree fuel fuel hR hv hnv .nil
  · rw [hd]; exact hr

end
end Rustnomial
