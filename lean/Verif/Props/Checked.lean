import Verif.Lemmas.Checked
import Verif.Props.Convert

/-!
# C56, C57: coefficients of a primitive integer type

`Arith.machine true t` is the type `t` in a build with overflow checks, `Arith.machine false t` in a build
without.
-/

open Polynomial

namespace Rustnomial

/-- The list consists of values of the type `t`. -/
def AllIn (t : IntTy) (l : List Int) : Prop := ∀ x ∈ l, t.InRange x

theorem chk_true {α : Type} {m : Res α} {v : α} (h : Chk True m v) : m = .ok v := h.1 trivial

/-! ## The two models are one: with exact arithmetic the monadic functions are the ideal ones -/

section
variable {f : Int → Int → Res Int} {g : Int → Int → Int} {P : Int → Int → Prop}

theorem chk_aligned (h : ∀ x y, Chk (P x y) (f x y) (g x y)) {α : Type} (F : List Int → α) (a b : List Int)
    (n : Nat) (hn : n ≤ a.length) :
    Chk (∀ z ∈ (a.drop n).zip b, P z.1 z.2)
      (do
        let tail ← sliceFrom a n
        let tail ← zipMutM f tail b
        .ok (F (a.take n ++ tail)))
      (F (a.take n ++ zipMut g (a.drop n) b)) := by
  simp only [sliceFrom, if_pos hn, Res.ok_bind]
  exact (chk_zipMutM h _ _).map (fun tail => F (a.take n ++ tail))

theorem chk_aligned_range (t : IntTy) (h : ∀ x y, Chk (t.InRange (g x y)) (f x y) (g x y)) {α : Type}
    (F : List Int → α) (a b : List Int) (n : Nat) (hn : n ≤ a.length) (ha : AllIn t a) :
    Chk (AllIn t (a.take n ++ zipMut g (a.drop n) b))
      (do
        let tail ← sliceFrom a n
        let tail ← zipMutM f tail b
        .ok (F (a.take n ++ tail)))
      (F (a.take n ++ zipMut g (a.drop n) b)) := by
  refine (chk_aligned h F a b n hn).of_iff ?_
  rw [zipMut_all _ _ (inRange_drop ha n)]
  unfold AllIn
  simp only [List.mem_append]
  exact ⟨fun H x hx => hx.elim (inRange_take ha n x) (H x), fun H x hx => H x (Or.inr hx)⟩

end

theorem exact_chk2 {f : Int → Int → Res Int} {g : Int → Int → Int} (h : ∀ x y, f x y = .ok (g x y)) (x y : Int) :
    Chk True (f x y) (g x y) := ⟨fun _ => h x y, fun h => absurd trivial h⟩

theorem exact_aligned {f : Int → Int → Res Int} {g : Int → Int → Int} (h : ∀ x y, f x y = .ok (g x y))
    {α : Type} (F : List Int → α) (a b : List Int) (n : Nat) (hn : n ≤ a.length) :
    (do
        let tail ← sliceFrom a n
        let tail ← zipMutM f tail b
        Res.ok (F (a.take n ++ tail))) = .ok (F (a.take n ++ zipMut g (a.drop n) b)) :=
  (chk_aligned (exact_chk2 h) F a b n hn).1 (by simp)

theorem exact_mapM {f : Int → Res Int} {g : Int → Int} (h : ∀ x, f x = .ok (g x)) (l : List Int) :
    l.mapM f = .ok (l.map g) :=
  (chk_mapM (P := fun _ => True) l (fun x _ => ⟨fun _ => h x, fun h => absurd trivial h⟩)).1 (by simp)

theorem sliceMulLoopM_exact (lhs : List Int) : ∀ (rest : List Int) (index : Nat) (terms : List Int),
    sliceMulLoopM Arith.exact lhs rest index terms = sliceMulLoop lhs rest index terms
  | [], _, _ => rfl
  | r :: rest, index, terms => by
    have hs : sliceMulStepM Arith.exact lhs terms index r = sliceMulStep lhs terms index r := by
      unfold sliceMulStepM sliceMulStep
      by_cases hr : r = 0
      · simp [hr]
      · rw [if_neg hr, if_neg (by simpa using hr)]
        by_cases hi : index ≤ terms.length
        · refine (exact_aligned (f := fun term lterm => Arith.exact.mul r lterm >>= fun x => Arith.exact.add term x)
            (g := fun term lterm => term + r * lterm) (fun x y => rfl) id terms lhs index hi).trans ?_
          simp [sliceFrom, hi]
        · simp [sliceFrom, hi]
    simp only [sliceMulLoopM, sliceMulLoop, hs]
    cases sliceMulStep lhs terms index r with
    | ok x => exact sliceMulLoopM_exact lhs rest (index + 1) x
    | panic => rfl
    | fuel => rfl

/-- With exact arithmetic in place of machine arithmetic, the functions of this file are those of the
ideal model, so that everything proved about one model speaks about the same program as the other. -/
theorem C56_exact (p q : Poly Int) (c x : Int) :
    p.negM Arith.exact = .ok p.neg ∧
    p.addM Arith.exact q = p.add q ∧
    p.addAssignM Arith.exact q = p.addAssign q ∧
    p.subM Arith.exact q = p.sub q ∧
    p.subRefM Arith.exact q = p.subRef q ∧
    p.mulScalarM Arith.exact c = .ok (p.mulScalar c) ∧
    p.mulAssignScalarM Arith.exact c = .ok (p.mulAssignScalar c) ∧
    p.mulM Arith.exact q = p.mul q ∧
    p.mulRefM Arith.exact q = p.mulRef q ∧
    p.evalM Arith.exact x = .ok (p.eval x) := by
  refine ⟨?_, ?_, ?_, ?_, ?_, ?_, ?_, ?_, ?_, ?_⟩
  · simp [Poly.negM, Poly.neg, exact_mapM (f := Arith.exact.neg) (g := fun x => -x) (fun _ => rfl)]
  · unfold Poly.addM Poly.add
    by_cases h : q.terms.length > p.terms.length
    · simp only [h, if_true]
      rw [exact_aligned (f := Arith.exact.add) (g := fun x y => x + y) (fun _ _ => rfl) Poly.new _ _ _ (by omega)]
      simp [sliceFrom]
    · simp only [h, if_false]
      rw [exact_aligned (f := Arith.exact.add) (g := fun x y => x + y) (fun _ _ => rfl) Poly.new _ _ _ (by omega)]
      simp [sliceFrom]
  · unfold Poly.addAssignM Poly.addAssign
    by_cases h : q.terms.length > p.terms.length
    · simp only [h, if_true]
      rw [exact_aligned (f := Arith.exact.add) (g := fun x y => x + y) (fun _ _ => rfl) Poly.mk _ _ _ (by omega)]
      simp [sliceFrom]
    · simp only [h, if_false]
      rw [exact_aligned (f := Arith.exact.add) (g := fun x y => x + y) (fun _ _ => rfl) Poly.mk _ _ _ (by omega)]
      simp [sliceFrom]
  · unfold Poly.subM Poly.sub
    by_cases h : q.terms.length > p.terms.length
    · simp only [h, if_true]
      rw [exact_mapM (f := Arith.exact.neg) (g := fun x => -x) (fun _ => rfl), Res.ok_bind,
        (chk_zipMutM (P := fun _ _ => True) (exact_chk2 (f := fun x y => Arith.exact.sub y x) (g := fun x y => y - x) (fun _ _ => rfl)) _ _).1 (by simp)]
      rfl
    · simp only [h, if_false]
      rw [exact_aligned (f := Arith.exact.sub) (g := fun x y => x - y) (fun _ _ => rfl) Poly.mk _ _ _ (by omega)]
      simp [sliceFrom]
  · unfold Poly.subRefM Poly.subRef
    by_cases h : q.terms.length > p.terms.length
    · simp only [h, if_true]
      rw [exact_mapM (f := Arith.exact.neg) (g := fun x => -x) (fun _ => rfl), Res.ok_bind,
        (chk_zipMutM (P := fun _ _ => True) (exact_chk2 (f := Arith.exact.sub) (g := fun x y => x - y) (fun _ _ => rfl)) _ _).1 (by simp)]
      rfl
    · simp only [h, if_false]
      rw [exact_aligned (f := Arith.exact.sub) (g := fun x y => x - y) (fun _ _ => rfl) Poly.mk _ _ _ (by omega)]
      simp [sliceFrom]
  · simp [Poly.mulScalarM, Poly.mulScalar, exact_mapM (f := fun x => Arith.exact.mul x c)
      (g := fun x => x * c) (fun _ => rfl)]
  · simp [Poly.mulAssignScalarM, Poly.mulAssignScalar, exact_mapM (f := fun x => Arith.exact.mul x c)
      (g := fun x => x * c) (fun _ => rfl)]
  · simp only [Poly.mulM, Poly.mul, sliceMulM, sliceMul, sliceMulLoopM_exact]
  · simp only [Poly.mulRefM, Poly.mulRef, sliceMulM, sliceMul, sliceMulLoopM_exact]
  · unfold Poly.evalM Poly.eval
    have key : ∀ (l : List Int) (s : Int),
        l.foldlM (fun sum val => Arith.exact.add sum val >>= fun sum => Arith.exact.mul sum x) s =
          .ok (l.foldl (fun sum val => (sum + val) * x) s) := by
      intro l
      induction l with
      | nil => intro s; rfl
      | cons a l ih => intro s; rw [List.foldlM_cons]; exact ih _
    cases p.terms.getLast? with
    | none => rfl
    | some last =>
      by_cases hx : x = 0
      · simp [hx]
      · simp only [if_neg hx, key, Res.ok_bind]
        simp [hx, Arith.exact]

/-! ## C56 – builds with overflow checks -/

/-- C56: negation returns exactly when every coefficient of the exact negative is a value of the type, and
then the result represents it; otherwise it panics. -/
theorem C56_neg (t : IntTy) (p : Poly Int) :
    ((∀ d, t.InRange ((- descPoly p.terms).coeff d)) →
      ∃ r, p.negM (.machine true t) = .ok r ∧ descPoly r.terms = - descPoly p.terms ∧ AllIn t r.terms) ∧
    ((¬ ∀ d, t.InRange ((- descPoly p.terms).coeff d)) → p.negM (.machine true t) = .panic) := by
  have h : Chk (AllIn t p.neg.terms) (p.negM (.machine true t)) p.neg := by
    refine (Chk.map Poly.mk (chk_mapM p.terms (g := fun x => -x) (fun x _ => chk_result t (-x)))).of_iff ?_
    simp only [AllIn, Poly.neg, List.mem_map, forall_exists_index, and_imp, forall_apply_eq_imp_iff₂]
  unfold AllIn at h
  rw [inRange_descPoly, (C10_dense_neg p).1] at h
  exact ⟨fun H => ⟨_, h.1 H, (C10_dense_neg p).1, (inRange_descPoly _ _).2 (by rwa [(C10_dense_neg p).1])⟩, h.2⟩

theorem chk_addM (t : IntTy) (p q : Poly Int) (hp : AllIn t p.terms) (hq : AllIn t q.terms) :
    ∃ r s, p.add q = .ok r ∧ p.addAssign q = .ok s ∧
      Chk (∀ d, t.InRange ((descPoly p.terms + descPoly q.terms).coeff d)) (p.addM (.machine true t) q) r ∧
      Chk (∀ d, t.InRange ((descPoly p.terms + descPoly q.terms).coeff d)) (p.addAssignM (.machine true t) q) s := by
  obtain ⟨r, hr, hr'⟩ := C08_dense_add p q
  obtain ⟨s, hs, hs'⟩ := C08_dense_add_assign p q
  refine ⟨r, s, hr, hs, ?_, ?_⟩
  · unfold Poly.addM
    unfold Poly.add at hr
    by_cases h : q.terms.length > p.terms.length
    · simp only [h, if_true] at hr ⊢
      simp only [sliceFrom, Nat.sub_le, if_true, Res.ok_bind, Res.ok.injEq] at hr
      have := chk_aligned_range t (fun x y => chk_result t (x + y)) Poly.new q.terms p.terms
        (q.terms.length - p.terms.length) (by omega) hq
      rw [hr] at this
      refine this.of_iff ?_
      unfold AllIn
      rw [inRange_descPoly, ← C01_new_same_polynomial, hr, hr']
    · simp only [h, if_false] at hr ⊢
      simp only [sliceFrom, Nat.sub_le, if_true, Res.ok_bind, Res.ok.injEq] at hr
      have := chk_aligned_range t (fun x y => chk_result t (x + y)) Poly.new p.terms q.terms
        (p.terms.length - q.terms.length) (by omega) hp
      rw [hr] at this
      refine this.of_iff ?_
      unfold AllIn
      rw [inRange_descPoly, ← C01_new_same_polynomial, hr, hr']
  · unfold Poly.addAssignM
    unfold Poly.addAssign at hs
    by_cases h : q.terms.length > p.terms.length
    · simp only [h, if_true] at hs ⊢
      simp only [sliceFrom, Nat.sub_le, if_true, Res.ok_bind, Res.ok.injEq] at hs
      have := chk_aligned_range t (fun x y => chk_result t (x + y)) Poly.mk q.terms p.terms
        (q.terms.length - p.terms.length) (by omega) hq
      refine (hs ▸ this).of_iff ?_
      unfold AllIn
      rw [inRange_descPoly, ← hs', ← hs]
    · simp only [h, if_false] at hs ⊢
      simp only [sliceFrom, Nat.sub_le, if_true, Res.ok_bind, Res.ok.injEq] at hs
      have := chk_aligned_range t (fun x y => chk_result t (x + y)) Poly.mk p.terms q.terms
        (p.terms.length - q.terms.length) (by omega) hp
      refine (hs ▸ this).of_iff ?_
      unfold AllIn
      rw [inRange_descPoly, ← hs', ← hs]

/-- C56: `+` and `+=` return exactly when every coefficient of the exact sum is a value of the type, and
then the result represents it; otherwise they panic. -/
theorem C56_add (t : IntTy) (p q : Poly Int) (hp : AllIn t p.terms) (hq : AllIn t q.terms) :
    ((∀ d, t.InRange ((descPoly p.terms + descPoly q.terms).coeff d)) →
      (∃ r, p.addM (.machine true t) q = .ok r ∧ descPoly r.terms = descPoly p.terms + descPoly q.terms ∧
        AllIn t r.terms) ∧
      (∃ r, p.addAssignM (.machine true t) q = .ok r ∧
        descPoly r.terms = descPoly p.terms + descPoly q.terms ∧ AllIn t r.terms)) ∧
    ((¬ ∀ d, t.InRange ((descPoly p.terms + descPoly q.terms).coeff d)) →
      p.addM (.machine true t) q = .panic ∧ p.addAssignM (.machine true t) q = .panic) := by
  obtain ⟨r, s, hr, hs, c1, c2⟩ := chk_addM t p q hp hq
  obtain ⟨r', hr', er⟩ := C08_dense_add p q
  obtain ⟨s', hs', es⟩ := C08_dense_add_assign p q
  obtain rfl := Res.ok.inj (hr.symm.trans hr')
  obtain rfl := Res.ok.inj (hs.symm.trans hs')
  exact ⟨fun H => ⟨⟨r, c1.1 H, er, (inRange_descPoly _ _).2 (er ▸ H)⟩,
    ⟨s, c2.1 H, es, (inRange_descPoly _ _).2 (es ▸ H)⟩⟩, fun H => ⟨c1.2 H, c2.2 H⟩⟩

theorem chk_subM (t : IntTy) (p q : Poly Int) (hp : AllIn t p.terms) :
    ∃ r, p.sub q = .ok r ∧ p.subRef q = .ok r ∧
      Chk (∀ d, t.InRange ((descPoly p.terms - descPoly q.terms).coeff d)) (p.subM (.machine true t) q) r ∧
      Chk (∀ d, t.InRange ((descPoly p.terms - descPoly q.terms).coeff d)) (p.subRefM (.machine true t) q) r := by
  obtain ⟨r, hr, hr'⟩ := C09_dense_sub p q
  have hs := (C09_dense_sub_spellings p q).symm.trans hr
  have tail : ¬ q.terms.length > p.terms.length →
      Chk (∀ d, t.InRange ((descPoly p.terms - descPoly q.terms).coeff d)) (p.subM (.machine true t) q) r := by
    intro h
    unfold Poly.subM
    unfold Poly.sub at hr
    simp only [h, if_false] at hr ⊢
    simp only [sliceFrom, Nat.sub_le, if_true, Res.ok_bind, Res.ok.injEq] at hr
    have := chk_aligned_range t (fun x y => chk_result t (x - y)) Poly.mk p.terms q.terms
      (p.terms.length - q.terms.length) (by omega) hp
    refine (hr ▸ this).of_iff ?_
    unfold AllIn
    rw [inRange_descPoly, ← hr', ← hr]
  refine ⟨r, hr, hs, ?_, ?_⟩
  · by_cases h : q.terms.length > p.terms.length
    · unfold Poly.subM
      unfold Poly.sub at hr
      simp only [h, if_true, Res.ok.injEq] at hr ⊢
      have hl : (q.terms.drop (q.terms.length - p.terms.length)).length = p.terms.length := by simp; omega
      have c1 := chk_mapM (q.terms.take (q.terms.length - p.terms.length)) (f := (Arith.machine true t).neg)
        (g := fun x => -x) (fun x _ => chk_result t (-x))
      have c2 := chk_zipMutM (f := fun term val => (Arith.machine true t).sub val term) (g := fun x y => y - x)
        (fun x y => chk_result t (y - x)) (q.terms.drop (q.terms.length - p.terms.length)) p.terms
      rw [← hr]
      refine (c1.bind (fun _ => c2.map (fun left => Poly.mk (_ ++ left)))).of_iff ?_
      rw [← hr', ← hr, ← inRange_descPoly]
      generalize q.terms.drop (q.terms.length - p.terms.length) = a at hl ⊢
      generalize q.terms.take (q.terms.length - p.terms.length) = b
      have hz : (∀ z ∈ a.zip p.terms, t.InRange (z.2 - z.1)) ↔
          ∀ z ∈ zipMut (fun x y => y - x) a p.terms, t.InRange z := by
        clear hr hr' hs tail c1 c2 h
        generalize p.terms = l at hl
        induction a generalizing l with
        | nil => simp
        | cons x a ih =>
          cases l with
          | nil => simp at hl
          | cons y l =>
            have := ih l (by simpa using hl)
            simp [← this]
      rw [hz]
      simp only [List.mem_append, List.mem_map]
      exact ⟨fun H x hx => hx.elim (fun ⟨y, h1, h2⟩ => h2 ▸ H.1 y h1) (H.2 x),
        fun H => ⟨fun x hx => H _ (Or.inl ⟨x, hx, rfl⟩), fun x hx => H x (Or.inr hx)⟩⟩
    · exact tail h
  · by_cases h : q.terms.length > p.terms.length
    · unfold Poly.subRefM
      unfold Poly.subRef at hs
      simp only [h, if_true, Res.ok.injEq] at hs ⊢
      have c1 := chk_mapM (q.terms.take (q.terms.length - p.terms.length)) (f := (Arith.machine true t).neg)
        (g := fun x => -x) (fun x _ => chk_result t (-x))
      have c2 := chk_zipMutM (f := fun l r => (Arith.machine true t).sub l r) (g := fun x y => x - y)
        (fun x y => chk_result t (x - y)) p.terms (q.terms.drop (q.terms.length - p.terms.length))
      rw [← hs]
      refine (c1.bind (fun _ => c2.map (fun left => Poly.mk (_ ++ left)))).of_iff ?_
      rw [← hr', ← hs, ← inRange_descPoly, zipMut_all _ _ hp]
      simp only [List.mem_append, List.mem_map]
      exact ⟨fun H x hx => hx.elim (fun ⟨y, h1, h2⟩ => h2 ▸ H.1 y h1) (H.2 x),
        fun H => ⟨fun x hx => H _ (Or.inl ⟨x, hx, rfl⟩), fun x hx => H x (Or.inr hx)⟩⟩
    · have e : p.subRefM (.machine true t) q = p.subM (.machine true t) q := by
        unfold Poly.subRefM Poly.subM
        simp only [h, if_false]
      rw [e]; exact tail h

/-- C56: every spelling of `-` and `-=` returns exactly when every coefficient of the exact difference is a
value of the type, and then the result represents it; otherwise it panics.  For unsigned types this is the
case exactly when no coefficient of `q` exceeds that of `p`. -/
theorem C56_sub (t : IntTy) (p q : Poly Int) (hp : AllIn t p.terms) :
    ((∀ d, t.InRange ((descPoly p.terms - descPoly q.terms).coeff d)) →
      (∃ r, p.subM (.machine true t) q = .ok r ∧ p.subRefM (.machine true t) q = .ok r ∧
        descPoly r.terms = descPoly p.terms - descPoly q.terms ∧ AllIn t r.terms)) ∧
    ((¬ ∀ d, t.InRange ((descPoly p.terms - descPoly q.terms).coeff d)) →
      p.subM (.machine true t) q = .panic ∧ p.subRefM (.machine true t) q = .panic) := by
  obtain ⟨r, hr, hs, c1, c2⟩ := chk_subM t p q hp
  obtain ⟨r', hr', er⟩ := C09_dense_sub p q
  obtain rfl := Res.ok.inj (hr.symm.trans hr')
  exact ⟨fun H => ⟨r, c1.1 H, c2.1 H, er, (inRange_descPoly _ _).2 (er ▸ H)⟩, fun H => ⟨c1.2 H, c2.2 H⟩⟩

/-- C56: multiplication by a scalar (`*` and `*=`) returns exactly when every coefficient of the exact
product is a value of the type, and then the result represents it; otherwise it panics. -/
theorem C56_mul_scalar (t : IntTy) (p : Poly Int) (c : Int) :
    ((∀ d, t.InRange ((descPoly p.terms * C c).coeff d)) →
      (∃ r, p.mulScalarM (.machine true t) c = .ok r ∧ descPoly r.terms = descPoly p.terms * C c ∧
        AllIn t r.terms) ∧
      (∃ r, p.mulAssignScalarM (.machine true t) c = .ok r ∧ descPoly r.terms = descPoly p.terms * C c ∧
        AllIn t r.terms)) ∧
    ((¬ ∀ d, t.InRange ((descPoly p.terms * C c).coeff d)) →
      p.mulScalarM (.machine true t) c = .panic ∧ p.mulAssignScalarM (.machine true t) c = .panic) := by
  have h : Chk (AllIn t (p.terms.map (fun x => x * c))) (p.terms.mapM (fun x => (Arith.machine true t).mul x c))
      (p.terms.map (fun x => x * c)) := by
    refine (chk_mapM p.terms (g := fun x => x * c) (fun x _ => chk_result t (x * c))).of_iff ?_
    simp only [AllIn, List.mem_map, forall_exists_index, and_imp, forall_apply_eq_imp_iff₂]
  have e := descPoly_map_mul_right c p.terms
  unfold AllIn at h
  rw [inRange_descPoly, e] at h
  have h1 : Chk _ (p.mulScalarM (.machine true t) c) _ := h.map Poly.new
  have h2 : Chk _ (p.mulAssignScalarM (.machine true t) c) _ := h.map Poly.mk
  have e1 : descPoly (Poly.new (p.terms.map (fun x => x * c))).terms = descPoly p.terms * C c := by
    rw [C01_new_same_polynomial, e]
  exact ⟨fun H => ⟨⟨_, h1.1 H, e1, (inRange_descPoly _ _).2 (e1 ▸ H)⟩,
    ⟨_, h2.1 H, e, (inRange_descPoly _ _).2 (e ▸ H)⟩⟩, fun H => ⟨h1.2 H, h2.2 H⟩⟩

/-! ### Multiplication -/

theorem zip_snd {α β : Type} {P : β → Prop} : ∀ (xs : List α) (ys : List β), ys.length ≤ xs.length →
    ((∀ z ∈ xs.zip ys, P z.2) ↔ ∀ y ∈ ys, P y)
  | [], ys, h => by simp at h; subst h; simp
  | x :: xs, [], _ => by simp
  | x :: xs, y :: ys, h => by
    have := zip_snd (P := P) xs ys (by simpa using h)
    simp only [Prod.forall] at this
    simp [← this]

/-- The values which occur while the outer loop of `slice_mul` runs: the single products, and the sums
after each of the coefficients of the right operand has been dealt with, from the highest degree down. -/
theorem chk_sliceMulLoopM (t : IntTy) (lhs : List Int) : ∀ (rest : List Int) (index : Nat) (terms : List Int),
    terms.length + 1 = index + rest.length + lhs.length → AllIn t terms →
    ∃ out, sliceMulLoop lhs rest index terms = .ok out ∧
      Chk ((∀ r ∈ rest, ∀ l ∈ lhs, t.InRange (r * l)) ∧
        ∀ k ≤ rest.length, ∀ d, t.InRange ((descPoly terms +
          descPoly (rest.take k) * X ^ (rest.length - k) * descPoly lhs).coeff d))
        (sliceMulLoopM (.machine true t) lhs rest index terms) out
  | [], index, terms, _, hin => ⟨terms, rfl, (Chk.ok terms).of_iff (by
      simpa using (inRange_descPoly t terms).1 hin)⟩
  | r :: rest, index, terms, h, hin => by
    simp only [List.length_cons] at h
    have hin' := (inRange_descPoly t terms).1 hin
    by_cases hr : r = 0
    · obtain ⟨out, h1, h2⟩ := chk_sliceMulLoopM t lhs rest (index + 1) terms (by omega) hin
      refine ⟨out, ?_, ?_⟩
      · simp [sliceMulLoop, sliceMulStep, hr, h1]
      · have e : sliceMulLoopM (.machine true t) lhs (r :: rest) index terms =
            sliceMulLoopM (.machine true t) lhs rest (index + 1) terms := by
          simp [sliceMulLoopM, sliceMulStepM, hr]
        rw [e]
        refine h2.of_iff ?_
        subst hr
        constructor
        · rintro ⟨a, b⟩
          refine ⟨?_, ?_⟩
          · intro r hr l hl
            rcases List.mem_cons.1 hr with rfl | hr
            · rw [zero_mul]; exact t.zero_inRange
            · exact a r hr l hl
          · intro k hk d
            cases k with
            | zero => simpa using hin' d
            | succ k =>
              have := b k (by simpa using hk) d
              simpa [descPoly_cons] using this
        · rintro ⟨a, b⟩
          refine ⟨fun r hr l hl => a r (by simp [hr]) l hl, fun k hk d => ?_⟩
          have := b (k + 1) (by simpa using hk) d
          simpa [descPoly_cons] using this
    · have hidx : index ≤ terms.length := by omega
      let terms' := terms.take index ++ zipMut (fun term lterm => term + r * lterm) (terms.drop index) lhs
      have hlen : terms'.length = terms.length := by simp [terms']; omega
      have ht : descPoly terms' = descPoly terms + C r * X ^ rest.length * descPoly lhs := by
        apply descPoly_take_append
        · simp
        · rw [descPoly_zipMut_add (fun y => r * y) _ (fun _ _ => rfl) _ _ (by simp; omega),
            descPoly_map_mul_left]
          have : (terms.drop index).length - lhs.length = rest.length := by simp; omega
          rw [this]; ring
      have hstep : Chk ((∀ l ∈ lhs, t.InRange (r * l)) ∧ AllIn t terms')
          (sliceMulStepM (.machine true t) lhs terms index r) terms' := by
        unfold sliceMulStepM
        rw [if_neg hr]
        have hz : ∀ x y : Int, Chk (t.InRange (r * y) ∧ t.InRange (x + r * y))
            ((Arith.machine true t).mul r y >>= fun v => (Arith.machine true t).add x v) (x + r * y) :=
          fun x y => (chk_result t (r * y)).bind (fun _ => chk_result t (x + r * y))
        refine (chk_aligned hz id terms lhs index hidx).of_iff ?_
        have e1 := zip_snd (P := fun y => t.InRange (r * y)) (terms.drop index) lhs (by simp; omega)
        have e2 := zipMut_all (g := fun x y => x + r * y) (R := t.InRange) (terms.drop index) lhs
          (inRange_drop hin index)
        rw [← e1]
        constructor
        · intro H
          refine ⟨fun z hz => (H z hz).1, fun x hx => ?_⟩
          rcases List.mem_append.1 hx with hx | hx
          · exact inRange_take hin index x hx
          · exact e2.1 (fun z hz => (H z hz).2) x hx
        · rintro ⟨H1, H2⟩ z hz
          exact ⟨H1 z hz, e2.2 (fun x hx => H2 x (List.mem_append.2 (Or.inr hx))) z hz⟩
      have hideal : sliceMulStep lhs terms index r = .ok terms' := by
        simp [sliceMulStep, hr, sliceFrom, hidx, terms']
      by_cases hA : AllIn t terms'
      · obtain ⟨out, h1, h2⟩ := chk_sliceMulLoopM t lhs rest (index + 1) terms' (by omega) hA
        refine ⟨out, by rw [sliceMulLoop, hideal]; exact h1, ?_⟩
        have := hstep.bind (f := fun ts => sliceMulLoopM (.machine true t) lhs rest (index + 1) ts)
          (fun _ => h2)
        refine this.of_iff ?_
        rw [ht]
        constructor
        · rintro ⟨⟨a, _⟩, b, c⟩
          refine ⟨?_, ?_⟩
          · intro x hx l hl
            rcases List.mem_cons.1 hx with rfl | hx
            · exact a l hl
            · exact b x hx l hl
          · intro k hk d
            cases k with
            | zero => simpa using hin' d
            | succ k =>
              have hk' : k ≤ rest.length := by simpa using hk
              have := c k hk' d
              rw [List.take_succ_cons, descPoly_cons, List.length_take, min_eq_left hk', List.length_cons,
                Nat.add_sub_add_right]
              convert this using 2
              rw [show rest.length = k + (rest.length - k) by omega, pow_add]
              simp only [Nat.add_sub_cancel_left]
              ring
        · rintro ⟨a, b⟩
          refine ⟨⟨fun l hl => a r (by simp) l hl, hA⟩, fun x hx l hl => a x (by simp [hx]) l hl, ?_⟩
          intro k hk d
          have := b (k + 1) (by simpa using hk) d
          rw [List.take_succ_cons, descPoly_cons, List.length_take, min_eq_left hk, List.length_cons,
            Nat.add_sub_add_right] at this
          convert this using 2
          rw [show rest.length = k + (rest.length - k) by omega, pow_add]
          simp only [Nat.add_sub_cancel_left]
          ring
      · obtain ⟨out, h1, _, _⟩ := sliceMulLoop_ok lhs rest (index + 1) terms' (by omega)
        refine ⟨out, by rw [sliceMulLoop, hideal]; exact h1, ?_⟩
        constructor
        · rintro ⟨_, b⟩
          exfalso
          apply hA
          refine (inRange_descPoly t terms').2 (fun d => ?_)
          rw [ht]
          have := b 1 (by simp) d
          simpa [descPoly_cons] using this
        · intro _
          rw [sliceMulLoopM, hstep.2 (fun h => hA h.2), Res.panic_bind]

/-- The part of a product which comes from the terms of `Q` of degree at least `e`. -/
theorem coeff_take_mul (b : List Int) (Q : ℤ[X]) (e d : Nat) :
    (descPoly (b.take (b.length - e)) * X ^ e * Q).coeff d =
      ∑ x ∈ Finset.antidiagonal d with e ≤ x.2, Q.coeff x.1 * (descPoly b).coeff x.2 := by
  rw [mul_comm, coeff_mul, Finset.sum_filter]
  refine Finset.sum_congr rfl fun x _ => ?_
  rw [coeff_mul_X_pow']
  split_ifs with h
  · rw [coeff_descPoly_take, Nat.sub_add_cancel h]
  · rw [mul_zero]

theorem chk_sliceMulM (t : IntTy) (a b : List Int) (h : descPoly a ≠ 0 ∨ descPoly b ≠ 0) :
    ∃ out, sliceMul a b = .ok out ∧
      Chk ((∀ i j, t.InRange ((descPoly a).coeff i * (descPoly b).coeff j)) ∧
        ∀ d e, t.InRange (∑ x ∈ Finset.antidiagonal d with e ≤ x.2,
          (descPoly a).coeff x.1 * (descPoly b).coeff x.2))
        (sliceMulM (.machine true t) a b) out := by
  unfold sliceMul sliceMulM
  simp only [sliceFrom, firstNonzeroIndex_le, if_true, Res.ok_bind, drop_firstNonzeroIndex]
  have ea := descPoly_dropWhile a
  have eb := descPoly_dropWhile b
  have za := descPoly_eq_zero_iff a
  have zb := descPoly_eq_zero_iff b
  generalize List.dropWhile _ a = a' at ea za ⊢
  generalize List.dropWhile _ b = b' at eb zb ⊢
  have hl : 1 ≤ b'.length + a'.length := by
    rcases h with h | h
    · have := List.length_pos_iff.2 (mt za.2 h); omega
    · have := List.length_pos_iff.2 (mt zb.2 h); omega
  simp only [usub, hl, if_true, Res.ok_bind]
  obtain ⟨out, h1, h2⟩ := chk_sliceMulLoopM t a' b' 0
    (List.replicate (b'.length + a'.length - 1) 0)
    (by simp; omega) (by intro x hx; rw [List.eq_of_mem_replicate hx]; exact t.zero_inRange)
  refine ⟨out, h1, h2.of_iff ?_⟩
  rw [← ea, ← eb]
  refine and_congr ?_ ?_
  · constructor
    · intro H i j
      by_cases hi : i < a'.length
      · by_cases hj : j < b'.length
        · rw [coeff_descPoly_of_lt hi, coeff_descPoly_of_lt hj, mul_comm,
            List.getD_eq_getElem _ _ (by omega), List.getD_eq_getElem _ _ (by omega)]
          exact H _ (List.getElem_mem _) _ (List.getElem_mem _)
        · rw [coeff_descPoly_of_le (l := b') (by omega), mul_zero]; exact t.zero_inRange
      · rw [coeff_descPoly_of_le (l := a') (by omega), zero_mul]; exact t.zero_inRange
    · intro H r hr l hl
      obtain ⟨i, hi, rfl⟩ := List.getElem_of_mem hr
      obtain ⟨j, hj, rfl⟩ := List.getElem_of_mem hl
      have := H (a'.length - j - 1) (b'.length - i - 1)
      rw [coeff_descPoly_of_lt (by omega), coeff_descPoly_of_lt (by omega), mul_comm,
        List.getD_eq_getElem _ _ (by omega), List.getD_eq_getElem _ _ (by omega)] at this
      convert this using 3 <;> omega
  · simp only [descPoly_replicate_zero, zero_add]
    constructor
    · intro H d e
      by_cases he : e ≤ b'.length
      · have := H (b'.length - e) (by omega) d
        rwa [show b'.length - (b'.length - e) = e by omega, coeff_take_mul] at this
      · rw [Finset.sum_eq_zero]
        · exact t.zero_inRange
        · intro x hx
          rw [coeff_descPoly_of_le (l := b') (by have := (Finset.mem_filter.1 hx).2; omega), mul_zero]
    · intro H k hk d
      have := H d (b'.length - k)
      rwa [← coeff_take_mul, show b'.length - (b'.length - k) = k by omega] at this

/-- C56, multiplication.  If the operands are not both zero (that case panics whatever the coefficients,
C11), every spelling of `*` and `*=` returns exactly when every product of two coefficients is a value of the
type and every coefficient of the product of `p` with a top part of `q` is one, and then the result represents
the exact product; otherwise it panics.  (`e = 0` gives the coefficients of the product itself.) -/
theorem C56_mul (t : IntTy) (p q : Poly Int) (h : descPoly p.terms ≠ 0 ∨ descPoly q.terms ≠ 0) :
    (((∀ i j, t.InRange ((descPoly p.terms).coeff i * (descPoly q.terms).coeff j)) ∧
        ∀ d e, t.InRange (∑ x ∈ Finset.antidiagonal d with e ≤ x.2,
          (descPoly p.terms).coeff x.1 * (descPoly q.terms).coeff x.2)) →
      (∃ r, p.mulM (.machine true t) q = .ok r ∧ descPoly r.terms = descPoly p.terms * descPoly q.terms ∧
        AllIn t r.terms) ∧
      (∃ r, p.mulRefM (.machine true t) q = .ok r ∧ descPoly r.terms = descPoly p.terms * descPoly q.terms ∧
        AllIn t r.terms)) ∧
    ((¬ ((∀ i j, t.InRange ((descPoly p.terms).coeff i * (descPoly q.terms).coeff j)) ∧
        ∀ d e, t.InRange (∑ x ∈ Finset.antidiagonal d with e ≤ x.2,
          (descPoly p.terms).coeff x.1 * (descPoly q.terms).coeff x.2))) →
      p.mulM (.machine true t) q = .panic ∧ p.mulRefM (.machine true t) q = .panic) := by
  obtain ⟨out, h1, c⟩ := chk_sliceMulM t p.terms q.terms h
  obtain ⟨out', h1', e⟩ := sliceMul_ok p.terms q.terms h
  obtain rfl := Res.ok.inj (h1.symm.trans h1')
  have c1 : Chk _ (p.mulM (.machine true t) q) _ := c.map Poly.mk
  have c2 : Chk _ (p.mulRefM (.machine true t) q) _ := c.map Poly.new
  have e2 : descPoly (Poly.new out).terms = descPoly p.terms * descPoly q.terms := by
    rw [C01_new_same_polynomial, e]
  refine ⟨fun H => ?_, fun H => ⟨c1.2 H, c2.2 H⟩⟩
  have hin : ∀ d, t.InRange ((descPoly p.terms * descPoly q.terms).coeff d) := by
    intro d
    have := H.2 d 0
    rw [coeff_mul]
    simpa using this
  exact ⟨⟨_, c1.1 H, e, (inRange_descPoly _ _).2 (e ▸ hin)⟩, ⟨_, c2.1 H, e2, (inRange_descPoly _ _).2 (e2 ▸ hin)⟩⟩

/-- C56, multiplication of zero polynomials, any build. -/
theorem C56_mul_zero_zero (chk : Bool) (t : IntTy) (p q : Poly Int) (hp : descPoly p.terms = 0)
    (hq : descPoly q.terms = 0) :
    p.mulM (.machine chk t) q = .panic ∧ p.mulRefM (.machine chk t) q = .panic := by
  have : sliceMulM (.machine chk t) p.terms q.terms = .panic := by
    unfold sliceMulM
    simp only [sliceFrom, firstNonzeroIndex_le, if_true, Res.ok_bind, drop_firstNonzeroIndex,
      (descPoly_eq_zero_iff _).1 hp, (descPoly_eq_zero_iff _).1 hq]
    simp [usub]
  simp [Poly.mulM, Poly.mulRefM, this]

/-- C56, multiplication for unsigned types: intermediate values never exceed the result, so `*` returns
exactly when every coefficient of the product is a value of the type. -/
theorem C56_mul_unsigned (bits : Nat) (p q : Poly Int) (hp : AllIn ⟨false, bits⟩ p.terms)
    (hq : AllIn ⟨false, bits⟩ q.terms) (h : descPoly p.terms ≠ 0 ∨ descPoly q.terms ≠ 0) :
    ((∃ r, p.mulM (.machine true ⟨false, bits⟩) q = .ok r) ↔
      ∀ d, (descPoly p.terms * descPoly q.terms).coeff d < 2 ^ bits) := by
  have nn : ∀ l : List Int, AllIn ⟨false, bits⟩ l → ∀ d, 0 ≤ (descPoly l).coeff d := by
    intro l hl d
    exact ((inRange_descPoly _ l).1 hl d).1
  have hp' := nn _ hp
  have hq' := nn _ hq
  have rng : ∀ v : Int, (⟨false, bits⟩ : IntTy).InRange v ↔ 0 ≤ v ∧ v < 2 ^ bits := by
    intro v
    simp only [IntTy.InRange, IntTy.min, IntTy.max, Bool.false_eq_true, if_false]
    omega
  constructor
  · rintro ⟨r, hr⟩ d
    by_contra hd
    have hc := (C56_mul ⟨false, bits⟩ p q h).2 (fun H => by
      have := (rng _).1 (H.2 d 0)
      rw [coeff_mul] at hd
      simp at this
      omega)
    rw [hc.1] at hr
    cases hr
  · intro H
    have part : ∀ d e, ∑ x ∈ Finset.antidiagonal d with e ≤ x.2,
        (descPoly p.terms).coeff x.1 * (descPoly q.terms).coeff x.2 ≤
          (descPoly p.terms * descPoly q.terms).coeff d := by
      intro d e
      rw [coeff_mul]
      exact Finset.sum_le_sum_of_subset_of_nonneg (Finset.filter_subset _ _)
        (fun x _ _ => mul_nonneg (hp' _) (hq' _))
    refine (fun H => ⟨H.1.choose, H.1.choose_spec.1⟩) ((C56_mul ⟨false, bits⟩ p q h).1 ⟨?_, ?_⟩)
    · intro i j
      refine (rng _).2 ⟨mul_nonneg (hp' _) (hq' _), lt_of_le_of_lt ?_ (H (i + j))⟩
      rw [coeff_mul]
      exact Finset.single_le_sum (f := fun x : ℕ × ℕ => (descPoly p.terms).coeff x.1 * (descPoly q.terms).coeff x.2)
        (fun x _ => mul_nonneg (hp' _) (hq' _)) (Finset.mem_antidiagonal.2 (rfl : ((i, j) : ℕ × ℕ).1 + j = i + j))
    · intro d e
      exact (rng _).2 ⟨Finset.sum_nonneg (fun x _ => mul_nonneg (hp' _) (hq' _)),
        lt_of_le_of_lt (part d e) (H d)⟩

/-! ### Evaluation -/

theorem chk_horner (t : IntTy) (x : Int) : ∀ (l : List Int) (s : Int),
    Chk (∀ k < l.length, t.InRange (s * x ^ k + (descPoly (l.take (k + 1))).eval x) ∧
        t.InRange ((s * x ^ k + (descPoly (l.take (k + 1))).eval x) * x))
      (l.foldlM (fun sum val => (Arith.machine true t).add sum val >>= fun sum => (Arith.machine true t).mul sum x) s)
      (l.foldl (fun sum val => (sum + val) * x) s)
  | [], s => (Chk.ok s).of_iff (by simp)
  | a :: l, s => by
    rw [List.foldlM_cons, List.foldl_cons]
    have c1 : Chk _ ((Arith.machine true t).add s a >>= fun sum => (Arith.machine true t).mul sum x)
        ((s + a) * x) := (chk_result t (s + a)).bind (fun _ => chk_result t ((s + a) * x))
    refine (c1.bind (fun _ => chk_horner t x l ((s + a) * x))).of_iff ?_
    have e : ∀ k < l.length, s * x ^ (k + 1) + (descPoly ((a :: l).take (k + 1 + 1))).eval x =
        (s + a) * x * x ^ k + (descPoly (l.take (k + 1))).eval x := by
      intro k hk
      rw [List.take_succ_cons, descPoly_cons, List.length_take, min_eq_left (by omega)]
      simp only [eval_add, eval_mul, eval_C, eval_pow, eval_X]
      ring
    constructor
    · rintro ⟨⟨h1, h2⟩, h3⟩ k hk
      cases k with
      | zero => simpa [descPoly_cons] using ⟨h1, h2⟩
      | succ k => rw [e k (by simpa using hk)]; exact h3 k (by simpa using hk)
    · intro H
      refine ⟨by simpa [descPoly_cons] using H 0 (by simp), fun k hk => ?_⟩
      rw [← e k hk]; exact H (k + 1) (by simpa using hk)

theorem divX_iterate_descPoly (l : List Int) (e : Nat) :
    divX^[e] (descPoly l) = descPoly (l.take (l.length - e)) := by
  ext d
  rw [coeff_descPoly_take]
  generalize descPoly l = P
  induction e generalizing d with
  | zero => rfl
  | succ e ih => rw [Function.iterate_succ_apply', coeff_divX, ih]; congr 1; omega

/-- C56, evaluation.  `eval` returns exactly when the point is zero or all the values of the Horner scheme,
before and after their multiplication by the point, are values of the type, and then it returns the exact
value; otherwise it panics.  (`divX^[e]` drops the `e` lowest terms and divides by `x^e`; `e = 0` gives the
value of the polynomial itself.) -/
theorem C56_eval (t : IntTy) (p : Poly Int) (x : Int) :
    ((x = 0 ∨ ∀ e, t.InRange ((divX^[e] (descPoly p.terms)).eval x) ∧
        (0 < e → t.InRange ((divX^[e] (descPoly p.terms)).eval x * x))) →
      p.evalM (.machine true t) x = .ok ((descPoly p.terms).eval x)) ∧
    (¬ (x = 0 ∨ ∀ e, t.InRange ((divX^[e] (descPoly p.terms)).eval x) ∧
        (0 < e → t.InRange ((divX^[e] (descPoly p.terms)).eval x * x))) →
      p.evalM (.machine true t) x = .panic) := by
  rw [← C06_dense_eval p x]
  unfold Poly.evalM Poly.eval
  cases hl : p.terms.getLast? with
  | none =>
    have : p.terms = [] := by simpa using hl
    refine ⟨fun _ => rfl, fun H => absurd (Or.inr fun e => ?_) H⟩
    have h0 : divX^[e] (descPoly p.terms) = 0 := by rw [divX_iterate_descPoly, this]; simp
    rw [h0]
    simp [t.zero_inRange]
  | some last =>
    obtain ⟨ini, hini⟩ := List.getLast?_eq_some_iff.1 hl
    by_cases hx : x = 0
    · simp [hx]
    · simp only [hx, false_or]
      simp only [isZero_eq_true, hx, if_false]
      have hd : p.terms.dropLast = ini := by rw [hini]; simp
      rw [hd]
      have c := (chk_horner t x ini 0).bind
        (f := fun s => (Arith.machine true t).add s last) (fun _ => chk_result t (_ + last))
      refine Chk.of_iff c ?_
      rw [foldl_horner]
      have full : (descPoly p.terms).eval x = 0 * x ^ ini.length + (descPoly ini).eval x * x + last := by
        rw [hini, descPoly_append]; simp [descPoly_cons]
      have hlen : p.terms.length = ini.length + 1 := by rw [hini]; simp
      have htake : ∀ k < ini.length, descPoly (ini.take (k + 1)) =
          divX^[ini.length - k] (descPoly p.terms) := by
        intro k hk
        rw [divX_iterate_descPoly, hlen, hini, List.take_append_of_le_length (by omega)]
        congr 2; omega
      constructor
      · rintro ⟨H1, H2⟩ e
        by_cases he : e = 0
        · subst he; simp only [Function.iterate_zero, id, lt_irrefl, false_imp_iff, and_true]
          rwa [full]
        · by_cases he2 : e ≤ ini.length
          · have := H1 (ini.length - e) (by omega)
            rw [htake _ (by omega), show ini.length - (ini.length - e) = e by omega, zero_mul, zero_add] at this
            exact ⟨this.1, fun _ => this.2⟩
          · have h0 : divX^[e] (descPoly p.terms) = 0 := by
              rw [divX_iterate_descPoly, show p.terms.length - e = 0 by omega]; simp
            rw [h0]
            simp [t.zero_inRange]
      · intro H
        refine ⟨fun k hk => ?_, ?_⟩
        · rw [htake k hk]
          have := H (ini.length - k)
          simpa using ⟨this.1, this.2 (by omega)⟩
        · rw [← full]; exact (H 0).1

/-- C56, evaluation for unsigned types: intermediate values never exceed the result, so `eval` returns exactly
when the value of the polynomial is a value of the type (or the point is zero). -/
theorem C56_eval_unsigned (bits : Nat) (p : Poly Int) (x : Int) (hp : AllIn ⟨false, bits⟩ p.terms)
    (hx : 0 ≤ x) :
    (p.evalM (.machine true ⟨false, bits⟩) x = .ok ((descPoly p.terms).eval x) ↔
      (descPoly p.terms).eval x < 2 ^ bits) := by
  have rng : ∀ v : Int, (⟨false, bits⟩ : IntTy).InRange v ↔ 0 ≤ v ∧ v < 2 ^ bits := by
    intro v
    simp only [IntTy.InRange, IntTy.min, IntTy.max, Bool.false_eq_true, if_false]
    omega
  have hP := (inRange_descPoly _ p.terms).1 hp
  generalize hPP : descPoly p.terms = P at hP
  have hc : ∀ e d, 0 ≤ (divX^[e] P).coeff d := by
    intro e
    induction e with
    | zero => exact fun d => (hP d).1
    | succ e ih => intro d; rw [Function.iterate_succ_apply', coeff_divX]; exact ih _
  have ev : ∀ Q : ℤ[X], (∀ d, 0 ≤ Q.coeff d) → 0 ≤ Q.eval x := by
    intro Q hQ
    rw [eval_eq_sum]
    exact Finset.sum_nonneg fun i _ => mul_nonneg (hQ i) (pow_nonneg hx i)
  have step : ∀ Q : ℤ[X], Q.eval x = Q.divX.eval x * x + Q.coeff 0 := by
    intro Q
    conv_lhs => rw [← divX_mul_X_add Q]
    simp
  have key := C56_eval ⟨false, bits⟩ p x
  rw [hPP] at key
  by_cases h0 : x = 0
  · have hv : P.eval x < 2 ^ bits := by
      rw [h0, ← coeff_zero_eq_eval_zero]; exact ((rng _).1 (hP 0)).2
    exact ⟨fun _ => hv, fun _ => key.1 (Or.inl h0)⟩
  · have mono : ∀ e, (divX^[e] P).eval x ≤ P.eval x ∧ (0 < e → (divX^[e] P).eval x * x ≤ P.eval x) := by
      intro e
      induction e with
      | zero => simp
      | succ e ih =>
        have := step (divX^[e] P)
        rw [show (divX^[e] P).divX = divX^[e + 1] P from (Function.iterate_succ_apply' divX e P).symm] at this
        have h1 := hc e 0
        have h2 := ev _ (hc (e + 1))
        have h3 := ih.1
        have h4 : 1 ≤ x := by omega
        refine ⟨?_, fun _ => by omega⟩
        nlinarith
    constructor
    · intro H
      by_contra hn
      have := key.2 (by
        rintro (h | h)
        · exact h0 h
        · exact hn ((rng _).1 (h 0).1).2)
      rw [this] at H; cases H
    · intro H
      refine key.1 (Or.inr fun e => ⟨(rng _).2 ⟨ev _ (hc e), lt_of_le_of_lt (mono e).1 H⟩,
        fun he => (rng _).2 ⟨mul_nonneg (ev _ (hc e)) hx, lt_of_le_of_lt ((mono e).2 he) H⟩⟩)

/-! ### Derivative -/

theorem chk_derivLoopM (t : IntTy) (hb : 1 ≤ t.bits) : ∀ (l : List Int) (n : Nat), l.length < n → t.InRange n →
    Chk (AllIn t (Poly.derivLoop l (n : Int))) (Poly.derivLoopM (.machine true t) l n)
      (Poly.derivLoop l (n : Int))
  | [], n, _, _ => (Chk.ok _).of_iff (by simp [AllIn, Poly.derivLoop])
  | a :: l, n, hn, hin => by
    obtain ⟨m, rfl⟩ : ∃ m, n = m + 1 := ⟨n - 1, by simp at hn; omega⟩
    have e : (((m + 1 : Nat) : Int) - 1) = (m : Int) := by push_cast; ring
    have hm : t.InRange (m : Int) := ⟨le_trans t.zero_inRange.1 (by positivity),
      le_trans (by push_cast; omega) hin.2⟩
    have ih := chk_derivLoopM t hb l m (by simpa using hn) hm
    unfold Poly.derivLoopM
    rw [show (Arith.machine true t).sub ((m + 1 : Nat) : Int) 1 = .ok (m : Int) by
      show t.result true _ = _
      rw [e]; exact (chk_result t m).1 hm, Res.ok_bind, Poly.derivLoop, e]
    refine ((chk_result t (a * m)).bind (fun _ => ih.map (fun rest => a * (m : Int) :: rest))).of_iff ?_
    simp [AllIn]

/-- C56, derivative.  On a machine with `uw`-bit `usize`, `derivative` of a polynomial with coefficients of
type `t` returns exactly when the type can represent the degree plus one (zero polynomials: always) and every
coefficient of the exact derivative is a value of the type; the result then represents the derivative.
Otherwise it panics. -/
theorem C56_derivative (uw : Nat) (t : IntTy) (hb : 1 ≤ t.bits) (p : Poly Int)
    (hlen : p.terms.length < 2 ^ uw) :
    (((descPoly p.terms ≠ 0 → t.InRange ((descPoly p.terms).natDegree + 1)) ∧
        ∀ d, t.InRange ((descPoly p.terms).derivative.coeff d)) →
      ∃ r, p.derivativeM (.machine true t) (tryFromUsizeContInt uw t) = .ok r ∧
        descPoly r.terms = (descPoly p.terms).derivative ∧ AllIn t r.terms) ∧
    (¬ ((descPoly p.terms ≠ 0 → t.InRange ((descPoly p.terms).natDegree + 1)) ∧
        ∀ d, t.InRange ((descPoly p.terms).derivative.coeff d)) →
      p.derivativeM (.machine true t) (tryFromUsizeContInt uw t) = .panic) := by
  have hfl : p.terms.length - firstNonzeroIndex p.terms = (Poly.new p.terms).terms.length := by
    rw [new_terms]; have := firstNonzeroIndex_add p.terms; omega
  have hdrop : p.terms.drop (firstNonzeroIndex p.terms) = (Poly.new p.terms).terms := by
    rw [new_terms]; exact drop_firstNonzeroIndex _
  have hpoly := C01_new_same_polynomial p.terms
  have hhead : ∀ x xs, (Poly.new p.terms).terms = x :: xs → x ≠ 0 := by
    intro x xs h hx
    rw [new_terms] at h
    have := dropWhile_head_not h
    simp [hx] at this
  have hle : (Poly.new p.terms).terms.length < 2 ^ uw := by omega
  unfold Poly.derivativeM
  simp only [hfl, hdrop]
  rw [tryFromUsizeContInt_eq uw t hb _ hle]
  rw [← hpoly]
  cases hl : (Poly.new p.terms).terms with
  | nil =>
    have h0 : t.InRange (([] : List Int).length : Int) := by simpa using t.zero_inRange
    rw [if_pos h0]
    refine ⟨fun _ => ⟨Poly.zero, rfl, by simp [Poly.zero], by simp [AllIn, Poly.zero]⟩, fun H => absurd ?_ H⟩
    simp [t.zero_inRange]
  | cons x xs =>
    have hx := hhead x xs hl
    have hne : descPoly (x :: xs) ≠ 0 := by
      intro h0
      have := descPoly_cons_degree xs hx
      rw [h0] at this; simp at this
    have hdeg : (descPoly (x :: xs)).natDegree = xs.length :=
      natDegree_eq_of_degree_eq_some (descPoly_cons_degree xs hx)
    rw [hdeg]
    obtain ⟨ini, last, he⟩ : ∃ ini last, x :: xs = ini ++ [last] :=
      ⟨_, _, (List.dropLast_append_getLast (List.cons_ne_nil x xs)).symm⟩
    have hxl : xs.length = ini.length := by
      have := congrArg List.length he; simpa using this
    have hcast : (((x :: xs).length : Nat) : Int) = (xs.length : Int) + 1 := by simp
    rw [hcast]
    by_cases hin : t.InRange ((xs.length : Int) + 1)
    · rw [if_pos hin]
      have c := (chk_derivLoopM t hb ini (ini.length + 1) (by omega)
        (by push_cast; rwa [← hxl])).map Poly.mk
      have e := derivLoop_poly ini last
      rw [← he] at e
      have e' : (((ini.length + 1 : Nat) : Int)) = (xs.length : Int) + 1 := by push_cast; omega
      unfold AllIn at c
      rw [inRange_descPoly, e, e'] at c
      rw [e'] at e
      have hdl : (x :: xs).dropLast = ini := by rw [he]; simp
      simp only [hdl]
      refine ⟨fun H => ⟨_, c.1 H.2, e, (inRange_descPoly _ _).2 (by rw [e]; exact H.2)⟩, fun H => c.2 (fun h => H ⟨fun _ => hin, h⟩)⟩
    · rw [if_neg hin]
      exact ⟨fun H => absurd (H.1 hne) hin, fun _ => rfl⟩

-- Non-vacuity: `i8`, operations at both ends of the range, and one step beyond.
example : (⟨[100, -128]⟩ : Poly Int).addM (.machine true ⟨true, 8⟩) ⟨[27, 5]⟩ = .ok ⟨[127, -123]⟩ ∧
    (⟨[100, -128]⟩ : Poly Int).addM (.machine true ⟨true, 8⟩) ⟨[28, 5]⟩ = .panic ∧
    (⟨[100, -128]⟩ : Poly Int).negM (.machine true ⟨true, 8⟩) = .panic ∧
    (⟨[3, 2]⟩ : Poly Int).subM (.machine true ⟨false, 8⟩) ⟨[3, 1]⟩ = .ok ⟨[0, 1]⟩ ∧
    (⟨[3, 2]⟩ : Poly Int).subRefM (.machine true ⟨false, 8⟩) ⟨[1, 3, 1]⟩ = .panic := by decide
-- A product that is in range, one that overflows only in an intermediate sum, and one that does not fit.
example : (⟨[1, 100]⟩ : Poly Int).mulM (.machine true ⟨true, 8⟩) ⟨[1, -1]⟩ = .ok ⟨[1, 99, -100]⟩ ∧
    (⟨[100, 100, 100]⟩ : Poly Int).mulM (.machine true ⟨true, 8⟩) ⟨[1, 1, -1]⟩ = .panic ∧
    (⟨[100, 100, 100]⟩ : Poly Int).mulM .exact ⟨[1, 1, -1]⟩ = .ok ⟨[100, 200, 100, 0, -100]⟩ ∧
    (⟨[100, 100]⟩ : Poly Int).mulM (.machine true ⟨true, 8⟩) ⟨[-1, 1]⟩ = .ok ⟨[-100, 0, 100]⟩ := by decide
example : (⟨[1, 2, 3, 4]⟩ : Poly Int).evalM (.machine true ⟨true, 16⟩) 10 = .ok 1234 ∧
    (⟨[1, 2, 3, 4]⟩ : Poly Int).evalM (.machine true ⟨true, 8⟩) 10 = .panic ∧
    (⟨[100, -100, 7]⟩ : Poly Int).evalM (.machine true ⟨true, 8⟩) 1 = .ok 7 ∧
    (⟨[2, -128]⟩ : Poly Int).evalM (.machine true ⟨true, 8⟩) 64 = .panic ∧
    (⟨[2, -128]⟩ : Poly Int).eval 64 = 0 := by decide
example : (⟨[0, 42, 0, 7]⟩ : Poly Int).derivativeM (.machine true ⟨true, 8⟩)
      (tryFromUsizeContInt 64 ⟨true, 8⟩) = .ok ⟨[84, 0]⟩ ∧
    (⟨[64, 0, 7]⟩ : Poly Int).derivativeM (.machine true ⟨true, 8⟩)
      (tryFromUsizeContInt 64 ⟨true, 8⟩) = .panic := by decide +kernel

/-! ## C57 – builds without overflow checks -/

theorem wrap_add_left (t : IntTy) (a b : Int) : t.wrap (t.wrap a + b) = t.wrap (a + b) :=
  t.wrap_congr ((t.wrap_modEq a).add_right b)
theorem wrap_add_right (t : IntTy) (a b : Int) : t.wrap (a + t.wrap b) = t.wrap (a + b) :=
  t.wrap_congr ((t.wrap_modEq b).add_left a)
theorem wrap_mul_left (t : IntTy) (a b : Int) : t.wrap (t.wrap a * b) = t.wrap (a * b) :=
  t.wrap_congr ((t.wrap_modEq a).mul_right b)
theorem wrap_sub_left (t : IntTy) (a b : Int) : t.wrap (t.wrap a - b) = t.wrap (a - b) :=
  t.wrap_congr ((t.wrap_modEq a).sub_right b)

theorem wrap_allIn (t : IntTy) (hb : 1 ≤ t.bits) {l : List Int} (h : AllIn t l) : l.map t.wrap = l := by
  conv_rhs => rw [← List.map_id l]
  exact List.map_congr_left fun x hx => t.wrap_of_inRange hb x (h x hx)

theorem wrap_zipMutM {f : Int → Int → Res Int} {g : Int → Int → Int} (t : IntTy)
    (h : ∀ x y, f (t.wrap x) y = .ok (t.wrap (g x y))) :
    ∀ xs ys : List Int, zipMutM f (xs.map t.wrap) ys = .ok ((zipMut g xs ys).map t.wrap)
  | [], ys => by simp [zipMutM]
  | x :: xs, [] => by simp [zipMutM]
  | x :: xs, y :: ys => by simp [zipMutM, h, wrap_zipMutM t h xs ys]

theorem wrap_mapM {f : Int → Res Int} {g : Int → Int} (t : IntTy) (h : ∀ x, f x = .ok (t.wrap (g x)))
    (l : List Int) : l.mapM f = .ok ((l.map g).map t.wrap) := by
  induction l with
  | nil => rfl
  | cons x l ih => rw [List.mapM_cons, h, ih]; rfl

theorem wrap_aligned {f : Int → Int → Res Int} {g : Int → Int → Int} (t : IntTy)
    (h : ∀ x y, f (t.wrap x) y = .ok (t.wrap (g x y))) {α : Type} (F : List Int → α) (a b : List Int)
    (n : Nat) (hn : n ≤ a.length) :
    (do
      let tail ← sliceFrom (a.map t.wrap) n
      let tail ← zipMutM f tail b
      Res.ok (F ((a.map t.wrap).take n ++ tail))) = .ok (F ((a.take n ++ zipMut g (a.drop n) b).map t.wrap)) := by
  simp only [sliceFrom, List.length_map, if_pos hn, Res.ok_bind, ← List.map_drop, ← List.map_take,
    wrap_zipMutM t h, List.map_append]

theorem coeff_map_wrap (t : IntTy) (l : List Int) (d : Nat) :
    (descPoly (l.map t.wrap)).coeff d = t.wrap ((descPoly l).coeff d) := by
  rw [coeff_descPoly, coeff_descPoly, List.getD_eq_getElem?_getD, List.getD_eq_getElem?_getD,
    ← List.map_reverse, List.getElem?_map]
  cases l.reverse[d]? with
  | none => simp [t.wrap_zero]
  | some x => rfl

theorem AllIn.map_wrap (t : IntTy) (hb : 1 ≤ t.bits) (l : List Int) : AllIn t (l.map t.wrap) := by
  intro x hx
  obtain ⟨y, _, rfl⟩ := List.mem_map.1 hx
  exact t.wrap_inRange hb y

theorem AllIn.new (t : IntTy) {l : List Int} (h : AllIn t l) : AllIn t (Poly.new l).terms := by
  rw [new_terms]
  exact fun x hx => h x ((List.dropWhile_sublist _).mem hx)

/-- `r` holds values of type `t` congruent to the coefficients of `P` modulo `2 ^ bits`. -/
def IsWrapOf (t : IntTy) (r : Poly Int) (P : ℤ[X]) : Prop :=
  AllIn t r.terms ∧ ∀ d, (descPoly r.terms).coeff d = t.wrap (P.coeff d)

theorem isWrapOf_mk (t : IntTy) (hb : 1 ≤ t.bits) (l : List Int) :
    IsWrapOf t ⟨l.map t.wrap⟩ (descPoly l) := ⟨AllIn.map_wrap t hb l, coeff_map_wrap t l⟩

theorem isWrapOf_new (t : IntTy) (hb : 1 ≤ t.bits) (l : List Int) :
    IsWrapOf t (Poly.new (l.map t.wrap)) (descPoly l) :=
  ⟨(AllIn.map_wrap t hb l).new, fun d => by rw [C01_new_same_polynomial, coeff_map_wrap]⟩

/-- Specification check: the wrapped value is the only value of the type in its residue class. -/
theorem wrap_unique (t : IntTy) (hb : 1 ≤ t.bits) (v w : Int) :
    w = t.wrap v ↔ t.InRange w ∧ w ≡ v [ZMOD 2 ^ t.bits] := by
  constructor
  · rintro rfl; exact ⟨t.wrap_inRange hb v, t.wrap_modEq v⟩
  · rintro ⟨h1, h2⟩
    rw [← t.wrap_of_inRange hb w h1]; exact t.wrap_congr h2

/-- C57: without overflow checks negation, every spelling of addition and subtraction, and multiplication by
scalars return, and every coefficient of the result is the exact one reduced to the type modulo `2 ^ bits`. -/
theorem C57_linear (t : IntTy) (hb : 1 ≤ t.bits) (p q : Poly Int) (c : Int) (hp : AllIn t p.terms)
    (hq : AllIn t q.terms) :
    (∃ r, p.negM (.machine false t) = .ok r ∧ IsWrapOf t r (- descPoly p.terms)) ∧
    (∃ r, p.addM (.machine false t) q = .ok r ∧ IsWrapOf t r (descPoly p.terms + descPoly q.terms)) ∧
    (∃ r, p.addAssignM (.machine false t) q = .ok r ∧ IsWrapOf t r (descPoly p.terms + descPoly q.terms)) ∧
    (∃ r, p.subM (.machine false t) q = .ok r ∧ IsWrapOf t r (descPoly p.terms - descPoly q.terms)) ∧
    (∃ r, p.subRefM (.machine false t) q = .ok r ∧ IsWrapOf t r (descPoly p.terms - descPoly q.terms)) ∧
    (∃ r, p.mulScalarM (.machine false t) c = .ok r ∧ IsWrapOf t r (descPoly p.terms * C c)) ∧
    (∃ r, p.mulAssignScalarM (.machine false t) c = .ok r ∧ IsWrapOf t r (descPoly p.terms * C c)) := by
  have hpw := wrap_allIn t hb hp
  have hqw := wrap_allIn t hb hq
  have fadd : ∀ x y, (Arith.machine false t).add (t.wrap x) y = .ok (t.wrap (x + y)) :=
    fun x y => congrArg Res.ok (wrap_add_left t x y)
  have fsub : ∀ x y, (Arith.machine false t).sub (t.wrap x) y = .ok (t.wrap (x - y)) :=
    fun x y => congrArg Res.ok (wrap_sub_left t x y)
  have frsub : ∀ x y, (Arith.machine false t).sub y (t.wrap x) = .ok (t.wrap (y - x)) := by
    intro x y
    refine congrArg Res.ok (t.wrap_congr ((t.wrap_modEq x).sub_left y))
  refine ⟨?_, ?_, ?_, ?_, ?_, ?_, ?_⟩
  · refine ⟨_, by rw [Poly.negM, wrap_mapM t (f := (Arith.machine false t).neg) (g := fun x => -x) (fun _ => rfl)]; rfl, ?_⟩
    rw [← descPoly_map_neg]
    exact isWrapOf_mk t hb _
  · obtain ⟨r, hr, hr'⟩ := C08_dense_add p q
    unfold Poly.addM
    unfold Poly.add at hr
    by_cases h : q.terms.length > p.terms.length
    · simp only [h, if_true] at hr ⊢
      simp only [sliceFrom, Nat.sub_le, if_true, Res.ok_bind, Res.ok.injEq] at hr
      have := wrap_aligned t fadd Poly.new q.terms p.terms (q.terms.length - p.terms.length) (by omega)
      rw [hqw] at this
      refine ⟨_, this, ?_⟩
      rw [← hr', ← hr, C01_new_same_polynomial]
      exact isWrapOf_new t hb _
    · simp only [h, if_false] at hr ⊢
      simp only [sliceFrom, Nat.sub_le, if_true, Res.ok_bind, Res.ok.injEq] at hr
      have := wrap_aligned t fadd Poly.new p.terms q.terms (p.terms.length - q.terms.length) (by omega)
      rw [hpw] at this
      refine ⟨_, this, ?_⟩
      rw [← hr', ← hr, C01_new_same_polynomial]
      exact isWrapOf_new t hb _
  · obtain ⟨r, hr, hr'⟩ := C08_dense_add_assign p q
    unfold Poly.addAssignM
    unfold Poly.addAssign at hr
    by_cases h : q.terms.length > p.terms.length
    · simp only [h, if_true] at hr ⊢
      simp only [sliceFrom, Nat.sub_le, if_true, Res.ok_bind, Res.ok.injEq] at hr
      have := wrap_aligned t fadd Poly.mk q.terms p.terms (q.terms.length - p.terms.length) (by omega)
      rw [hqw] at this
      refine ⟨_, this, ?_⟩
      rw [← hr', ← hr]
      exact isWrapOf_mk t hb _
    · simp only [h, if_false] at hr ⊢
      simp only [sliceFrom, Nat.sub_le, if_true, Res.ok_bind, Res.ok.injEq] at hr
      have := wrap_aligned t fadd Poly.mk p.terms q.terms (p.terms.length - q.terms.length) (by omega)
      rw [hpw] at this
      refine ⟨_, this, ?_⟩
      rw [← hr', ← hr]
      exact isWrapOf_mk t hb _
  · obtain ⟨r, hr, hr'⟩ := C09_dense_sub p q
    unfold Poly.subM
    unfold Poly.sub at hr
    by_cases h : q.terms.length > p.terms.length
    · simp only [h, if_true, Res.ok.injEq] at hr ⊢
      have c1 := wrap_mapM t (f := (Arith.machine false t).neg) (g := fun x => -x) (fun _ => rfl)
        (q.terms.take (q.terms.length - p.terms.length))
      have c2 := wrap_zipMutM t (f := fun term val => (Arith.machine false t).sub val term) frsub
        (q.terms.drop (q.terms.length - p.terms.length)) p.terms
      rw [List.map_drop, hqw] at c2
      rw [c1, Res.ok_bind, c2, Res.ok_bind, ← List.map_append]
      refine ⟨_, rfl, ?_⟩
      rw [← hr', ← hr]
      exact isWrapOf_mk t hb _
    · simp only [h, if_false] at hr ⊢
      simp only [sliceFrom, Nat.sub_le, if_true, Res.ok_bind, Res.ok.injEq] at hr
      have := wrap_aligned t fsub Poly.mk p.terms q.terms (p.terms.length - q.terms.length) (by omega)
      rw [hpw] at this
      refine ⟨_, this, ?_⟩
      rw [← hr', ← hr]
      exact isWrapOf_mk t hb _
  · obtain ⟨r, hr, hr'⟩ := C09_dense_sub_ref p q
    unfold Poly.subRefM
    unfold Poly.subRef at hr
    by_cases h : q.terms.length > p.terms.length
    · simp only [h, if_true, Res.ok.injEq] at hr ⊢
      have c1 := wrap_mapM t (f := (Arith.machine false t).neg) (g := fun x => -x) (fun _ => rfl)
        (q.terms.take (q.terms.length - p.terms.length))
      have c2 := wrap_zipMutM t (f := fun l r => (Arith.machine false t).sub l r) fsub
        p.terms (q.terms.drop (q.terms.length - p.terms.length))
      rw [hpw] at c2
      rw [c1, Res.ok_bind, c2, Res.ok_bind, ← List.map_append]
      refine ⟨_, rfl, ?_⟩
      rw [← hr', ← hr]
      exact isWrapOf_mk t hb _
    · simp only [h, if_false] at hr ⊢
      simp only [sliceFrom, Nat.sub_le, if_true, Res.ok_bind, Res.ok.injEq] at hr
      have := wrap_aligned t fsub Poly.mk p.terms q.terms (p.terms.length - q.terms.length) (by omega)
      rw [hpw] at this
      refine ⟨_, this, ?_⟩
      rw [← hr', ← hr]
      exact isWrapOf_mk t hb _
  · refine ⟨_, by rw [Poly.mulScalarM, wrap_mapM t (f := fun x => (Arith.machine false t).mul x c)
      (g := fun x => x * c) (fun _ => rfl)]; rfl, ?_⟩
    rw [← descPoly_map_mul_right]
    exact isWrapOf_new t hb _
  · refine ⟨_, by rw [Poly.mulAssignScalarM, wrap_mapM t (f := fun x => (Arith.machine false t).mul x c)
      (g := fun x => x * c) (fun _ => rfl)]; rfl, ?_⟩
    rw [← descPoly_map_mul_right]
    exact isWrapOf_mk t hb _

theorem wrap_sliceMulLoopM (t : IntTy) (lhs : List Int) : ∀ (rest : List Int) (index : Nat) (terms : List Int),
    terms.length + 1 = index + rest.length + lhs.length →
    ∃ out, sliceMulLoop lhs rest index terms = .ok out ∧
      sliceMulLoopM (.machine false t) lhs rest index (terms.map t.wrap) = .ok (out.map t.wrap)
  | [], index, terms, _ => ⟨terms, rfl, rfl⟩
  | r :: rest, index, terms, h => by
    simp only [List.length_cons] at h
    have hidx : index ≤ terms.length := by omega
    by_cases hr : r = 0
    · obtain ⟨out, h1, h2⟩ := wrap_sliceMulLoopM t lhs rest (index + 1) terms (by omega)
      refine ⟨out, ?_, ?_⟩
      · simp [sliceMulLoop, sliceMulStep, hr, h1]
      · simp [sliceMulLoopM, sliceMulStepM, hr, h2]
    · have hf : ∀ x y, ((Arith.machine false t).mul r y >>= fun v => (Arith.machine false t).add (t.wrap x) v) =
          .ok (t.wrap (x + r * y)) := by
        intro x y
        show Res.ok (t.wrap (t.wrap x + t.wrap (r * y))) = _
        rw [wrap_add_left, wrap_add_right]
      obtain ⟨out, h1, h2⟩ := wrap_sliceMulLoopM t lhs rest (index + 1)
        (terms.take index ++ zipMut (fun term lterm => term + r * lterm) (terms.drop index) lhs) (by simp; omega)
      have hs : sliceMulStepM (.machine false t) lhs (terms.map t.wrap) index r = .ok
          ((terms.take index ++ zipMut (fun term lterm => term + r * lterm) (terms.drop index) lhs).map t.wrap) := by
        unfold sliceMulStepM
        rw [if_neg hr]
        exact wrap_aligned (f := fun term lterm => (Arith.machine false t).mul r lterm >>= fun x =>
          (Arith.machine false t).add term x) t hf id terms lhs index hidx
      refine ⟨out, ?_, ?_⟩
      · simp [sliceMulLoop, sliceMulStep, hr, sliceFrom, hidx]
        simpa using h1
      · rw [sliceMulLoopM, hs]; exact h2

/-- C57: without overflow checks every spelling of `*` returns unless both operands are zero, and every
coefficient of the result is that of the exact product reduced to the type. -/
theorem C57_mul (t : IntTy) (hb : 1 ≤ t.bits) (p q : Poly Int)
    (h : descPoly p.terms ≠ 0 ∨ descPoly q.terms ≠ 0) :
    (∃ r, p.mulM (.machine false t) q = .ok r ∧ IsWrapOf t r (descPoly p.terms * descPoly q.terms)) ∧
    (∃ r, p.mulRefM (.machine false t) q = .ok r ∧ IsWrapOf t r (descPoly p.terms * descPoly q.terms)) := by
  obtain ⟨out, h1, e⟩ := sliceMul_ok p.terms q.terms h
  have key : sliceMulM (.machine false t) p.terms q.terms = .ok (out.map t.wrap) := by
    unfold sliceMul at h1
    unfold sliceMulM
    simp only [sliceFrom, firstNonzeroIndex_le, if_true, Res.ok_bind, drop_firstNonzeroIndex] at h1 ⊢
    generalize List.dropWhile _ p.terms = a' at h1 ⊢
    generalize List.dropWhile _ q.terms = b' at h1 ⊢
    by_cases hl : 1 ≤ b'.length + a'.length
    · simp only [usub, hl, if_true, Res.ok_bind] at h1 ⊢
      obtain ⟨out', h2, h3⟩ := wrap_sliceMulLoopM t a' b' 0 (List.replicate (b'.length + a'.length - 1) 0)
        (by simp; omega)
      obtain rfl := Res.ok.inj (h1.symm.trans h2)
      rw [List.map_replicate, t.wrap_zero] at h3
      exact h3
    · simp only [usub, hl, if_false] at h1; cases h1
  refine ⟨⟨_, by rw [Poly.mulM, key]; rfl, ?_⟩, ⟨_, by rw [Poly.mulRefM, key]; rfl, ?_⟩⟩
  · rw [← e]; exact isWrapOf_mk t hb _
  · rw [← e]; exact isWrapOf_new t hb _

/-- C57: without overflow checks `eval` returns the exact value reduced to the type. -/
theorem C57_eval (t : IntTy) (hb : 1 ≤ t.bits) (p : Poly Int) (x : Int) (hp : AllIn t p.terms) :
    p.evalM (.machine false t) x = .ok (t.wrap ((descPoly p.terms).eval x)) := by
  rw [← C06_dense_eval p x]
  unfold Poly.evalM Poly.eval
  cases hl : p.terms.getLast? with
  | none => simp [t.wrap_zero]
  | some last =>
    obtain ⟨ini, hini⟩ := List.getLast?_eq_some_iff.1 hl
    have hlast : t.wrap last = last := t.wrap_of_inRange hb last (hp last (by rw [hini]; simp))
    by_cases hx : x = 0
    · simp [hx, hlast]
    · simp only [isZero_eq_true, hx, if_false]
      have key : ∀ (l : List Int) (s : Int), l.foldlM (fun sum val =>
          (Arith.machine false t).add sum val >>= fun sum => (Arith.machine false t).mul sum x) (t.wrap s) =
          .ok (t.wrap (l.foldl (fun sum val => (sum + val) * x) s)) := by
        intro l
        induction l with
        | nil => intro s; rfl
        | cons a l ih =>
          intro s
          rw [List.foldlM_cons, List.foldl_cons, ← ih]
          show (Res.ok (t.wrap (t.wrap (t.wrap s + a) * x)) >>= _) = _
          rw [wrap_add_left, wrap_mul_left, Res.ok_bind]
      have := key p.terms.dropLast 0
      rw [t.wrap_zero] at this
      rw [this, Res.ok_bind]
      exact congrArg Res.ok (wrap_add_left t _ _)

-- Non-vacuity: `u8` and `i8` results that wrap.
example : (⟨[200, 3]⟩ : Poly Int).addM (.machine false ⟨false, 8⟩) ⟨[56, 255]⟩ = .ok ⟨[2]⟩ ∧
    (⟨[100, 1]⟩ : Poly Int).mulM (.machine false ⟨true, 8⟩) ⟨[3, 1]⟩ = .ok ⟨[44, 103, 1]⟩ ∧
    (⟨[1, 2, 3, 4]⟩ : Poly Int).evalM (.machine false ⟨true, 8⟩) 10 = .ok (-46) ∧
    (⟨[-128, 1]⟩ : Poly Int).negM (.machine false ⟨true, 8⟩) = .ok ⟨[-128, -1]⟩ := by decide

end Rustnomial
