import Verif.Props.Laws
import Verif.Props.DenseShift
import Verif.Props.DenseCalc
import Verif.Props.DenseDiv
import Verif.Props.SparseDiv
import Verif.Model.Strings

/-!
# Observers cannot distinguish representations (C54)
-/

open Polynomial

set_option linter.unusedSectionVars false

namespace Rustnomial

/-- The two computations end the same way: both return related values, both panic, or both are
still running after the same number of loop iterations. -/
def SameOutcome {α β : Type} (rel : α → β → Prop) : Res α → Res β → Prop
  | .ok a, .ok b => rel a b
  | .panic, .panic => True
  | .fuel, .fuel => True
  | _, _ => False

theorem SameOutcome.bind {α β γ δ : Type} {r : α → β → Prop} {s : γ → δ → Prop} {x : Res α} {y : Res β}
    {f : α → Res γ} {g : β → Res δ} (h : SameOutcome r x y)
    (hf : ∀ a b, r a b → SameOutcome s (f a) (g b)) : SameOutcome s (x >>= f) (y >>= g) := by
  cases x <;> cases y <;> simp only [SameOutcome] at h
  · exact hf _ _ h
  all_goals trivial

theorem SameOutcome.refl {α : Type} {r : α → α → Prop} (hr : ∀ a, r a a) (x : Res α) : SameOutcome r x x := by
  cases x <;> simp [SameOutcome, hr]

theorem SameOutcome.of_ok {α β : Type} {r : α → β → Prop} {x : Res α} {y : Res β} {a : α} {b : β}
    (h1 : x = .ok a) (h2 : y = .ok b) (h : r a b) : SameOutcome r x y := by
  rw [h1, h2]; exact h

theorem toWithBot_inj {a b : Degree} (h : a.toWithBot = b.toWithBot) : a = b := by
  cases a <;> cases b <;> simp [Degree.toWithBot] at h ⊢
  exact_mod_cast h

/-! ## Polynomial -/

section Dense
variable {R : Type} [CommRing R] [NumZero R] [LawfulNumZero R] [BEq R] [LawfulBEq R]

/-- C54 (Polynomial), queries, evaluation and printing. -/
theorem C54_dense_queries (p q : Poly R) (h : p.eq q = true) :
    p.degree = q.degree ∧ p.isZeroPoly = q.isZeroPoly ∧ p.termsAsVec = q.termsAsVec ∧
    (∀ d, p.termWithDegree d = q.termWithDegree d) ∧ (∀ x, p.eval x = q.eval x) ∧
    (∀ F : NumFmt R, p.display F = q.display F) := by
  have hi : p.orderedTermIter = q.orderedTermIter := by simpa [Poly.eq] using h
  rw [C05_dense_eq] at h
  have hd : p.degree = q.degree := toWithBot_inj (by rw [C02_dense_degree, C02_dense_degree, h])
  refine ⟨hd, by rw [Poly.isZeroPoly, hd, Poly.isZeroPoly], hi, fun d => ?_, fun x => ?_, fun F => ?_⟩
  · by_cases h0 : (descPoly p.terms).coeff d = 0
    · rw [(C04_dense_term p d).1 h0, (C04_dense_term q d).1 (h ▸ h0)]
    · rw [(C04_dense_term p d).2 h0, (C04_dense_term q d).2 (h ▸ h0), h]
  · rw [C06_dense_eval, C06_dense_eval, h]
  · rw [Poly.display, hi, Poly.display]

/-- C54 (Polynomial), arithmetic: `==` is a congruence for every ring operation, with the panics. -/
theorem C54_dense_arith (p p' q q' : Poly R) (h : p.eq p' = true) (h' : q.eq q' = true) :
    SameOutcome (fun a b => a.eq b = true) (p.add q) (p'.add q') ∧
    SameOutcome (fun a b => a.eq b = true) (p.addAssign q) (p'.addAssign q') ∧
    SameOutcome (fun a b => a.eq b = true) (p.sub q) (p'.sub q') ∧
    SameOutcome (fun a b => a.eq b = true) (p.subRef q) (p'.subRef q') ∧
    SameOutcome (fun a b => a.eq b = true) (p.mul q) (p'.mul q') ∧
    SameOutcome (fun a b => a.eq b = true) (p.mulRef q) (p'.mulRef q') ∧
    p.neg.eq p'.neg = true ∧
    (∀ c, (p.mulScalar c).eq (p'.mulScalar c) = true) ∧
    (∀ c, (p.mulAssignScalar c).eq (p'.mulAssignScalar c) = true) ∧
    (∀ c d, (p.addTerm c d).eq (p'.addTerm c d) = true) := by
  simp only [C05_dense_eq] at h h' ⊢
  refine ⟨?_, ?_, ?_, ?_, ?_, ?_, ?_, fun c => ?_, fun c => ?_, fun c d => ?_⟩
  · obtain ⟨r, e, f⟩ := C08_dense_add p q
    obtain ⟨r', e', f'⟩ := C08_dense_add p' q'
    exact .of_ok e e' (by rw [f, f', h, h'])
  · obtain ⟨r, e, f⟩ := C08_dense_add_assign p q
    obtain ⟨r', e', f'⟩ := C08_dense_add_assign p' q'
    exact .of_ok e e' (by rw [f, f', h, h'])
  · obtain ⟨r, e, f⟩ := C09_dense_sub p q
    obtain ⟨r', e', f'⟩ := C09_dense_sub p' q'
    exact .of_ok e e' (by rw [f, f', h, h'])
  · obtain ⟨r, e, f⟩ := C09_dense_sub_ref p q
    obtain ⟨r', e', f'⟩ := C09_dense_sub_ref p' q'
    exact .of_ok e e' (by rw [f, f', h, h'])
  · by_cases hz : descPoly p.terms = 0 ∧ descPoly q.terms = 0
    · rw [((C11_dense_mul_panics_iff p q).1).2 hz, ((C11_dense_mul_panics_iff p' q').1).2 (h ▸ h' ▸ hz)]
      trivial
    · have hz1 : descPoly p.terms ≠ 0 ∨ descPoly q.terms ≠ 0 := by tauto
      obtain ⟨r, e, f⟩ := (C11_dense_mul_partial p q hz1).1
      obtain ⟨r', e', f'⟩ := (C11_dense_mul_partial p' q' (h ▸ h' ▸ hz1)).1
      exact .of_ok e e' (by rw [f, f', h, h'])
  · by_cases hz : descPoly p.terms = 0 ∧ descPoly q.terms = 0
    · rw [((C11_dense_mul_panics_iff p q).2).2 hz, ((C11_dense_mul_panics_iff p' q').2).2 (h ▸ h' ▸ hz)]
      trivial
    · have hz1 : descPoly p.terms ≠ 0 ∨ descPoly q.terms ≠ 0 := by tauto
      obtain ⟨r, e, f⟩ := (C11_dense_mul_partial p q hz1).2
      obtain ⟨r', e', f'⟩ := (C11_dense_mul_partial p' q' (h ▸ h' ▸ hz1)).2
      exact .of_ok e e' (by rw [f, f', h, h'])
  · rw [(C10_dense_neg p).1, (C10_dense_neg p').1, h]
  · rw [C13_dense_mul_scalar, C13_dense_mul_scalar, h]
  · rw [C13_dense_mul_assign_scalar, C13_dense_mul_assign_scalar, h]
  · rw [C31_dense_add_term, C31_dense_add_term, h]

theorem mulRef_same {p p' q q' : Poly R} (h : descPoly p.terms = descPoly p'.terms)
    (h' : descPoly q.terms = descPoly q'.terms) :
    SameOutcome (fun a b : Poly R => descPoly a.terms = descPoly b.terms) (p.mulRef q) (p'.mulRef q') := by
  have := (C54_dense_arith p p' q q' ((C05_dense_eq _ _).2 h) ((C05_dense_eq _ _).2 h')).2.2.2.2.2.1
  simpa only [C05_dense_eq] using this

theorem mul_same {p p' q q' : Poly R} (h : descPoly p.terms = descPoly p'.terms)
    (h' : descPoly q.terms = descPoly q'.terms) :
    SameOutcome (fun a b : Poly R => descPoly a.terms = descPoly b.terms) (p.mul q) (p'.mul q') := by
  have := (C54_dense_arith p p' q q' ((C05_dense_eq _ _).2 h) ((C05_dense_eq _ _).2 h')).2.2.2.2.1
  simpa only [C05_dense_eq] using this

theorem pow_same {n : Nat} : ∀ {p p' : Poly R}, descPoly p.terms = descPoly p'.terms →
    SameOutcome (fun a b : Poly R => descPoly a.terms = descPoly b.terms) (p.pow n) (p'.pow n) := by
  induction n using Nat.strongRecOn with
  | _ n ih =>
    intro p p' h
    rw [Poly.pow.eq_def p n, Poly.pow.eq_def p' n]
    split_ifs
    · rfl
    · show descPoly (Poly.new _).terms = descPoly (Poly.new _).terms
      rw [C01_new_same_polynomial, C01_new_same_polynomial, h]
    · exact mulRef_same h h
    · exact (ih (n / 2) (by omega) h).bind fun a b hab => ih 2 (by omega) hab
    · exact (ih (n - 1) (by omega) h).bind fun a b hab => mulRef_same h hab

/-- C54 (Polynomial), powers. -/
theorem C54_dense_pow (p p' : Poly R) (h : p.eq p' = true) (n : Nat) :
    SameOutcome (fun a b => a.eq b = true) (p.pow n) (p'.pow n) := by
  simp only [C05_dense_eq] at h ⊢
  exact pow_same h

/-- C54 (Polynomial), calculus: the outcomes are even identical. -/
theorem C54_dense_calculus [FromUsizeCont R] [RDiv R] (p p' : Poly R) (h : p.eq p' = true) :
    p.derivative = p'.derivative ∧ p.integral = p'.integral := by
  rw [C05_dense_eq] at h
  have hd := dropWhile_eq_of_descPoly_eq h
  have hl : p.terms.length - firstNonzeroIndex p.terms = p'.terms.length - firstNonzeroIndex p'.terms := by
    have h1 := firstNonzeroIndex_add p.terms
    have h2 := firstNonzeroIndex_add p'.terms
    rw [hd] at h1; omega
  constructor
  · simp only [Poly.derivative, drop_firstNonzeroIndex, hl, hd]
  · simp only [Poly.integral, drop_firstNonzeroIndex, hl, hd]

theorem mapM_rdiv_zeros [RDiv R] {c : R} (h0 : rdiv (0 : R) c = .ok 0) (l : List R) :
    ∃ n, l.mapM (fun x => rdiv x c)
      = (fun t => List.replicate n 0 ++ t) <$> (l.dropWhile isZero).mapM (fun x => rdiv x c) := by
  induction l with
  | nil => exact ⟨0, by simp⟩
  | cons a l ih =>
    by_cases ha : isZero a = true
    · obtain ⟨n, hn⟩ := ih
      have ha' : a = 0 := by simpa using ha
      subst ha'
      refine ⟨n + 1, ?_⟩
      rw [List.mapM_cons, h0, Res.ok_bind, hn, List.dropWhile_cons_of_pos ha]
      cases (List.mapM (fun x => rdiv x c) (List.dropWhile isZero l) : Res (List R)) <;>
        simp [List.replicate_succ]
    · refine ⟨0, ?_⟩
      rw [List.dropWhile_cons_of_neg ha]
      cases (List.mapM (fun x => rdiv x c) (a :: l) : Res (List R)) <;> simp

/-- C54 (Polynomial), scalar division; proved whenever zero divided by the scalar is zero (true of every
numeric type for a non-zero scalar; see `C54_false` for zero). -/
theorem C54_dense_div_scalar_partial [RDiv R] (p p' : Poly R) (h : p.eq p' = true) (c : R)
    (h0 : rdiv (0 : R) c = .ok 0) :
    SameOutcome (fun a b => a.eq b = true) (p.divScalar c) (p'.divScalar c) ∧
    SameOutcome (fun a b => a.eq b = true) (p.divAssignScalar c) (p'.divAssignScalar c) := by
  simp only [C05_dense_eq] at h ⊢
  have hd := dropWhile_eq_of_descPoly_eq h
  obtain ⟨n, hn⟩ := mapM_rdiv_zeros h0 p.terms
  obtain ⟨m, hm⟩ := mapM_rdiv_zeros h0 p'.terms
  rw [Poly.divScalar, Poly.divScalar, Poly.divAssignScalar, Poly.divAssignScalar, hn, hm, hd]
  have hz : ∀ n (t : List R), descPoly (List.replicate n 0 ++ t) = descPoly t := by
    intro n t
    induction n with
    | zero => simp
    | succ n ih => rw [List.replicate_succ, List.cons_append, descPoly_cons, ih]; simp
  cases (List.mapM (fun x => rdiv x c) (List.dropWhile isZero p'.terms) : Res (List R)) with
  | ok t =>
    constructor
    · show descPoly (Poly.new _).terms = descPoly (Poly.new _).terms
      rw [C01_new_same_polynomial, C01_new_same_polynomial, hz, hz]
    · show descPoly _ = descPoly _
      rw [hz, hz]
  | panic => exact ⟨trivial, trivial⟩
  | fuel => exact ⟨trivial, trivial⟩

omit [BEq R] [LawfulBEq R] in
theorem IsShiftRight.unique {P Q Q' : R[X]} {k : Nat} (h : IsShiftRight P Q k) (h' : IsShiftRight P Q' k) :
    Q = Q' := by
  ext d; rw [h, h']

/-- C54 (Polynomial), in-place shifts. -/
theorem C54_dense_shift_assign (p p' : Poly R) (h : p.eq p' = true) (k : Int) :
    SameOutcome (fun a b => a.eq b = true) (p.shlAssign k) (p'.shlAssign k) ∧
    SameOutcome (fun a b => a.eq b = true) (p.shrAssign k) (p'.shrAssign k) := by
  simp only [C05_dense_eq] at h ⊢
  by_cases hk : k = -2 ^ 31
  · subst hk
    constructor
    · rw [Poly.shlAssign, if_pos (by decide), negI32_min, Poly.shlAssign, if_pos (by decide), negI32_min]
      trivial
    · rw [Poly.shrAssign, if_pos (by decide), negI32_min, Poly.shrAssign, if_pos (by decide), negI32_min]
      trivial
  · obtain ⟨⟨r, e, a1, a2⟩, ⟨s, f, b1, b2⟩⟩ := C14_dense_shift_assign_partial p k hk
    obtain ⟨⟨r', e', a1', a2'⟩, ⟨s', f', b1', b2'⟩⟩ := C14_dense_shift_assign_partial p' k hk
    rw [h] at a1 a2 b1 b2
    refine ⟨.of_ok e e' ?_, .of_ok f f' ?_⟩
    · by_cases hs : 0 ≤ k
      · rw [a1 hs, a1' hs]
      · exact (a2 (by omega)).unique (a2' (by omega))
    · by_cases hs : 0 ≤ k
      · exact (b1 hs).unique (b1' hs)
      · rw [b2 (by omega), b2' (by omega)]

omit [BEq R] [LawfulBEq R] in
theorem shrPos_sound (p : Poly R) (k : Nat) (r : Poly R) (hr : p.shrPos k = .ok r) :
    IsShiftRight (descPoly p.terms) (descPoly r.terms) k := by
  have hsr : p.shr (k : Int) = .ok r := by
    rw [Poly.shr, if_neg (by omega), Int.toNat_natCast]; exact hr
  have hnp : ¬ ((Poly.new p.terms).terms.length < k ∧ k ≤ p.terms.length) := by
    intro hc
    rw [(C14_dense_shr_panics_iff p k).2 hc] at hsr
    cases hsr
  obtain ⟨r', e, f⟩ := shrPos_ok p k (by omega)
  rw [hr] at e; rw [Res.ok.inj e]; exact f

/-- C54 (Polynomial), `<<` and `>>` producing a new value.  Left shifts do the same; right shifts agree
whenever both return (a right shift of an untrimmed value can panic, `C54_false`). -/
theorem C54_dense_shift_partial (p p' : Poly R) (h : p.eq p' = true) (k : Int) :
    (0 ≤ k → p.shl k = p'.shl k) ∧ (k < 0 → p.shr k = p'.shr k) ∧
    (k < 0 → ResAgree Poly.eq (p.shl k) (p'.shl k)) ∧ (0 ≤ k → ResAgree Poly.eq (p.shr k) (p'.shr k)) := by
  have hd := dropWhile_eq_of_descPoly_eq ((C05_dense_eq _ _).1 h)
  have hl : ∀ k, p.shlPos k = p'.shlPos k := by
    intro k
    unfold Poly.shlPos sliceFrom
    rw [if_pos (firstNonzeroIndex_le _), if_pos (firstNonzeroIndex_le _), drop_firstNonzeroIndex,
      drop_firstNonzeroIndex, hd]
  have hr : ∀ k : Nat, ResAgree Poly.eq (p.shrPos k) (p'.shrPos k) := by
    intro k r s h1 h2
    have k1 := shrPos_sound p k r h1
    rw [(C05_dense_eq _ _).1 h] at k1
    exact (C05_dense_eq _ _).2 (k1.unique (shrPos_sound p' k s h2))
  refine ⟨fun hk => ?_, fun hk => ?_, fun hk => ?_, fun hk => ?_⟩
  · rw [Poly.shl, if_neg (by omega), Poly.shl, if_neg (by omega), hl]
  · rw [Poly.shr, if_pos hk, Poly.shr, if_pos hk]
    simp only [hl]
  · rw [Poly.shl, if_pos hk, Poly.shl, if_pos hk]
    cases hn : negI32 k with
    | ok n => exact hr n
    | panic => intro r s h1; cases h1
    | fuel => intro r s h1; cases h1
  · rw [Poly.shr, if_neg (by omega), Poly.shr, if_neg (by omega)]
    exact hr _

theorem firstTerm_congr {a b : List R} (h : descPoly a = descPoly b) : firstTerm a = firstTerm b := by
  rw [firstTerm_eq, firstTerm_eq, dropWhile_eq_of_descPoly_eq h]

section
variable [RDiv R]

theorem divModLoop_same {b b' : List R} {rf : R} {rd offset : Nat} (hb : firstTerm b = .term rf rd)
    (hbb : descPoly b = descPoly b') : ∀ (fuel : Nat) (c : R) (sd : Nat) (rem rem' div : List R),
    firstTerm rem = .term c sd → descPoly rem = descPoly rem' →
    SameOutcome (fun x y : List R × List R => x.1 = y.1 ∧ descPoly x.2 = descPoly y.2)
      (Poly.divModLoop b rf rd offset fuel c sd rem div) (Poly.divModLoop b' rf rd offset fuel c sd rem' div) := by
  intro fuel
  induction fuel with
  | zero => intros; trivial
  | succ fuel ih =>
    intro c sd rem rem' div hr hrr
    unfold Poly.divModLoop
    by_cases hle : rd ≤ sd
    · rw [if_pos hle, if_pos hle]
      cases rdiv c rf with
      | panic => trivial
      | fuel => trivial
      | ok s =>
        obtain ⟨t, e, _, f⟩ := vecSubWScale_poly s hr hb hle
        obtain ⟨t', e', _, f'⟩ := vecSubWScale_poly s ((firstTerm_congr hrr).symm.trans hr)
          ((firstTerm_congr hbb).symm.trans hb) hle
        have htt : descPoly t = descPoly t' := by rw [f, f', hrr, hbb]
        simp only [Res.ok_bind, e, e']
        cases usub offset sd with
        | panic => trivial
        | fuel => trivial
        | ok i =>
          simp only [Res.ok_bind, ← firstTerm_congr htt]
          split_ifs
          · cases ht : firstTerm t with
            | zeroTerm => exact ⟨rfl, htt⟩
            | term c' sd' => exact ih _ _ _ _ _ ht htt
          · trivial
    · rw [if_neg hle, if_neg hle]; exact ⟨rfl, hrr⟩

theorem remAssignLoop_same {b b' : List R} {rf : R} {rd : Nat} (hb : firstTerm b = .term rf rd)
    (hbb : descPoly b = descPoly b') : ∀ (fuel : Nat) (s c : R) (sd : Nat) (rem rem' : List R),
    firstTerm rem = .term c sd → descPoly rem = descPoly rem' →
    SameOutcome (fun x y : List R => descPoly x = descPoly y)
      (Poly.remAssignLoop b rf rd fuel s sd rem) (Poly.remAssignLoop b' rf rd fuel s sd rem') := by
  intro fuel
  induction fuel with
  | zero => intros; trivial
  | succ fuel ih =>
    intro s c sd rem rem' hr hrr
    unfold Poly.remAssignLoop
    by_cases hle : rd ≤ sd
    · rw [if_pos hle, if_pos hle]
      obtain ⟨t, e, _, f⟩ := vecSubWScale_poly s hr hb hle
      obtain ⟨t', e', _, f'⟩ := vecSubWScale_poly s ((firstTerm_congr hrr).symm.trans hr)
        ((firstTerm_congr hbb).symm.trans hb) hle
      have htt : descPoly t = descPoly t' := by rw [f, f', hrr, hbb]
      simp only [Res.ok_bind, e, e', ← firstTerm_congr htt]
      cases ht : firstTerm t with
      | zeroTerm => exact htt
      | term c' sd' =>
        simp only
        cases rdiv c' rf with
        | panic => trivial
        | fuel => trivial
        | ok s' => exact ih _ _ _ _ _ ht htt
    · rw [if_neg hle, if_neg hle]; exact hrr

/-- The loop of `%` sees the same leading term for ever, but its accumulator keeps its length. -/
theorem remLoop_same {st st' b b' : List R} {rf : R} {rd : Nat} {c0 : R} {sd0 : Nat}
    (hst : firstTerm st = .term c0 sd0) (hss : descPoly st = descPoly st')
    (hb : firstTerm b = .term rf rd) (hbb : descPoly b = descPoly b') (hle : rd ≤ sd0) :
    ∀ (fuel : Nat) (s : R) (rem rem' : List R), rem.length = st.length → rem'.length = st'.length →
    SameOutcome (fun _ _ : List R => False)
      (Poly.remLoop st b rf rd fuel s sd0 rem) (Poly.remLoop st' b' rf rd fuel s sd0 rem') := by
  obtain ⟨_, _, _, l1, _, _⟩ := firstTerm_term hst
  obtain ⟨_, _, _, l1', _, _⟩ := firstTerm_term ((firstTerm_congr hss).symm.trans hst)
  obtain ⟨_, _, _, l2, _, _⟩ := firstTerm_term hb
  obtain ⟨_, _, _, l2', _, _⟩ := firstTerm_term ((firstTerm_congr hbb).symm.trans hb)
  intro fuel
  induction fuel with
  | zero => intros; trivial
  | succ fuel ih =>
    intro s rem rem' hr hr'
    unfold Poly.remLoop
    rw [if_pos hle, if_pos hle, vecSubWScale_ok s (by omega) l2, vecSubWScale_ok s (by omega) l2']
    simp only [Res.ok_bind, ← firstTerm_congr hss, hst]
    cases rdiv c0 rf with
    | panic => trivial
    | fuel => trivial
    | ok s' => exact ih _ _ _ (by simp; omega) (by simp; omega)

/-- C54 (Polynomial), division: for every coefficient ring and division (exact or not), every divisor
(also zero) and every number of loop iterations, `div_mod`, `floor_div`, `%` and `%=` do the same on `==`
operands. -/
theorem C54_dense_div (p p' b b' : Poly R) (h : p.eq p' = true) (h' : b.eq b' = true) (fuel : Nat) :
    SameOutcome (fun x y => x.1.eq y.1 = true ∧ x.2.eq y.2 = true) (p.divMod fuel b) (p'.divMod fuel b') ∧
    SameOutcome (fun x y => x.eq y = true) (p.floorDiv fuel b) (p'.floorDiv fuel b') ∧
    SameOutcome (fun x y => x.eq y = true) (p.rem fuel b) (p'.rem fuel b') ∧
    SameOutcome (fun x y => x.eq y = true) (p.remAssign fuel b) (p'.remAssign fuel b') := by
  simp only [C05_dense_eq] at h h' ⊢
  have hdm : SameOutcome (fun x y : Poly R × Poly R =>
      descPoly x.1.terms = descPoly y.1.terms ∧ descPoly x.2.terms = descPoly y.2.terms)
      (p.divMod fuel b) (p'.divMod fuel b') := by
    unfold Poly.divMod
    rw [← firstTerm_congr h, ← firstTerm_congr h']
    cases hb : firstTerm b.terms with
    | zeroTerm => trivial
    | term rf rd =>
      cases hp : firstTerm p.terms with
      | zeroTerm => exact ⟨rfl, h⟩
      | term c d =>
        simp only
        split_ifs
        · exact ⟨rfl, h⟩
        · refine (divModLoop_same hb h' fuel c d p.terms p'.terms _ hp h).bind ?_
          rintro ⟨x1, x2⟩ ⟨y1, y2⟩ ⟨hx, hy⟩
          simp only at hx hy
          subst hx
          refine ⟨rfl, ?_⟩
          show descPoly (Poly.new _).terms = descPoly (Poly.new _).terms
          rw [C01_new_same_polynomial, C01_new_same_polynomial, hy]
  refine ⟨hdm, hdm.bind (fun x y hxy => hxy.1), ?_, ?_⟩
  · unfold Poly.rem
    rw [← firstTerm_congr h, ← firstTerm_congr h']
    cases hb : firstTerm b.terms with
    | zeroTerm => trivial
    | term rf rd =>
      cases hp : firstTerm p.terms with
      | zeroTerm => exact h
      | term c d =>
        simp only
        split_ifs with hlt
        · exact h
        · cases rdiv c rf with
          | panic => trivial
          | fuel => trivial
          | ok s =>
            exact (remLoop_same hp h hb h' (by omega) fuel s p.terms p'.terms rfl rfl).bind
              (fun _ _ hf => hf.elim)
  · unfold Poly.remAssign
    rw [← firstTerm_congr h, ← firstTerm_congr h']
    cases hb : firstTerm b.terms with
    | zeroTerm => trivial
    | term rf rd =>
      cases hp : firstTerm p.terms with
      | zeroTerm => exact h
      | term c d =>
        simp only
        split_ifs with hlt
        · exact h
        · cases rdiv c rf with
          | panic => trivial
          | fuel => trivial
          | ok s =>
            exact (remAssignLoop_same hb h' fuel s c d p.terms p'.terms hp h).bind (fun _ _ hf => hf)

end
end Dense

example : (⟨[0, 0, 3, 1]⟩ : Poly ℤ).eq ⟨[3, 1]⟩ = true ∧ (⟨[0, 3, 1]⟩ : Poly ℤ).degree = .num 1 := by decide

/-! ## SparsePolynomial -/

section Sparse
variable {R : Type} [CommRing R] [NumZero R] [LawfulNumZero R] [BEq R] [LawfulBEq R]

omit [BEq R] [LawfulBEq R] in
theorem sparse_eval_sum [PowUsize R] (p : Sparse R) (x : R) :
    p.eval x = (entriesPoly p.terms.entries).sum (fun k c => c * upow x k) := by
  unfold Sparse.eval
  have : ∀ (l : List (Nat × R)) (s : R), l.foldl (fun sum e => sum + e.2 * upow x e.1) s
      = s + (entriesPoly l).sum (fun k c => c * upow x k) := by
    intro l
    induction l with
    | nil => simp
    | cons e l ih =>
      intro s
      rw [List.foldl_cons, ih, entriesPoly_cons, Polynomial.sum_add_index _ _ _ (by simp) (by intros; ring),
        C_mul_X_pow_eq_monomial, Polynomial.sum_monomial_index _ _ (by simp), add_assoc]
  rw [this, zero_add]

omit [BEq R] [LawfulBEq R] in
theorem termList_unique {ts us : List (R × Nat)} {P : R[X]} (h : IsTermListOf ts P) (h' : IsTermListOf us P) :
    ts = us := by
  refine List.Perm.eq_of_pairwise (le := fun s t : R × Nat => s.2 > t.2) ?_ h.1 h'.1 ?_
  · intro a b _ _ h1 h2; omega
  · refine (List.perm_ext_iff_of_nodup ?_ ?_).2 ?_
    · exact h.1.imp (fun hh he => by subst he; omega)
    · exact h'.1.imp (fun hh he => by subst he; omega)
    · rintro ⟨c, d⟩; rw [h.2, h'.2]

/-- C54 (SparsePolynomial), queries, evaluation (at every point and all exponents) and printing. -/
theorem C54_sparse_queries [PowUsize R] (p q : Sparse R) (h : p.eq q = true) :
    p.degree = q.degree ∧ p.isZeroPoly = q.isZeroPoly ∧ p.termsAsVec = q.termsAsVec ∧
    (∀ d, p.termWithDegree d = q.termWithDegree d) ∧ (∀ x, p.eval x = q.eval x) ∧
    (∀ F : NumFmt R, p.display F = q.display F) := by
  rw [C05_sparse_eq] at h
  have hi : p.orderedTermIter = q.orderedTermIter :=
    termList_unique (C03_sparse_terms p).1 (h ▸ (C03_sparse_terms q).1)
  have hd : p.degree = q.degree := toWithBot_inj (by rw [C02_sparse_degree, C02_sparse_degree, h])
  refine ⟨hd, by rw [Sparse.isZeroPoly, hd, Sparse.isZeroPoly], hi, fun d => ?_, fun x => ?_, fun F => ?_⟩
  · by_cases h0 : (entriesPoly p.terms.entries).coeff d = 0
    · rw [(C04_sparse_term p d).1 h0, (C04_sparse_term q d).1 (h ▸ h0)]
    · rw [(C04_sparse_term p d).2 h0, (C04_sparse_term q d).2 (h ▸ h0), h]
  · rw [sparse_eval_sum, sparse_eval_sum, h]
  · rw [Sparse.display, hi, Sparse.display]

/-- C54 (SparsePolynomial), arithmetic. -/
theorem C54_sparse_arith (p p' q q' : Sparse R) (h : p.eq p' = true) (h' : q.eq q' = true) :
    (p.add q).eq (p'.add q') = true ∧ (p.addAssign q).eq (p'.addAssign q') = true ∧
    (p.sub q).eq (p'.sub q') = true ∧ (p.mul q).eq (p'.mul q') = true ∧ p.neg.eq p'.neg = true ∧
    (∀ n, (p.pow n).eq (p'.pow n) = true) ∧
    (∀ c, (p.mulScalar c).eq (p'.mulScalar c) = true) ∧
    (∀ c, (p.mulAssignScalar c).eq (p'.mulAssignScalar c) = true) ∧
    (∀ c d, (p.addTerm c d).eq (p'.addTerm c d) = true) ∧
    (∀ k, SameOutcome (fun a b => a.eq b = true) (p.shl k) (p'.shl k)) ∧
    (∀ k, SameOutcome (fun a b => a.eq b = true) (p.shr k) (p'.shr k)) := by
  simp only [C05_sparse_eq] at h h' ⊢
  refine ⟨?_, ?_, ?_, ?_, ?_, fun n => ?_, fun c => ?_, fun c => ?_, fun c d => ?_, fun k => ?_, fun k => ?_⟩
  · rw [(C25_sparse_add p q).1, (C25_sparse_add p' q').1, h, h']
  · rw [(C25_sparse_add p q).2, (C25_sparse_add p' q').2, h, h']
  · rw [C25_sparse_sub, C25_sparse_sub, h, h']
  · rw [C26_sparse_mul, C26_sparse_mul, h, h']
  · rw [C10_sparse_neg, C10_sparse_neg, h]
  · rw [C26_sparse_pow, C26_sparse_pow, h]
  · rw [(C13_sparse_mul_scalar p c).1, (C13_sparse_mul_scalar p' c).1, h]
  · rw [(C13_sparse_mul_scalar p c).2, (C13_sparse_mul_scalar p' c).2, h]
  · rw [C31_sparse_add_term, C31_sparse_add_term, h]
  · by_cases hk : k = -2 ^ 31
    · subst hk; rw [(C15_sparse_shift_false p).1, (C15_sparse_shift_false p').1]; trivial
    · obtain ⟨r, e, a1, a2⟩ := (C15_sparse_shift_partial p k hk).1
      obtain ⟨r', e', a1', a2'⟩ := (C15_sparse_shift_partial p' k hk).1
      rw [h] at a1 a2
      refine .of_ok e e' ?_
      by_cases hs : 0 ≤ k
      · rw [a1 hs, a1' hs]
      · exact (a2 (by omega)).unique (a2' (by omega))
  · by_cases hk : k = -2 ^ 31
    · subst hk; rw [(C15_sparse_shift_false p).2, (C15_sparse_shift_false p').2]; trivial
    · obtain ⟨r, e, a1, a2⟩ := (C15_sparse_shift_partial p k hk).2
      obtain ⟨r', e', a1', a2'⟩ := (C15_sparse_shift_partial p' k hk).2
      rw [h] at a1 a2
      refine .of_ok e e' ?_
      by_cases hs : 0 ≤ k
      · exact (a1 hs).unique (a1' hs)
      · rw [a2 (by omega), a2' (by omega)]

/-- C54 (SparsePolynomial), derivative. -/
theorem C54_sparse_derivative [FromUsizeExact R] [LawfulFromUsizeExact R] (p p' : Sparse R)
    (h : p.eq p' = true) :
    SameOutcome (fun a b => a.eq b = true) p.derivative p'.derivative := by
  simp only [C05_sparse_eq] at h ⊢
  by_cases hd : ∃ d, d ≠ 0 ∧ (entriesPoly p.terms.entries).coeff d ≠ 0 ∧ (tryFromExact d : Option R) = none
  · rw [(C17_sparse_derivative p).1 hd, (C17_sparse_derivative p').1 (h ▸ hd)]; trivial
  · have hd' : ∀ d, d ≠ 0 → (entriesPoly p.terms.entries).coeff d ≠ 0 → (tryFromExact d : Option R) ≠ none := by
      intro d h1 h2 h3; exact hd ⟨d, h1, h2, h3⟩
    obtain ⟨r, e, f⟩ := (C17_sparse_derivative p).2 hd'
    obtain ⟨r', e', f'⟩ := (C17_sparse_derivative p').2 (h ▸ hd')
    exact .of_ok e e' (by rw [f, f', h])

/-- C54 (SparsePolynomial), scalar division by a value by which everything can be divided, zero giving
zero (not so for zero itself, `C54_false`). -/
theorem C54_sparse_div_scalar_partial [RDiv R] (p p' : Sparse R) (h : p.eq p' = true) (c : R) (f : R → R)
    (hf : ∀ x, rdiv x c = .ok (f x)) (h0 : f 0 = 0) :
    SameOutcome (fun a b => a.eq b = true) (p.divScalar c) (p'.divScalar c) ∧
    SameOutcome (fun a b => a.eq b = true) (p.divAssignScalar c) (p'.divAssignScalar c) := by
  simp only [C05_sparse_eq] at h ⊢
  obtain ⟨⟨r, e, k⟩, ⟨s, g, l⟩⟩ := sparse_divScalar p c f h0 hf
  obtain ⟨⟨r', e', k'⟩, ⟨s', g', l'⟩⟩ := sparse_divScalar p' c f h0 hf
  refine ⟨.of_ok e e' ?_, .of_ok g g' ?_⟩ <;> ext d
  · rw [k, k', h]
  · rw [l, l', h]

theorem sparseFirstTerm_congr [RDiv R] {a b : BMap R} (h : entriesPoly a.entries = entriesPoly b.entries) :
    sparseFirstTerm a = sparseFirstTerm b := by
  cases hb : sparseFirstTerm b with
  | zeroTerm => rw [sparseFirstTerm_zero, h]; exact sparseFirstTerm_zero.1 hb
  | term c d =>
    obtain ⟨_, h2, h3⟩ := sparseFirstTerm_term hb
    exact sparseFirstTerm_of_poly (h ▸ h2) (h ▸ h3)

section
variable [RDiv R]

theorem sparse_divModLoop_same {b b' : BMap R} (rf : R) (rd offset : Nat)
    (hbb : entriesPoly b.entries = entriesPoly b'.entries) :
    ∀ (fuel : Nat) (s : R) (sd : Nat) (rem rem' : BMap R) (div : Sparse R),
    entriesPoly rem.entries = entriesPoly rem'.entries →
    SameOutcome (fun x y : Sparse R × BMap R => x.1 = y.1 ∧ entriesPoly x.2.entries = entriesPoly y.2.entries)
      (Sparse.divModLoop b rf rd offset fuel s sd rem div)
      (Sparse.divModLoop b' rf rd offset fuel s sd rem' div) := by
  intro fuel
  induction fuel with
  | zero => intros; trivial
  | succ fuel ih =>
    intro s sd rem rem' div hrr
    unfold Sparse.divModLoop
    split_ifs
    · have htt : entriesPoly (mapSubWScale rem b s).entries = entriesPoly (mapSubWScale rem' b' s).entries := by
        rw [mapSubWScale_poly, mapSubWScale_poly, hrr, hbb]
      simp only [← sparseFirstTerm_congr htt]
      cases sparseFirstTerm (mapSubWScale rem b s) with
      | zeroTerm => exact ⟨rfl, htt⟩
      | term c' sd' =>
        simp only
        cases rdiv c' rf with
        | panic => trivial
        | fuel => trivial
        | ok s' => exact ih _ _ _ _ _ htt
    · exact ⟨rfl, hrr⟩

theorem sparse_remLoop_same {b b' : BMap R} (rf : R) (rd : Nat)
    (hbb : entriesPoly b.entries = entriesPoly b'.entries) :
    ∀ (fuel : Nat) (s : R) (sd : Nat) (rem rem' : BMap R),
    entriesPoly rem.entries = entriesPoly rem'.entries →
    SameOutcome (fun x y : BMap R => entriesPoly x.entries = entriesPoly y.entries)
      (Sparse.remLoop b rf rd fuel s sd rem) (Sparse.remLoop b' rf rd fuel s sd rem') := by
  intro fuel
  induction fuel with
  | zero => intros; trivial
  | succ fuel ih =>
    intro s sd rem rem' hrr
    unfold Sparse.remLoop
    split_ifs
    · have htt : entriesPoly (mapSubWScale rem b s).entries = entriesPoly (mapSubWScale rem' b' s).entries := by
        rw [mapSubWScale_poly, mapSubWScale_poly, hrr, hbb]
      simp only [← sparseFirstTerm_congr htt]
      cases sparseFirstTerm (mapSubWScale rem b s) with
      | zeroTerm => exact htt
      | term c' sd' =>
        simp only
        cases rdiv c' rf with
        | panic => trivial
        | fuel => trivial
        | ok s' => exact ih _ _ _ _ htt
    · exact hrr

/-- C54 (SparsePolynomial), division: same outcome after every number of loop iterations. -/
theorem C54_sparse_div (p p' b b' : Sparse R) (h : p.eq p' = true) (h' : b.eq b' = true) (fuel : Nat) :
    SameOutcome (fun x y => x.1.eq y.1 = true ∧ x.2.eq y.2 = true) (p.divMod fuel b) (p'.divMod fuel b') ∧
    SameOutcome (fun x y => x.eq y = true) (p.rem fuel b) (p'.rem fuel b') := by
  simp only [C05_sparse_eq] at h h' ⊢
  constructor
  · unfold Sparse.divMod
    rw [← sparseFirstTerm_congr h, ← sparseFirstTerm_congr h']
    cases sparseFirstTerm b.terms with
    | zeroTerm => trivial
    | term rf rd =>
      cases sparseFirstTerm p.terms with
      | zeroTerm => exact ⟨rfl, h⟩
      | term c d =>
        simp only
        split_ifs
        · exact ⟨rfl, h⟩
        · cases rdiv c rf with
          | panic => trivial
          | fuel => trivial
          | ok s =>
            refine (sparse_divModLoop_same rf rd _ h' fuel s d p.terms p'.terms _ h).bind ?_
            rintro ⟨x1, x2⟩ ⟨y1, y2⟩ ⟨hx, hy⟩
            simp only at hx hy
            subst hx
            exact ⟨rfl, hy⟩
  · unfold Sparse.rem
    rw [← sparseFirstTerm_congr h, ← sparseFirstTerm_congr h']
    cases sparseFirstTerm b.terms with
    | zeroTerm => trivial
    | term rf rd =>
      cases sparseFirstTerm p.terms with
      | zeroTerm => exact h
      | term c d =>
        simp only
        split_ifs
        · exact h
        · cases rdiv c rf with
          | panic => trivial
          | fuel => trivial
          | ok s =>
            exact (sparse_remLoop_same rf rd h' fuel s d p.terms p'.terms h).bind (fun _ _ hf => hf)

end
end Sparse

/-- C54 (SparsePolynomial), integral over a field of characteristic zero: the results agree whenever
both return (a stored zero entry can make one side panic, `C54_false`). -/
theorem C54_sparse_integral_partial {K : Type} [Field K] [CharZero K] [NumZero K] [LawfulNumZero K] [BEq K]
    [LawfulBEq K] [FromUsizeExact K] [LawfulFromUsizeExact K] [RDiv K] [LawfulRDiv K] (p p' : Sparse K)
    (h : p.eq p' = true) : ResAgree Sparse.eq p.integral p'.integral := by
  intro r r' hr hr'
  rw [C05_sparse_eq] at h ⊢
  have key : ∀ (p r : Sparse K), p.integral = .ok r →
      Polynomial.derivative (entriesPoly r.terms.entries) = entriesPoly p.terms.entries ∧
      (entriesPoly r.terms.entries).coeff 0 = 0 := by
    intro p r hr
    by_cases hall : ∀ e ∈ p.terms.entries, (tryFromExact (e.1 + 1) : Option K) ≠ none
    · obtain ⟨s, e, f⟩ := C18_sparse_integral p hall
      rw [hr] at e; rw [Res.ok.inj e]; exact f
    · exfalso
      push Not at hall
      obtain ⟨e, he, hn⟩ := hall
      unfold Sparse.integral at hr
      rw [foldlM_panic] at hr
      · cases hr
      · rintro ⟨k, v⟩ _ m
        simp only
        cases ht : (tryFromExact (k + 1) : Option K) with
        | none => exact .inl rfl
        | some d =>
          have hne : ((k + 1 : Nat) : K) ≠ 0 := Nat.cast_ne_zero.2 (by omega)
          rw [LawfulFromUsizeExact.tryFromExact_eq _ _ ht]
          simp only [LawfulRDiv.rdiv_eq _ _ hne]
          exact .inr ⟨_, rfl⟩
      · exact ⟨e, he, fun m => by simp only [hn]⟩
  obtain ⟨h1, h2⟩ := key p r hr
  obtain ⟨h3, h4⟩ := key p' r' hr'
  ext d
  cases d with
  | zero => rw [h2, h4]
  | succ d =>
    have := congrArg (fun P => P.coeff d) (h1.trans (h.trans h3.symm))
    simp only [coeff_derivative] at this
    have hne : ((d : K) + 1) ≠ 0 := by exact_mod_cast Nat.succ_ne_zero d
    exact mul_right_cancel₀ hne this

/-- C54 is false as stated.  A right shift panics on `0x^2 + 0x + 3` and not on `3`.  Dividing by the
scalar zero panics on a stored zero and not on the empty polynomial (both types).  The integral of a
sparse polynomial with a stored zero at degree 127 panics for a type holding numbers up to 127 (`i8`),
that of the equal empty polynomial does not. -/
theorem C54_false :
    ((⟨[0, 0, 3]⟩ : Poly ℤ).eq ⟨[3]⟩ = true ∧ (⟨[0, 0, 3]⟩ : Poly ℤ).shr 2 = .panic ∧
      (⟨[3]⟩ : Poly ℤ).shr 2 = .ok ⟨[]⟩) ∧
    ((⟨[0]⟩ : Poly ℤ).eq ⟨[]⟩ = true ∧ (⟨[0]⟩ : Poly ℤ).divScalar 0 = .panic ∧
      (⟨[]⟩ : Poly ℤ).divScalar 0 = .ok ⟨[]⟩) ∧
    (let _ : FromUsizeExact ℤ := ⟨fun n => if n ≤ 127 then some n else none⟩
      let z : Sparse ℤ := ⟨⟨[(127, 0)], by simp⟩⟩
      z.eq Sparse.zero = true ∧ z.integral = .panic ∧ (∃ r, (Sparse.zero : Sparse ℤ).integral = .ok r) ∧
      z.divScalar 0 = .panic ∧ (∃ r, (Sparse.zero : Sparse ℤ).divScalar 0 = .ok r)) :=
  ⟨by decide, by decide, by decide, rfl, ⟨_, rfl⟩, rfl, ⟨_, rfl⟩⟩

end Rustnomial
