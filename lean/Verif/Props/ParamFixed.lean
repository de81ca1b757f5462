import Verif.Props.Param

/-!
# C126 for the fixed-size types
-/

namespace Rustnomial
open List Par

variable {A B : Type} [Zero A] [NumZero A] [One A] [Neg A] [Add A] [Sub A] [Mul A] [Zero B] [NumZero B] [One B] [Neg B] [Add B] [Sub B] [Mul B]
variable {r s : A → B → Prop}

theorem single_iter (hr : Alike r) {x : A} {y : B} (h : r x y) (d : Nat) :
    termsAlike r (if isZero x then [] else [(x, d)]) (if isZero y then [] else [(y, d)]) := by
  rw [hr.isZero h]
  split
  · exact .nil
  · exact .cons ⟨h, rfl⟩ .nil

theorem iter_zipIdx (hr : Alike r) {l : List A} {l' : List B} (h : Forall₂ r l l') (g : Nat → Nat) :
    termsAlike r (l.zipIdx.filterMap fun (c, i) => if isZero c then none else some (c, g i))
      (l'.zipIdx.filterMap fun (c, i) => if isZero c then none else some (c, g i)) := by
  refine f2_filterMap ?_ (f2_zipIdx h 0)
  rintro ⟨a, i⟩ ⟨b, _⟩ ⟨hab, rfl⟩
  simp only at hab
  simp only [hr.isZero hab]
  split
  · exact .none
  · exact .some ⟨hab, rfl⟩

/-- **C126.** `Monomial`. -/
theorem C126_monomial (hr : Alike r) {m m' : Monomial A} {n n' : Monomial B} (h : m.Alike r n) (h' : m'.Alike r n') {c : A} {c' : B} (hc : r c c')
    (d : Nat) (k : Int) :
    m.degree = n.degree ∧ m.isZeroPoly = n.isZeroPoly ∧ (m.termWithDegree d).Alike r (n.termWithDegree d) ∧
    termsAlike r m.orderedTermIter n.orderedTermIter ∧ m.neg.Alike r n.neg ∧ (m.mul m').Alike r (n.mul n') ∧
    (m.mulScalar c).Alike r (n.mulScalar c') ∧ Res.Rel (Monomial.Alike r) (m.shl k) (n.shl k) ∧ Res.Rel (Monomial.Alike r) (m.shr k) (n.shr k) ∧
    ((m.tryAddTerm c d).1.Alike r (n.tryAddTerm c' d).1 ∧ (m.tryAddTerm c d).2 = (n.tryAddTerm c' d).2) ∧
    ((m.trySubTerm c d).1.Alike r (n.trySubTerm c' d).1 ∧ (m.trySubTerm c d).2 = (n.trySubTerm c' d).2) := by
  obtain ⟨a, e⟩ := m
  obtain ⟨b, e2⟩ := n
  obtain ⟨hab, he⟩ := h
  simp only at hab he
  subst he
  have hdeg : (⟨a, e⟩ : Monomial A).degree = (⟨b, e⟩ : Monomial B).degree := by unfold Monomial.degree; rw [hr.isZero hab]
  have hz : (⟨a, e⟩ : Monomial A).isZeroPoly = (⟨b, e⟩ : Monomial B).isZeroPoly := congrArg Degree.isZeroPoly hdeg
  have hl : ∀ j, (Monomial.shlPos ⟨a, e⟩ j).Alike r (Monomial.shlPos ⟨b, e⟩ j) := fun j => ⟨hab, rfl⟩
  have hs : ∀ j, (Monomial.shrPos ⟨a, e⟩ j).Alike r (Monomial.shrPos ⟨b, e⟩ j) := by
    intro j
    unfold Monomial.shrPos
    split
    · exact ⟨hr.zero, rfl⟩
    · exact ⟨hab, rfl⟩
  refine ⟨hdeg, hz, ?_, single_iter hr hab e, ⟨hr.neg hab, rfl⟩, ⟨hr.mul hab h'.1, congrArg (e + ·) h'.2⟩, ⟨hr.mul hab hc, rfl⟩, ?_, ?_, ?_, ?_⟩
  · unfold Monomial.termWithDegree
    split
    · exact termNew_rel hr hab e
    · trivial
  · unfold Monomial.shl
    split
    · exact bind_same _ fun j => rel_ok (hs j)
    · exact rel_ok (hl _)
  · unfold Monomial.shr
    split
    · exact bind_same _ fun j => rel_ok (hl j)
    · exact rel_ok (hs _)
  · unfold Monomial.tryAddTerm
    rw [hz]
    split
    · exact ⟨⟨hr.add hab hc, rfl⟩, rfl⟩
    · split
      · exact ⟨⟨hr.add hab hc, rfl⟩, rfl⟩
      · exact ⟨⟨hab, rfl⟩, rfl⟩
  · unfold Monomial.trySubTerm
    rw [hz]
    split
    · exact ⟨⟨hr.sub hab hc, rfl⟩, rfl⟩
    · split
      · exact ⟨⟨hr.sub hab hc, rfl⟩, rfl⟩
      · exact ⟨⟨hab, rfl⟩, rfl⟩

/-- **C126.** `Monomial`: values and powers, derivative, integral, division by a number that is not a zero, `==`. -/
theorem C126_monomial_more [RDiv A] [RDiv B] [FromUsizeCont A] [FromUsizeExact A] [FromUsizeCont B] [FromUsizeExact B] [PowUsize A] [PowUsize B]
    [BEq A] [BEq B] (hr : Alike r) (hs : AlikeCount r s) {m m' : Monomial A} {n n' : Monomial B} (h : m.Alike r n) (h' : m'.Alike r n') :
    (∀ x y, r (upow x m.deg) (upow y m.deg) → r (m.eval x) (n.eval y)) ∧
    (∀ k, r (upow m.coefficient k) (upow n.coefficient k) → (m.pow k).Alike r (n.pow k)) ∧
    Res.Rel (Monomial.Alike r) m.derivative n.derivative ∧
    (AlikeCountDiv r s → Res.Rel (Sparse.Alike r) m.integral n.integral) ∧
    (AlikeDiv r → ∀ c c', r c c' → isZero c = false → Res.Rel (Monomial.Alike r) (m.divScalar c) (n.divScalar c')) ∧
    ((∀ {x y x' y'}, r x y → r x' y' → (x == x') = (y == y')) → m.eq m' = n.eq n') := by
  obtain ⟨a, e⟩ := m
  obtain ⟨b, e2⟩ := n
  obtain ⟨a', e'⟩ := m'
  obtain ⟨b', e2'⟩ := n'
  obtain ⟨hab, he⟩ := h
  obtain ⟨hab', he'⟩ := h'
  simp only at hab he hab' he'
  subst he he'
  have hdeg : (⟨a, e⟩ : Monomial A).degree = (⟨b, e⟩ : Monomial B).degree := by unfold Monomial.degree; rw [hr.isZero hab]
  refine ⟨fun x y hp => hr.mul hab hp, fun k hp => ⟨hp, rfl⟩, ?_, ?_, ?_, ?_⟩
  · unfold Monomial.derivative
    rw [hdeg]
    split
    · exact rel_ok ⟨hr.zero, rfl⟩
    · exact rel_ok ⟨hr.zero, rfl⟩
    · rename_i x _ _
      have h1 := hs.exact x
      cases e3 : (tryFromExact x : Option A) <;> cases e4 : (tryFromExact x : Option B) <;> rw [e3, e4] at h1 <;> cases h1
      · trivial
      · rename_i h2; exact rel_ok ⟨hr.mul hab (hs.le h2), rfl⟩
  · intro hd
    unfold Monomial.integral
    rw [hdeg]
    split
    · exact rel_ok map_empty
    · rename_i x _
      have h1 := hs.exact (x + 1)
      cases e3 : (tryFromExact (x + 1) : Option A) <;> cases e4 : (tryFromExact (x + 1) : Option B) <;> rw [e3, e4] at h1 <;> cases h1
      · trivial
      · rename_i h2
        exact Res.Rel.bind (hd hab h2) fun _ _ h3 => rel_ok (s_addTerm hr (p := Sparse.new .empty) (q := Sparse.new .empty) map_empty h3 _)
  · intro hd c c' hc hz
    exact Res.Rel.bind (hd hab hc hz) fun _ _ h => rel_ok ⟨h, rfl⟩
  · intro hb
    unfold Monomial.eq Monomial.asTerm Term.new
    rw [hr.isZero hab, hr.isZero hab']
    by_cases h1 : isZero b = true <;> by_cases h2 : isZero b' = true <;> simp only [h1, h2, if_true, Bool.false_eq_true, if_false]
    rw [hb hab hab']

/-- **C126.** `LinearBinomial`. -/
theorem C126_binomial (hr : Alike r) {p p' : LinearBinomial A} {q q' : LinearBinomial B} (h : p.Alike r q) (h' : p'.Alike r q') {c : A} {c' : B}
    (hc : r c c') (d k : Nat) :
    p.degree = q.degree ∧ p.isZeroPoly = q.isZeroPoly ∧ (p.termWithDegree d).Alike r (q.termWithDegree d) ∧
    termsAlike r p.orderedTermIter q.orderedTermIter ∧ (∀ x y, r x y → r (p.eval x) (q.eval y)) ∧ p.neg.Alike r q.neg ∧
    (p.add p').Alike r (q.add q') ∧ (p.sub p').Alike r (q.sub q') ∧ (p.mulScalar c).Alike r (q.mulScalar c') ∧ p.derivative.Alike r q.derivative ∧
    (p.shr k).Alike r (q.shr k) ∧ (p.shrAssign k).Alike r (q.shrAssign k) ∧
    ((p.tryAddTerm c d).1.Alike r (q.tryAddTerm c' d).1 ∧ (p.tryAddTerm c d).2 = (q.tryAddTerm c' d).2) ∧
    ((p.trySubTerm c d).1.Alike r (q.trySubTerm c' d).1 ∧ (p.trySubTerm c d).2 = (q.trySubTerm c' d).2) := by
  have hl : Forall₂ r p.coefficients q.coefficients := .cons h.1 (.cons h.2 .nil)
  have hdeg : p.degree = q.degree := by unfold LinearBinomial.degree; rw [hr.isZero h.1, hr.isZero h.2]
  refine ⟨hdeg, congrArg Degree.isZeroPoly hdeg, termWithDeg_rel hr hl d, iter_zipIdx hr hl fun i => 1 - i,
    fun x y hx => hr.add (hr.mul hx h.1) h.2, ⟨hr.neg h.1, hr.neg h.2⟩, ⟨hr.add h.1 h'.1, hr.add h.2 h'.2⟩, ⟨hr.sub h.1 h'.1, hr.sub h.2 h'.2⟩,
    ⟨hr.mul h.1 hc, hr.mul h.2 hc⟩, ⟨hr.zero, h.1⟩, ?_, ?_, ?_, ?_⟩
  · unfold LinearBinomial.shr
    split
    · exact h
    · exact ⟨hr.zero, h.1⟩
    · exact ⟨hr.zero, hr.zero⟩
  · unfold LinearBinomial.shrAssign
    split
    · exact h
    · exact ⟨hr.zero, h.1⟩
    · exact ⟨hr.zero, hr.zero⟩
  · unfold LinearBinomial.tryAddTerm LinearBinomial.modify
    split
    · split
      · exact ⟨⟨hr.add h.1 hc, h.2⟩, rfl⟩
      · exact ⟨⟨h.1, hr.add h.2 hc⟩, rfl⟩
    · exact ⟨h, rfl⟩
  · unfold LinearBinomial.trySubTerm LinearBinomial.modify
    split
    · split
      · exact ⟨⟨hr.sub h.1 hc, h.2⟩, rfl⟩
      · exact ⟨⟨h.1, hr.sub h.2 hc⟩, rfl⟩
    · exact ⟨h, rfl⟩

/-- **C126.** `LinearBinomial`: integral, division by a number that is not a zero, `==`. -/
theorem C126_binomial_more [RDiv A] [RDiv B] [FromUsizeCont A] [FromUsizeExact A] [FromUsizeCont B] [FromUsizeExact B] [BEq A] [BEq B]
    (hr : Alike r) (hs : AlikeCount r s) {p p' : LinearBinomial A} {q q' : LinearBinomial B} (h : p.Alike r q) (h' : p'.Alike r q') :
    (AlikeCountDiv r s → Res.Rel (Poly.Alike r) p.integral q.integral) ∧
    (AlikeDiv r → ∀ c c', r c c' → isZero c = false → Res.Rel (LinearBinomial.Alike r) (p.divScalar c) (q.divScalar c')) ∧
    ((∀ {x y x' y'}, r x y → r x' y' → (x == x') = (y == y')) → p.eq p' = q.eq q') := by
  refine ⟨fun hd => ?_, fun hd c c' hc hz => ?_, fun hb => ?_⟩
  · unfold LinearBinomial.integral
    have h1 := hs.cont 2
    cases e3 : (tryFromCont 2 : Option A) <;> cases e4 : (tryFromCont 2 : Option B) <;> rw [e3, e4] at h1 <;> cases h1
    · trivial
    · rename_i h2
      exact Res.Rel.bind (hd h.1 h2) fun _ _ h3 => rel_ok (new_rel hr (.cons h3 (.cons h.2 (.cons hr.zero .nil))))
  · exact Res.Rel.bind (hd h.1 hc hz) fun _ _ h1 => Res.Rel.bind (hd h.2 hc hz) fun _ _ h2 => rel_ok ⟨h1, h2⟩
  · unfold LinearBinomial.eq
    rw [hb h.1 h'.1, hb h.2 h'.2]

/-- **C126.** `QuadraticTrinomial`. -/
theorem C126_trinomial (hr : Alike r) {p p' : QuadraticTrinomial A} {q q' : QuadraticTrinomial B} (h : p.Alike r q) (h' : p'.Alike r q') {c : A}
    {c' : B} (hc : r c c') (d k : Nat) :
    p.degree = q.degree ∧ p.isZeroPoly = q.isZeroPoly ∧ (p.termWithDegree d).Alike r (q.termWithDegree d) ∧
    termsAlike r p.orderedTermIter q.orderedTermIter ∧ (∀ x y, r x y → r (p.eval x) (q.eval y)) ∧ p.neg.Alike r q.neg ∧
    (p.add p').Alike r (q.add q') ∧ (p.sub p').Alike r (q.sub q') ∧ (p.mulScalar c).Alike r (q.mulScalar c') ∧
    (p.shr k).Alike r (q.shr k) ∧ (p.shrAssign k).Alike r (q.shrAssign k) ∧
    ((p.tryAddTerm c d).1.Alike r (q.tryAddTerm c' d).1 ∧ (p.tryAddTerm c d).2 = (q.tryAddTerm c' d).2) ∧
    ((p.trySubTerm c d).1.Alike r (q.trySubTerm c' d).1 ∧ (p.trySubTerm c d).2 = (q.trySubTerm c' d).2) := by
  obtain ⟨h0, h1, h2⟩ := h
  have hl : Forall₂ r p.coefficients q.coefficients := .cons h0 (.cons h1 (.cons h2 .nil))
  have hdeg : p.degree = q.degree := by unfold QuadraticTrinomial.degree; rw [hr.isZero h0, hr.isZero h1, hr.isZero h2]
  refine ⟨hdeg, congrArg Degree.isZeroPoly hdeg, termWithDeg_rel hr hl d, iter_zipIdx hr hl fun i => 2 - i,
    fun x y hx => hr.add (hr.mul hx (hr.add (hr.mul h0 hx) h1)) h2, ⟨hr.neg h0, hr.neg h1, hr.neg h2⟩,
    ⟨hr.add h0 h'.1, hr.add h1 h'.2.1, hr.add h2 h'.2.2⟩, ⟨hr.sub h0 h'.1, hr.sub h1 h'.2.1, hr.sub h2 h'.2.2⟩,
    ⟨hr.mul h0 hc, hr.mul h1 hc, hr.mul h2 hc⟩, ?_, ?_, ?_, ?_⟩
  · unfold QuadraticTrinomial.shr
    split
    · exact ⟨h0, h1, h2⟩
    · exact ⟨hr.zero, h0, h1⟩
    · exact ⟨hr.zero, hr.zero, h0⟩
    · exact ⟨hr.zero, hr.zero, hr.zero⟩
  · unfold QuadraticTrinomial.shrAssign
    split
    · exact ⟨h0, h1, h2⟩
    · exact ⟨hr.zero, h0, h1⟩
    · exact ⟨hr.zero, hr.zero, h0⟩
    · exact ⟨hr.zero, hr.zero, hr.zero⟩
  · unfold QuadraticTrinomial.tryAddTerm QuadraticTrinomial.modify
    split
    · split
      · exact ⟨⟨hr.add h0 hc, h1, h2⟩, rfl⟩
      · split
        · exact ⟨⟨h0, hr.add h1 hc, h2⟩, rfl⟩
        · exact ⟨⟨h0, h1, hr.add h2 hc⟩, rfl⟩
    · exact ⟨⟨h0, h1, h2⟩, rfl⟩
  · unfold QuadraticTrinomial.trySubTerm QuadraticTrinomial.modify
    split
    · split
      · exact ⟨⟨hr.sub h0 hc, h1, h2⟩, rfl⟩
      · split
        · exact ⟨⟨h0, hr.sub h1 hc, h2⟩, rfl⟩
        · exact ⟨⟨h0, h1, hr.sub h2 hc⟩, rfl⟩
    · exact ⟨⟨h0, h1, h2⟩, rfl⟩

/-- **C126.** `QuadraticTrinomial`: derivative, integral, division by a number that is not a zero, `==`. -/
theorem C126_trinomial_more [RDiv A] [RDiv B] [FromUsizeCont A] [FromUsizeExact A] [FromUsizeCont B] [FromUsizeExact B] [BEq A] [BEq B]
    (hr : Alike r) (hs : AlikeCount r s) {p p' : QuadraticTrinomial A} {q q' : QuadraticTrinomial B} (h : p.Alike r q) (h' : p'.Alike r q') :
    Res.Rel (QuadraticTrinomial.Alike r) p.derivative q.derivative ∧
    (AlikeCountDiv r s → Res.Rel (Poly.Alike r) p.integral q.integral) ∧
    (AlikeDiv r → ∀ c c', r c c' → isZero c = false → Res.Rel (QuadraticTrinomial.Alike r) (p.divScalar c) (q.divScalar c')) ∧
    ((∀ {x y x' y'}, r x y → r x' y' → (x == x') = (y == y')) → p.eq p' = q.eq q') := by
  obtain ⟨h0, h1, h2⟩ := h
  have two := hs.exact 2
  have three := hs.exact 3
  refine ⟨?_, fun hd => ?_, fun hd c c' hc hz => ?_, fun hb => ?_⟩
  · unfold QuadraticTrinomial.derivative
    cases e3 : (tryFromExact 2 : Option A) <;> cases e4 : (tryFromExact 2 : Option B) <;> rw [e3, e4] at two <;> cases two
    · trivial
    · rename_i h5; exact rel_ok ⟨hr.zero, hr.mul h0 (hs.le h5), h1⟩
  · unfold QuadraticTrinomial.integral
    cases e3 : (tryFromExact 3 : Option A) <;> cases e4 : (tryFromExact 3 : Option B) <;> rw [e3, e4] at three <;> cases three
    · trivial
    · rename_i h3
      refine Res.Rel.bind (hd h0 h3) fun _ _ h4 => ?_
      cases e5 : (tryFromExact 2 : Option A) <;> cases e6 : (tryFromExact 2 : Option B) <;> rw [e5, e6] at two <;> cases two
      · trivial
      · rename_i h5
        exact Res.Rel.bind (hd h1 h5) fun _ _ h6 => rel_ok (new_rel hr (.cons h4 (.cons h6 (.cons h2 (.cons hr.zero .nil)))))
  · exact Res.Rel.bind (hd h0 hc hz) fun _ _ h3 => Res.Rel.bind (hd h1 hc hz) fun _ _ h4 => Res.Rel.bind (hd h2 hc hz) fun _ _ h5 =>
      rel_ok ⟨h3, h4, h5⟩
  · unfold QuadraticTrinomial.eq
    rw [hb h0 h'.1, hb h1 h'.2.1, hb h2 h'.2.2]

/-- **C126.** `ArrayPolynomial`, for every size. -/
theorem C126_array [RDiv A] [RDiv B] [FromUsizeCont A] [FromUsizeExact A] [FromUsizeCont B] [FromUsizeExact B] [BEq A] [BEq B] {size : Nat}
    (hr : Alike r) (hs : AlikeCount r s) {p p' : ArrayPoly A size} {q q' : ArrayPoly B size} (h : p.Alike r q) (h' : p'.Alike r q') {c : A} {c' : B}
    (hc : r c c') (d : Nat) :
    p.degree = q.degree ∧ p.isZeroPoly = q.isZeroPoly ∧ (p.termWithDegree d).Alike r (q.termWithDegree d) ∧
    Res.Rel (termsAlike r) p.orderedTermIter q.orderedTermIter ∧ (∀ x y, r x y → r (p.eval x) (q.eval y)) ∧
    Res.Rel (Forall₂ r) p.derivative q.derivative ∧ (AlikeCountDiv r s → Res.Rel (Poly.Alike r) p.integral q.integral) ∧
    ((∀ {x y x' y'}, r x y → r x' y' → (x == x') = (y == y')) → p.eq p' = q.eq q') ∧
    ((p.tryAddTerm c d).1.Alike r (q.tryAddTerm c' d).1 ∧ (p.tryAddTerm c d).2 = (q.tryAddTerm c' d).2) ∧
    ((p.trySubTerm c d).1.Alike r (q.trySubTerm c' d).1 ∧ (p.trySubTerm c d).2 = (q.trySubTerm c' d).2) := by
  have hcont := hs.cont size
  refine ⟨degree_rel hr h, congrArg Degree.isZeroPoly (degree_rel hr h), termWithDeg_rel hr h d, ?_,
    fun x y hx => eval_rel hr (p := ⟨p.coefficients⟩) (q := ⟨q.coefficients⟩) h hx, ?_, fun hd => ?_, fun hb => f2_beq hb h h', ?_, ?_⟩
  · unfold ArrayPoly.orderedTermIter
    refine f2_foldlM (r := fun e e' => r e.1 e'.1 ∧ e.2 = e'.2) (t := termsAlike r) ?_ (f2_zipIdx h 0) Forall₂.nil
    rintro x y ⟨a, i⟩ ⟨b, j⟩ hxy ⟨hab, hij⟩
    simp only at hab hij
    subst hij
    simp only [hr.isZero hab]
    split
    · exact rel_ok hxy
    · exact bind_same _ fun n => rel_ok (List.rel_append hxy (.cons ⟨hab, rfl⟩ .nil))
  · have loop : ∀ {l : List A} {l' : List B}, Forall₂ r l l' → ∀ (n : Nat) {d : A} {d' : B}, s d d' →
        Forall₂ r (ArrayPoly.derivLoop l n d) (ArrayPoly.derivLoop l' n d') := by
      intro l l' h
      induction h with
      | nil => intro n d d' _; simp [ArrayPoly.derivLoop]
      | cons hab _ ih =>
        intro n d d' hd
        cases n with
        | zero => simp [ArrayPoly.derivLoop]
        | succ n => exact .cons (hr.mul (hs.le (hs.pred hd)) hab) (ih n (hs.pred hd))
    unfold ArrayPoly.derivative
    cases e3 : (tryFromCont size : Option A) <;> cases e4 : (tryFromCont size : Option B) <;> rw [e3, e4] at hcont <;> cases hcont
    · trivial
    · rename_i h2
      simp only
      split
      · exact rel_ok (.cons hr.zero (loop h _ h2))
      · exact rel_ok Forall₂.nil
  · have loop : ∀ {l : List A} {l' : List B}, Forall₂ r l l' → ∀ {d : A} {d' : B}, s d d' →
        Res.Rel (Forall₂ r) (Poly.integLoop l d) (Poly.integLoop l' d') := by
      intro l l' h
      induction h with
      | nil => intro d d' _; exact Forall₂.nil
      | cons hab _ ih =>
        intro d d' hdd
        exact Res.Rel.bind (hd hab hdd) fun _ _ h1 => Res.Rel.bind (ih (hs.pred hdd)) fun _ _ h2 => rel_ok (.cons h1 h2)
    unfold ArrayPoly.integral
    cases e3 : (tryFromCont size : Option A) <;> cases e4 : (tryFromCont size : Option B) <;> rw [e3, e4] at hcont <;> cases hcont
    · trivial
    · rename_i h2
      exact Res.Rel.bind (loop h h2) fun _ _ h3 => rel_ok (f2_append h3 (.cons hr.zero .nil))
  · unfold ArrayPoly.tryAddTerm
    split
    · exact ⟨f2_modify h (fun _ _ h => hr.add h hc) _, rfl⟩
    · exact ⟨h, rfl⟩
  · unfold ArrayPoly.trySubTerm
    split
    · exact ⟨f2_modify h (fun _ _ h => hr.sub h hc) _, rfl⟩
    · exact ⟨h, rfl⟩

/-- A case: `(0.0)x^2 + x + 2` and `(-0.0)x^2 + x + 2` over `f32` have the same degree and derivative up to the signs of zeros. -/
example : (⟨0, 1, 1 + 1⟩ : QuadraticTrinomial (Fl binary32)).Alike Fl.SameNum ⟨-0, 1, 1 + 1⟩ ∧
    (⟨-0, 1, 1 + 1⟩ : QuadraticTrinomial (Fl binary32)).degree = .num 1 ∧
    (⟨-0, 1, 1 + 1⟩ : QuadraticTrinomial (Fl binary32)).derivative = .ok ⟨0, -0, 1⟩ ∧
    (⟨0, 1, 1 + 1⟩ : QuadraticTrinomial (Fl binary32)).derivative = .ok ⟨0, 0, 1⟩ := by
  refine ⟨⟨.inr ⟨⟨false, rfl⟩, ⟨true, rfl⟩⟩, .inl rfl, .inl rfl⟩, ?_⟩
  decide +kernel

end Rustnomial
