import Verif.Lemmas.Param
import Verif.Props.FloatLaws
import Verif.Model.Powers
import Verif.Model.FloatText

/-!
# C126: nothing depends on how the numbers are represented
-/

namespace Rustnomial
open List Par

section
variable {A B : Type} [Zero A] [NumZero A] [One A] [Neg A] [Add A] [Sub A] [Mul A] [Zero B] [NumZero B] [One B] [Neg B] [Add B] [Sub B] [Mul B]
variable {r s : A → B → Prop}

/-- **C126.** What is read off two polynomials over numbers that stand for each other is the same: degree, terms, the terms iterated over, values. -/
theorem C126_dense_read (hr : Alike r) {p : Poly A} {q : Poly B} (h : p.Alike r q) :
    p.degree = q.degree ∧ p.isZeroPoly = q.isZeroPoly ∧ (∀ d, (p.termWithDegree d).Alike r (q.termWithDegree d)) ∧
    termsAlike r p.orderedTermIter q.orderedTermIter ∧ ∀ x y, r x y → r (p.eval x) (q.eval y) :=
  ⟨degree_rel hr h, congrArg Degree.isZeroPoly (degree_rel hr h), termWithDeg_rel hr h, iter_rel hr h, fun _ _ hx => eval_rel hr h hx⟩

/-- **C126.** Every operator on two polynomials, given operands that stand for each other, gives results that stand for each other, or panics on
both sides. -/
theorem C126_dense_binary (hr : Alike r) {p p' : Poly A} {q q' : Poly B} (h : p.Alike r q) (h' : p'.Alike r q') :
    Res.Rel (Poly.Alike r) (p.add p') (q.add q') ∧ Res.Rel (Poly.Alike r) (p.addAssign p') (q.addAssign q') ∧
    Res.Rel (Poly.Alike r) (p.sub p') (q.sub q') ∧ Res.Rel (Poly.Alike r) (p.subRef p') (q.subRef q') ∧
    Res.Rel (Poly.Alike r) (p.mul p') (q.mul q') ∧ Res.Rel (Poly.Alike r) (p.mulRef p') (q.mulRef q') :=
  ⟨add_rel hr h h', addAssign_rel hr h h', sub_rel hr h h', subRef_rel hr h h', mul_rel hr h h', mulRef_rel hr h h'⟩

/-- **C126.** The same for every operation on one polynomial that does not divide. -/
theorem C126_dense_unary (hr : Alike r) [CanNegate A] [CanNegate B] (hn : CanNegate.canNegate A = CanNegate.canNegate B) {p : Poly A}
    {q : Poly B} (h : p.Alike r q) {c : A} {c' : B} (hc : r c c') (d n : Nat) (k : Int) :
    (Poly.new p.terms).Alike r (Poly.new q.terms) ∧ p.neg.Alike r q.neg ∧ Res.Rel (Poly.Alike r) (p.pow n) (q.pow n) ∧
    (p.mulScalar c).Alike r (q.mulScalar c') ∧ (p.mulAssignScalar c).Alike r (q.mulAssignScalar c') ∧
    Res.Rel (Poly.Alike r) (p.shl k) (q.shl k) ∧ Res.Rel (Poly.Alike r) (p.shr k) (q.shr k) ∧
    Res.Rel (Poly.Alike r) (p.shlAssign k) (q.shlAssign k) ∧ Res.Rel (Poly.Alike r) (p.shrAssign k) (q.shrAssign k) ∧
    (p.addTerm c d).Alike r (q.addTerm c' d) ∧
    ((p.trySubTerm c d).1.Alike r (q.trySubTerm c' d).1 ∧ (p.trySubTerm c d).2 = (q.trySubTerm c' d).2) :=
  ⟨new_rel hr h, neg_rel hr h, pow_rel hr n h, mulScalar_rel hr h hc, mulAssignScalar_rel hr h hc, shl_rel hr h k, shr_rel hr h k,
    shlAssign_rel hr h k, shrAssign_rel hr h k, addTerm_rel hr h hc d, trySubTerm_rel hr hn h hc d⟩

/-- **C126.** The same for division of polynomials and by a number that is not a zero: results that stand for each other, or a panic on both
sides, or neither comes to an end within `fuel` rounds. -/
theorem C126_dense_div [RDiv A] [RDiv B] (hr : Alike r) (hd : AlikeDiv r) (fuel : Nat) {p p' : Poly A} {q q' : Poly B} (h : p.Alike r q)
    (h' : p'.Alike r q') :
    Res.Rel (fun a b => a.1.Alike r b.1 ∧ a.2.Alike r b.2) (p.divMod fuel p') (q.divMod fuel q') ∧
    Res.Rel (Poly.Alike r) (p.floorDiv fuel p') (q.floorDiv fuel q') ∧ Res.Rel (Poly.Alike r) (p.rem fuel p') (q.rem fuel q') ∧
    Res.Rel (Poly.Alike r) (p.remAssign fuel p') (q.remAssign fuel q') ∧
    ∀ c c', r c c' → isZero c = false →
      Res.Rel (Poly.Alike r) (p.divScalar c) (q.divScalar c') ∧ Res.Rel (Poly.Alike r) (p.divAssignScalar c) (q.divAssignScalar c') :=
  ⟨divMod_rel hr hd fuel h h', floorDiv_rel hr hd fuel h h', rem_rel hr hd fuel h h', remAssign_rel hr hd fuel h h',
    fun _ _ hc hz => divScalar_rel hr hd h hc hz⟩

/-- **C126.** The same for derivatives and integrals, when the numbers that count degrees stand for each other. -/
theorem C126_dense_calculus [RDiv A] [RDiv B] [FromUsizeCont A] [FromUsizeExact A] [FromUsizeCont B] [FromUsizeExact B] (hr : Alike r)
    (hs : AlikeCount r s) {p : Poly A} {q : Poly B} (h : p.Alike r q) :
    Res.Rel (Poly.Alike r) p.derivative q.derivative ∧ (AlikeCountDiv r s → Res.Rel (Poly.Alike r) p.integral q.integral) :=
  ⟨derivative_rel hr hs h, fun hd => integral_rel hr hs hd h⟩

/-- **C126.** `==` gives the same answer when it does on the numbers. -/
theorem C126_eq [BEq A] [BEq B] (hr : Alike r) (hb : ∀ {x y x' y'}, r x y → r x' y' → (x == x') = (y == y')) :
    (∀ {p p' : Poly A} {q q' : Poly B}, p.Alike r q → p'.Alike r q' → p.eq p' = q.eq q') ∧
    ∀ {p p' : Sparse A} {q q' : Sparse B}, p.Alike r q → p'.Alike r q' → p.eq p' = q.eq q' := by
  refine ⟨fun h h' => ?_, fun h h' => s_eq hr hb h h'⟩
  refine f2_beq ?_ (iter_rel hr h) (iter_rel hr h')
  rintro ⟨a, i⟩ ⟨b, j⟩ ⟨a', i'⟩ ⟨b', j'⟩ ⟨h1, h2⟩ ⟨h3, h4⟩
  simp only at h1 h2 h3 h4
  subst h2 h4
  show (a == a' && i == i') = (b == b' && i == i')
  rw [hb h1 h3]

omit [One A] [Neg A] [Add A] [Sub A] [Mul A] [Zero B] [NumZero B] [One B] [Neg B] [Add B] [Sub B] [Mul B] in
theorem display_terms_alike {F : NumFmt A} {G : NumFmt B} (hF : FmtAlike r F G) :
    ∀ {l : List (A × Nat)} {l' : List (B × Nat)}, termsAlike r l l' → (∀ e ∈ l, isZero e.1 = false) → displayTerms F l = displayTerms G l' := by
  have trail : ∀ {l : List (A × Nat)} {l' : List (B × Nat)}, termsAlike r l l' → (∀ e ∈ l, isZero e.1 = false) →
      writeTrailingTerms F l = writeTrailingTerms G l' := by
    intro l l' h
    unfold termsAlike at h
    induction h with
    | nil => intro _; rfl
    | @cons a b l l' hab _ ih =>
      intro hz
      obtain ⟨a, i⟩ := a
      obtain ⟨b, j⟩ := b
      obtain ⟨h1, h2⟩ := hab
      simp only at h1 h2
      subst h2
      obtain ⟨_, _, _, hp, ha⟩ := hF h1 (hz _ (mem_cons_self ..))
      unfold writeTrailingTerms writeTrailingTerm
      rw [ih fun e he => hz e (mem_cons_of_mem _ he), hp]
      cases e : F.abs a <;> cases e' : G.abs b <;> rw [e, e'] at ha <;> first | exact ha.elim | rfl | skip
      simp only [Res.ok_bind]
      rw [ha.1, ha.2]
  intro l l' h hz
  unfold termsAlike at h
  cases h with
  | nil => rfl
  | @cons a b l l' hab hl =>
    obtain ⟨a, i⟩ := a
    obtain ⟨b, j⟩ := b
    obtain ⟨h1, h2⟩ := hab
    simp only at h1 h2
    subst h2
    obtain ⟨hs, ho, hn, _, _⟩ := hF h1 (hz _ (mem_cons_self ..))
    simp only [displayTerms, writeLeadingTerm]
    rw [trail hl fun e he => hz e (mem_cons_of_mem _ he), hs, ho, hn]

/-- **C126.** The same text is printed when the numbers that are not zeros are printed alike. -/
theorem C126_display (hr : Alike r) {F : NumFmt A} {G : NumFmt B} (hF : FmtAlike r F G) :
    (∀ {p : Poly A} {q : Poly B}, p.Alike r q → p.display F = q.display G) ∧ ∀ {p : Sparse A} {q : Sparse B}, p.Alike r q → p.display F = q.display G := by
  constructor
  · intro p q h
    refine display_terms_alike hF (iter_rel hr h) ?_
    intro e he
    unfold Poly.orderedTermIter at he
    simp only [List.mem_filterMap] at he
    obtain ⟨⟨c, i⟩, _, h2⟩ := he
    simp only at h2
    split at h2
    · exact absurd h2 (by simp)
    · rename_i hz; cases h2; simpa using hz
  · intro p q h
    refine display_terms_alike hF (s_iter hr h) ?_
    intro e he
    unfold Sparse.orderedTermIter at he
    simp only [List.mem_filterMap] at he
    obtain ⟨⟨i, c⟩, _, h2⟩ := he
    simp only at h2
    split at h2
    · exact absurd h2 (by simp)
    · rename_i hz; cases h2; simpa using hz

/-! ## Sparse -/

/-- **C126.** What is read off two sparse polynomials is the same.  For the value the powers of the points must stand for each other. -/
theorem C126_sparse_read [PowUsize A] [PowUsize B] (hr : Alike r) {p : Sparse A} {q : Sparse B} (h : p.Alike r q) :
    p.degree = q.degree ∧ p.isZeroPoly = q.isZeroPoly ∧ (∀ d, (p.termWithDegree d).Alike r (q.termWithDegree d)) ∧
    termsAlike r p.orderedTermIter q.orderedTermIter ∧
    ∀ x y, (∀ e ∈ p.terms.entries, r (upow x e.1) (upow y e.1)) → r (p.eval x) (q.eval y) :=
  ⟨s_degree hr h, congrArg Degree.isZeroPoly (s_degree hr h), s_termWithDegree hr h, s_iter hr h, fun _ _ hp => s_eval hr h hp⟩

/-- **C126.** The operators on two sparse polynomials, and the subtraction of a dense one. -/
theorem C126_sparse_binary (hr : Alike r) {p p' : Sparse A} {q q' : Sparse B} (h : p.Alike r q) (h' : p'.Alike r q') :
    (p.add p').Alike r (q.add q') ∧ (p.addAssign p').Alike r (q.addAssign q') ∧ (p.sub p').Alike r (q.sub q') ∧ (p.mul p').Alike r (q.mul q') ∧
    ∀ (u : Poly A) (v : Poly B), u.Alike r v → (p.subDense u).Alike r (q.subDense v) :=
  ⟨s_add hr h h', s_addAssign hr h h', s_sub hr h h', s_mul hr h h', fun _ _ hu => s_subDense hr h hu⟩

/-- **C126.** The operations on one sparse polynomial that do not divide, and the conversion of a vector. -/
theorem C126_sparse_unary (hr : Alike r) [CanNegate A] [CanNegate B] (hn : CanNegate.canNegate A = CanNegate.canNegate B) {p : Sparse A}
    {q : Sparse B} (h : p.Alike r q) {c : A} {c' : B} (hc : r c c') (d n : Nat) (k : Int) :
    p.trim.Alike r q.trim ∧ p.neg.Alike r q.neg ∧ (p.pow n).Alike r (q.pow n) ∧
    (p.mulScalar c).Alike r (q.mulScalar c') ∧ (p.mulAssignScalar c).Alike r (q.mulAssignScalar c') ∧
    Res.Rel (Sparse.Alike r) (p.shl k) (q.shl k) ∧ Res.Rel (Sparse.Alike r) (p.shr k) (q.shr k) ∧
    (p.addTerm c d).Alike r (q.addTerm c' d) ∧
    ((p.trySubTerm c d).1.Alike r (q.trySubTerm c' d).1 ∧ (p.trySubTerm c d).2 = (q.trySubTerm c' d).2) ∧
    ∀ (l : List A) (l' : List B), Forall₂ r l l' → (Sparse.fromVec l).Alike r (Sparse.fromVec l') :=
  ⟨s_trim hr h, s_neg hr h, s_pow hr n h, s_mulScalar hr h hc, s_mulAssignScalar hr h hc, s_shl h k, s_shr h k, s_addTerm hr h hc d,
    s_trySubTerm hr hn h hc d, fun _ _ hl => s_fromVec hr hl⟩

/-- **C126.** Division of sparse polynomials, and by a number that is not a zero. -/
theorem C126_sparse_div [RDiv A] [RDiv B] (hr : Alike r) (hd : AlikeDiv r) (fuel : Nat) {p p' : Sparse A} {q q' : Sparse B} (h : p.Alike r q)
    (h' : p'.Alike r q') :
    Res.Rel (fun a b => a.1.Alike r b.1 ∧ a.2.Alike r b.2) (p.divMod fuel p') (q.divMod fuel q') ∧
    Res.Rel (Sparse.Alike r) (p.rem fuel p') (q.rem fuel q') ∧
    ∀ c c', r c c' → isZero c = false →
      Res.Rel (Sparse.Alike r) (p.divScalar c) (q.divScalar c') ∧ Res.Rel (Sparse.Alike r) (p.divAssignScalar c) (q.divAssignScalar c') :=
  ⟨s_divMod hr hd fuel h h', s_rem hr hd fuel h h', fun _ _ hc hz => s_divScalar hd h hc hz⟩

/-- **C126.** Derivatives and integrals of sparse polynomials. -/
theorem C126_sparse_calculus [RDiv A] [RDiv B] [FromUsizeCont A] [FromUsizeExact A] [FromUsizeCont B] [FromUsizeExact B] (hr : Alike r)
    (hs : AlikeCount r s) {p : Sparse A} {q : Sparse B} (h : p.Alike r q) :
    Res.Rel (Sparse.Alike r) p.derivative q.derivative ∧ (AlikeCountDiv r s → Res.Rel (Sparse.Alike r) p.integral q.integral) :=
  ⟨s_derivative hr hs h, fun hd => s_integral hs hd h⟩

/-! ## Programs -/

/-- **C126.** Any expression with derivatives and divisions, over numbers that stand for each other. -/
theorem C126_expr [RDiv A] [RDiv B] [FromUsizeCont A] [FromUsizeExact A] [FromUsizeCont B] [FromUsizeExact B] (hr : Alike r) (hd : AlikeDiv r)
    (hs : AlikeCount r s) (fuel : Nat) : ∀ {e : FExpr A} {e' : FExpr B}, e.Alike r e' → Res.Rel (Poly.Alike r) (e.run fuel) (e'.run fuel)
  | .lit _, .lit _, h => rel_ok (new_rel hr h)
  | .neg _, .neg _, h => Res.Rel.bind (C126_expr hr hd hs fuel (FExpr.Alike.eq_2 r _ _ ▸ h)) fun _ _ h => rel_ok (neg_rel hr h)
  | .add _ _, .add _ _, h =>
    Res.Rel.bind (C126_expr hr hd hs fuel h.1) fun _ _ h1 => Res.Rel.bind (C126_expr hr hd hs fuel h.2) fun _ _ h2 => add_rel hr h1 h2
  | .sub _ _, .sub _ _, h =>
    Res.Rel.bind (C126_expr hr hd hs fuel h.1) fun _ _ h1 => Res.Rel.bind (C126_expr hr hd hs fuel h.2) fun _ _ h2 => sub_rel hr h1 h2
  | .mul _ _, .mul _ _, h =>
    Res.Rel.bind (C126_expr hr hd hs fuel h.1) fun _ _ h1 => Res.Rel.bind (C126_expr hr hd hs fuel h.2) fun _ _ h2 => mul_rel hr h1 h2
  | .pow _ n, .pow _ m, h => by
    obtain ⟨h1, rfl⟩ := h
    exact Res.Rel.bind (C126_expr hr hd hs fuel h1) fun _ _ h2 => pow_rel hr n h2
  | .scale _ _, .scale _ _, h => Res.Rel.bind (C126_expr hr hd hs fuel h.1) fun _ _ h2 => rel_ok (mulScalar_rel hr h2 h.2)
  | .shl _ k, .shl _ m, h => by
    obtain ⟨h1, rfl⟩ := h
    exact Res.Rel.bind (C126_expr hr hd hs fuel h1) fun _ _ h2 => shl_rel hr h2 k
  | .deriv _, .deriv _, h => Res.Rel.bind (C126_expr hr hd hs fuel (FExpr.Alike.eq_9 r _ _ ▸ h)) fun _ _ h => derivative_rel hr hs h
  | .quo _ _, .quo _ _, h =>
    Res.Rel.bind (C126_expr hr hd hs fuel h.1) fun _ _ h1 => Res.Rel.bind (C126_expr hr hd hs fuel h.2) fun _ _ h2 => floorDiv_rel hr hd fuel h1 h2
  | .rem _ _, .rem _ _, h =>
    Res.Rel.bind (C126_expr hr hd hs fuel h.1) fun _ _ h1 => Res.Rel.bind (C126_expr hr hd hs fuel h.2) fun _ _ h2 => remAssign_rel hr hd fuel h1 h2

omit [Zero A] [NumZero A] [One A] [Neg A] [Add A] [Sub A] [Mul A] [Zero B] [NumZero B] [One B] [Neg B] [Add B] [Sub B] [Mul B] in
theorem rexpr_rel {V W : Type} {R : V → W → Prop} {o : ROps V A} {o' : ROps W B} (hl : ∀ {l l'}, Forall₂ r l l' → R (o.lit l) (o'.lit l'))
    (hneg : ∀ {x y}, R x y → Res.Rel R (o.neg x) (o'.neg y)) (hadd : ∀ {x y x' y'}, R x y → R x' y' → Res.Rel R (o.add x x') (o'.add y y'))
    (hsub : ∀ {x y x' y'}, R x y → R x' y' → Res.Rel R (o.sub x x') (o'.sub y y'))
    (hmul : ∀ {x y x' y'}, R x y → R x' y' → Res.Rel R (o.mul x x') (o'.mul y y'))
    (hpow : ∀ {x y} n, R x y → Res.Rel R (o.pow x n) (o'.pow y n)) (hscale : ∀ {x y c c'}, R x y → r c c' → Res.Rel R (o.scale x c) (o'.scale y c'))
    (hshl : ∀ {x y} k, R x y → Res.Rel R (o.shl x k) (o'.shl y k)) :
    ∀ {e : RExpr A} {e' : RExpr B}, e.Alike r e' → Res.Rel R (e.run o) (e'.run o') := by
  intro e
  induction e with
  | lit cs => intro e' h; cases e' <;> first | exact rel_ok (hl h) | exact h.elim
  | neg a ih => intro e' h; cases e' <;> first | exact Res.Rel.bind (ih h) fun _ _ h => hneg h | exact h.elim
  | add a b iha ihb =>
    intro e' h
    cases e' <;> first | exact Res.Rel.bind (iha h.1) fun _ _ h1 => Res.Rel.bind (ihb h.2) fun _ _ h2 => hadd h1 h2 | exact h.elim
  | sub a b iha ihb =>
    intro e' h
    cases e' <;> first | exact Res.Rel.bind (iha h.1) fun _ _ h1 => Res.Rel.bind (ihb h.2) fun _ _ h2 => hsub h1 h2 | exact h.elim
  | mul a b iha ihb =>
    intro e' h
    cases e' <;> first | exact Res.Rel.bind (iha h.1) fun _ _ h1 => Res.Rel.bind (ihb h.2) fun _ _ h2 => hmul h1 h2 | exact h.elim
  | pow a n ih =>
    intro e' h
    cases e' <;> first | (obtain ⟨h1, rfl⟩ := h; exact Res.Rel.bind (ih h1) fun _ _ h => hpow n h) | exact h.elim
  | scale a c ih => intro e' h; cases e' <;> first | exact Res.Rel.bind (ih h.1) fun _ _ h1 => hscale h1 h.2 | exact h.elim
  | shl a k ih =>
    intro e' h
    cases e' <;> first | (obtain ⟨h1, rfl⟩ := h; exact Res.Rel.bind (ih h1) fun _ _ h => hshl k h) | exact h.elim

/-- **C126.** Any expression without division, for both types. -/
theorem C126_expr_ring (hr : Alike r) {e : RExpr A} {e' : RExpr B} (h : e.Alike r e') :
    Res.Rel (Poly.Alike r) (e.run denseOps) (e'.run denseOps) ∧ Res.Rel (Sparse.Alike r) (e.run sparseOps) (e'.run sparseOps) :=
  ⟨rexpr_rel (fun h => new_rel hr h) (fun h => rel_ok (neg_rel hr h)) (fun h h' => add_rel hr h h') (fun h h' => sub_rel hr h h')
    (fun h h' => mul_rel hr h h') (fun n h => pow_rel hr n h) (fun h hc => rel_ok (mulScalar_rel hr h hc)) (fun k h => shl_rel hr h k) h,
   rexpr_rel (fun h => s_fromVec hr h) (fun h => rel_ok (s_neg hr h)) (fun h h' => rel_ok (s_add hr h h')) (fun h h' => rel_ok (s_sub hr h h'))
    (fun h h' => rel_ok (s_mul hr h h')) (fun n h => rel_ok (s_pow hr n h)) (fun h hc => rel_ok (s_mulScalar hr h hc)) (fun k h => s_shl h k) h⟩

/-- **C126.** Any history of mutations. -/
theorem C126_history [CanNegate A] [CanNegate B] (hr : Alike r) (hn : CanNegate.canNegate A = CanNegate.canNegate B) :
    (∀ {p : Poly A} {q : Poly B} {ops : List (Op (Poly A) A)} {ops' : List (Op (Poly B) B)}, p.Alike r q →
      Forall₂ (Op.Alike (Poly.Alike r) r) ops ops' → Res.Rel (Poly.Alike r) (runOps Poly.step p ops) (runOps Poly.step q ops')) ∧
    ∀ {p : Sparse A} {q : Sparse B} {ops : List (Op (Sparse A) A)} {ops' : List (Op (Sparse B) B)}, p.Alike r q →
      Forall₂ (Op.Alike (Sparse.Alike r) r) ops ops' → Res.Rel (Sparse.Alike r) (runOps Sparse.step p ops) (runOps Sparse.step q ops') := by
  constructor
  · intro p q ops ops' h ho
    refine f2_foldlM (r := Op.Alike (Poly.Alike r) r) (t := Poly.Alike r) ?_ ho h
    intro x x' o o' hx h
    cases o <;> cases o' <;> first | exact h.elim | skip
    · obtain ⟨h1, rfl⟩ := h; exact rel_ok (addTerm_rel hr hx h1 _)
    · obtain ⟨h1, rfl⟩ := h; exact rel_ok (trySubTerm_rel hr hn hx h1 _).1
    · exact addAssign_rel hr hx h
    · exact sub_rel hr hx h
    · exact mul_rel hr hx h
    · exact rel_ok (mulAssignScalar_rel hr hx h)
    · cases h; exact shlAssign_rel hr hx _
    · cases h; exact shrAssign_rel hr hx _
    · exact rel_ok (by have := new_rel hr hx; exact this)
    · exact rel_ok (Forall₂.nil)
  · intro p q ops ops' h ho
    refine f2_foldlM (r := Op.Alike (Sparse.Alike r) r) (t := Sparse.Alike r) ?_ ho h
    intro x x' o o' hx h
    cases o <;> cases o' <;> first | exact h.elim | skip
    · obtain ⟨h1, rfl⟩ := h; exact rel_ok (s_addTerm hr hx h1 _)
    · obtain ⟨h1, rfl⟩ := h; exact rel_ok (s_trySubTerm hr hn hx h1 _).1
    · exact rel_ok (s_addAssign hr hx h)
    · exact rel_ok (s_sub hr hx h)
    · exact rel_ok (s_mul hr hx h)
    · exact rel_ok (s_mulAssignScalar hr hx h)
    · cases h; exact s_shl hx _
    · cases h; exact s_shr hx _
    · exact rel_ok (s_trim hr hx)
    · exact rel_ok (Forall₂.nil)

/-! ## Maps between number types -/

omit [Zero A] [NumZero A] [One A] [Neg A] [Add A] [Sub A] [Mul A] [Zero B] [NumZero B] [One B] [Neg B] [Add B] [Sub B] [Mul B] in
theorem fexpr_map_alike (φ : A → B) : ∀ e : FExpr A, e.Alike (fun x y => φ x = y) (e.map φ)
  | .lit cs => f2_of_map φ cs
  | .neg a => fexpr_map_alike φ a
  | .add a b => ⟨fexpr_map_alike φ a, fexpr_map_alike φ b⟩
  | .sub a b => ⟨fexpr_map_alike φ a, fexpr_map_alike φ b⟩
  | .mul a b => ⟨fexpr_map_alike φ a, fexpr_map_alike φ b⟩
  | .pow a _ => ⟨fexpr_map_alike φ a, rfl⟩
  | .scale a _ => ⟨fexpr_map_alike φ a, rfl⟩
  | .shl a _ => ⟨fexpr_map_alike φ a, rfl⟩
  | .deriv a => fexpr_map_alike φ a
  | .quo a b => ⟨fexpr_map_alike φ a, fexpr_map_alike φ b⟩
  | .rem a b => ⟨fexpr_map_alike φ a, fexpr_map_alike φ b⟩

omit [Zero A] [NumZero A] [One A] [Neg A] [Add A] [Sub A] [Mul A] [Zero B] [NumZero B] [One B] [Neg B] [Add B] [Sub B] [Mul B] in
theorem rexpr_map_alike (φ : A → B) : ∀ e : RExpr A, e.Alike (fun x y => φ x = y) (e.map φ)
  | .lit cs => f2_of_map φ cs
  | .neg a => rexpr_map_alike φ a
  | .add a b => ⟨rexpr_map_alike φ a, rexpr_map_alike φ b⟩
  | .sub a b => ⟨rexpr_map_alike φ a, rexpr_map_alike φ b⟩
  | .mul a b => ⟨rexpr_map_alike φ a, rexpr_map_alike φ b⟩
  | .pow a _ => ⟨rexpr_map_alike φ a, rfl⟩
  | .scale a _ => ⟨rexpr_map_alike φ a, rfl⟩
  | .shl a _ => ⟨rexpr_map_alike φ a, rfl⟩

theorem mapOk_of_rel {α β : Type} {g : α → β} {x : Res α} {y : Res β} (h : Res.Rel (fun a b => g a = b) x y) : y = x.mapOk g := by
  cases x <;> cases y <;> first | exact h.elim | rfl | (cases h; rfl)

/-- **C126.** A map between number types that the operations respect can be applied before or after any expression. -/
theorem C126_image [RDiv A] [RDiv B] [FromUsizeCont A] [FromUsizeExact A] [FromUsizeCont B] [FromUsizeExact B] {φ : A → B}
    (hr : Alike fun x y => φ x = y) (hd : AlikeDiv fun x y => φ x = y) (hs : AlikeCount (fun x y => φ x = y) s) (fuel : Nat) (e : FExpr A) :
    (e.map φ).run fuel = (e.run fuel).mapOk fun p => ⟨p.terms.map φ⟩ :=
  mapOk_of_rel ((C126_expr hr hd hs fuel (fexpr_map_alike φ e)).imp fun p q h => by
    cases q; exact congrArg Poly.mk (map_of_f2 h))

/-- **C126.** The same for expressions without division. -/
theorem C126_image_ring {φ : A → B} (hr : Alike fun x y => φ x = y) (e : RExpr A) :
    (e.map φ).run denseOps = (e.run denseOps).mapOk (fun p => (⟨p.terms.map φ⟩ : Poly B)) ∧
    (Sparse.terms <$> (e.map φ).run sparseOps) = (e.run sparseOps).mapOk (fun p => p.terms.mapVals φ) := by
  have h := C126_expr_ring hr (rexpr_map_alike φ e)
  constructor
  · exact mapOk_of_rel (h.1.imp fun p q h => by cases q; exact congrArg Poly.mk (map_of_f2 h))
  · have h2 := h.2
    cases e1 : e.run sparseOps <;> cases e2 : (e.map φ).run sparseOps <;> rw [e1, e2] at h2 <;> first | exact h2.elim | rfl | skip
    rename_i p q
    show Res.ok q.terms = Res.ok (p.terms.mapVals φ)
    have h3 : p.terms.entries.map (fun e => (e.1, φ e.2)) = q.terms.entries := by
      change Forall₂ (entryAlike _) p.terms.entries q.terms.entries at h2
      generalize p.terms.entries = l at h2
      generalize q.terms.entries = l' at h2
      induction h2 with
      | nil => rfl
      | cons hab _ ih => rw [List.map_cons, ih]; exact congrArg (· :: _) (Prod.ext hab.1 hab.2)
    congr 1
    rcases hq : q.terms with ⟨m, hm⟩
    rw [hq] at h3
    unfold BMap.mapVals
    congr 1
    exact h3.symm

end

/-! ## Instances -/

/-- Integers and the rationals they are. -/
theorem alike_int_rat : Alike (fun (x : ℤ) (y : ℚ) => (x : ℚ) = y) where
  zero := by simp
  one := by simp
  isZero := by rintro x _ rfl; simp [isZero]
  neg := by rintro x _ rfl; simp
  add := by rintro x _ x' _ rfl rfl; simp
  sub := by rintro x _ x' _ rfl rfl; simp
  mul := by rintro x _ x' _ rfl rfl; simp

/-- **C126.** An expression over integers, computed over the rationals: the same coefficients, for both types. -/
theorem C126_integers_in_rationals (e : RExpr ℤ) :
    (e.map (fun x : ℤ => (x : ℚ))).run denseOps = (e.run denseOps).mapOk (fun p => (⟨p.terms.map fun x : ℤ => (x : ℚ)⟩ : Poly ℚ)) ∧
    (Sparse.terms <$> (e.map (fun x : ℤ => (x : ℚ))).run sparseOps) = (e.run sparseOps).mapOk (fun p => p.terms.mapVals fun x : ℤ => (x : ℚ)) :=
  C126_image_ring alike_int_rat e

section Floats
variable {f : FlFmt}
open Fl

theorem isZero_fin (b : Bool) (m : Nat) : isZero (Fl.fin b m : Fl f) = decide (m = 0) := by
  show (m == 0 && (b == false || m == 0)) = _
  by_cases h : m = 0 <;> simp [h]

theorem isZero_of_zero {x : Fl f} (h : ∃ s, x = .fin s 0) : isZero x = true := by
  obtain ⟨s, rfl⟩ := h; rw [isZero_fin]; simp

theorem sameNum_isZero {x y : Fl f} (h : SameNum x y) : isZero x = isZero y := by
  rcases h with rfl | ⟨h1, h2⟩
  · rfl
  · rw [isZero_of_zero h1, isZero_of_zero h2]

theorem sameNum_add_right {x y : Fl f} (z : Fl f) (h : SameNum x y) : SameNum (x + z) (y + z) := by
  rcases h with rfl | ⟨⟨s, rfl⟩, ⟨t, rfl⟩⟩
  · exact .inl rfl
  · show SameNum (Fl.add _ _) (Fl.add _ _)
    cases z with
    | nan => exact .inl rfl
    | inf u => exact .inl rfl
    | fin u m =>
      by_cases hm : m = 0
      · subst hm
        refine .inr ⟨?_, ?_⟩
        · exact zero_add_zero ⟨s, rfl⟩ ⟨u, rfl⟩
        · exact zero_add_zero ⟨t, rfl⟩ ⟨u, rfl⟩
      · refine .inl ?_
        have : ∀ s : Bool, Fl.add (.fin s 0 : Fl f) (.fin u m) = pack u (roundRat f.p m 1) := by
          intro s
          unfold Fl.add
          by_cases h : s = u
          · subst h; simp
          · simp only [h, if_false, Nat.sub_zero]
            rw [if_neg (Ne.symm hm), if_neg (by omega)]
        rw [this, this]

theorem fl_add_comm (x y : Fl f) : x + y = y + x := by
  show Fl.add x y = Fl.add y x
  cases x <;> cases y <;> simp only [Fl.add]
  · rename_i s t
    by_cases h : s = t
    · subst h; rfl
    · rw [if_neg h, if_neg (Ne.symm h)]
  · rename_i s a t b
    by_cases h : s = t
    · subst h; simp [Nat.add_comm]
    · rw [if_neg h, if_neg (Ne.symm h)]
      rcases Nat.lt_trichotomy a b with h1 | h1 | h1
      · rw [if_neg (by omega), if_neg (by omega), if_neg (by omega), if_pos h1]
      · subst h1; simp
      · rw [if_neg (by omega), if_pos h1, if_neg (by omega), if_neg (by omega)]

theorem sameNum_neg {x y : Fl f} (h : SameNum x y) : SameNum (-x) (-y) := by
  rcases h with rfl | ⟨⟨s, rfl⟩, ⟨t, rfl⟩⟩
  · exact .inl rfl
  · exact .inr ⟨⟨!s, rfl⟩, ⟨!t, rfl⟩⟩

theorem sameNum_trans {x y z : Fl f} (h : SameNum x y) (h' : SameNum y z) : SameNum x z := by
  rcases h with rfl | ⟨h1, h2⟩
  · exact h'
  · rcases h' with rfl | ⟨h3, h4⟩
    · exact .inr ⟨h1, h2⟩
    · exact .inr ⟨h1, h4⟩

theorem sameNum_add {x y x' y' : Fl f} (h : SameNum x y) (h' : SameNum x' y') : SameNum (x + x') (y + y') := by
  refine sameNum_trans (sameNum_add_right x' h) ?_
  rw [fl_add_comm y x', fl_add_comm y y']
  exact sameNum_add_right y h'

theorem sameNum_mul_right {x y : Fl f} (z : Fl f) (h : SameNum x y) : SameNum (x * z) (y * z) := by
  rcases h with rfl | ⟨⟨s, rfl⟩, ⟨t, rfl⟩⟩
  · exact .inl rfl
  · cases z with
    | nan => exact .inl rfl
    | inf u => exact .inl rfl
    | fin u m => exact .inr ⟨zero_mul_num rfl ⟨s, rfl⟩, zero_mul_num rfl ⟨t, rfl⟩⟩

theorem fl_mul_comm (x y : Fl f) : x * y = y * x := by
  show Fl.mul x y = Fl.mul y x
  cases x <;> cases y <;> simp only [Fl.mul, Nat.mul_comm, bne_comm]

theorem sameNum_mul {x y x' y' : Fl f} (h : SameNum x y) (h' : SameNum x' y') : SameNum (x * x') (y * y') := by
  refine sameNum_trans (sameNum_mul_right x' h) ?_
  rw [fl_mul_comm y x', fl_mul_comm y y']
  exact sameNum_mul_right y h'

/-- The number operations cannot tell `-0.0` from `0.0`, except in the sign of a zero result. -/
theorem alike_sameNum : Alike (SameNum : Fl f → Fl f → Prop) where
  zero := .inl rfl
  one := .inl rfl
  isZero := sameNum_isZero
  neg := sameNum_neg
  add := sameNum_add
  sub h h' := sameNum_add h (sameNum_neg h')
  mul := sameNum_mul

theorem sameNum_div_left {x y : Fl f} (z : Fl f) (h : SameNum x y) : SameNum (Fl.div x z) (Fl.div y z) := by
  rcases h with rfl | ⟨⟨s, rfl⟩, ⟨t, rfl⟩⟩
  · exact .inl rfl
  · cases z with
    | nan => exact .inl rfl
    | inf u => exact .inr ⟨⟨_, rfl⟩, ⟨_, rfl⟩⟩
    | fin u m =>
      unfold Fl.div
      by_cases hm : m = 0
      · subst hm; exact .inl (by simp)
      · simp only [if_neg hm, Nat.zero_mul, roundRat_zero, pack_zero]
        exact .inr ⟨⟨_, rfl⟩, ⟨_, rfl⟩⟩

theorem alikeDiv_sameNum : AlikeDiv (SameNum : Fl f → Fl f → Prop) := by
  intro x y x' y' h h' hz
  rcases h' with rfl | ⟨h1, _⟩
  · exact sameNum_div_left _ h
  · rw [isZero_of_zero h1] at hz; cases hz

theorem alikeCount_sameNum [FromUsizeCont (Fl f)] [FromUsizeExact (Fl f)] : AlikeCount (SameNum : Fl f → Fl f → Prop) Eq where
  le h := .inl h
  cont n := by cases (tryFromCont n : Option (Fl f)) <;> constructor; rfl
  exact n := by cases (tryFromExact n : Option (Fl f)) <;> constructor; rfl
  pred h := by rw [h]

theorem alikeCountDiv_sameNum : AlikeCountDiv (SameNum : Fl f → Fl f → Prop) Eq := by
  rintro x y d _ h rfl
  exact sameNum_div_left _ h

theorem fmtAlike_sameNum (shw : Fl f → List Char) : FmtAlike SameNum (flFmt shw) (flFmt shw) := by
  intro x y h hz
  rcases h with rfl | ⟨h1, _⟩
  · exact ⟨rfl, rfl, rfl, rfl, Res.Rel.same (fun _ => ⟨rfl, rfl⟩) _⟩
  · rw [isZero_of_zero h1] at hz; cases hz

theorem beq_sameNum {x y x' y' : Fl f} (h : SameNum x y) (h' : SameNum x' y') : (x == x') = (y == y') := by
  have left : ∀ {x y : Fl f} (z : Fl f), SameNum x y → (x == z) = (y == z) ∧ (z == x) = (z == y) := by
    intro x y z h
    rcases h with rfl | ⟨⟨s, rfl⟩, ⟨t, rfl⟩⟩
    · exact ⟨rfl, rfl⟩
    · cases z with
      | nan => exact ⟨rfl, rfl⟩
      | inf u => exact ⟨rfl, rfl⟩
      | fin u m =>
        constructor
        · show ((0 : Nat) == m && (s == u || (0 : Nat) == 0)) = ((0 : Nat) == m && (t == u || (0 : Nat) == 0)); simp
        · cases m with
          | zero => show ((0 : Nat) == 0 && (u == s || (0 : Nat) == 0)) = ((0 : Nat) == 0 && (u == t || (0 : Nat) == 0)); simp
          | succ n => rfl
  rw [(left x' h).1, (left y h').2]

/-- **C126.** In floating point the signs of the zeros among the numbers of a program change nothing but signs of zeros: the same panics, the same
number of rounds of every division, the same coefficients up to the sign of a zero. -/
theorem C126_zero_signs [FromUsizeCont (Fl f)] [FromUsizeExact (Fl f)] (fuel : Nat) {e e' : FExpr (Fl f)} (h : e.Alike SameNum e') :
    Res.Rel (Poly.Alike SameNum) (e.run fuel) (e'.run fuel) :=
  C126_expr alike_sameNum alikeDiv_sameNum alikeCount_sameNum fuel h

/-- **C126.** What such polynomials print, how they compare, and their integrals. -/
theorem C126_zero_signs_read [FromUsizeCont (Fl f)] [FromUsizeExact (Fl f)] (shw : Fl f → List Char) {p q : Poly (Fl f)}
    (h : p.Alike SameNum q) :
    p.degree = q.degree ∧ p.display (flFmt shw) = q.display (flFmt shw) ∧ (∀ u v : Poly (Fl f), u.Alike SameNum v → p.eq u = q.eq v) ∧
    (∀ x y, SameNum x y → SameNum (p.eval x) (q.eval y)) ∧ Res.Rel (Poly.Alike SameNum) p.integral q.integral :=
  ⟨degree_rel alike_sameNum h, (C126_display alike_sameNum (fmtAlike_sameNum shw)).1 h, fun _ _ hu => (C126_eq alike_sameNum beq_sameNum).1 h hu,
    fun _ _ hx => eval_rel alike_sameNum h hx, integral_rel alike_sameNum alikeCount_sameNum alikeCountDiv_sameNum h⟩

/-- **C126.** The same for sparse polynomials. -/
theorem C126_zero_signs_sparse [FromUsizeCont (Fl f)] [FromUsizeExact (Fl f)] (fuel : Nat) (shw : Fl f → List Char) {p q p' q' : Sparse (Fl f)}
    (h : p.Alike SameNum q) (h' : p'.Alike SameNum q') :
    p.degree = q.degree ∧ p.display (flFmt shw) = q.display (flFmt shw) ∧ p.eq p' = q.eq q' ∧
    (p.add p').Alike SameNum (q.add q') ∧ (p.sub p').Alike SameNum (q.sub q') ∧ (p.mul p').Alike SameNum (q.mul q') ∧
    Res.Rel (fun a b => a.1.Alike SameNum b.1 ∧ a.2.Alike SameNum b.2) (p.divMod fuel p') (q.divMod fuel q') ∧
    Res.Rel (Sparse.Alike SameNum) p.derivative q.derivative ∧ Res.Rel (Sparse.Alike SameNum) p.integral q.integral :=
  ⟨s_degree alike_sameNum h, (C126_display alike_sameNum (fmtAlike_sameNum shw)).2 h, (C126_eq alike_sameNum beq_sameNum).2 h h',
    s_add alike_sameNum h h', s_sub alike_sameNum h h', s_mul alike_sameNum h h', s_divMod alike_sameNum alikeDiv_sameNum fuel h h',
    s_derivative alike_sameNum alikeCount_sameNum h, s_integral alikeCount_sameNum alikeCountDiv_sameNum h⟩

end Floats

/-! ## Concrete cases -/

section Cases
open Fl

/-- `(3x - 1)^2 * 2`, over the integers and over the rationals. -/
example : ((RExpr.scale (.pow (.lit [3, -1]) 2) 2 : RExpr ℤ).map (fun x : ℤ => (x : ℚ))).run denseOps = .ok (⟨[18, -12, 2]⟩ : Poly ℚ) ∧
    (RExpr.scale (.pow (.lit [3, -1]) 2) 2 : RExpr ℤ).run denseOps = .ok ⟨[18, -12, 2]⟩ := by
  decide +kernel

/-- A map that does not respect `is_zero`: the integers modulo 5.  The degree is not the same, so this hypothesis is needed. -/
example : ((⟨[5, 1]⟩ : Poly ℤ).degree, (⟨[((5 : ℤ) : ZMod 5), 1]⟩ : Poly (ZMod 5)).degree) = (.num 1, .num 0) := by decide

/-- Numbers that carry a tag of their own along, as the bits of a NaN do: the tag of the left operand is kept. -/
structure Tagged (f : FlFmt) where
  val : Fl f
  tag : Nat

instance {f : FlFmt} : Zero (Tagged f) := ⟨⟨0, 0⟩⟩
instance {f : FlFmt} : One (Tagged f) := ⟨⟨1, 0⟩⟩
instance {f : FlFmt} : NumZero (Tagged f) := ⟨fun x => isZero x.val⟩
instance {f : FlFmt} : Neg (Tagged f) := ⟨fun x => ⟨-x.val, x.tag + 1⟩⟩
instance {f : FlFmt} : Add (Tagged f) := ⟨fun x y => ⟨x.val + y.val, x.tag⟩⟩
instance {f : FlFmt} : Sub (Tagged f) := ⟨fun x y => ⟨x.val - y.val, x.tag⟩⟩
instance {f : FlFmt} : Mul (Tagged f) := ⟨fun x y => ⟨x.val * y.val, x.tag⟩⟩

/-- Forgetting the tags is respected by the operations. -/
example {f : FlFmt} : Alike fun (x : Tagged f) (y : Fl f) => x.val = y where
  zero := rfl
  one := rfl
  isZero := by rintro x _ rfl; rfl
  neg := by rintro x _ rfl; rfl
  add := by rintro x _ x' _ rfl rfl; rfl
  sub := by rintro x _ x' _ rfl rfl; rfl
  mul := by rintro x _ x' _ rfl rfl; rfl

/-- `[1, -0.0, 2] * [1, 1]` and `[1, 0.0, 2] * [1, 1]`: the same coefficients. -/
example : (⟨[1, -0, 1 + 1]⟩ : Poly (Fl binary32)).Alike SameNum ⟨[1, 0, 1 + 1]⟩ ∧
    (⟨[1, -0, 1 + 1]⟩ : Poly (Fl binary32)).mul ⟨[1, 1]⟩ = .ok ⟨[1, 1, 1 + 1, 1 + 1]⟩ := by
  refine ⟨.cons (.inl rfl) (.cons (.inr ⟨⟨true, rfl⟩, ⟨false, rfl⟩⟩) (.cons (.inl rfl) .nil)), ?_⟩
  decide +kernel

/-- Division by a zero is where the sign shows: the coefficients are infinities of the two signs. -/
example : (⟨[1]⟩ : Poly (Fl binary32)).divScalar 0 = .ok ⟨[.inf false]⟩ ∧ (⟨[1]⟩ : Poly (Fl binary32)).divScalar (-0) = .ok ⟨[.inf true]⟩ := by
  decide +kernel

end Cases

end Rustnomial
