import Verif.Lemmas.MachineSink

/-!
# C104: which terms are taken, into types of bounded size and over unsigned types

`add_poly`, `sub_poly` and `mul_poly_vec` on machine integers, where a term may be refused: the four types of bounded size
refuse terms they cannot hold, and an unsigned dense or sparse polynomial refuses to subtract where it has nothing.
-/

open Polynomial

namespace Rustnomial

section generic
variable {t : IntTy} {S : Type} {repr : S → ℤ[X]} {σ : Int} {e : TryAddError}
  {stepM : S → Int → Nat → Res (S × Except TryAddError Unit)}

theorem Sink.takes {chk : Bool} (hchk : chk = true) (K : Sink t chk S repr σ e stepM) (B : Nat → Prop)
    (hacc : ∀ s c d, K.acc s c d ↔ B d) {s : S} (hs : K.inv s) (hin : ∀ n, t.InRange ((repr s).coeff n))
    {ts : List (Int × Nat)} (hts : ∀ x ∈ ts, t.InRange x.1 ∧ K.dom x.2) :
    TakesTerms repr (FitsWhile t (fun l => ∀ x ∈ l, B x.2) σ (repr s) ts) (fun l => ∀ x ∈ l, B x.2) σ e (repr s) ts
      (runSM stepM ts s) := by
  subst hchk
  exact K.run_checked (fun _ l => ∀ x ∈ l, B x.2) (fun _ => by simp) (fun s c d l _ _ => by
    rw [List.forall_mem_cons, hacc]
    exact ⟨fun h => ⟨h.1, fun _ => h.2⟩, fun h => ⟨h.1, h.2 h.1⟩⟩) ts s hs hin hts

theorem map_wrap_self (hb : 1 ≤ t.bits) {ts : List (Int × Nat)} (hts : ∀ x ∈ ts, t.InRange x.1) :
    (ts.map fun x => (t.wrap x.1, x.2)) = ts := by
  conv_rhs => rw [← List.map_id ts]
  refine List.map_congr_left fun x hx => ?_
  rw [t.wrap_of_inRange hb _ (hts x hx)]; rfl

theorem Sink.takesWrap' {chk : Bool} (hchk : chk = false) (hb : 1 ≤ t.bits) (K : Sink t chk S repr σ e stepM) (B : Nat → Prop)
    (hacc : ∀ s c d, K.acc s c d ↔ B d) {s : S} (hs : K.inv s) (hin : ∀ n, t.InRange ((repr s).coeff n))
    {ts : List (Int × Nat)} (hts : ∀ x ∈ ts, K.dom x.2) :
    TakesTermsWrap t repr (fun l => ∀ x ∈ l, B x.2) σ e (repr s) ts (runSM stepM (ts.map fun x => (t.wrap x.1, x.2)) s) := by
  subst hchk
  exact K.run_wrap hb (fun _ => True) (fun _ l => ∀ x ∈ l, B x.2) (fun _ => by simp) (fun s c d l _ _ _ _ => by
    rw [List.forall_mem_cons, hacc]
    exact ⟨fun h => ⟨h.1, fun _ => h.2⟩, fun h => ⟨h.1, h.2 h.1⟩⟩) ts s _ hs
      (fun n => (t.wrap_of_inRange hb _ (hin n)).symm) (fun x hx => ⟨trivial, hts x hx⟩)

theorem Sink.takesWrap {chk : Bool} (hchk : chk = false) (hb : 1 ≤ t.bits) (K : Sink t chk S repr σ e stepM) (B : Nat → Prop)
    (hacc : ∀ s c d, K.acc s c d ↔ B d) {s : S} (hs : K.inv s) (hin : ∀ n, t.InRange ((repr s).coeff n))
    {ts : List (Int × Nat)} (hts : ∀ x ∈ ts, t.InRange x.1 ∧ K.dom x.2) :
    TakesTermsWrap t repr (fun l => ∀ x ∈ l, B x.2) σ e (repr s) ts (runSM stepM ts s) := by
  have h := K.takesWrap' hchk hb B hacc hs hin (fun x hx => (hts x hx).2)
  rwa [map_wrap_self hb (fun x hx => (hts x hx).1)] at h

theorem Sink.takesX {chk : Bool} {w cap : Nat} (hchk : chk = true) (K : Sink t chk S repr σ e stepM) (B : Nat → Prop)
    (hacc : ∀ s c d, K.acc s c d ↔ B d) (hdom : ∀ d, K.dom d) {s : S} (hs : K.inv s)
    (hin : ∀ n, t.InRange ((repr s).coeff n)) (ps : List ((Int × Nat) × (Int × Nat))) :
    TakesTerms repr (ProductsFit t w (fun l => ∀ x ∈ l, B x.2) ps ∧
        FitsWhile t (fun l => ∀ x ∈ l, B x.2) σ (repr s) (ps.map fun p => (p.1.1 * p.2.1, p.1.2 + p.2.2)))
      (fun l => ∀ x ∈ l, B x.2) σ e (repr s) (ps.map fun p => (p.1.1 * p.2.1, p.1.2 + p.2.2))
      (runXM (.machine true t w cap) stepM ps s) := by
  subst hchk
  exact K.runX_checked hdom (fun _ l => ∀ x ∈ l, B x.2) (fun _ => by simp) (fun s c d l _ _ => by
    rw [List.forall_mem_cons, hacc]
    exact ⟨fun h => ⟨h.1, fun _ => h.2⟩, fun h => ⟨h.1, h.2 h.1⟩⟩) ps s hs hin

end generic

variable (t : IntTy) (w cap : Nat)

/-- The pairs of terms `mul_poly_vec` goes through, and their products. -/
def pairsFor (rhs lhs : List (Int × Nat)) : List ((Int × Nat) × (Int × Nat)) := rhs.flatMap fun r => lhs.map fun l => (r, l)

/-- The products, in the order of `mul_poly_vec`. -/
def productsFor (rhs lhs : List (Int × Nat)) : List (Int × Nat) :=
  (pairsFor rhs lhs).map fun p => (p.1.1 * p.2.1, p.1.2 + p.2.2)

/-- The sum of all products is the product. -/
theorem C104_products (rhs lhs : List (Int × Nat)) : termsPoly (productsFor rhs lhs) = termsPoly rhs * termsPoly lhs := by
  rw [productsFor, pairsFor, products_map]
  exact termsPoly_products rhs lhs

/-- C104, linear binomials: terms up to degree 1. -/
theorem C104_linear (hb : 1 ≤ t.bits) (b : LinearBinomial Int) (h0 : t.InRange b.c0) (h1 : t.InRange b.c1)
    (ts : List (Int × Nat)) (hts : ∀ x ∈ ts, t.InRange x.1) :
    let taken : List (Int × Nat) → Prop := fun l => ∀ x ∈ l, x.2 ≤ 1
    TakesTerms LinearBinomial.poly (FitsWhile t taken 1 b.poly ts) taken 1 .degreeOutOfBounds b.poly ts
      (addPolyM (.machine true t w cap) ts b) ∧
    TakesTerms LinearBinomial.poly (FitsWhile t taken (-1) b.poly ts) taken (-1) .degreeOutOfBounds b.poly ts
      (subPolyM (.machine true t w cap) ts b) ∧
    TakesTermsWrap t LinearBinomial.poly taken 1 .degreeOutOfBounds b.poly ts (addPolyM (.machine false t w cap) ts b) ∧
    TakesTermsWrap t LinearBinomial.poly taken (-1) .degreeOutOfBounds b.poly ts (subPolyM (.machine false t w cap) ts b) := by
  intro taken
  have hin : ∀ n, t.InRange (b.poly.coeff n) := by
    intro n
    rw [LinearBinomial.poly, linear_coeff]
    split_ifs
    · exact h0
    · exact h1
    · exact t.zero_inRange
  have hts' : ∀ x ∈ ts, t.InRange x.1 ∧ True := fun x hx => ⟨hts x hx, trivial⟩
  simp only [addPolyM_runSM, subPolyM_runSM]
  exact ⟨(linearAddSink true).takes rfl (· ≤ 1) (fun _ _ _ => Iff.rfl) trivial hin hts',
    (linearSubSink true).takes rfl (· ≤ 1) (fun _ _ _ => Iff.rfl) trivial hin hts',
    (linearAddSink false).takesWrap rfl hb (· ≤ 1) (fun _ _ _ => Iff.rfl) trivial hin hts',
    (linearSubSink false).takesWrap rfl hb (· ≤ 1) (fun _ _ _ => Iff.rfl) trivial hin hts'⟩

/-- C104, quadratic trinomials: terms up to degree 2. -/
theorem C104_quadratic (hb : 1 ≤ t.bits) (b : QuadraticTrinomial Int) (h0 : t.InRange b.c0) (h1 : t.InRange b.c1)
    (h2 : t.InRange b.c2) (ts : List (Int × Nat)) (hts : ∀ x ∈ ts, t.InRange x.1) :
    let taken : List (Int × Nat) → Prop := fun l => ∀ x ∈ l, x.2 ≤ 2
    TakesTerms QuadraticTrinomial.poly (FitsWhile t taken 1 b.poly ts) taken 1 .degreeOutOfBounds b.poly ts
      (addPolyM (.machine true t w cap) ts b) ∧
    TakesTerms QuadraticTrinomial.poly (FitsWhile t taken (-1) b.poly ts) taken (-1) .degreeOutOfBounds b.poly ts
      (subPolyM (.machine true t w cap) ts b) ∧
    TakesTermsWrap t QuadraticTrinomial.poly taken 1 .degreeOutOfBounds b.poly ts (addPolyM (.machine false t w cap) ts b) ∧
    TakesTermsWrap t QuadraticTrinomial.poly taken (-1) .degreeOutOfBounds b.poly ts
      (subPolyM (.machine false t w cap) ts b) := by
  intro taken
  have hin : ∀ n, t.InRange (b.poly.coeff n) := by
    intro n
    rw [QuadraticTrinomial.poly, quadratic_coeff]
    split_ifs
    · exact h0
    · exact h1
    · exact h2
    · exact t.zero_inRange
  have hts' : ∀ x ∈ ts, t.InRange x.1 ∧ True := fun x hx => ⟨hts x hx, trivial⟩
  simp only [addPolyM_runSM, subPolyM_runSM]
  exact ⟨(quadraticAddSink true).takes rfl (· ≤ 2) (fun _ _ _ => Iff.rfl) trivial hin hts',
    (quadraticSubSink true).takes rfl (· ≤ 2) (fun _ _ _ => Iff.rfl) trivial hin hts',
    (quadraticAddSink false).takesWrap rfl hb (· ≤ 2) (fun _ _ _ => Iff.rfl) trivial hin hts',
    (quadraticSubSink false).takesWrap rfl hb (· ≤ 2) (fun _ _ _ => Iff.rfl) trivial hin hts'⟩

/-- C104, array polynomials: terms of a degree below the size. -/
theorem C104_array (hb : 1 ≤ t.bits) {size : Nat} (p : ArrayPoly Int size) (hp : AllIn t p.coefficients)
    (ts : List (Int × Nat)) (hts : ∀ x ∈ ts, t.InRange x.1) :
    let repr : ArrayPoly Int size → ℤ[X] := fun p => descPoly p.coefficients
    let taken : List (Int × Nat) → Prop := fun l => ∀ x ∈ l, x.2 < size
    TakesTerms repr (FitsWhile t taken 1 (repr p) ts) taken 1 .degreeOutOfBounds (repr p) ts
      (addPolyM (.machine true t w cap) ts p) ∧
    TakesTerms repr (FitsWhile t taken (-1) (repr p) ts) taken (-1) .degreeOutOfBounds (repr p) ts
      (subPolyM (.machine true t w cap) ts p) ∧
    TakesTermsWrap t repr taken 1 .degreeOutOfBounds (repr p) ts (addPolyM (.machine false t w cap) ts p) ∧
    TakesTermsWrap t repr taken (-1) .degreeOutOfBounds (repr p) ts (subPolyM (.machine false t w cap) ts p) := by
  intro repr taken
  have hin : ∀ n, t.InRange ((descPoly p.coefficients).coeff n) := (inRange_descPoly t _).1 hp
  have hts' : ∀ x ∈ ts, t.InRange x.1 ∧ True := fun x hx => ⟨hts x hx, trivial⟩
  simp only [addPolyM_runSM, subPolyM_runSM]
  exact ⟨(arrayAddSink true).takes rfl (· < size) (fun _ _ _ => Iff.rfl) trivial hin hts',
    (arraySubSink true).takes rfl (· < size) (fun _ _ _ => Iff.rfl) trivial hin hts',
    (arrayAddSink false).takesWrap rfl hb (· < size) (fun _ _ _ => Iff.rfl) trivial hin hts',
    (arraySubSink false).takesWrap rfl hb (· < size) (fun _ _ _ => Iff.rfl) trivial hin hts'⟩

/-- C104, a single term added to or subtracted from an array polynomial: the two models of these functions agree. -/
theorem C104_array_term (chk : Bool) {size : Nat} (p : ArrayPoly Int size) (c : Int) (d : Nat) :
    ((MutPolyM.tryAddTermM (.machine chk t w cap) p c d) >>= fun r => Res.ok (r.1.coefficients, r.2)) =
      p.tryAddTermM (.machine chk t) c d ∧
    ((MutPolyM.trySubTermM (.machine chk t w cap) p c d) >>= fun r => Res.ok (r.1.coefficients, r.2)) =
      arrayTrySubTermM (.machine chk t) p.coefficients c d := by
  constructor
  · show (p.tryAddTermE (.machine chk t w cap) c d >>= _) = _
    unfold ArrayPoly.tryAddTermE ArrayPoly.tryAddTermM
    split_ifs with h
    · rw [modifyM_eq _ 0 _ _ (by rw [p.length_eq]; omega), bind_assoc, bind_assoc]; rfl
    · rfl
  · show (p.trySubTermE (.machine chk t w cap) c d >>= _) = _
    unfold ArrayPoly.trySubTermE arrayTrySubTermM
    rw [p.length_eq]
    split_ifs with h
    · rw [modifyM_eq _ 0 _ _ (by rw [p.length_eq]; omega), bind_assoc, bind_assoc]; rfl
    · rfl

theorem monomial_takes (σ : Int) {stepM : Monomial Int → Int → Nat → Res (Monomial Int × Except TryAddError Unit)}
    (K : Sink t true (Monomial Int) Monomial.poly σ .tooManyTerms stepM)
    (hacc : ∀ s c d, K.acc s c d ↔ (s.isZeroPoly = true ∨ d = s.deg)) :
    ∀ s c d l, K.inv s → K.dom d → (SameDegree σ s.poly ((c, d) :: l) ↔
      K.acc s c d ∧ (K.acc s c d → SameDegree σ (K.put s c d (s.poly.coeff d + σ * c)).poly l)) := by
  intro s c d l hi hd
  rw [sameDegree_cons, ← monomial_acc, ← hacc s c d]
  constructor
  · rintro ⟨h1, h2⟩
    exact ⟨h1, fun ha => by rw [K.poly_put hi hd ha]; exact h2⟩
  · rintro ⟨h1, h2⟩
    exact ⟨h1, by rw [← K.poly_put hi hd h1]; exact h2 h1⟩

theorem monomial_takesWrap (hb : 1 ≤ t.bits) (σ : Int)
    {stepM : Monomial Int → Int → Nat → Res (Monomial Int × Except TryAddError Unit)}
    (K : Sink t false (Monomial Int) Monomial.poly σ .tooManyTerms stepM)
    (hacc : ∀ s c d, K.acc s c d ↔ (s.isZeroPoly = true ∨ d = s.deg)) :
    ∀ s c d l, K.inv s → (∀ n, t.InRange (s.poly.coeff n)) → K.dom d → True → (SameDegreeWrap t σ s.poly ((c, d) :: l) ↔
      K.acc s (t.wrap c) d ∧ (K.acc s (t.wrap c) d →
        SameDegreeWrap t σ (K.put s (t.wrap c) d (t.wrap (s.poly.coeff d + σ * t.wrap c))).poly l)) := by
  intro s c d l hi hin hd _
  have h1 : (∀ n, n ≠ d → t.wrap (s.poly.coeff n) = 0) ↔ K.acc s (t.wrap c) d := by
    rw [hacc, monomial_acc]
    simp only [t.wrap_of_inRange hb _ (hin _)]
  rw [sameDegreeWrap_cons, h1]
  have h2 : K.acc s (t.wrap c) d → (SameDegreeWrap t σ (s.poly + C (σ * c) * X ^ d) l ↔
      SameDegreeWrap t σ (K.put s (t.wrap c) d (t.wrap (s.poly.coeff d + σ * t.wrap c))).poly l) := by
    intro ha
    refine sameDegreeWrap_congr t fun n => ?_
    rw [K.coeff_put s _ d _ hi hd ha
      (fun h => by rw [h, mul_zero, add_zero, t.wrap_of_inRange hb _ (hin d)]), coeff_term_add]
    split_ifs
    · rw [wrap_add_mul_right, t.wrap_of_inRange hb _ (t.wrap_inRange hb _)]
    · rfl
  constructor
  · rintro ⟨a, b⟩
    exact ⟨a, fun ha => (h2 ha).1 b⟩
  · rintro ⟨a, b⟩
    exact ⟨a, (h2 a).2 (b a)⟩

/-- C104, monomials: terms of the degree of the monomial, or of any degree while it is zero. -/
theorem C104_monomial (hb : 1 ≤ t.bits) (m : Monomial Int) (hm : t.InRange m.coefficient) (ts : List (Int × Nat))
    (hts : ∀ x ∈ ts, t.InRange x.1) :
    TakesTerms Monomial.poly (FitsWhile t (SameDegree 1 m.poly) 1 m.poly ts) (SameDegree 1 m.poly) 1 .tooManyTerms m.poly ts
      (addPolyM (.machine true t w cap) ts m) ∧
    TakesTerms Monomial.poly (FitsWhile t (SameDegree (-1) m.poly) (-1) m.poly ts) (SameDegree (-1) m.poly) (-1) .tooManyTerms
      m.poly ts (subPolyM (.machine true t w cap) ts m) ∧
    TakesTermsWrap t Monomial.poly (SameDegreeWrap t 1 m.poly) 1 .tooManyTerms m.poly ts
      (addPolyM (.machine false t w cap) ts m) ∧
    TakesTermsWrap t Monomial.poly (SameDegreeWrap t (-1) m.poly) (-1) .tooManyTerms m.poly ts
      (subPolyM (.machine false t w cap) ts m) := by
  have hin : ∀ n, t.InRange (m.poly.coeff n) := by
    intro n
    rw [monomial_coeff]
    split_ifs
    · exact hm
    · exact t.zero_inRange
  have hts' : ∀ x ∈ ts, t.InRange x.1 ∧ True := fun x hx => ⟨hts x hx, trivial⟩
  have hts2 : ∀ x ∈ ts, True ∧ True := fun x hx => ⟨trivial, trivial⟩
  have hw : ∀ n, m.poly.coeff n = t.wrap (m.poly.coeff n) := fun n => (t.wrap_of_inRange hb _ (hin n)).symm
  simp only [addPolyM_runSM, subPolyM_runSM]
  refine ⟨(monomialAddSink true).run_checked (fun s => SameDegree 1 s.poly) (fun _ => sameDegree_nil)
      (monomial_takes t 1 _ (fun _ _ _ => Iff.rfl)) ts m trivial hin hts',
    (monomialSubSink true).run_checked (fun s => SameDegree (-1) s.poly) (fun _ => sameDegree_nil)
      (monomial_takes t (-1) _ (fun _ _ _ => Iff.rfl)) ts m trivial hin hts', ?_, ?_⟩
  · have := (monomialAddSink (t := t) (w := w) (cap := cap) false).run_wrap hb (fun _ => True) (fun s => SameDegreeWrap t 1 s.poly)
      (fun _ => sameDegreeWrap_nil t) (monomial_takesWrap t hb 1 _ (fun _ _ _ => Iff.rfl)) ts m _ trivial hw hts2
    rwa [map_wrap_self hb hts] at this
  · have := (monomialSubSink (t := t) (w := w) (cap := cap) false).run_wrap hb (fun _ => True) (fun s => SameDegreeWrap t (-1) s.poly)
      (fun _ => sameDegreeWrap_nil t) (monomial_takesWrap t hb (-1) _ (fun _ _ _ => Iff.rfl)) ts m _ trivial hw hts2
    rwa [map_wrap_self hb hts] at this

/-- C104, `mul_poly_vec` into the types of bounded size, with overflow checks. -/
theorem C104_mul (b : LinearBinomial Int) (q : QuadraticTrinomial Int) (m : Monomial Int) {size : Nat} (p : ArrayPoly Int size)
    (hb : t.InRange b.c0 ∧ t.InRange b.c1) (hq : t.InRange q.c0 ∧ t.InRange q.c1 ∧ t.InRange q.c2)
    (hm : t.InRange m.coefficient) (hp : AllIn t p.coefficients) (rhs lhs : List (Int × Nat)) :
    let ps := pairsFor rhs lhs
    let ts := productsFor rhs lhs
    let upTo : Nat → List (Int × Nat) → Prop := fun k l => ∀ x ∈ l, x.2 < k
    TakesTerms LinearBinomial.poly (ProductsFit t w (upTo 2) ps ∧ FitsWhile t (upTo 2) 1 b.poly ts) (upTo 2) 1
      .degreeOutOfBounds b.poly ts (mulPolyVecM (.machine true t w cap) rhs lhs b) ∧
    TakesTerms QuadraticTrinomial.poly (ProductsFit t w (upTo 3) ps ∧ FitsWhile t (upTo 3) 1 q.poly ts) (upTo 3) 1
      .degreeOutOfBounds q.poly ts (mulPolyVecM (.machine true t w cap) rhs lhs q) ∧
    TakesTerms (fun p : ArrayPoly Int size => descPoly p.coefficients)
      (ProductsFit t w (upTo size) ps ∧ FitsWhile t (upTo size) 1 (descPoly p.coefficients) ts) (upTo size) 1
      .degreeOutOfBounds (descPoly p.coefficients) ts (mulPolyVecM (.machine true t w cap) rhs lhs p) ∧
    TakesTerms Monomial.poly (ProductsFit t w (SameDegree 1 m.poly) ps ∧ FitsWhile t (SameDegree 1 m.poly) 1 m.poly ts)
      (SameDegree 1 m.poly) 1 .tooManyTerms m.poly ts (mulPolyVecM (.machine true t w cap) rhs lhs m) := by
  intro ps ts upTo
  have hin1 : ∀ n, t.InRange (b.poly.coeff n) := by
    intro n
    rw [LinearBinomial.poly, linear_coeff]
    split_ifs
    · exact hb.1
    · exact hb.2
    · exact t.zero_inRange
  have hin2 : ∀ n, t.InRange (q.poly.coeff n) := by
    intro n
    rw [QuadraticTrinomial.poly, quadratic_coeff]
    split_ifs
    · exact hq.1
    · exact hq.2.1
    · exact hq.2.2
    · exact t.zero_inRange
  have hin3 : ∀ n, t.InRange (m.poly.coeff n) := by
    intro n
    rw [monomial_coeff]
    split_ifs
    · exact hm
    · exact t.zero_inRange
  simp only [mulPolyVecM_runXM]
  exact ⟨(linearAddSink true).takesX rfl (· < 2) (fun _ _ _ => Nat.lt_succ_iff.symm) (fun _ => trivial) trivial hin1 ps,
    (quadraticAddSink true).takesX rfl (· < 3) (fun _ _ _ => Nat.lt_succ_iff.symm) (fun _ => trivial) trivial hin2 ps,
    (arrayAddSink true).takesX rfl (· < size) (fun _ _ _ => Iff.rfl) (fun _ => trivial) trivial ((inRange_descPoly t _).1 hp) ps,
    (monomialAddSink true).runX_checked (fun _ => trivial) (fun s => SameDegree 1 s.poly) (fun _ => sameDegree_nil)
      (monomial_takes t 1 _ (fun _ _ _ => Iff.rfl)) ps m trivial hin3⟩

/-- C104, `mul_poly_vec` into the types of bounded size, without overflow checks. -/
theorem C104_mul_wrap (hbits : 1 ≤ t.bits) (b : LinearBinomial Int) (q : QuadraticTrinomial Int) (m : Monomial Int) {size : Nat}
    (p : ArrayPoly Int size) (hb : t.InRange b.c0 ∧ t.InRange b.c1) (hq : t.InRange q.c0 ∧ t.InRange q.c1 ∧ t.InRange q.c2)
    (hm : t.InRange m.coefficient) (hp : AllIn t p.coefficients) (rhs lhs : List (Int × Nat))
    (hd : ∀ r ∈ rhs, ∀ l ∈ lhs, r.2 + l.2 < 2 ^ w) :
    let ts := productsFor rhs lhs
    let upTo : Nat → List (Int × Nat) → Prop := fun k l => ∀ x ∈ l, x.2 < k
    TakesTermsWrap t LinearBinomial.poly (upTo 2) 1 .degreeOutOfBounds b.poly ts
      (mulPolyVecM (.machine false t w cap) rhs lhs b) ∧
    TakesTermsWrap t QuadraticTrinomial.poly (upTo 3) 1 .degreeOutOfBounds q.poly ts
      (mulPolyVecM (.machine false t w cap) rhs lhs q) ∧
    TakesTermsWrap t (fun p : ArrayPoly Int size => descPoly p.coefficients) (upTo size) 1 .degreeOutOfBounds
      (descPoly p.coefficients) ts (mulPolyVecM (.machine false t w cap) rhs lhs p) ∧
    TakesTermsWrap t Monomial.poly (SameDegreeWrap t 1 m.poly) 1 .tooManyTerms m.poly ts
      (mulPolyVecM (.machine false t w cap) rhs lhs m) := by
  intro ts upTo
  have hin1 : ∀ n, t.InRange (b.poly.coeff n) := by
    intro n
    rw [LinearBinomial.poly, linear_coeff]
    split_ifs
    · exact hb.1
    · exact hb.2
    · exact t.zero_inRange
  have hin2 : ∀ n, t.InRange (q.poly.coeff n) := by
    intro n
    rw [QuadraticTrinomial.poly, quadratic_coeff]
    split_ifs
    · exact hq.1
    · exact hq.2.1
    · exact hq.2.2
    · exact t.zero_inRange
  have hin3 : ∀ n, t.InRange (m.poly.coeff n) := by
    intro n
    rw [monomial_coeff]
    split_ifs
    · exact hm
    · exact t.zero_inRange
  have hps : ∀ p ∈ (rhs.flatMap fun r => lhs.map fun l => (r, l)), p.1.2 + p.2.2 < 2 ^ w :=
    (products_forall (P := fun a b => a.2 + b.2 < 2 ^ w)).2 hd
  have hT : ∀ x ∈ ts, True := fun _ _ => trivial
  simp only [mulPolyVecM_runXM, runXM_wrap _ _ hps]
  refine ⟨(linearAddSink false).takesWrap' rfl hbits (· < 2) (fun _ _ _ => Nat.lt_succ_iff.symm) trivial hin1 hT,
    (quadraticAddSink false).takesWrap' rfl hbits (· < 3) (fun _ _ _ => Nat.lt_succ_iff.symm) trivial hin2 hT,
    (arrayAddSink false).takesWrap' rfl hbits (· < size) (fun _ _ _ => Iff.rfl) trivial ((inRange_descPoly t _).1 hp) hT,
    (monomialAddSink false).run_wrap hbits (fun _ => True) (fun s => SameDegreeWrap t 1 s.poly)
      (fun _ => sameDegreeWrap_nil t) (monomial_takesWrap t hbits 1 _ (fun _ _ _ => Iff.rfl)) ts m _ trivial
      (fun n => (t.wrap_of_inRange hbits _ (hin3 n)).symm) (fun _ _ => ⟨trivial, trivial⟩)⟩

/-- C104, subtraction from a dense polynomial over an unsigned type: terms of a degree below the number of coefficients. -/
theorem C104_dense_unsigned (hb : 1 ≤ t.bits) (hs : t.signed = false) (p : Poly Int) (hp : AllIn t p.terms)
    (ts : List (Int × Nat)) (hts : ∀ x ∈ ts, t.InRange x.1 ∧ x.2 + 1 < 2 ^ w) :
    let repr : Poly Int → ℤ[X] := fun p => descPoly p.terms
    let taken : List (Int × Nat) → Prop := fun l => ∀ x ∈ l, x.2 < p.terms.length
    TakesTerms repr (FitsWhile t taken (-1) (repr p) ts) taken (-1) .canNotNegate (repr p) ts
      (subPolyM (.machine true t w cap) ts p) ∧
    TakesTermsWrap t repr taken (-1) .canNotNegate (repr p) ts (subPolyM (.machine false t w cap) ts p) := by
  intro repr taken
  have hin : ∀ n, t.InRange ((descPoly p.terms).coeff n) := (inRange_descPoly t _).1 hp
  simp only [subPolyM_runSM]
  exact ⟨(denseUnsignedSubSink true hs p.terms.length).takes rfl (· < p.terms.length) (fun _ _ _ => Iff.rfl) rfl hin hts,
    (denseUnsignedSubSink false hs p.terms.length).takesWrap rfl hb (· < p.terms.length) (fun _ _ _ => Iff.rfl) rfl hin hts⟩

/-- C104, subtraction from a sparse polynomial over an unsigned type: zero terms, and terms of a degree with an entry. -/
theorem C104_sparse_unsigned (hb : 1 ≤ t.bits) (hs : t.signed = false) (p : Sparse Int)
    (hp : ∀ e ∈ p.terms.entries, t.InRange e.2) (ts : List (Int × Nat)) (hts : ∀ x ∈ ts, t.InRange x.1) :
    let repr : Sparse Int → ℤ[X] := fun p => entriesPoly p.terms.entries
    let taken : List (Int × Nat) → Prop := fun l => ∀ x ∈ l, x.1 = 0 ∨ ∃ v, (x.2, v) ∈ p.terms.entries
    TakesTerms repr (FitsWhile t taken (-1) (repr p) ts) taken (-1) .canNotNegate (repr p) ts
      (subPolyM (.machine true t w cap) ts p) ∧
    TakesTermsWrap t repr taken (-1) .canNotNegate (repr p) ts (subPolyM (.machine false t w cap) ts p) := by
  intro repr taken
  have hin : ∀ n, t.InRange ((entriesPoly p.terms.entries).coeff n) := (inRange_mapPoly t _).1 hp
  have hinv : ∀ d, (p.terms.get d).isSome = true ↔ ∃ v, (d, v) ∈ p.terms.entries := by
    intro d
    rw [Option.isSome_iff_exists]
    exact exists_congr fun v => (BMap.mem_entries _ _ _).symm
  simp only [subPolyM_runSM]
  refine ⟨(sparseUnsignedSubSink true hs (fun d => ∃ v, (d, v) ∈ p.terms.entries)).run_checked (fun _ => taken) (fun _ => by simp [taken])
    (fun s c d l _ _ => ?_) ts p hinv hin (fun x hx => ⟨hts x hx, trivial⟩), ?_⟩
  · show (∀ x ∈ (c, d) :: l, _) ↔ _
    rw [List.forall_mem_cons]
    exact ⟨fun h => ⟨h.1, fun _ => h.2⟩, fun h => ⟨h.1, h.2 h.1⟩⟩
  · have := (sparseUnsignedSubSink (w := w) (cap := cap) false hs (fun d => ∃ v, (d, v) ∈ p.terms.entries)).run_wrap hb t.InRange (fun _ => taken)
      (fun _ => by simp [taken]) (fun s c d l _ _ _ hc => by
        rw [t.wrap_of_inRange hb _ hc]
        show (∀ x ∈ (c, d) :: l, _) ↔ _
        rw [List.forall_mem_cons]
        exact ⟨fun h => ⟨h.1, fun _ => h.2⟩, fun h => ⟨h.1, h.2 h.1⟩⟩) ts p _ hinv
      (fun n => (t.wrap_of_inRange hb _ (hin n)).symm) (fun x hx => ⟨hts x hx, trivial⟩)
    rwa [map_wrap_self hb hts] at this

/-- C104, subtraction over a signed type without overflow checks: no term is refused; a degree without room panics. -/
theorem C104_signed_wrap (hb : 1 ≤ t.bits) (hs : t.signed = true) (hcap : cap < 2 ^ w) (p : Poly Int) (q : Sparse Int)
    (hp : AllIn t p.terms) (hl : p.terms.length ≤ cap) (hq : ∀ e ∈ q.terms.entries, t.InRange e.2)
    (ts : List (Int × Nat)) (hts : ∀ x ∈ ts, t.InRange x.1 ∧ x.2 < 2 ^ w) :
    ((∀ x ∈ ts, x.2 < cap) → ∃ r, subPolyM (.machine false t w cap) ts p = .ok (r, .ok ()) ∧
      ∀ n, (descPoly r.terms).coeff n = t.wrap ((descPoly p.terms - termsPoly ts).coeff n)) ∧
    (¬ (∀ x ∈ ts, x.2 < cap) → subPolyM (.machine false t w cap) ts p = .panic) ∧
    (∃ r, subPolyM (.machine false t w cap) ts q = .ok (r, .ok ()) ∧
      ∀ n, (entriesPoly r.terms.entries).coeff n = t.wrap ((entriesPoly q.terms.entries - termsPoly ts).coeff n)) := by
  have hin : ∀ n, t.InRange ((descPoly p.terms).coeff n) := (inRange_descPoly t _).1 hp
  have hin' : ∀ n, t.InRange ((entriesPoly q.terms.entries).coeff n) := (inRange_mapPoly t _).1 hq
  have fin : ∀ {S : Type} {repr : S → ℤ[X]} {P : ℤ[X]} {run : Res (S × Except TryAddError Unit)},
      TakesTermsWrap t repr (fun l => ∀ x ∈ l, True) (-1) .canNotNegate P ts run →
      ∃ r, run = .ok (r, .ok ()) ∧ ∀ n, (repr r).coeff n = t.wrap ((P - termsPoly ts).coeff n) := by
    rintro S repr P run ⟨r, res, pre, h1, ⟨_, h2⟩, h3⟩
    rcases h2 with ⟨rfl, rfl⟩ | ⟨x, _, h, _⟩
    · refine ⟨r, h1, fun n => ?_⟩
      rw [h3 n]
      simp [sub_eq_add_neg]
    · exact absurd (fun _ _ => trivial) h
  simp only [subPolyM_runSM]
  refine ⟨fun h => ?_, fun h => ?_, ?_⟩
  · exact fin ((denseSignedSubSink (w := w) (cap := cap) false hs hcap).takesWrap rfl hb (fun _ => True) (fun _ _ _ => Iff.rfl)
      (s := p) hl hin (fun x hx => ⟨(hts x hx).1, h x hx⟩))
  · exact (denseSignedSubSink (w := w) (cap := cap) false hs hcap).run_panic hb (2 ^ w) (fun _ _ _ => trivial)
      (fun s c d hi hd hn => trySubTermE_noroom false hs hcap s c d hi (by
        have : ¬ d < cap := hn
        omega) hd) ts p hl hin hts h
  · exact fin ((sparseSignedSubSink (w := w) (cap := cap) false hb hs).takesWrap rfl hb (fun _ => True) (fun _ _ _ => Iff.rfl)
      (s := q) trivial hin' (fun x hx => ⟨(hts x hx).1, trivial⟩))

/-! ## Concrete cases -/

/-- The third term has no place; the first two are added. -/
example : addPolyM (.machine true ⟨true, 8⟩ 64 100) [(3, 1), (4, 0), (5, 2), (100, 0)] (⟨120, 7⟩ : LinearBinomial Int) =
    .ok (⟨123, 11⟩, .error .degreeOutOfBounds) := by decide

/-- A term that does not fit before the refused one is a panic. -/
example : addPolyM (.machine true ⟨true, 8⟩ 64 100) [(8, 1), (4, 0), (5, 2)] (⟨120, 7⟩ : LinearBinomial Int) = .panic ∧
    addPolyM (.machine false ⟨true, 8⟩ 64 100) [(8, 1), (4, 0), (5, 2)] (⟨120, 7⟩ : LinearBinomial Int) =
      .ok (⟨-128, 11⟩, .error .degreeOutOfBounds) := by decide

example : subPolyM (.machine true ⟨false, 8⟩ 64 100) [(3, 2), (4, 0), (1, 5)] (⟨10, 0, 7⟩ : QuadraticTrinomial Int) =
    .ok (⟨7, 0, 3⟩, .error .degreeOutOfBounds) ∧
    subPolyM (.machine true ⟨false, 8⟩ 64 100) [(3, 2), (4, 1)] (⟨10, 0, 7⟩ : QuadraticTrinomial Int) = .panic ∧
    subPolyM (.machine false ⟨false, 8⟩ 64 100) [(3, 2), (4, 1)] (⟨10, 0, 7⟩ : QuadraticTrinomial Int) =
      .ok (⟨7, 252, 7⟩, .ok ()) := by decide

/-- The hypotheses of `C104_array` with a term that is refused: all terms are values of `i8`. -/
example : (AllIn ⟨true, 8⟩ (⟨[1, 2, 3], rfl⟩ : ArrayPoly Int 3).coefficients) ∧
    (∀ x ∈ [((100 : Int), 2), (-3, 0), (4, 3)], (IntTy.mk true 8).InRange x.1) ∧
    (addPolyM (.machine true ⟨true, 8⟩ 64 100) [(100, 2), (-3, 0), (4, 3)] (⟨[1, 2, 3], rfl⟩ : ArrayPoly Int 3) >>= fun r =>
      Res.ok (r.1.coefficients, r.2)) = .ok ([101, 2, 0], .error .degreeOutOfBounds) := by
  refine ⟨?_, by decide, by decide⟩
  intro x hx
  fin_cases hx <;> decide

/-- A monomial that becomes zero takes a term of another degree. -/
example : subPolyM (.machine true ⟨true, 8⟩ 64 100) [(5, 3), (2, 7), (1, 7), (1, 3)] (⟨5, 3⟩ : Monomial Int) =
    .ok (⟨-3, 7⟩, .error .tooManyTerms) ∧
    addPolyM (.machine true ⟨true, 8⟩ 64 100) [(0, 4), (1, 3)] (⟨5, 3⟩ : Monomial Int) =
      .ok (⟨5, 3⟩, .error .tooManyTerms) := by decide

/-- Without overflow checks a monomial can become zero by reduction, and then takes a term of another degree. -/
example : addPolyM (.machine false ⟨false, 8⟩ 64 100) [(255, 3), (9, 1)] (⟨1, 3⟩ : Monomial Int) = .ok (⟨9, 1⟩, .ok ()) ∧
    addPolyM (.machine true ⟨false, 8⟩ 64 100) [(255, 3), (9, 1)] (⟨1, 3⟩ : Monomial Int) = .panic := by decide

/-- `(2 x + 3) (x + 4)` into a linear binomial: the product of degree 2 is refused at once; the other way round `x^2`
comes last. -/
example : mulPolyVecM (.machine true ⟨true, 8⟩ 64 100) [(2, 1), (3, 0)] [(1, 1), (4, 0)] (⟨0, 0⟩ : LinearBinomial Int) =
    .ok (⟨0, 0⟩, .error .degreeOutOfBounds) ∧
    mulPolyVecM (.machine true ⟨true, 8⟩ 64 100) [(3, 0), (2, 1)] [(4, 0), (1, 1)] (⟨0, 0⟩ : LinearBinomial Int) =
      .ok (⟨11, 12⟩, .error .degreeOutOfBounds) := by decide

/-- The product that would be refused is formed first, and may overflow. -/
example : mulPolyVecM (.machine true ⟨true, 8⟩ 64 100) [(100, 1)] [(2, 1)] (⟨0, 0⟩ : LinearBinomial Int) = .panic ∧
    mulPolyVecM (.machine false ⟨true, 8⟩ 64 100) [(100, 1)] [(2, 1)] (⟨0, 0⟩ : LinearBinomial Int) =
      .ok (⟨0, 0⟩, .error .degreeOutOfBounds) := by decide

/-- Over `u8`, a degree beyond the coefficients is refused, and a difference below zero panics. -/
example : subPolyM (.machine true ⟨false, 8⟩ 64 100) [(3, 1), (1, 2), (1, 0)] (⟨[10, 7]⟩ : Poly Int) =
    .ok (⟨[7, 7]⟩, .error .canNotNegate) ∧
    subPolyM (.machine true ⟨false, 8⟩ 64 100) [(3, 1), (8, 0), (1, 2)] (⟨[10, 7]⟩ : Poly Int) = .panic ∧
    subPolyM (.machine false ⟨false, 8⟩ 64 100) [(3, 1), (8, 0), (1, 2)] (⟨[10, 7]⟩ : Poly Int) =
      .ok (⟨[7, 255]⟩, .error .canNotNegate) := by decide

example : (subPolyM (.machine true ⟨false, 8⟩ 64 100) [(3, 1), (0, 2), (1, 3), (1, 0)] (⟨BMap.ofList [(0, 7), (1, 10)]⟩ : Sparse Int)
      >>= fun r => Res.ok (r.1.terms.entries, r.2)) = .ok ([(0, 7), (1, 7)], .error .canNotNegate) := by decide

example : subPolyM (.machine false ⟨true, 8⟩ 64 100) [(100, 1), (100, 2)] (⟨[-100, 7]⟩ : Poly Int) =
    .ok (⟨[-100, 56, 7]⟩, .ok ()) ∧
    subPolyM (.machine false ⟨true, 8⟩ 64 100) [(100, 1), (1, 100)] (⟨[-100, 7]⟩ : Poly Int) = .panic := by decide

end Rustnomial
