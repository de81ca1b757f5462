import Verif.Lemmas.MachineBuild
import Verif.Lemmas.Machine
import Verif.Props.Display
import Verif.Props.MachineWrap

/-!
# C102 – building and parsing polynomials over machine integers
-/

open Polynomial

namespace Rustnomial

section
variable (t : IntTy) (w cap : Nat)

theorem runS_total {S : Type} {step : S → Int → Nat → S × Except TryAddError Unit}
    (htot : ∀ s c d, ∃ s', step s c d = (s', .ok ())) : ∀ (ts : List (Int × Nat)) (s : S), ∃ s', runS step ts s = (s', .ok ())
  | [], s => ⟨s, rfl⟩
  | (c, d) :: ts, s => by
    obtain ⟨s', h⟩ := htot s c d
    obtain ⟨s'', h'⟩ := runS_total htot ts s'
    exact ⟨s'', by simp [runS, h, h']⟩

theorem runOk_total {S : Type} {repr : S → ℤ[X]} {σ : Int} {step : S → Int → Nat → S × Except TryAddError Unit}
    {stepM : S → Int → Nat → Res (S × Except TryAddError Unit)} (H : StepM t S repr σ step stepM)
    (htot : ∀ s c d, ∃ s', step s c d = (s', .ok ())) (s : S) (ts : List (Int × Nat)) :
    RunOk H s ts ↔ (∀ x ∈ ts, H.lim x.2) ∧ ∀ pre, pre <+: ts → ∀ n, t.InRange ((repr s + C σ * termsPoly pre).coeff n) := by
  constructor
  · intro R
    refine ⟨?_, fun pre hpre => ?_⟩
    · obtain ⟨s', h⟩ := runS_total htot ts s
      exact (R ts (List.prefix_refl _) s' h).1
    · obtain ⟨s', h⟩ := runS_total htot pre s
      exact (R pre hpre s' h).2
  · rintro ⟨h1, h2⟩ pre hpre s' _
    exact ⟨fun x hx => h1 x (hpre.subset hx), h2 pre hpre⟩

theorem dense_total (s : Poly Int) (c : Int) (d : Nat) : ∃ s', MutPoly.tryAddTerm s c d = (s', .ok ()) := ⟨_, rfl⟩

theorem sparse_total (s : Sparse Int) (c : Int) (d : Nat) : ∃ s', MutPoly.tryAddTerm s c d = (s', .ok ()) := ⟨_, rfl⟩

theorem dense_sub_total (s : Poly Int) (c : Int) (d : Nat) : ∃ s', MutPoly.trySubTerm s c d = (s', .ok ()) := by
  obtain ⟨r, hr, _⟩ := (C29_dense s c d).2.1 (.inl rfl)
  exact ⟨r, hr⟩

theorem sparse_sub_total (s : Sparse Int) (c : Int) (d : Nat) : ∃ s', MutPoly.trySubTerm s c d = (s', .ok ()) := by
  cases h : s.trySubTerm c d with
  | mk s' r =>
    cases r with
    | ok u => exact ⟨s', h⟩
    | error e =>
      exfalso
      unfold Sparse.trySubTerm at h
      have hi : CanNegate.canNegate Int = true := rfl
      simp only [hi, Bool.not_true, Bool.false_eq_true, if_false] at h
      split at h
      · simp at h
      · split at h <;> simp at h

/-- C102, `add_poly` into a dense polynomial: with overflow checks it returns the sum when every degree has room in a
vector and no partial sum has a coefficient outside the type, and panics otherwise. -/
theorem C102_add_poly_dense (hcap : cap < 2 ^ w) (p : Poly Int) (ts : List (Int × Nat)) (hp : AllIn t p.terms)
    (hl : p.terms.length ≤ cap) (hts : ∀ x ∈ ts, t.InRange x.1) :
    ((∀ x ∈ ts, x.2 < cap) ∧ RunFits t (descPoly p.terms) ts →
      ∃ r, addPolyM (.machine true t w cap) ts p = .ok (r, .ok ()) ∧ descPoly r.terms = descPoly p.terms + termsPoly ts) ∧
    (¬ ((∀ x ∈ ts, x.2 < cap) ∧ RunFits t (descPoly p.terms) ts) →
      addPolyM (.machine true t w cap) ts p = .panic) := by
  have h := runSM_chk (denseAddStep (t := t) hcap) ts p hl ((inRange_descPoly t p.terms).1 hp) hts
  have h' := h.of_iff (Q := (∀ x ∈ ts, x.2 < cap) ∧ RunFits t (descPoly p.terms) ts) (by
    rw [runOk_total t _ dense_total, RunFits]; simp [denseAddStep])
  rw [addPolyM_runSM]
  obtain ⟨r, hr, e⟩ := (C32_dense_sink ts [] p).1
  rw [addPoly_runS] at hr
  exact ⟨fun H => ⟨r, by rw [h'.1 H, hr], e⟩, h'.2⟩

/-- C102, `add_poly` into a sparse polynomial: no room is needed. -/
theorem C102_add_poly_sparse (p : Sparse Int) (ts : List (Int × Nat)) (hp : ∀ e ∈ p.terms.entries, t.InRange e.2)
    (hts : ∀ x ∈ ts, t.InRange x.1) :
    (RunFits t (entriesPoly p.terms.entries) ts →
      ∃ r, addPolyM (.machine true t w cap) ts p = .ok (r, .ok ()) ∧
        entriesPoly r.terms.entries = entriesPoly p.terms.entries + termsPoly ts) ∧
    (¬ RunFits t (entriesPoly p.terms.entries) ts → addPolyM (.machine true t w cap) ts p = .panic) := by
  have h := runSM_chk (sparseAddStep (t := t) (w := w) (cap := cap)) ts p trivial ((inRange_mapPoly t _).1 hp) hts
  have h' := h.of_iff (Q := RunFits t (entriesPoly p.terms.entries) ts) (by
    rw [runOk_total t _ sparse_total, RunFits]; simp [sparseAddStep])
  rw [addPolyM_runSM]
  obtain ⟨r, hr, e⟩ := (C32_sparse_sink ts [] p).1
  rw [addPoly_runS] at hr
  exact ⟨fun H => ⟨r, by rw [h'.1 H, hr], e⟩, h'.2⟩

/-- C102, `sub_poly` from a dense polynomial over a signed type. -/
theorem C102_sub_poly_dense (hs : t.signed = true) (hcap : cap < 2 ^ w) (p : Poly Int) (ts : List (Int × Nat))
    (hp : AllIn t p.terms) (hl : p.terms.length ≤ cap) (hts : ∀ x ∈ ts, t.InRange x.1) :
    ((∀ x ∈ ts, x.2 < cap) ∧ RunFitsSub t (descPoly p.terms) ts →
      ∃ r, subPolyM (.machine true t w cap) ts p = .ok (r, .ok ()) ∧ descPoly r.terms = descPoly p.terms - termsPoly ts) ∧
    (¬ ((∀ x ∈ ts, x.2 < cap) ∧ RunFitsSub t (descPoly p.terms) ts) →
      subPolyM (.machine true t w cap) ts p = .panic) := by
  have h := runSM_chk (denseSubStep (t := t) hs hcap) ts p hl ((inRange_descPoly t p.terms).1 hp) hts
  have h' := h.of_iff (Q := (∀ x ∈ ts, x.2 < cap) ∧ RunFitsSub t (descPoly p.terms) ts) (by
    rw [runOk_total t _ dense_sub_total, RunFitsSub]
    simp [denseSubStep, sub_eq_add_neg])
  rw [subPolyM_runSM]
  obtain ⟨r, hr, e⟩ := (C32_dense_sink ts [] p).2.1 rfl
  rw [subPoly_runS] at hr
  exact ⟨fun H => ⟨r, by rw [h'.1 H, hr], e⟩, h'.2⟩

/-- C102, `sub_poly` from a sparse polynomial over a signed type. -/
theorem C102_sub_poly_sparse (hs : t.signed = true) (p : Sparse Int) (ts : List (Int × Nat))
    (hp : ∀ e ∈ p.terms.entries, t.InRange e.2) (hts : ∀ x ∈ ts, t.InRange x.1) :
    (RunFitsSub t (entriesPoly p.terms.entries) ts →
      ∃ r, subPolyM (.machine true t w cap) ts p = .ok (r, .ok ()) ∧
        entriesPoly r.terms.entries = entriesPoly p.terms.entries - termsPoly ts) ∧
    (¬ RunFitsSub t (entriesPoly p.terms.entries) ts → subPolyM (.machine true t w cap) ts p = .panic) := by
  have h := runSM_chk (sparseSubStep (t := t) (w := w) (cap := cap) hs) ts p trivial ((inRange_mapPoly t _).1 hp) hts
  have h' := h.of_iff (Q := RunFitsSub t (entriesPoly p.terms.entries) ts) (by
    rw [runOk_total t _ sparse_sub_total, RunFitsSub]
    simp [sparseSubStep, sub_eq_add_neg])
  rw [subPolyM_runSM]
  obtain ⟨r, hr, e⟩ := (C32_sparse_sink ts [] p).2.1 rfl
  rw [subPoly_runS] at hr
  exact ⟨fun H => ⟨r, by rw [h'.1 H, hr], e⟩, h'.2⟩

theorem fromTermsE_eq (E : Env) : ∀ (ts : List (Int × Nat)) (p : Poly Int),
    (ts.foldlM (fun (a : Poly Int) t => a.addTermE E t.1 t.2) p) = (do let r ← addPolyM E ts p; Res.ok r.1)
  | [], p => rfl
  | (c, d) :: ts, p => by
    rw [List.foldlM_cons, addPolyM]
    show (p.addTermE E c d >>= _) = ((p.addTermE E c d >>= _) >>= _) >>= _
    cases p.addTermE E c d with
    | panic => rfl
    | fuel => rfl
    | ok q => exact fromTermsE_eq E ts q

theorem fromTermsM_eq (E : Env) : ∀ (ts : List (Int × Nat)) (p : Sparse Int),
    (ts.foldlM (fun (a : Sparse Int) t => a.addTermM E.ar t.1 t.2) p) = (do let r ← addPolyM E ts p; Res.ok r.1)
  | [], p => rfl
  | (c, d) :: ts, p => by
    rw [List.foldlM_cons, addPolyM]
    show (p.addTermM E.ar c d >>= _) = ((p.addTermM E.ar c d >>= _) >>= _) >>= _
    cases p.addTermM E.ar c d with
    | panic => rfl
    | fuel => rfl
    | ok q => exact fromTermsM_eq E ts q

/-- C102, `Polynomial::from_terms`. -/
theorem C102_from_terms_dense (hcap : cap < 2 ^ w) (ts : List (Int × Nat)) (hts : ∀ x ∈ ts, t.InRange x.1) :
    ((∀ x ∈ ts, x.2 < cap) ∧ RunFits t 0 ts →
      ∃ r, Poly.fromTermsE (.machine true t w cap) ts = .ok r ∧ descPoly r.terms = termsPoly ts) ∧
    (¬ ((∀ x ∈ ts, x.2 < cap) ∧ RunFits t 0 ts) → Poly.fromTermsE (.machine true t w cap) ts = .panic) := by
  obtain ⟨h1, h2⟩ := C102_add_poly_dense t w cap hcap ⟨[]⟩ ts (by simp [AllIn]) (by simp) hts
  have e0 : descPoly ([] : List Int) = 0 := rfl
  simp only [e0, zero_add] at h1 h2
  unfold Poly.fromTermsE
  rw [fromTermsE_eq]
  constructor
  · intro H
    obtain ⟨r, hr, e⟩ := h1 H
    exact ⟨r, by rw [hr]; rfl, e⟩
  · intro H
    rw [h2 H]; rfl

/-- C102, `SparsePolynomial::from_terms`. -/
theorem C102_from_terms_sparse (ts : List (Int × Nat)) (hts : ∀ x ∈ ts, t.InRange x.1) :
    (RunFits t 0 ts →
      ∃ r, Sparse.fromTermsM (.machine true t) ts = .ok r ∧ entriesPoly r.terms.entries = termsPoly ts) ∧
    (¬ RunFits t 0 ts → Sparse.fromTermsM (.machine true t) ts = .panic) := by
  obtain ⟨h1, h2⟩ := C102_add_poly_sparse t 0 0 ⟨.empty⟩ ts (by simp [BMap.empty]) hts
  have e0 : entriesPoly (BMap.empty : BMap Int).entries = 0 := rfl
  simp only [e0, zero_add] at h1 h2
  unfold Sparse.fromTermsM
  rw [show Arith.machine true t = (Env.machine true t 0 0).ar from rfl, fromTermsM_eq]
  constructor
  · intro H
    obtain ⟨r, hr, e⟩ := h1 H
    exact ⟨r, by rw [hr]; rfl, e⟩
  · intro H
    rw [h2 H]; rfl

theorem products_map (rhs lhs : List (Int × Nat)) :
    ((rhs.flatMap fun r => lhs.map fun l => (r, l)).map fun p => (p.1.1 * p.2.1, p.1.2 + p.2.2)) =
      rhs.flatMap fun r => lhs.map fun l => (r.1 * l.1, r.2 + l.2) := by
  rw [List.map_flatMap]
  congr 1; funext r
  rw [List.map_map]; rfl

theorem products_forall {P : (Int × Nat) → (Int × Nat) → Prop} {rhs lhs : List (Int × Nat)} :
    (∀ p ∈ rhs.flatMap fun r => lhs.map fun l => (r, l), P p.1 p.2) ↔ ∀ r ∈ rhs, ∀ l ∈ lhs, P r l := by
  simp only [List.mem_flatMap, List.mem_map]
  constructor
  · intro h r hr l hl; exact h (r, l) ⟨r, hr, l, hl, rfl⟩
  · rintro h _ ⟨r, hr, l, hl, rfl⟩; exact h r hr l hl

/-- C102, `mul_poly_vec` into a dense polynomial: every product of two coefficients must be a value of the type, every sum
of two degrees must have room, and no partial sum may leave the type. -/
theorem C102_mul_poly_vec_dense (hcap : cap < 2 ^ w) (p : Poly Int) (rhs lhs : List (Int × Nat)) (hp : AllIn t p.terms)
    (hl : p.terms.length ≤ cap) :
    let needs := (∀ r ∈ rhs, ∀ l ∈ lhs, t.InRange (r.1 * l.1) ∧ r.2 + l.2 < cap) ∧
      RunFits t (descPoly p.terms) (rhs.flatMap fun r => lhs.map fun l => (r.1 * l.1, r.2 + l.2))
    (needs → ∃ r, mulPolyVecM (.machine true t w cap) rhs lhs p = .ok (r, .ok ()) ∧
      descPoly r.terms = descPoly p.terms + termsPoly rhs * termsPoly lhs) ∧
    (¬ needs → mulPolyVecM (.machine true t w cap) rhs lhs p = .panic) := by
  intro needs
  have h := runXM_chk w cap (denseAddStep (t := t) hcap) dense_total (rhs.flatMap fun r => lhs.map fun l => (r, l)) p hl
    ((inRange_descPoly t p.terms).1 hp)
  rw [products_map] at h
  have h' := h.of_iff (Q := needs) (by
    rw [runOk_total t _ dense_total, products_forall (P := fun a b => t.InRange (a.1 * b.1) ∧ a.2 + b.2 < 2 ^ w)]
    simp only [needs, RunFits]
    have : (∀ x ∈ rhs.flatMap fun r => lhs.map fun l => (r.1 * l.1, r.2 + l.2), (denseAddStep (t := t) hcap).lim x.2) ↔
        ∀ r ∈ rhs, ∀ l ∈ lhs, r.2 + l.2 < cap := by
      rw [← products_map]
      simp only [List.forall_mem_map]
      exact products_forall (P := fun a b => a.2 + b.2 < cap)
    rw [this]
    simp only [C_1, one_mul]
    constructor
    · rintro ⟨a, b, c⟩
      exact ⟨fun r hr l hl => ⟨(a r hr l hl).1, b r hr l hl⟩, c⟩
    · rintro ⟨a, c⟩
      exact ⟨fun r hr l hl => ⟨(a r hr l hl).1, (a r hr l hl).2.trans hcap⟩, fun r hr l hl => (a r hr l hl).2, c⟩)
  rw [mulPolyVecM_runXM]
  obtain ⟨r, hr, e⟩ := (C32_dense_sink rhs lhs p).2.2
  rw [mulPolyVec_eq_addPoly, addPoly_runS] at hr
  exact ⟨fun H => ⟨r, by rw [h'.1 H, hr], e⟩, h'.2⟩

/-- C102, `mul_poly_vec` into a sparse polynomial: the sums of degrees only have to be values of `usize`. -/
theorem C102_mul_poly_vec_sparse (p : Sparse Int) (rhs lhs : List (Int × Nat))
    (hp : ∀ e ∈ p.terms.entries, t.InRange e.2) :
    let needs := (∀ r ∈ rhs, ∀ l ∈ lhs, t.InRange (r.1 * l.1) ∧ r.2 + l.2 < 2 ^ w) ∧
      RunFits t (entriesPoly p.terms.entries) (rhs.flatMap fun r => lhs.map fun l => (r.1 * l.1, r.2 + l.2))
    (needs → ∃ r, mulPolyVecM (.machine true t w cap) rhs lhs p = .ok (r, .ok ()) ∧
      entriesPoly r.terms.entries = entriesPoly p.terms.entries + termsPoly rhs * termsPoly lhs) ∧
    (¬ needs → mulPolyVecM (.machine true t w cap) rhs lhs p = .panic) := by
  intro needs
  have h := runXM_chk w cap (sparseAddStep (t := t) (w := w) (cap := cap)) sparse_total
    (rhs.flatMap fun r => lhs.map fun l => (r, l)) p trivial ((inRange_mapPoly t _).1 hp)
  rw [products_map] at h
  have h' := h.of_iff (Q := needs) (by
    rw [runOk_total t _ sparse_total, products_forall (P := fun a b => t.InRange (a.1 * b.1) ∧ a.2 + b.2 < 2 ^ w)]
    simp [needs, RunFits, sparseAddStep])
  rw [mulPolyVecM_runXM]
  obtain ⟨r, hr, e⟩ := (C32_sparse_sink rhs lhs p).2.2
  rw [mulPolyVec_eq_addPoly, addPoly_runS] at hr
  exact ⟨fun H => ⟨r, by rw [h'.1 H, hr], e⟩, h'.2⟩

/-! ## Texts -/

theorem polyFromStrM_chk {S : Type} {repr : S → ℤ[X]} [MutPoly Int S] [MutPolyM S]
    (H : StepM t S repr 1 MutPoly.tryAddTerm (MutPolyM.tryAddTermM (.machine true t w cap))) (h1 : t.InRange 1) (zero : S)
    (hz : repr zero = 0) (hsz : H.sized zero) (s : List Char) (ts : List (List Char)) (hts : IsTokenization s ts)
    (accepted : List (Term ℤ) → Prop)
    (hacc : ∀ terms, accepted terms ↔ ∃ s', runS MutPoly.tryAddTerm (pairsOf terms) zero = (s', .ok ())) :
    ∃ r, polyFromStr zero (parseInt t) w s = .ok r ∧
      Chk (TextFits t w accepted H.lim ts) (polyFromStrM (.machine true t w cap) zero (parseInt t) s) r := by
  refine ⟨_, polyFromStr_eq zero _ w s ts hts, ?_⟩
  rw [polyFromStrM_eq _ _ _ _ _ hts]
  refine (parseListM_chk w cap H h1 ts zero false hsz (by rw [hz]; simpa using t.zero_inRange)).of_iff ?_
  unfold TextOk TextFits
  refine forall_congr' fun pre => imp_congr_right fun _ => forall_congr' fun terms => imp_congr_right fun _ => ?_
  rw [hacc, hz, zero_add, termsPoly_pairsOf]
  have : (∀ x ∈ pairsOf terms, H.lim x.2) ↔ ∀ c d, Term.term c d ∈ terms → H.lim d := by
    constructor
    · intro h c d hm; exact h (c, d) (mem_pairsOf.2 hm)
    · rintro h ⟨c, d⟩ hm; exact h c d (mem_pairsOf.1 hm)
  rw [this]
  constructor
  · rintro h ⟨s', hs'⟩; exact h s' hs'
  · intro h s' hs'; exact h ⟨s', hs'⟩

/-- C102, `FromStr` of a dense polynomial: with overflow checks it gives what the ideal parser gives when every term read
before the first error has room and no partial sum leaves the type, and panics otherwise. -/
theorem C102_parse_dense (hcap : cap < 2 ^ w) (h1 : t.InRange 1) (s : List Char) (ts : List (List Char))
    (hts : IsTokenization s ts) :
    ∃ r, Poly.fromStr (parseInt t) w s = .ok r ∧
      (TextFits t w (fun _ => True) (· < cap) ts → Poly.fromStrM (.machine true t w cap) t s = .ok r) ∧
      (¬ TextFits t w (fun _ => True) (· < cap) ts → Poly.fromStrM (.machine true t w cap) t s = .panic) :=
  polyFromStrM_chk t w cap (denseAddStep (t := t) hcap) h1 Poly.zero (by simp [Poly.zero])
    (by simp [denseAddStep, Poly.zero]) s ts hts _ (fun terms => by
      simpa using runS_total dense_total (pairsOf terms) Poly.zero)

/-- C102, `FromStr` of a sparse polynomial. -/
theorem C102_parse_sparse (h1 : t.InRange 1) (s : List Char) (ts : List (List Char)) (hts : IsTokenization s ts) :
    ∃ r, Sparse.fromStr (parseInt t) w s = .ok r ∧
      (TextFits t w (fun _ => True) (fun _ => True) ts → Sparse.fromStrM (.machine true t w cap) t s = .ok r) ∧
      (¬ TextFits t w (fun _ => True) (fun _ => True) ts → Sparse.fromStrM (.machine true t w cap) t s = .panic) :=
  polyFromStrM_chk t w cap (sparseAddStep (t := t)) h1 Sparse.zero rfl trivial s ts hts _ (fun terms => by
    simpa using runS_total sparse_total (pairsOf terms) Sparse.zero)

theorem linear_accepts : ∀ (terms : List (Term Int)) (s : LinearBinomial Int),
    DegreesLE 1 terms ↔ ∃ s', runS MutPoly.tryAddTerm (pairsOf terms) s = (s', .ok ())
  | [], s => by simp [DegreesLE, pairsOf, runS]
  | .zeroTerm :: terms, s => by
    rw [pairsOf, ← linear_accepts terms s]; simp [DegreesLE]
  | .term c d :: terms, s => by
    rw [pairsOf, runS]
    have e : (MutPoly.tryAddTerm s c d : LinearBinomial Int × _) = s.tryAddTerm c d := rfl
    rw [e]
    unfold LinearBinomial.tryAddTerm
    by_cases hd : d ≤ 1
    · rw [if_pos hd]
      simp only
      rw [← linear_accepts terms]
      simp only [DegreesLE, List.mem_cons]
      constructor
      · intro h c' d' hm; exact h c' d' (.inr hm)
      · rintro h c' d' (hm | hm)
        · cases hm; exact hd
        · exact h c' d' hm
    · rw [if_neg hd]
      simp only [Prod.mk.injEq, reduceCtorEq, and_false, exists_false, iff_false]
      intro h; exact hd (h c d (by simp))

theorem quadratic_accepts : ∀ (terms : List (Term Int)) (s : QuadraticTrinomial Int),
    DegreesLE 2 terms ↔ ∃ s', runS MutPoly.tryAddTerm (pairsOf terms) s = (s', .ok ())
  | [], s => by simp [DegreesLE, pairsOf, runS]
  | .zeroTerm :: terms, s => by
    rw [pairsOf, ← quadratic_accepts terms s]; simp [DegreesLE]
  | .term c d :: terms, s => by
    rw [pairsOf, runS]
    have e : (MutPoly.tryAddTerm s c d : QuadraticTrinomial Int × _) = s.tryAddTerm c d := rfl
    rw [e]
    unfold QuadraticTrinomial.tryAddTerm
    by_cases hd : d ≤ 2
    · rw [if_pos hd]
      simp only
      rw [← quadratic_accepts terms]
      simp only [DegreesLE, List.mem_cons]
      constructor
      · intro h c' d' hm; exact h c' d' (.inr hm)
      · rintro h c' d' (hm | hm)
        · cases hm; exact hd
        · exact h c' d' hm
    · rw [if_neg hd]
      simp only [Prod.mk.injEq, reduceCtorEq, and_false, exists_false, iff_false]
      intro h; exact hd (h c d (by simp))

/-- C102, `FromStr` of a linear binomial: only the terms before the first of too high degree count. -/
theorem C102_parse_linear (h1 : t.InRange 1) (s : List Char) (ts : List (List Char)) (hts : IsTokenization s ts) :
    ∃ r, LinearBinomial.fromStr (parseInt t) w s = .ok r ∧
      (TextFits t w (DegreesLE 1) (fun _ => True) ts → LinearBinomial.fromStrM (.machine true t w cap) t s = .ok r) ∧
      (¬ TextFits t w (DegreesLE 1) (fun _ => True) ts → LinearBinomial.fromStrM (.machine true t w cap) t s = .panic) :=
  polyFromStrM_chk t w cap (linearAddStep (t := t)) h1 LinearBinomial.zero (by simp [LinearBinomial.zero, LinearBinomial.poly, LinearBinomial.new])
    trivial s ts hts _ (fun terms => linear_accepts terms _)

/-- C102, `FromStr` of a quadratic trinomial. -/
theorem C102_parse_quadratic (h1 : t.InRange 1) (s : List Char) (ts : List (List Char)) (hts : IsTokenization s ts) :
    ∃ r, QuadraticTrinomial.fromStr (parseInt t) w s = .ok r ∧
      (TextFits t w (DegreesLE 2) (fun _ => True) ts → QuadraticTrinomial.fromStrM (.machine true t w cap) t s = .ok r) ∧
      (¬ TextFits t w (DegreesLE 2) (fun _ => True) ts → QuadraticTrinomial.fromStrM (.machine true t w cap) t s = .panic) :=
  polyFromStrM_chk t w cap (quadraticAddStep (t := t)) h1 QuadraticTrinomial.zero
    (by simp [QuadraticTrinomial.zero, QuadraticTrinomial.poly, QuadraticTrinomial.new]) trivial s ts hts _ (fun terms => quadratic_accepts terms _)

theorem oneDegree_append_iff (done : List (Term Int)) (c : Int) (d : Nat) (terms : List (Term Int)) :
    (∀ pre c' d', pre ++ [Term.term c' d'] <+: Term.term c d :: terms → ((done ++ pre).map Term.poly).sum = 0 ∨
      d' = ((done ++ pre).map Term.poly).sum.natDegree) ↔
    ((done.map Term.poly).sum = 0 ∨ d = (done.map Term.poly).sum.natDegree) ∧
    ∀ pre c' d', pre ++ [Term.term c' d'] <+: terms →
      ((done ++ [Term.term c d] ++ pre).map Term.poly).sum = 0 ∨
      d' = ((done ++ [Term.term c d] ++ pre).map Term.poly).sum.natDegree := by
  constructor
  · intro h
    refine ⟨by simpa using h [] c d (by simp), fun pre c' d' hp => ?_⟩
    simpa using h (Term.term c d :: pre) c' d' (by simpa using hp)
  · rintro ⟨h0, h⟩ pre c' d' hp
    cases pre with
    | nil =>
      obtain ⟨e, _⟩ := List.cons_prefix_cons.1 hp
      cases e; simpa using h0
    | cons x pre =>
      obtain ⟨rfl, hp'⟩ := List.cons_prefix_cons.1 hp
      simpa using h pre c' d' hp'

theorem monomial_accepts : ∀ (terms done : List (Term Int)) (m : Monomial Int), m.poly = (done.map Term.poly).sum →
    ((∀ pre c d, pre ++ [Term.term c d] <+: terms → ((done ++ pre).map Term.poly).sum = 0 ∨
      d = ((done ++ pre).map Term.poly).sum.natDegree) ↔
    ∃ s', runS MutPoly.tryAddTerm (pairsOf terms) m = (s', .ok ()))
  | [], done, m, _ => by simp [pairsOf, runS]
  | .zeroTerm :: terms, done, m, hm => by
    rw [pairsOf, ← monomial_accepts terms (done ++ [.zeroTerm]) m (by simp [hm, Term.poly])]
    constructor
    · intro h pre c d hp
      simpa using h (.zeroTerm :: pre) c d (by simpa using hp)
    · intro h pre c d hp
      cases pre with
      | nil => simp at hp
      | cons x pre =>
        obtain ⟨rfl, hp'⟩ := List.cons_prefix_cons.1 hp
        simpa using h pre c d hp'
  | .term c d :: terms, done, m, hm => by
    rw [pairsOf, runS, oneDegree_append_iff]
    have e : (MutPoly.tryAddTerm m c d : Monomial Int × _) = m.tryAddTerm c d := rfl
    rw [e]
    have hdeg : m.poly ≠ 0 → m.poly.natDegree = m.deg := by
      intro h0
      have hc : m.coefficient ≠ 0 := fun h => h0 (m.poly_eq_zero.2 h)
      rw [Monomial.poly, natDegree_C_mul_X_pow _ _ hc]
    by_cases hacc : m.poly = 0 ∨ d = m.deg
    · obtain ⟨r, hr, hp⟩ := ((C29_monomial m c d).1 hacc).1
      rw [hr]
      simp only
      rw [← monomial_accepts terms (done ++ [.term c d]) r (by simp [hp, hm, Term.poly])]
      refine ⟨fun h => h.2, fun h => ⟨?_, h⟩⟩
      rw [← hm]
      rcases hacc with h | h
      · exact .inl h
      · by_cases h0 : m.poly = 0
        · exact .inl h0
        · exact .inr (by rw [hdeg h0, h])
    · rw [((C29_monomial m c d).2 hacc).1]
      simp only [Prod.mk.injEq, reduceCtorEq, and_false, exists_false, iff_false]
      rintro ⟨h, _⟩
      rw [← hm] at h
      push Not at hacc
      rcases h with h | h
      · exact hacc.1 h
      · exact hacc.2 (by rw [h, hdeg hacc.1])

/-- C102, `FromStr` of a monomial: only the terms before the first of another degree count. -/
theorem C102_parse_monomial (h1 : t.InRange 1) (s : List Char) (ts : List (List Char)) (hts : IsTokenization s ts) :
    ∃ r, Monomial.fromStr (parseInt t) w s = .ok r ∧
      (TextFits t w OneDegree (fun _ => True) ts → Monomial.fromStrM (.machine true t w cap) t s = .ok r) ∧
      (¬ TextFits t w OneDegree (fun _ => True) ts → Monomial.fromStrM (.machine true t w cap) t s = .panic) :=
  polyFromStrM_chk t w cap (monomialAddStep (t := t)) h1 Monomial.zero (by simp [Monomial.zero, Monomial.poly, Monomial.new])
    trivial s ts hts _ (fun terms => by
      have := monomial_accepts terms [] Monomial.zero (by simp [Monomial.zero, Monomial.poly, Monomial.new])
      rw [← this]
      simp [OneDegree])

/-! ## The macros -/

theorem foldRun {S : Type} {stepM : S → Int → Nat → Res (S × Except TryAddError Unit)}
    (hok : ∀ s c d s' r, stepM s c d = .ok (s', r) → r = .ok ()) : ∀ (xs : List (List (Int × Nat))) (s : S)
    (acc : List (Except TryAddError Unit)),
    (do let r ← xs.foldlM (fun (st : S × List (Except TryAddError Unit)) x => do
          let r ← runSM stepM x st.1
          Res.ok (r.1, st.2 ++ [r.2])) (s, acc)
        Res.ok (r.1, firstError r.2)) = (do let r ← runSM stepM xs.flatten s; Res.ok (r.1, firstError acc)) := by
  have append : ∀ (a b : List (Int × Nat)) (s : S), runSM stepM (a ++ b) s = (do
      let r ← runSM stepM a s
      runSM stepM b r.1) ∧ ∀ s' r, runSM stepM a s = .ok (s', r) → r = .ok () := by
    intro a
    induction a with
    | nil => intro b s; exact ⟨rfl, fun s' r h => by simp [runSM] at h; exact h.2.symm⟩
    | cons x a ih =>
      intro b s
      obtain ⟨c, d⟩ := x
      simp only [List.cons_append, runSM]
      cases h : stepM s c d with
      | panic => exact ⟨rfl, fun s' r h => by simp at h⟩
      | fuel => exact ⟨rfl, fun s' r h => by simp at h⟩
      | ok v =>
        obtain ⟨s', r⟩ := v
        obtain rfl := hok _ _ _ _ _ h
        exact ih b s'
  intro xs
  induction xs with
  | nil => intro s acc; rfl
  | cons x xs ih =>
    intro s acc
    rw [List.foldlM_cons, List.flatten_cons, (append x xs.flatten s).1]
    cases h : runSM stepM x s with
    | panic => rfl
    | fuel => rfl
    | ok v =>
      obtain ⟨s', r⟩ := v
      obtain rfl := (append x [] s).2 _ _ h
      have := ih s' (acc ++ [.ok ()])
      rw [firstError_append_ok] at this
      simpa using this

theorem addStep_ok (E : Env) (s : Poly Int) (c : Int) (d : Nat) (s' : Poly Int) (r : Except TryAddError Unit)
    (h : MutPolyM.tryAddTermM E s c d = .ok (s', r)) : r = .ok () := by
  have h' : (s.addTermE E c d >>= fun p => Res.ok (p, Except.ok ())) = .ok (s', r) := h
  cases h2 : s.addTermE E c d with
  | panic => rw [h2] at h'; simp at h'
  | fuel => rw [h2] at h'; simp at h'
  | ok q => rw [h2] at h'; simp at h'; exact h'.2.symm

theorem subStep_ok {E : Env} (hE : E.canNegate = true) (s : Poly Int) (c : Int) (d : Nat) (s' : Poly Int)
    (r : Except TryAddError Unit) (h : MutPolyM.trySubTermM E s c d = .ok (s', r)) : r = .ok () := by
  have h' : s.trySubTermE E c d = .ok (s', r) := h
  unfold Poly.trySubTermE at h'
  simp only [hE, Bool.true_eq_false, and_false, if_false] at h'
  obtain ⟨n, _, h'⟩ := Res.bind_eq_ok.1 h'
  split at h'
  · iterate 7 obtain ⟨_, _, h'⟩ := Res.bind_eq_ok.1 h'
    simp at h'; exact h'.2.symm
  · iterate 4 obtain ⟨_, _, h'⟩ := Res.bind_eq_ok.1 h'
    simp at h'; exact h'.2.symm

theorem sumPoly_flatten (xs : List (List (Int × Nat))) : termsPoly xs.flatten = sumPoly xs := by
  induction xs with
  | nil => simp [sumPoly]
  | cons x xs ih => rw [List.flatten_cons, termsPoly_append, ih]; simp [sumPoly]

/-- C102, `poly_add!(sink; x1, ..., xk)` and `poly_add!(x1, ..., xk)` with a dense sink. -/
theorem C102_poly_add (hcap : cap < 2 ^ w) (p : Poly Int) (xs : List (List (Int × Nat))) (hp : AllIn t p.terms)
    (hl : p.terms.length ≤ cap) (hxs : ∀ x ∈ xs.flatten, t.InRange x.1) :
    (((∀ x ∈ xs.flatten, x.2 < cap) ∧ RunFits t (descPoly p.terms) xs.flatten →
      ∃ r, polyAddSinkM (.machine true t w cap) xs p = .ok (r, .ok ()) ∧
        descPoly r.terms = descPoly p.terms + sumPoly xs) ∧
    (¬ ((∀ x ∈ xs.flatten, x.2 < cap) ∧ RunFits t (descPoly p.terms) xs.flatten) →
      polyAddSinkM (.machine true t w cap) xs p = .panic)) ∧
    ((∀ x ∈ xs.flatten, x.2 < cap) ∧ RunFits t 0 xs.flatten →
      ∃ r, polyAddM (.machine true t w cap) xs = .ok r ∧ descPoly r.terms = sumPoly xs) ∧
    (¬ ((∀ x ∈ xs.flatten, x.2 < cap) ∧ RunFits t 0 xs.flatten) → polyAddM (.machine true t w cap) xs = .panic) := by
  have key : ∀ p : Poly Int, polyAddSinkM (.machine true t w cap) xs p = (do
      let r ← addPolyM (.machine true t w cap) xs.flatten p
      Res.ok (r.1, .ok ())) := by
    intro p
    have := foldRun (addStep_ok (.machine true t w cap)) xs p []
    unfold polyAddSinkM
    simp only [addPolyM_runSM]
    exact this
  have main : ∀ p : Poly Int, AllIn t p.terms → p.terms.length ≤ cap →
      ((∀ x ∈ xs.flatten, x.2 < cap) ∧ RunFits t (descPoly p.terms) xs.flatten →
        ∃ r, polyAddSinkM (.machine true t w cap) xs p = .ok (r, .ok ()) ∧
          descPoly r.terms = descPoly p.terms + sumPoly xs) ∧
      (¬ ((∀ x ∈ xs.flatten, x.2 < cap) ∧ RunFits t (descPoly p.terms) xs.flatten) →
        polyAddSinkM (.machine true t w cap) xs p = .panic) := by
    intro p hp hl
    obtain ⟨h1, h2⟩ := C102_add_poly_dense t w cap hcap p xs.flatten hp hl hxs
    rw [key]
    refine ⟨fun H => ?_, fun H => by rw [h2 H]; rfl⟩
    obtain ⟨r, hr, e⟩ := h1 H
    exact ⟨r, by rw [hr]; rfl, by rw [e, sumPoly_flatten]⟩
  refine ⟨main p hp hl, ?_⟩
  obtain ⟨h1, h2⟩ := main Poly.zero (by simp [AllIn, Poly.zero]) (by simp [Poly.zero])
  have e0 : descPoly (Poly.zero : Poly Int).terms = 0 := by simp [Poly.zero]
  rw [e0] at h1 h2
  unfold polyAddM
  refine ⟨fun H => ?_, fun H => by rw [h2 H]; rfl⟩
  obtain ⟨r, hr, e⟩ := h1 H
  exact ⟨r, by rw [hr]; rfl, by rw [e, zero_add]⟩

theorem dense_run_room (hcap : cap < 2 ^ w) : ∀ (ts : List (Int × Nat)) (p r : Poly Int), p.terms.length ≤ cap →
    (∀ x ∈ ts, x.2 < cap) → runS MutPoly.tryAddTerm ts p = (r, .ok ()) → r.terms.length ≤ cap
  | [], p, r, hp, _, h => by simp [runS] at h; rw [← h]; exact hp
  | (c, d) :: ts, p, r, hp, hts, h => by
    have e : MutPoly.tryAddTerm p c d = (p.addTerm c d, .ok ()) := rfl
    simp only [runS, e] at h
    exact dense_run_room hcap ts _ r (length_addTerm_le cap hp (hts (c, d) (by simp))) (fun x hx => hts x (by simp [hx])) h

/-- C102, `poly_sub!(sink; x1, ..., xk)` and `poly_sub!(lhs, x1, ..., xk)` with a dense sink over a signed type. -/
theorem C102_poly_sub (hs : t.signed = true) (hcap : cap < 2 ^ w) (p : Poly Int) (lhs : List (Int × Nat))
    (xs : List (List (Int × Nat))) (hp : AllIn t p.terms) (hl : p.terms.length ≤ cap) (hlhs : ∀ x ∈ lhs, t.InRange x.1)
    (hxs : ∀ x ∈ xs.flatten, t.InRange x.1) :
    (((∀ x ∈ xs.flatten, x.2 < cap) ∧ RunFitsSub t (descPoly p.terms) xs.flatten →
      ∃ r, polySubSinkM (.machine true t w cap) xs p = .ok (r, .ok ()) ∧
        descPoly r.terms = descPoly p.terms - sumPoly xs) ∧
    (¬ ((∀ x ∈ xs.flatten, x.2 < cap) ∧ RunFitsSub t (descPoly p.terms) xs.flatten) →
      polySubSinkM (.machine true t w cap) xs p = .panic)) ∧
    ((∀ x ∈ lhs ++ xs.flatten, x.2 < cap) ∧ RunFits t 0 lhs ∧ RunFitsSub t (termsPoly lhs) xs.flatten →
      ∃ r, polySubM (.machine true t w cap) lhs xs = .ok r ∧ descPoly r.terms = termsPoly lhs - sumPoly xs) ∧
    (¬ ((∀ x ∈ lhs ++ xs.flatten, x.2 < cap) ∧ RunFits t 0 lhs ∧ RunFitsSub t (termsPoly lhs) xs.flatten) →
      polySubM (.machine true t w cap) lhs xs = .panic) := by
  have key : ∀ p : Poly Int, polySubSinkM (.machine true t w cap) xs p = (do
      let r ← subPolyM (.machine true t w cap) xs.flatten p
      Res.ok (r.1, .ok ())) := by
    intro p
    have := foldRun (subStep_ok (E := .machine true t w cap) hs) xs p []
    unfold polySubSinkM
    simp only [subPolyM_runSM]
    exact this
  have main : ∀ p : Poly Int, AllIn t p.terms → p.terms.length ≤ cap →
      ((∀ x ∈ xs.flatten, x.2 < cap) ∧ RunFitsSub t (descPoly p.terms) xs.flatten →
        ∃ r, polySubSinkM (.machine true t w cap) xs p = .ok (r, .ok ()) ∧
          descPoly r.terms = descPoly p.terms - sumPoly xs) ∧
      (¬ ((∀ x ∈ xs.flatten, x.2 < cap) ∧ RunFitsSub t (descPoly p.terms) xs.flatten) →
        polySubSinkM (.machine true t w cap) xs p = .panic) := by
    intro p hp hl
    obtain ⟨h1, h2⟩ := C102_sub_poly_dense t w cap hs hcap p xs.flatten hp hl hxs
    rw [key]
    refine ⟨fun H => ?_, fun H => by rw [h2 H]; rfl⟩
    obtain ⟨r, hr, e⟩ := h1 H
    exact ⟨r, by rw [hr]; rfl, by rw [e, sumPoly_flatten]⟩
  refine ⟨main p hp hl, ?_⟩
  have hz : AllIn t (Poly.zero : Poly Int).terms := by
    intro x hx; simp [Poly.zero] at hx
  have hz' : (Poly.zero : Poly Int).terms.length ≤ cap := by simp [Poly.zero]
  obtain ⟨g1, g2⟩ := (C102_poly_add t w cap hcap Poly.zero [lhs] hz hz' (by simpa using hlhs)).1
  have e0 : descPoly (Poly.zero : Poly Int).terms = 0 := by simp [Poly.zero]
  have hsum : sumPoly [lhs] = termsPoly lhs := by simp [sumPoly]
  have hfl : [lhs].flatten = lhs := by simp
  rw [e0, hfl] at g1 g2
  rw [hsum, zero_add] at g1
  unfold polySubM
  by_cases h0 : (∀ x ∈ lhs, x.2 < cap) ∧ RunFits t 0 lhs
  · obtain ⟨q, hq, eq⟩ := g1 h0
    rw [hq, Res.ok_bind]
    have hqr : runS MutPoly.tryAddTerm lhs (Poly.zero : Poly Int) = (q, .ok ()) := by
      have h := runSM_chk (denseAddStep (t := t) hcap) lhs Poly.zero hz' ((inRange_descPoly t _).1 hz) hlhs
      have h' := h.1 ((runOk_total t _ dense_total _ _).2 (by
        refine ⟨h0.1, ?_⟩
        have := h0.2
        rw [RunFits] at this
        simpa [e0] using this))
      have h2 := foldRun (addStep_ok (.machine true t w cap)) [lhs] (Poly.zero : Poly Int) []
      unfold polyAddSinkM at hq
      simp only [addPolyM_runSM] at hq
      rw [h2, hfl, h'] at hq
      obtain ⟨r, hr⟩ := runS_total dense_total lhs (Poly.zero : Poly Int)
      rw [hr] at hq ⊢
      simp at hq
      rw [hq.1]
    have hqin : AllIn t q.terms := (inRange_descPoly t q.terms).2 (by
      rw [eq]
      have := h0.2 lhs (List.prefix_refl _)
      simpa using this)
    obtain ⟨m1, m2⟩ := main q hqin (dense_run_room w cap hcap lhs _ q hz' h0.1 hqr)
    rw [eq] at m1 m2
    constructor
    · rintro ⟨ha, _, hb⟩
      obtain ⟨r, hr, e⟩ := m1 ⟨fun x hx => ha x (by simp [hx]), hb⟩
      exact ⟨r, by rw [hr]; rfl, e⟩
    · intro H
      rw [m2 (fun hm => H ⟨?_, h0.2, hm.2⟩)]
      · rfl
      · intro x hx
        rcases List.mem_append.1 hx with hx | hx
        · exact h0.1 x hx
        · exact hm.1 x hx
  · constructor
    · rintro ⟨ha, hb, _⟩
      exact absurd ⟨fun x hx => ha x (by simp [hx]), hb⟩ h0
    · intro _
      rw [g2 h0]; rfl

/-! ## Without overflow checks -/

theorem addTermE_room (chk : Bool) (hcap : cap < 2 ^ w) (p : Poly Int) (c : Int) (d : Nat) (hp : p.terms.length ≤ cap)
    (hd : d < cap) : p.addTermE (.machine chk t w cap) c d = p.addTermM (.machine chk t) c d := by
  have e1 : (Env.machine chk t w cap).usz.add d 1 = .ok (d + 1) := USz.add_fits (u := ⟨w, chk⟩) (a := d) (b := 1) (by
    show d + 1 < 2 ^ w; omega)
  have hsub : ∀ {a b}, b ≤ a → (Env.machine chk t w cap).usz.sub a b = .ok (a - b) := fun h => USz.sub_le (u := ⟨w, chk⟩) h
  unfold Poly.addTermE Poly.addTermM
  rw [e1, Res.ok_bind]
  by_cases hl : p.terms.length < d + 1
  · rw [if_pos hl, if_pos hl, Res.ok_bind, hsub hl.le, Res.ok_bind]
    have hs : d + 1 - p.terms.length + p.terms.length = d + 1 := by omega
    have ha : (Env.machine chk t w cap).alloc (d + 1) = .ok () := if_pos (by show d + 1 ≤ cap; omega)
    rw [hs, ha, Res.ok_bind, Res.ok_bind]
    have hlen : (List.replicate (d + 1 - p.terms.length) 0 ++ p.terms : List Int).length = d + 1 := by simp; omega
    simp only [hlen]
    rw [hsub (by omega : d ≤ d + 1), Res.ok_bind, hsub (by omega : 1 ≤ d + 1 - d), Res.ok_bind]
    rfl
  · rw [if_neg hl, if_neg hl, Res.ok_bind]
    dsimp only
    rw [hsub (by omega : d ≤ p.terms.length), Res.ok_bind, hsub (by omega : 1 ≤ p.terms.length - d), Res.ok_bind]
    rfl

theorem modifyM_out {α : Type} (f : α → Res α) : ∀ (l : List α) (i : Nat), l.length ≤ i → modifyM f l i = .panic
  | [], _, _ => rfl
  | _ :: l, 0, h => by simp at h
  | _ :: l, i + 1, h => by
    rw [modifyM, modifyM_out f l i (by simpa using h)]; rfl

theorem addTermE_noroom (chk : Bool) (hcap : cap < 2 ^ w) (p : Poly Int) (c : Int) (d : Nat) (hp : p.terms.length ≤ cap)
    (hd : cap ≤ d) (hw : d < 2 ^ w) : p.addTermE (.machine chk t w cap) c d = .panic := by
  unfold Poly.addTermE
  by_cases h : d + 1 < 2 ^ w
  · have e1 : (Env.machine chk t w cap).usz.add d 1 = .ok (d + 1) := USz.add_fits (u := ⟨w, chk⟩) h
    rw [e1, Res.ok_bind, if_pos (by omega), Res.ok_bind]
    have e2 : (Env.machine chk t w cap).usz.sub (d + 1) p.terms.length = .ok (d + 1 - p.terms.length) :=
      USz.sub_le (u := ⟨w, chk⟩) (by omega)
    rw [e2, Res.ok_bind]
    have hs : d + 1 - p.terms.length + p.terms.length = d + 1 := by omega
    have ha : (Env.machine chk t w cap).alloc (d + 1) = .panic := if_neg (by show ¬ d + 1 ≤ cap; omega)
    rw [hs, ha]; rfl
  · have hd1 : d + 1 = 2 ^ w := by omega
    cases chk with
    | true =>
      have e1 : (Env.machine true t w cap).usz.add d 1 = .panic := by
        show USz.add ⟨w, true⟩ d 1 = .panic
        simp [USz.add, USz.result, h]
      rw [e1]; rfl
    | false =>
      have e1 : (Env.machine false t w cap).usz.add d 1 = .ok 0 := by
        show USz.add ⟨w, false⟩ d 1 = .ok 0
        rw [USz.add_wrap, hd1, Nat.mod_self]
      rw [e1, Res.ok_bind, if_neg (by omega), Res.ok_bind]
      obtain ⟨i, h1, h2⟩ := index_max_wrap (w := w) (len := p.terms.length) (d := d) (by omega) hd1
      have h1' : (Env.machine false t w cap).usz.sub p.terms.length d = .ok i := h1
      have h2' : (Env.machine false t w cap).usz.sub i 1 = .ok p.terms.length := h2
      dsimp only
      rw [h1', Res.ok_bind, h2', Res.ok_bind, modifyM_out _ _ _ le_rfl]; rfl

variable {t} in
theorem IsWrapOf.addTerm {r r' : Poly Int} {P : ℤ[X]} {c : Int} {d : Nat} (h : IsWrapOf t r P)
    (h' : IsWrapOf t r' (descPoly r.terms + C c * X ^ d)) : IsWrapOf t r' (P + C c * X ^ d) := by
  refine ⟨h'.1, fun n => ?_⟩
  rw [h'.2 n, coeff_add, h.2 n, wrap_add_left, ← coeff_add]

theorem length_modifyM {α : Type} {f : α → Res α} : ∀ {l m : List α} {i : Nat}, modifyM f l i = .ok m → m.length = l.length
  | [], m, i, h => by simp [modifyM] at h
  | x :: l, m, 0, h => by
    obtain ⟨y, _, h⟩ := Res.bind_eq_ok.1 h
    simp at h; rw [← h]; rfl
  | x :: l, m, i + 1, h => by
    obtain ⟨y, hy, h⟩ := Res.bind_eq_ok.1 h
    simp at h; rw [← h]; simp [length_modifyM hy]

theorem length_addTermM {A : Arith} {p r : Poly Int} {c : Int} {d : Nat} (h : p.addTermM A c d = .ok r)
    (hp : p.terms.length ≤ cap) (hd : d < cap) : r.terms.length ≤ cap := by
  unfold Poly.addTermM at h
  obtain ⟨m, hm, h⟩ := Res.bind_eq_ok.1 h
  cases h
  show m.length ≤ cap
  rw [length_modifyM hm]
  split
  · simp only [List.length_append, List.length_replicate]; omega
  · exact hp

theorem addPolyM_wrap (hb : 1 ≤ t.bits) (hcap : cap < 2 ^ w) : ∀ (ts : List (Int × Nat)) (p : Poly Int) (P : ℤ[X]),
    IsWrapOf t p P → p.terms.length ≤ cap → (∀ x ∈ ts, x.2 < 2 ^ w) →
    ((∀ x ∈ ts, x.2 < cap) → ∃ r, addPolyM (.machine false t w cap) ts p = .ok (r, .ok ()) ∧ IsWrapOf t r (P + termsPoly ts)) ∧
    (¬ (∀ x ∈ ts, x.2 < cap) → addPolyM (.machine false t w cap) ts p = .panic)
  | [], p, P, hp, _, _ => ⟨fun _ => ⟨p, rfl, by simpa using hp⟩, fun h => absurd (by simp) h⟩
  | (c, d) :: ts, p, P, hp, hl, hw => by
    have e : addPolyM (.machine false t w cap) ((c, d) :: ts) p =
        (p.addTermE (.machine false t w cap) c d >>= fun q => addPolyM (.machine false t w cap) ts q) := by
      rw [addPolyM]
      show (p.addTermE (.machine false t w cap) c d >>= _) >>= _ = _
      cases p.addTermE (.machine false t w cap) c d <;> rfl
    rw [e]
    by_cases hd : d < cap
    · rw [addTermE_room t w cap false hcap p c d hl hd]
      obtain ⟨q, hq, hq'⟩ := C81_dense_add_term t hb p c d hp.1
      have hlen := length_addTermM cap hq hl hd
      rw [hq, Res.ok_bind]
      obtain ⟨g1, g2⟩ := addPolyM_wrap hb hcap ts q _ (hp.addTerm hq') hlen (fun x hx => hw x (by simp [hx]))
      rw [termsPoly_cons, ← add_assoc]
      refine ⟨fun h => g1 (fun x hx => h x (by simp [hx])), fun h => g2 (fun h' => h ?_)⟩
      intro x hx
      rcases List.mem_cons.1 hx with rfl | hx
      · exact hd
      · exact h' x hx
    · rw [addTermE_noroom t w cap false hcap p c d hl (by omega) (hw (c, d) (by simp))]
      exact ⟨fun h => absurd (h (c, d) (by simp)) hd, fun _ => rfl⟩

theorem isWrapOf_self (hb : 1 ≤ t.bits) {p : Poly Int} (hp : AllIn t p.terms) : IsWrapOf t p (descPoly p.terms) :=
  ⟨hp, fun d => (t.wrap_of_inRange hb _ ((inRange_descPoly t _).1 hp d)).symm⟩

theorem isWrapOfS_self (hb : 1 ≤ t.bits) {p : Sparse Int} (hp : ∀ e ∈ p.terms.entries, t.InRange e.2) :
    IsWrapOfS t p (entriesPoly p.terms.entries) :=
  ⟨hp, fun d => (t.wrap_of_inRange hb _ ((inRange_mapPoly t _).1 hp d)).symm⟩

theorem addPolyM_wrapS (hb : 1 ≤ t.bits) : ∀ (ts : List (Int × Nat)) (p : Sparse Int) (P : ℤ[X]), IsWrapOfS t p P →
    (∀ x ∈ ts, t.InRange x.1) →
    ∃ r, addPolyM (.machine false t w cap) ts p = .ok (r, .ok ()) ∧ IsWrapOfS t r (P + termsPoly ts)
  | [], p, P, hp, _ => ⟨p, rfl, by simpa using hp⟩
  | (c, d) :: ts, p, P, hp, hts => by
    obtain ⟨q, hq, hq'⟩ := (C81_sparse_add_sub t hb p p ⟨[]⟩ c d hp.1 hp.1 (hts (c, d) (by simp))).2.2.2.2
    have h2 : IsWrapOfS t q (P + C c * X ^ d) :=
      ⟨hq'.1, fun n => by rw [hq'.2 n, coeff_add, hp.2 n, wrap_add_left, ← coeff_add]⟩
    obtain ⟨r, hr, hr'⟩ := addPolyM_wrapS hb ts q _ h2 (fun x hx => hts x (by simp [hx]))
    refine ⟨r, ?_, by rw [termsPoly_cons, ← add_assoc]; exact hr'⟩
    rw [addPolyM]
    show (p.addTermM (.machine false t) c d >>= _) >>= _ = _
    rw [hq]; exact hr

/-- C102, without overflow checks: the result has the coefficients of the sum reduced to the type; a degree without
room still panics. -/
theorem C102_wrap (hb : 1 ≤ t.bits) (hcap : cap < 2 ^ w) (p : Poly Int) (q : Sparse Int) (ts : List (Int × Nat))
    (hp : AllIn t p.terms) (hl : p.terms.length ≤ cap) (hq : ∀ e ∈ q.terms.entries, t.InRange e.2)
    (hts : ∀ x ∈ ts, t.InRange x.1 ∧ x.2 < 2 ^ w) :
    ((∀ x ∈ ts, x.2 < cap) →
      ∃ r, addPolyM (.machine false t w cap) ts p = .ok (r, .ok ()) ∧ IsWrapOf t r (descPoly p.terms + termsPoly ts)) ∧
    (¬ (∀ x ∈ ts, x.2 < cap) → addPolyM (.machine false t w cap) ts p = .panic) ∧
    (∃ r, addPolyM (.machine false t w cap) ts q = .ok (r, .ok ()) ∧
      IsWrapOfS t r (entriesPoly q.terms.entries + termsPoly ts)) := by
  obtain ⟨h1, h2⟩ := addPolyM_wrap t w cap hb hcap ts p _ (isWrapOf_self t hb hp) hl (fun x hx => (hts x hx).2)
  exact ⟨h1, h2, addPolyM_wrapS t w cap hb ts q _ (isWrapOfS_self t hb hq) (fun x hx => (hts x hx).1)⟩

theorem parseListM_terms {S : Type} [MutPolyM S] (E : Env) (parse : List Char → Option Int) :
    ∀ (ts : List (List Char)) (terms : List (Term Int)) (p : S) (b : Bool),
    ts.map (Term.fromStr parse E.usz.bits) = terms.map .ok → (b = true ∨ ts ≠ []) →
    parseListM E parse ts p b = (do
      let (q, r) ← addPolyM E (pairsOf terms) p
      match r with
      | .ok () => Res.ok (.ok q)
      | .error e => Res.ok (.error (.addingTerm e)))
  | [], terms, p, b, h, hb => by
    obtain rfl : terms = [] := by simpa using h.symm
    rcases hb with rfl | h
    · rfl
    · simp at h
  | tk :: ts, [], p, b, h, _ => by simp at h
  | tk :: ts, T :: terms, p, b, h, _ => by
    simp only [List.map_cons, List.cons.injEq] at h
    rw [parseListM, h.1]
    cases T with
    | zeroTerm => exact parseListM_terms E parse ts terms p true h.2 (.inl rfl)
    | term c d =>
      simp only [pairsOf, addPolyM]
      cases MutPolyM.tryAddTermM E p c d with
      | panic => rfl
      | fuel => rfl
      | ok v =>
        obtain ⟨q, r⟩ := v
        cases r with
        | error e => rfl
        | ok u => exact parseListM_terms E parse ts terms q true h.2 (.inl rfl)

theorem fromStr_degree_lt {t : IntTy} {uw : Nat} {s : List Char} {c : Int} {d : Nat}
    (huw : 1 ≤ uw) (h : Term.fromStr (parseInt t) uw s = .ok (.term c d)) : d < 2 ^ uw := by
  have hnew : ∀ {v : Int} {e : Nat}, Term.term c d = Term.new v e → d = e := by
    intro v e h
    unfold Term.new at h
    split at h <;> cases h
    rfl
  have hpos : 0 < 2 ^ uw := by positivity
  rcases (C36_accept_iff (parseInt t) uw s _).1 h with ⟨v, _, _, hT⟩ | ⟨num, v, _, _, ⟨_, hT⟩ | ⟨a, b, e, _, _, he, _, hT⟩⟩
  · rw [hnew hT]; exact hpos
  · rw [hnew hT]; exact Nat.one_lt_two_pow (by omega)
  · rw [hnew hT]
    unfold parseUsize at he
    obtain ⟨v, hv, rfl⟩ := Option.map_eq_some_iff.1 he
    have := parseInt_inRange hv
    simp only [IntTy.InRange, IntTy.min, IntTy.max] at this
    simp at this
    have h2 : (v.toNat : Int) = v := Int.toNat_of_nonneg this.1
    have h3 : (v.toNat : Int) < 2 ^ uw := by omega
    exact_mod_cast h3

/-- C102, parsing a text all of whose tokens are terms without overflow checks. -/
theorem C102_parse_wrap (hb : 1 ≤ t.bits) (hw : 1 ≤ w) (h1 : t.InRange 1) (hcap : cap < 2 ^ w) (s : List Char) (ts : List (List Char))
    (hts : IsTokenization s ts) (hs : s ≠ []) (terms : List (Term ℤ))
    (hterms : ts.map (Term.fromStr (parseInt t) w) = terms.map .ok) :
    ((∀ c d, Term.term c d ∈ terms → d < cap) →
      ∃ r, Poly.fromStrM (.machine false t w cap) t s = .ok (.ok r) ∧ IsWrapOf t r (terms.map Term.poly).sum) ∧
    ((∃ c d, Term.term c d ∈ terms ∧ cap ≤ d) → Poly.fromStrM (.machine false t w cap) t s = .panic) ∧
    (∃ r, Sparse.fromStrM (.machine false t w cap) t s = .ok (.ok r) ∧ IsWrapOfS t r (terms.map Term.poly).sum) := by
  have hne : ts ≠ [] := by
    rintro rfl
    exact hs hts.1.symm
  have hmem : ∀ x ∈ pairsOf terms, t.InRange x.1 ∧ x.2 < 2 ^ w := by
    rintro ⟨c, d⟩ hx
    have hx' := mem_pairsOf.1 hx
    have : (Except.ok (Term.term c d) : Except TermFromStringError (Term Int)) ∈ ts.map (Term.fromStr (parseInt t) w) := by
      rw [hterms]; exact List.mem_map_of_mem hx'
    obtain ⟨tk, _, htk⟩ := List.mem_map.1 this
    exact ⟨fromStr_inRange h1 htk, fromStr_degree_lt hw htk⟩
  have hz : AllIn t (Poly.zero : Poly Int).terms := by
    intro x hx; simp [Poly.zero] at hx
  obtain ⟨g1, g2, g3⟩ := C102_wrap t w cap hb hcap Poly.zero Sparse.zero (pairsOf terms) hz (by simp [Poly.zero])
    (by simp [Sparse.zero, BMap.empty]) hmem
  have e0 : descPoly (Poly.zero : Poly Int).terms = 0 := by simp [Poly.zero]
  have e1 : entriesPoly (Sparse.zero : Sparse Int).terms.entries = 0 := rfl
  rw [e0, zero_add, termsPoly_pairsOf] at g1
  rw [e1, zero_add, termsPoly_pairsOf] at g3
  have hroom : (∀ x ∈ pairsOf terms, x.2 < cap) ↔ ∀ c d, Term.term c d ∈ terms → d < cap :=
    ⟨fun h c d hm => h (c, d) (mem_pairsOf.2 hm), fun h x hx => h x.1 x.2 (mem_pairsOf.1 hx)⟩
  rw [hroom] at g1 g2
  have hd : Poly.fromStrM (.machine false t w cap) t s = _ :=
    (polyFromStrM_eq (.machine false t w cap) Poly.zero (parseInt t) s ts hts).trans
      (parseListM_terms (.machine false t w cap) (parseInt t) ts terms Poly.zero false hterms (.inr hne))
  have hs' : Sparse.fromStrM (.machine false t w cap) t s = _ :=
    (polyFromStrM_eq (.machine false t w cap) Sparse.zero (parseInt t) s ts hts).trans
      (parseListM_terms (.machine false t w cap) (parseInt t) ts terms Sparse.zero false hterms (.inr hne))
  rw [hd, hs']
  refine ⟨fun h => ?_, fun h => ?_, ?_⟩
  · obtain ⟨r, hr, e⟩ := g1 h
    exact ⟨r, by rw [hr]; rfl, e⟩
  · rw [g2 (by push Not; exact h)]; rfl
  · obtain ⟨r, hr, e⟩ := g3
    exact ⟨r, by rw [hr]; rfl, e⟩

end

end Rustnomial
