import Verif.SpecFloatExact
import Verif.Props.FloatFixed

/-!
# C87: polynomials with whole coefficients are computed exactly in floating point
-/

set_option linter.unusedSectionVars false

open Polynomial

namespace Rustnomial
namespace Fl
variable {f : FlFmt}

/-! ## One operation -/

/-- The second component is a whole number, and if it is below `2^p` the float is that number. -/
def Ex (x : Fl f × ℚ) : Prop :=
  (∃ n : ℤ, x.2 = n) ∧ (|x.2| < 2 ^ f.p → x.1.IntValued ∧ x.1.toRat = x.2)

theorem Ex_same (c : Fl f) (hc : c.IntValued) : Ex (c, c.toRat) := ⟨hc.2, fun _ => ⟨hc, rfl⟩⟩

theorem IntValued_neg (c : Fl f) (hc : c.IntValued) : (-c).IntValued := by
  obtain ⟨h, n, hn⟩ := hc
  refine ⟨?_, -n, by rw [toRat_neg, hn]; push_cast; rfl⟩
  obtain ⟨s, a, rfl⟩ := isFinite_iff.1 h
  rfl

theorem sub_eq_add (x y : Fl f) : x - y = x + -y := rfl

theorem Ex_add (hp : 1 ≤ f.p) (hw : f.p + f.q ≤ f.w) (x y : Fl f) (hx : x.IntValued) (hy : y.IntValued) :
    Ex (x + y, x.toRat + y.toRat) := by
  obtain ⟨hx, m, hm⟩ := hx
  obtain ⟨hy, n, hn⟩ := hy
  refine ⟨⟨m + n, by simp [hm, hn]⟩, fun h => ?_⟩
  simp only at h
  have := int_add hp hw hx hy hm hn (by rw [← hm, ← hn]; exact h)
  exact ⟨⟨this.1, m + n, by rw [this.2]; push_cast; rfl⟩, by rw [this.2, hm, hn]⟩

theorem Ex_sub (hp : 1 ≤ f.p) (hw : f.p + f.q ≤ f.w) (x y : Fl f) (hx : x.IntValued) (hy : y.IntValued) :
    Ex (x - y, x.toRat - y.toRat) := by
  have := Ex_add hp hw x (-y) hx (IntValued_neg y hy)
  rw [toRat_neg, ← sub_eq_add_neg] at this
  exact this

theorem Ex_mul (hp : 1 ≤ f.p) (hw : f.p + f.q ≤ f.w) (x y : Fl f) (hx : x.IntValued) (hy : y.IntValued) :
    Ex (x * y, x.toRat * y.toRat) := by
  obtain ⟨hx, m, hm⟩ := hx
  obtain ⟨hy, n, hn⟩ := hy
  refine ⟨⟨m * n, by simp [hm, hn]⟩, fun h => ?_⟩
  simp only at h
  have := int_mul hp hw hx hy hm hn (by rw [← hm, ← hn]; exact h)
  exact ⟨⟨this.1, m * n, by rw [this.2]; push_cast; rfl⟩, by rw [this.2, hm, hn]⟩

theorem Ex_mul_nat (hp : 1 ≤ f.p) (hw : f.p + f.q ≤ f.w) (x y : Fl f) (n : Nat) (hx : x.IntValued)
    (hy : y.isFinite = true) (hn : y.toRat = n) : Ex (x * y, x.toRat * n) := by
  have := Ex_mul hp hw x y hx ⟨hy, n, by simpa using hn⟩
  rwa [hn] at this

/-! ## From states to results -/

theorem coeff_of_mem {α : Type} (T : List α) (x : α) (hx : x ∈ T) (g : α → ℚ) :
    ∃ k, (descPoly (T.map g)).coeff k = g x := by
  obtain ⟨i, hi, rfl⟩ := List.getElem_of_mem (List.mem_reverse.2 hx)
  refine ⟨i, ?_⟩
  rw [coeff_descPoly, ← List.map_reverse, List.getD_eq_getElem _ _ (by simpa using hi)]
  simp

theorem exact_of_state {T : List (Fl f × ℚ)} {P : ℚ[X]} (hT : ∀ x ∈ T, Ex x) (hP : descPoly (T.map Prod.snd) = P)
    (hb : ∀ k, |P.coeff k| < 2 ^ f.p) :
    (∀ c ∈ T.map Prod.fst, c.IntValued) ∧ descPoly ((T.map Prod.fst).map toRat) = P := by
  have key : ∀ x ∈ T, x.1.IntValued ∧ x.1.toRat = x.2 := by
    intro x hx
    obtain ⟨k, hk⟩ := coeff_of_mem T x hx Prod.snd
    exact (hT x hx).2 (by rw [← hk, hP]; exact hb k)
  refine ⟨fun c hc => ?_, ?_⟩
  · obtain ⟨x, hx, rfl⟩ := List.mem_map.1 hc
    exact (key x hx).1
  · rw [← hP, List.map_map]
    congr 1
    exact List.map_congr_left fun x hx => (key x hx).2

theorem exact_of_sparse {r : Sparse (Fl f)} {P : ℚ[X]} (h : Sparse_state Ex r P) (hb : ∀ k, |P.coeff k| < 2 ^ f.p) :
    (∀ k c, r.terms.get k = some c → c.IntValued) ∧ r.ratPoly = P := by
  have key : ∀ k c, r.terms.get k = some c → c.IntValued ∧ c.toRat = P.coeff k := by
    intro k c hc
    have := h k
    rw [hc] at this
    exact this.2 (hb k)
  refine ⟨fun k c hc => (key k c hc).1, ?_⟩
  ext k
  rw [coeff_rat]
  cases hc : r.terms.get k with
  | none =>
    have := h k
    rw [hc] at this
    exact this.symm
  | some c => exact (key k c hc).2

/-! ## Concrete cases

The coefficients of the cases below are whole numbers, and the bounds hold. -/

theorem coeff_lt_of_forall {l : List ℚ} {B : ℚ} (hB : 0 < B) (h : ∀ x ∈ l, |x| < B) (k : Nat) :
    |(descPoly l).coeff k| < B := by
  rw [coeff_descPoly, List.getD_eq_getElem?_getD]
  cases hk : l.reverse[k]? with
  | none => simpa using hB
  | some x => exact h x (List.mem_reverse.1 (List.mem_of_getElem? hk))

theorem intValued_of {c : Fl f} (h : (c.isFinite && c.toRat.isInt) = true) : c.IntValued := by
  rw [Bool.and_eq_true] at h
  exact ⟨h.1, c.toRat.num, (Rat.eq_num_of_isInt h.2)⟩

theorem sparse_intValued_of {p : Sparse (Fl f)}
    (h : ∀ e ∈ p.terms.entries, (e.2.isFinite && e.2.toRat.isInt) = true) (k : Nat) (c : Fl f)
    (hc : p.terms.get k = some c) : c.IntValued :=
  intValued_of (h (k, c) ((BMap.mem_entries ..).2 hc))

/-- `3x^2 - 5x + 7` -/
def exW : Poly (Fl binary64) := ⟨[ofNat 3, -ofNat 5, ofNat 7]⟩
/-- `2x - 1` -/
def exV : Poly (Fl binary64) := ⟨[ofNat 2, -1]⟩
/-- `4x^9 - 6x` -/
def exY : Sparse (Fl binary64) := ⟨(BMap.empty.insert 9 (ofNat 4)).insert 1 (-ofNat 6)⟩

/-- Both sides as polynomials in `X`. -/
local macro "poly_eq" : tactic => `(tactic|
  (simp only [descPoly_cons, descPoly_nil, map_neg, map_ofNat, map_one, map_zero, List.length_cons, List.length_nil]; ring))

theorem exW_int : ∀ c ∈ exW.terms, c.IntValued := fun c hc => intValued_of (by
  revert c; decide +kernel)
theorem exV_int : ∀ c ∈ exV.terms, c.IntValued := fun c hc => intValued_of (by
  revert c; decide +kernel)
theorem exY_int : ∀ k c, exY.terms.get k = some c → c.IntValued := sparse_intValued_of (by decide +kernel)
theorem exW_rat : exW.terms.map toRat = [3, -5, 7] := by decide +kernel
theorem exV_rat : exV.terms.map toRat = [2, -1] := by decide +kernel
theorem exY_rat : exY.ratPoly = C 4 * X ^ 9 - C 6 * X := by
  have : exY.terms.entries.map (fun e => (e.1, e.2.toRat)) = [(1, -6), (9, 4)] := by decide +kernel
  rw [Sparse.ratPoly, this]
  simp only [entriesPoly_cons, entriesPoly_nil, map_neg, pow_one]; ring
theorem exY_abs : exY.absPoly = C 4 * X ^ 9 + C 6 * X := by
  have : exY.terms.entries.map (fun e => (e.1, |e.2.toRat|)) = [(1, 6), (9, 4)] := by decide +kernel
  rw [Sparse.absPoly, this]
  simp only [entriesPoly_cons, entriesPoly_nil, pow_one]; ring
theorem exW_abs : (exW.terms.map fun c => |c.toRat|) = [3, 5, 7] := by decide +kernel
theorem exV_abs : (exV.terms.map fun c => |c.toRat|) = [2, 1] := by decide +kernel

/-- C87: sums and differences of `Polynomial`s with whole coefficients are exact as long as the result stays
below `2^p`. -/
theorem C87_dense_add_sub (hp : 1 ≤ f.p) (hw : f.p + f.q ≤ f.w) (p q : Poly (Fl f))
    (hpi : ∀ c ∈ p.terms, c.IntValued) (hqi : ∀ c ∈ q.terms, c.IntValued) :
    ((∀ k, |(descPoly (p.terms.map toRat) + descPoly (q.terms.map toRat)).coeff k| < 2 ^ f.p) →
      (∃ r, p.add q = .ok r ∧ (∀ c ∈ r.terms, c.IntValued) ∧
        descPoly (r.terms.map toRat) = descPoly (p.terms.map toRat) + descPoly (q.terms.map toRat)) ∧
      ∃ r, p.addAssign q = .ok r ∧ (∀ c ∈ r.terms, c.IntValued) ∧
        descPoly (r.terms.map toRat) = descPoly (p.terms.map toRat) + descPoly (q.terms.map toRat)) ∧
    ((∀ k, |(descPoly (p.terms.map toRat) - descPoly (q.terms.map toRat)).coeff k| < 2 ^ f.p) →
      (∃ r, p.sub q = .ok r ∧ (∀ c ∈ r.terms, c.IntValued) ∧
        descPoly (r.terms.map toRat) = descPoly (p.terms.map toRat) - descPoly (q.terms.map toRat)) ∧
      ∃ r, p.subRef q = .ok r ∧ (∀ c ∈ r.terms, c.IntValued) ∧
        descPoly (r.terms.map toRat) = descPoly (p.terms.map toRat) - descPoly (q.terms.map toRat)) := by
  constructor
  · intro hb
    obtain ⟨⟨r, h, T, h1, h2, h3⟩, ⟨r', h', T', h1', h2', h3'⟩⟩ := add_state Ex IntValued Ex_same
      (Ex_add hp hw) p q hpi hqi
    have e := exact_of_state h1 h3 hb
    have e' := exact_of_state h1' h3' hb
    refine ⟨⟨r, h, ?_, ?_⟩, ⟨r', h', ?_, ?_⟩⟩
    · rw [h2]
      exact fun c hc => e.1 c ((List.dropWhile_suffix isZero).subset hc)
    · rw [h2, descPoly_dropWhile_toRat _ toRat_fin_zero]
      exact e.2
    · rw [h2']; exact e'.1
    · rw [h2']; exact e'.2
  · intro hb
    obtain ⟨⟨r, h, T, h1, h2, h3⟩, ⟨r', h', T', h1', h2', h3'⟩⟩ := sub_state Ex IntValued Ex_same IntValued_neg
      (Ex_sub hp hw) p q hpi hqi
    have e := exact_of_state h1 h3 hb
    have e' := exact_of_state h1' h3' hb
    refine ⟨⟨r, h, ?_, ?_⟩, ⟨r', h', ?_, ?_⟩⟩
    · rw [h2]; exact e.1
    · rw [h2]; exact e.2
    · rw [h2']; exact e'.1
    · rw [h2']; exact e'.2

example : (∀ k, |(descPoly (exW.terms.map toRat) + descPoly (exV.terms.map toRat)).coeff k| < 2 ^ binary64.p) ∧
    (∀ k, |(descPoly (exW.terms.map toRat) - descPoly (exV.terms.map toRat)).coeff k| < 2 ^ binary64.p) := by
  rw [exW_rat, exV_rat, show descPoly [3, -5, 7] + descPoly [2, -1] = descPoly ([3, -3, 6] : List ℚ) by poly_eq,
    show descPoly [3, -5, 7] - descPoly [2, -1] = descPoly ([3, -7, 8] : List ℚ) by poly_eq]
  exact ⟨coeff_lt_of_forall (by decide) (by decide +kernel), coeff_lt_of_forall (by decide) (by decide +kernel)⟩
-- beyond `2^53` the sum of two whole numbers is rounded
example : (⟨[ofNat (2 ^ 53)]⟩ : Poly (Fl binary64)).add ⟨[1]⟩ = .ok ⟨[ofNat (2 ^ 53)]⟩ := by decide +kernel

/-- C87: the same for `SparsePolynomial`s, also minus a `Polynomial`. -/
theorem C87_sparse_add_sub (hp : 1 ≤ f.p) (hw : f.p + f.q ≤ f.w) (p q : Sparse (Fl f)) (d : Poly (Fl f))
    (hpi : ∀ k c, p.terms.get k = some c → c.IntValued) (hqi : ∀ k c, q.terms.get k = some c → c.IntValued)
    (hdi : ∀ c ∈ d.terms, c.IntValued) :
    ((∀ k, |(p.ratPoly + q.ratPoly).coeff k| < 2 ^ f.p) →
      ((∀ k c, (p.add q).terms.get k = some c → c.IntValued) ∧ (p.add q).ratPoly = p.ratPoly + q.ratPoly) ∧
      (∀ k c, (p.addAssign q).terms.get k = some c → c.IntValued) ∧
        (p.addAssign q).ratPoly = p.ratPoly + q.ratPoly) ∧
    ((∀ k, |(p.ratPoly - q.ratPoly).coeff k| < 2 ^ f.p) →
      (∀ k c, (p.sub q).terms.get k = some c → c.IntValued) ∧ (p.sub q).ratPoly = p.ratPoly - q.ratPoly) ∧
    ((∀ k, |(p.ratPoly - descPoly (d.terms.map toRat)).coeff k| < 2 ^ f.p) →
      (∀ k c, (p.subDense d).terms.get k = some c → c.IntValued) ∧
        (p.subDense d).ratPoly = p.ratPoly - descPoly (d.terms.map toRat)) := by
  have ha := sparse_add_state Ex IntValued Ex_same (Ex_add hp hw) p q hpi hqi
  have hs := sparse_sub_state Ex IntValued Ex_same IntValued_neg (Ex_sub hp hw) p q d hpi
  exact ⟨fun hb => ⟨exact_of_sparse ha.1 hb, exact_of_sparse ha.2 hb⟩, fun hb => exact_of_sparse (hs.1 hqi) hb,
    fun hb => exact_of_sparse (hs.2 hdi) hb⟩

example : (∀ k, |(exY.ratPoly + exY.ratPoly).coeff k| < 2 ^ binary64.p) ∧
    (∀ k, |(exY.ratPoly - descPoly (exW.terms.map toRat)).coeff k| < 2 ^ binary64.p) := by
  rw [exY_rat, exW_rat, show (C 4 * X ^ 9 - C 6 * X + (C 4 * X ^ 9 - C 6 * X) : ℚ[X]) =
      descPoly [8, 0, 0, 0, 0, 0, 0, 0, -12, 0] by poly_eq,
    show (C 4 * X ^ 9 - C 6 * X - descPoly [3, -5, 7] : ℚ[X]) =
      descPoly [4, 0, 0, 0, 0, 0, 0, -3, -1, -7] by poly_eq]
  exact ⟨coeff_lt_of_forall (by decide) (by decide +kernel), coeff_lt_of_forall (by decide) (by decide +kernel)⟩

/-! ## Products and powers -/

/-- The state of one coefficient of a product of whole numbers: float, exact sum, sum of absolute values. -/
def ExB (_ : Nat) (x : Fl f × ℚ × ℚ) : Prop :=
  (∃ n : ℤ, x.2.1 = n) ∧ |x.2.1| ≤ x.2.2 ∧ (x.2.2 < 2 ^ f.p → x.1.IntValued ∧ x.1.toRat = x.2.1)

theorem mulInv_ExB (hp : 1 ≤ f.p) (hw : f.p + f.q ≤ f.w) : MulInv (f := f) IntValued ExB where
  mono := fun _ _ h => h
  zero := ⟨⟨0, by simp⟩, by simp, fun _ => ⟨⟨rfl, 0, by simp⟩, by simp⟩⟩
  step := by
    rintro c ⟨t, s, a⟩ ⟨⟨n, hn⟩, hsa, h⟩ r l hr hl
    simp only at hn hsa h
    obtain ⟨hi, hm⟩ := Ex_mul hp hw r l hr hl
    obtain ⟨m, hm'⟩ := hi
    simp only at hm hm'
    have hnn : 0 ≤ |r.toRat| * |l.toRat| := by positivity
    have hle : |s + r.toRat * l.toRat| ≤ a + |r.toRat| * |l.toRat| := by
      refine (abs_add_le _ _).trans ?_
      rw [abs_mul]; linarith
    refine ⟨⟨n + m, by simp [hn, hm']⟩, hle, fun hb => ?_⟩
    simp only at hb ⊢
    obtain ⟨ht, hts⟩ := h (by linarith)
    have h0 : 0 ≤ a := (abs_nonneg _).trans hsa
    obtain ⟨h1, h2⟩ := hm (by rw [abs_mul]; linarith)
    have := (Ex_add hp hw t (r * l) ht h1).2
    simp only [hts, h2] at this
    exact this (by linarith)
  first := by
    intro c r l hr hl
    obtain ⟨hi, hm⟩ := Ex_mul hp hw r l hr hl
    exact ⟨hi, by simp [abs_mul], fun hb => hm (by simpa [abs_mul] using hb)⟩

theorem sliceMul_exact (hp : 1 ≤ f.p) (hw : f.p + f.q ≤ f.w) (a b : List (Fl f)) (ha : ∀ c ∈ a, c.IntValued)
    (hb : ∀ c ∈ b, c.IntValued) (hk : ∀ k, (descPoly (a.map fun c => |c.toRat|) *
      descPoly (b.map fun c => |c.toRat|)).coeff k < 2 ^ f.p) (out : List (Fl f)) (h : sliceMul a b = .ok out) :
    (∀ c ∈ out, c.IntValued) ∧ descPoly (out.map toRat) = descPoly (a.map toRat) * descPoly (b.map toRat) := by
  obtain ⟨T, rfl, h2, h3, h4⟩ := sliceMul_state (mulInv_ExB hp hw) a b ha hb out h
  have key : ∀ x ∈ T, x.1.IntValued ∧ x.1.toRat = x.2.1 := by
    intro x hx
    obtain ⟨k, e⟩ := coeff_of_mem T x hx (fun x => x.2.2)
    exact (h2 x hx).2.2 (by rw [← e, h4]; exact hk k)
  refine ⟨fun c hc => ?_, ?_⟩
  · obtain ⟨x, hx, rfl⟩ := List.mem_map.1 hc
    exact (key x hx).1
  · rw [← h3, List.map_map]
    congr 1
    exact List.map_congr_left fun x hx => (key x hx).2

/-- C87: products of `Polynomial`s with whole coefficients are exact as long as the product of the polynomials of
absolute values stays below `2^p`. -/
theorem C87_dense_mul (hp : 1 ≤ f.p) (hw : f.p + f.q ≤ f.w) (p q r : Poly (Fl f))
    (hpi : ∀ c ∈ p.terms, c.IntValued) (hqi : ∀ c ∈ q.terms, c.IntValued)
    (hk : ∀ k, (descPoly (p.terms.map fun c => |c.toRat|) * descPoly (q.terms.map fun c => |c.toRat|)).coeff k <
      2 ^ f.p) (h : p.mul q = .ok r ∨ p.mulRef q = .ok r) :
    (∀ c ∈ r.terms, c.IntValued) ∧
      descPoly (r.terms.map toRat) = descPoly (p.terms.map toRat) * descPoly (q.terms.map toRat) := by
  rcases h with h | h
  · obtain ⟨out, h1, h2⟩ := Res.bind_eq_ok.1 h
    cases h2
    exact sliceMul_exact hp hw _ _ hpi hqi hk out h1
  · obtain ⟨out, h1, h2⟩ := Res.bind_eq_ok.1 h
    cases h2
    have := sliceMul_exact hp hw _ _ hpi hqi hk out h1
    rw [new_terms, descPoly_dropWhile_toRat _ toRat_fin_zero]
    exact ⟨fun c hc => this.1 c ((List.dropWhile_suffix isZero).subset hc), this.2⟩

example : (∀ k, (descPoly (exW.terms.map fun c => |c.toRat|) * descPoly (exV.terms.map fun c => |c.toRat|)).coeff k <
      2 ^ binary64.p) ∧
    exW.mul exV = .ok ⟨[ofNat 6, -ofNat 13, ofNat 19, -ofNat 7]⟩ := by
  refine ⟨fun k => ?_, by decide +kernel⟩
  rw [exW_abs, exV_abs, show descPoly [3, 5, 7] * descPoly [2, 1] = descPoly ([6, 13, 19, 7] : List ℚ) by poly_eq]
  exact (le_abs_self _).trans_lt (coeff_lt_of_forall (by decide) (by decide +kernel) k)
-- beyond `2^53` the product of two whole numbers is rounded
example : ∃ r, (⟨[ofNat (2 ^ 27 + 1)]⟩ : Poly (Fl binary64)).mul ⟨[ofNat (2 ^ 27 + 1)]⟩ = .ok ⟨[r]⟩ ∧
    r.toRat ≠ (2 ^ 27 + 1) * (2 ^ 27 + 1) := ⟨ofNat (2 ^ 54 + 2 ^ 28), by decide +kernel, by decide +kernel⟩

/-- C87: the same for `SparsePolynomial`s. -/
theorem C87_sparse_mul (hp : 1 ≤ f.p) (hw : f.p + f.q ≤ f.w) (p q : Sparse (Fl f))
    (hpi : ∀ k c, p.terms.get k = some c → c.IntValued) (hqi : ∀ k c, q.terms.get k = some c → c.IntValued)
    (hk : ∀ k, (p.absPoly * q.absPoly).coeff k < 2 ^ f.p) :
    (∀ k c, (p.mul q).terms.get k = some c → c.IntValued) ∧ (p.mul q).ratPoly = p.ratPoly * q.ratPoly := by
  have hs : ∀ k, StB ExB (0 + q.terms.entries.length) ((p.mul q).terms.get k) ((p.ratPoly * q.ratPoly).coeff k)
      ((p.absPoly * q.absPoly).coeff k) := by
    intro k
    have := mapMul_state (mulInv_ExB hp hw) p.terms hpi q.terms.entries .empty 0 0 0
      (fun e he => hqi e.1 e.2 ((BMap.mem_entries ..).1 he))
      (fun j => by simp [BMap.get, BMap.empty, BMap.getList, StB]) k
    simp only [zero_add] at this ⊢
    change StB ExB _ ((p.mul q).terms.get k) ((q.ratPoly * p.ratPoly).coeff k)
      ((q.absPoly * p.absPoly).coeff k) at this
    rw [mul_comm q.ratPoly, mul_comm q.absPoly] at this
    exact this
  have key : ∀ k c, (p.mul q).terms.get k = some c → c.IntValued ∧ c.toRat = (p.ratPoly * q.ratPoly).coeff k := by
    intro k c hc
    have := hs k
    rw [hc] at this
    exact this.2.2 (hk k)
  refine ⟨fun k c hc => (key k c hc).1, ?_⟩
  ext k
  rw [coeff_rat]
  cases hc : (p.mul q).terms.get k with
  | none =>
    have := hs k
    rw [hc] at this
    exact this.1.symm
  | some c => exact (key k c hc).2

theorem exY_sq : exY.absPoly ^ 2 = descPoly [16, 0, 0, 0, 0, 0, 0, 0, 48, 0, 0, 0, 0, 0, 0, 0, 36, 0, 0] := by
  rw [exY_abs]; poly_eq
example : ∀ k, (exY.absPoly * exY.absPoly).coeff k < 2 ^ binary64.p := by
  intro k
  rw [← sq, exY_sq]
  exact (le_abs_self _).trans_lt (coeff_lt_of_forall (by decide) (by decide +kernel) k)

theorem coeff_mul_le {U V W Z : ℚ[X]} (h1 : ∀ k, |U.coeff k| ≤ V.coeff k) (h2 : ∀ k, |W.coeff k| ≤ Z.coeff k)
    (k : Nat) : |(U * W).coeff k| ≤ (V * Z).coeff k := by
  rw [coeff_mul, coeff_mul]
  refine (Finset.abs_sum_le_sum_abs _ _).trans (Finset.sum_le_sum fun x _ => ?_)
  rw [abs_mul]
  exact mul_le_mul (h1 _) (h2 _) (abs_nonneg _) ((abs_nonneg _).trans (h1 _))

theorem coeff_pow_le {U V : ℚ[X]} (h : ∀ k, |U.coeff k| ≤ V.coeff k) (n : Nat) :
    ∀ k, |(U ^ n).coeff k| ≤ (V ^ n).coeff k := by
  induction n with
  | zero =>
    intro k
    rw [pow_zero, pow_zero, coeff_one]
    split <;> simp
  | succ n ih =>
    intro k
    rw [pow_succ, pow_succ]
    exact coeff_mul_le ih h k

/-- Smaller powers of a polynomial with whole absolute values have no larger coefficients. -/
theorem coeff_pow_lt {A : ℚ[X]} (hA : ∀ k, 0 ≤ A.coeff k ∧ (A.coeff k ≠ 0 → 1 ≤ A.coeff k)) {B : ℚ} (hB : 0 < B)
    {m n : Nat} (hm : 1 ≤ m) (hmn : m ≤ n) (h : ∀ k, (A ^ n).coeff k < B) : ∀ k, (A ^ m).coeff k < B := by
  induction n, hmn using Nat.le_induction with
  | base => exact h
  | succ n hmn ih =>
    refine ih fun k => ?_
    by_cases h0 : A = 0
    · rw [h0, zero_pow (by omega)]
      simpa using hB
    · have hl : 1 ≤ A.coeff A.natDegree := (hA _).2 (by rwa [coeff_natDegree, Ne, leadingCoeff_eq_zero])
      have hn : ∀ j, 0 ≤ (A ^ n).coeff j := fun j =>
        (abs_nonneg _).trans (coeff_pow_le (U := A) (V := A) (fun k => by rw [abs_of_nonneg (hA k).1]) n j)
      have := h (k + A.natDegree)
      rw [pow_succ, coeff_mul] at this
      refine lt_of_le_of_lt ?_ this
      calc (A ^ n).coeff k ≤ (A ^ n).coeff k * A.coeff A.natDegree := le_mul_of_one_le_right (hn k) hl
        _ ≤ _ := Finset.single_le_sum (f := fun x : Nat × Nat => (A ^ n).coeff x.1 * A.coeff x.2)
            (fun x _ => mul_nonneg (hn _) (hA _).1) (Finset.mem_antidiagonal.2 (show (k, A.natDegree).1 + (k, A.natDegree).2 = _ from rfl))

theorem coeff_dense_abs (l : List (Fl f)) (k : Nat) :
    (descPoly (l.map fun c => |c.toRat|)).coeff k = |(descPoly (l.map toRat)).coeff k| := by
  rcases coeff_cases l k with ⟨x, _, e⟩ | e
  · rw [e, e]
  · rw [e, e]; simp

theorem coeff_sparse_abs (p : Sparse (Fl f)) (k : Nat) : p.absPoly.coeff k = |p.ratPoly.coeff k| := by
  rw [coeff_abs, coeff_rat]
  cases p.terms.get k <;> simp

theorem abs_int_cases {x : ℚ} (h : ∃ n : ℤ, x = n) : 0 ≤ |x| ∧ (|x| ≠ 0 → 1 ≤ |x|) := by
  obtain ⟨n, rfl⟩ := h
  refine ⟨abs_nonneg _, fun h => ?_⟩
  have : n ≠ 0 := by rintro rfl; simp at h
  exact_mod_cast Int.one_le_abs this

theorem dense_coeff_int {l : List (Fl f)} (h : ∀ c ∈ l, c.IntValued) (k : Nat) :
    ∃ n : ℤ, (descPoly (l.map toRat)).coeff k = n := by
  rcases coeff_cases l k with ⟨x, hx, e⟩ | e
  · rw [e]; exact (h x hx).2
  · rw [e]; exact ⟨0, by simp⟩

theorem sparse_coeff_int {p : Sparse (Fl f)} (h : ∀ k c, p.terms.get k = some c → c.IntValued) (k : Nat) :
    ∃ n : ℤ, p.ratPoly.coeff k = n := by
  rw [coeff_rat]
  cases hc : p.terms.get k with
  | none => exact ⟨0, by simp⟩
  | some c => exact (h k c hc).2

/-- C87: powers of a `Polynomial` with whole coefficients are exact as long as the power of the polynomial of
absolute values stays below `2^p`; the zero polynomial has powers 0 and 1 only (the square panics). -/
theorem C87_dense_pow (hp : 1 ≤ f.p) (hw : f.p + f.q ≤ f.w) (p : Poly (Fl f)) (hpi : ∀ c ∈ p.terms, c.IntValued)
    (n : Nat) (h0 : descPoly (p.terms.map toRat) ≠ 0 ∨ n ≤ 1)
    (hk : ∀ k, (descPoly (p.terms.map fun c => |c.toRat|) ^ n).coeff k < 2 ^ f.p) :
    ∃ r, p.pow n = .ok r ∧ (∀ c ∈ r.terms, c.IntValued) ∧
      descPoly (r.terms.map toRat) = descPoly (p.terms.map toRat) ^ n := by
  set P := descPoly (p.terms.map toRat) with hP
  set A := descPoly (p.terms.map fun c => |c.toRat|) with hA
  have hPA : ∀ k, |P.coeff k| ≤ A.coeff k := fun k => (coeff_dense_abs _ k).ge
  have hA1 : ∀ k, 0 ≤ A.coeff k ∧ (A.coeff k ≠ 0 → 1 ≤ A.coeff k) := by
    intro k
    rw [hA, coeff_dense_abs]
    exact abs_int_cases (dense_coeff_int hpi k)
  have hB : (0 : ℚ) < 2 ^ f.p := by positivity
  -- a product of two polynomials with values `P ^ i` and `P ^ j`
  have hmul : ∀ (a b : Poly (Fl f)) (i j : Nat), P ≠ 0 → (∀ c ∈ a.terms, c.IntValued) → (∀ c ∈ b.terms, c.IntValued) →
      descPoly (a.terms.map toRat) = P ^ i → descPoly (b.terms.map toRat) = P ^ j →
      (∀ k, (A ^ (i + j)).coeff k < 2 ^ f.p) →
      ∃ r, a.mulRef b = .ok r ∧ (∀ c ∈ r.terms, c.IntValued) ∧ descPoly (r.terms.map toRat) = P ^ (i + j) := by
    intro a b i j hP0 ha hb ea eb hij
    have hne : ∃ r, a.mul b = .ok r := by
      rw [(C68_mul_panics_iff a b).2]
      rintro ⟨hz, -⟩
      have : descPoly (a.terms.map toRat) = 0 := by
        rw [← descPoly_dropWhile_toRat _ toRat_fin_zero, (dropWhile_nil_iff _).2 hz]; rfl
      rw [ea] at this
      exact pow_ne_zero i hP0 this
    obtain ⟨r, hr⟩ := hne
    obtain ⟨out, h1, h2⟩ := Res.bind_eq_ok.1 hr
    have hr' : a.mulRef b = .ok (Poly.new out) := by
      unfold Poly.mulRef
      rw [h1]; rfl
    refine ⟨_, hr', ?_⟩
    have := C87_dense_mul hp hw a b _ ha hb (fun k => ?_) (.inr hr')
    · rw [ea, eb, ← pow_add] at this
      exact this
    · refine lt_of_le_of_lt (le_trans (le_abs_self _) ?_) (hij k)
      rw [pow_add]
      refine coeff_mul_le (fun k => ?_) (fun k => ?_) k
      · rw [coeff_dense_abs, abs_abs, ea]; exact coeff_pow_le hPA i k
      · rw [coeff_dense_abs, abs_abs, eb]; exact coeff_pow_le hPA j k
  induction n using Nat.strong_induction_on with
  | _ n ih =>
    rw [Poly.pow]
    by_cases n0 : n = 0
    · subst n0
      refine ⟨_, by rw [if_pos rfl], ?_, ?_⟩
      · intro c hc
        simp only [List.replicate_one, List.mem_singleton] at hc
        subst hc
        exact ⟨rfl, 1, by rw [toRat_one]; simp⟩
      · simp [descPoly_cons, toRat_one]
    by_cases n1 : n = 1
    · subst n1
      refine ⟨_, by rw [if_neg n0, if_pos rfl], ?_, ?_⟩
      · rw [new_terms]
        exact fun c hc => hpi c ((List.dropWhile_suffix isZero).subset hc)
      · rw [new_terms, descPoly_dropWhile_toRat _ toRat_fin_zero, pow_one]
    have hP0 : P ≠ 0 := h0.resolve_right (by omega)
    by_cases n2 : n = 2
    · subst n2
      rw [if_neg n0, if_neg n1, if_pos rfl]
      exact hmul p p 1 1 hP0 hpi hpi (pow_one _).symm (pow_one _).symm hk
    rw [if_neg n0, if_neg n1, if_neg n2]
    split
    · rename_i he
      obtain ⟨h, h1, h2, h3⟩ := ih (n / 2) (by omega) (.inl hP0)
        (coeff_pow_lt hA1 hB (by omega) (by omega) hk)
      rw [h1]
      obtain ⟨r, r1, r2, r3⟩ := hmul h h (n / 2) (n / 2) hP0 h2 h2 h3 h3
        (by rw [show n / 2 + n / 2 = n by omega]; exact hk)
      rw [show n / 2 + n / 2 = n by omega] at r3
      refine ⟨r, ?_, r2, r3⟩
      change Poly.pow h 2 = _
      rw [Poly.pow, if_neg (by norm_num), if_neg (by norm_num), if_pos rfl]
      exact r1
    · obtain ⟨h, h1, h2, h3⟩ := ih (n - 1) (by omega) (.inl hP0)
        (coeff_pow_lt hA1 hB (by omega) (by omega) hk)
      rw [h1]
      obtain ⟨r, r1, r2, r3⟩ := hmul p h 1 (n - 1) hP0 hpi h2 (pow_one _).symm h3
        (by rw [show 1 + (n - 1) = n by omega]; exact hk)
      rw [show 1 + (n - 1) = n by omega] at r3
      exact ⟨r, r1, r2, r3⟩

example : descPoly (exV.terms.map toRat) ≠ 0 ∧
    (∀ k, (descPoly (exV.terms.map fun c => |c.toRat|) ^ 3).coeff k < 2 ^ binary64.p) ∧
    exV.pow 3 = .ok ⟨[ofNat 8, -ofNat 12, ofNat 6, -1]⟩ := by
  refine ⟨fun h => ?_, fun k => ?_, by decide +kernel⟩
  · have : (descPoly ([2, -1] : List ℚ)).coeff 1 = 2 := by rw [coeff_descPoly]; rfl
    rw [← exV_rat, h] at this
    simp at this
  · rw [exV_abs, show descPoly [2, 1] ^ 3 = descPoly ([8, 12, 6, 1] : List ℚ) by poly_eq]
    exact (le_abs_self _).trans_lt (coeff_lt_of_forall (by decide) (by decide +kernel) k)

/-! ## Division -/

theorem int_div (hp : 1 ≤ f.p) (hw : f.p + f.q ≤ f.w) {x y : Fl f} {n : ℤ} (hx : x.isFinite = true)
    (hy : y.isFinite = true) (h0 : y.toRat ≠ 0) (hn : x.toRat / y.toRat = n) (h : |(n : ℚ)| < 2 ^ f.p) :
    (div x y).IntValued ∧ (div x y).toRat = n := by
  obtain ⟨⟨z, hz, hzf, hzn⟩, hm⟩ := int_valid hw h
  have hf := (C65_no_overflow hp (by omega) x y hx hy).2.2 h0 (by rw [hn]; exact hm)
  have := (C65_nearest hp x y z hz hzf).2.2.2 hx hy h0 hf
  rw [hn, hzn, sub_self, abs_zero] at this
  have := sub_eq_zero.1 (abs_eq_zero.1 (le_antisymm this (abs_nonneg _)))
  exact ⟨⟨hf, n, this⟩, this⟩

theorem firstTerm_ratPoly {l : List (Fl f)} {c : Fl f} {d : Nat} (h : firstTerm l = .term c d) :
    (descPoly (l.map toRat)).coeff d = c.toRat ∧ ∀ k, d < k → (descPoly (l.map toRat)).coeff k = 0 := by
  obtain ⟨vs, h1, h2, _⟩ := firstTerm_term h
  rw [← descPoly_dropWhile_toRat _ toRat_fin_zero, h1]
  subst h2
  constructor
  · rw [coeff_descPoly, List.map_cons, List.reverse_cons, List.getD_append_right _ _ _ _ (by simp)]
    simp
  · intro k hk
    rw [coeff_descPoly, List.getD_eq_default _ _ (by simpa using hk)]

theorem firstTerm_zero_ratPoly {l : List (Fl f)} (h : firstTerm l = .zeroTerm) : descPoly (l.map toRat) = 0 := by
  rw [firstTerm_zero_iff] at h
  rw [← descPoly_dropWhile_toRat _ toRat_fin_zero, h]
  rfl

theorem quot_coeff {D B R : ℚ[X]} (hR : R.degree < B.degree) {j : Nat} (hj : D.coeff j ≠ 0) :
    ∃ k, j + B.natDegree ≤ k ∧ (D * B + R).coeff k ≠ 0 := by
  have hB : B ≠ 0 := by rintro rfl; simp at hR
  have hD : D ≠ 0 := by rintro rfl; simp at hj
  refine ⟨D.natDegree + B.natDegree, by have := le_natDegree_of_ne_zero hj; omega, ?_⟩
  have hR0 : R.coeff (D.natDegree + B.natDegree) = 0 := by
    refine coeff_eq_zero_of_degree_lt (lt_of_lt_of_le hR ?_)
    rw [degree_eq_natDegree hB]
    exact_mod_cast Nat.le_add_left _ _
  rw [coeff_add, coeff_mul_degree_add_degree, hR0, add_zero]
  exact mul_ne_zero (leadingCoeff_ne_zero.2 hD) (leadingCoeff_ne_zero.2 hB)

theorem ExB_state {T : List (Fl f × ℚ × ℚ)} {m : Nat} (hT : ∀ x ∈ T, ExB m x)
    (hk : ∀ k, (descPoly (T.map fun x => x.2.2)).coeff k < 2 ^ f.p) :
    (∀ c ∈ T.map Prod.fst, c.IntValued) ∧ descPoly ((T.map Prod.fst).map toRat) = descPoly (T.map fun x => x.2.1) := by
  have key : ∀ x ∈ T, x.1.IntValued ∧ x.1.toRat = x.2.1 := by
    intro x hx
    obtain ⟨k, e⟩ := coeff_of_mem T x hx (fun x => x.2.2)
    exact (hT x hx).2.2 (by rw [← e]; exact hk k)
  refine ⟨fun c hc => ?_, ?_⟩
  · obtain ⟨x, hx, rfl⟩ := List.mem_map.1 hc
    exact (key x hx).1
  · rw [List.map_map]
    congr 1
    exact List.map_congr_left fun x hx => (key x hx).2

theorem exact_loop (hp : 1 ≤ f.p) (hw : f.p + f.q ≤ f.w) {b : List (Fl f)} {rf : Fl f} {rd offset : Nat}
    (hb : firstTerm b = .term rf rd) (hbi : ∀ c ∈ b, c.IntValued) (P Q R A V : ℚ[X])
    (hPQ : P = Q * descPoly (b.map toRat) + R) (hR : R.degree < (descPoly (b.map toRat)).degree)
    (hQ : ∀ k, ∃ n : ℤ, Q.coeff k = n) (hQV : ∀ k, |Q.coeff k| ≤ V.coeff k) (hA0 : ∀ k, 0 ≤ A.coeff k)
    (hk : ∀ k, (A + V * descPoly (b.map fun x => |x.toRat|)).coeff k < 2 ^ f.p) :
    ∀ (sd : Nat) (c : Fl f) (T : List (Fl f × ℚ × ℚ)) (dv : List (Fl f)) (m : Nat),
    firstTerm (T.map Prod.fst) = .term c sd → rd ≤ sd → sd ≤ offset → dv.length = offset - rd + 1 →
    (∀ i, offset - sd ≤ i → dv.getD i 0 = 0) → (∀ x ∈ T, ExB m x) →
    descPoly (T.map fun x => x.2.1) = P - descPoly (dv.map toRat) * descPoly (b.map toRat) →
    descPoly (T.map fun x => x.2.2) =
      A + descPoly (dv.map fun x => |x.toRat|) * descPoly (b.map fun x => |x.toRat|) →
    (∀ j, (descPoly (dv.map toRat)).coeff j = 0 ∨ (descPoly (dv.map toRat)).coeff j = Q.coeff j) →
    (∀ x ∈ dv, x.IntValued) →
    ∃ (dv' rem : List (Fl f)),
      (∀ fuel, sd + 2 ≤ fuel → Poly.divModLoop b rf rd offset fuel c sd (T.map Prod.fst) dv = .ok (dv', rem)) ∧
      (∀ x ∈ dv', x.IntValued) ∧ (∀ x ∈ rem, x.IntValued) ∧ descPoly (dv'.map toRat) = Q ∧
      descPoly (rem.map toRat) = R := by
  set Bp := descPoly (b.map toRat) with hBp
  set Ba := descPoly (b.map fun x => |x.toRat|) with hBa
  have hBpa : ∀ k, |Bp.coeff k| = Ba.coeff k := fun k => (coeff_dense_abs b k).symm
  have hB0 : Bp ≠ 0 := by rintro h; rw [h] at hR; simp at hR
  -- the leading coefficient of the divisor
  obtain ⟨ws, b1, b2, b3, b4, b5⟩ := firstTerm_term hb
  have hrfm : rf ∈ b := (List.dropWhile_suffix isZero).subset (by rw [b1]; simp)
  have hrfi := hbi rf hrfm
  have hrf0 : rf.toRat ≠ 0 := by
    rw [Ne, ← isZero_iff_toRat hrfi.1, b5]; simp
  have hBrd := (firstTerm_ratPoly hb).1
  rw [← hBp] at hBrd
  have hBdeg : Bp.natDegree = rd := by
    refine le_antisymm ?_ (le_natDegree_of_ne_zero (by rw [hBrd]; exact hrf0))
    rw [natDegree_le_iff_coeff_eq_zero]
    exact (firstTerm_ratPoly hb).2
  have hrf1 : 1 ≤ |rf.toRat| := (abs_int_cases hrfi.2).2 (by simpa using hrf0)
  have hBa0 : ∀ k, 0 ≤ Ba.coeff k := fun k => by rw [← hBpa]; exact abs_nonneg _
  have hV0 : ∀ k, 0 ≤ V.coeff k := fun k => (abs_nonneg _).trans (hQV k)
  -- coefficients of the quotient are small
  have hQsmall : ∀ j, |Q.coeff j| < 2 ^ f.p := by
    intro j
    refine lt_of_le_of_lt ?_ (hk (j + rd))
    rw [coeff_add, coeff_mul]
    have h1 : V.coeff j * Ba.coeff rd ≤ ∑ x ∈ Finset.antidiagonal (j + rd), V.coeff x.1 * Ba.coeff x.2 :=
      Finset.single_le_sum (f := fun x : Nat × Nat => V.coeff x.1 * Ba.coeff x.2)
        (fun x _ => mul_nonneg (hV0 _) (hBa0 _)) (a := (j, rd)) (by simp)
    have h2 : V.coeff j ≤ V.coeff j * Ba.coeff rd :=
      le_mul_of_one_le_right (hV0 j) (by rw [← hBpa, hBrd]; exact hrf1)
    have := hQV j
    have := hA0 (j + rd)
    linarith
  -- states are exact
  have hstate : ∀ (T : List (Fl f × ℚ × ℚ)) (dv : List (Fl f)) (m : Nat), (∀ x ∈ T, ExB m x) →
      descPoly (T.map fun x => x.2.1) = P - descPoly (dv.map toRat) * Bp →
      descPoly (T.map fun x => x.2.2) = A + descPoly (dv.map fun x => |x.toRat|) * Ba →
      (∀ j, (descPoly (dv.map toRat)).coeff j = 0 ∨ (descPoly (dv.map toRat)).coeff j = Q.coeff j) →
      (∀ c ∈ T.map Prod.fst, c.IntValued) ∧
        descPoly ((T.map Prod.fst).map toRat) = (Q - descPoly (dv.map toRat)) * Bp + R := by
    intro T dv m hT hS hA hdv
    have := ExB_state hT (fun k => ?_)
    · refine ⟨this.1, ?_⟩
      rw [this.2, hS, hPQ]; ring
    · rw [hA]
      refine lt_of_le_of_lt ?_ (hk k)
      rw [coeff_add, coeff_add]
      refine add_le_add le_rfl ((le_abs_self _).trans (coeff_mul_le (fun j => ?_) (fun j => ?_) k))
      · rw [coeff_dense_abs, abs_abs]
        rcases hdv j with h | h
        · rw [h, abs_zero]; exact hV0 j
        · rw [h]; exact hQV j
      · rw [abs_of_nonneg (hBa0 j)]
  intro sd
  induction sd using Nat.strong_induction_on with
  | _ sd ih =>
    intro c T dv m hr hle hoff hlen hz hB hS hA hdv hdvi
    obtain ⟨hTi, hTv⟩ := hstate T dv m hB hS hA hdv
    obtain ⟨vs, r1, r2, r3, r4, r5⟩ := firstTerm_term hr
    have hci : c.IntValued := hTi c ((List.dropWhile_suffix isZero).subset (by rw [r1]; simp))
    have hrr := firstTerm_ratPoly hr
    rw [hTv] at hrr
    -- the quotient that is left has degree at most `sd - rd`
    have hDdeg : ∀ j, sd - rd < j → (Q - descPoly (dv.map toRat)).coeff j = 0 := by
      intro j hj
      by_contra hne
      obtain ⟨k, k1, k2⟩ := quot_coeff hR hne
      exact k2 (hrr.2 k (by omega))
    have hi : offset - sd < dv.length := by rw [hlen]; omega
    have hexp : dv.length - (offset - sd) - 1 = sd - rd := by rw [hlen]; omega
    have hdv0 : (descPoly (dv.map toRat)).coeff (sd - rd) = 0 := by
      rw [coeff_descPoly, ← hexp, List.getD_eq_getElem _ _ (by simp; omega), List.getElem_reverse]
      have := hz (offset - sd) le_rfl
      rw [List.getD_eq_getElem _ _ hi] at this
      rw [List.getElem_map]
      have e : (dv.map toRat).length - 1 - (dv.length - (offset - sd) - 1) = offset - sd := by simp; omega
      simp only [e, this, toRat_zero]
    have hDsd : (Q - descPoly (dv.map toRat)).coeff (sd - rd) = Q.coeff (sd - rd) := by
      rw [coeff_sub, hdv0, sub_zero]
    have hRk : ∀ k, rd ≤ k → R.coeff k = 0 := by
      intro k hk'
      refine coeff_eq_zero_of_degree_lt (lt_of_lt_of_le hR ?_)
      rw [degree_eq_natDegree hB0, hBdeg]
      exact_mod_cast hk'
    have hcQ : c.toRat = Q.coeff (sd - rd) * rf.toRat := by
      rw [← hrr.1, coeff_add, hRk sd hle, add_zero, ← hDsd, ← hBrd]
      have := coeff_mul_add_eq_of_natDegree_le (f := Q - descPoly (dv.map toRat)) (g := Bp) (df := sd - rd) (dg := rd)
        (natDegree_le_iff_coeff_eq_zero.2 hDdeg) hBdeg.le
      rwa [Nat.sub_add_cancel hle] at this
    obtain ⟨n, hn⟩ := hQ (sd - rd)
    obtain ⟨hsi, hsv⟩ := int_div hp hw (n := n) hci.1 hrfi.1 hrf0
      (by rw [hcQ, mul_div_cancel_right₀ _ hrf0, hn]) (by rw [← hn]; exact hQsmall _)
    rw [← hn] at hsv
    generalize hs : div c rf = s at hsi hsv
    obtain ⟨T', hfst, hT'B, hS', hA', hunf⟩ := div_step (mulInv_ExB hp hw) hb
      (fun y hy => IntValued_neg y (hbi y hy)) hr hle hoff hlen hz hB hS hA hs hsi
    have hset : descPoly ((dv.set (offset - sd) s).map toRat) =
        descPoly (dv.map toRat) + C (Q.coeff (sd - rd)) * X ^ (sd - rd) := by
      rw [map_set_getD toRat toRat_zero dv _ s hi (hz _ le_rfl), hexp, hsv]
    have hdv' : ∀ j, (descPoly ((dv.set (offset - sd) s).map toRat)).coeff j = 0 ∨
        (descPoly ((dv.set (offset - sd) s).map toRat)).coeff j = Q.coeff j := by
      intro j
      rw [hset, coeff_add, coeff_C_mul, coeff_X_pow]
      by_cases hj : j = sd - rd
      · subst hj; right; rw [hdv0]; simp
      · simpa [hj] using hdv j
    have hdvi' : ∀ x ∈ dv.set (offset - sd) s, x.IntValued := by
      intro x hx
      rcases List.mem_or_eq_of_mem_set hx with h | h
      · exact hdvi x h
      · rw [h]; exact hsi
    obtain ⟨hTi', hTv'⟩ := hstate T' _ (m + 1) hT'B hS' hA' hdv'
    -- the new remainder has lower degree
    have hD' : ∀ j, sd - rd ≤ j → (Q - descPoly ((dv.set (offset - sd) s).map toRat)).coeff j = 0 := by
      intro j hj
      rw [hset, ← sub_sub, coeff_sub, coeff_C_mul, coeff_X_pow]
      by_cases hj' : j = sd - rd
      · subst hj'; rw [hDsd]; simp
      · rw [hDdeg j (by omega)]; simp [hj']
    have hlow : ∀ k, sd ≤ k → (descPoly ((T'.map Prod.fst).map toRat)).coeff k = 0 := by
      intro k hk'
      rw [hTv', coeff_add, hRk k (by omega), add_zero, coeff_mul]
      refine Finset.sum_eq_zero fun x hx => ?_
      rw [Finset.mem_antidiagonal] at hx
      by_cases h : sd - rd ≤ x.1
      · rw [hD' _ h, zero_mul]
      · rw [show Bp.coeff x.2 = 0 from (firstTerm_ratPoly hb).2 _ (by omega), mul_zero]
    -- once all coefficients from `rd` on are gone, the run is complete
    have hdone : (∀ k, rd ≤ k → (descPoly ((T'.map Prod.fst).map toRat)).coeff k = 0) →
        descPoly ((dv.set (offset - sd) s).map toRat) = Q ∧ descPoly ((T'.map Prod.fst).map toRat) = R := by
      intro h
      have hD0 : Q - descPoly ((dv.set (offset - sd) s).map toRat) = 0 := by
        ext j
        by_contra hne
        obtain ⟨k, k1, k2⟩ := quot_coeff hR hne
        rw [← hTv'] at k2
        exact k2 (h k (by omega))
      refine ⟨(sub_eq_zero.1 hD0).symm, ?_⟩
      rw [hTv', hD0, zero_mul, zero_add]
    cases hf : firstTerm (T'.map Prod.fst) with
    | zeroTerm =>
      have h0 := firstTerm_zero_ratPoly hf
      obtain ⟨d1, d2⟩ := hdone (fun k _ => by rw [h0]; simp)
      refine ⟨_, T'.map Prod.fst, ?_, hdvi', hTi', d1, d2⟩
      intro fuel hfuel
      obtain ⟨fuel, rfl⟩ : ∃ k, fuel = k + 1 := ⟨fuel - 1, by omega⟩
      rw [hunf, hf]
    | term c' d' =>
      have hff := firstTerm_ratPoly hf
      have hd' : d' < sd := by
        by_contra hge
        have := hlow d' (by omega)
        rw [hff.1] at this
        obtain ⟨us, u1, _, _, _, u5⟩ := firstTerm_term hf
        have hc' := hTi' c' ((List.dropWhile_suffix isZero).subset (by rw [u1]; simp))
        rw [← isZero_iff_toRat hc'.1, u5] at this
        cases this
      by_cases hle' : rd ≤ d'
      · obtain ⟨dv', rem, k1, k2⟩ := ih d' hd' c' T' (dv.set (offset - sd) s) (m + 1) hf hle' (by omega)
          (by simpa using hlen) (fun i hi' => by
            have hne : offset - sd ≠ i := by omega
            rw [List.getD_eq_getElem?_getD, List.getElem?_set_ne hne, ← List.getD_eq_getElem?_getD]
            exact hz i (by omega)) hT'B hS' hA' hdv' hdvi'
        refine ⟨dv', rem, ?_, k2⟩
        intro fuel hfuel
        obtain ⟨fuel, rfl⟩ : ∃ k, fuel = k + 1 := ⟨fuel - 1, by omega⟩
        rw [hunf, hf]
        exact k1 fuel (by omega)
      · obtain ⟨d1, d2⟩ := hdone (fun k hk' => hff.2 k (by omega))
        refine ⟨_, T'.map Prod.fst, ?_, hdvi', hTi', d1, d2⟩
        intro fuel hfuel
        obtain ⟨fuel, rfl⟩ : ∃ k, fuel = k + 2 := ⟨fuel - 2, by omega⟩
        rw [hunf, hf]
        simp only
        rw [Poly.divModLoop, if_neg hle']

theorem remAssignLoop_of_divMod {b : List (Fl f)} {rf : Fl f} {rd offset : Nat} : ∀ (fuel : Nat) (c : Fl f) (sd : Nat)
    (rem dv dv' rem' : List (Fl f)), Poly.divModLoop b rf rd offset fuel c sd rem dv = .ok (dv', rem') →
    Poly.remAssignLoop b rf rd fuel (div c rf) sd rem = .ok rem'
  | 0, _, _, _, _, _, _, h => by cases h
  | fuel + 1, c, sd, rem, dv, dv', rem', h => by
    unfold Poly.divModLoop at h
    unfold Poly.remAssignLoop
    by_cases hle : rd ≤ sd
    · rw [if_pos hle] at h ⊢
      rw [rdiv_eq, Res.ok_bind] at h
      obtain ⟨out, h1, h2⟩ := Res.bind_eq_ok.1 h
      obtain ⟨i, h3, h4⟩ := Res.bind_eq_ok.1 h2
      rw [h1, Res.ok_bind]
      split at h4
      · cases hf : firstTerm out with
        | zeroTerm =>
          rw [hf] at h4
          cases h4
          rfl
        | term c' d' =>
          rw [hf] at h4
          simp only
          rw [rdiv_eq, Res.ok_bind]
          exact remAssignLoop_of_divMod fuel c' d' out _ dv' rem' h4
      · cases h4
    · rw [if_neg hle] at h ⊢
      cases h
      rfl

/-- C87: division of `Polynomial`s with whole coefficients is exact when the exact quotient has whole
coefficients (for instance when the divisor has leading coefficient ±1 or divides the dividend) and the absolute
values stay below `2^p`: `div_mod` returns within as many rounds as the dividend has coefficients, with the exact
quotient and remainder; `floor_div` and `%=` agree. -/
theorem C87_dense_div (hp : 1 ≤ f.p) (hw : f.p + f.q ≤ f.w) (p b : Poly (Fl f))
    (hpi : ∀ c ∈ p.terms, c.IntValued) (hbi : ∀ c ∈ b.terms, c.IntValued) (Q R : ℚ[X])
    (hPQ : descPoly (p.terms.map toRat) = Q * descPoly (b.terms.map toRat) + R)
    (hR : R.degree < (descPoly (b.terms.map toRat)).degree) (hQ : ∀ k, ∃ n : ℤ, Q.coeff k = n)
    (hk : ∀ k, |(descPoly (p.terms.map toRat)).coeff k| + ∑ x ∈ Finset.antidiagonal k,
      |Q.coeff x.1| * |(descPoly (b.terms.map toRat)).coeff x.2| < 2 ^ f.p) :
    ∃ q r, (∀ fuel, p.terms.length + 1 ≤ fuel → p.divMod fuel b = .ok (q, r) ∧ p.floorDiv fuel b = .ok q) ∧
      (∀ c ∈ q.terms, c.IntValued) ∧ (∀ c ∈ r.terms, c.IntValued) ∧
      descPoly (q.terms.map toRat) = Q ∧ descPoly (r.terms.map toRat) = R ∧
      ∃ r', (∀ fuel, p.terms.length + 1 ≤ fuel → p.remAssign fuel b = .ok r') ∧
        (∀ c ∈ r'.terms, c.IntValued) ∧ descPoly (r'.terms.map toRat) = R := by
  have hB0 : descPoly (b.terms.map toRat) ≠ 0 := by rintro h; rw [h] at hR; simp at hR
  cases hbf : firstTerm b.terms with
  | zeroTerm => exact absurd (firstTerm_zero_ratPoly hbf) hB0
  | term rf rd =>
    have hBdeg : rd ≤ (descPoly (b.terms.map toRat)).natDegree := by
      obtain ⟨ws, b1, _, _, _, b5⟩ := firstTerm_term hbf
      have hrfi := hbi rf ((List.dropWhile_suffix isZero).subset (by rw [b1]; simp))
      refine le_natDegree_of_ne_zero ?_
      rw [(firstTerm_ratPoly hbf).1, Ne, ← isZero_iff_toRat hrfi.1, b5]
      simp
    have trivial_case : (∀ fuel, p.divMod fuel b = .ok (Poly.zero, p)) → (∀ fuel, p.remAssign fuel b = .ok p) →
        (∀ k, rd ≤ k → (descPoly (p.terms.map toRat)).coeff k = 0) →
        ∃ q r, (∀ fuel, p.terms.length + 1 ≤ fuel → p.divMod fuel b = .ok (q, r) ∧ p.floorDiv fuel b = .ok q) ∧
          (∀ c ∈ q.terms, c.IntValued) ∧ (∀ c ∈ r.terms, c.IntValued) ∧
          descPoly (q.terms.map toRat) = Q ∧ descPoly (r.terms.map toRat) = R ∧
          ∃ r', (∀ fuel, p.terms.length + 1 ≤ fuel → p.remAssign fuel b = .ok r') ∧
            (∀ c ∈ r'.terms, c.IntValued) ∧ descPoly (r'.terms.map toRat) = R := by
      intro h1 h2 h3
      have hQ0 : Q = 0 := by
        ext j
        by_contra hne
        obtain ⟨k, k1, k2⟩ := quot_coeff hR hne
        rw [← hPQ] at k2
        exact k2 (h3 k (by omega))
      subst hQ0
      rw [zero_mul, zero_add] at hPQ
      exact ⟨Poly.zero, p, fun fuel _ => ⟨h1 fuel, by simp [Poly.floorDiv, h1]⟩, by simp [Poly.zero], hpi,
        by simp [Poly.zero], hPQ, p, fun fuel _ => h2 fuel, hpi, hPQ⟩
    cases hpf : firstTerm p.terms with
    | zeroTerm =>
      refine trivial_case (fun fuel => by simp [Poly.divMod, hbf, hpf])
        (fun fuel => by simp [Poly.remAssign, hbf, hpf]) (fun k _ => ?_)
      rw [firstTerm_zero_ratPoly hpf]; simp
    | term c d =>
      by_cases hlt : d < rd
      · exact trivial_case (fun fuel => by simp [Poly.divMod, hbf, hpf, hlt])
          (fun fuel => by simp [Poly.remAssign, hbf, hpf, hlt]) (fun k hk' => (firstTerm_ratPoly hpf).2 k (by omega))
      · have hd1 := (firstTerm_term hpf).choose_spec.2.2.1
        have hfst : (p.terms.map fun c => (c, c.toRat, |c.toRat|)).map Prod.fst = p.terms := by
          rw [List.map_map]; exact List.map_id _
        have hrep : ∀ g : Fl f → ℚ, g 0 = 0 → descPoly ((List.replicate (d - rd + 1) (0 : Fl f)).map g) = 0 := by
          intro g hg
          rw [List.map_replicate, hg]
          simp
        -- the polynomial of absolute values of the quotient
        set V : ℚ[X] := ∑ i ∈ Finset.range (Q.natDegree + 1), C |Q.coeff i| * X ^ i with hV
        have hVc : ∀ k, V.coeff k = |Q.coeff k| := by
          intro k
          rw [hV, finsetSum_coeff]
          simp only [coeff_C_mul, coeff_X_pow, mul_ite, mul_one, mul_zero]
          rw [Finset.sum_ite_eq]
          split
          · rfl
          · rename_i h
            rw [Finset.mem_range] at h
            rw [coeff_eq_zero_of_natDegree_lt (by omega), abs_zero]
        obtain ⟨dv', rem, k1, k2, k3, k4, k5⟩ := exact_loop hp hw (b := b.terms) (offset := d) hbf hbi
          (descPoly (p.terms.map toRat)) Q R (descPoly (p.terms.map fun c => |c.toRat|)) V hPQ hR hQ
          (fun k => (hVc k).ge) (fun k => by rw [coeff_dense_abs]; exact abs_nonneg _)
          (fun k => by
            refine lt_of_le_of_lt (le_of_eq ?_) (hk k)
            rw [coeff_add, coeff_dense_abs, coeff_mul]
            congr 1
            exact Finset.sum_congr rfl fun x _ => by rw [hVc, coeff_dense_abs])
          d c (p.terms.map fun c => (c, c.toRat, |c.toRat|)) (List.replicate (d - rd + 1) 0) 0
          (by rw [hfst]; exact hpf) (not_lt.1 hlt) le_rfl (by simp)
          (fun i _ => by
            rw [List.getD_eq_getElem?_getD, List.getElem?_replicate]
            split <;> rfl)
          (by
            intro x hx
            obtain ⟨y, hy, rfl⟩ := List.mem_map.1 hx
            exact ⟨(hpi y hy).2, le_rfl, fun _ => ⟨hpi y hy, rfl⟩⟩)
          (by rw [hrep toRat toRat_zero, List.map_map]; simp [Function.comp_def])
          (by rw [hrep (fun x => |x.toRat|) (by simp), List.map_map]; simp [Function.comp_def])
          (fun j => .inl (by rw [hrep toRat toRat_zero]; simp))
          (by
            intro x hx
            rw [List.eq_of_mem_replicate hx]
            exact ⟨rfl, 0, by simp⟩)
        rw [hfst] at k1
        have hdm : ∀ fuel, p.terms.length + 1 ≤ fuel → p.divMod fuel b = .ok (Poly.new dv', Poly.new rem) := by
          intro fuel hfuel
          unfold Poly.divMod
          rw [hbf, hpf]
          simp only
          rw [if_neg hlt, k1 fuel (by omega)]
          rfl
        refine ⟨Poly.new dv', Poly.new rem, fun fuel hfuel => ⟨hdm fuel hfuel, by simp [Poly.floorDiv, hdm fuel hfuel]⟩,
          ?_, ?_, ?_, ?_, ⟨rem⟩, ?_, k3, k5⟩
        · rw [new_terms]
          exact fun c hc => k2 c ((List.dropWhile_suffix isZero).subset hc)
        · rw [new_terms]
          exact fun c hc => k3 c ((List.dropWhile_suffix isZero).subset hc)
        · rw [new_terms, descPoly_dropWhile_toRat _ toRat_fin_zero, k4]
        · rw [new_terms, descPoly_dropWhile_toRat _ toRat_fin_zero, k5]
        · intro fuel hfuel
          unfold Poly.remAssign
          rw [hbf, hpf]
          simp only
          rw [if_neg hlt, rdiv_eq, Res.ok_bind,
            remAssignLoop_of_divMod fuel c d p.terms _ _ _ (k1 fuel (by omega))]
          rfl

-- 6x^3 - 13x^2 + 19x - 6 = (3x^2 - 5x + 7) (2x - 1) + 1; the divisor has leading coefficient 2
example : (⟨[ofNat 6, -ofNat 13, ofNat 19, -ofNat 6]⟩ : Poly (Fl binary64)).terms.map toRat = [6, -13, 19, -6] ∧
    descPoly ([6, -13, 19, -6] : List ℚ) = descPoly [3, -5, 7] * descPoly (exV.terms.map toRat) + descPoly [1] ∧
    (descPoly ([1] : List ℚ)).degree < (descPoly (exV.terms.map toRat)).degree ∧
    (∀ k, |(descPoly ([6, -13, 19, -6] : List ℚ)).coeff k| + ∑ x ∈ Finset.antidiagonal k,
      |(descPoly ([3, -5, 7] : List ℚ)).coeff x.1| * |(descPoly (exV.terms.map toRat)).coeff x.2| < 2 ^ binary64.p) ∧
    (⟨[ofNat 6, -ofNat 13, ofNat 19, -ofNat 6]⟩ : Poly (Fl binary64)).divMod 5 exV = .ok (exW, ⟨[1]⟩) := by
  refine ⟨by decide +kernel, ?_, ?_, fun k => ?_, by decide +kernel⟩
  · rw [exV_rat]; poly_eq
  · rw [exV_rat]
    refine lt_of_lt_of_eq (b := 1) ?_ ?_
    · refine lt_of_le_of_lt (b := 0) ?_ (by norm_num)
      simp [descPoly_cons]
    · rw [show descPoly ([2, -1] : List ℚ) = C 2 * X + C (-1) by simp [descPoly_cons], degree_linear (by norm_num)]
  · have habs : ∀ l : List ℚ, ∀ j, |(descPoly l).coeff j| = (descPoly (l.map fun x => |x|)).coeff j := by
      intro l j
      rw [coeff_descPoly, coeff_descPoly, ← List.map_reverse, List.getD_eq_getElem?_getD,
        List.getD_eq_getElem?_getD, List.getElem?_map]
      cases l.reverse[j]? <;> simp
    simp only [habs, exV_rat]
    rw [← coeff_mul, ← coeff_add]
    have : descPoly (([6, -13, 19, -6] : List ℚ).map fun x => |x|) +
        descPoly (([3, -5, 7] : List ℚ).map fun x => |x|) * descPoly (([2, -1] : List ℚ).map fun x => |x|) =
        descPoly [12, 26, 38, 13] := by
      rw [show ([6, -13, 19, -6] : List ℚ).map (fun x => |x|) = [6, 13, 19, 6] by decide +kernel,
        show ([3, -5, 7] : List ℚ).map (fun x => |x|) = [3, 5, 7] by decide +kernel,
        show ([2, -1] : List ℚ).map (fun x => |x|) = [2, 1] by decide +kernel]
      poly_eq
    rw [this]
    exact (le_abs_self _).trans_lt (coeff_lt_of_forall (by decide) (by decide +kernel) k)

/-- C87: powers of a `SparsePolynomial` with whole coefficients are exact as long as the power of the polynomial
of absolute values stays below `2^p`. -/
theorem C87_sparse_pow (hp : 1 ≤ f.p) (hw : f.p + f.q ≤ f.w) (p : Sparse (Fl f))
    (hpi : ∀ k c, p.terms.get k = some c → c.IntValued) (n : Nat)
    (hk : ∀ k, (p.absPoly ^ n).coeff k < 2 ^ f.p) :
    (∀ k c, (p.pow n).terms.get k = some c → c.IntValued) ∧ (p.pow n).ratPoly = p.ratPoly ^ n := by
  set A := p.absPoly with hA
  have hPA : ∀ k, |p.ratPoly.coeff k| ≤ A.coeff k := fun k => (coeff_sparse_abs _ k).ge
  have hA1 : ∀ k, 0 ≤ A.coeff k ∧ (A.coeff k ≠ 0 → 1 ≤ A.coeff k) := by
    intro k
    rw [hA, coeff_sparse_abs]
    exact abs_int_cases (sparse_coeff_int hpi k)
  have hB : (0 : ℚ) < 2 ^ f.p := by positivity
  have hmul : ∀ (a b : Sparse (Fl f)) (i j : Nat), (∀ k c, a.terms.get k = some c → c.IntValued) →
      (∀ k c, b.terms.get k = some c → c.IntValued) → a.ratPoly = p.ratPoly ^ i → b.ratPoly = p.ratPoly ^ j →
      (∀ k, (A ^ (i + j)).coeff k < 2 ^ f.p) →
      (∀ k c, (a.mul b).terms.get k = some c → c.IntValued) ∧ (a.mul b).ratPoly = p.ratPoly ^ (i + j) := by
    intro a b i j ha hb ea eb hij
    have := C87_sparse_mul hp hw a b ha hb (fun k => ?_)
    · rw [ea, eb, ← pow_add] at this
      exact this
    · refine lt_of_le_of_lt (le_trans (le_abs_self _) ?_) (hij k)
      rw [pow_add]
      refine coeff_mul_le (fun k => ?_) (fun k => ?_) k
      · rw [coeff_sparse_abs, abs_abs, ea]; exact coeff_pow_le hPA i k
      · rw [coeff_sparse_abs, abs_abs, eb]; exact coeff_pow_le hPA j k
  induction n using Nat.strong_induction_on with
  | _ n ih =>
    rw [Sparse.pow]
    by_cases n0 : n = 0
    · subst n0
      rw [if_pos rfl, pow_zero]
      have hg : ∀ k, (BMap.empty.insert 0 (1 : Fl f)).get k = if k = 0 then some 1 else none := by
        intro k
        rw [BMap.get_insert]
        split <;> rfl
      constructor
      · intro k c hc
        change (BMap.empty.insert 0 (1 : Fl f)).get k = some c at hc
        rw [hg] at hc
        split at hc
        · cases hc
          exact ⟨rfl, 1, by rw [toRat_one]; simp⟩
        · cases hc
      · ext k
        rw [coeff_rat]
        change (match (BMap.empty.insert 0 (1 : Fl f)).get k with | none => 0 | some c => c.toRat) = _
        rw [hg, coeff_one]
        by_cases hk0 : k = 0 <;> simp [hk0, toRat_one]
    by_cases n1 : n = 1
    · subst n1
      rw [if_neg n0, if_pos rfl, pow_one]
      exact ⟨hpi, rfl⟩
    by_cases n2 : n = 2
    · subst n2
      rw [if_neg n0, if_neg n1, if_pos rfl]
      exact hmul p p 1 1 hpi hpi (pow_one _).symm (pow_one _).symm hk
    rw [if_neg n0, if_neg n1, if_neg n2]
    split
    · rename_i he
      obtain ⟨h2, h3⟩ := ih (n / 2) (by omega) (coeff_pow_lt hA1 hB (by omega) (by omega) hk)
      have := hmul _ _ (n / 2) (n / 2) h2 h2 h3 h3 (by rw [show n / 2 + n / 2 = n by omega]; exact hk)
      rw [show n / 2 + n / 2 = n by omega] at this
      have e2 : ∀ h : Sparse (Fl f), h.pow 2 = h.mul h := fun h => by
        rw [Sparse.pow, if_neg (by norm_num), if_neg (by norm_num), if_pos rfl]
      rw [e2]
      exact this
    · obtain ⟨h2, h3⟩ := ih (n - 1) (by omega) (coeff_pow_lt hA1 hB (by omega) (by omega) hk)
      have := hmul p _ 1 (n - 1) hpi h2 (pow_one _).symm h3 (by rw [show 1 + (n - 1) = n by omega]; exact hk)
      rw [show 1 + (n - 1) = n by omega] at this
      exact this

example : (∀ k, (exY.absPoly ^ 2).coeff k < 2 ^ binary64.p) ∧
    (exY.pow 2).terms.entries.map (fun e => (e.1, e.2.toRat)) = [(2, 36), (10, -48), (18, 16)] := by
  refine ⟨fun k => ?_, by decide +kernel⟩
  rw [exY_sq]
  exact (le_abs_self _).trans_lt (coeff_lt_of_forall (by decide) (by decide +kernel) k)

/-! ## Scalars and derivatives -/

/-- C87: multiplication of a `Polynomial` by a whole scalar is exact as long as the result stays below `2^p`, and
so is division when the exact quotients are whole numbers below `2^p`. -/
theorem C87_dense_scalar (hp : 1 ≤ f.p) (hw : f.p + f.q ≤ f.w) (p : Poly (Fl f)) (a : Fl f)
    (hpi : ∀ c ∈ p.terms, c.IntValued) (ha : a.IntValued) :
    ((∀ k, |(descPoly (p.terms.map toRat) * C a.toRat).coeff k| < 2 ^ f.p) →
      ((∀ c ∈ (p.mulScalar a).terms, c.IntValued) ∧
        descPoly ((p.mulScalar a).terms.map toRat) = descPoly (p.terms.map toRat) * C a.toRat) ∧
      (∀ c ∈ (p.mulAssignScalar a).terms, c.IntValued) ∧
        descPoly ((p.mulAssignScalar a).terms.map toRat) = descPoly (p.terms.map toRat) * C a.toRat) ∧
    (∀ Q : ℚ[X], a.toRat ≠ 0 → descPoly (p.terms.map toRat) = Q * C a.toRat →
      (∀ k, (∃ n : ℤ, Q.coeff k = n) ∧ |Q.coeff k| < 2 ^ f.p) →
      (∃ r, p.divScalar a = .ok r ∧ (∀ c ∈ r.terms, c.IntValued) ∧ descPoly (r.terms.map toRat) = Q) ∧
      ∃ r, p.divAssignScalar a = .ok r ∧ (∀ c ∈ r.terms, c.IntValued) ∧ descPoly (r.terms.map toRat) = Q) := by
  constructor
  · intro hb
    have hS : descPoly ((p.terms.map fun c => (c * a, c.toRat * a.toRat)).map Prod.snd) =
        descPoly (p.terms.map toRat) * C a.toRat := by
      rw [← descPoly_map_mul_right, List.map_map, List.map_map]
      rfl
    have e := exact_of_state (T := p.terms.map fun c => (c * a, c.toRat * a.toRat)) (fun x hx => by
      obtain ⟨c, hc, rfl⟩ := List.mem_map.1 hx
      exact Ex_mul hp hw c a (hpi c hc) ha) hS hb
    rw [List.map_map] at e
    refine ⟨⟨?_, ?_⟩, e⟩
    · unfold Poly.mulScalar
      rw [new_terms]
      exact fun c hc => e.1 c ((List.dropWhile_suffix isZero).subset hc)
    · unfold Poly.mulScalar
      rw [new_terms, descPoly_dropWhile_toRat _ toRat_fin_zero]
      exact e.2
  · intro Q ha0 hPQ hQ
    have key : ∀ c ∈ p.terms, (div c a).IntValued ∧ (div c a).toRat = c.toRat / a.toRat := by
      intro c hc
      obtain ⟨k, hk⟩ := coeff_of_mem p.terms c hc toRat
      rw [hPQ, coeff_mul_C] at hk
      obtain ⟨⟨n, hn⟩, hlt⟩ := hQ k
      have e : c.toRat / a.toRat = n := by rw [← hk, mul_div_cancel_right₀ _ ha0, hn]
      rw [e]
      exact int_div hp hw (hpi c hc).1 ha.1 ha0 e (by rw [← hn]; exact hlt)
    have e1 : ∀ c ∈ p.terms.map (fun c => div c a), c.IntValued := by
      intro x hx
      obtain ⟨c, hc, rfl⟩ := List.mem_map.1 hx
      exact (key c hc).1
    have e2 : descPoly ((p.terms.map fun c => div c a).map toRat) = Q := by
      have : (p.terms.map fun c => div c a).map toRat = (p.terms.map toRat).map fun x => x * (a.toRat)⁻¹ := by
        rw [List.map_map, List.map_map]
        exact List.map_congr_left fun c hc => by
          simp only [Function.comp_apply]
          rw [(key c hc).2, div_eq_mul_inv]
      rw [this, descPoly_map_mul_right, hPQ, mul_assoc, ← C_mul, mul_inv_cancel₀ ha0, C_1, mul_one]
    refine ⟨⟨Poly.new (p.terms.map fun c => div c a), ?_, ?_, ?_⟩, ⟨p.terms.map fun c => div c a⟩, ?_, e1, e2⟩
    · unfold Poly.divScalar
      rw [mapM_rdiv]
      rfl
    · rw [new_terms]
      exact fun c hc => e1 c ((List.dropWhile_suffix isZero).subset hc)
    · rw [new_terms, descPoly_dropWhile_toRat _ toRat_fin_zero]
      exact e2
    · unfold Poly.divAssignScalar
      rw [mapM_rdiv]
      rfl

example : (∀ k, |(descPoly (exW.terms.map toRat) * C (ofNat 4 : Fl binary64).toRat).coeff k| < 2 ^ binary64.p) ∧
    (ofNat 4 : Fl binary64).IntValued ∧
    (⟨[ofNat 9, -ofNat 6]⟩ : Poly (Fl binary64)).divScalar (ofNat 3) = .ok ⟨[ofNat 3, -ofNat 2]⟩ := by
  refine ⟨?_, intValued_of (by decide +kernel), by decide +kernel⟩
  rw [exW_rat, show (ofNat 4 : Fl binary64).toRat = 4 by decide +kernel, ← descPoly_map_mul_right]
  exact coeff_lt_of_forall (by decide) (by decide +kernel)
-- the hypotheses of the second part, for the division above
example : (⟨[ofNat 9, -ofNat 6]⟩ : Poly (Fl binary64)).terms.map toRat = [9, -6] ∧
    (ofNat 3 : Fl binary64).toRat = 3 ∧ descPoly ([9, -6] : List ℚ) = descPoly [3, -2] * C 3 ∧
    (∀ k, |(descPoly ([3, -2] : List ℚ)).coeff k| < 2 ^ binary64.p) := by
  refine ⟨by decide +kernel, by decide +kernel, by poly_eq, coeff_lt_of_forall (by decide) (by decide +kernel)⟩

theorem sparse_state_map {v : Fl f → Fl f} {w : ℚ → ℚ} (hw : w 0 = 0) (Q : Fl f × ℚ → Prop) (p r : Sparse (Fl f))
    (P : ℚ[X]) (hP : ∀ k, P.coeff k = w (p.ratPoly.coeff k)) (hr : ∀ k, r.terms.get k = (p.terms.get k).map v)
    (hv : ∀ k c, p.terms.get k = some c → Q (v c, w c.toRat)) : Sparse_state Q r P := by
  intro k
  rw [hr, hP, coeff_rat]
  cases hc : p.terms.get k with
  | none => simpa using hw
  | some c => exact hv k c hc

/-- C87: the same for `SparsePolynomial`s. -/
theorem C87_sparse_scalar (hp : 1 ≤ f.p) (hw : f.p + f.q ≤ f.w) (p : Sparse (Fl f)) (a : Fl f)
    (hpi : ∀ k c, p.terms.get k = some c → c.IntValued) (ha : a.IntValued) :
    ((∀ k, |p.ratPoly.coeff k * a.toRat| < 2 ^ f.p) →
      ((∀ k c, (p.mulScalar a).terms.get k = some c → c.IntValued) ∧
        (p.mulScalar a).ratPoly = p.ratPoly * C a.toRat) ∧
      (∀ k c, (p.mulAssignScalar a).terms.get k = some c → c.IntValued) ∧
        (p.mulAssignScalar a).ratPoly = p.ratPoly * C a.toRat) ∧
    (∀ Q : ℚ[X], a.toRat ≠ 0 → p.ratPoly = Q * C a.toRat →
      (∀ k, (∃ n : ℤ, Q.coeff k = n) ∧ |Q.coeff k| < 2 ^ f.p) →
      (∃ r, p.divScalar a = .ok r ∧ (∀ k c, r.terms.get k = some c → c.IntValued) ∧ r.ratPoly = Q) ∧
      ∃ r, p.divAssignScalar a = .ok r ∧ (∀ k c, r.terms.get k = some c → c.IntValued) ∧ r.ratPoly = Q) := by
  constructor
  · intro hb
    have hb' : ∀ k, |(p.ratPoly * C a.toRat).coeff k| < 2 ^ f.p := fun k => by rw [coeff_mul_C]; exact hb k
    exact ⟨exact_of_sparse (sparse_state_map (v := (· * a)) (w := (· * a.toRat)) (by simp) Ex p _ _
        (fun k => coeff_mul_C _ _ _) (get_rebuild (· * a) p.terms) (fun k c hc => Ex_mul hp hw c a (hpi k c hc) ha)) hb',
      exact_of_sparse (sparse_state_map (v := (· * a)) (w := (· * a.toRat)) (by simp) Ex p _ _
        (fun k => coeff_mul_C _ _ _) (get_mapVals (· * a) p.terms) (fun k c hc => Ex_mul hp hw c a (hpi k c hc) ha)) hb'⟩
  · intro Q ha0 hPQ hQ
    have hQc : ∀ k, Q.coeff k = p.ratPoly.coeff k / a.toRat := by
      intro k
      rw [hPQ, coeff_mul_C, mul_div_cancel_right₀ _ ha0]
    have key : ∀ k c, p.terms.get k = some c → Ex (div c a, c.toRat / a.toRat) := by
      intro k c hc
      have e : c.toRat = p.ratPoly.coeff k := by rw [coeff_rat, hc]
      rw [e, ← hQc]
      obtain ⟨⟨n, hn⟩, hlt⟩ := hQ k
      refine ⟨⟨n, hn⟩, fun _ => ?_⟩
      have := int_div hp hw (n := n) (hpi k c hc).1 ha.1 ha0 (by rw [e, ← hQc, hn]) (by rw [← hn]; exact hlt)
      rw [← hn] at this
      exact this
    constructor
    · refine ⟨⟨p.terms.entries.foldl (fun m e => m.insert e.1 (div e.2 a)) .empty⟩, ?_, ?_⟩
      · unfold Sparse.divScalar
        rw [foldlM_ok _ _ (fun m e => m.insert e.1 (div e.2 a))]
        · rfl
        · exact fun e _ m => rfl
      · exact exact_of_sparse (sparse_state_map (v := fun c => div c a) (w := (· / a.toRat)) (by simp) Ex p _ Q hQc
          (get_rebuild (fun c => div c a) p.terms) key) (fun k => (hQ k).2)
    · refine ⟨⟨p.terms.entries.foldl (fun m e => m.insert e.1 (div e.2 a)) p.terms⟩, ?_, ?_⟩
      · unfold Sparse.divAssignScalar
        rw [foldlM_ok _ _ (fun m e => m.insert e.1 (div e.2 a))]
        · rfl
        · exact fun e _ m => rfl
      · exact exact_of_sparse (sparse_state_map (v := fun c => div c a) (w := (· / a.toRat)) (by simp) Ex p _ Q hQc
          (get_rewrite (fun c => div c a) p.terms) key) (fun k => (hQ k).2)

example : (∀ k, |exY.ratPoly.coeff k * (ofNat 5 : Fl binary64).toRat| < 2 ^ binary64.p) ∧
    exY.ratPoly = (C 2 * X ^ 9 - C 3 * X) * C (ofNat 2 : Fl binary64).toRat ∧
    (exY.divScalar (ofNat 2)).bind (fun r => .ok (r.terms.entries.map fun e => (e.1, e.2.toRat))) =
      .ok [(1, -3), (9, 2)] := by
  refine ⟨fun k => ?_, ?_, by decide +kernel⟩
  · rw [exY_rat, show (ofNat 5 : Fl binary64).toRat = 5 by decide +kernel, ← coeff_mul_C,
      show ((C 4 * X ^ 9 - C 6 * X) * C 5 : ℚ[X]) = descPoly [20, 0, 0, 0, 0, 0, 0, 0, -30, 0] by
        poly_eq]
    exact coeff_lt_of_forall (by decide) (by decide +kernel) k
  · rw [exY_rat, show (ofNat 2 : Fl binary64).toRat = 2 by decide +kernel]
    poly_eq

/-- C87: the derivative of a `Polynomial<f64>` or `Polynomial<f32>` with whole coefficients is exact as long as it
stays below `2^53` or `2^24`. -/
theorem C87_dense_derivative (p r : Poly (Fl binary64)) (p' r' : Poly (Fl binary32)) :
    (p.derivative = .ok r → (∀ c ∈ p.terms, c.IntValued) →
      (∀ k, |(derivative (descPoly (p.terms.map toRat))).coeff k| < 2 ^ 53) →
      (∀ c ∈ r.terms, c.IntValued) ∧ descPoly (r.terms.map toRat) = derivative (descPoly (p.terms.map toRat))) ∧
    (p'.derivative = .ok r' → (∀ c ∈ p'.terms, c.IntValued) →
      (∀ k, |(derivative (descPoly (p'.terms.map toRat))).coeff k| < 2 ^ 24) →
      (∀ c ∈ r'.terms, c.IntValued) ∧
        descPoly (r'.terms.map toRat) = derivative (descPoly (p'.terms.map toRat))) := by
  constructor
  · intro h hpi hb
    obtain ⟨T, h1, h2, h3⟩ := derivative_state countLaw64 (by decide) (by decide) Ex IntValued
      (fun x y n hx hy hn => Ex_mul_nat (by decide) (by decide) x y n hx hy hn) p r h hpi
    rw [h1]
    exact exact_of_state h2 h3 hb
  · intro h hpi hb
    obtain ⟨T, h1, h2, h3⟩ := derivative_state countLaw32 (by decide) (by decide) Ex IntValued
      (fun x y n hx hy hn => Ex_mul_nat (by decide) (by decide) x y n hx hy hn) p' r' h hpi
    rw [h1]
    exact exact_of_state h2 h3 hb

example : (∀ k, |(derivative (descPoly (exW.terms.map toRat))).coeff k| < 2 ^ 53) ∧
    exW.derivative = .ok ⟨[ofNat 6, -ofNat 5]⟩ := by
  refine ⟨?_, by decide +kernel⟩
  rw [exW_rat, show derivative (descPoly ([3, -5, 7] : List ℚ)) = descPoly [6, -5] by
    simp [descPoly_cons]; poly_eq]
  exact coeff_lt_of_forall (by decide) (by decide +kernel)

/-- C87: the same for `SparsePolynomial`s (without degree `usize::MAX`, see C41). -/
theorem C87_sparse_derivative (p r : Sparse (Fl binary64)) (p' r' : Sparse (Fl binary32)) :
    (p.derivative = .ok r → (∀ e ∈ p.terms.entries, e.1 < 2 ^ 64 - 1) →
      (∀ k c, p.terms.get k = some c → c.IntValued) → (∀ k, |(derivative p.ratPoly).coeff k| < 2 ^ 53) →
      (∀ k c, r.terms.get k = some c → c.IntValued) ∧ r.ratPoly = derivative p.ratPoly) ∧
    (p'.derivative = .ok r' → (∀ e ∈ p'.terms.entries, e.1 < 2 ^ 64 - 1) →
      (∀ k c, p'.terms.get k = some c → c.IntValued) → (∀ k, |(derivative p'.ratPoly).coeff k| < 2 ^ 24) →
      (∀ k c, r'.terms.get k = some c → c.IntValued) ∧ r'.ratPoly = derivative p'.ratPoly) := by
  constructor
  · intro h hk hpi hb
    exact exact_of_sparse (sparse_derivative_state exactLaw64 Ex IntValued
      (fun x y n hx hy hn => Ex_mul_nat (by decide) (by decide) x y n hx hy hn) p r h hk hpi) hb
  · intro h hk hpi hb
    exact exact_of_sparse (sparse_derivative_state exactLaw32 Ex IntValued
      (fun x y n hx hy hn => Ex_mul_nat (by decide) (by decide) x y n hx hy hn) p' r' h hk hpi) hb

example : (∀ e ∈ exY.terms.entries, e.1 < 2 ^ 64 - 1) ∧ (∀ k, |(derivative exY.ratPoly).coeff k| < 2 ^ 53) ∧
    exY.derivative.bind (fun r => .ok (r.terms.entries.map fun e => (e.1, e.2.toRat))) = .ok [(0, -6), (8, 36)] := by
  refine ⟨by decide +kernel, ?_, by decide +kernel⟩
  rw [exY_rat, show derivative (C 4 * X ^ 9 - C 6 * X : ℚ[X]) = descPoly [36, 0, 0, 0, 0, 0, 0, 0, -6] by
    simp; poly_eq]
  exact coeff_lt_of_forall (by decide) (by decide +kernel)

end Fl
end Rustnomial
