import Verif.SpecFloatCast
import Verif.Props.FloatBuild
import Verif.Props.Upcast

/-!
# C92: operations that only move coefficients, and casts to wider formats
-/

set_option linter.unusedVariables false

open Polynomial

namespace Rustnomial
namespace Fl
variable {f g : FlFmt}

/-! ## Casts -/

theorem wider_f32_f64 : Wider binary32 binary64 := ⟨by decide, by decide, by decide⟩
theorem doubleWide_f32_f64 : DoubleWide binary32 binary64 := ⟨by decide, by decide, by decide⟩

theorem widen_val (h : f.q ≤ g.q) (x : Fl f) : (x.widen : Fl g).toRat = x.toRat := by
  cases x with
  | nan => rfl
  | inf s => rfl
  | fin s a =>
    simp only [widen, toRat]
    congr 1
    push_cast
    rw [div_eq_div_iff (by positivity) (by positivity), mul_assoc, ← pow_add, Nat.sub_add_cancel h]

theorem widen_finite (x : Fl f) : (x.widen : Fl g).isFinite = x.isFinite := by cases x <;> rfl

theorem widen_isZero (x : Fl f) : isZero (x.widen : Fl g) = isZero x := by
  rw [Bool.eq_iff_iff, isZero_iff, isZero_iff]
  cases x with
  | nan => simp [widen]
  | inf s => simp [widen]
  | fin s a => simp [widen]

/-- C92: casting to a wider format changes neither the value nor the class (finite, infinite, NaN) of a number, gives a
number of the wider format, and keeps `==` and the zero test. -/
theorem C92_widen (h : Wider f g) (x y : Fl f) :
    (x.widen : Fl g).toRat = x.toRat ∧ (x.widen : Fl g).isFinite = x.isFinite ∧
    ((x.widen : Fl g) = .nan ↔ x = .nan) ∧ (∀ s, (x.widen : Fl g) = .inf s ↔ x = .inf s) ∧
    (x.Valid → (x.widen : Fl g).Valid) ∧ isZero (x.widen : Fl g) = isZero x ∧
    ((x.widen : Fl g) == y.widen) = (x == y) := by
  refine ⟨widen_val h.q x, widen_finite x, by cases x <;> simp [widen], by cases x <;> simp [widen], ?_,
    widen_isZero x, ?_⟩
  · intro hx
    cases x with
    | nan => trivial
    | inf s => trivial
    | fin s a =>
      obtain ⟨⟨k, e, hk, rfl⟩, ha⟩ := hx
      refine ⟨⟨k, e + (g.q - f.q), hk.trans_le (Nat.pow_le_pow_right (by norm_num) h.p), by rw [pow_add]; ring⟩, ?_⟩
      calc k * 2 ^ e * 2 ^ (g.q - f.q) < 2 ^ f.w * 2 ^ (g.q - f.q) := Nat.mul_lt_mul_of_pos_right ha (by positivity)
        _ = 2 ^ (f.w + (g.q - f.q)) := (pow_add ..).symm
        _ ≤ 2 ^ g.w := Nat.pow_le_pow_right (by norm_num) h.w
  · cases x with
    | nan => cases y <;> rfl
    | inf s => cases y <;> rfl
    | fin s a =>
      cases y with
      | nan => rfl
      | inf t => rfl
      | fin t b =>
        show beq (fin s (a * 2 ^ (g.q - f.q)) : Fl g) (fin t (b * 2 ^ (g.q - f.q))) = beq (fin s a : Fl f) (fin t b)
        have h2 : (2 ^ (g.q - f.q) : Nat) ≠ 0 := by positivity
        have e1 : (a * 2 ^ (g.q - f.q) == b * 2 ^ (g.q - f.q)) = (a == b) := by
          rw [Bool.eq_iff_iff]; simp
        have e2 : (a * 2 ^ (g.q - f.q) == 0) = (a == 0) := by
          rw [Bool.eq_iff_iff]; simp
        simp only [beq, e1, e2]

/-- C92: the product of two numbers cast to a format of more than twice the size is exact, whatever the numbers: no
rounding, no overflow, no underflow.  `f64` is such a format for `f32`. -/
theorem C92_widen_mul (hp : 1 ≤ g.p) (hw : g.p ≤ g.w) (h : DoubleWide f g) (x y : Fl f) (hx : x.isFinite = true)
    (hy : y.isFinite = true) (hxv : x.Valid) (hyv : y.Valid) :
    ((x.widen : Fl g) * y.widen).isFinite = true ∧ ((x.widen : Fl g) * y.widen).toRat = x.toRat * y.toRat := by
  have hq : f.q ≤ g.q := by have := h.q; omega
  have hex : (x.widen : Fl g).toRat * (y.widen : Fl g).toRat = x.toRat * y.toRat := by
    rw [widen_val hq, widen_val hq]
  cases x with
  | nan => cases hx
  | inf s => cases hx
  | fin s a =>
    cases y with
    | nan => cases hy
    | inf t => cases hy
    | fin t b =>
      obtain ⟨⟨k, e, hk, rfl⟩, ha⟩ := hxv
      obtain ⟨⟨l, i, hl, rfl⟩, hb⟩ := hyv
      have hz : (fin (s != t) (k * 2 ^ e * (l * 2 ^ i) * 2 ^ (g.q - 2 * f.q)) : Fl g).Valid := by
        constructor
        · refine ⟨k * l, e + i + (g.q - 2 * f.q), ?_, by rw [pow_add, pow_add]; ring⟩
          calc k * l < 2 ^ f.p * 2 ^ f.p := Nat.mul_lt_mul'' hk hl
            _ = 2 ^ (2 * f.p) := by rw [← pow_add]; congr 1; omega
            _ ≤ 2 ^ g.p := Nat.pow_le_pow_right (by norm_num) h.p
        · calc k * 2 ^ e * (l * 2 ^ i) * 2 ^ (g.q - 2 * f.q)
              < 2 ^ f.w * 2 ^ f.w * 2 ^ (g.q - 2 * f.q) :=
                Nat.mul_lt_mul_of_pos_right (Nat.mul_lt_mul'' ha hb) (by positivity)
            _ = 2 ^ (2 * f.w + (g.q - 2 * f.q)) := by rw [← pow_add, ← pow_add]; congr 1; omega
            _ ≤ 2 ^ g.w := Nat.pow_le_pow_right (by norm_num) h.w
      have hzr : (fin s (k * 2 ^ e) : Fl f).toRat * (fin t (l * 2 ^ i) : Fl f).toRat =
          (fin (s != t) (k * 2 ^ e * (l * 2 ^ i) * 2 ^ (g.q - 2 * f.q)) : Fl g).toRat := by
        have e1 : (2 : ℚ) ^ g.q = 2 ^ (g.q - 2 * f.q) * (2 ^ f.q * 2 ^ f.q) := by
          rw [← pow_add, ← pow_add]; congr 1; have := h.q; omega
        simp only [toRat]
        push_cast
        rw [e1]
        cases s <;> cases t <;> simp <;> field_simp
      have hfin : ((widen (fin s (k * 2 ^ e) : Fl f) : Fl g) * widen (fin t (l * 2 ^ i) : Fl f)).isFinite = true := by
        refine (C65_no_overflow hp hw _ _ rfl rfl).2.1 ?_
        rw [hex, hzr]
        exact valid_le_max hw hz rfl
      refine ⟨hfin, ?_⟩
      rw [(C65_exact hp _ _ _ hz rfl).2 hfin (by rw [hex, hzr]), hzr]

/-- C92: an integer of at most `p` bits (or the power of two above) is cast exactly. -/
theorem C92_of_int (hp : 1 ≤ f.p) (hw : f.p + f.q < f.w) (v : ℤ) (h : |v| ≤ 2 ^ f.p) :
    (ofInt v : Fl f).isFinite = true ∧ (ofInt v : Fl f).Valid ∧ (ofInt v : Fl f).toRat = v := by
  have hn : v.natAbs ≤ 2 ^ f.p := by
    have : (v.natAbs : ℤ) ≤ ((2 ^ f.p : Nat) : ℤ) := by rw [Int.natCast_natAbs]; push_cast; exact h
    exact_mod_cast this
  have hr : roundNat f.p v.natAbs = v.natAbs := roundNat_of_representable (representable_le hn hp)
  have hlt : v.natAbs * 2 ^ f.q < 2 ^ f.w := by
    calc v.natAbs * 2 ^ f.q ≤ 2 ^ f.p * 2 ^ f.q := Nat.mul_le_mul_right _ hn
      _ = 2 ^ (f.p + f.q) := (pow_add ..).symm
      _ < 2 ^ f.w := Nat.pow_lt_pow_right (by norm_num) hw
  have he : (ofNat v.natAbs : Fl f) = .fin false (v.natAbs * 2 ^ f.q) := by
    unfold ofNat pack
    rw [hr, if_pos hlt]
  have hval : (ofNat v.natAbs : Fl f).toRat = |(v : ℚ)| := by
    have h2 : (2 : ℚ) ^ f.q ≠ 0 := by positivity
    rw [he]
    simp only [toRat]
    push_cast
    rw [Nat.cast_natAbs]
    push_cast
    rw [mul_div_assoc, div_self h2]
    simp
  have hv := valid_ofNat hp v.natAbs
  unfold ofInt
  split
  · rename_i hneg
    refine ⟨by rw [isFinite_neg, he]; rfl, valid_neg hv, ?_⟩
    rw [toRat_neg, hval, abs_of_neg (by exact_mod_cast hneg), neg_neg]
  · rename_i hneg
    exact ⟨by rw [he]; rfl, hv, by rw [hval, abs_of_nonneg (by exact_mod_cast not_lt.1 hneg)]⟩

/-- C92: the integer types of the `upcast!` table which can be cast to `f32` or `f64` are cast exactly. -/
theorem C92_table (t : IntTy) (v : ℤ) (hv : t.InRange v) :
    ((.int t, .f32) ∈ upcastTable → (ofInt v : Fl binary32).isFinite = true ∧ (ofInt v : Fl binary32).toRat = v) ∧
    ((.int t, .f64) ∈ upcastTable → (ofInt v : Fl binary64).isFinite = true ∧ (ofInt v : Fl binary64).toRat = v) := by
  constructor
  · intro h
    have := upcastTable_ok _ h
    simp only [entryOk, decide_eq_true_eq] at this
    obtain ⟨h1, -, h2⟩ := C92_of_int (f := binary32) (by decide) (by decide) v
      (abs_le.2 ⟨by have := this.1.trans_le hv.1; exact this.le, by have := hv.2.trans_lt this.2; exact this.le⟩)
    exact ⟨h1, h2⟩
  · intro h
    have := upcastTable_ok _ h
    simp only [entryOk, decide_eq_true_eq] at this
    obtain ⟨h1, -, h2⟩ := C92_of_int (f := binary64) (by decide) (by decide) v
      (abs_le.2 ⟨by have := this.1.trans_le hv.1; exact this.le, by have := hv.2.trans_lt this.2; exact this.le⟩)
    exact ⟨h1, h2⟩

/-- A cast applied to the coefficients of the five types, with the values it gives. -/
theorem upcast_gen {A : Type} (cast : A → Fl g) (val : A → ℚ) :
    (∀ p : Poly A, (∀ c ∈ p.terms, (cast c).toRat = val c) →
      descPoly ((p.upcast cast).terms.map toRat) = descPoly (p.terms.map val) ∧
      ((∀ c ∈ (p.upcast cast).terms, c.isFinite = true) ↔ ∀ c ∈ p.terms, (cast c).isFinite = true)) ∧
    (∀ p : Sparse A, (p.upcast cast).terms.entries = p.terms.entries.map fun e => (e.1, cast e.2)) := by
  refine ⟨fun p h => ?_, fun p => ?_⟩
  · have he : (p.upcast cast).terms = (p.terms.map cast).dropWhile isZero := by
      unfold Poly.upcast; rw [new_terms]
    rw [he]
    constructor
    · rw [descPoly_dropWhile_toRat toRat (fun s => toRat_fin_zero s), List.map_map]
      exact congrArg descPoly (List.map_congr_left h)
    · constructor
      · intro hf c hc
        exact finite_of_dropWhile hf _ (List.mem_map_of_mem hc)
      · intro hf c hc
        obtain ⟨a, ha, rfl⟩ := List.mem_map.1 (List.dropWhile_subset _ hc)
        exact hf a ha
  · unfold Sparse.upcast Sparse.new
    refine ofList_entries _ ?_
    rw [List.pairwise_map]
    exact p.terms.sorted

theorem dropWhile_map {A B : Type} (h : A → B) (P : A → Bool) (Q : B → Bool) (hPQ : ∀ a, Q (h a) = P a) (l : List A) :
    (l.map h).dropWhile Q = (l.dropWhile P).map h := by
  induction l with
  | nil => rfl
  | cons a l ih =>
    rw [List.map_cons, List.dropWhile_cons, List.dropWhile_cons, hPQ, ih]
    split <;> rfl

/-- C92: `From<P<f32>> for P<f64>` for the five types: exactly the same polynomial, with finite coefficients if and only
if they were finite.  `Polynomial` drops leading zeros, `SparsePolynomial` keeps all entries. -/
theorem C92_upcast_float (h : Wider f g) (p : Poly (Fl f)) (s : Sparse (Fl f)) (m : Monomial (Fl f))
    (b : LinearBinomial (Fl f)) (t : QuadraticTrinomial (Fl f)) :
    (FloatSink.ratPoly (p.upcast widen : Poly (Fl g)) = FloatSink.ratPoly p ∧
      (FloatSink.AllFinite (p.upcast widen : Poly (Fl g)) ↔ FloatSink.AllFinite p) ∧
      (p.upcast widen : Poly (Fl g)).terms = p.trim.terms.map widen) ∧
    (FloatSink.ratPoly (s.upcast widen : Sparse (Fl g)) = FloatSink.ratPoly s ∧
      (FloatSink.AllFinite (s.upcast widen : Sparse (Fl g)) ↔ FloatSink.AllFinite s) ∧
      (s.upcast widen : Sparse (Fl g)).terms.entries = s.terms.entries.map fun e => (e.1, e.2.widen)) ∧
    (FloatSink.ratPoly (m.upcast widen : Monomial (Fl g)) = FloatSink.ratPoly m ∧
      (FloatSink.AllFinite (m.upcast widen : Monomial (Fl g)) ↔ FloatSink.AllFinite m)) ∧
    (FloatSink.ratPoly (b.upcast widen : LinearBinomial (Fl g)) = FloatSink.ratPoly b ∧
      (FloatSink.AllFinite (b.upcast widen : LinearBinomial (Fl g)) ↔ FloatSink.AllFinite b)) ∧
    (FloatSink.ratPoly (t.upcast widen : QuadraticTrinomial (Fl g)) = FloatSink.ratPoly t ∧
      (FloatSink.AllFinite (t.upcast widen : QuadraticTrinomial (Fl g)) ↔ FloatSink.AllFinite t)) := by
  have hv := fun x : Fl f => widen_val (g := g) h.q x
  have hf := fun x : Fl f => widen_finite (g := g) x
  obtain ⟨h1, h2⟩ := upcast_gen (g := g) (A := Fl f) widen toRat
  refine ⟨⟨(h1 p fun c _ => hv c).1, (h1 p fun c _ => hv c).2.trans (by simp only [hf]; rfl), ?_⟩, ⟨?_, ?_, h2 s⟩,
    ⟨?_, ?_⟩, ⟨?_, ?_⟩, ⟨?_, ?_⟩⟩
  · show (Poly.new _).terms = _
    rw [new_terms, trim_terms]
    exact dropWhile_map _ _ _ widen_isZero _
  · show Sparse.ratPoly _ = Sparse.ratPoly _
    unfold Sparse.ratPoly
    rw [h2 s, List.map_map]
    simp only [Function.comp_def, hv]
  · show Sparse.AllFinite _ ↔ Sparse.AllFinite _
    unfold Sparse.AllFinite
    rw [h2 s, List.forall_mem_map]
    simp only [hf]
  · show C (m.coefficient.widen : Fl g).toRat * X ^ m.deg = C m.coefficient.toRat * X ^ m.deg
    rw [hv]
  · show (m.coefficient.widen : Fl g).isFinite = true ↔ m.coefficient.isFinite = true
    rw [hf]
  · show C (b.c0.widen : Fl g).toRat * X + C (b.c1.widen : Fl g).toRat = C b.c0.toRat * X + C b.c1.toRat
    rw [hv, hv]
  · show (b.c0.widen : Fl g).isFinite = true ∧ (b.c1.widen : Fl g).isFinite = true ↔ b.c0.isFinite = true ∧ b.c1.isFinite = true
    rw [hf, hf]
  · show C (t.c0.widen : Fl g).toRat * X ^ 2 + C (t.c1.widen : Fl g).toRat * X + C (t.c2.widen : Fl g).toRat =
      C t.c0.toRat * X ^ 2 + C t.c1.toRat * X + C t.c2.toRat
    rw [hv, hv, hv]
  · show ((t.c0.widen : Fl g).isFinite = true ∧ (t.c1.widen : Fl g).isFinite = true ∧ (t.c2.widen : Fl g).isFinite = true) ↔
      t.c0.isFinite = true ∧ t.c1.isFinite = true ∧ t.c2.isFinite = true
    rw [hf, hf, hf]

/-- C92: the same from integers: casting coefficients of at most `p` bits to a float format gives exactly the same
polynomial, for the five types. -/
theorem C92_upcast_int (hp : 1 ≤ g.p) (hw : g.p + g.q < g.w) (p : Poly ℤ) (s : Sparse ℤ) (m : Monomial ℤ)
    (b : LinearBinomial ℤ) (t : QuadraticTrinomial ℤ) :
    ((∀ c ∈ p.terms, |c| ≤ 2 ^ g.p) → FloatSink.AllFinite (p.upcast ofInt : Poly (Fl g)) ∧
      FloatSink.ratPoly (p.upcast ofInt : Poly (Fl g)) = (descPoly p.terms).map (Int.castRingHom ℚ)) ∧
    ((∀ e ∈ s.terms.entries, |e.2| ≤ 2 ^ g.p) → FloatSink.AllFinite (s.upcast ofInt : Sparse (Fl g)) ∧
      FloatSink.ratPoly (s.upcast ofInt : Sparse (Fl g)) = (entriesPoly s.terms.entries).map (Int.castRingHom ℚ)) ∧
    (|m.coefficient| ≤ 2 ^ g.p → FloatSink.AllFinite (m.upcast ofInt : Monomial (Fl g)) ∧
      FloatSink.ratPoly (m.upcast ofInt : Monomial (Fl g)) = m.poly.map (Int.castRingHom ℚ)) ∧
    (|b.c0| ≤ 2 ^ g.p → |b.c1| ≤ 2 ^ g.p → FloatSink.AllFinite (b.upcast ofInt : LinearBinomial (Fl g)) ∧
      FloatSink.ratPoly (b.upcast ofInt : LinearBinomial (Fl g)) = b.poly.map (Int.castRingHom ℚ)) ∧
    (|t.c0| ≤ 2 ^ g.p → |t.c1| ≤ 2 ^ g.p → |t.c2| ≤ 2 ^ g.p →
      FloatSink.AllFinite (t.upcast ofInt : QuadraticTrinomial (Fl g)) ∧
      FloatSink.ratPoly (t.upcast ofInt : QuadraticTrinomial (Fl g)) = t.poly.map (Int.castRingHom ℚ)) := by
  have hc := fun v h => C92_of_int (f := g) hp hw v h
  obtain ⟨h1, h2⟩ := upcast_gen (g := g) (A := ℤ) ofInt (fun v => (v : ℚ))
  have hmap : ∀ l : List ℤ, descPoly (l.map fun v : ℤ => (v : ℚ)) = (descPoly l).map (Int.castRingHom ℚ) := by
    intro l
    induction l with
    | nil => simp [descPoly]
    | cons c l ih => rw [List.map_cons, descPoly_cons, descPoly_cons, ih]; simp
  refine ⟨fun h => ?_, fun h => ?_, fun h => ?_, fun h0 h1 => ?_, fun h0 h1 h2 => ?_⟩
  · obtain ⟨e1, e2⟩ := h1 p fun c hx => (hc c (h c hx)).2.2
    exact ⟨e2.2 fun c hx => (hc c (h c hx)).1, e1.trans (hmap _)⟩
  · constructor
    · show Sparse.AllFinite _
      unfold Sparse.AllFinite
      rw [h2 s]
      intro e he
      obtain ⟨a, ha, rfl⟩ := List.mem_map.1 he
      exact (hc _ (h a ha)).1
    · show Sparse.ratPoly _ = _
      unfold Sparse.ratPoly
      rw [h2 s, List.map_map]
      have : s.terms.entries.map ((fun e : Nat × Fl g => (e.1, e.2.toRat)) ∘ fun e => (e.1, ofInt e.2)) =
          s.terms.entries.map fun e => (e.1, (e.2 : ℚ)) :=
        List.map_congr_left fun e he => by rw [Function.comp_apply, (hc _ (h e he)).2.2]
      rw [this]
      clear this h
      induction s.terms.entries with
      | nil => simp [entriesPoly]
      | cons e l ih => rw [List.map_cons, entriesPoly_cons, entriesPoly_cons, ih]; simp
  · refine ⟨(hc _ h).1, ?_⟩
    show C (ofInt m.coefficient : Fl g).toRat * X ^ m.deg = _
    rw [(hc _ h).2.2]
    simp [Monomial.poly]
  · refine ⟨⟨(hc _ h0).1, (hc _ h1).1⟩, ?_⟩
    show C (ofInt b.c0 : Fl g).toRat * X + C (ofInt b.c1 : Fl g).toRat = _
    rw [(hc _ h0).2.2, (hc _ h1).2.2]
    simp [LinearBinomial.poly]
  · refine ⟨⟨(hc _ h0).1, (hc _ h1).1, (hc _ h2).1⟩, ?_⟩
    show C (ofInt t.c0 : Fl g).toRat * X ^ 2 + C (ofInt t.c1 : Fl g).toRat * X + C (ofInt t.c2 : Fl g).toRat = _
    rw [(hc _ h0).2.2, (hc _ h1).2.2, (hc _ h2).2.2]
    simp [QuadraticTrinomial.poly]

/-! ## Shifts -/

/-- C92: the shifts of `Polynomial` in floating point.  They multiply and divide by powers of `x` exactly, and every
stored coefficient of the result is one of the operand, bit for bit, or `+0.0`.  `<<` and `>>` drop leading zeros first,
`<<=` and `>>=` do not.  `>>` by `k` panics exactly if `k` is more than the number of coefficients without leading
zeros but not more than the number of stored ones. -/
theorem C92_dense_shift (p : Poly (Fl f)) (k : Nat) (hk : k < 2 ^ 31) :
    (∃ r, p.shlAssign k = .ok r ∧ (0 < k → p.shrAssign (-k) = .ok r) ∧ FloatSink.ratPoly r = FloatSink.ratPoly p * X ^ k ∧
      ∀ c ∈ r.terms, c ∈ p.terms ∨ c = 0) ∧
    (∃ r, p.shl k = .ok r ∧ (0 < k → p.shr (-k) = .ok r) ∧ FloatSink.ratPoly r = FloatSink.ratPoly p * X ^ k ∧
      ∀ c ∈ r.terms, c ∈ p.terms ∨ c = 0) ∧
    (∃ r, p.shrAssign k = .ok r ∧ (0 < k → p.shlAssign (-k) = .ok r) ∧
      IsShiftRight (FloatSink.ratPoly p) (FloatSink.ratPoly r) k ∧ ∀ c ∈ r.terms, c ∈ p.terms) ∧
    ((p.shr k = .panic ↔ (p.terms.dropWhile isZero).length < k ∧ k ≤ p.terms.length) ∧
      (p.shr k ≠ .panic → ∃ r, p.shr k = .ok r ∧ (0 < k → p.shl (-k) = .ok r) ∧
        IsShiftRight (FloatSink.ratPoly p) (FloatSink.ratPoly r) k ∧ ∀ c ∈ r.terms, c ∈ p.terms)) := by
  have hz : ∀ l : List (Fl f), descPoly ((l ++ List.replicate k 0).map toRat) = descPoly (l.map toRat) * X ^ k := by
    intro l
    rw [List.map_append, List.map_replicate, show (0 : Fl f).toRat = 0 from toRat_fin_zero _, descPoly_append_zeros]
  have ht : ∀ l : List (Fl f), IsShiftRight (descPoly (l.map toRat)) (descPoly ((l.take (l.length - k)).map toRat)) k := by
    intro l d
    have := coeff_descPoly_take (l.map toRat) k d
    rwa [List.length_map, ← List.map_take] at this
  have hn : ∀ l : List (Fl f), l.length < k → IsShiftRight (descPoly (l.map toRat)) (descPoly (([] : List (Fl f)).map toRat)) k := by
    intro l hl d
    rw [coeff_descPoly_of_le (l := l.map toRat) (by rw [List.length_map]; omega)]; simp
  have hdw : ∀ l : List (Fl f), descPoly ((l.dropWhile isZero).map toRat) = descPoly (l.map toRat) :=
    fun l => descPoly_dropWhile_toRat toRat (fun s => toRat_fin_zero s) l
  have neg : 0 < k → negI32 (-(k : Int)) = .ok k := fun h => by rw [negI32_ok (by omega)]; simp
  refine ⟨⟨p.shlAssignPos k, ?_, fun h => ?_, hz _, fun c hc => ?_⟩,
    ⟨⟨p.terms.dropWhile isZero ++ List.replicate k 0⟩, ?_, fun h => ?_, (hz _).trans (by rw [hdw]; rfl), fun c hc => ?_⟩,
    ?_, ?_⟩
  · simp [Poly.shlAssign]
  · simp [Poly.shrAssign, neg h, h]
  · rcases List.mem_append.1 hc with h | h
    · exact .inl h
    · exact .inr (List.eq_of_mem_replicate h)
  · simp [Poly.shl, Poly.shlPos, sliceFrom, firstNonzeroIndex_le, drop_firstNonzeroIndex]
  · simp [Poly.shr, Poly.shlPos, sliceFrom, firstNonzeroIndex_le, drop_firstNonzeroIndex, neg h, h]
  · rcases List.mem_append.1 hc with h | h
    · exact .inl (List.dropWhile_subset _ h)
    · exact .inr (List.eq_of_mem_replicate h)
  · by_cases h : k > p.terms.length
    · refine ⟨⟨[]⟩, ?_, fun h0 => ?_, hn _ h, nofun⟩
      · simp [Poly.shrAssign, Poly.shrAssignPos, h]
      · simp [Poly.shlAssign, Poly.shrAssignPos, neg h0, h0, h]
    · refine ⟨⟨p.terms.take (p.terms.length - k)⟩, ?_, fun h0 => ?_, ht _, fun c hc => List.mem_of_mem_take hc⟩
      · simp [Poly.shrAssign, Poly.shrAssignPos, h, sliceRange]
      · simp [Poly.shlAssign, Poly.shrAssignPos, neg h0, h0, h, sliceRange]
  · have hiff := C14_dense_shr_panics_iff p k
    rw [new_terms] at hiff
    refine ⟨hiff, fun hnp => ?_⟩
    rw [ne_eq, hiff, not_and, not_le] at hnp
    by_cases h : k > p.terms.length
    · refine ⟨⟨[]⟩, ?_, fun h0 => ?_, hn _ h, nofun⟩
      · simp [Poly.shr, Poly.shrPos, h]
      · simp [Poly.shl, Poly.shrPos, neg h0, h0, h]
    · have hle : k ≤ (p.terms.dropWhile isZero).length := by
        by_contra hc
        exact h (hnp (by omega))
      have hadd := firstNonzeroIndex_add p.terms
      have hb : firstNonzeroIndex p.terms ≤ p.terms.length - k := by omega
      have hdrop : (p.terms.take (p.terms.length - k)).drop (firstNonzeroIndex p.terms)
          = (p.terms.dropWhile isZero).take ((p.terms.dropWhile isZero).length - k) := by
        rw [List.drop_take, drop_firstNonzeroIndex]; congr 1; omega
      refine ⟨⟨(p.terms.dropWhile isZero).take ((p.terms.dropWhile isZero).length - k)⟩, ?_, fun h0 => ?_, ?_, fun c hc =>
        List.dropWhile_subset _ (List.mem_of_mem_take hc)⟩
      · simp [Poly.shr, Poly.shrPos, h, sliceRange, hb, hdrop]
      · simp [Poly.shl, Poly.shrPos, neg h0, h0, h, sliceRange, hb, hdrop]
      · intro d
        rw [← show descPoly ((p.terms.dropWhile isZero).map toRat) = FloatSink.ratPoly p from hdw _]
        exact ht _ d

/-- C92: the shifts of `SparsePolynomial` in floating point move the degrees and keep the stored coefficients. -/
theorem C92_sparse_shift (p : Sparse (Fl f)) (k : Nat) (hk : k < 2 ^ 31) :
    (∃ r, p.shl k = .ok r ∧ (0 < k → p.shr (-k) = .ok r) ∧
      r.terms.entries = p.terms.entries.map (fun e => (e.1 + k, e.2)) ∧ r.ratPoly = p.ratPoly * X ^ k) ∧
    (∃ r, p.shr k = .ok r ∧ (0 < k → p.shl (-k) = .ok r) ∧
      r.terms.entries = (p.terms.entries.filter fun e => k ≤ e.1).map (fun e => (e.1 - k, e.2)) ∧
      IsShiftRight p.ratPoly r.ratPoly k) := by
  have neg : 0 < k → negI32 (-(k : Int)) = .ok k := fun h => by rw [negI32_ok (by omega)]; simp
  have h1 : (p.shlPos k).terms.entries = p.terms.entries.map (fun e => (e.1 + k, e.2)) := by
    rw [← ofList_entries (p.terms.entries.map fun e => (e.1 + k, e.2))
      (by rw [List.pairwise_map]; exact p.terms.sorted.imp fun h => by simpa using h)]
    unfold Sparse.shlPos Sparse.new BMap.ofList
    rw [List.foldl_map]
  have h2 : (p.shrPos k).terms.entries = (p.terms.entries.filter fun e => k ≤ e.1).map (fun e => (e.1 - k, e.2)) := by
    have hs := p.terms.sorted.filter fun e => decide (k ≤ e.1)
    rw [← ofList_entries ((p.terms.entries.filter fun e => k ≤ e.1).map fun e => (e.1 - k, e.2))
      (by
        rw [List.pairwise_map]
        refine hs.imp_of_mem fun {a b} ha hb h => ?_
        have := (List.mem_filter.1 ha).2
        simp only [decide_eq_true_eq] at this
        simp only
        omega)]
    unfold Sparse.shrPos Sparse.new BMap.ofList
    rw [List.foldl_map, List.foldl_filter]
    simp only [ge_iff_le, decide_eq_true_eq]
  have h1' : (p.shlPos k).ratPoly = p.ratPoly * X ^ k := by
    unfold Sparse.ratPoly
    rw [h1]
    induction p.terms.entries with
    | nil => simp
    | cons e l ih =>
      rw [List.map_cons, List.map_cons, List.map_cons, entriesPoly_cons, entriesPoly_cons, ih, pow_add]
      ring
  have h2' : IsShiftRight p.ratPoly (p.shrPos k).ratPoly k := by
    intro d
    unfold Sparse.ratPoly
    rw [h2]
    induction p.terms.entries with
    | nil => simp
    | cons e l ih =>
      rw [List.map_cons, entriesPoly_cons, coeff_add, ← ih, List.filter_cons]
      split
      · rename_i hke
        simp only [decide_eq_true_eq] at hke
        rw [List.map_cons, List.map_cons, entriesPoly_cons, coeff_add]
        congr 1
        simp only [coeff_C_mul, coeff_X_pow]
        congr 1
        exact if_congr (by omega) rfl rfl
      · rename_i hke
        simp only [decide_eq_true_eq] at hke
        simp only [coeff_C_mul, coeff_X_pow]
        rw [if_neg (by omega)]
        simp
  exact ⟨⟨_, by simp [Sparse.shl], fun h => by simp [Sparse.shr, neg h, h], h1, h1'⟩,
    ⟨_, by simp [Sparse.shr], fun h => by simp [Sparse.shl, neg h, h], h2, h2'⟩⟩

/-- C92: the shifts of the fixed-size types in floating point. -/
theorem C92_fixed_shift (m : Monomial (Fl f)) (b : LinearBinomial (Fl f)) (t : QuadraticTrinomial (Fl f)) (k : Nat)
    (hk : k < 2 ^ 31) :
    ((m.shl k = .ok ⟨m.coefficient, m.deg + k⟩ ∧ (0 < k → m.shr (-k) = .ok ⟨m.coefficient, m.deg + k⟩)) ∧
      ∃ r, m.shr k = .ok r ∧ (0 < k → m.shl (-k) = .ok r) ∧ IsShiftRight m.ratPoly r.ratPoly k ∧
        (r.coefficient = m.coefficient ∨ r.coefficient = 0)) ∧
    (IsShiftRight b.ratPoly (b.shr k).ratPoly k ∧ b.shrAssign k = b.shr k ∧ (b.AllFinite → (b.shr k).AllFinite)) ∧
    (IsShiftRight t.ratPoly (t.shr k).ratPoly k ∧ t.shrAssign k = t.shr k ∧ (t.AllFinite → (t.shr k).AllFinite)) := by
  have neg : 0 < k → negI32 (-(k : Int)) = .ok k := fun h => by rw [negI32_ok (by omega)]; simp
  have z : (0 : Fl f).toRat = 0 := toRat_fin_zero _
  refine ⟨⟨⟨by simp [Monomial.shl, Monomial.shlPos, Monomial.new],
    fun h => by simp [Monomial.shr, Monomial.shlPos, Monomial.new, neg h, h]⟩,
    m.shrPos k, by simp [Monomial.shr], fun h => by simp [Monomial.shl, neg h, h], fun d => ?_, ?_⟩,
    ⟨fun d => ?_, ?_, fun h => ?_⟩, ⟨fun d => ?_, ?_, fun h => ?_⟩⟩
  · unfold Monomial.shrPos Monomial.ratPoly
    split
    · rename_i h
      simp only [Monomial.zero, Monomial.new, z, coeff_C_mul, coeff_X_pow]
      rw [if_neg (by omega : ¬ d + k = m.deg)]
      simp
    · rename_i h
      simp only [Monomial.new, coeff_C_mul, coeff_X_pow]
      congr 1
      exact if_congr (by omega) rfl rfl
  · unfold Monomial.shrPos
    split
    · exact .inr rfl
    · exact .inl rfl
  · unfold LinearBinomial.ratPoly
    rw [coeff_linear, coeff_linear]
    rcases k with _ | _ | k <;> rcases d with _ | _ | d <;>
      simp [LinearBinomial.shr, LinearBinomial.new, LinearBinomial.zero, z]
    omega
  · rcases k with _ | _ | k <;>
      simp [LinearBinomial.shr, LinearBinomial.shrAssign, LinearBinomial.new, LinearBinomial.zero]
  · rcases k with _ | _ | k
    · exact h
    · exact ⟨rfl, h.1⟩
    · exact ⟨rfl, rfl⟩
  · unfold QuadraticTrinomial.ratPoly
    rw [coeff_quadratic, coeff_quadratic]
    rcases k with _ | _ | _ | k <;> rcases d with _ | _ | _ | d <;>
      simp [QuadraticTrinomial.shr, QuadraticTrinomial.new, QuadraticTrinomial.zero, z]
    · omega
    · omega
    · rw [if_neg (by omega), if_neg (by omega)]
  · rcases k with _ | _ | _ | k <;>
      simp [QuadraticTrinomial.shr, QuadraticTrinomial.shrAssign, QuadraticTrinomial.new, QuadraticTrinomial.zero]
  · rcases k with _ | _ | _ | k
    · exact h
    · exact ⟨rfl, h.1, h.2.1⟩
    · exact ⟨rfl, rfl, h.1⟩
    · exact ⟨rfl, rfl, rfl⟩

/-! ## Vectors and trimming -/

theorem insertList_mapVals {A B : Type} (h : A → B) (k : Nat) (v : A) (l : List (Nat × A)) :
    (BMap.insertList k v l).map (fun e => (e.1, h e.2)) = BMap.insertList k (h v) (l.map fun e => (e.1, h e.2)) := by
  induction l with
  | nil => rfl
  | cons a l ih =>
    obtain ⟨i, w⟩ := a
    rw [BMap.insertList, List.map_cons, BMap.insertList]
    split
    · rfl
    · split
      · rfl
      · rw [List.map_cons, ih]

/-- C92: `new`, `From<Vec>` and `trim` in floating point: leading zeros (of either sign) of a `Polynomial` and all zeros
of a `SparsePolynomial` are dropped, the other coefficients are kept as they are, the polynomial is the same.  `From<Vec>`
of both types stores the same polynomial. -/
theorem C92_trim (l : List (Fl f)) (p : Poly (Fl f)) (s : Sparse (Fl f)) :
    ((∃ zs, l = zs ++ (Poly.new l).terms ∧ ∀ z ∈ zs, ∃ neg, z = .fin neg 0) ∧
      (∀ c cs, (Poly.new l).terms = c :: cs → ∀ neg, c ≠ .fin neg 0) ∧ Poly.fromVec l = Poly.new l ∧
      FloatSink.ratPoly (Poly.new l) = descPoly (l.map toRat)) ∧
    (p.trim = Poly.new p.terms ∧ FloatSink.ratPoly p.trim = FloatSink.ratPoly p) ∧
    (s.trim.terms.entries = (s.terms.entries.filter fun e => !isZero e.2) ∧ s.trim.ratPoly = s.ratPoly) ∧
    (∀ e ∈ (Sparse.fromVec l).terms.entries, e.2 ∈ l ∧ isZero e.2 = false) ∧
    ((∀ c ∈ l, c.isFinite = true) → (Sparse.fromVec l).ratPoly = descPoly (l.map toRat)) := by
  have hdw : ∀ l : List (Fl f), FloatSink.ratPoly (Poly.new l) = descPoly (l.map toRat) := fun l => by
    show descPoly ((Poly.new l).terms.map toRat) = _
    rw [new_terms]
    exact descPoly_dropWhile_toRat toRat (fun s => toRat_fin_zero s) l
  obtain ⟨⟨zs, h1, h2⟩, h3⟩ := C01_new_shape l
  refine ⟨⟨⟨zs, h1, fun z hz => isZero_iff.1 (h2 z hz)⟩, ?_, rfl, hdw l⟩, ⟨rfl, hdw p.terms⟩, ⟨rfl, ?_⟩, ?_, ?_⟩
  · rintro c cs h neg rfl
    have := h3 _ _ h
    rw [isZero_iff.2 ⟨neg, rfl⟩] at this
    cases this
  · unfold Sparse.ratPoly Sparse.trim BMap.retain
    dsimp only
    induction s.terms.entries with
    | nil => rfl
    | cons e l ih =>
      rw [List.filter_cons, List.map_cons, entriesPoly_cons, ← ih]
      split
      · rfl
      · rename_i hz
        simp only [Bool.not_eq_true', Bool.not_eq_false] at hz
        rw [(zero_val hz).1]
        simp
  · unfold Sparse.fromVec
    split
    · nofun
    · dsimp only
      have key : ∀ (z : List (Fl f × Nat)) (m : BMap (Fl f)), (∀ e ∈ z, e.1 ∈ l) →
          (∀ e ∈ m.entries, e.2 ∈ l ∧ isZero e.2 = false) →
          ∀ e ∈ (z.foldl (fun terms e => if !isZero e.1 then terms.insert (l.length - 1 - e.2) e.1 else terms) m).entries,
            e.2 ∈ l ∧ isZero e.2 = false := by
        intro z
        induction z with
        | nil => intro m _ hm; exact hm
        | cons a z ih =>
          intro m hz hm
          rw [List.foldl_cons]
          refine ih _ (fun e he => hz e (by simp [he])) ?_
          split
          · rename_i ha
            intro e he
            rcases BMap.mem_insertList he with rfl | he
            · exact ⟨hz a (by simp), by simpa using ha⟩
            · exact hm e he
          · exact hm
      exact key _ _ (fun e he => (List.mem_zipIdx he).2.2 ▸ List.getElem_mem _) nofun
  · intro hl
    rw [← C28_sparse_from_vec (l.map toRat)]
    have key : ∀ (z : List (Fl f × Nat)) (m : BMap (Fl f)) (m' : BMap ℚ) (n : Nat), (∀ e ∈ z, e.1.isFinite = true) →
        m.entries.map (fun e => (e.1, e.2.toRat)) = m'.entries →
        (z.foldl (fun terms e => if !isZero e.1 then terms.insert (n - e.2) e.1 else terms) m).entries.map
            (fun e => (e.1, e.2.toRat)) =
          ((z.map fun e => (e.1.toRat, e.2)).foldl
            (fun terms e => if !isZero e.1 then terms.insert (n - e.2) e.1 else terms) m').entries := by
      intro z
      induction z with
      | nil => intro m m' n _ hm; exact hm
      | cons a z ih =>
        intro m m' n hz hm
        rw [List.foldl_cons, List.map_cons, List.foldl_cons]
        refine ih _ _ n (fun e he => hz e (by simp [he])) ?_
        simp only [isZero_toRat (hz a (by simp))]
        split
        · show (BMap.insertList _ _ _).map _ = BMap.insertList _ _ _
          rw [insertList_mapVals, hm]
        · exact hm
    unfold Sparse.ratPoly Sparse.fromVec
    simp only [List.isEmpty_map, List.length_map]
    split
    · rfl
    · have hzi : (l.map toRat).zipIdx = l.zipIdx.map fun e => (e.1.toRat, e.2) := by
        rw [List.zipIdx_map]; rfl
      rw [hzi, key _ .empty .empty (l.length - 1) (fun e he => hl _ ((List.mem_zipIdx he).2.2 ▸ List.getElem_mem _)) rfl]

-- 0.1f32 as f64 is not 0.1f64; its square is exact in f64; -7 becomes -7.0
example : ((div 1 (ofNat 10) : Fl binary32).widen : Fl binary64) ≠ div 1 (ofNat 10) ∧
    ((div 1 (ofNat 10) : Fl binary32).widen : Fl binary64).toRat = 13421773 / 134217728 ∧
    (((div 1 (ofNat 10) : Fl binary32).widen : Fl binary64) * (div 1 (ofNat 10) : Fl binary32).widen).toRat =
      (13421773 / 134217728) ^ 2 ∧ (ofInt (-7) : Fl binary32).toRat = -7 ∧ ((.int ⟨true, 16⟩, .f32) : NumTy × NumTy) ∈ upcastTable := by
  decide +kernel

-- upcasting drops a leading -0.0; shifting keeps the order of the rest
example : ((⟨[-0, 1, ofNat 3]⟩ : Poly (Fl binary32)).upcast widen : Poly (Fl binary64)) = ⟨[1, ofNat 3]⟩ ∧
    ((⟨[0, 5, -3]⟩ : Poly ℤ).upcast ofInt : Poly (Fl binary32)) = ⟨[ofNat 5, -ofNat 3]⟩ ∧
    (⟨[-0, 1, ofNat 3]⟩ : Poly (Fl binary64)).shl 2 = .ok ⟨[1, ofNat 3, 0, 0]⟩ ∧
    (⟨[-0, 1, ofNat 3]⟩ : Poly (Fl binary64)).shlAssign 1 = .ok ⟨[-0, 1, ofNat 3, 0]⟩ ∧
    (⟨[-0, 1, ofNat 3]⟩ : Poly (Fl binary64)).shr 1 = .ok ⟨[1]⟩ ∧
    (⟨[-0, 1, ofNat 3]⟩ : Poly (Fl binary64)).shr 3 = .panic := by decide +kernel

example : (Sparse.fromVec [-0, 1, 0, (ofNat 3 : Fl binary64)]).terms.entries = [(0, ofNat 3), (2, 1)] ∧
    ((Sparse.fromVec [1, 0, (ofNat 3 : Fl binary64)]).shr 1).bind (fun r => .ok r.terms.entries) = .ok [(1, 1)] ∧
    (⟨ofNat 3, 1, -1⟩ : QuadraticTrinomial (Fl binary64)).shr 1 = ⟨0, ofNat 3, 1⟩ := by decide +kernel

end Fl
end Rustnomial
