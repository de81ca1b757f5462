import Verif.SpecFloatBuild
import Verif.Props.FloatFixed
import Verif.Props.FloatExact
import Verif.Props.Mutation

/-!
# Building float polynomials term by term (C91)
-/

open Polynomial

namespace Rustnomial
namespace Fl
variable {f : FlFmt}

/-! ## One term -/

/-- What happens to a stored value `x` when `c` is added to it: it becomes `x + c`, or `c` if it was zero, or stays if
`c` is zero. -/
def AddStep (x c y : Fl f) : Prop := y = x + c ∨ (isZero x = true ∧ y = c) ∨ (isZero c = true ∧ y = x)

theorem zero_val {x : Fl f} (h : isZero x = true) : x.toRat = 0 ∧ x.isFinite = true := by
  obtain ⟨s, rfl⟩ := isZero_iff.1 h
  exact ⟨toRat_fin_zero s, rfl⟩

theorem isZero_neg (x : Fl f) : isZero (-x) = isZero x := by
  rw [Bool.eq_iff_iff, isZero_iff, isZero_iff]
  cases x with
  | nan => simp [neg_def, neg]
  | inf s => simp [neg_def, neg]
  | fin s a => simp [neg_def, neg]

theorem AddStep.error {x c y : Fl f} (h : AddStep x c y) (hy : y.isFinite = true) (hx : x.isFinite = true) :
    c.isFinite = true ∧ |y.toRat - (x.toRat + c.toRat)| ≤ uro f * |x.toRat + c.toRat| := by
  have hn : 0 ≤ uro f * |x.toRat + c.toRat| := mul_nonneg uro_nonneg (abs_nonneg _)
  rcases h with rfl | ⟨hz, rfl⟩ | ⟨hz, rfl⟩
  · exact ⟨(finite_of_add hy).2, add_error hy⟩
  · refine ⟨hy, ?_⟩
    rw [(zero_val hz).1] at hn ⊢; simpa using hn
  · refine ⟨(zero_val hz).2, ?_⟩
    rw [(zero_val hz).1] at hn ⊢; simpa using hn

theorem valid_le_max (hw : f.p ≤ f.w) {c : Fl f} (hc : c.Valid) (hf : c.isFinite = true) :
    |c.toRat| ≤ maxFinite f := by
  obtain ⟨s, a, rfl⟩ := isFinite_iff.1 hf
  obtain ⟨⟨k, e, hk, rfl⟩, ha⟩ := hc
  have key : k * 2 ^ e ≤ (2 ^ f.p - 1) * 2 ^ (f.w - f.p) := by
    rcases le_total e (f.w - f.p) with he | he
    · exact Nat.mul_le_mul (by omega) (Nat.pow_le_pow_right (by omega) he)
    · obtain ⟨j, rfl⟩ := Nat.exists_eq_add_of_le he
      rw [pow_add, ← mul_assoc, mul_right_comm] at ha ⊢
      have hw' : 2 ^ f.w = 2 ^ f.p * 2 ^ (f.w - f.p) := by rw [← pow_add]; congr 1; omega
      rw [hw'] at ha
      have := Nat.lt_of_mul_lt_mul_right ha
      exact Nat.mul_le_mul (by omega) le_rfl
  unfold maxFinite toRat
  rw [abs_mul, sign_abs, one_mul, abs_of_nonneg (by positivity)]
  gcongr

theorem AddStep.exact (hp : 1 ≤ f.p) (hw : f.p ≤ f.w) {x c y : Fl f} (h : AddStep x c y) (hx : x.isFinite = true)
    (hx0 : x.toRat = 0) (hc : c.Valid) (hf : c.isFinite = true) : y.isFinite = true ∧ y.toRat = c.toRat := by
  rcases h with rfl | ⟨hz, rfl⟩ | ⟨hz, rfl⟩
  · have h1 := (C65_no_overflow hp hw x c hx hf).1 (by rw [hx0, zero_add]; exact valid_le_max hw hc hf)
    exact ⟨h1, (C65_exact hp x c c hc hf).1 h1 (by rw [hx0, zero_add])⟩
  · exact ⟨hf, rfl⟩
  · exact ⟨hx, by rw [hx0, (zero_val hz).1]⟩

theorem AddStep.int (hp : 1 ≤ f.p) (hw : f.p + f.q ≤ f.w) {x c y : Fl f} (h : AddStep x c y) (hx : x.IntValued)
    (hc : c.IntValued) (hb : |x.toRat + c.toRat| < 2 ^ f.p) :
    y.isFinite = true ∧ y.toRat = x.toRat + c.toRat := by
  rcases h with rfl | ⟨hz, rfl⟩ | ⟨hz, rfl⟩
  · have := (Ex_add hp hw x c hx hc).2 hb
    exact ⟨this.1.1, this.2⟩
  · exact ⟨hc.1, by rw [(zero_val hz).1, zero_add]⟩
  · exact ⟨hx.1, by rw [(zero_val hz).1, add_zero]⟩

/-- The sink `s₁` is `s` with one coefficient stepped. -/
def StepAt {S : Type} [FloatSink f S] (s : S) (c : Fl f) (d : Nat) (s₁ : S) : Prop :=
  ∃ x y : Fl f, x.toRat = (FloatSink.ratPoly s).coeff d ∧ (FloatSink.AllFinite s → x.isFinite = true) ∧
    AddStep x c y ∧ FloatSink.ratPoly s₁ = FloatSink.ratPoly s + C (y.toRat - x.toRat) * X ^ d ∧
    (FloatSink.AllFinite s₁ ↔ FloatSink.AllFinite s ∧ y.isFinite = true)

end Fl

open Fl

/-- The contract of `try_add_term` and `try_sub_term` in floating point. -/
class LawfulFloatSink (f : outParam FlFmt) (S : Type) [FloatSink f S] [MutPoly (Fl f) S] : Prop where
  add_ok : ∀ (s s' : S) (c : Fl f) (d : Nat), MutPoly.tryAddTerm s c d = (s', .ok ()) → StepAt s c d s'
  add_err : ∀ (s s' : S) (c : Fl f) (d : Nat) (e : TryAddError), MutPoly.tryAddTerm s c d = (s', .error e) → s' = s
  sub_ok : ∀ (s s' : S) (c : Fl f) (d : Nat), MutPoly.trySubTerm s c d = (s', .ok ()) → StepAt s (-c) d s'
  sub_err : ∀ (s s' : S) (c : Fl f) (d : Nat) (e : TryAddError), MutPoly.trySubTerm s c d = (s', .error e) → s' = s

namespace Fl
variable {f : FlFmt}

theorem mem_modify {α : Type} (P : α → Prop) (g : α → α) (l : List α) (i : Nat) (h : i < l.length) :
    ((∀ c ∈ l.modify i g, P c) ∧ P l[i]) ↔ ((∀ c ∈ l, P c) ∧ P (g l[i])) := by
  induction l generalizing i with
  | nil => simp at h
  | cons a l ih =>
    cases i with
    | zero => simp; tauto
    | succ i =>
      simp only [List.length_cons, Nat.add_lt_add_iff_right] at h
      have := ih i h
      simp only [List.modify_succ_cons, List.forall_mem_cons, List.getElem_cons_succ]
      tauto

theorem descPoly_modify (g : Fl f → Fl f) (l : List (Fl f)) (i : Nat) (h : i < l.length) :
    descPoly ((l.modify i g).map toRat) =
      descPoly (l.map toRat) + C ((g l[i]).toRat - l[i].toRat) * X ^ (l.length - i - 1) := by
  induction l generalizing i with
  | nil => simp at h
  | cons a l ih =>
    cases i with
    | zero => simp [descPoly_cons, sub_mul]; ring
    | succ i =>
      simp only [List.length_cons, Nat.add_lt_add_iff_right] at h
      simp only [List.modify_succ_cons, List.map_cons, descPoly_cons, List.length_map, List.length_modify, ih i h,
        List.getElem_cons_succ, List.length_cons]
      rw [show l.length + 1 - (i + 1) - 1 = l.length - i - 1 by omega]
      ring

theorem step_modify (g : Fl f → Fl f) (c : Fl f) (hg : ∀ x, AddStep x c (g x)) (hf : ∀ x, (g x).isFinite = true → x.isFinite = true)
    (l : List (Fl f)) (d : Nat) (h : d < l.length) :
    ∃ x y : Fl f, x.toRat = (descPoly (l.map toRat)).coeff d ∧ ((∀ c ∈ l, c.isFinite = true) → x.isFinite = true) ∧
      AddStep x c y ∧
      descPoly ((l.modify (l.length - d - 1) g).map toRat) = descPoly (l.map toRat) + C (y.toRat - x.toRat) * X ^ d ∧
      ((∀ c ∈ l.modify (l.length - d - 1) g, c.isFinite = true) ↔ (∀ c ∈ l, c.isFinite = true) ∧ y.isFinite = true) := by
  have hi : l.length - d - 1 < l.length := by omega
  refine ⟨l[l.length - d - 1], g l[l.length - d - 1], ?_, fun hl => hl _ (List.getElem_mem _), hg _, ?_, ?_⟩
  · rw [coeff_descPoly_of_lt (by simpa using h)]
    simp only [List.length_map]
    rw [List.getD_eq_getElem _ _ (by simpa using hi)]; simp
  · rw [descPoly_modify g l _ hi, show l.length - (l.length - d - 1) - 1 = d by omega]
  · have := mem_modify (fun c : Fl f => c.isFinite = true) g l _ hi
    have h2 := hf l[l.length - d - 1]
    constructor
    · intro h3
      have h5 : (g l[l.length - d - 1]).isFinite = true := by
        apply h3
        rw [List.mem_iff_getElem]
        exact ⟨l.length - d - 1, by simpa using hi, by simp⟩
      exact this.1 ⟨h3, h2 h5⟩
    · intro h3; exact (this.2 h3).1

theorem pad_ratPoly (l : List (Fl f)) (n : Nat) :
    descPoly ((List.replicate n 0 ++ l).map toRat) = descPoly (l.map toRat) ∧
      ((∀ c ∈ List.replicate n 0 ++ l, c.isFinite = true) ↔ ∀ c ∈ l, c.isFinite = true) := by
  constructor
  · rw [List.map_append, List.map_replicate, toRat_zero, descPoly_append, descPoly_replicate_zero, zero_mul, zero_add]
  · simp only [List.mem_append, List.mem_replicate]
    constructor
    · intro h c hc; exact h c (.inr hc)
    · rintro h c (⟨_, rfl⟩ | hc)
      · rfl
      · exact h c hc

theorem addStep_add (x c : Fl f) : AddStep x c (x + c) := .inl rfl
theorem addStep_sub (x c : Fl f) : AddStep x (-c) (x - c) := .inl rfl

theorem stepAt_list (g : Fl f → Fl f) (c : Fl f) (hg : ∀ x, AddStep x c (g x))
    (hf : ∀ x, (g x).isFinite = true → x.isFinite = true) (p : Poly (Fl f)) (d : Nat) :
    let t := if p.terms.length < d + 1 then List.replicate (d + 1 - p.terms.length) 0 ++ p.terms else p.terms
    StepAt p c d ⟨t.modify (t.length - d - 1) g⟩ := by
  intro t
  obtain ⟨h1, h2⟩ : descPoly (t.map toRat) = descPoly (p.terms.map toRat) ∧
      ((∀ c ∈ t, c.isFinite = true) ↔ ∀ c ∈ p.terms, c.isFinite = true) := by
    unfold t; split
    · exact pad_ratPoly _ _
    · exact ⟨rfl, Iff.rfl⟩
  have hd : d < t.length := by
    unfold t; split
    · simp only [List.length_append, List.length_replicate]; omega
    · omega
  obtain ⟨x, y, h3, h4, h5, h6, h7⟩ := step_modify g c hg hf t d hd
  rw [h1] at h3 h6
  rw [h2] at h4 h7
  exact ⟨x, y, h3, h4, h5, h6, h7⟩

instance : LawfulFloatSink f (Poly (Fl f)) where
  add_ok s s' c d h := by
    obtain ⟨rfl, -⟩ := Prod.mk.inj h
    exact stepAt_list (· + c) c (fun x => addStep_add x c) (fun x h => (finite_of_add h).1) s d
  add_err s s' c d e h := nomatch (Prod.mk.inj h).2
  sub_ok s s' c d h := by
    have := stepAt_list (· - c) (-c) (fun x => addStep_sub x c) (fun x h => (finite_of_sub h).1) s d
    change s.trySubTerm c d = _ at h
    unfold Poly.trySubTerm at h
    split at h
    · rename_i hl
      rw [if_pos hl] at this
      simp only [CanNegate.canNegate, Bool.not_true, Bool.false_eq_true, if_false] at h
      obtain ⟨rfl, -⟩ := Prod.mk.inj h
      exact this
    · rename_i hl
      rw [if_neg hl] at this
      obtain ⟨rfl, -⟩ := Prod.mk.inj h
      exact this
  sub_err s s' c d e h := by
    change s.trySubTerm c d = _ at h
    unfold Poly.trySubTerm at h
    split at h
    · simp only [CanNegate.canNegate, Bool.not_true, Bool.false_eq_true, if_false] at h
      exact nomatch (Prod.mk.inj h).2
    · exact nomatch (Prod.mk.inj h).2

instance {size : Nat} : LawfulFloatSink f (ArrayPoly (Fl f) size) where
  add_ok s s' c d h := by
    change s.tryAddTerm c d = _ at h
    unfold ArrayPoly.tryAddTerm at h
    split at h
    · rename_i hd
      obtain ⟨rfl, -⟩ := Prod.mk.inj h
      have := step_modify (· + c) c (fun x => addStep_add x c) (fun x h => (finite_of_add h).1) s.coefficients d
        (by rw [s.length_eq]; exact hd)
      rw [s.length_eq] at this
      exact this
    · exact nomatch (Prod.mk.inj h).2
  add_err s s' c d e h := by
    change s.tryAddTerm c d = _ at h
    unfold ArrayPoly.tryAddTerm at h
    split at h
    · exact nomatch (Prod.mk.inj h).2
    · exact (Prod.mk.inj h).1.symm
  sub_ok s s' c d h := by
    change s.trySubTerm c d = _ at h
    unfold ArrayPoly.trySubTerm at h
    split at h
    · rename_i hd
      obtain ⟨rfl, -⟩ := Prod.mk.inj h
      have := step_modify (· - c) (-c) (fun x => addStep_sub x c) (fun x h => (finite_of_sub h).1) s.coefficients d
        (by rw [s.length_eq]; exact hd)
      rw [s.length_eq] at this
      exact this
    · exact nomatch (Prod.mk.inj h).2
  sub_err s s' c d e h := by
    change s.trySubTerm c d = _ at h
    unfold ArrayPoly.trySubTerm at h
    split at h
    · exact nomatch (Prod.mk.inj h).2
    · exact (Prod.mk.inj h).1.symm

/-- A value written into a map. -/
theorem stepAt_insert (p : Sparse (Fl f)) (c : Fl f) (d : Nat) (x y : Fl f)
    (hx : (match p.terms.get d with | none => 0 | some v => v) = x) (hs : AddStep x c y)
    (hf : y.isFinite = true → x.isFinite = true) (m : BMap (Fl f))
    (hm : ∀ j, m.get j = if j = d then some y else p.terms.get j) : StepAt p c d (⟨m⟩ : Sparse (Fl f)) := by
  refine ⟨x, y, ?_, ?_, hs, ?_, ?_⟩
  · change x.toRat = p.ratPoly.coeff d
    rw [coeff_rat, ← hx]
    cases p.terms.get d <;> simp
  · intro h
    rw [← hx]
    cases hg : p.terms.get d with
    | none => rfl
    | some v => exact finite_get h hg
  · change Sparse.ratPoly ⟨m⟩ = p.ratPoly + _
    ext k
    rw [coeff_add, coeff_C_mul, coeff_X_pow, coeff_rat, coeff_rat]
    simp only [hm]
    by_cases hk : k = d
    · subst hk
      rw [if_pos rfl, if_pos rfl, ← hx]
      cases p.terms.get k <;> simp
    · rw [if_neg hk, if_neg hk]; simp
  · change (∀ e ∈ m.entries, _) ↔ (∀ e ∈ p.terms.entries, _) ∧ _
    constructor
    · intro h
      have hy : y.isFinite = true := h (d, y) ((BMap.mem_entries ..).2 (by rw [hm, if_pos rfl]))
      refine ⟨?_, hy⟩
      rintro ⟨k, v⟩ he
      rw [BMap.mem_entries] at he
      by_cases hk : k = d
      · subst hk
        rw [he] at hx
        simp only at hx ⊢
        rw [hx]; exact hf hy
      · exact h (k, v) ((BMap.mem_entries ..).2 (by rw [hm, if_neg hk, he]))
    · rintro ⟨h, hy⟩ ⟨k, v⟩ he
      rw [BMap.mem_entries, hm] at he
      by_cases hk : k = d
      · rw [if_pos hk, Option.some.injEq] at he; rw [← he]; exact hy
      · rw [if_neg hk] at he; exact h (k, v) ((BMap.mem_entries ..).2 he)

theorem stepAt_same {S : Type} [FloatSink f S] (s : S) (c : Fl f) (d : Nat) (hc : isZero c = true) (x : Fl f)
    (hx : x.toRat = (FloatSink.ratPoly s).coeff d) (hf : FloatSink.AllFinite s → x.isFinite = true) :
    StepAt s c d s :=
  ⟨x, x, hx, hf, .inr (.inr ⟨hc, rfl⟩), by simp, ⟨fun h => ⟨h, hf h⟩, fun h => h.1⟩⟩

theorem sparse_at (p : Sparse (Fl f)) (d : Nat) : ∃ x : Fl f, x.toRat = (FloatSink.ratPoly p).coeff d ∧
    (FloatSink.AllFinite p → x.isFinite = true) := by
  refine ⟨(match p.terms.get d with | none => 0 | some v => v), ?_, ?_⟩
  · change _ = p.ratPoly.coeff d
    rw [coeff_rat]
    cases p.terms.get d <;> simp
  · intro h
    cases hg : p.terms.get d with
    | none => rfl
    | some v => exact finite_get h hg

instance : LawfulFloatSink f (Sparse (Fl f)) where
  add_ok s s' c d h := by
    obtain ⟨rfl, -⟩ := Prod.mk.inj h
    unfold Sparse.addTerm
    split
    · rename_i hc
      obtain ⟨x, hx, hf⟩ := sparse_at s d
      exact stepAt_same s c d hc x hx hf
    · cases hg : s.terms.get d with
      | none =>
        refine stepAt_insert s c d 0 c (by rw [hg]) (.inr (.inl ⟨rfl, rfl⟩)) (fun _ => rfl) _ ?_
        intro j; rw [BMap.get_upsert, hg]; rfl
      | some v =>
        refine stepAt_insert s c d v (v + c) (by rw [hg]) (.inl rfl) (fun h => (finite_of_add h).1) _ ?_
        intro j; rw [BMap.get_upsert, hg]; rfl
  add_err s s' c d e h := nomatch (Prod.mk.inj h).2
  sub_ok s s' c d h := by
    change s.trySubTerm c d = _ at h
    unfold Sparse.trySubTerm at h
    split at h
    · rename_i hc
      obtain ⟨rfl, -⟩ := Prod.mk.inj h
      obtain ⟨x, hx, hf⟩ := sparse_at s d
      exact stepAt_same s _ d (by rw [isZero_neg]; exact hc) x hx hf
    · split at h
      · rename_i hg
        simp only [CanNegate.canNegate, Bool.not_true, Bool.false_eq_true, if_false] at h
        obtain ⟨rfl, -⟩ := Prod.mk.inj h
        exact stepAt_insert s _ d 0 (0 - c) (by rw [hg]) (.inl rfl) (fun _ => rfl) _ fun j => BMap.get_insert ..
      · rename_i v hg
        obtain ⟨rfl, -⟩ := Prod.mk.inj h
        exact stepAt_insert s _ d v (v - c) (by rw [hg]) (.inl rfl) (fun h => (finite_of_sub h).1) _
          fun j => BMap.get_insert ..
  sub_err s s' c d e h := by
    change s.trySubTerm c d = _ at h
    unfold Sparse.trySubTerm at h
    split at h
    · exact nomatch (Prod.mk.inj h).2
    · split at h
      · simp only [CanNegate.canNegate, Bool.not_true, Bool.false_eq_true, if_false] at h
        exact nomatch (Prod.mk.inj h).2
      · exact nomatch (Prod.mk.inj h).2

theorem monomial_isZero (m : Monomial (Fl f)) : m.isZeroPoly = true ↔ isZero m.coefficient = true := by
  unfold Monomial.isZeroPoly Monomial.degree
  split
  · rename_i h; simp [h, Degree.isZeroPoly]
  · rename_i h; simp [h, Degree.isZeroPoly]

theorem stepAt_monomial (m : Monomial (Fl f)) (c y : Fl f) (d : Nat) (hd : isZero m.coefficient = true ∨ d = m.deg)
    (hs : AddStep m.coefficient c y) (hf : y.isFinite = true → m.coefficient.isFinite = true) :
    StepAt m c d (⟨y, d⟩ : Monomial (Fl f)) := by
  refine ⟨m.coefficient, y, ?_, fun h => h, hs, ?_, ?_⟩
  · change _ = (C m.coefficient.toRat * X ^ m.deg : ℚ[X]).coeff d
    rw [coeff_C_mul, coeff_X_pow]
    rcases hd with h | h
    · rw [(zero_val h).1]; simp
    · simp [h]
  · change (C y.toRat * X ^ d : ℚ[X]) = C m.coefficient.toRat * X ^ m.deg + _
    rcases hd with h | h
    · rw [(zero_val h).1]; simp
    · rw [h]; simp [sub_mul]
  · exact ⟨fun h => ⟨hf h, h⟩, fun h => h.2⟩

instance : LawfulFloatSink f (Monomial (Fl f)) where
  add_ok s s' c d h := by
    change s.tryAddTerm c d = _ at h
    unfold Monomial.tryAddTerm at h
    split at h
    · rename_i hz
      obtain ⟨rfl, -⟩ := Prod.mk.inj h
      exact stepAt_monomial s c _ d (.inl ((monomial_isZero s).1 hz)) (.inl rfl) fun h => (finite_of_add h).1
    · split at h
      · rename_i hd
        obtain ⟨rfl, -⟩ := Prod.mk.inj h
        have := stepAt_monomial s c _ d (.inr hd) (.inl rfl) fun h => (finite_of_add h).1
        rwa [hd] at this ⊢
      · exact nomatch (Prod.mk.inj h).2
  add_err s s' c d e h := by
    change s.tryAddTerm c d = _ at h
    unfold Monomial.tryAddTerm at h
    split at h
    · exact nomatch (Prod.mk.inj h).2
    · split at h
      · exact nomatch (Prod.mk.inj h).2
      · exact (Prod.mk.inj h).1.symm
  sub_ok s s' c d h := by
    change s.trySubTerm c d = _ at h
    unfold Monomial.trySubTerm at h
    split at h
    · rename_i hz
      obtain ⟨rfl, -⟩ := Prod.mk.inj h
      exact stepAt_monomial s _ _ d (.inl ((monomial_isZero s).1 hz)) (.inl rfl) fun h => (finite_of_sub h).1
    · split at h
      · rename_i hd
        obtain ⟨rfl, -⟩ := Prod.mk.inj h
        have := stepAt_monomial s (-c) _ d (.inr hd) (.inl rfl) fun h => (finite_of_sub h).1
        rwa [hd] at this ⊢
      · exact nomatch (Prod.mk.inj h).2
  sub_err s s' c d e h := by
    change s.trySubTerm c d = _ at h
    unfold Monomial.trySubTerm at h
    split at h
    · exact nomatch (Prod.mk.inj h).2
    · split at h
      · exact nomatch (Prod.mk.inj h).2
      · exact (Prod.mk.inj h).1.symm

theorem stepAt_binomial (b : LinearBinomial (Fl f)) (g : Fl f → Fl f) (c : Fl f) (hg : ∀ x, AddStep x c (g x))
    (hf : ∀ x, (g x).isFinite = true → x.isFinite = true) (d : Nat) (hd : d ≤ 1) :
    StepAt b c d (b.modify (1 - d) g) := by
  obtain rfl | rfl : d = 0 ∨ d = 1 := by omega
  · refine ⟨b.c1, g b.c1, ?_, fun h => h.2, hg _, ?_, ?_⟩
    · change _ = (C b.c0.toRat * X + C b.c1.toRat : ℚ[X]).coeff 0
      rw [coeff_linear]; simp
    · change (C b.c0.toRat * X + C (g b.c1).toRat : ℚ[X]) = C b.c0.toRat * X + C b.c1.toRat + _
      rw [C_sub]; ring
    · exact ⟨fun h => ⟨⟨h.1, hf _ h.2⟩, h.2⟩, fun h => ⟨h.1.1, h.2⟩⟩
  · refine ⟨b.c0, g b.c0, ?_, fun h => h.1, hg _, ?_, ?_⟩
    · change _ = (C b.c0.toRat * X + C b.c1.toRat : ℚ[X]).coeff 1
      rw [coeff_linear]; simp
    · change (C (g b.c0).toRat * X + C b.c1.toRat : ℚ[X]) = C b.c0.toRat * X + C b.c1.toRat + _
      rw [C_sub]; ring
    · exact ⟨fun h => ⟨⟨hf _ h.1, h.2⟩, h.1⟩, fun h => ⟨h.2, h.1.2⟩⟩

theorem stepAt_trinomial (t : QuadraticTrinomial (Fl f)) (g : Fl f → Fl f) (c : Fl f) (hg : ∀ x, AddStep x c (g x))
    (hf : ∀ x, (g x).isFinite = true → x.isFinite = true) (d : Nat) (hd : d ≤ 2) :
    StepAt t c d (t.modify (2 - d) g) := by
  obtain rfl | rfl | rfl : d = 0 ∨ d = 1 ∨ d = 2 := by omega
  · refine ⟨t.c2, g t.c2, ?_, fun h => h.2.2, hg _, ?_, ?_⟩
    · change _ = (C t.c0.toRat * X ^ 2 + C t.c1.toRat * X + C t.c2.toRat : ℚ[X]).coeff 0
      rw [coeff_quadratic]; simp
    · change (C t.c0.toRat * X ^ 2 + C t.c1.toRat * X + C (g t.c2).toRat : ℚ[X]) =
        C t.c0.toRat * X ^ 2 + C t.c1.toRat * X + C t.c2.toRat + _
      rw [C_sub]; ring
    · exact ⟨fun h => ⟨⟨h.1, h.2.1, hf _ h.2.2⟩, h.2.2⟩, fun h => ⟨h.1.1, h.1.2.1, h.2⟩⟩
  · refine ⟨t.c1, g t.c1, ?_, fun h => h.2.1, hg _, ?_, ?_⟩
    · change _ = (C t.c0.toRat * X ^ 2 + C t.c1.toRat * X + C t.c2.toRat : ℚ[X]).coeff 1
      rw [coeff_quadratic]; simp
    · change (C t.c0.toRat * X ^ 2 + C (g t.c1).toRat * X + C t.c2.toRat : ℚ[X]) =
        C t.c0.toRat * X ^ 2 + C t.c1.toRat * X + C t.c2.toRat + _
      rw [C_sub]; ring
    · exact ⟨fun h => ⟨⟨h.1, hf _ h.2.1, h.2.2⟩, h.2.1⟩, fun h => ⟨h.1.1, h.2, h.1.2.2⟩⟩
  · refine ⟨t.c0, g t.c0, ?_, fun h => h.1, hg _, ?_, ?_⟩
    · change _ = (C t.c0.toRat * X ^ 2 + C t.c1.toRat * X + C t.c2.toRat : ℚ[X]).coeff 2
      rw [coeff_quadratic]; simp
    · change (C (g t.c0).toRat * X ^ 2 + C t.c1.toRat * X + C t.c2.toRat : ℚ[X]) =
        C t.c0.toRat * X ^ 2 + C t.c1.toRat * X + C t.c2.toRat + _
      rw [C_sub]; ring
    · exact ⟨fun h => ⟨⟨hf _ h.1, h.2.1, h.2.2⟩, h.1⟩, fun h => ⟨h.2, h.1.2.1, h.1.2.2⟩⟩

instance : LawfulFloatSink f (LinearBinomial (Fl f)) where
  add_ok s s' c d h := by
    change s.tryAddTerm c d = _ at h
    unfold LinearBinomial.tryAddTerm at h
    split at h
    · rename_i hd
      obtain ⟨rfl, -⟩ := Prod.mk.inj h
      exact stepAt_binomial s (· + c) c (fun x => addStep_add x c) (fun x h => (finite_of_add h).1) d hd
    · exact nomatch (Prod.mk.inj h).2
  add_err s s' c d e h := by
    change s.tryAddTerm c d = _ at h
    unfold LinearBinomial.tryAddTerm at h
    split at h
    · exact nomatch (Prod.mk.inj h).2
    · exact (Prod.mk.inj h).1.symm
  sub_ok s s' c d h := by
    change s.trySubTerm c d = _ at h
    unfold LinearBinomial.trySubTerm at h
    split at h
    · rename_i hd
      obtain ⟨rfl, -⟩ := Prod.mk.inj h
      exact stepAt_binomial s (· - c) (-c) (fun x => addStep_sub x c) (fun x h => (finite_of_sub h).1) d hd
    · exact nomatch (Prod.mk.inj h).2
  sub_err s s' c d e h := by
    change s.trySubTerm c d = _ at h
    unfold LinearBinomial.trySubTerm at h
    split at h
    · exact nomatch (Prod.mk.inj h).2
    · exact (Prod.mk.inj h).1.symm

instance : LawfulFloatSink f (QuadraticTrinomial (Fl f)) where
  add_ok s s' c d h := by
    change s.tryAddTerm c d = _ at h
    unfold QuadraticTrinomial.tryAddTerm at h
    split at h
    · rename_i hd
      obtain ⟨rfl, -⟩ := Prod.mk.inj h
      exact stepAt_trinomial s (· + c) c (fun x => addStep_add x c) (fun x h => (finite_of_add h).1) d hd
    · exact nomatch (Prod.mk.inj h).2
  add_err s s' c d e h := by
    change s.tryAddTerm c d = _ at h
    unfold QuadraticTrinomial.tryAddTerm at h
    split at h
    · exact nomatch (Prod.mk.inj h).2
    · exact (Prod.mk.inj h).1.symm
  sub_ok s s' c d h := by
    change s.trySubTerm c d = _ at h
    unfold QuadraticTrinomial.trySubTerm at h
    split at h
    · rename_i hd
      obtain ⟨rfl, -⟩ := Prod.mk.inj h
      exact stepAt_trinomial s (· - c) (-c) (fun x => addStep_sub x c) (fun x h => (finite_of_sub h).1) d hd
    · exact nomatch (Prod.mk.inj h).2
  sub_err s s' c d e h := by
    change s.trySubTerm c d = _ at h
    unfold QuadraticTrinomial.trySubTerm at h
    split at h
    · exact nomatch (Prod.mk.inj h).2
    · exact (Prod.mk.inj h).1.symm

/-! ## C91 – one term -/

section
variable {S : Type} [FloatSink f S] [MutPoly (Fl f) S] [LawfulFloatSink f S]

omit [MutPoly (Fl f) S] [LawfulFloatSink f S] in
theorem StepAt.spec {s s' : S} {c : Fl f} {d : Nat} (h : StepAt s c d s') :
    (FloatSink.AllFinite s' → FloatSink.AllFinite s ∧ c.isFinite = true ∧
      ∀ k, |(FloatSink.ratPoly s').coeff k - (FloatSink.ratPoly s + C c.toRat * X ^ d).coeff k| ≤
        if k = d then uro f * |(FloatSink.ratPoly s).coeff d + c.toRat| else 0) ∧
    (1 ≤ f.p → f.p ≤ f.w → FloatSink.AllFinite s → c.isFinite = true → c.Valid → (FloatSink.ratPoly s).coeff d = 0 →
      FloatSink.AllFinite s' ∧ FloatSink.ratPoly s' = FloatSink.ratPoly s + C c.toRat * X ^ d) ∧
    (1 ≤ f.p → f.p + f.q ≤ f.w → FloatSink.AllFinite s → c.IntValued → (∃ n : ℤ, (FloatSink.ratPoly s).coeff d = n) →
      |(FloatSink.ratPoly s).coeff d + c.toRat| < 2 ^ f.p →
      FloatSink.AllFinite s' ∧ FloatSink.ratPoly s' = FloatSink.ratPoly s + C c.toRat * X ^ d) := by
  obtain ⟨x, y, hx, hxf, hs, hr, hf⟩ := h
  refine ⟨fun h => ?_, fun hp hw ha hc hv h0 => ?_, fun hp hw ha hc hn hb => ?_⟩
  · obtain ⟨h1, h2⟩ := hf.1 h
    obtain ⟨h3, h4⟩ := hs.error h2 (hxf h1)
    refine ⟨h1, h3, fun k => ?_⟩
    rw [hr, coeff_add, coeff_add, coeff_C_mul, coeff_C_mul, coeff_X_pow]
    by_cases hk : k = d
    · subst hk
      rw [if_pos rfl, if_pos rfl, ← hx]
      have : x.toRat + (y.toRat - x.toRat) * 1 - (x.toRat + c.toRat * 1) = y.toRat - (x.toRat + c.toRat) := by ring
      rw [this]; exact h4
    · rw [if_neg hk, if_neg hk]; simp
  · obtain ⟨h1, h2⟩ := hs.exact hp hw (hxf ha) (hx.trans h0) hv hc
    exact ⟨hf.2 ⟨ha, h1⟩, by rw [hr, h2, hx, h0, sub_zero]⟩
  · obtain ⟨h1, h2⟩ := hs.int hp hw ⟨hxf ha, by rw [hx]; exact hn⟩ hc (by rw [hx]; exact hb)
    exact ⟨hf.2 ⟨ha, h1⟩, by rw [hr, h2]; congr 3; ring⟩

/-- C91: adding a term to any of the six types.  Where it succeeds with finite coefficients, the old coefficients and
the new one were finite, only the coefficient of that degree changes, and it is the sum with one rounding.  Adding a
number of the format to a zero coefficient is exact, and so is adding whole numbers as long as the sum is below
`2^p`.  An error leaves the value as it was. -/
theorem C91_try_add (s s' : S) (c : Fl f) (d : Nat) :
    (MutPoly.tryAddTerm s c d = (s', .ok ()) →
      (FloatSink.AllFinite s' → FloatSink.AllFinite s ∧ c.isFinite = true ∧
        ∀ k, |(FloatSink.ratPoly s').coeff k - (FloatSink.ratPoly s + C c.toRat * X ^ d).coeff k| ≤
          if k = d then uro f * |(FloatSink.ratPoly s).coeff d + c.toRat| else 0) ∧
      (1 ≤ f.p → f.p ≤ f.w → FloatSink.AllFinite s → c.isFinite = true → c.Valid →
        (FloatSink.ratPoly s).coeff d = 0 →
        FloatSink.AllFinite s' ∧ FloatSink.ratPoly s' = FloatSink.ratPoly s + C c.toRat * X ^ d) ∧
      (1 ≤ f.p → f.p + f.q ≤ f.w → FloatSink.AllFinite s → c.IntValued →
        (∃ n : ℤ, (FloatSink.ratPoly s).coeff d = n) → |(FloatSink.ratPoly s).coeff d + c.toRat| < 2 ^ f.p →
        FloatSink.AllFinite s' ∧ FloatSink.ratPoly s' = FloatSink.ratPoly s + C c.toRat * X ^ d)) ∧
    (∀ e, MutPoly.tryAddTerm s c d = (s', .error e) → s' = s) :=
  ⟨fun h => (LawfulFloatSink.add_ok s s' c d h).spec, fun e h => LawfulFloatSink.add_err s s' c d e h⟩

theorem valid_neg {c : Fl f} (h : c.Valid) : (-c).Valid := by cases c <;> exact h

/-- C91: the same for subtracting a term. -/
theorem C91_try_sub (s s' : S) (c : Fl f) (d : Nat) :
    (MutPoly.trySubTerm s c d = (s', .ok ()) →
      (FloatSink.AllFinite s' → FloatSink.AllFinite s ∧ c.isFinite = true ∧
        ∀ k, |(FloatSink.ratPoly s').coeff k - (FloatSink.ratPoly s - C c.toRat * X ^ d).coeff k| ≤
          if k = d then uro f * |(FloatSink.ratPoly s).coeff d - c.toRat| else 0) ∧
      (1 ≤ f.p → f.p ≤ f.w → FloatSink.AllFinite s → c.isFinite = true → c.Valid →
        (FloatSink.ratPoly s).coeff d = 0 →
        FloatSink.AllFinite s' ∧ FloatSink.ratPoly s' = FloatSink.ratPoly s - C c.toRat * X ^ d) ∧
      (1 ≤ f.p → f.p + f.q ≤ f.w → FloatSink.AllFinite s → c.IntValued →
        (∃ n : ℤ, (FloatSink.ratPoly s).coeff d = n) → |(FloatSink.ratPoly s).coeff d - c.toRat| < 2 ^ f.p →
        FloatSink.AllFinite s' ∧ FloatSink.ratPoly s' = FloatSink.ratPoly s - C c.toRat * X ^ d)) ∧
    (∀ e, MutPoly.trySubTerm s c d = (s', .error e) → s' = s) := by
  refine ⟨fun h => ?_, fun e h => LawfulFloatSink.sub_err s s' c d e h⟩
  obtain ⟨h1, h2, h3⟩ := (LawfulFloatSink.sub_ok s s' c d h).spec
  have hneg : FloatSink.ratPoly s + C (-c).toRat * X ^ d = FloatSink.ratPoly s - C c.toRat * X ^ d := by
    rw [toRat_neg, C_neg]; ring
  rw [hneg, isFinite_neg, toRat_neg, ← sub_eq_add_neg] at h1
  rw [hneg, isFinite_neg] at h2
  rw [hneg, toRat_neg, ← sub_eq_add_neg] at h3
  exact ⟨h1, fun hp hw ha hc hv => h2 hp hw ha hc (valid_neg hv), fun hp hw ha hc => h3 hp hw ha (IntValued_neg c hc)⟩

end

/-- C91: when adding and subtracting a term succeed in floating point: always for `Polynomial` and
`SparsePolynomial`, for a monomial when it is zero or the degree is its own, otherwise when there is a place for the
degree. -/
theorem C91_outcomes (c : Fl f) (d : Nat) (p : Poly (Fl f)) (s : Sparse (Fl f)) (m : Monomial (Fl f))
    (b : LinearBinomial (Fl f)) (t : QuadraticTrinomial (Fl f)) {size : Nat} (a : ArrayPoly (Fl f) size) :
    ((p.tryAddTerm c d).2 = .ok () ∧ (p.trySubTerm c d).2 = .ok ()) ∧
    ((s.tryAddTerm c d).2 = .ok () ∧ (s.trySubTerm c d).2 = .ok ()) ∧
    (m.coefficient.isFinite = true →
      (m.tryAddTerm c d).2 = (if m.coefficient.toRat = 0 ∨ d = m.deg then .ok () else .error .tooManyTerms) ∧
      (m.trySubTerm c d).2 = (if m.coefficient.toRat = 0 ∨ d = m.deg then .ok () else .error .tooManyTerms)) ∧
    ((b.tryAddTerm c d).2 = (if d ≤ 1 then .ok () else .error .degreeOutOfBounds) ∧
      (b.trySubTerm c d).2 = if d ≤ 1 then .ok () else .error .degreeOutOfBounds) ∧
    ((t.tryAddTerm c d).2 = (if d ≤ 2 then .ok () else .error .degreeOutOfBounds) ∧
      (t.trySubTerm c d).2 = if d ≤ 2 then .ok () else .error .degreeOutOfBounds) ∧
    ((a.tryAddTerm c d).2 = (if d < size then .ok () else .error .degreeOutOfBounds) ∧
      (a.trySubTerm c d).2 = if d < size then .ok () else .error .degreeOutOfBounds) := by
  refine ⟨⟨rfl, ?_⟩, ⟨rfl, ?_⟩, fun hm => ?_, ⟨?_, ?_⟩, ⟨?_, ?_⟩, ⟨?_, ?_⟩⟩
  · unfold Poly.trySubTerm; simp only [CanNegate.canNegate]; split <;> rfl
  · unfold Sparse.trySubTerm; simp only [CanNegate.canNegate]; split
    · rfl
    · split <;> rfl
  · have h1 : m.isZeroPoly = true ↔ m.coefficient.toRat = 0 := (monomial_isZero m).trans (isZero_iff_toRat hm)
    unfold Monomial.tryAddTerm Monomial.trySubTerm
    by_cases h2 : m.isZeroPoly = true
    · rw [if_pos h2, if_pos h2, if_pos (.inl (h1.1 h2))]; exact ⟨rfl, rfl⟩
    · have h3 : ¬ m.coefficient.toRat = 0 := fun h => h2 (h1.2 h)
      rw [if_neg h2, if_neg h2]
      by_cases h4 : d = m.deg
      · rw [if_pos h4, if_pos h4, if_pos (.inr h4)]; exact ⟨rfl, rfl⟩
      · rw [if_neg h4, if_neg h4, if_neg (by tauto)]; exact ⟨rfl, rfl⟩
  · unfold LinearBinomial.tryAddTerm; split <;> rfl
  · unfold LinearBinomial.trySubTerm; split <;> rfl
  · unfold QuadraticTrinomial.tryAddTerm; split <;> rfl
  · unfold QuadraticTrinomial.trySubTerm; split <;> rfl
  · unfold ArrayPoly.tryAddTerm; split <;> rfl
  · unfold ArrayPoly.trySubTerm; split <;> rfl

/-- 1/10 rounded to the format. -/
def exDime : Fl binary64 := div 1 (ofNat 10)

theorem valid_div (hp : 1 ≤ f.p) (x y : Fl f) : (div x y).Valid := (C65_closed hp x y).2.2.2.1

theorem valid_ofNat (hp : 1 ≤ f.p) (n : Nat) : (ofNat n : Fl f).Valid := (C65_of_nat hp n).1

seal Valid in
theorem exTenth_valid : exDime.isFinite = true ∧ exDime.Valid :=
  ⟨by decide +kernel, valid_div (f := binary64) (by decide) 1 (ofNat 10)⟩

-- one rounding: 1/10 + 2/10 is not the float nearest to 3/10
example : (⟨[ofNat 3, exDime]⟩ : Poly (Fl binary64)).tryAddTerm (div 1 (ofNat 5)) 0 =
      (⟨[ofNat 3, fin false (5404319552844596 * 2 ^ 1020)]⟩, .ok ()) ∧
    fin false (5404319552844596 * 2 ^ 1020) ≠ (div (ofNat 3) (ofNat 10) : Fl binary64) := by decide +kernel
-- the zero constant term takes 1/10 exactly; a monomial refuses another degree; a map subtracts from nothing
example : (⟨0, 7⟩ : Monomial (Fl binary64)).tryAddTerm exDime 2 = (⟨exDime, 2⟩, .ok ()) ∧
    (⟨exDime, 7⟩ : Monomial (Fl binary64)).trySubTerm 1 2 = (⟨exDime, 7⟩, .error .tooManyTerms) ∧
    ((⟨.empty⟩ : Sparse (Fl binary64)).trySubTerm exDime 4).1.terms.entries = [(4, -exDime)] := by decide +kernel
example : FloatSink.AllFinite (⟨[ofNat 3, 0]⟩ : Poly (Fl binary64)) ∧
    (FloatSink.ratPoly (⟨[ofNat 3, 0]⟩ : Poly (Fl binary64))).coeff 0 = 0 := by
  refine ⟨fun c hc => by revert c; decide +kernel, ?_⟩
  change (descPoly [(ofNat 3 : Fl binary64).toRat, (0 : Fl binary64).toRat]).coeff 0 = 0
  simp [descPoly]

/-! ## Many terms -/

section
variable {S : Type} [FloatSink f S] [MutPoly (Fl f) S] [LawfulFloatSink f S]

/-- Terms added one after the other. -/
inductive Run : S → List (Fl f × Nat) → S → Prop
  | nil (s : S) : Run s [] s
  | cons {s s₁ s' : S} {t : Fl f × Nat} {ts : List (Fl f × Nat)} : StepAt s t.1 t.2 s₁ → Run s₁ ts s' →
      Run s (t :: ts) s'

omit [MutPoly (Fl f) S] [LawfulFloatSink f S] in
theorem Run.append {s s₁ s' : S} {a b : List (Fl f × Nat)} (h : Run s a s₁) (h' : Run s₁ b s') : Run s (a ++ b) s' := by
  induction h with
  | nil => exact h'
  | cons h1 _ ih => exact .cons h1 (ih h')

theorem run_addPoly (ts : List (Fl f × Nat)) (s s' : S) (h : addPoly ts s = (s', .ok ())) : Run s ts s' := by
  induction ts generalizing s with
  | nil => obtain ⟨rfl, -⟩ := Prod.mk.inj h; exact .nil _
  | cons t ts ih =>
    obtain ⟨c, d⟩ := t
    unfold addPoly at h
    split at h
    · rename_i s1 h1; exact .cons (LawfulFloatSink.add_ok _ _ _ _ h1) (ih _ h)
    · exact nomatch (Prod.mk.inj h).2

def negTerms (ts : List (Fl f × Nat)) : List (Fl f × Nat) := ts.map fun t => (-t.1, t.2)

theorem run_subPoly (ts : List (Fl f × Nat)) (s s' : S) (h : subPoly ts s = (s', .ok ())) : Run s (negTerms ts) s' := by
  induction ts generalizing s with
  | nil => obtain ⟨rfl, -⟩ := Prod.mk.inj h; exact .nil _
  | cons t ts ih =>
    obtain ⟨c, d⟩ := t
    unfold subPoly at h
    split at h
    · rename_i s1 h1; exact .cons (LawfulFloatSink.sub_ok _ _ _ _ h1) (ih _ h)
    · exact nomatch (Prod.mk.inj h).2

theorem err_addPoly (ts : List (Fl f × Nat)) (s s' : S) (e : TryAddError) (h : addPoly ts s = (s', .error e)) :
    ∃ pre t post, ts = pre ++ t :: post ∧ addPoly pre s = (s', .ok ()) ∧
      MutPoly.tryAddTerm s' t.1 t.2 = (s', .error e) := by
  induction ts generalizing s with
  | nil => exact nomatch (Prod.mk.inj h).2
  | cons t ts ih =>
    obtain ⟨c, d⟩ := t
    unfold addPoly at h
    split at h
    · rename_i s1 h1
      obtain ⟨pre, t, post, rfl, h2, h3⟩ := ih _ h
      exact ⟨(c, d) :: pre, t, post, rfl, by simp only [addPoly, h1]; exact h2, h3⟩
    · rename_i s1 e1 h1
      obtain ⟨rfl, he⟩ := Prod.mk.inj h
      cases he
      have := LawfulFloatSink.add_err _ _ _ _ _ h1
      subst this
      exact ⟨[], (c, d), ts, rfl, rfl, h1⟩

theorem err_subPoly (ts : List (Fl f × Nat)) (s s' : S) (e : TryAddError) (h : subPoly ts s = (s', .error e)) :
    ∃ pre t post, ts = pre ++ t :: post ∧ subPoly pre s = (s', .ok ()) ∧
      MutPoly.trySubTerm s' t.1 t.2 = (s', .error e) := by
  induction ts generalizing s with
  | nil => exact nomatch (Prod.mk.inj h).2
  | cons t ts ih =>
    obtain ⟨c, d⟩ := t
    unfold subPoly at h
    split at h
    · rename_i s1 h1
      obtain ⟨pre, t, post, rfl, h2, h3⟩ := ih _ h
      exact ⟨(c, d) :: pre, t, post, rfl, by simp only [subPoly, h1]; exact h2, h3⟩
    · rename_i s1 e1 h1
      obtain ⟨rfl, he⟩ := Prod.mk.inj h
      cases he
      have := LawfulFloatSink.sub_err _ _ _ _ _ h1
      subst this
      exact ⟨[], (c, d), ts, rfl, rfl, h1⟩

theorem ratTerms_cons (t : Fl f × Nat) (ts : List (Fl f × Nat)) :
    ratTerms (t :: ts) = C t.1.toRat * X ^ t.2 + ratTerms ts := by simp [ratTerms, termsPoly_cons]

theorem absTerms_cons (t : Fl f × Nat) (ts : List (Fl f × Nat)) :
    absTerms (t :: ts) = C |t.1.toRat| * X ^ t.2 + absTerms ts := by simp [absTerms, termsPoly_cons]

theorem coeff_mono (c : ℚ) (d k : Nat) : (C c * X ^ d : ℚ[X]).coeff k = if k = d then c else 0 := by
  rw [coeff_C_mul, coeff_X_pow]; split <;> simp

theorem absTerms_nonneg (ts : List (Fl f × Nat)) (k : Nat) : 0 ≤ (absTerms ts).coeff k := by
  induction ts with
  | nil => simp [absTerms]
  | cons t ts ih =>
    rw [absTerms_cons, coeff_add, coeff_mono]
    have : (0 : ℚ) ≤ if k = t.2 then |t.1.toRat| else 0 := by split <;> positivity
    linarith

theorem ratTerms_le (ts : List (Fl f × Nat)) (k : Nat) : |(ratTerms ts).coeff k| ≤ (absTerms ts).coeff k := by
  induction ts with
  | nil => simp [absTerms, ratTerms]
  | cons t ts ih =>
    rw [absTerms_cons, ratTerms_cons, coeff_add, coeff_add, coeff_mono, coeff_mono]
    refine (abs_add_le _ _).trans (add_le_add ?_ ih)
    split <;> simp

/-- The number of terms of degree `k`. -/
def termCount (ts : List (Fl f × Nat)) (k : Nat) : Nat := ts.countP fun t => t.2 = k

theorem pow_one_le (n : Nat) : (1 : ℚ) ≤ (1 + uro f) ^ n := one_le_pow₀ (by linarith [uro_nonneg (f := f)])

omit [MutPoly (Fl f) S] [LawfulFloatSink f S] in
theorem Run.error {s s' : S} {ts : List (Fl f × Nat)} (h : Run s ts s') (hf : FloatSink.AllFinite s') :
    FloatSink.AllFinite s ∧ (∀ t ∈ ts, t.1.isFinite = true) ∧
      ∀ k, |(FloatSink.ratPoly s').coeff k - (FloatSink.ratPoly s + ratTerms ts).coeff k| ≤
        ((1 + uro f) ^ termCount ts k - 1) * (|(FloatSink.ratPoly s).coeff k| + (absTerms ts).coeff k) := by
  induction h with
  | nil s => exact ⟨hf, by simp, by simp [ratTerms, termCount]⟩
  | @cons s s₁ s' t ts h1 _ ih =>
    obtain ⟨h2, h3, h4⟩ := ih hf
    obtain ⟨h5, h6, h7⟩ := h1.spec.1 h2
    refine ⟨h5, List.forall_mem_cons.2 ⟨h6, h3⟩, fun k => ?_⟩
    replace h4 := h4 k
    replace h7 := h7 k
    have hu := uro_nonneg (f := f)
    have hA := absTerms_nonneg ts k
    rw [ratTerms_cons, absTerms_cons]
    simp only [coeff_add, coeff_mono] at h4 h7 ⊢
    by_cases hk : k = t.2
    · subst hk
      have hcnt : termCount (t :: ts) t.2 = termCount ts t.2 + 1 := by simp [termCount]
      rw [hcnt]
      simp only [if_true] at h7 ⊢
      generalize (FloatSink.ratPoly s').coeff t.2 = v' at *
      generalize (FloatSink.ratPoly s₁).coeff t.2 = v₁ at *
      generalize (FloatSink.ratPoly s).coeff t.2 = v at *
      generalize (ratTerms ts).coeff t.2 = r at *
      generalize (absTerms ts).coeff t.2 = A at *
      generalize t.1.toRat = c at *
      have hP := pow_one_le (f := f) (termCount ts t.2)
      rw [pow_succ]
      generalize (1 + uro f) ^ termCount ts t.2 = P at *
      generalize uro f = u at *
      have hvc : |v + c| ≤ |v| + |c| := abs_add_le _ _
      have hv1 : |v₁| ≤ (1 + u) * (|v| + |c|) := by
        have : |v₁| ≤ |v₁ - (v + c)| + |v + c| := by
          have := abs_add_le (v₁ - (v + c)) (v + c); simpa using this
        nlinarith
      calc |v' - (v + (c + r))| = |(v' - (v₁ + r)) + (v₁ - (v + c))| := by congr 1; ring
        _ ≤ (P - 1) * (|v₁| + A) + u * |v + c| := (abs_add_le _ _).trans (add_le_add h4 h7)
        _ ≤ (P - 1) * ((1 + u) * (|v| + |c|) + A) + u * (|v| + |c|) := by
            have : 0 ≤ P - 1 := by linarith
            gcongr
        _ ≤ (P * (1 + u) - 1) * (|v| + (|c| + A)) := by nlinarith [mul_nonneg (mul_nonneg (by linarith : 0 ≤ P) hu) hA]
    · have hcnt : termCount (t :: ts) k = termCount ts k := by
        have : ¬ t.2 = k := fun h => hk h.symm
        simp [termCount, this]
      rw [hcnt]
      simp only [if_neg hk, add_zero, zero_add] at h7 ⊢
      have : (FloatSink.ratPoly s₁).coeff k = (FloatSink.ratPoly s).coeff k :=
        sub_eq_zero.1 (abs_eq_zero.1 (le_antisymm h7 (abs_nonneg _)))
      rw [this] at h4
      exact h4

omit [MutPoly (Fl f) S] [LawfulFloatSink f S] in
/-- From a coefficient of value zero the first addition is exact. -/
theorem Run.error_zero (hp : 1 ≤ f.p) (hw : f.p ≤ f.w) {s s' : S} {ts : List (Fl f × Nat)} (h : Run s ts s')
    (hf : FloatSink.AllFinite s') (hv : ∀ t ∈ ts, t.1.Valid) (k : Nat) (h0 : (FloatSink.ratPoly s).coeff k = 0) :
    |(FloatSink.ratPoly s').coeff k - (ratTerms ts).coeff k| ≤
      ((1 + uro f) ^ (termCount ts k - 1) - 1) * (absTerms ts).coeff k := by
  induction h with
  | nil s => rw [h0]; simp [ratTerms, termCount]
  | @cons s s₁ s' t ts h1 h' ih =>
    have hcons := Run.cons h1 h'
    obtain ⟨h2, h3, h4⟩ := h'.error hf
    obtain ⟨h5, h6, h7⟩ := h1.spec.1 h2
    by_cases hk : k = t.2
    · subst hk
      obtain ⟨-, h8⟩ := h1.spec.2.1 hp hw h5 h6 (hv t (by simp)) h0
      have h4 := h4 t.2
      have hcnt : termCount (t :: ts) t.2 = termCount ts t.2 + 1 := by simp [termCount]
      rw [hcnt, ratTerms_cons, absTerms_cons]
      rw [h8] at h4
      simp only [coeff_add, coeff_mono, if_true, h0, zero_add] at h4 ⊢
      simpa using h4
    · have hcnt : termCount (t :: ts) k = termCount ts k := by
        have : ¬ t.2 = k := fun h => hk h.symm
        simp [termCount, this]
      have h7 := h7 k
      rw [if_neg hk, coeff_add, coeff_mono, if_neg hk, add_zero] at h7
      have : (FloatSink.ratPoly s₁).coeff k = (FloatSink.ratPoly s).coeff k :=
        sub_eq_zero.1 (abs_eq_zero.1 (le_antisymm h7 (abs_nonneg _)))
      have := ih hf (fun t ht => hv t (by simp [ht])) (by rw [this, h0])
      rw [hcnt, ratTerms_cons, absTerms_cons]
      simpa only [coeff_add, coeff_mono, if_neg hk, zero_add] using this

omit [MutPoly (Fl f) S] [LawfulFloatSink f S] in
theorem Run.int (hp : 1 ≤ f.p) (hw : f.p + f.q ≤ f.w) {s s' : S} {ts : List (Fl f × Nat)} (h : Run s ts s')
    (hs : FloatSink.AllFinite s) (hn : ∀ k, ∃ n : ℤ, (FloatSink.ratPoly s).coeff k = n) (ht : ∀ t ∈ ts, t.1.IntValued)
    (hb : ∀ k, |(FloatSink.ratPoly s).coeff k| + (absTerms ts).coeff k < 2 ^ f.p) :
    FloatSink.AllFinite s' ∧ FloatSink.ratPoly s' = FloatSink.ratPoly s + ratTerms ts := by
  induction h with
  | nil s => exact ⟨hs, by simp [ratTerms]⟩
  | @cons s s₁ s' t ts h1 _ ih =>
    have hti := ht t (by simp)
    have hA := fun k => absTerms_nonneg ts k
    simp only [absTerms_cons, coeff_add, coeff_mono] at hb
    obtain ⟨h2, h3⟩ := h1.spec.2.2 hp hw hs hti (hn _) (by
      have h4 := hb t.2
      have h5 := hA t.2
      rw [if_pos rfl] at h4
      have := abs_add_le ((FloatSink.ratPoly s).coeff t.2) t.1.toRat
      linarith)
    obtain ⟨h4, h5⟩ := ih h2 (fun k => by
        rw [h3, coeff_add, coeff_mono]
        obtain ⟨m, hm⟩ := hn k
        obtain ⟨-, n, hn⟩ := hti
        split
        · exact ⟨m + n, by rw [hm, hn]; push_cast; rfl⟩
        · exact ⟨m, by rw [hm, add_zero]⟩) (fun t ht' => ht t (by simp [ht'])) (fun k => by
        have h4 := hb k
        rw [h3, coeff_add, coeff_mono]
        split at h4
        · rename_i hk
          rw [if_pos hk]
          have := abs_add_le ((FloatSink.ratPoly s).coeff k) t.1.toRat
          linarith
        · rename_i hk; rw [if_neg hk, add_zero]; linarith)
    exact ⟨h4, by rw [h5, h3, ratTerms_cons, add_assoc]⟩

/-! ## C91 – `add_poly` and `sub_poly` -/

/-- C91: `add_poly` on any of the six types: finite results come from finite data, with at most one rounding for each
term of the degree, relative to the sum of the absolute values.  At an error the sink holds the terms before the one
refused. -/
theorem C91_add_poly (ts : List (Fl f × Nat)) (s s' : S) :
    (addPoly ts s = (s', .ok ()) → FloatSink.AllFinite s' →
      FloatSink.AllFinite s ∧ (∀ t ∈ ts, t.1.isFinite = true) ∧
      ∀ k, |(FloatSink.ratPoly s').coeff k - (FloatSink.ratPoly s + ratTerms ts).coeff k| ≤
        ((1 + uro f) ^ (ts.countP fun t => t.2 = k) - 1) *
          (|(FloatSink.ratPoly s).coeff k| + (absTerms ts).coeff k)) ∧
    (∀ e, addPoly ts s = (s', .error e) → ∃ pre t post, ts = pre ++ t :: post ∧ addPoly pre s = (s', .ok ()) ∧
      MutPoly.tryAddTerm s' t.1 t.2 = (s', .error e)) :=
  ⟨fun h hf => (run_addPoly ts s s' h).error hf, err_addPoly ts s s'⟩

theorem negTerms_spec (ts : List (Fl f × Nat)) : ratTerms (negTerms ts) = -ratTerms ts ∧
    absTerms (negTerms ts) = absTerms ts ∧ (∀ k, termCount (negTerms ts) k = termCount ts k) ∧
    ((∀ t ∈ negTerms ts, t.1.isFinite = true) ↔ ∀ t ∈ ts, t.1.isFinite = true) ∧
    ((∀ t ∈ ts, t.1.IntValued) → ∀ t ∈ negTerms ts, t.1.IntValued) := by
  refine ⟨?_, ?_, ?_, ?_, ?_⟩
  · induction ts with
    | nil => simp [ratTerms, negTerms]
    | cons t ts ih =>
      change ratTerms ((-t.1, t.2) :: negTerms ts) = _
      rw [ratTerms_cons, ratTerms_cons, ih, toRat_neg, C_neg]; ring
  · unfold absTerms negTerms; rw [List.map_map]; congr 1; apply List.map_congr_left; intro t _; simp [toRat_neg]
  · intro k; unfold termCount negTerms; rw [List.countP_map]; rfl
  · unfold negTerms
    rw [List.forall_mem_map]
    simp only [isFinite_neg]
  · intro h t ht
    obtain ⟨u, hu, rfl⟩ := List.mem_map.1 ht
    exact IntValued_neg _ (h u hu)

/-- C91: the same for `sub_poly`. -/
theorem C91_sub_poly (ts : List (Fl f × Nat)) (s s' : S) :
    (subPoly ts s = (s', .ok ()) → FloatSink.AllFinite s' →
      FloatSink.AllFinite s ∧ (∀ t ∈ ts, t.1.isFinite = true) ∧
      ∀ k, |(FloatSink.ratPoly s').coeff k - (FloatSink.ratPoly s - ratTerms ts).coeff k| ≤
        ((1 + uro f) ^ (ts.countP fun t => t.2 = k) - 1) *
          (|(FloatSink.ratPoly s).coeff k| + (absTerms ts).coeff k)) ∧
    (∀ e, subPoly ts s = (s', .error e) → ∃ pre t post, ts = pre ++ t :: post ∧ subPoly pre s = (s', .ok ()) ∧
      MutPoly.trySubTerm s' t.1 t.2 = (s', .error e)) := by
  refine ⟨fun h hf => ?_, err_subPoly ts s s'⟩
  obtain ⟨h1, h2, h3⟩ := (run_subPoly ts s s' h).error hf
  obtain ⟨g1, g2, g3, g4, -⟩ := negTerms_spec ts
  rw [g1, ← sub_eq_add_neg, g2] at h3
  exact ⟨h1, g4.1 h2, fun k => by have := h3 k; rwa [g3] at this⟩

/-- C91: `add_poly` and `sub_poly` of whole numbers are exact while the sums of the absolute values stay below
`2^p`. -/
theorem C91_int (hp : 1 ≤ f.p) (hw : f.p + f.q ≤ f.w) (ts : List (Fl f × Nat)) (s s' : S)
    (hs : FloatSink.AllFinite s) (hn : ∀ k, ∃ n : ℤ, (FloatSink.ratPoly s).coeff k = n) (ht : ∀ t ∈ ts, t.1.IntValued)
    (hb : ∀ k, |(FloatSink.ratPoly s).coeff k| + (absTerms ts).coeff k < 2 ^ f.p) :
    (addPoly ts s = (s', .ok ()) →
      FloatSink.AllFinite s' ∧ FloatSink.ratPoly s' = FloatSink.ratPoly s + ratTerms ts) ∧
    (subPoly ts s = (s', .ok ()) →
      FloatSink.AllFinite s' ∧ FloatSink.ratPoly s' = FloatSink.ratPoly s - ratTerms ts) := by
  obtain ⟨g1, g2, -, -, g5⟩ := negTerms_spec ts
  refine ⟨fun h => (run_addPoly ts s s' h).int hp hw hs hn ht hb, fun h => ?_⟩
  have := (run_subPoly ts s s' h).int hp hw hs hn (g5 ht) (by rw [g2]; exact hb)
  rwa [g1, ← sub_eq_add_neg] at this

-- two of the three terms have degree 0, so `C91_add_poly` allows two roundings there
example : addPoly [(exDime, 0), (1, 1), (exDime, 0)] (⟨1, exDime⟩ : LinearBinomial (Fl binary64)) =
      (⟨ofNat 2, exDime + exDime + exDime⟩, .ok ()) ∧
    addPoly [(exDime, 0), (1, 2), (exDime, 0)] (⟨1, exDime⟩ : LinearBinomial (Fl binary64)) =
      (⟨1, exDime + exDime⟩, .error .degreeOutOfBounds) ∧
    subPoly [(exDime, 2), (1, 1)] (⟨exDime, exDime, 1⟩ : QuadraticTrinomial (Fl binary64)) =
      (⟨0, exDime - 1, 1⟩, .ok ()) := by decide +kernel
example : (∀ t ∈ [((ofNat 3 : Fl binary64), 1), (-ofNat 2, 0)], t.1.IntValued) ∧
    addPoly [((ofNat 3 : Fl binary64), 1), (-ofNat 2, 0)] exW = (⟨[ofNat 3, -ofNat 2, ofNat 5]⟩, .ok ()) :=
  ⟨fun t ht => intValued_of (by revert t; decide +kernel), by decide +kernel⟩

end

/-! ## C91 – `mul_poly_vec` -/

/-- The products, in the order of the loops. -/
def prodTerms (L : List ((Fl f × Nat) × (Fl f × Nat))) : List (Fl f × Nat) := L.map fun t => (t.1.1 * t.2.1, t.1.2 + t.2.2)

noncomputable def prodRat (L : List ((Fl f × Nat) × (Fl f × Nat))) : ℚ[X] :=
  termsPoly (L.map fun t => (t.1.1.toRat * t.2.1.toRat, t.1.2 + t.2.2))

noncomputable def prodAbs (L : List ((Fl f × Nat) × (Fl f × Nat))) : ℚ[X] :=
  termsPoly (L.map fun t => (|t.1.1.toRat| * |t.2.1.toRat|, t.1.2 + t.2.2))

theorem prodTerms_product (rhs lhs : List (Fl f × Nat)) :
    (rhs.flatMap fun r => lhs.map fun l => (r.1 * l.1, r.2 + l.2)) = prodTerms (rhs.product lhs) ∧
    prodRat (rhs.product lhs) = ratTerms rhs * ratTerms lhs ∧
    prodAbs (rhs.product lhs) = absTerms rhs * absTerms lhs := by
  refine ⟨?_, ?_, ?_⟩
  · simp [prodTerms, List.product, List.map_flatMap, Function.comp_def]
  · unfold prodRat ratTerms
    rw [← termsPoly_products]
    simp [List.product, List.map_flatMap, List.flatMap_map, Function.comp_def]
  · unfold prodAbs absTerms
    rw [← termsPoly_products]
    simp [List.product, List.map_flatMap, List.flatMap_map, Function.comp_def]

theorem prodAbs_cons (t : (Fl f × Nat) × (Fl f × Nat)) (L : List ((Fl f × Nat) × (Fl f × Nat))) :
    prodAbs (t :: L) = C (|t.1.1.toRat| * |t.2.1.toRat|) * X ^ (t.1.2 + t.2.2) + prodAbs L := by
  unfold prodAbs; rw [List.map_cons, termsPoly_cons]

theorem prodRat_cons (t : (Fl f × Nat) × (Fl f × Nat)) (L : List ((Fl f × Nat) × (Fl f × Nat))) :
    prodRat (t :: L) = C (t.1.1.toRat * t.2.1.toRat) * X ^ (t.1.2 + t.2.2) + prodRat L := by
  unfold prodRat; rw [List.map_cons, termsPoly_cons]

theorem prodAbs_nonneg (L : List ((Fl f × Nat) × (Fl f × Nat))) (k : Nat) : 0 ≤ (prodAbs L).coeff k := by
  induction L with
  | nil => simp [prodAbs]
  | cons t L ih =>
    rw [prodAbs_cons, coeff_add, coeff_mono]
    have : (0 : ℚ) ≤ if k = t.1.2 + t.2.2 then |t.1.1.toRat| * |t.2.1.toRat| else 0 := by split <;> positivity
    linarith

theorem prod_error (L : List ((Fl f × Nat) × (Fl f × Nat))) (h : ∀ t ∈ prodTerms L, t.1.isFinite = true) (k : Nat) :
    |(ratTerms (prodTerms L)).coeff k - (prodRat L).coeff k| ≤
      uro f * (prodAbs L).coeff k + termCount (prodTerms L) k * eta f ∧
    (absTerms (prodTerms L)).coeff k ≤ (1 + uro f) * (prodAbs L).coeff k + termCount (prodTerms L) k * eta f := by
  induction L with
  | nil => simp [ratTerms, absTerms, prodRat, prodAbs, prodTerms, termCount]
  | cons t L ih =>
    obtain ⟨h1, h2⟩ := ih fun t ht => h t (by simp only [prodTerms, List.map_cons, List.mem_cons]; exact .inr ht)
    have hf : (t.1.1 * t.2.1).isFinite = true := h (t.1.1 * t.2.1, t.1.2 + t.2.2) (by simp [prodTerms])
    have h3 := mul_error hf
    have hc : prodTerms (t :: L) = (t.1.1 * t.2.1, t.1.2 + t.2.2) :: prodTerms L := rfl
    rw [hc, ratTerms_cons, absTerms_cons, prodAbs_cons, prodRat_cons]
    simp only [coeff_add, coeff_mono]
    by_cases hk : k = t.1.2 + t.2.2
    · have hcnt : termCount ((t.1.1 * t.2.1, t.1.2 + t.2.2) :: prodTerms L) k = termCount (prodTerms L) k + 1 := by
        simp [termCount, hk]
      rw [hcnt]
      simp only [if_pos hk]
      rw [abs_mul] at h3
      have h4 : |(t.1.1 * t.2.1).toRat| ≤ |(t.1.1 * t.2.1).toRat - t.1.1.toRat * t.2.1.toRat| + |t.1.1.toRat| * |t.2.1.toRat| := by
        have := abs_add_le ((t.1.1 * t.2.1).toRat - t.1.1.toRat * t.2.1.toRat) (t.1.1.toRat * t.2.1.toRat)
        rw [abs_mul t.1.1.toRat t.2.1.toRat] at this
        simpa using this
      push_cast
      constructor
      · have h5 := abs_add_le ((t.1.1 * t.2.1).toRat - t.1.1.toRat * t.2.1.toRat)
          ((ratTerms (prodTerms L)).coeff k - (prodRat L).coeff k)
        rw [show (t.1.1 * t.2.1).toRat - t.1.1.toRat * t.2.1.toRat + ((ratTerms (prodTerms L)).coeff k - (prodRat L).coeff k) =
          (t.1.1 * t.2.1).toRat + (ratTerms (prodTerms L)).coeff k - (t.1.1.toRat * t.2.1.toRat + (prodRat L).coeff k) by ring] at h5
        linarith
      · linarith
    · have hcnt : termCount ((t.1.1 * t.2.1, t.1.2 + t.2.2) :: prodTerms L) k = termCount (prodTerms L) k := by
        have : ¬ t.1.2 + t.2.2 = k := fun h => hk h.symm
        simp [termCount, this]
      rw [hcnt]
      simp only [if_neg hk, zero_add]
      exact ⟨h1, h2⟩

theorem prod_int (hp : 1 ≤ f.p) (hw : f.p + f.q ≤ f.w) (L : List ((Fl f × Nat) × (Fl f × Nat)))
    (h : ∀ t ∈ L, t.1.1.IntValued ∧ t.2.1.IntValued) (hb : ∀ k, (prodAbs L).coeff k < 2 ^ f.p) :
    (∀ t ∈ prodTerms L, t.1.IntValued) ∧ ratTerms (prodTerms L) = prodRat L ∧ absTerms (prodTerms L) = prodAbs L := by
  induction L with
  | nil => simp [ratTerms, absTerms, prodRat, prodAbs, prodTerms]
  | cons t L ih =>
    have hn := prodAbs_nonneg L
    simp only [prodAbs_cons, coeff_add, coeff_mono] at hb
    obtain ⟨h1, h2, h3⟩ := ih (fun t ht => h t (by simp [ht])) (fun k => by
      have := hb k
      split at this
      · have h0 : 0 ≤ |t.1.1.toRat| * |t.2.1.toRat| := by positivity
        linarith
      · linarith)
    obtain ⟨ht1, ht2⟩ := h t (by simp)
    have h4 := hb (t.1.2 + t.2.2)
    rw [if_pos rfl] at h4
    obtain ⟨h5, h6⟩ := (Ex_mul hp hw _ _ ht1 ht2).2 (by
      simp only [abs_mul]
      have := hn (t.1.2 + t.2.2)
      linarith)
    simp only at h5 h6
    have hc : prodTerms (t :: L) = (t.1.1 * t.2.1, t.1.2 + t.2.2) :: prodTerms L := rfl
    refine ⟨?_, ?_, ?_⟩
    · rw [hc]; exact List.forall_mem_cons.2 ⟨h5, h1⟩
    · rw [hc, ratTerms_cons, prodRat_cons, h2]
      simp only [h6]
    · rw [hc, absTerms_cons, prodAbs_cons, h3]
      simp only [h6, abs_mul]

section
variable {S : Type} [FloatSink f S] [MutPoly (Fl f) S] [LawfulFloatSink f S]

/-- C91: `mul_poly_vec` on any of the six types: finite results come from finite data, with at most one rounding for
each product and one for each addition. -/
theorem C91_mul_poly_vec (rhs lhs : List (Fl f × Nat)) (s s' : S) (h : mulPolyVec rhs lhs s = (s', .ok ()))
    (hf : FloatSink.AllFinite s') :
    FloatSink.AllFinite s ∧ (∀ r ∈ rhs, ∀ l ∈ lhs, r.1.isFinite = true ∧ l.1.isFinite = true) ∧
    ∀ k m, (rhs.product lhs).countP (fun t => t.1.2 + t.2.2 = k) = m →
      |(FloatSink.ratPoly s').coeff k - (FloatSink.ratPoly s + ratTerms rhs * ratTerms lhs).coeff k| ≤
        ((1 + uro f) ^ (m + 1) - 1) * (|(FloatSink.ratPoly s).coeff k| + (absTerms rhs * absTerms lhs).coeff k) +
          m * (1 + uro f) ^ m * eta f := by
  rw [mulPolyVec_eq_addPoly] at h
  obtain ⟨g1, g2, g3⟩ := prodTerms_product rhs lhs
  rw [g1] at h
  obtain ⟨h1, h2, h3⟩ := (run_addPoly _ s s' h).error hf
  refine ⟨h1, fun r hr l hl => ?_, fun k m hm => ?_⟩
  · refine finite_of_mul (h2 (r.1 * l.1, r.2 + l.2) ?_)
    rw [← g1]
    exact List.mem_flatMap.2 ⟨r, hr, List.mem_map.2 ⟨l, hl, rfl⟩⟩
  · replace h3 := h3 k
    obtain ⟨h4, h5⟩ := prod_error (rhs.product lhs) h2 k
    have hcnt : termCount (prodTerms (rhs.product lhs)) k = m := by
      rw [← hm]; unfold termCount prodTerms; rw [List.countP_map]; rfl
    rw [hcnt] at h3 h4 h5
    rw [g2] at h4
    rw [g3] at h4 h5
    have hA : 0 ≤ (absTerms rhs * absTerms lhs).coeff k := by rw [← g3]; exact prodAbs_nonneg _ _
    have hu := uro_nonneg (f := f)
    have he := eta_nonneg (f := f)
    have hP := pow_one_le (f := f) m
    have hv := abs_nonneg ((FloatSink.ratPoly s).coeff k)
    have hm0 : (0 : ℚ) ≤ m := Nat.cast_nonneg m
    rw [coeff_add] at h3 ⊢
    rw [pow_succ]
    generalize (FloatSink.ratPoly s').coeff k = v' at *
    generalize (FloatSink.ratPoly s).coeff k = v at *
    generalize (ratTerms (prodTerms (rhs.product lhs))).coeff k = r at *
    generalize (absTerms (prodTerms (rhs.product lhs))).coeff k = a at *
    generalize (ratTerms rhs * ratTerms lhs).coeff k = R at *
    generalize (absTerms rhs * absTerms lhs).coeff k = A at *
    generalize (1 + uro f) ^ m = P at *
    generalize uro f = u at *
    generalize eta f = η at *
    have hP1 : 0 ≤ P - 1 := by linarith
    calc |v' - (v + R)| = |(v' - (v + r)) + (r - R)| := by congr 1; ring
      _ ≤ (P - 1) * (|v| + a) + (u * A + m * η) := (abs_add_le _ _).trans (add_le_add h3 h4)
      _ ≤ (P - 1) * (|v| + ((1 + u) * A + m * η)) + (u * A + m * η) := by gcongr
      _ ≤ (P * (1 + u) - 1) * (|v| + A) + m * P * η := by nlinarith [mul_nonneg (mul_nonneg (by linarith : 0 ≤ P) hu) hv]

/-- C91: `mul_poly_vec` of whole numbers is exact while the sums of the absolute values stay below `2^p`. -/
theorem C91_mul_int (hp : 1 ≤ f.p) (hw : f.p + f.q ≤ f.w) (rhs lhs : List (Fl f × Nat)) (s s' : S)
    (h : mulPolyVec rhs lhs s = (s', .ok ())) (hs : FloatSink.AllFinite s)
    (hn : ∀ k, ∃ n : ℤ, (FloatSink.ratPoly s).coeff k = n) (hr : ∀ t ∈ rhs, t.1.IntValued)
    (hl : ∀ t ∈ lhs, t.1.IntValued)
    (hb : ∀ k, |(FloatSink.ratPoly s).coeff k| + (absTerms rhs * absTerms lhs).coeff k < 2 ^ f.p) :
    FloatSink.AllFinite s' ∧ FloatSink.ratPoly s' = FloatSink.ratPoly s + ratTerms rhs * ratTerms lhs := by
  rw [mulPolyVec_eq_addPoly] at h
  obtain ⟨g1, g2, g3⟩ := prodTerms_product rhs lhs
  rw [g1] at h
  obtain ⟨h1, h2, h3⟩ := prod_int hp hw (rhs.product lhs)
    (fun t ht => by
      obtain ⟨h1, h2⟩ := List.mem_product.1 (show (t.1, t.2) ∈ rhs.product lhs from ht)
      exact ⟨hr _ h1, hl _ h2⟩)
    (fun k => by rw [g3]; have := hb k; linarith [abs_nonneg ((FloatSink.ratPoly s).coeff k)])
  have := (run_addPoly _ s s' h).int hp hw hs hn h1 (by rw [h3, g3]; exact hb)
  rwa [h2, g2] at this

end

example : mulPolyVec [(exDime, 1), (1, 0)] [(exDime, 1), (exDime, 0)] (⟨[]⟩ : Poly (Fl binary64)) =
      (⟨[exDime * exDime, exDime * exDime + exDime, exDime]⟩, .ok ()) ∧
    (([(exDime, 1), (1, 0)] : List (Fl binary64 × Nat)).product [(exDime, 1), (exDime, 0)]).countP
      (fun t => t.1.2 + t.2.2 = 1) = 2 ∧
    mulPolyVec [((ofNat 3 : Fl binary64), 1), (ofNat 2, 0)] [(ofNat 5, 1)] exW = (⟨[ofNat 18, ofNat 5, ofNat 7]⟩, .ok ()) := by
  decide +kernel

/-! ## C91 – `from_terms` -/

theorem run_fromTerms (ts : List (Fl f × Nat)) :
    Run (⟨[]⟩ : Poly (Fl f)) ts (Poly.fromTerms ts) ∧ Run (⟨.empty⟩ : Sparse (Fl f)) ts (Sparse.fromTerms ts) := by
  constructor
  · suffices ∀ s : Poly (Fl f), Run s ts (ts.foldl (fun a t => a.addTerm t.1 t.2) s) from this _
    induction ts with
    | nil => exact fun s => .nil s
    | cons t ts ih => exact fun s => .cons (LawfulFloatSink.add_ok s _ t.1 t.2 rfl) (ih _)
  · suffices ∀ s : Sparse (Fl f), Run s ts (ts.foldl (fun a t => a.addTerm t.1 t.2) s) from this _
    induction ts with
    | nil => exact fun s => .nil s
    | cons t ts ih => exact fun s => .cons (LawfulFloatSink.add_ok s _ t.1 t.2 rfl) (ih _)

theorem empty_spec : FloatSink.AllFinite (⟨[]⟩ : Poly (Fl f)) ∧ FloatSink.ratPoly (⟨[]⟩ : Poly (Fl f)) = 0 ∧
    FloatSink.AllFinite (⟨.empty⟩ : Sparse (Fl f)) ∧ FloatSink.ratPoly (⟨.empty⟩ : Sparse (Fl f)) = 0 := by
  refine ⟨?_, rfl, ?_, rfl⟩
  · intro c hc; cases hc
  · intro c hc; cases hc

theorem Run.distinct {S : Type} [FloatSink f S] (hp : 1 ≤ f.p) (hw : f.p ≤ f.w) {s s' : S} {ts : List (Fl f × Nat)}
    (h : Run s ts s') (hs : FloatSink.AllFinite s) (ht : ∀ t ∈ ts, t.1.isFinite = true ∧ t.1.Valid)
    (hd : (ts.map Prod.snd).Nodup) (h0 : ∀ t ∈ ts, (FloatSink.ratPoly s).coeff t.2 = 0) :
    FloatSink.AllFinite s' ∧ FloatSink.ratPoly s' = FloatSink.ratPoly s + ratTerms ts := by
  induction h with
  | nil s => exact ⟨hs, by simp [ratTerms]⟩
  | @cons s s₁ s' t ts h1 _ ih =>
    rw [List.map_cons, List.nodup_cons] at hd
    obtain ⟨h2, h3⟩ := h1.spec.2.1 hp hw hs (ht t (by simp)).1 (ht t (by simp)).2 (h0 t (by simp))
    obtain ⟨h4, h5⟩ := ih h2 (fun t h => ht t (by simp [h])) hd.2 (fun u hu => by
      rw [h3, coeff_add, coeff_mono, h0 u (by simp [hu]), if_neg, add_zero]
      intro h; exact hd.1 (List.mem_map.2 ⟨u, hu, h⟩))
    exact ⟨h4, by rw [h5, h3, ratTerms_cons, add_assoc]⟩

/-- C91: `from_terms` of both growing types.  With coefficients of the format, finite results come from finite terms,
the first term of a degree is stored exactly and each further one costs a rounding; so terms of different degrees give
exactly their sum, always finite.  Whole numbers are exact while the sums of the absolute values stay below `2^p`. -/
theorem C91_from_terms (hp : 1 ≤ f.p) (hw : f.p + f.q ≤ f.w) (ts : List (Fl f × Nat)) (hv : ∀ t ∈ ts, t.1.Valid) :
    (FloatSink.AllFinite (Poly.fromTerms ts) → (∀ t ∈ ts, t.1.isFinite = true) ∧
      ∀ k, |(FloatSink.ratPoly (Poly.fromTerms ts)).coeff k - (ratTerms ts).coeff k| ≤
        ((1 + uro f) ^ ((ts.countP fun t => t.2 = k) - 1) - 1) * (absTerms ts).coeff k) ∧
    (FloatSink.AllFinite (Sparse.fromTerms ts) → (∀ t ∈ ts, t.1.isFinite = true) ∧
      ∀ k, |(FloatSink.ratPoly (Sparse.fromTerms ts)).coeff k - (ratTerms ts).coeff k| ≤
        ((1 + uro f) ^ ((ts.countP fun t => t.2 = k) - 1) - 1) * (absTerms ts).coeff k) ∧
    ((∀ t ∈ ts, t.1.isFinite = true) → (ts.map Prod.snd).Nodup →
      (FloatSink.AllFinite (Poly.fromTerms ts) ∧ FloatSink.ratPoly (Poly.fromTerms ts) = ratTerms ts) ∧
      FloatSink.AllFinite (Sparse.fromTerms ts) ∧ FloatSink.ratPoly (Sparse.fromTerms ts) = ratTerms ts) ∧
    ((∀ t ∈ ts, t.1.IntValued) → (∀ k, (absTerms ts).coeff k < 2 ^ f.p) →
      (FloatSink.AllFinite (Poly.fromTerms ts) ∧ FloatSink.ratPoly (Poly.fromTerms ts) = ratTerms ts) ∧
      FloatSink.AllFinite (Sparse.fromTerms ts) ∧ FloatSink.ratPoly (Sparse.fromTerms ts) = ratTerms ts) := by
  obtain ⟨h1, h2⟩ := run_fromTerms ts
  obtain ⟨e1, e2, e3, e4⟩ := empty_spec (f := f)
  refine ⟨fun h => ⟨(h1.error h).2.1, fun k => h1.error_zero hp (by omega) h hv k (by rw [e2]; simp)⟩,
    fun h => ⟨(h2.error h).2.1, fun k => h2.error_zero hp (by omega) h hv k (by rw [e4]; simp)⟩,
    fun hf hd => ⟨?_, ?_⟩, fun hi hb => ⟨?_, ?_⟩⟩
  · have := h1.distinct hp (by omega) e1 (fun t ht => ⟨hf t ht, hv t ht⟩) hd (fun t _ => by rw [e2]; simp)
    rwa [e2, zero_add] at this
  · have := h2.distinct hp (by omega) e3 (fun t ht => ⟨hf t ht, hv t ht⟩) hd (fun t _ => by rw [e4]; simp)
    rwa [e4, zero_add] at this
  · have := h1.int hp hw e1 (fun k => ⟨0, by rw [e2]; simp⟩) hi (fun k => by rw [e2]; simpa using hb k)
    rwa [e2, zero_add] at this
  · have := h2.int hp hw e3 (fun k => ⟨0, by rw [e4]; simp⟩) hi (fun k => by rw [e4]; simpa using hb k)
    rwa [e4, zero_add] at this

theorem exTwo (hp : 1 ≤ f.p) (hw : f.p + f.q ≤ f.w) (a b : Fl f) (ha : a.isFinite = true ∧ a.Valid)
    (hb : b.isFinite = true ∧ b.Valid) :
    FloatSink.ratPoly (Sparse.fromTerms [(a, 9), (b, 2)]) = ratTerms [(a, 9), (b, 2)] := by
  have hv : ∀ t ∈ [(a, 9), (b, 2)], t.1.isFinite = true ∧ t.1.Valid :=
    List.forall_mem_cons.2 ⟨ha, List.forall_mem_cons.2 ⟨hb, fun t ht => nomatch ht⟩⟩
  exact ((C91_from_terms hp hw _ fun t ht => (hv t ht).2).2.2.1 (fun t ht => (hv t ht).1) (by simp)).2.2

-- different degrees: exact
seal Valid in
example : FloatSink.ratPoly (Sparse.fromTerms [(exDime, 9), ((ofNat 3 : Fl binary64), 2)]) =
    ratTerms [(exDime, 9), ((ofNat 3 : Fl binary64), 2)] :=
  exTwo (by decide) (by decide) _ _ exTenth_valid ⟨by decide +kernel, valid_ofNat (f := binary64) (by decide) 3⟩
-- the same degree three times: two roundings, in the order of the terms
example : Poly.fromTerms [(exDime, 1), (div 1 (ofNat 5), 1), (div (ofNat 3) (ofNat 10), 1)] =
      (⟨[exDime + div 1 (ofNat 5) + div (ofNat 3) (ofNat 10), 0]⟩ : Poly (Fl binary64)) ∧
    exDime + div 1 (ofNat 5) + div (ofNat 3) (ofNat 10) ≠ exDime + (div 1 (ofNat 5) + div (ofNat 3) (ofNat 10)) := by
  decide +kernel

/-! ## C91 – the macros -/

section
variable {S : Type} [FloatSink f S] [MutPoly (Fl f) S] [LawfulFloatSink f S]

theorem run_polyAddSink (xs : List (List (Fl f × Nat))) (s s' : S) (h : polyAddSink xs s = (s', .ok ())) :
    Run s xs.flatten s' := by
  induction xs generalizing s with
  | nil => obtain ⟨rfl, -⟩ := Prod.mk.inj h; exact .nil _
  | cons x xs ih =>
    obtain ⟨-, h1, h2, -⟩ := C33_sink_errors x xs s
    rw [h] at h1 h2
    cases ha : addPoly x s with
    | mk s1 r =>
      cases r with
      | error e => rw [ha] at h2; exact nomatch h2
      | ok _ =>
        rw [ha] at h1 h2
        simp only at h1 h2
        rw [List.flatten_cons]
        exact (run_addPoly x s s1 ha).append (ih s1 (Prod.ext h1.symm h2.symm))

theorem run_polySubSink (xs : List (List (Fl f × Nat))) (s s' : S) (h : polySubSink xs s = (s', .ok ())) :
    Run s (negTerms xs.flatten) s' := by
  induction xs generalizing s with
  | nil => obtain ⟨rfl, -⟩ := Prod.mk.inj h; exact .nil _
  | cons x xs ih =>
    obtain ⟨-, -, -, -, h1, h2⟩ := C33_sink_errors x xs s
    rw [h] at h1 h2
    cases ha : subPoly x s with
    | mk s1 r =>
      cases r with
      | error e => rw [ha] at h2; exact nomatch h2
      | ok _ =>
        rw [ha] at h1 h2
        simp only at h1 h2
        rw [List.flatten_cons, show negTerms (x ++ xs.flatten) = negTerms x ++ negTerms xs.flatten by simp [negTerms]]
        exact (run_subPoly x s s1 ha).append (ih s1 (Prod.ext h1.symm h2.symm))

/-- C91: `poly_add!(sink; ...)` and `poly_sub!(sink; ...)` on any of the six types. -/
theorem C91_macro_sink (xs : List (List (Fl f × Nat))) (s s' : S) (hf : FloatSink.AllFinite s') :
    (polyAddSink xs s = (s', .ok ()) → FloatSink.AllFinite s ∧ (∀ x ∈ xs, ∀ t ∈ x, t.1.isFinite = true) ∧
      ∀ k, |(FloatSink.ratPoly s').coeff k - (FloatSink.ratPoly s + ratTerms xs.flatten).coeff k| ≤
        ((1 + uro f) ^ (xs.flatten.countP fun t => t.2 = k) - 1) *
          (|(FloatSink.ratPoly s).coeff k| + (absTerms xs.flatten).coeff k)) ∧
    (polySubSink xs s = (s', .ok ()) → FloatSink.AllFinite s ∧ (∀ x ∈ xs, ∀ t ∈ x, t.1.isFinite = true) ∧
      ∀ k, |(FloatSink.ratPoly s').coeff k - (FloatSink.ratPoly s - ratTerms xs.flatten).coeff k| ≤
        ((1 + uro f) ^ (xs.flatten.countP fun t => t.2 = k) - 1) *
          (|(FloatSink.ratPoly s).coeff k| + (absTerms xs.flatten).coeff k)) := by
  refine ⟨fun h => ?_, fun h => ?_⟩
  · obtain ⟨h1, h2, h3⟩ := (run_polyAddSink xs s s' h).error hf
    exact ⟨h1, fun x hx t ht => h2 t (List.mem_flatten.2 ⟨x, hx, ht⟩), h3⟩
  · obtain ⟨h1, h2, h3⟩ := (run_polySubSink xs s s' h).error hf
    obtain ⟨g1, g2, g3, g4, -⟩ := negTerms_spec xs.flatten
    rw [g1, ← sub_eq_add_neg, g2] at h3
    exact ⟨h1, fun x hx t ht => g4.1 h2 t (List.mem_flatten.2 ⟨x, hx, ht⟩),
      fun k => by have := h3 k; rwa [g3] at this⟩

end

theorem addPoly_ok (ts : List (Fl f × Nat)) (s : Poly (Fl f)) : ∃ s', addPoly ts s = (s', .ok ()) :=
  addPoly_total (fun _ _ _ => ⟨_, rfl⟩) ts s

theorem subPoly_ok (ts : List (Fl f × Nat)) (s : Poly (Fl f)) : ∃ s', subPoly ts s = (s', .ok ()) :=
  subPoly_total (fun s c d => ⟨_, Prod.ext rfl (C91_outcomes c d s ⟨.empty⟩ ⟨0, 0⟩ ⟨0, 0⟩ ⟨0, 0, 0⟩
    (⟨[], rfl⟩ : ArrayPoly (Fl f) 0)).1.2⟩) ts s

theorem polyAddSink_ok (xs : List (List (Fl f × Nat))) (s : Poly (Fl f)) : ∃ s', polyAddSink xs s = (s', .ok ()) := by
  induction xs generalizing s with
  | nil => exact ⟨s, rfl⟩
  | cons x xs ih =>
    obtain ⟨-, h1, h2, -⟩ := C33_sink_errors x xs s
    obtain ⟨s1, h3⟩ := addPoly_ok x s
    obtain ⟨s', h4⟩ := ih s1
    rw [h3, h4] at h1 h2
    exact ⟨s', Prod.ext h1 h2⟩

theorem polySubSink_ok (xs : List (List (Fl f × Nat))) (s : Poly (Fl f)) : ∃ s', polySubSink xs s = (s', .ok ()) := by
  induction xs generalizing s with
  | nil => exact ⟨s, rfl⟩
  | cons x xs ih =>
    obtain ⟨-, -, -, -, h1, h2⟩ := C33_sink_errors x xs s
    obtain ⟨s1, h3⟩ := subPoly_ok x s
    obtain ⟨s', h4⟩ := ih s1
    rw [h3, h4] at h1 h2
    exact ⟨s', Prod.ext h1 h2⟩

/-- C91: `poly_add!(x1, ..., xk)` and `poly_sub!(l, x1, ..., xk)` in floating point: the first term of a degree is
taken exactly, each further one costs a rounding. -/
theorem C91_macro (hp : 1 ≤ f.p) (hw : f.p ≤ f.w) (l : List (Fl f × Nat)) (xs : List (List (Fl f × Nat)))
    (hl : ∀ t ∈ l, t.1.Valid) (hv : ∀ x ∈ xs, ∀ t ∈ x, t.1.Valid) :
    (FloatSink.AllFinite (polyAdd xs) → (∀ x ∈ xs, ∀ t ∈ x, t.1.isFinite = true) ∧
      ∀ k, |(FloatSink.ratPoly (polyAdd xs)).coeff k - (ratTerms xs.flatten).coeff k| ≤
        ((1 + uro f) ^ ((xs.flatten.countP fun t => t.2 = k) - 1) - 1) * (absTerms xs.flatten).coeff k) ∧
    (FloatSink.AllFinite (polySub l xs) →
      ((∀ t ∈ l, t.1.isFinite = true) ∧ ∀ x ∈ xs, ∀ t ∈ x, t.1.isFinite = true) ∧
      ∀ k, |(FloatSink.ratPoly (polySub l xs)).coeff k - (ratTerms l - ratTerms xs.flatten).coeff k| ≤
        ((1 + uro f) ^ (((l ++ xs.flatten).countP fun t => t.2 = k) - 1) - 1) *
          (absTerms l + absTerms xs.flatten).coeff k) := by
  obtain ⟨e1, e2, -, -⟩ := empty_spec (f := f)
  have happ : ∀ a b : List (Fl f × Nat), ratTerms (a ++ b) = ratTerms a + ratTerms b ∧
      absTerms (a ++ b) = absTerms a + absTerms b := fun a b => by
    unfold ratTerms absTerms; rw [List.map_append, List.map_append, termsPoly_append, termsPoly_append]; exact ⟨rfl, rfl⟩
  refine ⟨fun hf => ?_, fun hf => ?_⟩
  · obtain ⟨r, hr⟩ := polyAddSink_ok xs (Poly.zero : Poly (Fl f))
    have hrr : polyAdd xs = r := by unfold polyAdd; rw [hr]
    rw [hrr] at hf ⊢
    have hrun := run_polyAddSink xs _ r hr
    refine ⟨fun x hx t ht => (hrun.error hf).2.1 t (List.mem_flatten.2 ⟨x, hx, ht⟩), fun k => ?_⟩
    refine hrun.error_zero hp hw hf (fun t ht => ?_) k (by rw [show (Poly.zero : Poly (Fl f)) = ⟨[]⟩ from rfl, e2]; simp)
    obtain ⟨x, hx, ht⟩ := List.mem_flatten.1 ht
    exact hv x hx t ht
  · obtain ⟨r0, hr0⟩ := polyAddSink_ok [l] (Poly.zero : Poly (Fl f))
    obtain ⟨r, hr⟩ := polySubSink_ok xs r0
    have hrr : polySub l xs = r := by unfold polySub; rw [hr0]; simp only [hr]
    rw [hrr] at hf ⊢
    have hrun := (run_polyAddSink [l] _ r0 hr0).append (run_polySubSink xs _ r hr)
    simp only [List.flatten_cons, List.flatten_nil, List.append_nil] at hrun
    obtain ⟨g1, g2, g3, g4, -⟩ := negTerms_spec xs.flatten
    have hfin := (hrun.error hf).2.1
    refine ⟨⟨fun t ht => hfin t (by simp [ht]), fun x hx t ht => ?_⟩, fun k => ?_⟩
    · exact g4.1 (fun u hu => hfin u (by simp [hu])) t (List.mem_flatten.2 ⟨x, hx, ht⟩)
    · have := hrun.error_zero hp hw hf (fun t ht => ?_) k (by rw [show (Poly.zero : Poly (Fl f)) = ⟨[]⟩ from rfl, e2]; simp)
      · rw [(happ _ _).1, (happ _ _).2, g1, g2, ← sub_eq_add_neg] at this
        have hc : termCount (l ++ negTerms xs.flatten) k = (l ++ xs.flatten).countP fun t => t.2 = k := by
          have := g3 k
          unfold termCount at this ⊢
          rw [List.countP_append, List.countP_append, this]
        rwa [hc] at this
      · rcases List.mem_append.1 ht with ht | ht
        · exact hl t ht
        · obtain ⟨u, hu, rfl⟩ := List.mem_map.1 ht
          obtain ⟨x, hx, hu⟩ := List.mem_flatten.1 hu
          exact valid_neg (hv x hx u hu)

example : polyAdd [[(exDime, 1)], [(exDime, 1), (1, 0)]] = (⟨[div 1 (ofNat 5), 1]⟩ : Poly (Fl binary64)) ∧
    polySub [(exDime, 1)] [[(exDime, 1), (1, 0)]] = (⟨[0, -1]⟩ : Poly (Fl binary64)) ∧
    polyAddSink [[(exDime, 1)], [(1, 0)]] (⟨0, 0⟩ : LinearBinomial (Fl binary64)) = (⟨exDime, 1⟩, .ok ()) ∧
    polySubSink [[(exDime, 1)], [(1, 5)]] (⟨0, 0⟩ : LinearBinomial (Fl binary64)) =
      (⟨-exDime, 0⟩, .error .degreeOutOfBounds) := by decide +kernel

end Fl
end Rustnomial
