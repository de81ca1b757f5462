import Verif.SpecFloatSparse
import Verif.Props.FloatArith
import Verif.Props.FloatRoots
import Verif.Props.SparseBasic

/-!
# C85: sparse polynomials with floating point coefficients
-/

set_option linter.unusedSectionVars false

open Polynomial

namespace Rustnomial

namespace BMap
variable {N : Type}

theorem getList_none {k : Nat} {l : List (Nat × N)} (h : ∀ v, (k, v) ∉ l) : getList k l = none := by
  cases hg : getList k l with
  | none => rfl
  | some v => exact absurd (getList_mem hg) (h v)

theorem get_none_iff {m : BMap N} {k : Nat} : m.get k = none ↔ ∀ v, (k, v) ∉ m.entries := by
  constructor
  · intro h v hv
    rw [mem_entries, h] at hv
    cases hv
  · exact getList_none

/-- What a loop of "insert or update" over pairs with distinct keys stores. -/
theorem get_foldl_upsert (v : N → N) (op : N → N → N) (l : List (Nat × N)) (hl : (l.map Prod.fst).Nodup)
    (m : BMap N) (j : Nat) :
    (l.foldl (fun m e => m.upsert e.1 (v e.2) (fun x => op x e.2)) m).get j =
      match getList j l with
      | none => m.get j
      | some c => some (match m.get j with | none => v c | some x => op x c) := by
  induction l generalizing m with
  | nil => rfl
  | cons a t ih =>
    obtain ⟨k, c⟩ := a
    rw [List.map_cons, List.nodup_cons] at hl
    rw [List.foldl_cons, ih hl.2, get_upsert]
    by_cases hjk : j = k
    · subst hjk
      have ht : getList j t = none := getList_none fun v hv => hl.1 (List.mem_map.2 ⟨_, hv, rfl⟩)
      simp only [getList, if_true, ht]
      cases m.get j <;> rfl
    · simp only [getList, if_neg hjk]

theorem insert_eq_upsert (m : BMap N) (k : Nat) (v : N) : m.insert k v = m.upsert k v (fun _ => v) := by
  unfold upsert
  split <;> rfl

/-- What a loop of insertions under distinct keys stores. -/
theorem get_foldl_insert_val (v : N → N) (l : List (Nat × N)) (hl : (l.map Prod.fst).Nodup) (m : BMap N)
    (j : Nat) :
    (l.foldl (fun m e => m.insert e.1 (v e.2)) m).get j =
      match getList j l with
      | none => m.get j
      | some c => some (v c) := by
  have := get_foldl_upsert v (fun _ c => v c) l hl m j
  simp only [insert_eq_upsert]
  rw [this]
  split
  · rfl
  · split <;> rfl

end BMap

namespace Fl
variable {f : FlFmt}

theorem coeff_entries_list (g : Fl f → ℚ) (l : List (Nat × Fl f)) (hl : (l.map Prod.fst).Nodup) (k : Nat) :
    (entriesPoly (l.map fun e => (e.1, g e.2))).coeff k =
      match BMap.getList k l with | none => 0 | some c => g c := by
  have hn : ((l.map fun e => (e.1, g e.2)).map Prod.fst).Nodup := by
    rw [List.map_map]; exact hl
  rw [coeff_entriesPoly_getList hn]
  have : ∀ l : List (Nat × Fl f), BMap.getList k (l.map fun e => (e.1, g e.2)) = (BMap.getList k l).map g := by
    intro l
    induction l with
    | nil => rfl
    | cons a t ih =>
      simp only [List.map_cons, BMap.getList]
      split
      · rfl
      · exact ih
  rw [this]
  cases BMap.getList k l <;> rfl

theorem coeff_entries (g : Fl f → ℚ) (m : BMap (Fl f)) (k : Nat) :
    (entriesPoly (m.entries.map fun e => (e.1, g e.2))).coeff k =
      match m.get k with | none => 0 | some c => g c := coeff_entries_list g _ m.keys_nodup k

theorem coeff_rat (p : Sparse (Fl f)) (k : Nat) :
    p.ratPoly.coeff k = match p.terms.get k with | none => 0 | some c => c.toRat := coeff_entries toRat p.terms k

theorem coeff_abs (p : Sparse (Fl f)) (k : Nat) :
    p.absPoly.coeff k = match p.terms.get k with | none => 0 | some c => |c.toRat| :=
  coeff_entries (fun c => |c.toRat|) p.terms k

theorem finite_get {p : Sparse (Fl f)} (h : p.AllFinite) {k : Nat} {c : Fl f} (hc : p.terms.get k = some c) :
    c.isFinite = true := h (k, c) ((BMap.mem_entries ..).2 hc)

/-! ## Sums, differences, negation -/

theorem mem_descTerms_terms {cs : List (Fl f)} {t : Fl f × Nat} (h : t ∈ descTerms cs) : t.1 ∈ cs := by
  induction cs with
  | nil => simp [descTerms] at h
  | cons c cs ih =>
    rw [descTerms] at h
    split at h
    · exact List.mem_cons_of_mem _ (ih h)
    · rcases List.mem_cons.1 h with rfl | h
      · simp
      · exact List.mem_cons_of_mem _ (ih h)

/-- The predicate `Q` for every stored coefficient and its exact value, taken from `P`. -/
def Sparse_state (Q : Fl f × ℚ → Prop) (r : Sparse (Fl f)) (P : ℚ[X]) : Prop :=
  ∀ k, match r.terms.get k with | none => P.coeff k = 0 | some x => Q (x, P.coeff k)

theorem state_R1 {r : Sparse (Fl f)} {P : ℚ[X]} (h : Sparse_state R1 r P) (hf : r.AllFinite) (k : Nat) :
    |(r.ratPoly - P).coeff k| ≤ uro f * |P.coeff k| := by
  have hu := uro_nonneg (f := f)
  have hk := h k
  rw [coeff_sub, coeff_rat]
  cases hx : r.terms.get k with
  | none =>
    rw [hx] at hk
    rw [hk]
    simp
  | some x =>
    rw [hx] at hk
    exact hk (finite_get hf hx)

/-- The loop of the sum over the entries of `b`. -/
theorem upsert_add_state (Q : Fl f × ℚ → Prop) (L : Fl f → Prop) (hkeep : ∀ c, L c → Q (c, c.toRat))
    (hop : ∀ x y, L x → L y → Q (x + y, x.toRat + y.toRat)) (a b : Sparse (Fl f))
    (ha : ∀ k c, a.terms.get k = some c → L c) (hb : ∀ k c, b.terms.get k = some c → L c) :
    Sparse_state Q ⟨b.terms.entries.foldl (fun m e => m.upsert e.1 e.2 (· + e.2)) a.terms⟩ (a.ratPoly + b.ratPoly) := by
  intro k
  have hg := BMap.get_foldl_upsert (fun c => c) (fun x c => x + c) b.terms.entries b.terms.keys_nodup a.terms k
  change (Sparse.mk (b.terms.entries.foldl (fun m e => m.upsert e.1 e.2 (· + e.2)) a.terms)).terms.get k = _ at hg
  rw [coeff_add, coeff_rat, coeff_rat, hg]
  rw [show BMap.getList k b.terms.entries = b.terms.get k from rfl]
  cases hb' : b.terms.get k with
  | none =>
    cases ha' : a.terms.get k with
    | none => simp
    | some x => simpa using hkeep x (ha k x ha')
  | some c =>
    cases ha' : a.terms.get k with
    | none => simpa using hkeep c (hb k c hb')
    | some x => exact hop x c (ha k x ha') (hb k c hb')

/-- Example: `0.1x^70 + 7x^3`. -/
def exA : Sparse (Fl binary64) := Sparse.new ((BMap.empty.insert 70 (div 1 (ofNat 10))).insert 3 (ofNat 7))

/-- Example: `0.2x^70 + 1`. -/
def exB : Sparse (Fl binary64) := Sparse.new ((BMap.empty.insert 70 (div 1 (ofNat 5))).insert 0 1)

/-- `+` and `+=` with a predicate on every coefficient and its exact value. -/
theorem sparse_add_state (Q : Fl f × ℚ → Prop) (L : Fl f → Prop) (hkeep : ∀ c, L c → Q (c, c.toRat))
    (hop : ∀ x y, L x → L y → Q (x + y, x.toRat + y.toRat)) (p q : Sparse (Fl f))
    (hp : ∀ k c, p.terms.get k = some c → L c) (hq : ∀ k c, q.terms.get k = some c → L c) :
    Sparse_state Q (p.add q) (p.ratPoly + q.ratPoly) ∧ Sparse_state Q (p.addAssign q) (p.ratPoly + q.ratPoly) := by
  refine ⟨?_, upsert_add_state Q L hkeep hop p q hp hq⟩
  have hcopy : ∀ j, (q.terms.entries.foldl (fun m e => m.insert e.1 e.2) (.empty : BMap (Fl f))).get j =
      q.terms.get j := by
    intro j
    rw [BMap.get_foldl_insert_val (fun c => c) _ q.terms.keys_nodup]
    rw [show BMap.getList j q.terms.entries = q.terms.get j from rfl]
    cases q.terms.get j <;> rfl
  have he : Sparse.ratPoly ⟨q.terms.entries.foldl (fun m e => m.insert e.1 e.2) (.empty : BMap (Fl f))⟩ =
      q.ratPoly := by
    ext j
    rw [coeff_rat, coeff_rat]
    simp only [hcopy]
  have := upsert_add_state Q L hkeep hop ⟨q.terms.entries.foldl
    (fun (m : BMap (Fl f)) (e : Nat × Fl f) => m.insert e.1 e.2) .empty⟩ p
    (fun k c h => by rw [hcopy] at h; exact hq k c h) hp
  rw [he, add_comm q.ratPoly] at this
  exact this

/-- C85: every coefficient of a finite sum (`+` and `+=`) is rounded once. -/
theorem C85_add (p q : Sparse (Fl f)) :
    ((p.add q).AllFinite → ∀ k,
      |((p.add q).ratPoly - (p.ratPoly + q.ratPoly)).coeff k| ≤ uro f * |(p.ratPoly + q.ratPoly).coeff k|) ∧
    ((p.addAssign q).AllFinite → ∀ k,
      |((p.addAssign q).ratPoly - (p.ratPoly + q.ratPoly)).coeff k| ≤
        uro f * |(p.ratPoly + q.ratPoly).coeff k|) := by
  have h := sparse_add_state R1 (fun _ => True) (fun c _ => R1_same c) (fun x y _ _ h => add_error h) p q
    (fun _ _ _ => trivial) (fun _ _ _ => trivial)
  exact ⟨fun hf k => state_R1 h.1 hf k, fun hf k => state_R1 h.2 hf k⟩

-- `0.1 + 0.2` is not the closest number to the exact sum's decimal notation, but within the bound
example : (exA.add exB).AllFinite ∧ (exA.addAssign exB).AllFinite ∧
    (exA.add exB).terms.entries.map (fun e => (e.1, e.2.toRat)) =
      [(0, 1), (3, 7), (70, 1351079888211149 / 4503599627370496)] := by decide +kernel

/-- The loop of the difference. -/
theorem upsert_sub_state (Q : Fl f × ℚ → Prop) (L : Fl f → Prop) (hkeep : ∀ c, L c → Q (c, c.toRat))
    (hneg : ∀ c, L c → L (-c)) (hop : ∀ x y, L x → L y → Q (x - y, x.toRat - y.toRat)) (a : Sparse (Fl f))
    (l : List (Nat × Fl f)) (hl : (l.map Prod.fst).Nodup) (ha : ∀ k c, a.terms.get k = some c → L c)
    (hb : ∀ k c, BMap.getList k l = some c → L c) :
    Sparse_state Q ⟨l.foldl (fun m e => m.upsert e.1 (-e.2) (· - e.2)) a.terms⟩
      (a.ratPoly - entriesPoly (l.map fun e => (e.1, e.2.toRat))) := by
  intro k
  have hg := BMap.get_foldl_upsert (fun c => -c) (fun x c => x - c) l hl a.terms k
  change (Sparse.mk (l.foldl (fun m e => m.upsert e.1 (-e.2) (· - e.2)) a.terms)).terms.get k = _ at hg
  have hc : (entriesPoly (l.map fun e => (e.1, e.2.toRat))).coeff k =
      match BMap.getList k l with | none => 0 | some c => c.toRat := coeff_entries_list toRat l hl k
  rw [coeff_sub, coeff_rat, hc, hg]
  cases hb' : BMap.getList k l with
  | none =>
    cases ha' : a.terms.get k with
    | none => simp
    | some x => simpa using hkeep x (ha k x ha')
  | some c =>
    cases ha' : a.terms.get k with
    | none =>
      have := hkeep (-c) (hneg c (hb k c hb'))
      rw [toRat_neg] at this
      simpa using this
    | some x => exact hop x c (ha k x ha') (hb k c hb')

/-- `-` and `-=`, and `-` with a dense right operand, with a predicate on every coefficient and its exact value. -/
theorem sparse_sub_state (Q : Fl f × ℚ → Prop) (L : Fl f → Prop) (hkeep : ∀ c, L c → Q (c, c.toRat))
    (hneg : ∀ c, L c → L (-c)) (hop : ∀ x y, L x → L y → Q (x - y, x.toRat - y.toRat)) (p q : Sparse (Fl f))
    (d : Poly (Fl f)) (hp : ∀ k c, p.terms.get k = some c → L c) :
    ((∀ k c, q.terms.get k = some c → L c) → Sparse_state Q (p.sub q) (p.ratPoly - q.ratPoly)) ∧
    ((∀ c ∈ d.terms, L c) → Sparse_state Q (p.subDense d) (p.ratPoly - descPoly (d.terms.map toRat))) := by
  refine ⟨fun hq => upsert_sub_state Q L hkeep hneg hop p _ q.terms.keys_nodup hp hq, fun hd => ?_⟩
  have hl : ((d.orderedTermIter.map fun e => (e.2, e.1)).map Prod.fst).Nodup := by
    rw [orderedTermIter_eq, List.map_map]
    refine List.pairwise_map.2 ((descTerms_pairwise d.terms).imp ?_)
    intro a b h e
    simp only [Function.comp] at e
    omega
  have he : entriesPoly ((d.orderedTermIter.map fun e => (e.2, e.1)).map fun e => (e.1, e.2.toRat)) =
      descPoly (d.terms.map toRat) := by
    rw [orderedTermIter_eq]
    induction d.terms with
    | nil => simp [descTerms]
    | cons c cs ih =>
      simp only [descTerms]
      split
      · rename_i hz
        obtain ⟨s, rfl⟩ := isZero_iff.1 hz
        rw [ih, List.map_cons, descPoly_cons, toRat_fin_zero]
        simp
      · rw [List.map_cons, List.map_cons, entriesPoly_cons, ih, List.map_cons, descPoly_cons, List.length_map]
  have := upsert_sub_state Q L hkeep hneg hop p (d.orderedTermIter.map fun e => (e.2, e.1)) hl hp (by
    intro k c h
    have hm : ∀ l : List (Nat × Fl f), BMap.getList k l = some c → ∃ e ∈ l, e.2 = c := by
      intro l
      induction l with
      | nil => simp [BMap.getList]
      | cons a l ih =>
        simp only [BMap.getList]
        split
        · rintro h
          exact ⟨a, by simp, by simpa using h⟩
        · intro h
          obtain ⟨e, he, hc⟩ := ih h
          exact ⟨e, by simp [he], hc⟩
    obtain ⟨e, he, rfl⟩ := hm _ h
    obtain ⟨t, ht, rfl⟩ := List.mem_map.1 he
    rw [orderedTermIter_eq] at ht
    exact hd _ (mem_descTerms_terms ht))
  rw [he, List.foldl_map] at this
  exact this

/-- C85: every coefficient of a finite difference (`-` and `-=`, and `-` with a dense right operand) is rounded
once. -/
theorem C85_sub (p q : Sparse (Fl f)) (d : Poly (Fl f)) :
    ((p.sub q).AllFinite → ∀ k,
      |((p.sub q).ratPoly - (p.ratPoly - q.ratPoly)).coeff k| ≤ uro f * |(p.ratPoly - q.ratPoly).coeff k|) ∧
    ((p.subDense d).AllFinite → ∀ k,
      |((p.subDense d).ratPoly - (p.ratPoly - descPoly (d.terms.map toRat))).coeff k| ≤
        uro f * |(p.ratPoly - descPoly (d.terms.map toRat)).coeff k|) := by
  have h := sparse_sub_state R1 (fun _ => True) (fun c _ => R1_same c) (fun _ _ => trivial)
    (fun x y _ _ h => sub_error h) p q d (fun _ _ _ => trivial)
  exact ⟨fun hf k => state_R1 (h.1 fun _ _ _ => trivial) hf k, fun hf k => state_R1 (h.2 fun _ _ => trivial) hf k⟩

example : (exA.sub exB).AllFinite ∧ (exA.subDense ⟨[1, div 1 (ofNat 10)]⟩).AllFinite ∧
    (exB.sub exB).terms.entries.map (fun e => (e.1, e.2.toRat)) = [(0, 0), (70, 0)] := by decide +kernel

/-- C85: negation is exact. -/
theorem C85_neg (p : Sparse (Fl f)) : p.neg.ratPoly = -p.ratPoly := by
  ext k
  rw [coeff_neg, coeff_rat, coeff_rat]
  simp only [Sparse.neg, Sparse.new, BMap.get_foldl_insert_val (fun c => -c) _ p.terms.keys_nodup]
  rw [show BMap.getList k p.terms.entries = p.terms.get k from rfl]
  cases p.terms.get k with
  | none => simp [BMap.get, BMap.empty, BMap.getList]
  | some c => simp [toRat_neg]

example : exB.neg.terms.entries.map (fun e => (e.1, e.2.toRat)) =
    [(0, -1), (70, -3602879701896397 / 18014398509481984)] := by decide +kernel

/-! ## Scalars -/

theorem insert_error {B : ℚ → ℚ} (hB : 0 ≤ B 0) (v : Fl f → Fl f) (w : ℚ → ℚ) (hw : w 0 = 0)
    (p r : Sparse (Fl f)) (hr : ∀ k, r.terms.get k = (p.terms.get k).map v)
    (hv : ∀ c, (∃ k, p.terms.get k = some c) → (v c).isFinite = true → |(v c).toRat - w c.toRat| ≤ B (w c.toRat)) (h : r.AllFinite) (k : Nat) :
    |r.ratPoly.coeff k - w (p.ratPoly.coeff k)| ≤ B (w (p.ratPoly.coeff k)) := by
  have hk := hr k
  rw [coeff_rat, coeff_rat, hk]
  cases hp : p.terms.get k with
  | none => simpa [hw] using hB
  | some c =>
    rw [hp] at hk
    exact hv c ⟨k, hp⟩ (finite_get h hk)

theorem get_mapVals {M N : Type} (g : N → M) (m : BMap N) (k : Nat) : (m.mapVals g).get k = (m.get k).map g := by
  unfold BMap.get BMap.mapVals
  simp only
  induction m.entries with
  | nil => rfl
  | cons a t ih =>
    simp only [List.map_cons, BMap.getList]
    split
    · rfl
    · exact ih

theorem get_rebuild (v : Fl f → Fl f) (m : BMap (Fl f)) (k : Nat) :
    (m.entries.foldl (fun m e => m.insert e.1 (v e.2)) (.empty : BMap (Fl f))).get k = (m.get k).map v := by
  rw [BMap.get_foldl_insert_val v _ m.keys_nodup]
  rw [show BMap.getList k m.entries = m.get k from rfl]
  cases m.get k <;> rfl

theorem get_rewrite (v : Fl f → Fl f) (m : BMap (Fl f)) (k : Nat) :
    (m.entries.foldl (fun m e => m.insert e.1 (v e.2)) m).get k = (m.get k).map v := by
  rw [BMap.get_foldl_insert_val v _ m.keys_nodup]
  rw [show BMap.getList k m.entries = m.get k from rfl]
  cases h : m.get k <;> simp

/-- C85: multiplication by a scalar (`*` and `*=`): one rounding per coefficient. -/
theorem C85_mul_scalar (p : Sparse (Fl f)) (a : Fl f) :
    ((p.mulScalar a).AllFinite → ∀ k,
      |(p.mulScalar a).ratPoly.coeff k - p.ratPoly.coeff k * a.toRat| ≤
        uro f * |p.ratPoly.coeff k * a.toRat| + eta f) ∧
    ((p.mulAssignScalar a).AllFinite → ∀ k,
      |(p.mulAssignScalar a).ratPoly.coeff k - p.ratPoly.coeff k * a.toRat| ≤
        uro f * |p.ratPoly.coeff k * a.toRat| + eta f) := by
  have hη := eta_nonneg (f := f)
  constructor <;> intro h k
  · exact insert_error (B := fun y => uro f * |y| + eta f) (by simpa using hη) (· * a) (· * a.toRat) (by simp) p _
      (get_rebuild _ _) (fun c _ hc => mul_error hc) h k
  · exact insert_error (B := fun y => uro f * |y| + eta f) (by simpa using hη) (· * a) (· * a.toRat) (by simp) p _
      (get_mapVals _ _) (fun c _ hc => mul_error hc) h k

example : (exA.mulScalar (ofNat 3)).AllFinite ∧ (exA.mulAssignScalar (ofNat 3)).AllFinite ∧
    (exA.mulScalar (ofNat 3)).terms.entries.map (fun e => (e.1, e.2.toRat)) =
      [(3, 21), (70, 1351079888211149 / 4503599627370496)] := by decide +kernel

/-- C85: division by a finite non-zero scalar (`/` and `/=`) always returns, with one rounding per coefficient. -/
theorem C85_div_scalar (p : Sparse (Fl f)) (a : Fl f) (hp : p.AllFinite) (ha : a.isFinite = true)
    (ha0 : a.toRat ≠ 0) :
    (∃ r, p.divScalar a = .ok r ∧ (r.AllFinite → ∀ k,
      |r.ratPoly.coeff k - p.ratPoly.coeff k / a.toRat| ≤ uro f * |p.ratPoly.coeff k / a.toRat| + eta f)) ∧
    (∃ r, p.divAssignScalar a = .ok r ∧ (r.AllFinite → ∀ k,
      |r.ratPoly.coeff k - p.ratPoly.coeff k / a.toRat| ≤ uro f * |p.ratPoly.coeff k / a.toRat| + eta f)) := by
  have hη := eta_nonneg (f := f)
  constructor
  · refine ⟨⟨p.terms.entries.foldl (fun m e => m.insert e.1 (div e.2 a)) .empty⟩, ?_, fun h k => ?_⟩
    · unfold Sparse.divScalar
      rw [foldlM_ok _ _ (fun m e => m.insert e.1 (div e.2 a))]
      · rfl
      · exact fun e _ m => rfl
    · exact insert_error (B := fun y => uro f * |y| + eta f) (by simpa using hη) (fun c => div c a)
        (· / a.toRat) (by simp) p _ (get_rebuild _ _)
        (fun c ⟨j, hj⟩ hc => div_error (finite_get hp hj) ha ha0 hc) h k
  · refine ⟨⟨p.terms.entries.foldl (fun m e => m.insert e.1 (div e.2 a)) p.terms⟩, ?_, fun h k => ?_⟩
    · unfold Sparse.divAssignScalar
      rw [foldlM_ok _ _ (fun m e => m.insert e.1 (div e.2 a))]
      · rfl
      · exact fun e _ m => rfl
    · exact insert_error (B := fun y => uro f * |y| + eta f) (by simpa using hη) (fun c => div c a)
        (· / a.toRat) (by simp) p _ (get_rewrite _ _)
        (fun c ⟨j, hj⟩ hc => div_error (finite_get hp hj) ha ha0 hc) h k

example : exA.AllFinite ∧ (ofNat 4 : Fl binary64).isFinite = true ∧ (ofNat 4 : Fl binary64).toRat ≠ 0 ∧
    ((exA.divScalar (ofNat 4)).bind fun r => .ok (r.terms.entries.map fun e => (e.1, e.2.toRat))) =
      .ok [(3, 7 / 4), (70, 3602879701896397 / 144115188075855872)] := by decide +kernel

/-! ## Products -/

theorem getList_shift {N : Type} (r k : Nat) (l : List (Nat × N)) :
    BMap.getList k (l.map fun e => (r + e.1, e.2)) = if r ≤ k then BMap.getList (k - r) l else none := by
  induction l with
  | nil => simp [BMap.getList]
  | cons a t ih =>
    simp only [List.map_cons, BMap.getList, ih]
    by_cases h : r ≤ k
    · simp only [h, if_true]
      by_cases h2 : k = r + a.1
      · have : k - r = a.1 := by omega
        simp [h2]
      · have : ¬ k - r = a.1 := by omega
        simp [h2, this]
    · have : ¬ k = r + a.1 := by omega
      simp [h, this]

theorem mapMulInner_get (d : Nat) (r : Fl f) (lhs m : BMap (Fl f)) (k : Nat) :
    (mapMulInner d r lhs.entries m).get k =
      match (if d ≤ k then lhs.get (k - d) else none) with
      | none => m.get k
      | some c => some (match m.get k with | none => r * c | some x => x + r * c) := by
  have hl : ((lhs.entries.map fun e => (d + e.1, e.2)).map Prod.fst).Nodup := by
    rw [List.map_map]
    refine List.pairwise_map.2 (lhs.sorted.imp ?_)
    intro a b h e
    simp only [Function.comp] at e
    omega
  have := BMap.get_foldl_upsert (fun c => r * c) (fun x c => x + r * c) _ hl m k
  rw [List.foldl_map, getList_shift] at this
  refine Eq.trans this ?_
  rw [show BMap.getList (k - d) lhs.entries = lhs.get (k - d) from rfl]
  generalize (if d ≤ k then lhs.get (k - d) else none) = o
  cases o with
  | none => rfl
  | some c => cases m.get k <;> rfl

theorem coeff_C_mul_X_pow_mul (a : ℚ) (d : Nat) (P : ℚ[X]) (k : Nat) :
    (C a * X ^ d * P).coeff k = if d ≤ k then a * P.coeff (k - d) else 0 := by
  rw [mul_assoc, coeff_C_mul, coeff_X_pow_mul']
  split <;> simp

/-- The state of coefficient `k` of the product after `n` of the terms of the right factor. -/
def StB (B : Nat → Fl f × ℚ × ℚ → Prop) (n : Nat) (x : Option (Fl f)) (s a : ℚ) : Prop :=
  match x with
  | none => s = 0 ∧ a = 0
  | some x => B n (x, s, a)

theorem StB_mono {L : Fl f → Prop} {B : Nat → Fl f × ℚ × ℚ → Prop} (hB : MulInv L B) {n : Nat} {x : Option (Fl f)}
    {s a : ℚ} (h : StB B n x s a) : StB B (n + 1) x s a := by
  cases x with
  | none => exact h
  | some x => exact hB.mono (by omega) _ h

theorem mapMul_state {L : Fl f → Prop} {B : Nat → Fl f × ℚ × ℚ → Prop} (hB : MulInv L B) (lhs : BMap (Fl f))
    (hlhs : ∀ k c, lhs.get k = some c → L c) : ∀ (rest : List (Nat × Fl f)) (m : BMap (Fl f)) (n : Nat)
    (S A : ℚ[X]), (∀ e ∈ rest, L e.2) → (∀ k, StB B n (m.get k) (S.coeff k) (A.coeff k)) → ∀ k,
    StB B (n + rest.length)
      ((rest.foldl (fun terms e => if isZero e.2 then terms else mapMulInner e.1 e.2 lhs.entries terms) m).get k)
      ((S + entriesPoly (rest.map fun e => (e.1, e.2.toRat)) *
        entriesPoly (lhs.entries.map fun e => (e.1, e.2.toRat))).coeff k)
      ((A + entriesPoly (rest.map fun e => (e.1, |e.2.toRat|)) *
        entriesPoly (lhs.entries.map fun e => (e.1, |e.2.toRat|))).coeff k)
  | [], m, n, S, A, _, h, k => by simpa using h k
  | (d, r) :: rest, m, n, S, A, hrest, h, k => by
    have hlen : n + ((d, r) :: rest).length = (n + 1) + rest.length := by rw [List.length_cons]; omega
    rw [List.foldl_cons, hlen]
    set Lh := entriesPoly (lhs.entries.map fun e => (e.1, e.2.toRat)) with hLh
    set M := entriesPoly (lhs.entries.map fun e => (e.1, |e.2.toRat|)) with hM
    have e1 : S + entriesPoly (((d, r) :: rest).map fun e => (e.1, e.2.toRat)) * Lh =
        (S + C r.toRat * X ^ d * Lh) + entriesPoly (rest.map fun e => (e.1, e.2.toRat)) * Lh := by
      rw [List.map_cons, entriesPoly_cons]; ring
    have e2 : A + entriesPoly (((d, r) :: rest).map fun e => (e.1, |e.2.toRat|)) * M =
        (A + C |r.toRat| * X ^ d * M) + entriesPoly (rest.map fun e => (e.1, |e.2.toRat|)) * M := by
      rw [List.map_cons, entriesPoly_cons]; ring
    rw [e1, e2]
    refine mapMul_state hB lhs hlhs rest _ (n + 1) _ _ (fun e he => hrest e (by simp [he])) (fun j => ?_) k
    by_cases hz : isZero r = true
    · obtain ⟨s, rfl⟩ := isZero_iff.1 hz
      simp only [hz, if_true, toRat_fin_zero, abs_zero, C_0, zero_mul, add_zero]
      exact StB_mono hB (h j)
    · simp only [hz]
      have hj := h j
      rw [coeff_add, coeff_add, coeff_C_mul_X_pow_mul, coeff_C_mul_X_pow_mul]
      change StB B (n + 1) ((mapMulInner d r lhs.entries m).get j) _ _
      rw [mapMulInner_get]
      by_cases hd : d ≤ j
      · simp only [if_pos hd]
        rw [hLh, hM, coeff_entries toRat, coeff_entries fun c => |c.toRat|]
        cases hc : lhs.get (j - d) with
        | none => simpa using StB_mono hB hj
        | some c =>
          simp only
          cases hx : m.get j with
          | none =>
            rw [hx] at hj
            rw [hj.1, hj.2, zero_add, zero_add]
            exact hB.first r c (hrest (d, r) (by simp)) (hlhs _ c hc)
          | some x =>
            rw [hx] at hj
            exact hB.step (x, S.coeff j, A.coeff j) hj r c (hrest (d, r) (by simp)) (hlhs _ c hc)
      · simp only [if_neg hd, add_zero]
        exact StB_mono hB hj

/-- C85: every coefficient of a finite product is the exact coefficient up to the rounding of `n + 1` steps (`n`
is the number of stored terms of the right factor), relative to the product of the polynomials with absolute
coefficients; the last term counts underflows. -/
theorem C85_mul_error (p q : Sparse (Fl f)) (h : (p.mul q).AllFinite) (k : Nat) :
    |((p.mul q).ratPoly - p.ratPoly * q.ratPoly).coeff k| ≤
      ((1 + uro f) ^ (q.terms.entries.length + 1) - 1) * (p.absPoly * q.absPoly).coeff k +
        q.terms.entries.length * (1 + uro f) ^ q.terms.entries.length * eta f := by
  have hu := uro_nonneg (f := f)
  have hη := eta_nonneg (f := f)
  have hs := mapMul_state mulInv_Bnd p.terms (fun _ _ _ => trivial) q.terms.entries .empty 0 0 0
    (fun _ _ => trivial) (fun j => by simp [BMap.get, BMap.empty, BMap.getList, StB]) k
  simp only [zero_add] at hs
  change StB Bnd _ ((p.mul q).terms.get k) ((q.ratPoly * p.ratPoly).coeff k) ((q.absPoly * p.absPoly).coeff k) at hs
  rw [mul_comm q.ratPoly, mul_comm q.absPoly] at hs
  rw [coeff_sub, coeff_rat]
  cases hx : (p.mul q).terms.get k with
  | none =>
    rw [hx] at hs
    rw [hs.1, hs.2]
    simp
    positivity
  | some x =>
    rw [hx] at hs
    exact hs.2 (finite_get h hx)

example : (exA.mul exB).AllFinite ∧ (exA.mul exB).terms.entries.map (fun e => (e.1, e.2.toRat)) =
    [(3, 7), (70, 3602879701896397 / 36028797018963968), (73, 6305039478318695 / 4503599627370496),
      (140, 1441151880758559 / 72057594037927936)] := by decide +kernel

/-- C85: the stored degrees of a product: those of the products of stored terms, leaving out the terms of the
right factor that are zero.  In particular the product with the zero polynomial is the empty map. -/
theorem C85_mul_keys (p q : Sparse (Fl f)) (k : Nat) :
    (p.mul q).terms.get k ≠ none ↔
      ∃ i j, i + j = k ∧ p.terms.get i ≠ none ∧ ∃ c, q.terms.get j = some c ∧ isZero c = false := by
  have key : ∀ (rest : List (Nat × Fl f)) (m : BMap (Fl f)),
      (rest.foldl (fun terms e => if isZero e.2 then terms else mapMulInner e.1 e.2 p.terms.entries terms) m).get k
        ≠ none ↔ m.get k ≠ none ∨
        ∃ i j, i + j = k ∧ p.terms.get i ≠ none ∧ ∃ c, (j, c) ∈ rest ∧ isZero c = false := by
    intro rest
    induction rest with
    | nil => intro m; simp
    | cons a rest ih =>
      intro m
      obtain ⟨d, r⟩ := a
      rw [List.foldl_cons, ih]
      by_cases hz : isZero r = true
      · simp only [hz, if_true]
        refine or_congr_right ?_
        constructor
        · rintro ⟨i, j, h1, h2, c, h3, h4⟩
          exact ⟨i, j, h1, h2, c, List.mem_cons_of_mem _ h3, h4⟩
        · rintro ⟨i, j, h1, h2, c, h3, h4⟩
          rcases List.mem_cons.1 h3 with h3 | h3
          · cases h3
            rw [hz] at h4
            cases h4
          · exact ⟨i, j, h1, h2, c, h3, h4⟩
      · have hz' : isZero r = false := by simpa using hz
        simp only [hz', Bool.false_eq_true, if_false]
        rw [mapMulInner_get]
        constructor
        · rintro (h | ⟨i, j, h1, h2, c, h3, h4⟩)
          · split at h
            · exact .inl h
            · rename_i c hc
              split at hc
              · rename_i hd
                exact .inr ⟨k - d, d, by omega, by rw [hc]; simp, r, List.mem_cons_self .., hz'⟩
              · cases hc
          · exact .inr ⟨i, j, h1, h2, c, List.mem_cons_of_mem _ h3, h4⟩
        · rintro (h | ⟨i, j, h1, h2, c, h3, h4⟩)
          · refine .inl ?_
            split
            · exact h
            · simp
          · rcases List.mem_cons.1 h3 with h3 | h3
            · cases h3
              refine .inl ?_
              have : d ≤ k := by omega
              have e : k - d = i := by omega
              rw [if_pos this, e]
              cases hp : p.terms.get i with
              | none => exact absurd hp h2
              | some c => simp
            · exact .inr ⟨i, j, h1, h2, c, h3, h4⟩
  have := key q.terms.entries .empty
  change (p.mul q).terms.get k ≠ none ↔ _ at this
  rw [this]
  constructor
  · rintro (h | ⟨i, j, h1, h2, c, h3, h4⟩)
    · exact absurd rfl h
    · exact ⟨i, j, h1, h2, c, (BMap.mem_entries ..).1 h3, h4⟩
  · rintro ⟨i, j, h1, h2, c, h3, h4⟩
    exact .inr ⟨i, j, h1, h2, c, (BMap.mem_entries ..).2 h3, h4⟩

-- `x * (x + 0)` stores the power 2, not the power 1; the other way round both are stored
example :
    ((Sparse.new (BMap.empty.insert 1 (1 : Fl binary64))).mul
      (Sparse.new ((BMap.empty.insert 1 1).insert 0 0))).terms.entries.map Prod.fst = [2] ∧
    ((Sparse.new ((BMap.empty.insert 1 (1 : Fl binary64)).insert 0 0)).mul
      (Sparse.new (BMap.empty.insert 1 1))).terms.entries.map Prod.fst = [1, 2] := by decide +kernel

/-! ## Derivative and integral -/

theorem get_foldl_keyed {α N : Type} (l : List α) (c : α → Bool) (key : α → Nat) (val : α → N)
    (hl : l.Pairwise (fun a b => c a = true → c b = true → key a ≠ key b)) (m : BMap N) (j : Nat) (v : N) :
    (l.foldl (fun m e => if c e = true then m.insert (key e) (val e) else m) m).get j = some v ↔
      (∃ e ∈ l, c e = true ∧ key e = j ∧ val e = v) ∨
      (m.get j = some v ∧ ∀ e ∈ l, c e = true → key e ≠ j) := by
  induction l generalizing m with
  | nil => simp
  | cons a t ih =>
    rw [List.pairwise_cons] at hl
    rw [List.foldl_cons, ih hl.2]
    by_cases hc : c a = true
    · simp only [hc, if_true, BMap.get_insert, List.mem_cons, exists_eq_or_imp, forall_eq_or_imp, true_and,
        true_implies]
      by_cases hj : j = key a
      · subst hj
        have hno : ∀ e ∈ t, c e = true → key e ≠ key a := fun e he h => (hl.1 e he hc h).symm
        simp only [if_true, Option.some.injEq]
        constructor
        · rintro (⟨e, he, h1, h2, _⟩ | ⟨h, _⟩)
          · exact absurd h2 (hno e he h1)
          · exact .inl (.inl ⟨trivial, h⟩)
        · rintro ((⟨_, h⟩ | ⟨e, he, h1, h2, _⟩) | ⟨_, h, _⟩)
          · exact .inr ⟨h, hno⟩
          · exact absurd h2 (hno e he h1)
          · exact absurd rfl h
      · have hj' : key a ≠ j := fun h => hj h.symm
        simp only [if_neg hj, hj', false_and, false_or, ne_eq, not_false_eq_true, true_and]
    · simp only [hc, List.mem_cons, exists_eq_or_imp, forall_eq_or_imp]
      simp

/-- What the exact conversion of a degree below `usize::MAX` gives. -/
def ExactLaw (f : FlFmt) [FromUsizeExact (Fl f)] : Prop :=
  ∀ n : Nat, n < 2 ^ 64 - 1 →
    (∀ d : Fl f, tryFromExact n = some d → d.isFinite = true ∧ d.toRat = n) ∧
    ((tryFromExact n : Option (Fl f)) ≠ none ↔ FitsIn f.p n)

theorem ofNat_fits {n : Nat} (hn : FitsIn f.p n) (hlt : n * 2 ^ f.q < 2 ^ f.w) :
    (ofNat n : Fl f).isFinite = true ∧ (ofNat n : Fl f).toRat = n := by
  have hrep : Representable f.p n := hn
  unfold ofNat
  rw [roundNat_of_representable hrep]
  have hf : (pack false (n * 2 ^ f.q) : Fl f).isFinite = true := pack_isFinite.2 hlt
  refine ⟨hf, ?_⟩
  rw [toRat_pack hf]
  have : (2 : ℚ) ^ f.q ≠ 0 := by positivity
  push_cast
  simp [this]

theorem exactLaw_of [FromUsizeExact (Fl f)] (hp : 1 ≤ f.p) (hw : 64 + f.q ≤ f.w)
    (h : ∀ n, (tryFromExact n : Option (Fl f)) = (tryFromUsizeExactFloat 64 f.p n).map ofNat) : ExactLaw f := by
  intro n hn
  have h1 := C41_exact_float_partial 64 f.p n hp (by omega) (by omega)
  rw [h]
  constructor
  · intro d hd
    obtain ⟨v, hv, rfl⟩ := Option.map_eq_some_iff.1 hd
    obtain ⟨rfl, hr⟩ := (h1 v).1 hv
    refine ofNat_fits hr ?_
    calc v * 2 ^ f.q < 2 ^ 64 * 2 ^ f.q := Nat.mul_lt_mul_of_pos_right (by omega) (by positivity)
      _ = 2 ^ (64 + f.q) := by rw [pow_add]
      _ ≤ 2 ^ f.w := Nat.pow_le_pow_right (by norm_num) hw
  · rw [ne_eq, Option.map_eq_none_iff]
    constructor
    · intro hne
      obtain ⟨v, hv⟩ := Option.ne_none_iff_exists'.1 hne
      exact ((h1 v).1 hv).2
    · intro hr he
      rw [(h1 n).2 ⟨rfl, hr⟩] at he
      cases he

theorem exactLaw64 : ExactLaw binary64 := exactLaw_of (by decide) (by decide) fun _ => rfl
theorem exactLaw32 : ExactLaw binary32 := exactLaw_of (by decide) (by decide) fun _ => rfl

/-- The loop of `derivative`. -/
theorem sparse_derivative [FromUsizeExact (Fl f)] (p : Sparse (Fl f)) :
    p.derivative =
      if ∀ e ∈ p.terms.entries, (!isZero e.2 && e.1 != 0) = true → (tryFromExact e.1 : Option (Fl f)) ≠ none then
        .ok ⟨p.terms.entries.foldl (fun m e => if (!isZero e.2 && e.1 != 0) = true then
          m.insert (e.1 - 1) (e.2 * (tryFromExact e.1).getD 0) else m) .empty⟩
      else .panic := by
  unfold Sparse.derivative
  split
  · rename_i hall
    rw [foldlM_ok _ _ (fun m e => if (!isZero e.2 && e.1 != 0) = true then
          m.insert (e.1 - 1) (e.2 * (tryFromExact e.1).getD 0) else m)]
    · rfl
    · intro e he m
      by_cases hc : (!isZero e.2 && e.1 != 0) = true
      · simp only [hc, if_true]
        obtain ⟨d, hd⟩ := Option.ne_none_iff_exists'.1 (hall e he hc)
        simp [hd]
      · simp only [hc]
        rfl
  · rename_i hall
    push Not at hall
    obtain ⟨e, he, hc, hn⟩ := hall
    rw [foldlM_panic]
    · rfl
    · intro e he m
      split
      · split
        · exact .inl rfl
        · exact .inr ⟨_, rfl⟩
      · exact .inr ⟨_, rfl⟩
    · exact ⟨e, he, fun m => by simp [hc, hn]⟩

theorem sparse_derivative_state [FromUsizeExact (Fl f)] (hl : ExactLaw f) (Q : Fl f × ℚ → Prop) (L : Fl f → Prop)
    (hop : ∀ (x y : Fl f) (n : Nat), L x → y.isFinite = true → y.toRat = n → Q (x * y, x.toRat * n))
    (p r : Sparse (Fl f)) (h : p.derivative = .ok r) (hk : ∀ e ∈ p.terms.entries, e.1 < 2 ^ 64 - 1)
    (hL : ∀ k c, p.terms.get k = some c → L c) : Sparse_state Q r (derivative p.ratPoly) := by
  intro k
  rw [sparse_derivative] at h
  split at h
  · rename_i hall
    injection h with h
    have hget : ∀ j v, r.terms.get j = some v ↔ ∃ e ∈ p.terms.entries, (!isZero e.2 && e.1 != 0) = true ∧
        e.1 - 1 = j ∧ e.2 * (tryFromExact e.1).getD 0 = v := by
      intro j v
      rw [← h]
      refine (get_foldl_keyed p.terms.entries (fun e => !isZero e.2 && e.1 != 0) (fun e => e.1 - 1)
        (fun e => e.2 * (tryFromExact e.1).getD 0) ?_ .empty j v).trans ?_
      rotate_left
      · simp [BMap.get, BMap.empty, BMap.getList]
      · refine p.terms.sorted.imp ?_
        intro a b hab ha hb
        simp only [Bool.and_eq_true, bne_iff_ne] at ha hb
        omega
    rw [coeff_derivative, coeff_rat]
    cases hv : r.terms.get k with
    | none =>
      have : (match p.terms.get (k + 1) with | none => 0 | some c => c.toRat) = (0 : ℚ) := by
        cases hc : p.terms.get (k + 1) with
        | none => rfl
        | some c =>
          simp only
          by_contra hne
          have hz : isZero c = false := by
            by_contra hz
            obtain ⟨s, rfl⟩ := isZero_iff.1 (by simpa using hz)
            exact hne (toRat_fin_zero s)
          have := (hget k (c * (tryFromExact (k + 1)).getD 0)).2
            ⟨(k + 1, c), (BMap.mem_entries ..).2 hc, by simp [hz], by simp, rfl⟩
          rw [hv] at this
          cases this
      rw [this]
      simp
    | some v =>
      obtain ⟨⟨i, c⟩, he, hc, rfl, hvv⟩ := (hget k v).1 hv
      have hi : i - 1 + 1 = i := by simp at hc; omega
      obtain ⟨d, hd⟩ := Option.ne_none_iff_exists'.1 (hall _ he hc)
      obtain ⟨hdf, hdn⟩ := (hl i (hk _ he)).1 d hd
      rw [hd] at hvv
      simp only [Option.getD_some] at hvv
      rw [hi, (BMap.mem_entries ..).1 he]
      subst hvv
      have := hop c d i (hL i c ((BMap.mem_entries ..).1 he)) hdf hdn
      have hcast : (((i - 1 : ℕ) : ℚ) + 1) = (i : ℚ) := by
        rw [← hi]; push_cast; simp
      simp only
      rw [hcast]
      exact this
  · cases h

theorem sparse_derivative_error [FromUsizeExact (Fl f)] (hl : ExactLaw f) (p r : Sparse (Fl f))
    (h : p.derivative = .ok r) (hk : ∀ e ∈ p.terms.entries, e.1 < 2 ^ 64 - 1) (hr : r.AllFinite) (k : Nat) :
    |(r.ratPoly - derivative p.ratPoly).coeff k| ≤ uro f * |(derivative p.ratPoly).coeff k| :=
  state_R1 (sparse_derivative_state hl R1 (fun _ => True) (fun x y n _ _ hn => R1_mul_nat x y n hn) p r h hk
    (fun _ _ _ => trivial)) hr k

/-- C85: every coefficient of the derivative is rounded once; for `f64` and `f32`.  (The degree `usize::MAX` is
left out: its conversion is wrong, see C41.) -/
theorem C85_derivative_error (p r : Sparse (Fl binary64)) (p' r' : Sparse (Fl binary32)) (k : Nat) :
    (p.derivative = .ok r → (∀ e ∈ p.terms.entries, e.1 < 2 ^ 64 - 1) → r.AllFinite →
      |(r.ratPoly - derivative p.ratPoly).coeff k| ≤ uro binary64 * |(derivative p.ratPoly).coeff k|) ∧
    (p'.derivative = .ok r' → (∀ e ∈ p'.terms.entries, e.1 < 2 ^ 64 - 1) → r'.AllFinite →
      |(r'.ratPoly - derivative p'.ratPoly).coeff k| ≤ uro binary32 * |(derivative p'.ratPoly).coeff k|) :=
  ⟨fun h hk hr => sparse_derivative_error exactLaw64 p r h hk hr k,
    fun h hk hr => sparse_derivative_error exactLaw32 p' r' h hk hr k⟩

example : (exA.derivative.bind fun r => .ok (r.terms.entries.map fun e => (e.1, e.2.toRat))) =
    .ok [(2, 21), (69, 7)] ∧ (∀ e ∈ exA.terms.entries, e.1 < 2 ^ 64 - 1) := by decide +kernel

theorem sparse_derivative_returns [FromUsizeExact (Fl f)] (hl : ExactLaw f) (p : Sparse (Fl f))
    (hk : ∀ e ∈ p.terms.entries, e.1 < 2 ^ 64 - 1) :
    ((∃ r, p.derivative = .ok r) ↔ ∀ k c, p.terms.get k = some c → isZero c = false → FitsIn f.p k) ∧
    (p.derivative = .panic ↔ ¬ ∀ k c, p.terms.get k = some c → isZero c = false → FitsIn f.p k) := by
  have key : (∀ e ∈ p.terms.entries, (!isZero e.2 && e.1 != 0) = true →
      (tryFromExact e.1 : Option (Fl f)) ≠ none) ↔
      ∀ k c, p.terms.get k = some c → isZero c = false → FitsIn f.p k := by
    constructor
    · intro h k c hc hz
      have hm := (BMap.mem_entries ..).2 hc
      by_cases h0 : k = 0
      · subst h0; exact ⟨0, 0, by positivity, by simp⟩
      · exact ((hl k (hk _ hm)).2).1 (h (k, c) hm (by simp [hz, h0]))
    · rintro h ⟨k, c⟩ he hc
      simp only [Bool.and_eq_true, Bool.not_eq_true'] at hc
      exact ((hl k (hk _ he)).2).2 (h k c ((BMap.mem_entries ..).1 he) hc.1)
  rw [← key, sparse_derivative]
  split
  · rename_i h
    exact ⟨⟨fun _ => h, fun _ => ⟨_, rfl⟩⟩, ⟨(fun h => by cases h), fun h' => absurd h h'⟩⟩
  · rename_i h
    exact ⟨⟨fun ⟨r, hr⟩ => (by cases hr), fun h' => absurd h' h⟩, ⟨fun _ => h, fun _ => rfl⟩⟩

/-- C85: `derivative` returns exactly if every degree with a non-zero coefficient is a number of the format, and
panics otherwise. -/
theorem C85_derivative_returns (p : Sparse (Fl binary64)) (p' : Sparse (Fl binary32))
    (hk : ∀ e ∈ p.terms.entries, e.1 < 2 ^ 64 - 1) (hk' : ∀ e ∈ p'.terms.entries, e.1 < 2 ^ 64 - 1) :
    ((∃ r, p.derivative = .ok r) ↔ ∀ k c, p.terms.get k = some c → isZero c = false → FitsIn 53 k) ∧
    (p.derivative = .panic ↔ ¬ ∀ k c, p.terms.get k = some c → isZero c = false → FitsIn 53 k) ∧
    ((∃ r, p'.derivative = .ok r) ↔ ∀ k c, p'.terms.get k = some c → isZero c = false → FitsIn 24 k) ∧
    (p'.derivative = .panic ↔ ¬ ∀ k c, p'.terms.get k = some c → isZero c = false → FitsIn 24 k) :=
  ⟨(sparse_derivative_returns exactLaw64 p hk).1, (sparse_derivative_returns exactLaw64 p hk).2,
    (sparse_derivative_returns exactLaw32 p' hk').1, (sparse_derivative_returns exactLaw32 p' hk').2⟩

-- `x^(2^24 + 1)` has a derivative over `f64` but not over `f32`
example : ((Sparse.new (BMap.empty.insert (2 ^ 24 + 1) (1 : Fl binary64))).derivative.bind fun r =>
      .ok (r.terms.entries.map fun e => (e.1, e.2.toRat))) = .ok [(2 ^ 24, 2 ^ 24 + 1)] ∧
    ((Sparse.new (BMap.empty.insert (2 ^ 24 + 1) (1 : Fl binary32))).derivative.bind fun r =>
      .ok (r.terms.entries.map fun e => (e.1, e.2.toRat))) = .panic := by decide +kernel

/-- The loop of `integral`. -/
theorem sparse_integral [FromUsizeExact (Fl f)] (p : Sparse (Fl f)) :
    p.integral =
      if ∀ e ∈ p.terms.entries, (tryFromExact (e.1 + 1) : Option (Fl f)) ≠ none then
        .ok ⟨p.terms.entries.foldl (fun m e => if true = true then
          m.insert (e.1 + 1) (div e.2 ((tryFromExact (e.1 + 1)).getD 0)) else m) .empty⟩
      else .panic := by
  unfold Sparse.integral
  split
  · rename_i hall
    rw [foldlM_ok _ _ (fun m e => if true = true then
          m.insert (e.1 + 1) (div e.2 ((tryFromExact (e.1 + 1)).getD 0)) else m)]
    · rfl
    · intro e he m
      obtain ⟨d, hd⟩ := Option.ne_none_iff_exists'.1 (hall e he)
      simp [hd]
      rfl
  · rename_i hall
    push Not at hall
    obtain ⟨e, he, hn⟩ := hall
    rw [foldlM_panic]
    · rfl
    · intro e he m
      split
      · exact .inl rfl
      · exact .inr ⟨_, rfl⟩
    · exact ⟨e, he, fun m => by simp [hn]⟩

theorem sparse_integral_error [FromUsizeExact (Fl f)] (hl : ExactLaw f) (p r : Sparse (Fl f))
    (h : p.integral = .ok r) (hk : ∀ e ∈ p.terms.entries, e.1 + 1 < 2 ^ 64 - 1) (hp : p.AllFinite)
    (hr : r.AllFinite) :
    r.ratPoly.coeff 0 = 0 ∧ ∀ k, |r.ratPoly.coeff (k + 1) - p.ratPoly.coeff k / (k + 1)| ≤
      uro f * |p.ratPoly.coeff k / (k + 1)| + eta f := by
  have hη := eta_nonneg (f := f)
  rw [sparse_integral] at h
  split at h
  · rename_i hall
    injection h with h
    have hget : ∀ j v, r.terms.get j = some v ↔ ∃ e ∈ p.terms.entries,
        e.1 + 1 = j ∧ div e.2 ((tryFromExact (e.1 + 1)).getD 0) = v := by
      intro j v
      rw [← h]
      refine (get_foldl_keyed p.terms.entries (fun _ => true) (fun e => e.1 + 1)
        (fun e => div e.2 ((tryFromExact (e.1 + 1)).getD 0)) ?_ .empty j v).trans ?_
      rotate_left
      · simp [BMap.get, BMap.empty, BMap.getList]
      · refine p.terms.sorted.imp ?_
        intro a b hab ha hb
        omega
    constructor
    · rw [coeff_rat]
      cases hv : r.terms.get 0 with
      | none => rfl
      | some v =>
        obtain ⟨e, _, h0, _⟩ := (hget 0 v).1 hv
        omega
    · intro k
      rw [coeff_rat, coeff_rat]
      cases hc : p.terms.get k with
      | none =>
        cases hv : r.terms.get (k + 1) with
        | none => simpa using hη
        | some v =>
          obtain ⟨⟨i, c⟩, he, hi, _⟩ := (hget _ v).1 hv
          have : i = k := by simpa using hi
          subst this
          rw [(BMap.mem_entries ..).1 he] at hc
          cases hc
      | some c =>
        have hm := (BMap.mem_entries ..).2 hc
        obtain ⟨d, hd⟩ := Option.ne_none_iff_exists'.1 (hall _ hm)
        obtain ⟨hdf, hdn⟩ := (hl (k + 1) (hk _ hm)).1 d hd
        have hv := (hget (k + 1) _).2 ⟨(k, c), hm, rfl, rfl⟩
        simp only at hd hv
        rw [hd] at hv
        simp only [Option.getD_some] at hv
        rw [hv]
        have := div_error (finite_get hp hc) hdf (by rw [hdn]; positivity) (finite_get hr hv)
        rw [hdn] at this
        push_cast at this
        exact this
  · cases h

/-- C85: the integral has constant term 0 and every other coefficient is rounded once; for `f64` and `f32`. -/
theorem C85_integral_error (p r : Sparse (Fl binary64)) (p' r' : Sparse (Fl binary32)) :
    (p.integral = .ok r → (∀ e ∈ p.terms.entries, e.1 + 1 < 2 ^ 64 - 1) → p.AllFinite → r.AllFinite →
      r.ratPoly.coeff 0 = 0 ∧ ∀ k, |r.ratPoly.coeff (k + 1) - p.ratPoly.coeff k / (k + 1)| ≤
        uro binary64 * |p.ratPoly.coeff k / (k + 1)| + eta binary64) ∧
    (p'.integral = .ok r' → (∀ e ∈ p'.terms.entries, e.1 + 1 < 2 ^ 64 - 1) → p'.AllFinite → r'.AllFinite →
      r'.ratPoly.coeff 0 = 0 ∧ ∀ k, |r'.ratPoly.coeff (k + 1) - p'.ratPoly.coeff k / (k + 1)| ≤
        uro binary32 * |p'.ratPoly.coeff k / (k + 1)| + eta binary32) :=
  ⟨fun h hk hp hr => sparse_integral_error exactLaw64 p r h hk hp hr,
    fun h hk hp hr => sparse_integral_error exactLaw32 p' r' h hk hp hr⟩

example : (exA.integral.bind fun r => .ok (r.terms.entries.map fun e => (e.1, e.2.toRat))) =
    .ok [(4, 7 / 4), (71, 6495332420320265 / 4611686018427387904)] ∧
    (∀ e ∈ exA.terms.entries, e.1 + 1 < 2 ^ 64 - 1) ∧ exA.AllFinite := by decide +kernel

/-- C85: the derivative of `x^usize::MAX` has the coefficient `2^64` (one too many) for `f64` and `f32`. -/
theorem C85_derivative_max_false :
    ((Sparse.new (BMap.empty.insert (2 ^ 64 - 1) (1 : Fl binary64))).derivative.bind fun r =>
      .ok r.terms.entries) = .ok [(2 ^ 64 - 2, ofNat (2 ^ 64))] ∧
    ((Sparse.new (BMap.empty.insert (2 ^ 64 - 1) (1 : Fl binary32))).derivative.bind fun r =>
      .ok r.terms.entries) = .ok [(2 ^ 64 - 2, ofNat (2 ^ 64))] ∧
    (ofNat (2 ^ 64) : Fl binary64).toRat = 2 ^ 64 := by
  decide +kernel

/-! ## Degree, terms, equality -/

section Generic
variable {N : Type} [Zero N] [NumZero N]

/-- The loop of `degree` finds the last non-zero entry. -/
theorem degreeLoop_last (l : List (Nat × N)) : ∀ (t : N) (d : Nat), l.Pairwise (fun a b => a.1 < b.1) →
    (∀ e ∈ l, d < e.1) →
    (sparseDegreeLoop l (t, d) = (t, d) ∧ ∀ e ∈ l, isZero e.2 = true) ∨
    (∃ k c, sparseDegreeLoop l (t, d) = (c, k) ∧ (k, c) ∈ l ∧ isZero c = false ∧
      ∀ e ∈ l, k < e.1 → isZero e.2 = true) := by
  induction l with
  | nil => intro t d _ _; exact .inl ⟨rfl, by simp⟩
  | cons a l ih =>
    intro t d hs hd
    obtain ⟨k, c⟩ := a
    rw [List.pairwise_cons] at hs
    have hk : d < k := hd _ (List.mem_cons_self ..)
    unfold sparseDegreeLoop
    by_cases hz : isZero c = true
    · simp only [hz]
      rw [if_neg (by simp)]
      rcases ih t d hs.2 (fun e he => hd e (List.mem_cons_of_mem _ he)) with ⟨h1, h2⟩ | ⟨k', c', h1, h2, h3, h4⟩
      · refine .inl ⟨h1, ?_⟩
        intro e he
        rcases List.mem_cons.1 he with rfl | he
        · exact hz
        · exact h2 e he
      · refine .inr ⟨k', c', h1, List.mem_cons_of_mem _ h2, h3, ?_⟩
        intro e he hlt
        rcases List.mem_cons.1 he with rfl | he
        · exact hz
        · exact h4 e he hlt
    · have hz' : isZero c = false := by simpa using hz
      rw [if_pos (by simp [hz', hk])]
      rcases ih c k hs.2 (fun e he => hs.1 e he) with ⟨h1, h2⟩ | ⟨k', c', h1, h2, h3, h4⟩
      · refine .inr ⟨k, c, h1, List.mem_cons_self .., hz', ?_⟩
        intro e he hlt
        rcases List.mem_cons.1 he with rfl | he
        · exact absurd hlt (lt_irrefl _)
        · exact h2 e he
      · refine .inr ⟨k', c', h1, List.mem_cons_of_mem _ h2, h3, ?_⟩
        intro e he hlt
        rcases List.mem_cons.1 he with rfl | he
        · exact absurd (hs.1 _ h2) (by omega)
        · exact h4 e he hlt

/-- The first term is the non-zero entry of highest degree. -/
theorem firstTerm_last (m : BMap N) :
    (sparseFirstTerm m = .zeroTerm ∧ sparseDegree m = .negInf ∧ ∀ k c, m.get k = some c → isZero c = true) ∨
    (∃ k c, sparseFirstTerm m = .term c k ∧ sparseDegree m = .num k ∧ m.get k = some c ∧ isZero c = false ∧
      ∀ j c', k < j → m.get j = some c' → isZero c' = true) := by
  have hs := m.sorted
  have hmem : ∀ k c, m.get k = some c ↔ (k, c) ∈ m.entries := fun k c => (BMap.mem_entries ..).symm
  unfold sparseFirstTerm sparseDegree
  cases he : m.entries with
  | nil =>
    refine .inl ⟨rfl, rfl, fun k c h => ?_⟩
    rw [hmem, he] at h
    cases h
  | cons a l =>
    obtain ⟨d, t⟩ := a
    rw [he, List.pairwise_cons] at hs
    simp only
    rcases degreeLoop_last l t d hs.2 (fun e h => hs.1 e h) with ⟨h1, h2⟩ | ⟨k, c, h1, h2, h3, h4⟩
    · rw [h1]
      by_cases hz : isZero t = true
      · simp only [hz, if_true]
        refine .inl ⟨trivial, trivial, fun k c h => ?_⟩
        rw [hmem, he] at h
        rcases List.mem_cons.1 h with h | h
        · cases h; exact hz
        · exact h2 _ h
      · have hz' : isZero t = false := by simpa using hz
        have hg : m.get d = some t := (hmem d t).2 (by rw [he]; exact List.mem_cons_self ..)
        simp only [hz']
        refine .inr ⟨d, t, ?_, rfl, hg, hz', fun j c' hj h => ?_⟩
        · simp [hg, Term.new, hz']
        · rw [hmem, he] at h
          rcases List.mem_cons.1 h with h | h
          · cases h; exact absurd hj (lt_irrefl _)
          · exact h2 _ h
    · have hg : m.get k = some c := (hmem k c).2 (by rw [he]; exact List.mem_cons_of_mem _ h2)
      rw [h1]
      simp only [h3]
      refine .inr ⟨k, c, ?_, rfl, hg, h3, fun j c' hj h => ?_⟩
      · simp [hg, Term.new, h3]
      · rw [hmem, he] at h
        rcases List.mem_cons.1 h with h | h
        · cases h; exact absurd (hs.1 _ h2) (by simp only at hj ⊢; omega)
        · exact h4 _ h hj

theorem sparse_eq_iff [BEq N] (p q : Sparse N) : p.eq q = true ↔
    (∀ k v, p.terms.get k = some v → (q.terms.get k = none → isZero v = true) ∧
      ∀ w, q.terms.get k = some w → (v == w) = true) ∧
    (∀ k v, q.terms.get k = some v → (p.terms.get k = none → isZero v = true) ∧
      ∀ w, p.terms.get k = some w → (v == w) = true) := by
  unfold Sparse.eq
  rw [Bool.and_eq_true, List.all_eq_true, List.all_eq_true]
  refine and_congr ?_ ?_
  all_goals
    constructor
    · intro h k v hv
      have := h _ ((BMap.mem_entries ..).2 hv)
      simp only at this
      constructor
      · intro hn; rw [hn] at this; exact this
      · intro w hw; rw [hw] at this; exact this
    · rintro h ⟨k, v⟩ he
      obtain ⟨h1, h2⟩ := h k v ((BMap.mem_entries ..).1 he)
      simp only
      split
      · exact h1 (by assumption)
      · exact h2 _ (by assumption)

end Generic

theorem toRat_ne_zero {c : Fl f} (hc : c.isFinite = true) : isZero c = false ↔ c.toRat ≠ 0 := by
  rw [ne_eq, ← isZero_iff_toRat hc]
  simp

/-- C85: `degree` and `is_zero` of a polynomial with finite coefficients are those of the exact polynomial (also
with stored zeros of either sign). -/
theorem C85_degree (p : Sparse (Fl f)) (h : p.AllFinite) :
    p.degree.toWithBot = p.ratPoly.degree ∧ (p.isZeroPoly = true ↔ p.ratPoly = 0) := by
  have hz : ∀ k, (∀ c, p.terms.get k = some c → isZero c = true) → p.ratPoly.coeff k = 0 := by
    intro k hk
    rw [coeff_rat]
    cases hc : p.terms.get k with
    | none => rfl
    | some c => exact (isZero_iff_toRat (finite_get h hc)).1 (hk c hc)
  unfold Sparse.isZeroPoly Sparse.degree
  rcases firstTerm_last p.terms with ⟨_, h2, h3⟩ | ⟨k, c, _, h2, h3, h4, h5⟩
  · have h0 : p.ratPoly = 0 := by
      ext k
      rw [coeff_zero]
      exact hz k (fun c hc => h3 k c hc)
    rw [h2, h0]
    simp [Degree.toWithBot, Degree.isZeroPoly]
  · have hc : p.ratPoly.coeff k ≠ 0 := by
      rw [coeff_rat, h3]
      exact (toRat_ne_zero (finite_get h h3)).1 h4
    have hd : p.ratPoly.degree = k := by
      refine le_antisymm ?_ (le_degree_of_ne_zero hc)
      rw [degree_le_iff_coeff_zero]
      intro m hm
      exact hz m fun c' hc' => h5 m c' (by exact_mod_cast hm) hc'
    rw [h2, hd]
    refine ⟨rfl, ⟨fun h => by simp [Degree.isZeroPoly] at h, fun h => ?_⟩⟩
    rw [h] at hc
    simp at hc

example : (exB.sub exB).AllFinite ∧ (exB.sub exB).degree = .negInf ∧ (exB.sub exB).isZeroPoly = true ∧
    exA.degree = .num 70 := by decide +kernel

/-- C85: the terms of a polynomial with finite coefficients are the terms of the exact polynomial in descending
order. -/
theorem C85_terms (p : Sparse (Fl f)) (h : p.AllFinite) :
    IsTermListOf (p.orderedTermIter.map fun t => (t.1.toRat, t.2)) p.ratPoly := by
  constructor
  · unfold Sparse.orderedTermIter
    rw [List.pairwise_map, List.pairwise_filterMap, List.pairwise_reverse]
    refine p.terms.sorted.imp ?_
    intro a b hab x hx y hy
    split at hx
    · simp at hx
    · split at hy
      · simp at hy
      · cases hx; cases hy; exact hab
  · intro c d
    unfold Sparse.orderedTermIter
    simp only [List.mem_map, List.mem_filterMap, List.mem_reverse, Prod.mk.injEq, Prod.exists]
    rw [coeff_rat]
    constructor
    · rintro ⟨x, k, ⟨k', x', hm, he⟩, rfl, rfl⟩
      split at he
      · simp at he
      · rename_i hz
        injection he with he
        cases he
        have hg := (BMap.mem_entries ..).1 hm
        rw [hg]
        exact ⟨(toRat_ne_zero (finite_get h hg)).1 (by simpa using hz), rfl⟩
    · rintro ⟨hc, he⟩
      cases hg : p.terms.get d with
      | none => rw [hg] at he; exact absurd he.symm hc
      | some x =>
        rw [hg] at he
        simp only at he
        subst he
        refine ⟨x, d, ⟨d, x, (BMap.mem_entries ..).2 hg, ?_⟩, rfl, rfl⟩
        rw [if_neg]
        rw [(toRat_ne_zero (finite_get h hg)).2 hc]
        simp

example : (exA.orderedTermIter.map fun t => (t.1.toRat, t.2)) =
    [(3602879701896397 / 36028797018963968, 70), (7, 3)] := by decide +kernel

theorem beq_iff {x y : Fl f} (hx : x.isFinite = true) (hy : y.isFinite = true) :
    (x == y) = true ↔ x.toRat = y.toRat := by
  obtain ⟨s, a, rfl⟩ := isFinite_iff.1 hx
  obtain ⟨t, b, rfl⟩ := isFinite_iff.1 hy
  have h2 : ((2 : ℚ) ^ f.q) ≠ 0 := by positivity
  change beq _ _ = true ↔ _
  simp only [beq, toRat, Bool.and_eq_true, beq_iff_eq, Bool.or_eq_true]
  have ha : (0 : ℚ) ≤ a := by positivity
  have hb : (0 : ℚ) ≤ b := by positivity
  constructor
  · rintro ⟨rfl, rfl | rfl⟩
    · rfl
    · simp
  · intro h
    have h' : (if s then (-1 : ℚ) else 1) * a = (if t then (-1 : ℚ) else 1) * b := by
      have := congrArg (· * (2 : ℚ) ^ f.q) h
      field_simp at this
      exact this
    cases s <;> cases t <;> simp at h' ⊢
    · exact h'
    · exact ⟨h'.1.trans h'.2.symm, h'.1⟩
    · exact ⟨h'.1.trans h'.2.symm, h'.1⟩
    · exact h'

theorem beq_nan (x : Fl f) : (x == (.nan : Fl f)) = false ∧ ((.nan : Fl f) == x) = false := by
  constructor <;> (cases x <;> rfl)

theorem beq_self {x : Fl f} (h : x ≠ .nan) : (x == x) = true := by
  cases x with
  | nan => exact absurd rfl h
  | inf s => show (s == s) = true; simp
  | fin s a => show (a == a && (s == s || a == 0)) = true; simp

/-- C85: `==` of polynomials with finite coefficients is equality of the exact polynomials (so stored zeros and
their signs do not matter); a polynomial equals itself exactly if no stored coefficient is NaN. -/
theorem C85_eq (p q : Sparse (Fl f)) :
    (p.AllFinite → q.AllFinite → (p.eq q = true ↔ p.ratPoly = q.ratPoly)) ∧
    (p.eq p = true ↔ ∀ k, p.terms.get k ≠ some .nan) := by
  constructor
  · intro hp hq
    have key : ∀ p q : Sparse (Fl f), p.AllFinite → q.AllFinite →
        ((∀ k v, p.terms.get k = some v → (q.terms.get k = none → isZero v = true) ∧
          ∀ w, q.terms.get k = some w → (v == w) = true) ↔
        ∀ k v, p.terms.get k = some v → v.toRat = q.ratPoly.coeff k) := by
      intro p q hp hq
      refine forall₃_congr fun k v hv => ?_
      rw [coeff_rat]
      cases hg : q.terms.get k with
      | none => simpa using isZero_iff_toRat (finite_get hp hv)
      | some w => simpa using beq_iff (finite_get hp hv) (finite_get hq hg)
    rw [sparse_eq_iff]
    refine (and_congr (key p q hp hq) (key q p hq hp)).trans ?_
    constructor
    · rintro ⟨h1, h2⟩
      ext k
      cases hg : p.terms.get k with
      | some v => rw [← h1 k v hg, coeff_rat, hg]
      | none =>
        cases hg' : q.terms.get k with
        | some w => rw [← h2 k w hg', coeff_rat q, hg']
        | none => rw [coeff_rat, coeff_rat, hg, hg']
    · intro h
      refine ⟨fun k v hv => ?_, fun k v hv => ?_⟩
      · rw [← h, coeff_rat, hv]
      · rw [h, coeff_rat, hv]
  · rw [sparse_eq_iff, and_self]
    constructor
    · intro h k hk
      have := (h k _ hk).2 _ hk
      rw [(beq_nan _).1] at this
      cases this
    · intro h k v hv
      refine ⟨fun hn => (by rw [hv] at hn; cases hn), fun w hw => ?_⟩
      rw [hv] at hw
      cases hw
      exact beq_self fun hn => h k (by rw [hv, hn])

-- the zeros `exB - exB` stores do not count; a NaN makes a polynomial different from itself
example : (exB.sub exB).eq Sparse.zero = true ∧ exA.eq exB = false ∧
    (Sparse.new (BMap.empty.insert 2 (nan : Fl binary64))).eq (Sparse.new (BMap.empty.insert 2 nan)) = false := by
  decide +kernel

/-! ## Division -/

theorem isZero_sub_zero_mul (hp : 1 ≤ f.p) {x z s : Fl f} (hx : isZero x = false) (hz : isZero z = true) :
    isZero (x - z * s) = false := by
  by_contra hc
  have hc : isZero (x - z * s) = true := by simpa using hc
  obtain ⟨t, ht⟩ := isZero_iff.1 hc
  have hfin : (x - z * s).isFinite = true := by rw [ht]; rfl
  obtain ⟨hxf, hmf⟩ := finite_of_sub hfin
  have hm : (z * s).toRat = 0 := by
    obtain ⟨sg, rfl⟩ := isZero_iff.1 hz
    obtain ⟨_, hsf⟩ := finite_of_mul hmf
    obtain ⟨s', a, rfl⟩ := isFinite_iff.1 hsf
    have : (fin sg 0 * fin s' a : Fl f) = pack (sg != s') (roundRat f.p (0 * a) (2 ^ f.q)) := rfl
    rw [this, Nat.zero_mul]
    simp [roundRat, pack, toRat]
  have h1 := sub_error hfin
  rw [hm, ht, toRat_fin_zero] at h1
  have hx0 := (toRat_ne_zero hxf).1 hx
  have hpos := abs_pos.2 hx0
  have hu : uro f ≤ 1 / 2 := by
    unfold uro
    have : (2 : ℚ) ^ 1 ≤ 2 ^ f.p := pow_le_pow_right₀ (by norm_num) hp
    rw [pow_one] at this
    exact one_div_le_one_div_of_le (by norm_num) this
  simp only [zero_sub, sub_zero, abs_neg] at h1
  nlinarith

/-- A non-zero coefficient above the degree of the divisor stays. -/
theorem mapSubWScale_high (hp : 1 ≤ f.p) (m b : BMap (Fl f)) (s : Fl f) (rd k : Nat) (c : Fl f) (hk : rd < k)
    (hb : ∀ j c', rd < j → b.get j = some c' → isZero c' = true) (hc : m.get k = some c) (hz : isZero c = false) :
    ∃ c', (mapSubWScale m b s).get k = some c' ∧ isZero c' = false := by
  have hg := BMap.get_foldl_upsert (fun c => -c * s) (fun x c => x - c * s) b.entries b.keys_nodup m k
  rw [show BMap.getList k b.entries = b.get k from rfl, hc] at hg
  change (mapSubWScale m b s).get k = _ at hg
  cases hbk : b.get k with
  | none => exact ⟨c, by rw [hg, hbk], hz⟩
  | some z =>
    refine ⟨c - z * s, by rw [hg, hbk], ?_⟩
    exact isZero_sub_zero_mul hp hz (hb k z hk hbk)

theorem firstTerm_high {m : BMap (Fl f)} {k : Nat} {c : Fl f} (hc : m.get k = some c) (hz : isZero c = false) :
    ∃ k' c', sparseFirstTerm m = .term c' k' ∧ k ≤ k' := by
  rcases firstTerm_last m with ⟨_, _, h3⟩ | ⟨k', c', h1, _, _, _, h5⟩
  · rw [h3 k c hc] at hz; cases hz
  · refine ⟨k', c', h1, ?_⟩
    by_contra hlt
    rw [h5 k c (by omega) hc] at hz
    cases hz

theorem loops_high (hp : 1 ≤ f.p) (b : BMap (Fl f)) (rf : Fl f) (rd offset k : Nat) (hk : rd < k)
    (hb : ∀ j c', rd < j → b.get j = some c' → isZero c' = true) : ∀ (fuel : Nat) (scale : Fl f) (sd : Nat)
    (m : BMap (Fl f)) (dv : Sparse (Fl f)), rd < sd → (∃ c, m.get k = some c ∧ isZero c = false) →
    Sparse.divModLoop b rf rd offset fuel scale sd m dv = .fuel ∧ Sparse.remLoop b rf rd fuel scale sd m = .fuel
  | 0, _, _, _, _, _, _ => ⟨rfl, rfl⟩
  | fuel + 1, scale, sd, m, dv, hsd, ⟨c, hc, hz⟩ => by
    obtain ⟨c', hc', hz'⟩ := mapSubWScale_high hp m b scale rd k c hk hb hc hz
    obtain ⟨k', x, h1, h2⟩ := firstTerm_high hc' hz'
    have ih := fun s => loops_high hp b rf rd offset k hk hb fuel s k' (mapSubWScale m b scale)
    constructor
    · rw [Sparse.divModLoop, if_pos (by omega)]
      simp only [h1]
      exact (ih (div x rf) (dv.addTerm scale offset) (by omega) ⟨c', hc', hz'⟩).1
    · rw [Sparse.remLoop, if_pos (by omega)]
      simp only [h1]
      exact (ih (div x rf) dv (by omega) ⟨c', hc', hz'⟩).2

/-- C85: the outcome of sparse division of float polynomials (any coefficients, also NaN and infinite): a divisor
without non-zero coefficient panics; a dividend of lower degree is returned as remainder; a dividend of higher
degree is never finished. -/
theorem C85_div_outcome (hp : 1 ≤ f.p) (p b : Sparse (Fl f)) (fuel : Nat) :
    (b.degree = .negInf → p.divMod fuel b = .panic ∧ p.rem fuel b = .panic) ∧
    (∀ e, b.degree = .num e →
      ((p.degree = .negInf ∨ ∃ d, p.degree = .num d ∧ d < e) →
        p.divMod fuel b = .ok (Sparse.zero, p) ∧ p.rem fuel b = .ok p) ∧
      (∀ d, p.degree = .num d → e < d → p.divMod fuel b = .fuel ∧ p.rem fuel b = .fuel)) := by
  unfold Sparse.divMod Sparse.rem Sparse.degree
  rcases firstTerm_last b.terms with ⟨h1, h2, h3⟩ | ⟨e, rf, h1, h2, h3, h4, h5⟩
  · rw [h1, h2]
    exact ⟨fun _ => ⟨rfl, rfl⟩, fun e he => by cases he⟩
  · rw [h1, h2]
    refine ⟨(fun h => by cases h), fun e' he => ?_⟩
    cases he
    rcases firstTerm_last p.terms with ⟨g1, g2, g3⟩ | ⟨d, c, g1, g2, g3, g4, g5⟩
    · rw [g1, g2]
      exact ⟨fun _ => ⟨rfl, rfl⟩, fun d hd => by cases hd⟩
    · rw [g1, g2]
      refine ⟨?_, ?_⟩
      · rintro (h | ⟨d', h, hlt⟩)
        · cases h
        · cases h
          simp only [if_pos hlt]
          exact ⟨rfl, rfl⟩
      · intro d' h hlt
        cases h
        have := fun (s : Fl f) (dv : Sparse (Fl f)) =>
          loops_high hp b.terms rf e (d - e) d hlt h5 fuel s d p.terms dv hlt ⟨c, g3, g4⟩
        have hnlt : ¬ d < e := by omega
        simp only [if_neg hnlt]
        constructor
        · rw [show (rdiv c rf : Res (Fl f)) = .ok (div c rf) from rfl, Res.ok_bind, (this _ _).1]
          rfl
        · rw [show (rdiv c rf : Res (Fl f)) = .ok (div c rf) from rfl, Res.ok_bind, (this _ Sparse.zero).2]
          rfl

example : (exA.sub exA).degree = .negInf ∧ exA.degree = .num 70 ∧
    (Sparse.fromVec [(1 : Fl binary64), ofNat 7]).degree = .num 1 := by decide +kernel

/-- The coefficients after one round of the division loop. -/
theorem mapSubWScale_get (m b : BMap (Fl f)) (s : Fl f) (k : Nat) :
    (mapSubWScale m b s).get k = match b.get k, m.get k with
      | some y, some x => some (x - y * s)
      | some y, none => some (-y * s)
      | none, x => x := by
  have hg := BMap.get_foldl_upsert (fun c => -c * s) (fun x c => x - c * s) b.entries b.keys_nodup m k
  rw [show BMap.getList k b.entries = b.get k from rfl] at hg
  change (mapSubWScale m b s).get k = _ at hg
  rw [hg]
  cases b.get k <;> cases m.get k <;> rfl

/-- C85: operands of equal degree whose leading coefficients cancel exactly: one round is enough, the quotient is
the rounded quotient of the leading coefficients, and `quotient * divisor + remainder` differs from the dividend by
two roundings per coefficient. -/
theorem C85_div_equal (p b : Sparse (Fl f)) (e : Nat) (c rf : Fl f) (hpd : p.degree = .num e)
    (hbd : b.degree = .num e) (hc : p.terms.get e = some c) (hr : b.terms.get e = some rf)
    (hz : isZero (c - rf * div c rf) = true) (fuel : Nat) :
    ∃ q r, p.divMod (fuel + 2) b = .ok (q, r) ∧ p.rem (fuel + 2) b = .ok r ∧
      q.ratPoly = C (div c rf).toRat ∧
      (r.AllFinite → r.ratPoly.degree < e ∧ ∀ k,
        |((q.ratPoly * b.ratPoly + r.ratPoly) - p.ratPoly).coeff k| ≤
          ((1 + uro f) ^ 2 - 1) * (|p.ratPoly.coeff k| + |(q.ratPoly * b.ratPoly).coeff k|) +
            (1 + uro f) * eta f) := by
  have hu := uro_nonneg (f := f)
  have hη := eta_nonneg (f := f)
  have fb : sparseFirstTerm b.terms = .term rf e ∧ ∀ j c', e < j → b.terms.get j = some c' → isZero c' = true := by
    unfold Sparse.degree at hbd
    rcases firstTerm_last b.terms with ⟨_, h2, _⟩ | ⟨e', rf', h1, h2, h3, _, h5⟩
    · rw [h2] at hbd; cases hbd
    · rw [h2] at hbd
      cases hbd
      rw [h3] at hr
      cases hr
      exact ⟨h1, h5⟩
  have fp : sparseFirstTerm p.terms = .term c e ∧ ∀ j c', e < j → p.terms.get j = some c' → isZero c' = true := by
    unfold Sparse.degree at hpd
    rcases firstTerm_last p.terms with ⟨_, h2, _⟩ | ⟨e', rf', h1, h2, h3, _, h5⟩
    · rw [h2] at hpd; cases hpd
    · rw [h2] at hpd
      cases hpd
      rw [h3] at hc
      cases hc
      exact ⟨h1, h5⟩
  have hfin : (c - rf * div c rf).isFinite = true := by
    obtain ⟨t, ht⟩ := isZero_iff.1 hz
    rw [ht]; rfl
  have hsf : (div c rf).isFinite = true := (finite_of_mul (finite_of_sub hfin).2).2
  have hge := fun k => mapSubWScale_get p.terms b.terms (div c rf) k
  -- everything from degree `e` on is gone
  have hhigh : ∀ k v, e ≤ k → (mapSubWScale p.terms b.terms (div c rf)).get k = some v →
      v.isFinite = true → isZero v = true := by
    intro k v hk hv hvf
    rw [hge] at hv
    rcases hk.eq_or_lt with rfl | hk
    · rw [hr, hc] at hv
      cases hv
      exact hz
    · cases hb : b.terms.get k with
      | none =>
        rw [hb] at hv
        exact fp.2 k v hk hv
      | some y =>
        have hy := fb.2 k y hk hb
        obtain ⟨sg, rfl⟩ := isZero_iff.1 hy
        have hm0 : ∀ sg, ((fin sg 0 : Fl f) * div c rf).toRat = 0 := by
          intro sg
          obtain ⟨s', a, hs'⟩ := isFinite_iff.1 hsf
          rw [hs']
          have : (fin sg 0 * fin s' a : Fl f) = pack (sg != s') (roundRat f.p (0 * a) (2 ^ f.q)) := rfl
          rw [this, Nat.zero_mul]
          simp [roundRat, pack, toRat]
        rw [hb] at hv
        cases hx : p.terms.get k with
        | none =>
          rw [hx] at hv
          cases hv
          rw [isZero_iff_toRat hvf]
          exact hm0 _
        | some x =>
          rw [hx] at hv
          cases hv
          rw [isZero_iff_toRat hvf]
          have h1 := sub_error hvf
          rw [hm0, (isZero_iff_toRat (finite_of_sub hvf).1).1 (fp.2 k x hk hx)] at h1
          simpa using h1
  have hvfin : ∀ k v, e ≤ k → (mapSubWScale p.terms b.terms (div c rf)).get k = some v → v.isFinite = true := by
    intro k v hk hv
    rw [hge] at hv
    rcases hk.eq_or_lt with rfl | hk
    · rw [hr, hc] at hv
      cases hv
      exact hfin
    · have zf : ∀ x : Fl f, isZero x = true → ∃ sg, x = fin sg 0 := fun x hx => isZero_iff.1 hx
      obtain ⟨s', a, hs'⟩ := isFinite_iff.1 hsf
      have hmz : ∀ sg, ∃ t, (fin sg 0 : Fl f) * div c rf = fin t 0 := by
        intro sg
        refine ⟨sg != s', ?_⟩
        rw [hs']
        have : (fin sg 0 * fin s' a : Fl f) = pack (sg != s') (roundRat f.p (0 * a) (2 ^ f.q)) := rfl
        rw [this, Nat.zero_mul]
        simp [roundRat, pack]
      cases hb : b.terms.get k with
      | none =>
        rw [hb] at hv
        obtain ⟨sg, rfl⟩ := zf v (fp.2 k v hk hv)
        rfl
      | some y =>
        obtain ⟨sg, rfl⟩ := zf y (fb.2 k y hk hb)
        rw [hb] at hv
        cases hx : p.terms.get k with
        | none =>
          rw [hx] at hv
          cases hv
          obtain ⟨t, ht⟩ := hmz (!sg)
          rw [show (-(fin sg 0) : Fl f) = fin (!sg) 0 from rfl, ht]
          rfl
        | some x =>
          rw [hx] at hv
          cases hv
          obtain ⟨sx, rfl⟩ := zf x (fp.2 k x hk hx)
          obtain ⟨t, ht⟩ := hmz sg
          rw [ht]
          have : (fin sx 0 - fin t 0 : Fl f) = add (fin sx 0) (fin (!t) 0) := rfl
          rw [this]
          cases sx <;> cases t <;> simp [add, roundRat, pack, isFinite]
  have hfirst : sparseFirstTerm (mapSubWScale p.terms b.terms (div c rf)) = .zeroTerm ∨
      ∃ v d, sparseFirstTerm (mapSubWScale p.terms b.terms (div c rf)) = .term v d ∧ d < e := by
    rcases firstTerm_last (mapSubWScale p.terms b.terms (div c rf)) with ⟨h1, _, _⟩ | ⟨d, v, h1, _, h3, h4, _⟩
    · exact .inl h1
    · refine .inr ⟨v, d, h1, ?_⟩
      by_contra hlt
      rw [hhigh d v (by omega) h3 (hvfin d v (by omega) h3)] at h4
      cases h4
  have hq : (Sparse.addTerm (Sparse.fromVec []) (div c rf) 0).ratPoly = C (div c rf).toRat := by
    unfold Sparse.addTerm
    by_cases h0 : isZero (div c rf) = true
    · rw [if_pos h0, (isZero_iff_toRat hsf).1 h0]
      simp [Sparse.ratPoly, Sparse.fromVec, BMap.empty, entriesPoly]
    · rw [if_neg h0]
      ext k
      rw [coeff_rat, coeff_C]
      simp only [BMap.get_upsert]
      by_cases hk : k = 0
      · subst hk
        simp [Sparse.fromVec, BMap.get, BMap.empty, BMap.getList]
      · simp [Sparse.fromVec, BMap.get, BMap.empty, BMap.getList, hk]
  refine ⟨Sparse.addTerm (Sparse.fromVec []) (div c rf) 0, ⟨mapSubWScale p.terms b.terms (div c rf)⟩, ?_, ?_, hq, ?_⟩
  · unfold Sparse.divMod
    rw [fb.1, fp.1]
    simp only [lt_irrefl, if_false, Nat.sub_self]
    rw [show (rdiv c rf : Res (Fl f)) = .ok (div c rf) from rfl, Res.ok_bind, Sparse.divModLoop, if_pos le_rfl]
    rcases hfirst with h | ⟨v, d, h, hd⟩
    · simp only [h]; rfl
    · simp only [h]
      rw [show (rdiv v rf : Res (Fl f)) = .ok (div v rf) from rfl, Res.ok_bind, Sparse.divModLoop,
        if_neg (by omega)]
      rfl
  · unfold Sparse.rem
    rw [fb.1, fp.1]
    simp only [lt_irrefl, if_false]
    rw [show (rdiv c rf : Res (Fl f)) = .ok (div c rf) from rfl, Res.ok_bind, Sparse.remLoop, if_pos le_rfl]
    rcases hfirst with h | ⟨v, d, h, hd⟩
    · simp only [h]; rfl
    · simp only [h]
      rw [show (rdiv v rf : Res (Fl f)) = .ok (div v rf) from rfl, Res.ok_bind, Sparse.remLoop,
        if_neg (by omega)]
      rfl
  · intro hall
    constructor
    · rw [degree_lt_iff_coeff_zero]
      intro k hk
      rw [coeff_rat]
      cases hv : (mapSubWScale p.terms b.terms (div c rf)).get k with
      | none => rfl
      | some v => exact (isZero_iff_toRat (finite_get hall hv)).1 (hhigh k v hk hv (finite_get hall hv))
    · intro k
      rw [hq, coeff_sub, coeff_add, coeff_C_mul, coeff_rat, coeff_rat, coeff_rat]
      have hk := hge k
      cases hb : b.terms.get k with
      | none =>
        rw [hb] at hk
        simp only at hk ⊢
        rw [hk]
        simp only [mul_zero, zero_add, sub_self, abs_zero, add_zero]
        have : 0 ≤ (1 + uro f) ^ 2 - 1 := by nlinarith
        have := mul_nonneg this (abs_nonneg (match p.terms.get k with | some c => c.toRat | none => 0))
        have := mul_nonneg (by linarith : (0 : ℚ) ≤ 1 + uro f) hη
        positivity
      | some y =>
        rw [hb] at hk
        cases hx : p.terms.get k with
        | none =>
          rw [hx] at hk
          simp only at hk ⊢
          rw [hk]
          have hvf := finite_get hall hk
          have h1 := mul_error hvf
          rw [toRat_neg, neg_mul] at h1
          simp only [abs_zero, zero_add, sub_zero]
          rw [abs_neg, sub_neg_eq_add, add_comm, mul_comm y.toRat] at h1
          have := abs_nonneg ((div c rf).toRat * y.toRat)
          nlinarith [mul_nonneg hu this, mul_nonneg (mul_nonneg hu hu) this, mul_nonneg hu hη]
        | some x =>
          rw [hx] at hk
          simp only at hk ⊢
          rw [hk]
          dsimp only
          have hvf := finite_get hall hk
          have h1 := sub_error hvf
          have h2 := mul_error (finite_of_sub hvf).2
          rw [mul_comm y.toRat] at h2
          generalize (x - y * div c rf).toRat = v at *
          generalize (y * div c rf).toRat = m at *
          generalize (div c rf).toRat * y.toRat = w at *
          generalize x.toRat = x at *
          have j1 : |w + v - x| ≤ |v - (x - m)| + |m - w| := by
            have : w + v - x = (v - (x - m)) - (m - w) := by ring
            rw [this]; exact abs_sub _ _
          have j2 : |x - m| ≤ |x| + |w| + |m - w| := by
            have : x - m = x - w - (m - w) := by ring
            rw [this]
            have i1 := abs_sub (x - w) (m - w)
            have i2 := abs_sub x w
            linarith
          have j3 := mul_le_mul_of_nonneg_left j2 hu
          have j4 := mul_le_mul_of_nonneg_left h2 hu
          nlinarith [abs_nonneg x, abs_nonneg w, mul_nonneg hu (abs_nonneg x), mul_nonneg (mul_nonneg hu hu) (abs_nonneg x)]

-- `0.1x^70 + 7x^3` by `0.2x^70 + 1` is `0.5`, remainder `7x^3 - 0.5`
example : exA.degree = .num 70 ∧ exB.degree = .num 70 ∧ exA.terms.get 70 = some (div 1 (ofNat 10)) ∧
    exB.terms.get 70 = some (div 1 (ofNat 5)) ∧
    isZero (div 1 (ofNat 10) - div 1 (ofNat 5) * div (div 1 (ofNat 10)) (div 1 (ofNat 5)) : Fl binary64) = true := by
  decide +kernel
example : ((exA.divMod 2 exB).bind fun r => .ok (r.1.terms.entries.map (fun e => (e.1, e.2.toRat)),
    r.2.terms.entries.map fun e => (e.1, e.2.toRat))) =
      .ok ([(0, 1 / 2)], [(0, -1 / 2), (3, 7), (70, 0)]) := by decide +kernel

/-- A round that leaves scale, degree, remainder and quotient as they are repeats for ever. -/
theorem loops_stuck {b : BMap (Fl f)} {rf c scale : Fl f} {rd offset sd : Nat} {m : BMap (Fl f)} {dv : Sparse (Fl f)}
    (hle : rd ≤ sd) (h1 : mapSubWScale m b scale = m) (h2 : dv.addTerm scale offset = dv)
    (h3 : sparseFirstTerm m = .term c sd) (h4 : div c rf = scale) : ∀ fuel,
    Sparse.divModLoop b rf rd offset fuel scale sd m dv = .fuel ∧ Sparse.remLoop b rf rd fuel scale sd m = .fuel
  | 0 => ⟨rfl, rfl⟩
  | fuel + 1 => by
    obtain ⟨i1, i2⟩ := loops_stuck hle h1 h2 h3 h4 fuel
    constructor
    · rw [Sparse.divModLoop, if_pos hle]
      simp only [h1, h2, h3]
      rw [show (rdiv c rf : Res (Fl f)) = .ok (div c rf) from rfl, h4, Res.ok_bind]
      exact i1
    · rw [Sparse.remLoop, if_pos hle]
      simp only [h1, h3]
      rw [show (rdiv c rf : Res (Fl f)) = .ok (div c rf) from rfl, h4, Res.ok_bind]
      exact i2

/-- C85: operands of equal degree need not come to an end either: the smallest positive number by 4 (the quotient
is zero, so the remainder stays). -/
theorem C85_div_equal_false (fuel : Nat) :
    (Sparse.fromVec [(fin false 1 : Fl binary64)]).divMod fuel (Sparse.fromVec [ofNat 4]) = .fuel ∧
    (Sparse.fromVec [(fin false 1 : Fl binary64)]).rem fuel (Sparse.fromVec [ofNat 4]) = .fuel := by
  have ext : ∀ m m' : BMap (Fl binary64), m.entries = m'.entries → m = m' := by
    rintro ⟨_, _⟩ ⟨_, _⟩ rfl; rfl
  have h := fun dv : Sparse (Fl binary64) => loops_stuck (b := (Sparse.fromVec [(ofNat 4 : Fl binary64)]).terms)
    (rf := ofNat 4) (c := fin false 1) (scale := fin false 0) (rd := 0) (offset := 0) (sd := 0)
    (m := (Sparse.fromVec [(fin false 1 : Fl binary64)]).terms) (dv := dv) le_rfl
    (ext _ _ (by decide +kernel))
    (by unfold Sparse.addTerm; rw [if_pos (by decide +kernel)]) (by decide +kernel) (by decide +kernel) fuel
  have hb : sparseFirstTerm (Sparse.fromVec [(ofNat 4 : Fl binary64)]).terms = .term (ofNat 4) 0 := by decide +kernel
  have hp : sparseFirstTerm (Sparse.fromVec [(fin false 1 : Fl binary64)]).terms = .term (fin false 1) 0 := by
    decide +kernel
  have hd : (rdiv (fin false 1) (ofNat 4) : Res (Fl binary64)) = .ok (fin false 0) := by decide +kernel
  unfold Sparse.divMod Sparse.rem
  rw [hb, hp]
  simp only [lt_irrefl, if_false, hd, Res.ok_bind, Nat.sub_self]
  constructor
  · rw [(h _).1]; rfl
  · rw [(h Sparse.zero).2]; rfl

/-! ## Evaluation -/

/-- State of the sum in `eval` after `c` terms, the powers having a relative error of at most `δ`. -/
theorem eval_state [PowUsize (Fl f)] {δ : ℚ} (hδ : 0 ≤ δ) (x : Fl f) : ∀ (l : List (Nat × Fl f)) (t : Fl f)
    (s a : ℚ) (c : Nat),
    (∀ e ∈ l, |(upow x e.1).toRat - x.toRat ^ e.1| ≤ δ * |x.toRat| ^ e.1) → |s| ≤ a →
    (t.isFinite = true → |t.toRat - s| ≤ ((1 + uro f) ^ (c + 1) * (1 + δ) - 1) * a + c * (1 + uro f) ^ c * eta f) →
    (l.foldl (fun sum e => sum + e.2 * upow x e.1) t).isFinite = true →
    |(l.foldl (fun sum e => sum + e.2 * upow x e.1) t).toRat -
        (s + (entriesPoly (l.map fun e => (e.1, e.2.toRat))).eval x.toRat)| ≤
      ((1 + uro f) ^ (c + l.length + 1) * (1 + δ) - 1) *
        (a + (entriesPoly (l.map fun e => (e.1, |e.2.toRat|))).eval |x.toRat|) +
      (c + l.length : Nat) * (1 + uro f) ^ (c + l.length) * eta f
  | [], t, s, a, c, _, _, hE, hf => by simpa using hE hf
  | (k, r) :: l, t, s, a, c, hpow, hsa, hE, hf => by
    have hu := uro_nonneg (f := f)
    have hη := eta_nonneg (f := f)
    have hlen : c + ((k, r) :: l).length = (c + 1) + l.length := by rw [List.length_cons]; omega
    rw [List.foldl_cons] at hf ⊢
    rw [hlen]
    have e1 : s + (entriesPoly (((k, r) :: l).map fun e => (e.1, e.2.toRat))).eval x.toRat =
        (s + r.toRat * x.toRat ^ k) + (entriesPoly (l.map fun e => (e.1, e.2.toRat))).eval x.toRat := by
      rw [List.map_cons, entriesPoly_cons]; simp; ring
    have e2 : a + (entriesPoly (((k, r) :: l).map fun e => (e.1, |e.2.toRat|))).eval |x.toRat| =
        (a + |r.toRat| * |x.toRat| ^ k) + (entriesPoly (l.map fun e => (e.1, |e.2.toRat|))).eval |x.toRat| := by
      rw [List.map_cons, entriesPoly_cons]; simp; ring
    rw [e1, e2]
    refine eval_state hδ x l _ _ _ (c + 1) (fun e he => hpow e (List.mem_cons_of_mem _ he)) ?_ (fun hft => ?_) hf
    · refine (abs_add_le _ _).trans ?_
      rw [abs_mul, abs_pow]
      linarith
    · obtain ⟨ht, hm⟩ := finite_of_add hft
      have hE := hE ht
      have h1 := add_error hft
      have h2 := mul_error hm
      have h3 : |(upow x k).toRat - x.toRat ^ k| ≤ δ * |x.toRat| ^ k := hpow (k, r) (List.mem_cons_self ..)
      have hA : 0 ≤ a := (abs_nonneg _).trans hsa
      have hX : 0 ≤ |x.toRat| ^ k := by positivity
      -- the error of the product
      have h4 : |(r * upow x k).toRat - r.toRat * x.toRat ^ k| ≤
          ((1 + uro f) * (1 + δ) - 1) * (|r.toRat| * |x.toRat| ^ k) + eta f := by
        have hR := abs_nonneg r.toRat
        have i1 : |r.toRat * (upow x k).toRat| ≤ |r.toRat| * ((1 + δ) * |x.toRat| ^ k) := by
          rw [abs_mul]
          refine mul_le_mul_of_nonneg_left ?_ hR
          have : (upow x k).toRat = ((upow x k).toRat - x.toRat ^ k) + x.toRat ^ k := by ring
          rw [this]
          refine (abs_add_le _ _).trans ?_
          rw [abs_pow]
          linarith
        have i2 : |r.toRat * (upow x k).toRat - r.toRat * x.toRat ^ k| ≤ |r.toRat| * (δ * |x.toRat| ^ k) := by
          rw [← mul_sub, abs_mul]
          exact mul_le_mul_of_nonneg_left h3 hR
        have i3 := abs_sub_le (r * upow x k).toRat (r.toRat * (upow x k).toRat) (r.toRat * x.toRat ^ k)
        have i4 := mul_le_mul_of_nonneg_left i1 hu
        nlinarith
      have hw : |r.toRat * x.toRat ^ k| = |r.toRat| * |x.toRat| ^ k := by rw [abs_mul, abs_pow]
      have hW : 0 ≤ |r.toRat| * |x.toRat| ^ k := by positivity
      generalize hzz : (t + r * upow x k).toRat = z at *
      generalize (r * upow x k).toRat = m at *
      generalize r.toRat * x.toRat ^ k = w at *
      rw [← hw] at h4 hW ⊢
      clear hw
      generalize t.toRat = t at *
      have hg : 1 ≤ (1 + uro f) ^ c := one_le_pow₀ (by linarith)
      push_cast
      rw [pow_succ] at hE
      rw [pow_succ, pow_succ]
      generalize (1 + uro f) ^ c = g at *
      generalize uro f = u at *
      generalize eta f = η at *
      have j1 : |z - (s + w)| ≤ |z - (t + m)| + |t - s| + |m - w| := by
        have : z - (s + w) = (z - (t + m)) + (t - s) + (m - w) := by ring
        rw [this]
        exact (abs_add_le _ _).trans (by have := abs_add_le (z - (t + m)) (t - s); linarith)
      have j2 : |t + m| ≤ a + |t - s| + |w| + |m - w| := by
        have : t + m = s + (t - s) + w + (m - w) := by ring
        rw [this]
        have i1 := abs_add_le (s + (t - s) + w) (m - w)
        have i2 := abs_add_le (s + (t - s)) w
        have i3 := abs_add_le s (t - s)
        linarith
      have j3 : u * |t + m| ≤ u * (a + |t - s| + |w| + |m - w|) := mul_le_mul_of_nonneg_left j2 hu
      have j4 : (1 + u) * |t - s| ≤ (1 + u) * ((g * (1 + u) * (1 + δ) - 1) * a + c * g * η) :=
        mul_le_mul_of_nonneg_left hE (by linarith)
      have j5 : (1 + u) * |m - w| ≤ (1 + u) * (((1 + u) * (1 + δ) - 1) * |w| + η) :=
        mul_le_mul_of_nonneg_left h4 (by linarith)
      have j6 : (1 + u) * (1 + u) * (1 + δ) * |w| ≤ g * ((1 + u) * (1 + u) * (1 + δ)) * |w| := by
        refine mul_le_mul_of_nonneg_right ?_ hW
        exact le_mul_of_one_le_left (by positivity) hg
      have j7 : (1 + u) * η ≤ g * ((1 + u) * η) := le_mul_of_one_le_left (by positivity) hg
      nlinarith

/-- C85: `eval` adds the terms in ascending order of degree.  If the powers `powi` returns have a relative error
of at most `δ`, a finite result is exact up to the rounding of `n + 1` steps and `δ`, relative to the sum of the
absolute values of the terms. -/
theorem C85_eval_error [PowUsize (Fl f)] (δ : ℚ) (hδ : 0 ≤ δ) (p : Sparse (Fl f)) (x : Fl f)
    (hpow : ∀ e ∈ p.terms.entries, |(upow x e.1).toRat - x.toRat ^ e.1| ≤ δ * |x.toRat| ^ e.1)
    (h : (p.eval x).isFinite = true) :
    |(p.eval x).toRat - p.ratPoly.eval x.toRat| ≤
      ((1 + uro f) ^ (p.terms.entries.length + 1) * (1 + δ) - 1) * p.absPoly.eval |x.toRat| +
        p.terms.entries.length * (1 + uro f) ^ p.terms.entries.length * eta f := by
  have := eval_state hδ x p.terms.entries 0 0 0 0 hpow (by simp) (by simp) h
  simpa [Sparse.ratPoly, Sparse.absPoly, Sparse.eval] using this

section ExamplePow
/-- Example: powers by repeated multiplication. -/
local instance exPow : PowUsize (Fl binary64) := ⟨fun x n => Nat.rec 1 (fun _ y => y * x) n⟩

-- `7 * 0.1^3 + 0.1 * 0.1^7`: the powers are off by less than `2^-50`
example : let x : Fl binary64 := div 1 (ofNat 10)
    let p : Sparse (Fl binary64) := Sparse.new ((BMap.empty.insert 7 (div 1 (ofNat 10))).insert 3 (ofNat 7))
    (∀ e ∈ p.terms.entries, |(upow x e.1).toRat - x.toRat ^ e.1| ≤ 1 / 2 ^ 50 * |x.toRat| ^ e.1) ∧
    (∃ e ∈ p.terms.entries, (upow x e.1).toRat ≠ x.toRat ^ e.1) ∧ (p.eval x).isFinite = true := by
  decide +kernel
end ExamplePow

/-- State of the sum in `eval` over integers that fit. -/
theorem eval_int_state [PowUsize (Fl f)] (hp : 1 ≤ f.p) (hw : f.p + f.q ≤ f.w) (x : Fl f) :
    ∀ (l : List (Nat × Fl f)) (t : Fl f) (a : ℚ),
    (∀ e ∈ l, e.2.isFinite = true ∧ ∃ n : ℤ, e.2.toRat = n) →
    (∀ e ∈ l, (upow x e.1).isFinite = true ∧ (upow x e.1).toRat = x.toRat ^ e.1 ∧
      ∃ n : ℤ, (upow x e.1).toRat = n) →
    t.isFinite = true → (∃ n : ℤ, t.toRat = n) → |t.toRat| ≤ a →
    a + (entriesPoly (l.map fun e => (e.1, |e.2.toRat|))).eval |x.toRat| < 2 ^ f.p →
    (l.foldl (fun sum e => sum + e.2 * upow x e.1) t).isFinite = true ∧
    (l.foldl (fun sum e => sum + e.2 * upow x e.1) t).toRat =
      t.toRat + (entriesPoly (l.map fun e => (e.1, e.2.toRat))).eval x.toRat
  | [], t, a, _, _, ht, _, _, _ => by simp [ht]
  | (k, r) :: l, t, a, hc, hpow, ht, ⟨n, hn⟩, hta, hA => by
    obtain ⟨hrf, m, hm⟩ := hc (k, r) (List.mem_cons_self ..)
    obtain ⟨hxf, hxe, z, hzz⟩ := hpow (k, r) (List.mem_cons_self ..)
    simp only at hrf hm hxf hxe hzz
    have e2 : a + (entriesPoly (((k, r) :: l).map fun e => (e.1, |e.2.toRat|))).eval |x.toRat| =
        (a + |r.toRat| * |x.toRat| ^ k) + (entriesPoly (l.map fun e => (e.1, |e.2.toRat|))).eval |x.toRat| := by
      rw [List.map_cons, entriesPoly_cons]; simp; ring
    rw [e2] at hA
    have hpos : 0 ≤ (entriesPoly (l.map fun e => (e.1, |e.2.toRat|))).eval |x.toRat| := by
      clear hA e2 hc hpow
      induction l with
      | nil => simp
      | cons e l ih =>
        rw [List.map_cons, entriesPoly_cons]
        have : 0 ≤ |e.2.toRat| * |x.toRat| ^ e.1 := by positivity
        simp
        linarith
    have ha : 0 ≤ a := (abs_nonneg _).trans hta
    have hw' : |r.toRat| * |x.toRat| ^ k = |(m : ℚ) * z| := by
      rw [← hm, ← hzz, hxe, abs_mul, abs_pow]
    have hmul := int_mul hp hw hrf hxf hm hzz (by rw [← hw']; linarith)
    have hmz : (r * upow x k).toRat = ((m * z : ℤ) : ℚ) := by rw [hmul.2]; push_cast; rfl
    have hle : |(n : ℚ) + ((m * z : ℤ) : ℚ)| ≤ a + |r.toRat| * |x.toRat| ^ k := by
      refine (abs_add_le _ _).trans ?_
      rw [hw', ← hn]
      push_cast
      linarith
    have hadd := int_add hp hw ht hmul.1 hn hmz (by linarith)
    have ih := eval_int_state hp hw x l (t + r * upow x k) (a + |r.toRat| * |x.toRat| ^ k)
      (fun e he => hc e (List.mem_cons_of_mem _ he)) (fun e he => hpow e (List.mem_cons_of_mem _ he)) hadd.1
      ⟨n + m * z, by rw [hadd.2]; push_cast; rfl⟩ (by rw [hadd.2]; exact hle) hA
    refine ⟨ih.1, ?_⟩
    rw [List.foldl_cons, ih.2, hadd.2, List.map_cons, entriesPoly_cons, ← hn]
    push_cast
    rw [← hm, ← hzz, hxe]
    simp
    ring

/-- C85: `eval` is exact for integer coefficients and exact integer powers as long as the sum of the absolute
values of the terms is below `2^53` (`2^24`). -/
theorem C85_eval_exact [PowUsize (Fl f)] (hp : 1 ≤ f.p) (hw : f.p + f.q ≤ f.w) (p : Sparse (Fl f)) (x : Fl f)
    (hc : ∀ e ∈ p.terms.entries, e.2.isFinite = true ∧ ∃ n : ℤ, e.2.toRat = n)
    (hpow : ∀ e ∈ p.terms.entries, (upow x e.1).isFinite = true ∧ (upow x e.1).toRat = x.toRat ^ e.1 ∧
      ∃ n : ℤ, (upow x e.1).toRat = n)
    (h : p.absPoly.eval |x.toRat| < 2 ^ f.p) :
    (p.eval x).isFinite = true ∧ (p.eval x).toRat = p.ratPoly.eval x.toRat := by
  have := eval_int_state hp hw x p.terms.entries 0 0 hc hpow rfl ⟨0, by simp⟩ (by simp)
    (by simpa [Sparse.absPoly] using h)
  simpa [Sparse.ratPoly, Sparse.eval] using this

section ExamplePow
attribute [local instance] exPow
-- `7 * 3^3 - 5 * 3^2`
example : let x : Fl binary64 := ofNat 3
    let p : Sparse (Fl binary64) := Sparse.new ((BMap.empty.insert 2 (-ofNat 5)).insert 3 (ofNat 7))
    (∀ e ∈ p.terms.entries, (upow x e.1).isFinite = true ∧ (upow x e.1).toRat = x.toRat ^ e.1) ∧
    (p.terms.entries.map fun e => ((upow x e.1).toRat, e.2.toRat)) = [(9, -5), (27, 7)] ∧
    (p.eval x).toRat = 144 := by
  decide +kernel
end ExamplePow

end Fl
end Rustnomial
