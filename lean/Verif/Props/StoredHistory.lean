import Verif.Props.RoomHistory

/-!
# C118 for `SparsePolynomial`
-/

open Polynomial

namespace Rustnomial

/-! ## Which degrees have an entry does not depend on the arithmetic -/

theorem stored_upsertM {m r : BMap Int} {j : Nat} {v : Res Int} {f : Int → Res Int} (h : m.upsertM j v f = .ok r) (k : Nat) :
    HasKey r k ↔ HasKey m k ∨ k = j := by
  unfold BMap.upsertM at h
  split at h
  all_goals
    obtain ⟨x, _, h⟩ := Res.bind_eq_ok.1 h
    cases h
    exact hasKey_insert ..

theorem stored_addTermM {A : Arith} {p r : Sparse Int} {c : Int} {d : Nat} (h : p.addTermM A c d = .ok r) (k : Nat) :
    HasKey r.terms k ↔ HasKey p.terms k ∨ (c ≠ 0 ∧ k = d) := by
  unfold Sparse.addTermM at h
  split at h
  · next h0 => cases h; simp [h0]
  · next h0 =>
    obtain ⟨m, h1, h⟩ := Res.bind_eq_ok.1 h
    cases h
    rw [stored_upsertM h1]
    simp [h0]

theorem stored_joinM {p q : Sparse Int} {v : Nat × Int → Res Int} {f : Nat × Int → Int → Res Int} {m : BMap Int}
    (h : q.terms.entries.foldlM (fun m e => m.upsertM e.1 (v e) (f e)) p.terms = .ok m) (k : Nat) :
    HasKey m k ↔ HasKey p.terms k ∨ HasKey q.terms k := by
  rw [hasKey_foldlM _ (fun _ => True) (fun e => e.1) (fun m e r k h => by rw [stored_upsertM h]; simp) _ k _ _ h,
    hasKey_iff_entries q.terms]

theorem stored_mapMulM {A : Arith} {p q : Sparse Int} {m : BMap Int} (h : mapMulM A p.terms q.terms = .ok m) (k : Nat) :
    HasKey m k ↔ ∃ a, HasKey p.terms a ∧ ∃ b v, (b, v) ∈ q.terms.entries ∧ v ≠ 0 ∧ k = a + b := by
  have hin : ∀ (l : List (Nat × Int)) (d : Nat) (c : Int) (m r : BMap Int), mapMulInnerM A d c l m = .ok r →
      (HasKey r k ↔ HasKey m k ∨ ∃ e ∈ l, True ∧ k = d + e.1) := fun l d c m r h =>
    hasKey_foldlM _ (fun _ => True) (fun e => d + e.1) (fun m e r k h => by
      unfold mapMulStepM at h
      rw [stored_upsertM h]; simp) l k m r h
  have hout : ∀ (l : List (Nat × Int)) (m r : BMap Int), l.foldlM (fun terms e =>
      if e.2 = 0 then .ok terms else mapMulInnerM A e.1 e.2 p.terms.entries terms) m = .ok r → (HasKey r k ↔
      HasKey m k ∨ ∃ e ∈ l, e.2 ≠ 0 ∧ ∃ e' ∈ p.terms.entries, True ∧ k = e.1 + e'.1) := by
    intro l
    induction l with
    | nil => intro m r h; cases h; simp
    | cons a l ih =>
      intro m r h
      rw [List.foldlM_cons] at h
      obtain ⟨m', h1, h2⟩ := Res.bind_eq_ok.1 h
      rw [ih m' r h2]
      simp only [List.mem_cons, exists_eq_or_imp]
      split at h1
      · next hz => cases h1; simp [hz]
      · next hz =>
        rw [hin _ _ _ _ _ h1]
        simp only [ne_eq, hz, not_false_eq_true, true_and]
        exact or_assoc
  rw [hout _ _ _ h]
  simp only [hasKey_empty, false_or, true_and]
  constructor
  · rintro ⟨⟨b, v⟩, he, hz, ⟨a, u⟩, he', rfl⟩
    exact ⟨a, ⟨u, he'⟩, b, v, he, hz, Nat.add_comm ..⟩
  · rintro ⟨a, ⟨u, he'⟩, b, v, he, hz, rfl⟩
    exact ⟨(b, v), he, hz, (a, u), he', Nat.add_comm ..⟩

theorem coeff_stored (p : Sparse Int) (k : Nat) : (entriesPoly p.terms.entries).coeff k ≠ 0 ↔ ∃ v, (k, v) ∈ p.terms.entries ∧ v ≠ 0 := by
  rw [coeff_mapPoly]
  constructor
  · intro h
    cases e : p.terms.get k with
    | none => rw [e] at h; exact absurd rfl h
    | some v => rw [e] at h; exact ⟨v, (BMap.mem_entries p.terms k v).2 e, h⟩
  · rintro ⟨v, hv, h⟩
    rw [(BMap.mem_entries p.terms k v).1 hv]
    exact h

theorem stored_shift (p : Sparse Int) (j k : Nat) : (HasKey (p.shlPos j).terms k ↔ ∃ a, HasKey p.terms a ∧ k = a + j) ∧
    (HasKey (p.shrPos j).terms k ↔ HasKey p.terms (k + j)) :=
  ⟨(C101_sparse_product_entries (N := ℤ) p p j k).2.1, (C101_sparse_product_entries (N := ℤ) p p j k).2.2.1⟩

theorem stored_stepM (A : Arith) (cn : Bool) (p : Sparse Int) (o : Op (Sparse Int) Int) (hn : NoSubTerm o) (r : Sparse Int)
    (h : p.stepM A cn o = .ok r) : r.withStored.2 = storedAfter (entriesPoly p.terms.entries) p.withStored.2 (o.map Sparse.withStored) := by
  ext k
  show HasKey r.terms k ↔ _
  cases o with
  | addTerm c d =>
    rw [stored_addTermM h]
    by_cases h0 : c = 0
    · rw [show storedAfter (entriesPoly p.terms.entries) p.withStored.2 ((Op.addTerm c d).map Sparse.withStored) = p.withStored.2 from if_pos h0]
      simp only [h0, ne_eq, not_true_eq_false, false_and, or_false]; rfl
    · rw [show storedAfter (entriesPoly p.terms.entries) p.withStored.2 ((Op.addTerm c d).map Sparse.withStored) = insert d p.withStored.2 from
        if_neg h0]
      simp only [h0, ne_eq, not_false_eq_true, true_and]; exact or_comm
  | trySubTerm c d => exact hn.elim
  | addAssign q =>
    obtain ⟨m, h1, h2⟩ := Res.bind_eq_ok.1 h
    cases h2
    exact stored_joinM h1 k
  | subAssign q =>
    obtain ⟨m, h1, h2⟩ := Res.bind_eq_ok.1 h
    cases h2
    exact stored_joinM h1 k
  | mulAssign q =>
    obtain ⟨m, h1, h2⟩ := Res.bind_eq_ok.1 h
    cases h2
    show _ ↔ ∃ a ∈ {k | HasKey p.terms k}, ∃ b, (entriesPoly q.terms.entries).coeff b ≠ 0 ∧ k = a + b
    rw [stored_mapMulM h1]
    simp only [coeff_stored]
    constructor
    · rintro ⟨a, ha, b, v, hv, h0, e⟩; exact ⟨a, ha, b, ⟨v, hv, h0⟩, e⟩
    · rintro ⟨a, ha, b, ⟨v, hv, h0⟩, e⟩; exact ⟨a, ha, b, v, hv, h0, e⟩
  | mulAssignScalar c =>
    obtain ⟨m, h1, h2⟩ := Res.bind_eq_ok.1 h
    cases h2
    show _ ↔ HasKey p.terms k
    rw [hasKey_foldlM _ (fun _ => True) (fun e => e.1) (fun m e r k h => by
      obtain ⟨v, _, h⟩ := Res.bind_eq_ok.1 h
      cases h
      rw [hasKey_insert]; simp) _ k _ _ h1, ← hasKey_iff_entries, or_self]
  | shlAssign j =>
    show _ ↔ ∃ a, HasKey p.terms a ∧ (k : ℤ) = a + j
    change p.shl j = .ok r at h
    unfold Sparse.shl at h
    split at h
    · next hj =>
      obtain ⟨n, h1, h2⟩ := Res.bind_eq_ok.1 h
      cases h2
      have : (n : ℤ) = -j := by
        unfold negI32 at h1
        split at h1
        · cases h1
        · cases h1; omega
      rw [(stored_shift p n k).2]
      constructor
      · intro h; exact ⟨_, h, by omega⟩
      · rintro ⟨a, ha, e⟩
        rwa [show k + n = a by omega]
    · next hj =>
      cases h
      rw [(stored_shift p _ k).1]
      constructor
      · rintro ⟨a, ha, e⟩; exact ⟨a, ha, by omega⟩
      · rintro ⟨a, ha, e⟩; exact ⟨a, ha, by omega⟩
  | shrAssign j =>
    show _ ↔ ∃ a, HasKey p.terms a ∧ (k : ℤ) = a - j
    change p.shr j = .ok r at h
    unfold Sparse.shr at h
    split at h
    · next hj =>
      obtain ⟨n, h1, h2⟩ := Res.bind_eq_ok.1 h
      cases h2
      have : (n : ℤ) = -j := by
        unfold negI32 at h1
        split at h1
        · cases h1
        · cases h1; omega
      rw [(stored_shift p _ k).1]
      constructor
      · rintro ⟨a, ha, e⟩; exact ⟨a, ha, by omega⟩
      · rintro ⟨a, ha, e⟩; exact ⟨a, ha, by omega⟩
    · next hj =>
      cases h
      rw [(stored_shift p _ k).2]
      constructor
      · intro h; exact ⟨_, h, by omega⟩
      · rintro ⟨a, ha, e⟩
        rwa [show k + j.toNat = a by omega]
  | trim =>
    cases h
    show _ ↔ (entriesPoly p.terms.entries).coeff k ≠ 0
    rw [coeff_stored]
    unfold HasKey Sparse.trim BMap.retain
    simp [isZero]
  | setToZero =>
    cases h
    exact ⟨fun h => (hasKey_empty k h).elim, fun h => h.elim⟩

/-! ## `try_sub_term` -/

section
variable (t : IntTy)

theorem refusedS_map {P Q : Type} (cn : Bool) (S : Set Nat) (f : P → Q) (o : Op P Int) : RefusedSparse cn S (o.map f) ↔ RefusedSparse cn S o := by
  cases o <;> exact Iff.rfl

theorem not_refusedS {P : Type} {cn : Bool} {S : Set Nat} {o : Op P Int} (h : NoSubTerm o) : ¬ RefusedSparse cn S o := by
  cases o <;> first | exact id | exact h.elim

theorem sub_refusedS (A : Arith) (cn : Bool) (p : Sparse Int) (c : Int) (d : Nat)
    (h : RefusedSparse cn p.withStored.2 (.trySubTerm c d : Op (Sparse Int) Int)) :
    p.trySubTermM A cn c d = .ok (p, .error .canNotNegate) := by
  obtain ⟨rfl, hc, hd⟩ := h
  have hd' : ¬ HasKey p.terms d := hd
  rw [hasKey_iff, ne_eq, not_not] at hd'
  unfold Sparse.trySubTermM
  rw [if_neg hc, hd']
  rfl

theorem sub_takenS (hb : 1 ≤ t.bits) (chk cn : Bool) (p : Sparse Int) (c : Int) (d : Nat)
    (hp : ∀ n, t.InRange ((entriesPoly p.terms.entries).coeff n))
    (h : ¬ RefusedSparse cn p.withStored.2 (.trySubTerm c d : Op (Sparse Int) Int)) :
    p.trySubTermM (.machine chk t) cn c d = (do
      let v ← t.result chk ((entriesPoly p.terms.entries).coeff d - c)
      Res.ok ((if c = 0 then p else ⟨p.terms.insert d v⟩), .ok ())) := by
  unfold Sparse.trySubTermM
  by_cases hc : c = 0
  · rw [if_pos hc, hc, sub_zero]
    have : t.result chk ((entriesPoly p.terms.entries).coeff d) = .ok ((entriesPoly p.terms.entries).coeff d) := by
      cases chk
      · show Res.ok (t.wrap _) = _
        rw [t.wrap_of_inRange hb _ (hp d)]
      · exact (chk_result t _).1 (hp d)
    rw [this]
    rfl
  · rw [if_neg hc]
    simp only [if_neg hc]
    rw [coeff_mapPoly]
    cases e : p.terms.get d with
    | some v => rfl
    | none =>
      have hk : ¬ HasKey p.terms d := by rw [hasKey_iff, e]; simp
      have : cn = true := by
        by_contra hcn
        exact h ⟨by simpa using hcn, hc, hk⟩
      subst this
      rfl

theorem coeff_put (p : Sparse Int) (c : Int) (d : Nat) (v : Int) (hv : c = 0 → v = (entriesPoly p.terms.entries).coeff d) (n : Nat) :
    (entriesPoly (if c = 0 then p else ⟨p.terms.insert d v⟩ : Sparse Int).terms.entries).coeff n =
      if n = d then v else (entriesPoly p.terms.entries).coeff n := by
  split
  · next h =>
    split
    · next e => rw [e, hv h]
    · rfl
  · rw [coeff_mapPoly, coeff_mapPoly]
    show ((p.terms.insert d v).get n).getD 0 = _
    rw [BMap.get_insert]
    split <;> simp_all

theorem stored_put (p : Sparse Int) (c : Int) (d : Nat) (v : Int) :
    (if c = 0 then p else ⟨p.terms.insert d v⟩ : Sparse Int).withStored.2 =
      storedAfter (entriesPoly p.terms.entries) p.withStored.2 (.trySubTerm c d) := by
  by_cases hc : c = 0
  · rw [if_pos hc]
    exact (if_pos hc).symm
  · rw [if_neg hc]
    refine Eq.trans ?_ (if_neg hc).symm
    ext k
    show HasKey (p.terms.insert d v) k ↔ k = d ∨ HasKey p.terms k
    rw [hasKey_insert]
    exact or_comm

theorem stepLogS_eq (A : Arith) (cn : Bool) (p : Sparse Int) (o : Op (Sparse Int) Int) (h : NoSubTerm o) :
    p.stepLogM A cn o = (do
      let r ← p.stepM A cn o
      Res.ok (r, .ok ())) := by
  cases o <;> first | rfl | exact h.elim

theorem storedSpec_refused {cn : Bool} {p : Sparse Int} {o : Op (Sparse Int) Int} (h : RefusedSparse cn p.withStored.2 o) :
    storedSpec cn p.withStored (o.map Sparse.withStored) = (p.withStored, .error .canNotNegate) :=
  if_pos ((refusedS_map _ _ _ o).2 h)

theorem storedSpec_taken {cn : Bool} {p : Sparse Int} {o : Op (Sparse Int) Int} (h : ¬ RefusedSparse cn p.withStored.2 o) :
    storedSpec cn p.withStored (o.map Sparse.withStored) =
      ((absStep (entriesPoly p.terms.entries) (o.map fun q => entriesPoly q.terms.entries),
        storedAfter (entriesPoly p.terms.entries) p.withStored.2 (o.map Sparse.withStored)), .ok ()) := by
  refine (if_neg (fun h' => h ((refusedS_map _ _ _ o).1 h'))).trans ?_
  rw [Op.map_map]
  rfl

theorem sparse_log_checked (hb : 1 ≤ t.bits) (p : Sparse Int) (o : Op (Sparse Int) Int) (hp : ∀ e ∈ p.terms.entries, t.InRange e.2)
    (ho : OperandsIn t (o.map fun q => entriesPoly q.terms.entries)) :
    (StoredFits t p.withStored (o.map Sparse.withStored) → ∃ r, p.stepLogM (.machine true t) t.canNegate o = .ok r ∧
      (∀ e ∈ r.1.terms.entries, t.InRange e.2) ∧ (r.1.withStored, r.2) = storedSpec t.canNegate p.withStored (o.map Sparse.withStored)) ∧
    (¬ StoredFits t p.withStored (o.map Sparse.withStored) → p.stepLogM (.machine true t) t.canNegate o = .panic) := by
  have hp' := (inRange_mapPoly t p.terms).1 hp
  unfold StoredFits
  simp only [refusedS_map, Op.map_map]
  show (RefusedSparse t.canNegate p.withStored.2 o ∨
    OpFits t (MulFitsUp t) (entriesPoly p.terms.entries) (o.map fun q => entriesPoly q.terms.entries) → _) ∧ _
  by_cases hn : NoSubTerm o
  · have hr := not_refusedS (cn := t.canNegate) (S := p.withStored.2) hn
    have h := sparse_stepM_checked t hb p o hp' ho (.inr hn)
    rw [stepLogS_eq _ _ _ _ hn]
    refine ⟨fun H => ?_, fun H => by rw [h.2 fun H' => H (.inr H')]; rfl⟩
    obtain ⟨r, e, f⟩ := h.1 (H.resolve_left hr)
    refine ⟨(r, .ok ()), by rw [e]; rfl, ?_, ?_⟩
    · refine (inRange_mapPoly t r.terms).2 ?_
      rw [f]
      exact absStep_inRange mulFitsUp_inRange hp' (H.resolve_left hr)
    · rw [storedSpec_taken hr]
      exact Prod.ext (Prod.ext f (stored_stepM _ _ p o hn r e)) rfl
  · obtain ⟨c, d, rfl⟩ : ∃ c d, o = .trySubTerm c d := by
      cases o <;> first | exact ⟨_, _, rfl⟩ | exact absurd trivial hn
    show (_ → ∃ r, p.trySubTermM _ _ c d = _ ∧ _) ∧ (_ → p.trySubTermM _ _ c d = _)
    by_cases hr : RefusedSparse t.canNegate p.withStored.2 (.trySubTerm c d : Op (Sparse Int) Int)
    · refine ⟨fun _ => ⟨_, sub_refusedS _ _ p c d hr, hp, ?_⟩, fun H => absurd (.inl hr) H⟩
      rw [storedSpec_refused hr]
    · rw [sub_takenS t hb true _ p c d hp' hr, storedSpec_taken hr]
      have h := chk_result t ((entriesPoly p.terms.entries).coeff d - c)
      have e : OpFits t (MulFitsUp t) (entriesPoly p.terms.entries) (.trySubTerm c d) ↔
          t.InRange ((entriesPoly p.terms.entries).coeff d - c) := by
        rw [sub_eq_add_neg, ← term_fits_iff t hp' (-c) d, C_neg, neg_mul, ← sub_eq_add_neg]
        rfl
      refine ⟨fun H => ?_, fun H => by rw [h.2 fun H' => H (.inr (e.2 H'))]; rfl⟩
      have H' := H.resolve_left hr
      rw [h.1 (e.1 H'), Res.ok_bind]
      have f : entriesPoly (if c = 0 then p else ⟨p.terms.insert d ((entriesPoly p.terms.entries).coeff d - c)⟩ : Sparse Int).terms.entries =
          absStep (entriesPoly p.terms.entries) (.trySubTerm c d) := by
        ext n
        rw [coeff_put p c d _ (fun h => by rw [h, sub_zero])]
        show _ = (entriesPoly p.terms.entries - C c * X ^ d).coeff n
        rw [sub_eq_add_neg, sub_eq_add_neg, ← neg_mul, ← C_neg, coeff_term_add]
      refine ⟨_, rfl, ?_, Prod.ext (Prod.ext f (stored_put p c d _)) rfl⟩
      refine (inRange_mapPoly t _).2 ?_
      rw [f]
      exact absStep_inRange mulFitsUp_inRange hp' H'

/-- C118 (`SparsePolynomial`, overflow checks): as for `Polynomial`, with the set of the degrees that have an entry. -/
theorem C118_sparse_checked (hb : 1 ≤ t.bits) (ops : List (Op (Sparse Int) Int)) (p : Sparse Int) (hp : ∀ e ∈ p.terms.entries, t.InRange e.2)
    (ho : ∀ o ∈ ops, OperandsIn t (o.map fun q => entriesPoly q.terms.entries)) :
    let specOps := ops.map (Op.map Sparse.withStored)
    (AllSafe (storedSpec t.canNegate) (StoredFits t) p.withStored specOps →
      ∃ r, runLog (Sparse.stepLogM (.machine true t) t.canNegate) p ops = .ok r ∧ (∀ e ∈ r.1.terms.entries, t.InRange e.2) ∧
        (r.1.withStored, r.2) = logRun (storedSpec t.canNegate) p.withStored specOps) ∧
    (¬ AllSafe (storedSpec t.canNegate) (StoredFits t) p.withStored specOps →
      runLog (Sparse.stepLogM (.machine true t) t.canNegate) p ops = .panic) :=
  runLog_spec (inv := fun p : Sparse Int => ∀ e ∈ p.terms.entries, t.InRange e.2)
    (ok := fun o : Op (Sparse Int) Int => OperandsIn t (o.map fun q => entriesPoly q.terms.entries))
    (sparse_log_checked t hb) ops p hp ho

/-- `x^200 + 3` over `u8`: nothing is stored at `x`, so only zero may be subtracted there; after `x` has been added and subtracted again the entry
`0` stays and a subtraction panics instead. -/
example :
    runLog (Sparse.stepLogM (.machine true ⟨false, 8⟩) false) ⟨(BMap.empty.insert 0 3).insert 200 1⟩
        [.trySubTerm 1 1, .trySubTerm 0 1, .addTerm 1 1, .trySubTerm 1 1, .trySubTerm 3 0] =
      .ok (⟨((BMap.empty.insert 0 0).insert 1 0).insert 200 1⟩, [.error .canNotNegate, .ok (), .ok (), .ok (), .ok ()]) ∧
    runLog (Sparse.stepLogM (.machine true ⟨false, 8⟩) false) ⟨(BMap.empty.insert 0 3).insert 200 1⟩
        [.addTerm 1 1, .trySubTerm 1 1, .trySubTerm 1 1] = .panic ∧
    runLog (Sparse.stepLogM (.machine true ⟨false, 8⟩) false) ⟨(BMap.empty.insert 0 3).insert 200 1⟩
        [.addTerm 1 1, .trySubTerm 1 1, .trim, .trySubTerm 1 1] =
      .ok (⟨(BMap.empty.insert 0 3).insert 200 1⟩, [.ok (), .ok (), .ok (), .error .canNotNegate]) := ⟨rfl, rfl, rfl⟩

/-! ## No overflow checks -/

theorem cast_zero_iff (hb : 1 ≤ t.bits) {c : Int} (hc : t.InRange c) : ((c : Int) : ZMod (2 ^ t.bits)) = 0 ↔ c = 0 := by
  constructor
  · intro h
    have : red t (C c) = 0 := by
      show (C c).map _ = 0
      rw [map_C]
      exact C_eq_zero.2 h
    exact C_eq_zero.1 ((red_eq_zero t hb (P := C c) (fun m => by
      rw [coeff_C]
      split
      · exact hc
      · exact t.zero_inRange)).1 this)
  · rintro rfl
    exact Int.cast_zero

theorem red_coeff_zero (hb : 1 ≤ t.bits) {P : ℤ[X]} (hP : ∀ n, t.InRange (P.coeff n)) (n : Nat) : (red t P).coeff n = 0 ↔ P.coeff n = 0 := by
  show (P.map _).coeff n = 0 ↔ _
  rw [coeff_map]
  exact cast_zero_iff t hb (hP n)

theorem refusedS_mod (hb : 1 ≤ t.bits) (cn : Bool) (S : Set Nat) (o : Op (Sparse Int) Int) (ho : OperandsIn t (o.map fun q => entriesPoly q.terms.entries)) :
    RefusedSparse cn S ((o.map Sparse.withStored).modStored (2 ^ t.bits)) ↔ RefusedSparse cn S o := by
  cases o with
  | trySubTerm c d =>
    show _ ∧ ¬ ((c : ZMod (2 ^ t.bits)) = 0) ∧ _ ↔ _ ∧ ¬ (c = 0) ∧ _
    rw [cast_zero_iff t hb ho]
  | _ => exact Iff.rfl

theorem storedAfter_mod (hb : 1 ≤ t.bits) (p : Sparse Int) (o : Op (Sparse Int) Int)
    (hp : ∀ n, t.InRange ((entriesPoly p.terms.entries).coeff n)) (ho : OperandsIn t (o.map fun q => entriesPoly q.terms.entries)) (S : Set Nat) :
    storedAfter (red t (entriesPoly p.terms.entries)) S ((o.map Sparse.withStored).modStored (2 ^ t.bits)) =
      storedAfter (entriesPoly p.terms.entries) S (o.map Sparse.withStored) := by
  have hc : ∀ (c : Int) (d : Nat), t.InRange c → storedAfter (red t (entriesPoly p.terms.entries)) S (.addTerm (c : ZMod (2 ^ t.bits)) d) =
      storedAfter (entriesPoly p.terms.entries) S (.addTerm c d) := by
    intro c d hc
    by_cases h : c = 0
    · exact (if_pos ((cast_zero_iff t hb hc).2 h)).trans (if_pos h).symm
    · exact (if_neg fun h' => h ((cast_zero_iff t hb hc).1 h')).trans (if_neg h).symm
  cases o with
  | addTerm c d => exact hc c d ho
  | trySubTerm c d => exact hc c d ho
  | mulAssign q =>
    ext k
    show (∃ a ∈ S, ∃ b, (red t (entriesPoly q.terms.entries)).coeff b ≠ 0 ∧ k = a + b) ↔
      ∃ a ∈ S, ∃ b, (entriesPoly q.terms.entries).coeff b ≠ 0 ∧ k = a + b
    simp only [ne_eq, red_coeff_zero t hb ho]
  | trim =>
    ext k
    show (red t (entriesPoly p.terms.entries)).coeff k ≠ 0 ↔ (entriesPoly p.terms.entries).coeff k ≠ 0
    rw [ne_eq, red_coeff_zero t hb hp]
  | _ => rfl

theorem storedSpec_mod_taken {cn : Bool} {p : Sparse Int} {o : Op (Sparse Int) Int} (hb : 1 ≤ t.bits)
    (hp : ∀ n, t.InRange ((entriesPoly p.terms.entries).coeff n))
    (ho : OperandsIn t (o.map fun q => entriesPoly q.terms.entries)) (h : ¬ RefusedSparse cn p.withStored.2 o) :
    storedSpec cn (modState (2 ^ t.bits) p.withStored) ((o.map Sparse.withStored).modStored (2 ^ t.bits)) =
      ((red t (absStep (entriesPoly p.terms.entries) (o.map fun q => entriesPoly q.terms.entries)),
        storedAfter (entriesPoly p.terms.entries) p.withStored.2 (o.map Sparse.withStored)), .ok ()) := by
  refine (if_neg (fun h' => h ((refusedS_mod t hb _ _ _ ho).1 h'))).trans ?_
  rw [modStored_fst, Op.map_map, red_absStep, ← storedAfter_mod t hb p o hp ho]
  rfl

theorem sparse_log_wrap (hb : 1 ≤ t.bits) (p : Sparse Int) (o : Op (Sparse Int) Int) (hp : ∀ e ∈ p.terms.entries, t.InRange e.2)
    (ho : OperandsIn t (o.map fun q => entriesPoly q.terms.entries) ∧ NoMinShift o) :
    ∃ r, p.stepLogM (.machine false t) t.canNegate o = .ok r ∧ (∀ e ∈ r.1.terms.entries, t.InRange e.2) ∧
      (modState (2 ^ t.bits) r.1.withStored, r.2) =
        storedSpec t.canNegate (modState (2 ^ t.bits) p.withStored) ((o.map Sparse.withStored).modStored (2 ^ t.bits)) := by
  have hp' := (inRange_mapPoly t p.terms).1 hp
  by_cases hn : NoSubTerm o
  · have hr := not_refusedS (cn := t.canNegate) (S := p.withStored.2) hn
    obtain ⟨r, e, g, f⟩ := sparse_stepM_wrap t hb p o hp' ho.1 ⟨.inr hn, ho.2⟩
    rw [stepLogS_eq _ _ _ _ hn, storedSpec_mod_taken t hb hp' ho.1 hr]
    refine ⟨(r, .ok ()), by rw [e]; rfl, (inRange_mapPoly t r.terms).2 g, ?_⟩
    exact Prod.ext (Prod.ext f (stored_stepM _ _ p o hn r e)) rfl
  · obtain ⟨c, d, rfl⟩ : ∃ c d, o = .trySubTerm c d := by
      cases o <;> first | exact ⟨_, _, rfl⟩ | exact absurd trivial hn
    show ∃ r, p.trySubTermM _ _ c d = _ ∧ _
    by_cases hr : RefusedSparse t.canNegate p.withStored.2 (.trySubTerm c d : Op (Sparse Int) Int)
    · refine ⟨_, sub_refusedS _ _ p c d hr, hp, ?_⟩
      exact (if_pos ((refusedS_mod t hb _ _ (.trySubTerm c d) ho.1).2 hr)).symm
    · rw [sub_takenS t hb false _ p c d hp' hr, storedSpec_mod_taken t hb hp' ho.1 hr]
      have hc : ∀ n, (entriesPoly (if c = 0 then p else ⟨p.terms.insert d (t.wrap ((entriesPoly p.terms.entries).coeff d - c))⟩ :
          Sparse Int).terms.entries).coeff n = t.wrap ((entriesPoly p.terms.entries - C c * X ^ d).coeff n) := by
        intro n
        rw [coeff_put p c d _ (fun h => by rw [h, sub_zero, t.wrap_of_inRange hb _ (hp' d)]),
          sub_eq_add_neg, sub_eq_add_neg, ← neg_mul, ← C_neg, coeff_term_add]
        split_ifs
        · rfl
        · rw [t.wrap_of_inRange hb _ (hp' n)]
      refine ⟨_, rfl, (inRange_mapPoly t _).2 fun n => ?_, Prod.ext (Prod.ext ?_ (stored_put p c d _)) rfl⟩
      · rw [hc]; exact t.wrap_inRange hb _
      · refine (red_eq_iff t _ _).2 fun n => ?_
        refine (congrArg t.wrap (hc n)).trans ?_
        rw [t.wrap_of_inRange hb _ (t.wrap_inRange hb _)]
        rfl

theorem runLog_total {S O Q O' : Type} {step : S → O → Res (S × Except TryAddError Unit)} {repr : S → Q} {f : O → O'}
    {spec : Q → O' → Q × Except TryAddError Unit} {inv : S → Prop} {ok : O → Prop}
    (hstep : ∀ s o, inv s → ok o → ∃ r, step s o = .ok r ∧ inv r.1 ∧ (repr r.1, r.2) = spec (repr s) (f o))
    (ops : List O) (s : S) (hs : inv s) (ho : ∀ o ∈ ops, ok o) :
    ∃ r, runLog step s ops = .ok r ∧ inv r.1 ∧ (repr r.1, r.2) = logRun spec (repr s) (ops.map f) := by
  refine (runLog_spec (safe := fun _ _ => True) (fun s o h1 h2 => ⟨fun _ => hstep s o h1 h2, fun h => absurd trivial h⟩) ops s hs ho).1 ?_
  generalize ops.map f = l
  generalize repr s = q
  induction l generalizing q with
  | nil => trivial
  | cons o l ih => exact ⟨trivial, ih _⟩

/-- C118 (`SparsePolynomial`, no overflow checks): every history without shifts by `i32::MIN`, refused terms skipped, over any primitive integer type
returns; the polynomial modulo `2 ^ bits`, the degrees with an entry and the answers are those of the history of polynomials over the integers modulo
`2 ^ bits`. -/
theorem C118_sparse_wrap (hb : 1 ≤ t.bits) (ops : List (Op (Sparse Int) Int)) (p : Sparse Int) (hp : ∀ e ∈ p.terms.entries, t.InRange e.2)
    (ho : ∀ o ∈ ops, OperandsIn t (o.map fun q => entriesPoly q.terms.entries) ∧ NoMinShift o) :
    ∃ r, runLog (Sparse.stepLogM (.machine false t) t.canNegate) p ops = .ok r ∧ (∀ e ∈ r.1.terms.entries, t.InRange e.2) ∧
      (modState (2 ^ t.bits) r.1.withStored, r.2) =
        logRun (storedSpec t.canNegate) (modState (2 ^ t.bits) p.withStored)
          (ops.map fun o => (o.map Sparse.withStored).modStored (2 ^ t.bits)) :=
  runLog_total (inv := fun p : Sparse Int => ∀ e ∈ p.terms.entries, t.InRange e.2) (repr := fun q => modState (2 ^ t.bits) q.withStored)
    (ok := fun o : Op (Sparse Int) Int => OperandsIn t (o.map fun q => entriesPoly q.terms.entries) ∧ NoMinShift o)
    (sparse_log_wrap t hb) ops p hp ho

/-- Without overflow checks the subtraction at the entry `0` wraps around. -/
example :
    runLog (Sparse.stepLogM (.machine false ⟨false, 8⟩) false) ⟨(BMap.empty.insert 0 3).insert 200 1⟩
        [.trySubTerm 1 1, .addTerm 1 1, .trySubTerm 2 1, .shlAssign 2, .trySubTerm 1 0] =
      .ok (⟨((BMap.empty.insert 2 3).insert 3 255).insert 202 1⟩, [.error .canNotNegate, .ok (), .ok (), .ok (), .error .canNotNegate]) := rfl

end
end Rustnomial
