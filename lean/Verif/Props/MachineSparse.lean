import Verif.Props.Machine

/-!
# C76: sparse polynomials of machine integers: exactly when an operation panics

`Arith.machine true t` is the integer type `t` in a build with overflow checks.
-/

open Polynomial

namespace Rustnomial

section
variable (t : IntTy)

/-- A loop which replaces every value `x` by `w x`. -/
theorem chk_vals {v : Int → Res Int} {w : Int → Int} {P : Int → Prop} (hv : ∀ x, Chk (P x) (v x) (w x)) (h0 : w 0 = 0)
    (hP : P 0) (p m0 : BMap Int) (hm : m0 = .empty ∨ m0 = p) :
    ∃ m, Chk (∀ d, P ((entriesPoly p.entries).coeff d))
        (p.entries.foldlM (fun m e => v e.2 >>= fun x => Res.ok (m.insert e.1 x)) m0) m ∧
      ∀ d, (entriesPoly m.entries).coeff d = w ((entriesPoly p.entries).coeff d) := by
  refine ⟨p.entries.foldl (fun m e => m.insert e.1 (w e.2)) m0,
    (chk_foldl_insert (fun e : Nat × Int => e.1) (v := fun e => v e.2) (w := fun e => w e.2) (P := fun e => P e.2)
      (fun e => hv e.2) p.entries m0).of_iff ?_, fun d => ?_⟩
  · rw [forall_entries p (fun _ v => P v)]
    constructor
    · intro h d
      rw [coeff_mapPoly]
      cases hd : p.get d with
      | none => exact hP
      | some v => exact h d v hd
    · intro h k v hk
      have := h k
      rw [coeff_mapPoly, hk] at this
      exact this
  · rw [coeff_mapPoly, coeff_mapPoly, get_foldl_vals _ _ _ hm]
    cases p.get d <;> simp [h0]

/-- C76: negation of a sparse polynomial returns exactly when the coefficients of `-p` are values of the type,
and then the result represents `-p`; otherwise it panics. -/
theorem C76_sparse_neg (p : Sparse Int) :
    ((∀ d, t.InRange ((-entriesPoly p.terms.entries).coeff d)) →
      ∃ r, p.negM (.machine true t) = .ok r ∧ entriesPoly r.terms.entries = -entriesPoly p.terms.entries) ∧
    ((¬ ∀ d, t.InRange ((-entriesPoly p.terms.entries).coeff d)) → p.negM (.machine true t) = .panic) := by
  obtain ⟨m, h, e⟩ := chk_vals (v := (Arith.machine true t).neg) (w := fun x => -x) (P := fun x => t.InRange (-x))
    (fun x => chk_result t _) neg_zero (by simpa using t.zero_inRange) p.terms .empty (.inl rfl)
  have h1 : Chk _ (p.negM (.machine true t)) _ := h.map Sparse.new
  simp only [← coeff_neg] at h1
  exact ⟨fun H => ⟨_, h1.1 H, by ext d; rw [coeff_neg]; exact e d⟩, h1.2⟩

/-- C76: multiplication of a sparse polynomial by a scalar (`*` and `*=`). -/
theorem C76_sparse_mul_scalar (p : Sparse Int) (c : Int) :
    ((∀ d, t.InRange ((entriesPoly p.terms.entries * C c).coeff d)) →
      ∃ r s, p.mulScalarM (.machine true t) c = .ok r ∧ p.mulAssignScalarM (.machine true t) c = .ok s ∧
        entriesPoly r.terms.entries = entriesPoly p.terms.entries * C c ∧
        entriesPoly s.terms.entries = entriesPoly p.terms.entries * C c) ∧
    ((¬ ∀ d, t.InRange ((entriesPoly p.terms.entries * C c).coeff d)) →
      p.mulScalarM (.machine true t) c = .panic ∧ p.mulAssignScalarM (.machine true t) c = .panic) := by
  have gen := chk_vals (v := fun x => (Arith.machine true t).mul x c) (w := fun x => x * c)
    (P := fun x => t.InRange (x * c)) (fun x => chk_result t _) (zero_mul c) (by simpa using t.zero_inRange) p.terms
  obtain ⟨m, h, e⟩ := gen .empty (.inl rfl)
  obtain ⟨m', h', e'⟩ := gen p.terms (.inr rfl)
  have h1 : Chk _ (p.mulScalarM (.machine true t) c) _ := h.map Sparse.new
  have h2 : Chk _ (p.mulAssignScalarM (.machine true t) c) _ := h'.map Sparse.mk
  simp only [← coeff_mul_C] at h1 h2
  exact ⟨fun H => ⟨_, _, h1.1 H, h2.1 H, by ext d; rw [coeff_mul_C]; exact e d, by ext d; rw [coeff_mul_C]; exact e' d⟩,
    fun H => ⟨h1.2 H, h2.2 H⟩⟩

/-- The condition of a loop `self += rhs`, in terms of polynomials. -/
theorem cond_add (p q : BMap Int) (hp : ∀ e ∈ p.entries, t.InRange e.2) (hq : ∀ e ∈ q.entries, t.InRange e.2) :
    (∀ e ∈ q.entries, (p.get e.1).elim True (fun x => t.InRange (x + e.2))) ↔
      ∀ d, t.InRange ((entriesPoly p.entries + entriesPoly q.entries).coeff d) := by
  rw [forall_entries q (fun k v => (p.get k).elim True (fun x => t.InRange (x + v)))]
  constructor
  · intro h d
    rw [coeff_add, coeff_mapPoly, coeff_mapPoly]
    cases hd : q.get d with
    | none =>
      cases hd' : p.get d with
      | none => simpa using t.zero_inRange
      | some v => simpa using hp (d, v) ((p.mem_entries d v).2 hd')
    | some w =>
      have := h d w hd
      cases hd' : p.get d with
      | none => simpa using hq (d, w) ((q.mem_entries d w).2 hd)
      | some v => rw [hd'] at this; exact this
  · intro h k v hk
    have := h k
    rw [coeff_add, coeff_mapPoly, coeff_mapPoly, hk] at this
    cases hp' : p.get k with
    | none => trivial
    | some w => rw [hp'] at this; exact this

/-- The condition of a loop `self -= rhs`, in terms of polynomials. -/
theorem cond_sub (p q : BMap Int) (hp : ∀ e ∈ p.entries, t.InRange e.2) :
    (∀ e ∈ q.entries, (p.get e.1).elim (t.InRange (-e.2)) (fun x => t.InRange (x - e.2))) ↔
      ∀ d, t.InRange ((entriesPoly p.entries - entriesPoly q.entries).coeff d) := by
  rw [forall_entries q (fun k v => (p.get k).elim (t.InRange (-v)) (fun x => t.InRange (x - v)))]
  constructor
  · intro h d
    rw [coeff_sub, coeff_mapPoly, coeff_mapPoly]
    cases hd : q.get d with
    | none =>
      cases hd' : p.get d with
      | none => simpa using t.zero_inRange
      | some v => simpa using hp (d, v) ((p.mem_entries d v).2 hd')
    | some w =>
      have := h d w hd
      cases hd' : p.get d with
      | none => rw [hd'] at this; simpa using this
      | some v => rw [hd'] at this; exact this
  · intro h k v hk
    have := h k
    rw [coeff_sub, coeff_mapPoly, coeff_mapPoly, hk] at this
    cases hp' : p.get k with
    | none => rw [hp'] at this; simpa using this
    | some w => rw [hp'] at this; exact this

/-- C76: sparse addition (`+` and `+=`) returns exactly when every coefficient of the sum is a value of the
type. -/
theorem C76_sparse_add (p q : Sparse Int) (hp : ∀ e ∈ p.terms.entries, t.InRange e.2)
    (hq : ∀ e ∈ q.terms.entries, t.InRange e.2) :
    ((∀ d, t.InRange ((entriesPoly p.terms.entries + entriesPoly q.terms.entries).coeff d)) →
      ∃ r s, p.addM (.machine true t) q = .ok r ∧ p.addAssignM (.machine true t) q = .ok s ∧
        entriesPoly r.terms.entries = entriesPoly p.terms.entries + entriesPoly q.terms.entries ∧
        entriesPoly s.terms.entries = entriesPoly p.terms.entries + entriesPoly q.terms.entries) ∧
    ((¬ ∀ d, t.InRange ((entriesPoly p.terms.entries + entriesPoly q.terms.entries).coeff d)) →
      p.addM (.machine true t) q = .panic ∧ p.addAssignM (.machine true t) q = .panic) := by
  have gen : ∀ (l m : BMap Int), Chk (∀ e ∈ l.entries, (m.get e.1).elim True (fun x => t.InRange (x + e.2)))
      (l.entries.foldlM (fun m e => m.upsertM e.1 (.ok e.2) (fun x => (Arith.machine true t).add x e.2)) m)
      (l.entries.foldl (fun m e => m.upsert e.1 e.2 (· + e.2)) m) := fun l m =>
    chk_foldl_upsert (fun e : Nat × Int => e.1) (v := fun e => .ok e.2) (w := fun e => e.2)
      (f := fun e x => (Arith.machine true t).add x e.2) (g := fun e x => x + e.2) (Pv := fun _ => True)
      (Pf := fun e x => t.InRange (x + e.2)) (fun e => Chk.ok _) (fun e x => chk_result t _) l.entries l.keys_nodup m
  have h2 : Chk _ (p.addAssignM (.machine true t) q) _ := (gen q.terms p.terms).map Sparse.mk
  rw [cond_add t _ _ hp hq] at h2
  set m0 : BMap Int := q.terms.entries.foldl (fun m e => m.insert e.1 e.2) BMap.empty with hm0
  have hm : entriesPoly m0.entries = entriesPoly q.terms.entries := by
    have := mapPoly_foldl_insert q.terms.entries q.terms.keys_nodup .empty (by simp)
    rw [hm0, this, mapPoly_empty, zero_add]
  have hm0r : ∀ e ∈ m0.entries, t.InRange e.2 := by
    rw [inRange_mapPoly, hm, ← inRange_mapPoly]; exact hq
  have h1 : Chk _ (p.addM (.machine true t) q) _ := (gen p.terms m0).map Sparse.mk
  rw [cond_add t _ _ hm0r hp, hm, add_comm] at h1
  obtain ⟨e1, e2⟩ := C25_sparse_add p q
  exact ⟨fun H => ⟨_, _, h1.1 H, h2.1 H, e1, e2⟩, fun H => ⟨h1.2 H, h2.2 H⟩⟩

/-- C76: sparse subtraction (`-`, `-=`) returns exactly when every coefficient of the difference is a value of
the type. -/
theorem C76_sparse_sub (p q : Sparse Int) (hp : ∀ e ∈ p.terms.entries, t.InRange e.2) :
    ((∀ d, t.InRange ((entriesPoly p.terms.entries - entriesPoly q.terms.entries).coeff d)) →
      ∃ r, p.subM (.machine true t) q = .ok r ∧
        entriesPoly r.terms.entries = entriesPoly p.terms.entries - entriesPoly q.terms.entries) ∧
    ((¬ ∀ d, t.InRange ((entriesPoly p.terms.entries - entriesPoly q.terms.entries).coeff d)) →
      p.subM (.machine true t) q = .panic) := by
  have h := chk_foldl_upsert (fun e : Nat × Int => e.1) (v := fun e => (Arith.machine true t).neg e.2)
      (w := fun e => -e.2) (f := fun e x => (Arith.machine true t).sub x e.2) (g := fun e x => x - e.2)
      (Pv := fun e => t.InRange (-e.2)) (Pf := fun e x => t.InRange (x - e.2)) (fun e => chk_result t _)
      (fun e x => chk_result t _) q.terms.entries q.terms.keys_nodup p.terms
  have h1 : Chk _ (p.subM (.machine true t) q) _ := h.map Sparse.mk
  rw [cond_sub t _ _ hp] at h1
  exact ⟨fun H => ⟨_, h1.1 H, C25_sparse_sub p q⟩, h1.2⟩

/-- C76: subtraction of a dense polynomial from a sparse one. -/
theorem C76_sparse_sub_dense (p : Sparse Int) (q : Poly Int) (hp : ∀ e ∈ p.terms.entries, t.InRange e.2) :
    ((∀ d, t.InRange ((entriesPoly p.terms.entries - descPoly q.terms).coeff d)) →
      ∃ r, p.subDenseM (.machine true t) q = .ok r ∧
        entriesPoly r.terms.entries = entriesPoly p.terms.entries - descPoly q.terms) ∧
    ((¬ ∀ d, t.InRange ((entriesPoly p.terms.entries - descPoly q.terms).coeff d)) →
      p.subDenseM (.machine true t) q = .panic) := by
  have h := chk_foldl_upsert (fun e : Int × Nat => e.2) (v := fun e => (Arith.machine true t).neg e.1)
      (w := fun e => -e.1) (f := fun e x => (Arith.machine true t).sub x e.1) (g := fun e x => x - e.1)
      (Pv := fun e => t.InRange (-e.1)) (Pf := fun e x => t.InRange (x - e.1)) (fun e => chk_result t _)
      (fun e x => chk_result t _) q.orderedTermIter (by
        rw [List.Nodup, List.pairwise_map]
        exact (C03_dense_terms q).1.1.imp (fun h => Nat.ne_of_gt h)) p.terms
  have h1 : Chk _ (p.subDenseM (.machine true t) q) _ := h.map Sparse.mk
  have h2 := h1.of_iff (Q := ∀ d, t.InRange ((entriesPoly p.terms.entries - descPoly q.terms).coeff d)) (by
    have hmem := (C03_dense_terms q).1.2
    constructor
    · intro h d
      rw [coeff_sub, coeff_mapPoly]
      by_cases hd : (descPoly q.terms).coeff d = 0
      · rw [hd, sub_zero, ← coeff_mapPoly]; exact (inRange_mapPoly t _).1 hp d
      · have := h ((descPoly q.terms).coeff d, d) ((hmem _ _).2 ⟨hd, rfl⟩)
        cases hd' : p.terms.get d with
        | none => rw [hd'] at this; simpa using this
        | some v => rw [hd'] at this; exact this
    · rintro h ⟨c, d⟩ he
      obtain ⟨-, rfl⟩ := (hmem _ _).1 he
      have := h d
      rw [coeff_sub, coeff_mapPoly] at this
      cases hp' : p.terms.get d with
      | none => rw [hp'] at this; simpa using this
      | some w => rw [hp'] at this; exact this)
  exact ⟨fun H => ⟨_, h2.1 H, C25_sparse_sub_dense p q⟩, h2.2⟩

/-- C76, `add_term`: panics exactly when the new coefficient is not a value of the type. -/
theorem C76_sparse_add_term (p : Sparse Int) (c : Int) (n : Nat) (hp : ∀ e ∈ p.terms.entries, t.InRange e.2)
    (hc : t.InRange c) :
    (t.InRange ((entriesPoly p.terms.entries).coeff n + c) →
      ∃ r, p.addTermM (.machine true t) c n = .ok r ∧
        entriesPoly r.terms.entries = entriesPoly p.terms.entries + C c * X ^ n) ∧
    (¬ t.InRange ((entriesPoly p.terms.entries).coeff n + c) → p.addTermM (.machine true t) c n = .panic) := by
  have e := C31_sparse_add_term p c n
  have ex := p.addTermM_exact c n
  unfold Sparse.addTermM at ex ⊢
  unfold Sparse.addTerm at e ex
  by_cases h0 : c = 0
  · rw [if_pos h0] at ex ⊢
    rw [if_pos (by simpa using h0)] at e ex
    refine ⟨fun _ => ⟨_, rfl, e⟩, fun h => absurd ?_ h⟩
    rw [h0, add_zero]; exact (inRange_mapPoly t _).1 hp n
  · rw [if_neg h0] at ex ⊢
    rw [if_neg (by simpa using h0)] at e ex
    have h := (chk_upsertM (m := p.terms) (k := n) (v := .ok c) (w := c) (f := fun x => (Arith.machine true t).add x c)
      (g := fun x => x + c) (Pv := True) (Pf := fun x => t.InRange (x + c)) (Chk.ok _) (fun x => chk_result t _)).map Sparse.mk
    have h1 := h.of_iff (Q := t.InRange ((entriesPoly p.terms.entries).coeff n + c)) (by
      rw [coeff_mapPoly]
      cases p.terms.get n with
      | none => simp [hc]
      | some v => rfl)
    exact ⟨fun H => ⟨_, h1.1 H, e⟩, h1.2⟩

/-! Prefixes of the entries of a map. -/

theorem coeff_entries_notin {l : List (Nat × Int)} {i : Nat} (h : ∀ e ∈ l, e.1 ≠ i) : (entriesPoly l).coeff i = 0 := by
  induction l with
  | nil => simp
  | cons e l ih =>
    rw [entriesPoly_cons, coeff_add, ih (fun e he => h e (List.mem_cons_of_mem _ he)), coeff_C_mul, coeff_X_pow,
      if_neg (fun hi => h e List.mem_cons_self hi.symm)]
    simp

theorem entriesPoly_append (l1 l2 : List (Nat × Int)) : entriesPoly (l1 ++ l2) = entriesPoly l1 + entriesPoly l2 := by
  simp [entriesPoly]

theorem coeff_prefix {m : BMap Int} {l1 l2 : List (Nat × Int)} {a : Nat × Int} (h : m.entries = l1 ++ a :: l2) (i : Nat) :
    (entriesPoly l1).coeff i = if i < a.1 then (entriesPoly m.entries).coeff i else 0 := by
  have hs := m.sorted
  rw [h, List.pairwise_append, List.pairwise_cons] at hs
  split_ifs with hi
  · rw [h, entriesPoly_append, coeff_add, coeff_entries_notin (l := a :: l2), add_zero]
    intro e he
    rcases List.mem_cons.1 he with rfl | he
    · omega
    · have := hs.2.1.1 e he; omega
  · refine coeff_entries_notin fun e he => ?_
    have := hs.2.2 e he a List.mem_cons_self
    omega

theorem get_of_split {m : BMap Int} {l1 l2 : List (Nat × Int)} {a : Nat × Int} (h : m.entries = l1 ++ a :: l2) :
    (entriesPoly m.entries).coeff a.1 = a.2 := by
  rw [coeff_mapPoly, (m.mem_entries a.1 a.2).1 (by rw [h]; simp)]; rfl

/-- C76, evaluation: `eval` of a sparse polynomial with degrees below `2^32` returns exactly when, for every
stored entry, the power of the point, the term and the sum of the terms so far are values of the type. -/
theorem C76_sparse_eval (p : Sparse Int) (x : Int) (hb : ∀ e ∈ p.terms.entries, e.1 < 2 ^ 32) :
    ((∀ e ∈ p.terms.entries, t.InRange (x ^ e.1) ∧ t.InRange (e.2 * x ^ e.1) ∧
        t.InRange (∑ i ∈ Finset.range (e.1 + 1), (entriesPoly p.terms.entries).coeff i * x ^ i)) →
      p.evalM (.machine true t) x = .ok ((entriesPoly p.terms.entries).eval x)) ∧
    ((¬ ∀ e ∈ p.terms.entries, t.InRange (x ^ e.1) ∧ t.InRange (e.2 * x ^ e.1) ∧
        t.InRange (∑ i ∈ Finset.range (e.1 + 1), (entriesPoly p.terms.entries).coeff i * x ^ i)) →
      p.evalM (.machine true t) x = .panic) := by
  have key : ∀ l : List (Nat × Int), (∀ e ∈ l, e.1 < 2 ^ 32) → ∀ s,
      l.foldl (fun sum e => sum + e.2 * x ^ (e.1 % 2 ^ 32)) s = s + (entriesPoly l).eval x := by
    intro l
    induction l with
    | nil => simp
    | cons e l ih =>
      intro h s
      rw [List.foldl_cons, ih (fun e he => h e (List.mem_cons_of_mem _ he)), Nat.mod_eq_of_lt (h e List.mem_cons_self),
        entriesPoly_cons]
      simp; ring
  have h := chk_foldlM (f := fun sum (e : Nat × Int) => (Arith2.machine true t).upow x e.1 >>= fun y =>
      (Arith2.machine true t).mul e.2 y >>= fun y => (Arith2.machine true t).add sum y)
    (g := fun sum e => sum + e.2 * x ^ (e.1 % 2 ^ 32)) p.terms.entries
    (fun l1 e => t.InRange (x ^ e.1) ∧ t.InRange (e.2 * x ^ e.1) ∧
        t.InRange (∑ i ∈ Finset.range (e.1 + 1), (entriesPoly p.terms.entries).coeff i * x ^ i)) 0
    (fun l1 a l2 e => by
      have hl1 : ∀ e ∈ l1, e.1 < 2 ^ 32 := fun e' he => hb e' (by rw [e]; simp [he])
      rw [key l1 hl1, zero_add]
      have ha : a.1 % 2 ^ 32 = a.1 := Nat.mod_eq_of_lt (hb a (by rw [e]; simp))
      have hsum : (entriesPoly l1).eval x + a.2 * x ^ a.1
          = ∑ i ∈ Finset.range (a.1 + 1), (entriesPoly p.terms.entries).coeff i * x ^ i := by
        rw [Finset.sum_range_succ, get_of_split e]
        congr 1
        have hco : ∀ i ∈ Finset.range a.1, (entriesPoly p.terms.entries).coeff i * x ^ i
            = (entriesPoly l1).coeff i * x ^ i := fun i hi => by
          rw [coeff_prefix e, if_pos (Finset.mem_range.1 hi)]
        rw [Finset.sum_congr rfl hco]
        by_cases h0 : entriesPoly l1 = 0
        · simp [h0]
        · refine eval_eq_sum_range' ?_ x
          by_contra hn
          apply h0
          rw [← leadingCoeff_eq_zero, leadingCoeff, coeff_prefix e, if_neg hn]
      have hup : (Arith2.machine true t).upow x a.1 = t.result true (x ^ a.1) := by
        show t.result true (x ^ (a.1 % 2 ^ 32)) = _
        rw [ha]
      have := (chk_result t (x ^ (a.1 % 2 ^ 32))).bind
        (f := fun y => (Arith2.machine true t).mul a.2 y >>= fun y => (Arith2.machine true t).add ((entriesPoly l1).eval x) y)
        (fun _ => (chk_result t (a.2 * x ^ (a.1 % 2 ^ 32))).bind
        (f := fun y => (Arith2.machine true t).add ((entriesPoly l1).eval x) y)
        (fun _ => chk_result t ((entriesPoly l1).eval x + a.2 * x ^ (a.1 % 2 ^ 32))))
      rw [ha, hsum] at this
      rw [ha, hsum, hup]
      exact this)
  rw [key _ hb, zero_add] at h
  have h1 : Chk _ (p.evalM (.machine true t) x) _ := h
  have h2 := h1.of_iff (Q := ∀ e ∈ p.terms.entries, t.InRange (x ^ e.1) ∧ t.InRange (e.2 * x ^ e.1) ∧
        t.InRange (∑ i ∈ Finset.range (e.1 + 1), (entriesPoly p.terms.entries).coeff i * x ^ i))
    ⟨fun H a ha => by
        obtain ⟨l1, l2, e⟩ := List.append_of_mem ha
        exact H l1 a l2 e, fun H l1 a l2 e => H a (by rw [e]; simp)⟩
  exact h2

theorem mapMul_prefix (p : BMap Int) (l : List (Nat × Int)) :
    entriesPoly (l.foldl (fun terms e => if isZero e.2 then terms else mapMulInner e.1 e.2 p.entries terms)
      BMap.empty).entries = entriesPoly p.entries * entriesPoly l := by
  rw [mapPoly_foldl _ (fun e => C e.2 * X ^ e.1 * entriesPoly p.entries)]
  · rw [mapPoly_empty, zero_add, mul_comm]
    unfold entriesPoly
    rw [← List.sum_map_mul_right]
  · intro m e _
    split
    · rename_i h
      have : e.2 = 0 := by simpa using h
      simp [this]
    · unfold mapMulInner
      rw [mapPoly_foldl _ (fun e' : Nat × Int => C (e.2 * e'.2) * X ^ (e.1 + e'.1)) _
        (fun m e' _ => mapPoly_upsert_add m _ _ _ (fun _ => rfl))]
      congr 1
      unfold entriesPoly
      rw [← List.sum_map_mul_left]
      congr 2
      funext e'
      rw [C_mul, pow_add]; ring

theorem coeff_mul_prefix (P : ℤ[X]) {m : BMap Int} {l1 l2 : List (Nat × Int)} {a : Nat × Int}
    (h : m.entries = l1 ++ a :: l2) (d : Nat) :
    (P * entriesPoly l1).coeff d = ∑ x ∈ Finset.antidiagonal d with x.2 < a.1,
      P.coeff x.1 * (entriesPoly m.entries).coeff x.2 := by
  rw [coeff_mul, Finset.sum_filter]
  refine Finset.sum_congr rfl fun x _ => ?_
  rw [coeff_prefix h]
  split_ifs <;> simp

/-- One more term of the right operand. -/
theorem partial_sum_succ (P Q : ℤ[X]) (d e : Nat) :
    ∑ x ∈ Finset.antidiagonal d with x.2 ≤ e, P.coeff x.1 * Q.coeff x.2
      = ∑ x ∈ Finset.antidiagonal d with x.2 < e, P.coeff x.1 * Q.coeff x.2
        + if e ≤ d then P.coeff (d - e) * Q.coeff e else 0 := by
  rw [Finset.sum_filter, Finset.sum_filter]
  have hx : ∀ x ∈ Finset.antidiagonal d, (if x.2 ≤ e then P.coeff x.1 * Q.coeff x.2 else 0)
      = (if x.2 < e then P.coeff x.1 * Q.coeff x.2 else 0)
        + if x = (d - e, e) then P.coeff x.1 * Q.coeff x.2 else 0 := by
    intro x hx
    rw [Finset.mem_antidiagonal] at hx
    rcases lt_trichotomy x.2 e with h | h | h
    · rw [if_pos h.le, if_pos h, if_neg (fun he => by rw [he] at h; simp at h), add_zero]
    · rw [if_pos h.le, if_neg h.not_lt, if_pos (by ext <;> simp <;> omega), zero_add]
    · rw [if_neg (by omega), if_neg (by omega), if_neg (fun he => by rw [he] at h; simp at h), add_zero]
  rw [Finset.sum_congr rfl hx, Finset.sum_add_distrib, Finset.sum_ite_eq']
  congr 1
  by_cases h : e ≤ d
  · rw [if_pos h, if_pos (by rw [Finset.mem_antidiagonal]; omega)]
  · rw [if_neg h, if_neg (by rw [Finset.mem_antidiagonal]; omega)]

/-- The condition under which multiplication of sparse polynomials does not overflow. -/
theorem chk_mapMulM (p q : BMap Int) :
    Chk ((∀ i j, t.InRange ((entriesPoly p.entries).coeff i * (entriesPoly q.entries).coeff j)) ∧
        ∀ d e, t.InRange (∑ x ∈ Finset.antidiagonal d with x.2 ≤ e,
          (entriesPoly p.entries).coeff x.1 * (entriesPoly q.entries).coeff x.2))
      (mapMulM (.machine true t) p q) (mapMul p q) := by
  have h := chk_foldlM
    (f := fun terms (e : Nat × Int) => if e.2 = 0 then .ok terms else
      mapMulInnerM (.machine true t) e.1 e.2 p.entries terms)
    (g := fun terms e => if isZero e.2 then terms else mapMulInner e.1 e.2 p.entries terms) q.entries
    (fun l1 a => a.2 ≠ 0 → ∀ e ∈ p.entries, t.InRange (a.2 * e.2) ∧
      t.InRange (∑ x ∈ Finset.antidiagonal (a.1 + e.1) with x.2 ≤ a.1,
          (entriesPoly p.entries).coeff x.1 * (entriesPoly q.entries).coeff x.2)) BMap.empty
    (fun l1 a l2 e => by
      by_cases h0 : a.2 = 0
      · simp only [h0, if_true, isZero_zero]
        exact (Chk.ok _).of_iff (by simp)
      · simp only [h0, if_false]
        rw [if_neg (by simpa using h0)]
        have hpre := mapMul_prefix p l1
        generalize l1.foldl (fun terms e => if isZero e.2 then terms else mapMulInner e.1 e.2 p.entries terms)
          BMap.empty = terms at hpre ⊢
        have hc := chk_foldl_upsert (fun e : Nat × Int => a.1 + e.1) (v := fun e => (Arith.machine true t).mul a.2 e.2)
          (w := fun e => a.2 * e.2)
          (f := fun e val => (Arith.machine true t).mul a.2 e.2 >>= fun x => (Arith.machine true t).add val x)
          (g := fun e val => val + a.2 * e.2) (Pv := fun e => t.InRange (a.2 * e.2))
          (Pf := fun e val => t.InRange (a.2 * e.2) ∧ t.InRange (val + a.2 * e.2)) (fun e => chk_result t _)
          (fun e val => (chk_result t (a.2 * e.2)).bind (fun _ => chk_result t (val + a.2 * e.2))) p.entries
          (by
            have := p.keys_nodup
            rw [List.Nodup, List.pairwise_map] at this ⊢
            exact this.imp (fun h => by omega)) terms
        refine hc.of_iff ?_
        have hval : ∀ e' ∈ p.entries, (entriesPoly p.entries).coeff e'.1 = e'.2 := by
          intro e' he
          rw [coeff_mapPoly, (p.mem_entries e'.1 e'.2).1 he]; rfl
        have hsum : ∀ e' ∈ p.entries, ∑ x ∈ Finset.antidiagonal (a.1 + e'.1) with x.2 ≤ a.1,
            (entriesPoly p.entries).coeff x.1 * (entriesPoly q.entries).coeff x.2
            = (terms.get (a.1 + e'.1)).getD 0 + a.2 * e'.2 := by
          intro e' he
          rw [partial_sum_succ, ← coeff_mul_prefix _ e, ← hpre, coeff_mapPoly, if_pos (by omega),
            Nat.add_sub_cancel_left, hval e' he, get_of_split e, mul_comm]
        constructor
        · intro H _ e' he
          have := H e' he
          rw [hsum e' he]
          cases hg : terms.get (a.1 + e'.1) with
          | none => rw [hg] at this; simpa using this
          | some v => rw [hg] at this; exact this
        · intro H e' he
          have := H h0 e' he
          rw [hsum e' he] at this
          cases hg : terms.get (a.1 + e'.1) with
          | none => exact this.1
          | some v => rw [hg] at this; exact this)
  have h1 : Chk _ (mapMulM (.machine true t) p q) (mapMul p q) := h
  refine h1.of_iff ⟨fun H => ?_, fun H l1 a l2 e _ e' he => ⟨?_, H.2 _ _⟩⟩
  · have hb : ∀ i j, (entriesPoly p.entries).coeff i ≠ 0 → (entriesPoly q.entries).coeff j ≠ 0 →
        t.InRange ((entriesPoly q.entries).coeff j * (entriesPoly p.entries).coeff i) ∧
        t.InRange (∑ x ∈ Finset.antidiagonal (j + i) with x.2 ≤ j,
          (entriesPoly p.entries).coeff x.1 * (entriesPoly q.entries).coeff x.2) := by
      intro i j hi hj
      have mem : ∀ (m : BMap Int) (k : Nat), (entriesPoly m.entries).coeff k ≠ 0 →
          (k, (entriesPoly m.entries).coeff k) ∈ m.entries := by
        intro m k hk
        rw [coeff_mapPoly] at hk ⊢
        cases hg : m.get k with
        | none => rw [hg] at hk; simp at hk
        | some v => exact (m.mem_entries k v).2 hg
      obtain ⟨l1, l2, e⟩ := List.append_of_mem (mem q j hj)
      exact H l1 _ l2 e hj _ (mem p i hi)
    constructor
    · intro i j
      by_cases hi : (entriesPoly p.entries).coeff i = 0
      · rw [hi, zero_mul]; exact t.zero_inRange
      by_cases hj : (entriesPoly q.entries).coeff j = 0
      · rw [hj, mul_zero]; exact t.zero_inRange
      rw [mul_comm]; exact (hb i j hi hj).1
    · intro d e
      induction e with
      | zero =>
        by_cases h : (entriesPoly p.entries).coeff d = 0 ∨ (entriesPoly q.entries).coeff 0 = 0
        · rw [partial_sum_succ]
          rcases h with h | h <;> simp [h, t.zero_inRange]
        · rw [not_or] at h
          simpa using (hb d 0 h.1 h.2).2
      | succ e ih =>
        by_cases h : e + 1 ≤ d ∧ (entriesPoly p.entries).coeff (d - (e + 1)) ≠ 0 ∧ (entriesPoly q.entries).coeff (e + 1) ≠ 0
        · have := (hb _ _ h.2.1 h.2.2).2
          rwa [Nat.add_sub_cancel' h.1] at this
        · rw [partial_sum_succ]
          have h0 : (if e + 1 ≤ d then (entriesPoly p.entries).coeff (d - (e + 1)) * (entriesPoly q.entries).coeff (e + 1)
              else 0) = 0 := by
            split_ifs with hd
            · by_contra hn
              exact h ⟨hd, left_ne_zero_of_mul hn, right_ne_zero_of_mul hn⟩
            · rfl
          rw [h0, add_zero]
          simpa only [Nat.lt_succ_iff] using ih
  · have := H.1 e'.1 a.1
    rw [get_of_split e, coeff_mapPoly, (p.mem_entries e'.1 e'.2).1 he, mul_comm] at this
    exact this

/-- C76, multiplication: `*` of sparse polynomials returns exactly when all products of two coefficients and
the sums of the products `p_i q_j` of each degree with `j ≤ e` are values of the type, for every `e` (the loop
goes through the right operand by ascending degree); then the result represents the product. -/
theorem C76_sparse_mul (p q : Sparse Int) :
    (((∀ i j, t.InRange ((entriesPoly p.terms.entries).coeff i * (entriesPoly q.terms.entries).coeff j)) ∧
        ∀ d e, t.InRange (∑ x ∈ Finset.antidiagonal d with x.2 ≤ e,
          (entriesPoly p.terms.entries).coeff x.1 * (entriesPoly q.terms.entries).coeff x.2)) →
      ∃ r, p.mulM (.machine true t) q = .ok r ∧
        entriesPoly r.terms.entries = entriesPoly p.terms.entries * entriesPoly q.terms.entries) ∧
    ((¬ ((∀ i j, t.InRange ((entriesPoly p.terms.entries).coeff i * (entriesPoly q.terms.entries).coeff j)) ∧
        ∀ d e, t.InRange (∑ x ∈ Finset.antidiagonal d with x.2 ≤ e,
          (entriesPoly p.terms.entries).coeff x.1 * (entriesPoly q.terms.entries).coeff x.2))) →
      p.mulM (.machine true t) q = .panic) := by
  have h : Chk _ (p.mulM (.machine true t) q) (p.mul q) := (chk_mapMulM t p.terms q.terms).map Sparse.mk
  exact ⟨fun H => ⟨_, h.1 H, C26_sparse_mul p q⟩, h.2⟩

/-- C76, multiplication of unsigned types: returns exactly when every coefficient of the product is a value of
the type. -/
theorem C76_sparse_mul_unsigned (bits : Nat) (p q : Sparse Int) (hp : ∀ e ∈ p.terms.entries, (⟨false, bits⟩ : IntTy).InRange e.2)
    (hq : ∀ e ∈ q.terms.entries, (⟨false, bits⟩ : IntTy).InRange e.2) :
    (∃ r, p.mulM (.machine true ⟨false, bits⟩) q = .ok r) ↔
      ∀ d, (entriesPoly p.terms.entries * entriesPoly q.terms.entries).coeff d < 2 ^ bits := by
  have rng : ∀ v : Int, (⟨false, bits⟩ : IntTy).InRange v ↔ 0 ≤ v ∧ v < 2 ^ bits := by
    intro v
    simp only [IntTy.InRange, IntTy.min, IntTy.max, Bool.false_eq_true, if_false]
    omega
  have hp' := fun d => ((rng _).1 ((inRange_mapPoly _ _).1 hp d)).1
  have hq' := fun d => ((rng _).1 ((inRange_mapPoly _ _).1 hq d)).1
  obtain ⟨h1, h2⟩ := C76_sparse_mul ⟨false, bits⟩ p q
  constructor
  · rintro ⟨r, hr⟩ d
    by_contra hd
    rw [h2 (fun H => hd ?_)] at hr
    · cases hr
    · have := ((rng _).1 (H.2 d d)).2
      rw [coeff_mul]
      refine lt_of_eq_of_lt ?_ this
      rw [Finset.filter_true_of_mem]
      intro x hx
      rw [Finset.mem_antidiagonal] at hx; omega
  · intro H
    refine (fun h => ⟨h.choose, h.choose_spec.1⟩) (h1 ⟨fun i j => (rng _).2 ⟨mul_nonneg (hp' _) (hq' _),
      lt_of_le_of_lt ?_ (H (i + j))⟩,
      fun d e => (rng _).2 ⟨Finset.sum_nonneg fun x _ => mul_nonneg (hp' _) (hq' _), lt_of_le_of_lt ?_ (H d)⟩⟩)
    · rw [coeff_mul]
      exact Finset.single_le_sum
        (f := fun x : ℕ × ℕ => (entriesPoly p.terms.entries).coeff x.1 * (entriesPoly q.terms.entries).coeff x.2)
        (fun x _ => mul_nonneg (hp' _) (hq' _)) (Finset.mem_antidiagonal.2 (rfl : ((i, j) : ℕ × ℕ).1 + j = i + j))
    · rw [coeff_mul]
      exact Finset.sum_le_sum_of_subset_of_nonneg (Finset.filter_subset _ _)
        (fun x _ _ => mul_nonneg (hp' _) (hq' _))

/-- C76, derivative: on a machine with `uw`-bit `usize`, `derivative` returns exactly when the type represents
the degrees of the non-constant terms and the coefficients of the derivative. -/
theorem C76_sparse_derivative (uw : Nat) (hb : 1 ≤ t.bits) (p : Sparse Int)
    (hd : ∀ e ∈ p.terms.entries, e.1 < 2 ^ uw) :
    (((∀ d, d ≠ 0 → (entriesPoly p.terms.entries).coeff d ≠ 0 → t.InRange d) ∧
        ∀ d, t.InRange ((entriesPoly p.terms.entries).derivative.coeff d)) →
      ∃ r, p.derivativeM (.machine true t) (tryFromUsizeExactInt uw t) = .ok r ∧
        entriesPoly r.terms.entries = (entriesPoly p.terms.entries).derivative) ∧
    ((¬ ((∀ d, d ≠ 0 → (entriesPoly p.terms.entries).coeff d ≠ 0 → t.InRange d) ∧
        ∀ d, t.InRange ((entriesPoly p.terms.entries).derivative.coeff d))) →
      p.derivativeM (.machine true t) (tryFromUsizeExactInt uw t) = .panic) := by
  have h := (chk_foldlM' (g := fun (terms : BMap Int) e => if e.2 ≠ 0 ∧ e.1 ≠ 0 then terms.insert (e.1 - 1) (e.2 * e.1) else terms)
    (f := fun (terms : BMap Int) (e : Nat × Int) =>
      if e.2 ≠ 0 ∧ e.1 ≠ 0 then
        match tryFromUsizeExactInt uw t e.1 with
        | none => Res.panic
        | some d => do
          let v ← (Arith.machine true t).mul e.2 d
          .ok (terms.insert (e.1 - 1) v)
      else .ok terms) p.terms.entries
    (fun e => e.2 ≠ 0 ∧ e.1 ≠ 0 → t.InRange e.1 ∧ t.InRange (e.2 * e.1)) .empty (fun l1 e l2 he => by
      by_cases hc : e.2 ≠ 0 ∧ e.1 ≠ 0
      · simp only [if_pos hc]
        have hu : tryFromUsizeExactInt uw t e.1 = if t.InRange e.1 then some (e.1 : Int) else none :=
          tryFromUsizeContInt_eq uw t hb _ (hd e (by rw [he]; simp))
        rw [hu]
        by_cases hr : t.InRange e.1
        · simp only [if_pos hr]
          exact ((chk_result t (e.2 * e.1)).map (fun v => BMap.insert _ (e.1 - 1) v)).of_iff (by tauto)
        · simp only [if_neg hr]
          exact ⟨fun H => absurd (H hc).1 hr, fun _ => rfl⟩
      · simp only [if_neg hc]
        exact (Chk.ok _).of_iff (by tauto))).map Sparse.mk
  have h1 : Chk _ (p.derivativeM (.machine true t) (tryFromUsizeExactInt uw t)) _ := h
  have e : p.derivative = .ok ⟨p.terms.entries.foldl
      (fun (terms : BMap Int) e => if e.2 ≠ 0 ∧ e.1 ≠ 0 then terms.insert (e.1 - 1) (e.2 * e.1) else terms) .empty⟩ := by
    rw [← Sparse.derivativeM_exact]
    unfold Sparse.derivativeM
    rw [foldlM_ok (step' := fun (terms : BMap Int) (e : Nat × Int) =>
      if e.2 ≠ 0 ∧ e.1 ≠ 0 then terms.insert (e.1 - 1) (e.2 * e.1) else terms)]
    · rfl
    · intro e _ m
      split_ifs <;> rfl
  obtain ⟨r, hr, hr'⟩ := (C17_sparse_derivative p).2 (fun d _ _ => by simp [tryFromExact])
  obtain rfl := Res.ok.inj (hr.symm.trans e)
  have h2 := h1.of_iff (Q := (∀ d, d ≠ 0 → (entriesPoly p.terms.entries).coeff d ≠ 0 → t.InRange d) ∧
        ∀ d, t.InRange ((entriesPoly p.terms.entries).derivative.coeff d)) (by
    rw [forall_entries p.terms (fun k v => v ≠ 0 ∧ k ≠ 0 → t.InRange k ∧ t.InRange (v * k))]
    constructor
    · intro H
      have H' : ∀ d, (entriesPoly p.terms.entries).coeff d ≠ 0 → d ≠ 0 →
          t.InRange d ∧ t.InRange ((entriesPoly p.terms.entries).coeff d * d) := by
        intro d h1 h2
        rw [coeff_mapPoly] at h1 ⊢
        cases hg : p.terms.get d with
        | none => rw [hg] at h1; simp at h1
        | some v => rw [hg] at h1; exact H d v hg ⟨h1, h2⟩
      refine ⟨fun d h1 h2 => (H' d h2 h1).1, fun d => ?_⟩
      rw [coeff_derivative]
      by_cases hz : (entriesPoly p.terms.entries).coeff (d + 1) = 0
      · rw [hz, zero_mul]; exact t.zero_inRange
      · simpa using (H' (d + 1) hz (by omega)).2
    · rintro ⟨H1, H2⟩ k v hk ⟨hv, hk0⟩
      have hco : (entriesPoly p.terms.entries).coeff k = v := by rw [coeff_mapPoly, hk]; rfl
      refine ⟨H1 k hk0 (by rwa [hco]), ?_⟩
      have := H2 (k - 1)
      rw [coeff_derivative, Nat.sub_add_cancel (by omega), hco] at this
      have hc : ((k - 1 : Nat) : Int) + 1 = k := by omega
      rwa [hc] at this)
  exact ⟨fun H => ⟨_, h2.1 H, hr'⟩, h2.2⟩

end

-- `i8`: at the ends of the range and beyond; a sum of products which overflows only on the way.
example : ((Sparse.fromVec [100, -128]).addM (.machine true ⟨true, 8⟩) (Sparse.fromVec [27, 5])).bind
      (fun r => .ok r.terms.entries) = .ok [(0, -123), (1, 127)] ∧
    ((Sparse.fromVec [100, -128]).addM (.machine true ⟨true, 8⟩) (Sparse.fromVec [28, 5])).bind
      (fun r => .ok r.terms.entries) = .panic ∧
    ((Sparse.fromVec [100, -128]).negM (.machine true ⟨true, 8⟩)).bind (fun r => .ok r.terms.entries) = .panic ∧
    ((Sparse.fromVec [100, -127]).negM (.machine true ⟨true, 8⟩)).bind (fun r => .ok r.terms.entries)
      = .ok [(0, 127), (1, -100)] ∧
    ((Sparse.fromVec [3, 2]).subM (.machine true ⟨false, 8⟩) (Sparse.fromVec [1, 3, 1])).bind
      (fun r => .ok r.terms.entries) = .panic := by
  decide
example :
    ((Sparse.fromVec [3, 2]).subM (.machine true ⟨false, 8⟩) (Sparse.fromVec [3, 1])).bind
      (fun r => .ok r.terms.entries) = .ok [(0, 1), (1, 0)] ∧
    ((Sparse.fromVec [3, 2]).subDenseM (.machine true ⟨true, 8⟩) ⟨[3, 0, -128]⟩).bind
      (fun r => .ok r.terms.entries) = .panic ∧
    ((Sparse.fromVec [3, 2]).addTermM (.machine true ⟨true, 8⟩) 125 1).bind (fun r => .ok r.terms.entries) = .panic ∧
    ((Sparse.fromVec [3, 2]).addTermM (.machine true ⟨true, 8⟩) 125 2).bind (fun r => .ok r.terms.entries)
      = .ok [(0, 2), (1, 3), (2, 125)] := by
  decide
example :
    ((Sparse.fromVec [3, 2]).addTermM (.machine true ⟨true, 8⟩) 125 0).bind (fun r => .ok r.terms.entries)
      = .ok [(0, 127), (1, 3)] ∧
    ((Sparse.fromVec [3, 43]).mulScalarM (.machine true ⟨true, 8⟩) 3).bind (fun r => .ok r.terms.entries) = .panic ∧
    ((Sparse.fromVec [3, 42]).mulAssignScalarM (.machine true ⟨true, 8⟩) 3).bind (fun r => .ok r.terms.entries)
      = .ok [(0, 126), (1, 9)] := by
  decide
-- The order of the operands of a product matters, and differs from that of dense polynomials.
example : ((Sparse.fromVec [100, 100, 100]).mulM (.machine true ⟨true, 8⟩) (Sparse.fromVec [1, -1, 1])).bind
      (fun r => .ok r.terms.entries) = .ok [(0, 100), (1, 0), (2, 100), (3, 0), (4, 100)] ∧
    ((Sparse.fromVec [100, 100, 100]).mulM (.machine true ⟨true, 8⟩) (Sparse.fromVec [-1, 1, 1])).bind
      (fun r => .ok r.terms.entries) = .panic ∧
    ((Sparse.fromVec [100, 100, 100]).mulM (.machine true ⟨true, 8⟩) (Sparse.fromVec [1, 1])).bind
      (fun r => .ok r.terms.entries) = .panic ∧
    ((Sparse.fromVec [15, 1]).mulM (.machine true ⟨false, 8⟩) (Sparse.fromVec [17, 0])).bind
      (fun r => .ok r.terms.entries) = .ok [(1, 17), (2, 255)] := by
  decide
example : (Sparse.fromVec [1, 2, 3, 4]).evalM (.machine true ⟨true, 16⟩) 10 = .ok 1234 ∧
    (Sparse.fromVec [1, 2, 3, 4]).evalM (.machine true ⟨true, 8⟩) 10 = .panic ∧
    (Sparse.fromVec [-1, 127]).evalM (.machine true ⟨true, 8⟩) (-1) = .panic ∧
    (Sparse.fromVec [-1, 1, 127]).evalM (.machine true ⟨true, 8⟩) 1 = .panic := by
  decide
example : ((Sparse.fromVec [42, 0, 0, 7]).derivativeM (.machine true ⟨true, 8⟩) (tryFromUsizeExactInt 64 ⟨true, 8⟩)).bind
      (fun r => .ok r.terms.entries) = .ok [(2, 126)] ∧
    ((Sparse.fromVec [43, 0, 0, 7]).derivativeM (.machine true ⟨true, 8⟩) (tryFromUsizeExactInt 64 ⟨true, 8⟩)).bind
      (fun r => .ok r.terms.entries) = .panic := by
  decide +kernel

end Rustnomial
