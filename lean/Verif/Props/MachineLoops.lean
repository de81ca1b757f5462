import Verif.Props.MachineSparse

/-!
# C77: the never-ending division loops of machine integers

In the ideal model `%` of dense polynomials and division of sparse polynomials do not return when the divisor
has no larger (dense) or a smaller (sparse) degree than the dividend.  With machine integers and overflow checks
the loop ends in a panic when some value it changes in every round leaves the range of the type; otherwise it
still never ends.
-/

open Polynomial

namespace Rustnomial

section
variable (t : IntTy)

theorem machine_div_ok {t : IntTy} {chk : Bool} {a b : Int} (hb : b ≠ 0) (h : t.InRange (a.tdiv b)) :
    (Arith2.machine chk t).div a b = .ok (a.tdiv b) := by
  show (if b = 0 then Res.panic else t.checked (a.tdiv b)) = _
  rw [if_neg hb, IntTy.checked, if_pos h]

theorem machine_div_panic {t : IntTy} {chk : Bool} {a b : Int} (h : ¬ t.InRange (a.tdiv b)) :
    (Arith2.machine chk t).div a b = .panic := by
  show (if b = 0 then Res.panic else t.checked (a.tdiv b)) = _
  split
  · rfl
  · rw [IntTy.checked, if_neg h]

/-- Sooner or later the terms of an arithmetic progression leave the range of the type. -/
theorem progression_out_of_range (hb : 1 ≤ t.bits) {v s : Int} (hv : t.InRange v) (hs : s ≠ 0) :
    ¬ t.InRange (v + (2 ^ t.bits : Nat) * s) := by
  obtain ⟨sg, w⟩ := t
  simp only at hb
  obtain ⟨n, rfl⟩ : ∃ n, w = n + 1 := ⟨w - 1, by omega⟩
  have h1 : (1 : Int) ≤ 2 ^ n := one_le_pow₀ (by norm_num)
  have h2 : (2 : Int) ^ (n + 1) = 2 * 2 ^ n := by ring
  unfold IntTy.InRange IntTy.min IntTy.max at hv ⊢
  push_cast
  simp only [h2] at hv ⊢
  rcases lt_or_gt_of_ne hs with h | h
  · have : 2 * (2 : Int) ^ n * s ≤ - (2 * 2 ^ n) := by nlinarith
    cases sg <;> simp at hv ⊢ <;> omega
  · have : 2 * (2 : Int) ^ n ≤ 2 * 2 ^ n * s := by nlinarith
    cases sg <;> simp at hv ⊢ <;> omega

theorem tdiv_eq_zero_iff {c r : Int} (hr : r ≠ 0) : c.tdiv r = 0 ↔ c.natAbs < r.natAbs := by
  rw [← Int.natAbs_eq_zero, Int.natAbs_tdiv]
  show c.natAbs / r.natAbs = 0 ↔ _
  rw [Nat.div_eq_zero_iff]
  simp [hr]

/-- The values which occur in one round of sparse division with quotient term `s`: where the remainder has an
entry, the product and the difference; where it has none, the negated coefficient and its product. -/
def StepFits (l r : BMap Int) (s : Int) : Prop :=
  ∀ e ∈ r.entries, (l.get e.1).elim (t.InRange (-e.2) ∧ t.InRange (-e.2 * s))
    (fun x => t.InRange (e.2 * s) ∧ t.InRange (x - e.2 * s))

theorem chk_mapSubWScaleM (l r : BMap Int) (s : Int) :
    Chk (StepFits t l r s) (mapSubWScaleM (.machine true t) l r s) (mapSubWScale l r s) :=
  chk_foldl_upsert (fun e : Nat × Int => e.1)
    (v := fun e => (Arith.machine true t).neg e.2 >>= fun n => (Arith.machine true t).mul n s)
    (w := fun e => -e.2 * s)
    (f := fun e x => (Arith.machine true t).mul e.2 s >>= fun y => (Arith.machine true t).sub x y)
    (g := fun e x => x - e.2 * s) (Pv := fun e => t.InRange (-e.2) ∧ t.InRange (-e.2 * s))
    (Pf := fun e x => t.InRange (e.2 * s) ∧ t.InRange (x - e.2 * s))
    (fun e => (chk_result t (-e.2)).bind (fun _ => chk_result t (-e.2 * s)))
    (fun e x => (chk_result t (e.2 * s)).bind (fun _ => chk_result t (x - e.2 * s))) r.entries r.keys_nodup l

variable {t}

theorem stepFits_range {l r : BMap Int} {s : Int} (h : StepFits t l r s) (hl : ∀ e ∈ l.entries, t.InRange e.2) :
    ∀ e ∈ (mapSubWScale l r s).entries, t.InRange e.2 := by
  rw [inRange_mapPoly] at hl ⊢
  intro d
  rw [mapSubWScale_poly, coeff_sub, coeff_C_mul]
  have hd := hl d
  rw [coeff_mapPoly] at hd ⊢
  rw [coeff_mapPoly]
  cases hr : r.get d with
  | none => simpa using hd
  | some v =>
    have := h (d, v) ((r.mem_entries d v).2 hr)
    cases hg : l.get d with
    | none => rw [hg] at this; simpa [mul_comm] using this.2
    | some x => rw [hg] at this; simpa [mul_comm] using this.2

theorem keys_foldl_upsert (s : Int) : ∀ (r : List (Nat × Int)) (l : BMap Int) (k : Nat), (l.get k ≠ none ∨ k ∈ r.map Prod.fst) →
    (r.foldl (fun m e => m.upsert e.1 (-e.2 * s) (fun l => l - e.2 * s)) l).get k ≠ none
  | [], l, k, h => by simpa using h
  | e :: r, l, k, h => by
    rw [List.foldl_cons]
    refine keys_foldl_upsert s r _ k ?_
    rw [BMap.get_upsert]
    by_cases hk : k = e.1
    · left; rw [if_pos hk]; simp
    · rw [if_neg hk]
      rcases h with h | h
      · exact .inl h
      · rw [List.map_cons, List.mem_cons] at h
        exact .inr (h.resolve_left hk)

theorem stepFits_zero {l r : BMap Int} {s : Int} (hl : ∀ e ∈ (mapSubWScale l r s).entries, t.InRange e.2) :
    StepFits t (mapSubWScale l r s) r 0 := by
  intro e he
  have hk := keys_foldl_upsert s r.entries l e.1 (.inr (List.mem_map.2 ⟨e, he, rfl⟩))
  cases hg : (mapSubWScale l r s).get e.1 with
  | none => exact absurd hg hk
  | some x =>
    refine ⟨by simpa using t.zero_inRange, ?_⟩
    have := hl (e.1, x) ((BMap.mem_entries _ _ _).2 hg)
    simpa using this

/-- With quotient term zero nothing changes any more. -/
theorem stuck_loops {b : BMap Int} {rf : Int} {rd sd off : Nat} {c : Int} (hrf : rf ≠ 0) (hd : rd ≤ sd)
    (hc : c.natAbs < rf.natAbs) : ∀ (fuel : Nat) (rem : BMap Int) (div : Sparse Int),
    (∀ e ∈ rem.entries, t.InRange e.2) → sparseFirstTerm rem = .term c sd → StepFits t rem b 0 →
      Sparse.divModLoopM (.machine true t) b rf rd off fuel 0 sd rem div = .fuel ∧
      Sparse.remLoopM (.machine true t) b rf rd fuel 0 sd rem = .fuel := by
  intro fuel
  have hz := (tdiv_eq_zero_iff hrf).2 hc
  have hdiv : (Arith2.machine true t).div c rf = .ok 0 := by
    rw [machine_div_ok hrf (by rw [hz]; exact t.zero_inRange), hz]
  induction fuel with
  | zero => intros; exact ⟨rfl, rfl⟩
  | succ fuel ih =>
    intro rem div hr hf hs
    have hstep : mapSubWScaleM (Arith2.machine true t).toArith rem b 0 = .ok (mapSubWScale rem b 0) :=
      (chk_mapSubWScaleM t rem b 0).1 hs
    have hpoly : entriesPoly (mapSubWScale rem b 0).entries = entriesPoly rem.entries := by
      rw [mapSubWScale_poly]; simp
    have hf' : sparseFirstTerm (mapSubWScale rem b 0) = .term c sd := by
      obtain ⟨_, h2, h3⟩ := sparseFirstTerm_term hf
      exact sparseFirstTerm_of_poly (by rw [hpoly, h2]) (by rw [hpoly, h3])
    have hr' := stepFits_range hs hr
    obtain ⟨i1, i2⟩ := ih (mapSubWScale rem b 0) div hr' hf' (stepFits_zero hr')
    constructor
    · unfold Sparse.divModLoopM
      have ha : div.addTermM (Arith2.machine true t).toArith 0 off = .ok div := rfl
      rw [if_pos hd, hstep, Res.ok_bind, ha, Res.ok_bind, hf']
      dsimp only
      rw [hdiv, Res.ok_bind, i1]
    · unfold Sparse.remLoopM
      rw [if_pos hd, hstep, Res.ok_bind, hf']
      dsimp only
      rw [hdiv, Res.ok_bind, i2]

/-- Subtracting a multiple of a polynomial of lower degree leaves the first term. -/
theorem first_step_low {rem b : BMap Int} {c : Int} {rd sd : Nat} (hb : (entriesPoly b.entries).degree = rd)
    (hd : rd < sd) (s : Int) (h : sparseFirstTerm rem = .term c sd) :
    sparseFirstTerm (mapSubWScale rem b s) = .term c sd := by
  obtain ⟨_, h2, h3⟩ := sparseFirstTerm_term h
  have hlt : (entriesPoly b.entries).degree < (entriesPoly rem.entries).degree := by
    rw [hb, h2]; exact_mod_cast hd
  obtain ⟨h4, h5⟩ := degree_sub_low (s := s) hlt
  exact sparseFirstTerm_of_poly (by rw [mapSubWScale_poly, h4, h2]) (by rw [mapSubWScale_poly, h5, h3])

/-- The quotient of `div_mod` grows by the same amount in every round. -/
theorem growing_divMod {b : BMap Int} {rf c s : Int} {rd sd off : Nat} (hb : (entriesPoly b.entries).degree = rd)
    (hd : rd < sd) (hs : s ≠ 0) (hdiv : (Arith2.machine true t).div c rf = .ok s) (hsr : t.InRange s) :
    ∀ (n fuel : Nat) (v : Int) (rem : BMap Int) (div : Sparse Int), n ≤ fuel → sparseFirstTerm rem = .term c sd →
      t.InRange v → (div.terms.get off).getD 0 = v → ¬ t.InRange (v + n * s) →
      Sparse.divModLoopM (.machine true t) b rf rd off fuel s sd rem div = .panic := by
  intro n
  induction n with
  | zero => intro fuel v rem div _ _ hv _ hn; simp at hn; exact absurd hv hn
  | succ n ih =>
    intro fuel v rem div hf hr hv hdv hn
    obtain ⟨fuel, rfl⟩ : ∃ f, fuel = f + 1 := ⟨fuel - 1, by omega⟩
    unfold Sparse.divModLoopM
    rw [if_pos hd.le]
    by_cases hst : StepFits t rem b s
    · have e1 : mapSubWScaleM (Arith2.machine true t).toArith rem b s = .ok (mapSubWScale rem b s) :=
        (chk_mapSubWScaleM t rem b s).1 hst
      rw [e1, Res.ok_bind]
      have e2 : Chk ((div.terms.get off).elim True (fun x => t.InRange (x + s)))
          (div.addTermM (Arith2.machine true t).toArith s off) ⟨div.terms.upsert off s (· + s)⟩ := by
        unfold Sparse.addTermM
        rw [if_neg hs]
        exact (chk_upsertM (v := .ok s) (w := s) (f := fun x => (Arith.machine true t).add x s) (g := fun x => x + s)
          (Pv := True) (Pf := fun x => t.InRange (x + s)) (Chk.ok _) (fun x => chk_result t _)).map Sparse.mk
      by_cases ha : (div.terms.get off).elim True (fun x => t.InRange (x + s))
      · rw [e2.1 ha, Res.ok_bind, first_step_low hb hd s hr]
        dsimp only
        rw [hdiv, Res.ok_bind]
        refine ih fuel (v + s) _ _ (by omega) (first_step_low hb hd s hr) ?_ ?_ ?_
        · cases hg : div.terms.get off with
          | none => rw [hg] at hdv; simp at hdv; rw [← hdv, zero_add]; exact hsr
          | some x => rw [hg] at hdv ha; simp at hdv; rw [← hdv]; exact ha
        · rw [BMap.get_upsert, if_pos rfl, ← hdv]
          cases div.terms.get off <;> simp
        · have : v + s + n * s = v + ((n + 1 : Nat) : Int) * s := by push_cast; ring
          rwa [this]
      · rw [e2.2 ha]; rfl
    · have e1 : mapSubWScaleM (Arith2.machine true t).toArith rem b s = .panic := (chk_mapSubWScaleM t rem b s).2 hst
      rw [e1]; rfl

/-- The coefficient of the remainder at the degree of the divisor changes by the same amount in every round. -/
theorem growing_rem {b : BMap Int} {rf c s : Int} {rd sd : Nat} (hbf : sparseFirstTerm b = .term rf rd)
    (hd : rd < sd) (hdiv : (Arith2.machine true t).div c rf = .ok s) :
    ∀ (n fuel : Nat) (rem : BMap Int), n ≤ fuel → sparseFirstTerm rem = .term c sd →
      (∀ e ∈ rem.entries, t.InRange e.2) → ¬ t.InRange ((entriesPoly rem.entries).coeff rd + n * -(s * rf)) →
      Sparse.remLoopM (.machine true t) b rf rd fuel s sd rem = .panic := by
  intro n
  obtain ⟨_, hb, hbl⟩ := sparseFirstTerm_term hbf
  have hbc : (entriesPoly b.entries).coeff rd = rf := by
    rw [← hbl, leadingCoeff, natDegree_eq_of_degree_eq_some hb]
  induction n with
  | zero => intro fuel rem _ _ hv hn; simp at hn; exact absurd ((inRange_mapPoly t _).1 hv rd) hn
  | succ n ih =>
    intro fuel rem hf hr hv hn
    obtain ⟨fuel, rfl⟩ : ∃ f, fuel = f + 1 := ⟨fuel - 1, by omega⟩
    unfold Sparse.remLoopM
    rw [if_pos hd.le]
    by_cases hst : StepFits t rem b s
    · have e1 : mapSubWScaleM (Arith2.machine true t).toArith rem b s = .ok (mapSubWScale rem b s) :=
        (chk_mapSubWScaleM t rem b s).1 hst
      rw [e1, Res.ok_bind, first_step_low hb hd s hr]
      dsimp only
      rw [hdiv, Res.ok_bind]
      refine ih fuel _ (by omega) (first_step_low hb hd s hr) (stepFits_range hst hv) ?_
      rw [mapSubWScale_poly, coeff_sub, coeff_C_mul, hbc]
      have : (entriesPoly rem.entries).coeff rd - s * rf + n * -(s * rf)
        = (entriesPoly rem.entries).coeff rd + ((n + 1 : Nat) : Int) * -(s * rf) := by push_cast; ring
      rwa [this]
    · have e1 : mapSubWScaleM (Arith2.machine true t).toArith rem b s = .panic := (chk_mapSubWScaleM t rem b s).2 hst
      rw [e1]; rfl

/-- C77, sparse division with overflow checks, when the divisor `B` is not zero and of no larger degree than the
dividend `P`.  With `s` the quotient of the leading coefficients:
* it panics when `s` overflows (`MIN / -1`) or a value of the first round does;
* of equal degrees, it returns when the leading coefficient of `B` divides that of `P` – unless the leading
  coefficient of the remainder is `MIN` and that of the divisor `-1`, which panics – and otherwise never returns;
* of a larger degree than `B`, it panics after at most `2 ^ bits` rounds when `s` is not zero, and never returns
  when `s` is zero. -/
theorem C77_sparse_division (hbits : 1 ≤ t.bits) (p b : Sparse Int) (hp : ∀ e ∈ p.terms.entries, t.InRange e.2)
    (P B : ℤ[X]) (hP : P = entriesPoly p.terms.entries) (hB : B = entriesPoly b.terms.entries) (hB0 : B ≠ 0)
    (hdeg : B.degree ≤ P.degree) (s : Int) (hs : s = P.leadingCoeff.tdiv B.leadingCoeff) :
    (¬ t.InRange s → ∀ fuel, p.divModM (.machine true t) fuel b = .panic ∧ p.remM (.machine true t) fuel b = .panic) ∧
    (t.InRange s → ¬ StepFits t p.terms b.terms s → ∀ fuel, 1 ≤ fuel →
      p.divModM (.machine true t) fuel b = .panic ∧ p.remM (.machine true t) fuel b = .panic) ∧
    (t.InRange s → StepFits t p.terms b.terms s → B.degree = P.degree →
      (B.leadingCoeff ∣ P.leadingCoeff → t.InRange ((P - C s * B).leadingCoeff.tdiv B.leadingCoeff) → ∀ fuel, 2 ≤ fuel →
        ∃ q r, p.divModM (.machine true t) fuel b = .ok (q, r) ∧ p.remM (.machine true t) fuel b = .ok r ∧
          entriesPoly q.terms.entries = C s ∧ entriesPoly r.terms.entries = P - C s * B) ∧
      (B.leadingCoeff ∣ P.leadingCoeff → ¬ t.InRange ((P - C s * B).leadingCoeff.tdiv B.leadingCoeff) → ∀ fuel, 1 ≤ fuel →
        p.divModM (.machine true t) fuel b = .panic ∧ p.remM (.machine true t) fuel b = .panic) ∧
      (¬ B.leadingCoeff ∣ P.leadingCoeff → ∀ fuel,
        p.divModM (.machine true t) fuel b = .fuel ∧ p.remM (.machine true t) fuel b = .fuel)) ∧
    (B.degree < P.degree →
      (s ≠ 0 → ∀ fuel, 2 ^ t.bits ≤ fuel →
        p.divModM (.machine true t) fuel b = .panic ∧ p.remM (.machine true t) fuel b = .panic) ∧
      (s = 0 → StepFits t p.terms b.terms s → ∀ fuel,
        p.divModM (.machine true t) fuel b = .fuel ∧ p.remM (.machine true t) fuel b = .fuel)) := by
  cases hbf : sparseFirstTerm b.terms with
  | zeroTerm => exact absurd (hB.trans (sparseFirstTerm_zero.1 hbf)) hB0
  | term rf rd =>
  obtain ⟨hrf, hbd, hbl⟩ := sparseFirstTerm_term hbf
  cases hpf : sparseFirstTerm p.terms with
  | zeroTerm =>
    rw [hP, sparseFirstTerm_zero.1 hpf, degree_zero, le_bot_iff, degree_eq_bot] at hdeg
    exact absurd hdeg hB0
  | term c d =>
  obtain ⟨hc, hpd, hpl⟩ := sparseFirstTerm_term hpf
  rw [← hB] at hbd hbl
  rw [← hP] at hpd hpl
  rw [hbl, hpl] at hs
  rw [hbd, hpd, hbl, hpl]
  have hd : rd ≤ d := by rw [hbd, hpd] at hdeg; exact_mod_cast hdeg
  have unf : ∀ fuel, p.divModM (.machine true t) fuel b = ((Arith2.machine true t).div c rf >>= fun scale =>
        Sparse.divModLoopM (.machine true t) b.terms rf rd (d - rd) fuel scale d p.terms (Sparse.fromVec []) >>= fun x =>
          .ok (x.1, Sparse.new x.2)) ∧
      p.remM (.machine true t) fuel b = ((Arith2.machine true t).div c rf >>= fun scale =>
        Sparse.remLoopM (.machine true t) b.terms rf rd fuel scale d p.terms >>= fun r => .ok (Sparse.new r)) := by
    intro fuel
    unfold Sparse.divModM Sparse.remM
    simp only [hbf, hpf, if_neg (not_lt.2 hd)]
    exact ⟨trivial, trivial⟩
  -- with the first quotient in range
  have unf' : t.InRange s → ∀ fuel, p.divModM (.machine true t) fuel b =
        (Sparse.divModLoopM (.machine true t) b.terms rf rd (d - rd) fuel s d p.terms (Sparse.fromVec []) >>= fun x =>
          .ok (x.1, Sparse.new x.2)) ∧
      p.remM (.machine true t) fuel b =
        (Sparse.remLoopM (.machine true t) b.terms rf rd fuel s d p.terms >>= fun r => .ok (Sparse.new r)) := by
    intro h fuel
    obtain ⟨u1, u2⟩ := unf fuel
    rw [machine_div_ok hrf (hs ▸ h), ← hs, Res.ok_bind] at u1 u2
    exact ⟨u1, u2⟩
  have hempty : (Sparse.fromVec ([] : List Int)).terms.get (d - rd) = none := rfl
  have hadd : ∃ div', (Sparse.fromVec []).addTermM (Arith2.machine true t).toArith s (d - rd) = .ok div' ∧
      entriesPoly div'.terms.entries = C s * X ^ (d - rd) := by
    unfold Sparse.addTermM
    by_cases h0 : s = 0
    · exact ⟨_, if_pos h0, by rw [h0]; simp; rfl⟩
    · rw [if_neg h0]
      unfold BMap.upsertM
      rw [hempty]
      refine ⟨_, rfl, ?_⟩
      rw [mapPoly_insert_fresh _ _ _ hempty]
      exact (zero_add _)
  obtain ⟨div', hdiv', hdivp⟩ := hadd
  have hm : entriesPoly (mapSubWScale p.terms b.terms s).entries = P - C s * B := by
    rw [mapSubWScale_poly, ← hP, ← hB]
  have hokstep : StepFits t p.terms b.terms s → mapSubWScaleM (Arith2.machine true t).toArith p.terms b.terms s
      = .ok (mapSubWScale p.terms b.terms s) := fun h => (chk_mapSubWScaleM t _ _ s).1 h
  have hcancel : rd = d → rf ∣ c → (P - C s * B).degree < rd := by
    intro e hdvd
    have hsr : s * rf = c := by rw [hs]; exact Int.tdiv_mul_cancel hdvd
    have hs0 : s ≠ 0 := by rintro rfl; exact hc (by rw [← hsr, zero_mul])
    have := degree_sub_lt_left (p := P) (q := C s * B) (by rw [degree_C_mul hs0, hpd, hbd, e])
      (by rintro rfl; simp at hpd) (by rw [leadingCoeff_mul, leadingCoeff_C, hbl, hpl, hsr])
    rw [hpd] at this
    rw [e]; exact this
  refine ⟨fun h fuel => ?_, fun h hst fuel hf => ?_, fun h hst heq => ⟨fun hdvd hlast fuel hf => ?_,
    fun hdvd hlast fuel hf => ?_, fun hdvd fuel => ?_⟩, fun hlt => ⟨fun hs0 fuel hf => ?_, fun hs0 hst fuel => ?_⟩⟩
  · obtain ⟨u1, u2⟩ := unf fuel
    rw [machine_div_panic (hs ▸ h)] at u1 u2
    exact ⟨u1, u2⟩
  · obtain ⟨u1, u2⟩ := unf' h fuel
    obtain ⟨fuel, rfl⟩ : ∃ f, fuel = f + 1 := ⟨fuel - 1, by omega⟩
    have e1 : mapSubWScaleM (Arith2.machine true t).toArith p.terms b.terms s = .panic :=
      (chk_mapSubWScaleM t _ _ s).2 hst
    unfold Sparse.divModLoopM at u1
    unfold Sparse.remLoopM at u2
    rw [if_pos hd, e1] at u1 u2
    exact ⟨u1, u2⟩
  · have heq' : rd = d := by exact_mod_cast heq
    obtain ⟨u1, u2⟩ := unf' h fuel
    obtain ⟨fuel, rfl⟩ : ∃ f, fuel = f + 2 := ⟨fuel - 2, by omega⟩
    unfold Sparse.divModLoopM at u1
    unfold Sparse.remLoopM at u2
    rw [if_pos hd, hokstep hst, Res.ok_bind] at u1 u2
    rw [hdiv', Res.ok_bind] at u1
    have hq : entriesPoly div'.terms.entries = C s := by rw [hdivp, heq']; simp
    refine ⟨div', Sparse.new (mapSubWScale p.terms b.terms s), ?_, ?_, hq, hm⟩ <;>
    · cases hf' : sparseFirstTerm (mapSubWScale p.terms b.terms s) with
      | zeroTerm =>
        rw [hf'] at u1 u2
        assumption
      | term c' d' =>
        obtain ⟨_, h2, h3⟩ := sparseFirstTerm_term hf'
        rw [hm] at h2 h3
        have hlt : ¬ d' ≥ rd := by
          have := hcancel heq' hdvd
          rw [h2] at this; exact not_le.2 (by exact_mod_cast this)
        rw [hf'] at u1 u2
        dsimp only at u1 u2
        rw [machine_div_ok hrf (h3 ▸ hlast), Res.ok_bind] at u1 u2
        unfold Sparse.divModLoopM at u1
        unfold Sparse.remLoopM at u2
        rw [if_neg hlt] at u1 u2
        assumption
  · have heq' : rd = d := by exact_mod_cast heq
    obtain ⟨u1, u2⟩ := unf' h fuel
    obtain ⟨fuel, rfl⟩ : ∃ f, fuel = f + 1 := ⟨fuel - 1, by omega⟩
    unfold Sparse.divModLoopM at u1
    unfold Sparse.remLoopM at u2
    rw [if_pos hd, hokstep hst, Res.ok_bind] at u1 u2
    rw [hdiv', Res.ok_bind] at u1
    cases hf' : sparseFirstTerm (mapSubWScale p.terms b.terms s) with
    | zeroTerm =>
      have := sparseFirstTerm_zero.1 hf'
      rw [hm] at this
      rw [this] at hlast
      exact absurd (by simpa using t.zero_inRange) hlast
    | term c' d' =>
      obtain ⟨_, _, h3⟩ := sparseFirstTerm_term hf'
      rw [hm] at h3
      rw [hf'] at u1 u2
      dsimp only at u1 u2
      rw [machine_div_panic (h3 ▸ hlast)] at u1 u2
      exact ⟨u1, u2⟩
  · have heq' : rd = d := by exact_mod_cast heq
    have hmod : c - s * rf = c.tmod rf := by
      have := Int.mul_tdiv_add_tmod c rf
      rw [← hs] at this; linarith
    have hne : c - s * rf ≠ 0 := by
      intro h0
      exact hdvd ⟨s, by linarith⟩
    have habs : (c - s * rf).natAbs < rf.natAbs := by
      rw [hmod, Int.natAbs_tmod]; exact Nat.mod_lt _ (Int.natAbs_pos.2 hrf)
    have hco : (P - C s * B).coeff d = c - s * rf := by
      rw [coeff_sub, coeff_C_mul, ← hpl, ← hbl, leadingCoeff, leadingCoeff, natDegree_eq_of_degree_eq_some hpd,
        natDegree_eq_of_degree_eq_some hbd, heq']
    have hle : (P - C s * B).degree ≤ d := by
      refine (degree_sub_le _ _).trans (max_le hpd.le ?_)
      refine (degree_mul_le _ _).trans ?_
      rw [hbd, ← heq']
      exact add_le_of_nonpos_left degree_C_le
    have hdg : (P - C s * B).degree = d := le_antisymm hle (le_degree_of_ne_zero (hco ▸ hne))
    have hfirst : sparseFirstTerm (mapSubWScale p.terms b.terms s) = .term (c - s * rf) d :=
      sparseFirstTerm_of_poly (by rw [hm, hdg]) (by rw [hm, leadingCoeff, natDegree_eq_of_degree_eq_some hdg, hco])
    have hz := (tdiv_eq_zero_iff hrf).2 habs
    obtain ⟨u1, u2⟩ := unf' h fuel
    cases fuel with
    | zero => exact ⟨u1, u2⟩
    | succ fuel =>
      have hr' := stepFits_range hst hp
      obtain ⟨i1, i2⟩ := stuck_loops (off := d - rd) hrf hd habs fuel (mapSubWScale p.terms b.terms s) div' hr' hfirst
        (stepFits_zero hr')
      unfold Sparse.divModLoopM at u1
      unfold Sparse.remLoopM at u2
      rw [if_pos hd, hokstep hst, Res.ok_bind] at u1 u2
      rw [hdiv', Res.ok_bind, hfirst] at u1
      rw [hfirst] at u2
      dsimp only at u1 u2
      rw [machine_div_ok hrf (by rw [hz]; exact t.zero_inRange), hz, Res.ok_bind] at u1 u2
      rw [i1] at u1
      rw [i2] at u2
      exact ⟨u1, u2⟩
  · by_cases h : t.InRange s
    · obtain ⟨u1, u2⟩ := unf' h fuel
      have hlt' : rd < d := by exact_mod_cast hlt
      have hdv : (Arith2.machine true t).div c rf = .ok s := by rw [machine_div_ok hrf (hs ▸ h), ← hs]
      rw [growing_divMod (hB ▸ hbd) hlt' hs0 hdv h (2 ^ t.bits) fuel 0 p.terms (Sparse.fromVec []) hf hpf t.zero_inRange
        (by rw [hempty]; rfl) (progression_out_of_range t hbits t.zero_inRange hs0)] at u1
      rw [growing_rem hbf hlt' hdv (2 ^ t.bits) fuel p.terms hf hpf hp
        (progression_out_of_range t hbits ((inRange_mapPoly t _).1 hp rd) (neg_ne_zero.2 (mul_ne_zero hs0 hrf)))] at u2
      exact ⟨u1, u2⟩
    · obtain ⟨u1, u2⟩ := unf fuel
      rw [machine_div_panic (hs ▸ h)] at u1 u2
      exact ⟨u1, u2⟩
  · obtain ⟨u1, u2⟩ := unf' (by rw [hs0]; exact t.zero_inRange) fuel
    have habs : c.natAbs < rf.natAbs := (tdiv_eq_zero_iff hrf).1 (hs ▸ hs0)
    rw [hs0] at hst u1 u2
    obtain ⟨i1, i2⟩ := stuck_loops (off := d - rd) hrf hd habs fuel p.terms (Sparse.fromVec []) hp hpf hst
    rw [i1] at u1
    rw [i2] at u2
    exact ⟨u1, u2⟩

/-! ## `%` of dense polynomials -/

theorem vecSubWScaleM_eq (A : Arith) {rem b : List Int} {sd rd : Nat} (s : Int)
    (h1 : sd + 1 ≤ rem.length) (h2 : rd + 1 ≤ b.length) :
    vecSubWScaleM A rem sd b rd s = (zipMutM (fun l r => A.mul r s >>= fun x => A.sub l x)
      (rem.drop (rem.length - sd - 1)) (b.drop (b.length - rd - 1)) >>= fun tail =>
        .ok (rem.take (rem.length - sd - 1) ++ tail)) := by
  have e1 : sd ≤ rem.length := by omega
  have e2 : 1 ≤ rem.length - sd := by omega
  have e3 : rem.length - sd - 1 ≤ rem.length := by omega
  have e4 : rd ≤ b.length := by omega
  have e5 : 1 ≤ b.length - rd := by omega
  have e6 : b.length - rd - 1 ≤ b.length := by omega
  simp [vecSubWScaleM, usub, sliceFrom, e1, e2, e3, e4, e5, e6]

theorem zipMutM_outcome {f : Int → Int → Res Int} (hf : ∀ x y, f x y ≠ .fuel) : ∀ xs ys : List Int,
    zipMutM f xs ys = .panic ∨ ∃ zs, zipMutM f xs ys = .ok zs ∧ zs.length = xs.length
  | [], _ => .inr ⟨[], rfl, rfl⟩
  | x :: xs, [] => .inr ⟨_, rfl, rfl⟩
  | x :: xs, y :: ys => by
    unfold zipMutM
    cases h : f x y with
    | fuel => exact absurd h (hf x y)
    | panic => exact .inl rfl
    | ok z =>
      rw [Res.ok_bind]
      rcases zipMutM_outcome hf xs ys with h' | ⟨zs, h', hl⟩
      · rw [h']; exact .inl rfl
      · rw [h', Res.ok_bind]; exact .inr ⟨_, rfl, by simp [hl]⟩

theorem zipMutM_id {f : Int → Int → Res Int} : ∀ xs ys : List Int, (∀ x ∈ xs, ∀ y, f x y = .ok x) →
    zipMutM f xs ys = .ok xs
  | [], _, _ => rfl
  | x :: xs, [], _ => rfl
  | x :: xs, y :: ys, h => by
    unfold zipMutM
    rw [h x (by simp), Res.ok_bind, zipMutM_id xs ys (fun a ha => h a (by simp [ha])), Res.ok_bind]

theorem checked_ne_fuel (t : IntTy) (v : Int) : t.checked v ≠ .fuel := by
  unfold IntTy.checked; split <;> simp

theorem step_ne_fuel (t : IntTy) (s x y : Int) :
    ((Arith.machine true t).mul y s >>= fun v => (Arith.machine true t).sub x v) ≠ .fuel := by
  show (t.checked (y * s) >>= fun v => t.checked (x - v)) ≠ .fuel
  cases h : t.checked (y * s) with
  | fuel => exact absurd h (checked_ne_fuel t _)
  | panic => intro h; cases h
  | ok v => rw [Res.ok_bind]; exact checked_ne_fuel t _

/-- With a quotient term that is not zero, `%` runs into an overflow. -/
theorem growing_dense_rem {p b : List Int} {rf c s : Int} {rd d : Nat} (hbf : firstTerm b = .term rf rd)
    (hpf : firstTerm p = .term c d) (hd : rd ≤ d) (hdiv : (Arith2.machine true t).div c rf = .ok s) :
    ∀ (n fuel : Nat) (x : Int) (rem : List Int), n ≤ fuel → d + 1 ≤ rem.length →
      rem[rem.length - d - 1]? = some x → t.InRange x → ¬ t.InRange (x + n * -(rf * s)) →
      Poly.remLoopM (.machine true t) p b rf rd fuel s d rem = .panic := by
  obtain ⟨ws, _, _, hbl, hbw, _⟩ := firstTerm_term hbf
  intro n
  induction n with
  | zero => intro fuel x rem _ _ _ hx hn; simp at hn; exact absurd hx hn
  | succ n ih =>
    intro fuel x rem hf hl hx hr hn
    obtain ⟨fuel, rfl⟩ : ∃ f, fuel = f + 1 := ⟨fuel - 1, by omega⟩
    unfold Poly.remLoopM
    rw [if_pos hd, vecSubWScaleM_eq _ s hl hbl, hbw]
    obtain ⟨hlt, hx'⟩ := List.getElem?_eq_some_iff.1 hx
    rw [List.drop_eq_getElem_cons hlt, hx']
    unfold zipMutM
    have hstep : ((Arith.machine true t).mul rf s >>= fun v => (Arith.machine true t).sub x v) = .panic ∨
        (((Arith.machine true t).mul rf s >>= fun v => (Arith.machine true t).sub x v) = .ok (x - rf * s) ∧
          t.InRange (x - rf * s)) := by
      have hc : Chk (t.InRange (rf * s) ∧ t.InRange (x - rf * s))
          ((Arith.machine true t).mul rf s >>= fun v => (Arith.machine true t).sub x v) (x - rf * s) :=
        (chk_result t (rf * s)).bind (fun _ => chk_result t (x - rf * s))
      by_cases h : t.InRange (rf * s) ∧ t.InRange (x - rf * s)
      · exact .inr ⟨hc.1 h, h.2⟩
      · exact .inl (hc.2 h)
    rcases hstep with h | ⟨h, hr'⟩
    · have h' : ((Arith2.machine true t).mul rf s >>= fun v => (Arith2.machine true t).sub x v) = .panic := h
      rw [h']; rfl
    · have h' : ((Arith2.machine true t).mul rf s >>= fun v => (Arith2.machine true t).sub x v) = .ok (x - rf * s) := h
      rw [h', Res.ok_bind]
      rcases zipMutM_outcome (step_ne_fuel t s) (rem.drop (rem.length - d - 1 + 1)) ws with h | ⟨zs, h, hzl⟩
      · have h' : zipMutM (fun l r => (Arith2.machine true t).mul r s >>= fun v => (Arith2.machine true t).sub l v)
          (rem.drop (rem.length - d - 1 + 1)) ws = .panic := h
        rw [h']; rfl
      · have h' : zipMutM (fun l r => (Arith2.machine true t).mul r s >>= fun v => (Arith2.machine true t).sub l v)
          (rem.drop (rem.length - d - 1 + 1)) ws = .ok zs := h
        rw [h']
        simp only [Res.ok_bind, hpf]
        rw [hdiv, Res.ok_bind]
        have hlen : (rem.take (rem.length - d - 1) ++ (x - rf * s) :: zs).length = rem.length := by
          simp [hzl]; omega
        refine ih fuel (x - rf * s) _ (by omega) (by omega) ?_ hr' ?_
        · rw [hlen, List.getElem?_append_right (by simp), List.length_take, min_eq_left hlt.le, Nat.sub_self]
          rfl
        · have : x - rf * s + n * -(rf * s) = x + ((n + 1 : Nat) : Int) * -(rf * s) := by push_cast; ring
          rwa [this]

/-- C77, `Polynomial % Polynomial` when the divisor `B` is not zero and of no larger degree than the dividend `P`.
With `s` the quotient of the leading coefficients: in a build with overflow checks it panics at once when `s`
overflows (`MIN / -1`), after at most `2 ^ bits` rounds when `s` is not zero, and never returns when `s` is zero;
in a build without overflow checks it panics when `s` overflows and otherwise never returns. -/
theorem C77_dense_rem (hbits : 1 ≤ t.bits) (p b : Poly Int) (hp : ∀ x ∈ p.terms, t.InRange x)
    (P B : ℤ[X]) (hP : P = descPoly p.terms) (hB : B = descPoly b.terms) (hB0 : B ≠ 0)
    (hdeg : B.degree ≤ P.degree) (s : Int) (hs : s = P.leadingCoeff.tdiv B.leadingCoeff) :
    (¬ t.InRange s → ∀ chk fuel, p.remM (.machine chk t) fuel b = .panic) ∧
    (s ≠ 0 → ∀ fuel, 2 ^ t.bits ≤ fuel → p.remM (.machine true t) fuel b = .panic) ∧
    (s = 0 → ∀ fuel, p.remM (.machine true t) fuel b = .fuel) ∧
    (t.InRange s → ∀ fuel, p.remM (.machine false t) fuel b = .fuel) := by
  cases hbf : firstTerm b.terms with
  | zeroTerm => exact absurd (hB.trans (firstTerm_zero_poly.1 hbf)) hB0
  | term rf rd =>
  obtain ⟨hrf, hbd, hbl⟩ := firstTerm_poly hbf
  cases hpf : firstTerm p.terms with
  | zeroTerm =>
    rw [hP, firstTerm_zero_poly.1 hpf, degree_zero, le_bot_iff, degree_eq_bot] at hdeg
    exact absurd hdeg hB0
  | term c d =>
  obtain ⟨hc, hpd, hpl⟩ := firstTerm_poly hpf
  rw [← hB] at hbd hbl
  rw [← hP] at hpd hpl
  rw [hbl, hpl] at hs
  have hd : rd ≤ d := by rw [hbd, hpd] at hdeg; exact_mod_cast hdeg
  obtain ⟨vs, _, _, hpl', hpv, _⟩ := firstTerm_term hpf
  obtain ⟨ws, _, _, hbl', hbw, _⟩ := firstTerm_term hbf
  have unf : ∀ chk fuel, p.remM (.machine chk t) fuel b = ((Arith2.machine chk t).div c rf >>= fun scale =>
        Poly.remLoopM (.machine chk t) p.terms b.terms rf rd fuel scale d p.terms >>= fun r => .ok (Poly.new r)) := by
    intro chk fuel
    unfold Poly.remM
    simp only [hbf, hpf, if_neg (not_lt.2 hd)]
  have h1 : ¬ t.InRange s → ∀ chk fuel, p.remM (.machine chk t) fuel b = .panic := by
    intro h chk fuel
    rw [unf, machine_div_panic (hs ▸ h)]; rfl
  refine ⟨h1, fun h0 fuel hf => ?_, fun h0 fuel => ?_, fun h fuel => ?_⟩
  · by_cases h : t.InRange s
    · have hdv : (Arith2.machine true t).div c rf = .ok s := by rw [machine_div_ok hrf (hs ▸ h), ← hs]
      have hx : p.terms[p.terms.length - d - 1]? = some c := by
        have := congrArg (fun l => l[0]?) hpv
        simpa using this
      rw [unf, hdv, Res.ok_bind, growing_dense_rem hbf hpf hd hdv (2 ^ t.bits) fuel c p.terms hf hpl' hx
        (hp c (List.mem_of_getElem? hx))
        (progression_out_of_range t hbits (hp c (List.mem_of_getElem? hx)) (neg_ne_zero.2 (mul_ne_zero hrf h0)))]
      rfl
    · exact h1 h true fuel
  · have hdv : (Arith2.machine true t).div c rf = .ok 0 := by
      rw [machine_div_ok hrf (by rw [← hs, h0]; exact t.zero_inRange), ← hs, h0]
    rw [unf, hdv, Res.ok_bind]
    have : Poly.remLoopM (.machine true t) p.terms b.terms rf rd fuel 0 d p.terms = .fuel := by
      induction fuel with
      | zero => rfl
      | succ fuel ih =>
        unfold Poly.remLoopM
        rw [if_pos hd, vecSubWScaleM_eq _ 0 hpl' hbl', zipMutM_id, Res.ok_bind, Res.ok_bind, List.take_append_drop, hpf]
        · dsimp only
          rw [hdv, Res.ok_bind, ih]
        · intro x hx y
          have hr := hp x (List.mem_of_mem_drop hx)
          show (t.checked (y * 0) >>= fun v => t.checked (x - v)) = .ok x
          rw [mul_zero, IntTy.checked, if_pos t.zero_inRange, Res.ok_bind, sub_zero, IntTy.checked, if_pos hr]
    rw [this]; rfl
  · have hdv : (Arith2.machine false t).div c rf = .ok s := by rw [machine_div_ok hrf (hs ▸ h), ← hs]
    rw [unf, hdv, Res.ok_bind]
    suffices ∀ (fuel : Nat) (rem : List Int), rem.length = p.terms.length →
        Poly.remLoopM (.machine false t) p.terms b.terms rf rd fuel s d rem = .fuel by
      rw [this fuel _ rfl]; rfl
    intro fuel
    induction fuel with
    | zero => intros; rfl
    | succ fuel ih =>
      intro rem hlen
      unfold Poly.remLoopM
      obtain ⟨zs, hz, hzl⟩ : ∃ zs, zipMutM (fun l r => (Arith2.machine false t).mul r s >>= fun v =>
          (Arith2.machine false t).sub l v) (rem.drop (rem.length - d - 1)) (b.terms.drop (b.terms.length - rd - 1)) = .ok zs ∧
          zs.length = (rem.drop (rem.length - d - 1)).length := by
        have : ∀ xs ys : List Int, ∃ zs, zipMutM (fun l r => (Arith2.machine false t).mul r s >>= fun v =>
          (Arith2.machine false t).sub l v) xs ys = .ok zs ∧ zs.length = xs.length := by
          intro xs
          induction xs with
          | nil => intro ys; exact ⟨[], rfl, rfl⟩
          | cons x xs ih =>
            intro ys
            cases ys with
            | nil => exact ⟨_, rfl, rfl⟩
            | cons y ys =>
              obtain ⟨zs, e, l⟩ := ih ys
              exact ⟨t.wrap (x - t.wrap (y * s)) :: zs, by unfold zipMutM; rw [e]; rfl, by simp [l]⟩
        exact this _ _
      rw [if_pos hd, vecSubWScaleM_eq _ s (by omega) hbl', hz, Res.ok_bind, Res.ok_bind, hpf]
      dsimp only
      rw [hdv, Res.ok_bind]
      refine ih _ ?_
      simp [hzl]; omega

end
-- `i8`: a quotient; `MIN / -1`; a remainder whose leading coefficient is `MIN`; a never-ending loop; overflow after
-- some rounds.
example : ((Sparse.fromVec [6, 5]).divModM (.machine true ⟨true, 8⟩) 2 (Sparse.fromVec [3, 1])).bind
      (fun r => .ok (r.1.terms.entries, r.2.terms.entries)) = .ok ([(0, 2)], [(0, 3), (1, 0)]) ∧
    ((Sparse.fromVec [-128, 5]).divModM (.machine true ⟨true, 8⟩) 0 (Sparse.fromVec [-1, 1])).bind
      (fun r => .ok r.1.terms.entries) = .panic ∧
    ((Sparse.fromVec [1, -127]).divModM (.machine true ⟨true, 8⟩) 1 (Sparse.fromVec [-1, -1])).bind
      (fun r => .ok r.1.terms.entries) = .panic ∧
    ((Sparse.fromVec [5, 5]).divModM (.machine true ⟨true, 8⟩) 100 (Sparse.fromVec [3, 1])).bind
      (fun r => .ok r.1.terms.entries) = .fuel := by
  decide +kernel
example : ((Sparse.fromVec [6, 0, 5]).divModM (.machine true ⟨true, 8⟩) 256 (Sparse.fromVec [3, 1])).bind
      (fun r => .ok r.1.terms.entries) = .panic ∧
    ((Sparse.fromVec [6, 0, 5]).remM (.machine true ⟨true, 8⟩) 20 (Sparse.fromVec [3, 1])).bind
      (fun r => .ok r.terms.entries) = .fuel ∧
    ((Sparse.fromVec [6, 0, 5]).remM (.machine true ⟨true, 8⟩) 22 (Sparse.fromVec [3, 1])).bind
      (fun r => .ok r.terms.entries) = .panic ∧
    ((Sparse.fromVec [2, 0, 5]).remM (.machine true ⟨true, 8⟩) 100 (Sparse.fromVec [3, 1])).bind
      (fun r => .ok r.terms.entries) = .fuel := by
  decide +kernel

example : (⟨[5, 0, 1]⟩ : Poly Int).remM (.machine true ⟨true, 8⟩) 100 ⟨[2, 1]⟩ = .panic ∧
    (⟨[1, 0, 1]⟩ : Poly Int).remM (.machine true ⟨true, 8⟩) 100 ⟨[2, 1]⟩ = .fuel ∧
    (⟨[5, 0, 1]⟩ : Poly Int).remM (.machine false ⟨true, 8⟩) 100 ⟨[2, 1]⟩ = .fuel ∧
    (⟨[-128, 0, 1]⟩ : Poly Int).remM (.machine false ⟨true, 8⟩) 100 ⟨[-1, 1]⟩ = .panic := by
  decide +kernel

end Rustnomial
