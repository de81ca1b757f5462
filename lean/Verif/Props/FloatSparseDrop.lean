import Verif.Props.FloatDivDrop
import Verif.Props.FloatSparse
import Verif.Props.Repaired

/-!
# C140: division of sparse polynomials with floating point coefficients, with the leading term dropped in each round
-/

set_option linter.unusedSectionVars false

open Polynomial

namespace Rustnomial

theorem get_retain_lt {N : Type} (m : BMap N) (d k : Nat) :
    (m.retain fun j _ => decide (j < d)).get k = if k < d then m.get k else none := by
  have hmem : ∀ v, (m.retain fun j _ => decide (j < d)).get k = some v ↔ m.get k = some v ∧ k < d := by
    intro v
    rw [← BMap.mem_entries, ← BMap.mem_entries, BMap.retain, List.mem_filter]
    simp
  split
  · rename_i h
    cases hg : m.get k with
    | none =>
      cases hr : (m.retain fun j _ => decide (j < d)).get k with
      | none => rfl
      | some v => rw [((hmem v).1 hr).1] at hg; cases hg
    | some v => exact (hmem v).2 ⟨hg, h⟩
  · rename_i h
    cases hr : (m.retain fun j _ => decide (j < d)).get k with
    | none => rfl
    | some v => exact absurd ((hmem v).1 hr).2 h

theorem get_mapSubWScaleRepaired {N : Type} [Neg N] [Sub N] [Mul N] (m b : BMap N) (s : N) (d k : Nat) :
    (mapSubWScaleRepaired m b s d).get k =
      match (if d ≤ k then b.get (k - d) else none) with
      | none => m.get k
      | some c => some (match m.get k with | none => -c * s | some x => x - c * s) := by
  have hl : ((b.entries.map fun e => (d + e.1, e.2)).map Prod.fst).Nodup := by
    rw [List.map_map]
    refine List.pairwise_map.2 (b.sorted.imp ?_)
    intro a b h e
    simp only [Function.comp] at e
    omega
  have := BMap.get_foldl_upsert (fun c => -c * s) (fun x c => x - c * s) _ hl m k
  rw [List.foldl_map, Fl.getList_shift] at this
  unfold mapSubWScaleRepaired
  simp only [Nat.add_comm _ d]
  exact this

namespace Fl

variable {f : FlFmt}

/-- A term added at a degree not stored. -/
theorem get_addTerm_none (p : Sparse (Fl f)) (s : Fl f) (j k : Nat) (h : p.terms.get j = none) :
    (p.addTerm s j).terms.get k = if k = j ∧ isZero s = false then some s else p.terms.get k := by
  unfold Sparse.addTerm
  by_cases hz : isZero s = true
  · simp [hz]
  · have hz' : isZero s = false := by simpa using hz
    simp only [hz', Bool.false_eq_true, if_false, and_true]
    rw [BMap.get_upsert]
    by_cases hk : k = j
    · subst hk; simp [h]
    · simp [hk]

theorem addTerm_poly (p : Sparse (Fl f)) (s : Fl f) (j : Nat) (h : p.terms.get j = none) :
    (p.addTerm s j).ratPoly = p.ratPoly + C s.toRat * X ^ j ∧
    (p.addTerm s j).absPoly = p.absPoly + C |s.toRat| * X ^ j := by
  have hz : isZero s = true → s.toRat = 0 := by
    intro h; obtain ⟨t, rfl⟩ := isZero_iff.1 h; exact toRat_fin_zero t
  constructor <;> ext k
  · rw [coeff_add, coeff_rat, coeff_rat, get_addTerm_none p s j k h, coeff_C_mul, coeff_X_pow]
    by_cases hk : k = j
    · subst hk
      cases hs : isZero s
      · simp [h]
      · simp [h, hz hs]
    · simp [hk]
  · rw [coeff_add, coeff_abs, coeff_abs, get_addTerm_none p s j k h, coeff_C_mul, coeff_X_pow]
    by_cases hk : k = j
    · subst hk
      cases hs : isZero s
      · simp [h]
      · simp [h, hz hs]
    · simp [hk]

theorem BndM_zero {M : ℚ} (hM : 1 ≤ M) (n : Nat) : BndM (f := f) M n (0, 0, 0) :=
  (mulInv_BndM hM).mono (Nat.zero_le n) _ (mulInv_BndM hM).zero

/-- A coefficient that is zero or not stored may be replaced by zero. -/
theorem BndM_of_zero {M : ℚ} (hM : 1 ≤ M) {n : Nat} {x : Option (Fl f)} {s a : ℚ} (h : StB (BndM M) n x s a)
    (hz : ∀ c, x = some c → isZero c = true) : BndM (f := f) M n (0, s, a) := by
  cases x with
  | none => obtain ⟨rfl, rfl⟩ := h; exact BndM_zero hM n
  | some x =>
    obtain ⟨t, rfl⟩ := isZero_iff.1 (hz x rfl)
    refine ⟨h.1, fun _ => ?_⟩
    have := h.2 rfl
    simp only [toRat_fin_zero] at this
    simpa only [toRat_zero] using this

theorem BndM_getD {M : ℚ} (hM : 1 ≤ M) {n : Nat} {x : Option (Fl f)} {s a : ℚ} (h : StB (BndM M) n x s a) :
    BndM (f := f) M n (x.getD 0, s, a) := by
  cases x with
  | none => obtain ⟨rfl, rfl⟩ := h; exact BndM_zero hM n
  | some x => exact h

/-- The repaired loop always returns. -/
theorem sparse_drop_loop {b : Sparse (Fl f)} {rf : Fl f} {rd : Nat} (hb : sparseFirstTerm b.terms = .term rf rd) {M : ℚ}
    (hM : 1 ≤ M) (P A : ℚ[X]) : ∀ (sd : Nat) (c : Fl f) (m : BMap (Fl f)) (dv : Sparse (Fl f)) (n : Nat),
    sparseFirstTerm m = .term c sd → rd ≤ sd → (∀ k, k ≤ sd - rd → dv.terms.get k = none) →
    ∃ (dv' : Sparse (Fl f)) (m' : BMap (Fl f)),
      (∀ fuel, sd - rd + 2 ≤ fuel → Sparse.divModLoopDrop b.terms rf rd fuel (div c rf) sd m dv = .ok (dv', m')) ∧
      (∀ c' d', sparseFirstTerm m' = .term c' d' → d' < rd) ∧
      (∀ k, sd - rd < k → dv'.terms.get k = dv.terms.get k) ∧
      (rf.isFinite = true → |rf.toRat| ≤ M → dv'.AllFinite →
        (∀ k, (k ≤ sd → StB (BndM M) n (m.get k) ((P - dv.ratPoly * b.ratPoly).coeff k) ((A + dv.absPoly * b.absPoly).coeff k)) ∧
          (sd < k → BndM (f := f) M n (0, (P - dv.ratPoly * b.ratPoly).coeff k, (A + dv.absPoly * b.absPoly).coeff k))) →
        ∀ k, BndM M (n + (sd - rd + 1)) ((m'.get k).getD 0, (P - dv'.ratPoly * b.ratPoly).coeff k,
          (A + dv'.absPoly * b.absPoly).coeff k)) := by
  obtain ⟨hb1, hb2, hb3⟩ : b.terms.get rd = some rf ∧ isZero rf = false ∧
      ∀ j c', rd < j → b.terms.get j = some c' → isZero c' = true := by
    rcases firstTerm_last b.terms with ⟨h1, _⟩ | ⟨k, c, h1, h2, h3, h4, h5⟩
    · rw [h1] at hb; cases hb
    · rw [h1] at hb; cases hb; exact ⟨h3, h4, h5⟩
  intro sd
  induction sd using Nat.strong_induction_on with
  | _ sd ih =>
    intro c m dv n hr hle hdv
    obtain ⟨hm1, hm2, hm3⟩ : m.get sd = some c ∧ isZero c = false ∧ ∀ j c', sd < j → m.get j = some c' → isZero c' = true := by
      rcases firstTerm_last m with ⟨h1, _⟩ | ⟨k, c, h1, h2, h3, h4, h5⟩
      · rw [h1] at hr; cases hr
      · rw [h1] at hr; cases hr; exact ⟨h3, h4, h5⟩
    set s := div c rf with hs
    set sh := sd - rd with hsh
    obtain ⟨m1, hm1d⟩ : ∃ m1, m1 = (mapSubWScaleRepaired m b.terms s sh).retain fun j _ => decide (j < sd) := ⟨_, rfl⟩
    have hget : ∀ k, m1.get k = if k < sd then (mapSubWScaleRepaired m b.terms s sh).get k else none := by
      intro k; rw [hm1d, get_retain_lt]
    obtain ⟨dv1, hdv1⟩ : ∃ dv1, dv1 = dv.addTerm s sh := ⟨_, rfl⟩
    have hdvget : ∀ k, dv1.terms.get k = if k = sh ∧ isZero s = false then some s else dv.terms.get k := by
      intro k; rw [hdv1]; exact get_addTerm_none dv s sh k (hdv sh le_rfl)
    obtain ⟨hp1, hp2⟩ : dv1.ratPoly = dv.ratPoly + C s.toRat * X ^ sh ∧ dv1.absPoly = dv.absPoly + C |s.toRat| * X ^ sh := by
      rw [hdv1]; exact addTerm_poly dv s sh (hdv sh le_rfl)
    have hS : ∀ k, (P - dv1.ratPoly * b.ratPoly).coeff k =
        (P - dv.ratPoly * b.ratPoly).coeff k - if sh ≤ k then s.toRat * b.ratPoly.coeff (k - sh) else 0 := by
      intro k
      rw [hp1, ← coeff_C_mul_X_pow_mul, ← coeff_sub]
      congr 1; ring
    have hA : ∀ k, (A + dv1.absPoly * b.absPoly).coeff k =
        (A + dv.absPoly * b.absPoly).coeff k + if sh ≤ k then |s.toRat| * b.absPoly.coeff (k - sh) else 0 := by
      intro k
      rw [hp2, ← coeff_C_mul_X_pow_mul, ← coeff_add]
      congr 1; ring
    -- the state after the round
    have hstate : rf.isFinite = true → |rf.toRat| ≤ M → s.isFinite = true →
        (∀ k, (k ≤ sd → StB (BndM M) n (m.get k) ((P - dv.ratPoly * b.ratPoly).coeff k) ((A + dv.absPoly * b.absPoly).coeff k)) ∧
          (sd < k → BndM (f := f) M n (0, (P - dv.ratPoly * b.ratPoly).coeff k, (A + dv.absPoly * b.absPoly).coeff k))) →
        ∀ k, (k < sd → StB (BndM M) (n + 1) (m1.get k) ((P - dv1.ratPoly * b.ratPoly).coeff k)
            ((A + dv1.absPoly * b.absPoly).coeff k)) ∧
          (sd ≤ k → BndM (f := f) M (n + 1) (0, (P - dv1.ratPoly * b.ratPoly).coeff k, (A + dv1.absPoly * b.absPoly).coeff k)) := by
      intro h1 h2 h3 h4 k
      rw [hS, hA]
      constructor
      · intro hk
        rw [hget, if_pos hk, get_mapSubWScaleRepaired]
        have hj := (h4 k).1 hk.le
        by_cases hd : sh ≤ k
        · simp only [if_pos hd]
          rw [coeff_rat b, coeff_abs b]
          cases hc : b.terms.get (k - sh) with
          | none => simpa using StB_mono (mulInv_BndM hM) hj
          | some y =>
            simp only
            cases hx : m.get k with
            | none =>
              rw [hx] at hj
              rw [hj.1, hj.2]
              have := (mulInv_BndM hM).first (c := n) (-y) s trivial trivial
              simp only [toRat_neg, abs_neg] at this
              simp only [StB]
              convert this using 3 <;> ring
            | some x =>
              rw [hx] at hj
              have := (mulInv_BndM hM).step (x, _, _) hj (-y) s trivial trivial
              simp only [toRat_neg, abs_neg] at this
              simp only [StB]
              convert this using 3
              · rw [sub_def, neg_mul']
              · ring
              · ring
        · simp only [if_neg hd, sub_zero, add_zero]
          exact StB_mono (mulInv_BndM hM) hj
      · intro hk
        have hd : sh ≤ k := by omega
        simp only [if_pos hd]
        rcases hk.eq_or_lt with rfl | hk
        · have e : sd - sh = rd := by omega
          rw [e, coeff_rat b, coeff_abs b, hb1]
          have hj := (h4 sd).1 le_rfl
          rw [hm1] at hj
          have hcf : c.isFinite = true := by
            by_contra hc
            have hc' : c.isFinite = false := by simpa using hc
            rcases finite_cases c hc' with e | ⟨t, e⟩
            · rw [hs, e] at h3; cases rf <;> cases h3
            · rw [hs, e] at h3
              cases rf <;> simp [div, isFinite] at h3 h1
          have h0 : rf.toRat ≠ 0 := by
            intro h
            rw [(isZero_iff_toRat h1).2 h] at hb2
            cases hb2
          have := BndM_drop hM (c, _, _) hj h1 h0 h2 h3 hcf
          simp only [toRat_neg, abs_neg] at this
          convert this using 3 <;> ring
        · have hz : ∀ c', b.terms.get (k - sh) = some c' → c'.toRat = 0 := by
            intro c' h
            obtain ⟨t, rfl⟩ := isZero_iff.1 (hb3 (k - sh) c' (by omega) h)
            exact toRat_fin_zero t
          have e1 : b.ratPoly.coeff (k - sh) = 0 := by
            rw [coeff_rat]
            cases h : b.terms.get (k - sh) with
            | none => rfl
            | some c' => exact hz c' h
          have e2 : b.absPoly.coeff (k - sh) = 0 := by
            rw [coeff_abs]
            cases h : b.terms.get (k - sh) with
            | none => rfl
            | some c' => simp [hz c' h]
          rw [e1, e2, mul_zero, mul_zero, sub_zero, add_zero]
          exact BndM_mono hM (by omega) _ ((h4 k).2 hk)
    have hround : ∀ fuel, Sparse.divModLoopDrop b.terms rf rd (fuel + 1) s sd m dv =
        match sparseFirstTerm m1 with
        | .zeroTerm => .ok (dv1, m1)
        | .term c' d' => Sparse.divModLoopDrop b.terms rf rd fuel (div c' rf) d' m1 dv1 := by
      intro fuel
      rw [Sparse.divModLoopDrop, if_pos hle]
      simp only [← hm1d, ← hdv1, ← hsh]
      cases sparseFirstTerm m1 <;> rfl
    -- the loop ends here
    have hend : rf.isFinite = true → |rf.toRat| ≤ M → dv1.AllFinite →
        (∀ k, (k ≤ sd → StB (BndM M) n (m.get k) ((P - dv.ratPoly * b.ratPoly).coeff k) ((A + dv.absPoly * b.absPoly).coeff k)) ∧
          (sd < k → BndM (f := f) M n (0, (P - dv.ratPoly * b.ratPoly).coeff k, (A + dv.absPoly * b.absPoly).coeff k))) →
        ∀ k, BndM M (n + (sh + 1)) ((m1.get k).getD 0, (P - dv1.ratPoly * b.ratPoly).coeff k,
          (A + dv1.absPoly * b.absPoly).coeff k) := by
      intro h1 h2 h3 h4 k
      have hsf : s.isFinite = true := by
        cases hz : isZero s
        · exact finite_get h3 (k := sh) (by rw [hdvget, if_pos ⟨rfl, hz⟩])
        · obtain ⟨t, e⟩ := isZero_iff.1 hz
          rw [e]; rfl
      refine BndM_mono hM (by omega) _ (?_ : BndM M (n + 1) _)
      obtain ⟨q1, q2⟩ := hstate h1 h2 hsf h4 k
      by_cases hk : k < sd
      · exact BndM_getD hM (q1 hk)
      · rw [hget, if_neg hk]
        exact q2 (by omega)
    have hdvhi : ∀ k, sh < k → dv1.terms.get k = dv.terms.get k := by
      intro k hk
      rw [hdvget, if_neg (by omega)]
    cases hf : sparseFirstTerm m1 with
    | zeroTerm =>
      refine ⟨dv1, m1, ?_, by simp [hf], hdvhi, hend⟩
      intro fuel hfuel
      obtain ⟨fuel, rfl⟩ : ∃ k, fuel = k + 1 := ⟨fuel - 1, by omega⟩
      rw [hround, hf]
    | term c' d' =>
      obtain ⟨hn1, hn3⟩ : m1.get d' = some c' ∧ ∀ j x, d' < j → m1.get j = some x → isZero x = true := by
        rcases firstTerm_last m1 with ⟨h1, _⟩ | ⟨k, c, h1, h2, h3, h4, h5⟩
        · rw [h1] at hf; cases hf
        · rw [h1] at hf; cases hf; exact ⟨h3, h5⟩
      have hd' : d' < sd := by
        by_contra h
        rw [hget, if_neg h] at hn1
        cases hn1
      by_cases hle' : rd ≤ d'
      · obtain ⟨dv', m', k1, k2, k3, k4⟩ := ih d' hd' c' m1 dv1 (n + 1) hf hle' (fun k hk => by
          rw [hdvget, if_neg (by omega)]; exact hdv k (by omega))
        refine ⟨dv', m', ?_, k2, fun k hk => by rw [k3 k (by omega), hdvhi k hk], ?_⟩
        · intro fuel hfuel
          obtain ⟨fuel, rfl⟩ : ∃ k, fuel = k + 1 := ⟨fuel - 1, by omega⟩
          rw [hround, hf]
          exact k1 fuel (by omega)
        · intro h1 h2 h3 h4 k
          have hsf : s.isFinite = true := by
            cases hz : isZero s
            · exact finite_get h3 (k := sh) (by rw [k3 sh (by omega), hdvget, if_pos ⟨rfl, hz⟩])
            · obtain ⟨t, e⟩ := isZero_iff.1 hz
              rw [e]; rfl
          have hst := hstate h1 h2 hsf h4
          refine BndM_mono hM (by omega) _ (k4 h1 h2 h3 (fun j => ⟨fun hj => (hst j).1 (by omega), fun hj => ?_⟩) k)
          by_cases hjs : j < sd
          · exact BndM_of_zero hM ((hst j).1 hjs) (hn3 j · hj)
          · exact (hst j).2 (by omega)
      · refine ⟨dv1, m1, ?_, ?_, hdvhi, hend⟩
        · intro fuel hfuel
          obtain ⟨fuel, rfl⟩ : ∃ k, fuel = k + 2 := ⟨fuel - 2, by omega⟩
          rw [hround, hf]
          simp only
          rw [Sparse.divModLoopDrop, if_neg hle']
        · intro c'' d'' h
          rw [hf] at h
          cases h
          omega

/-- C140: division of SparsePolynomials with the leading term dropped in each round returns for all dividends and
divisors, NaN and infinities included, within one round more than the difference of the degrees; the remainder has a
smaller degree than the divisor.  If the divisor's leading coefficient `l`, the quotient and the remainder are finite,
then `r = p - q * b` up to rounding, relative to the polynomials with absolute coefficients. -/
theorem C140_division (p b : Sparse (Fl f)) (d e : Nat) (hd : ∀ d', p.degree = .num d' → d' ≤ d) (he : b.degree = .num e) (l : Fl f)
    (hl : b.terms.get e = some l) :
    ∃ q r, (∀ fuel, d - e + 2 ≤ fuel → p.divModDrop fuel b = .ok (q, r)) ∧
      (∀ d', r.degree = .num d' → d' < e) ∧
      (l.isFinite = true → q.AllFinite → r.AllFinite → ∀ k,
        |(r.ratPoly - (p.ratPoly - q.ratPoly * b.ratPoly)).coeff k| ≤
          ((1 + uro f) ^ (d - e + 2) - 1) * (p.absPoly + q.absPoly * b.absPoly).coeff k +
          (d - e + 1 : Nat) * (1 + uro f) ^ (d - e + 1) * (max 1 |l.toRat| * eta f)) := by
  have hu := uro_nonneg (f := f)
  have hη := eta_nonneg (f := f)
  have hM : (1 : ℚ) ≤ max 1 |l.toRat| := le_max_left _ _
  have hMη : 0 ≤ max 1 |l.toRat| * eta f := mul_nonneg (by linarith) hη
  obtain ⟨hbf, hz⟩ : sparseFirstTerm b.terms = .term l e ∧ isZero l = false := by
    unfold Sparse.degree at he
    rcases firstTerm_last b.terms with ⟨h1, h2, _⟩ | ⟨k, c, h1, h2, h3, h4, h5⟩
    · rw [h2] at he; cases he
    · rw [h2] at he; cases he
      rw [hl] at h3; cases h3
      exact ⟨h1, h4⟩
  have hpabs : ∀ k, 0 ≤ p.absPoly.coeff k := by
    intro k
    rw [coeff_abs]
    cases p.terms.get k with
    | none => exact le_rfl
    | some c => exact abs_nonneg _
  have trivial_case : (∀ fuel, p.divModDrop fuel b = .ok (Sparse.zero, p)) → (∀ d, p.degree = .num d → d < e) →
      ∃ q r, (∀ fuel, d - e + 2 ≤ fuel → p.divModDrop fuel b = .ok (q, r)) ∧
      (∀ d', r.degree = .num d' → d' < e) ∧
      (l.isFinite = true → q.AllFinite → r.AllFinite → ∀ k,
        |(r.ratPoly - (p.ratPoly - q.ratPoly * b.ratPoly)).coeff k| ≤
          ((1 + uro f) ^ (d - e + 2) - 1) * (p.absPoly + q.absPoly * b.absPoly).coeff k +
          (d - e + 1 : Nat) * (1 + uro f) ^ (d - e + 1) * (max 1 |l.toRat| * eta f)) := by
    intro h hd
    refine ⟨_, _, fun fuel _ => h fuel, hd, fun _ _ _ k => ?_⟩
    have h2 : (1 : ℚ) ≤ (1 + uro f) ^ (d - e + 2) := one_le_pow₀ (by linarith)
    have h3 : 0 ≤ (1 + uro f) ^ (d - e + 2) - 1 := by linarith
    have e1 : (Sparse.zero : Sparse (Fl f)).ratPoly = 0 := rfl
    have e2 : (Sparse.zero : Sparse (Fl f)).absPoly = 0 := rfl
    rw [e1, e2, zero_mul, zero_mul, sub_zero, sub_self, add_zero, coeff_zero, abs_zero]
    have := hpabs k
    positivity
  rcases firstTerm_last p.terms with ⟨h1, h2, _⟩ | ⟨d', c, h1, h2, h3, h4, h5⟩
  · refine trivial_case (fun fuel => by simp [Sparse.divModDrop, hbf, h1, Sparse.new]) fun d' hd' => ?_
    rw [Sparse.degree, h2] at hd'; cases hd'
  · have hdd : d' ≤ d := hd d' h2
    by_cases hlt : d' < e
    · refine trivial_case (fun fuel => by simp [Sparse.divModDrop, hbf, h1, hlt, Sparse.new]) fun d'' hd' => ?_
      rw [Sparse.degree, h2] at hd'; cases hd'; exact hlt
    · obtain ⟨dv', m', k1, k2, _, k3⟩ := sparse_drop_loop hbf hM p.ratPoly p.absPoly d' c p.terms (Sparse.fromVec []) 0 h1 (by omega)
        (fun k _ => rfl)
      refine ⟨dv', Sparse.new m', fun fuel hfuel => ?_, fun d'' hd'' => ?_, fun hlf hqf hrf k => ?_⟩
      · unfold Sparse.divModDrop
        rw [hbf, h1]
        simp only
        rw [if_neg hlt, rdiv_eq, Res.ok_bind, k1 fuel (by omega), Res.ok_bind]
      · rcases firstTerm_last m' with ⟨g1, g2, _⟩ | ⟨j, x, g1, g2, _⟩
        · rw [Sparse.degree, Sparse.new, g2] at hd''; cases hd''
        · rw [Sparse.degree, Sparse.new, g2] at hd''; cases hd''
          exact k2 x _ g1
      · have e1 : (Sparse.fromVec [] : Sparse (Fl f)).ratPoly = 0 := rfl
        have e2 : (Sparse.fromVec [] : Sparse (Fl f)).absPoly = 0 := rfl
        have hinit : ∀ k (o : Option (Fl f)), p.terms.get k = o →
            StB (BndM (max 1 |l.toRat|)) 0 o (p.ratPoly.coeff k) (p.absPoly.coeff k) := by
          intro k o ho
          rw [coeff_rat, coeff_abs, ho]
          cases o with
          | none => exact ⟨rfl, rfl⟩
          | some x =>
            refine ⟨le_rfl, fun _ => ?_⟩
            simp only [sub_self, abs_zero, Nat.cast_zero, zero_mul, add_zero, pow_one, zero_add]
            have := abs_nonneg x.toRat
            nlinarith
        have hB := k3 hlf (le_max_right _ _) hqf (fun j => by
          rw [e1, e2, zero_mul, zero_mul, sub_zero, add_zero]
          exact ⟨fun _ => hinit j _ rfl, fun hj => BndM_of_zero hM (hinit j _ rfl) (h5 j · hj)⟩) k
        have hB := BndM_mono hM (d := d - e + 1) (by omega) _ hB
        rw [coeff_sub]
        have hv : (Sparse.new m').ratPoly.coeff k = ((m'.get k).getD 0).toRat := by
          rw [coeff_rat]
          show (match m'.get k with | none => (0 : ℚ) | some c => c.toRat) = _
          cases m'.get k with
          | none => simp
          | some x => rfl
        rw [hv]
        refine hB.2 ?_
        simp only
        cases hx : m'.get k with
        | none => rfl
        | some x => exact finite_get hrf (k := k) hx

/-- C140: the change of the shift (C137) alone does not make division of floats end. -/
theorem C140_shift_alone_false (fuel : Nat) :
    (Sparse.fromVec [(fin false 1 : Fl binary64)]).divModRepaired fuel (Sparse.fromVec [ofNat 4]) = .fuel := by
  have ext : ∀ m m' : BMap (Fl binary64), m.entries = m'.entries → m = m' := by
    rintro ⟨_, _⟩ ⟨_, _⟩ rfl; rfl
  have h1 : sparseFirstTerm (Sparse.fromVec [(ofNat 4 : Fl binary64)]).terms = .term (ofNat 4) 0 := by decide +kernel
  have h2 : sparseFirstTerm (Sparse.fromVec [(fin false 1 : Fl binary64)]).terms = .term (fin false 1) 0 := by decide +kernel
  have h3 : rdiv (fin false 1 : Fl binary64) (ofNat 4) = .ok (fin false 0) := by decide +kernel
  have h4 : mapSubWScaleRepaired (Sparse.fromVec [(fin false 1 : Fl binary64)]).terms (Sparse.fromVec [(ofNat 4 : Fl binary64)]).terms
      (fin false 0) 0 = (Sparse.fromVec [(fin false 1 : Fl binary64)]).terms := ext _ _ (by decide +kernel)
  have loop : ∀ (fuel : Nat) (dv : Sparse (Fl binary64)),
      Sparse.divModLoopRepaired (Sparse.fromVec [(ofNat 4 : Fl binary64)]).terms (ofNat 4) 0 fuel (fin false 0) 0
        (Sparse.fromVec [(fin false 1 : Fl binary64)]).terms dv = .fuel := by
    intro fuel
    induction fuel with
    | zero => intro dv; rfl
    | succ fuel ih =>
      intro dv
      rw [Sparse.divModLoopRepaired, if_pos (Nat.zero_le _), Nat.sub_self, h4]
      simp only [h2, h3, Res.ok_bind]
      exact ih _
  unfold Sparse.divModRepaired
  simp only [h1, h2, h3, Res.ok_bind, lt_irrefl, if_false, loop]
  rfl

/-- C140: division by zero panics, as now. -/
theorem C140_zero (p b : Sparse (Fl f)) (fuel : Nat) (h : b.degree = .negInf) : p.divModDrop fuel b = .panic := by
  unfold Sparse.degree at h
  rcases firstTerm_last b.terms with ⟨h1, _⟩ | ⟨k, c, h1, h2, _⟩
  · simp [Sparse.divModDrop, h1]
  · rw [h2] at h; cases h

section
variable {K : Type} [Field K] [NumZero K] [LawfulNumZero K] [RDiv K] [LawfulRDiv K]

theorem retain_poly {m : BMap K} {d : Nat} (h : (entriesPoly m.entries).degree < (d : WithBot ℕ)) :
    entriesPoly (m.retain fun j _ => decide (j < d)).entries = entriesPoly m.entries := by
  ext k
  by_cases hk : k < d
  · rw [coeff_mapPoly, coeff_mapPoly, get_retain_lt, if_pos hk]
  · rw [coeff_eq_zero_of_degree_lt (n := k) (h.trans_le (by exact_mod_cast not_lt.1 hk)), coeff_mapPoly, get_retain_lt, if_neg hk]
    rfl

theorem sparse_drop_same_loop {b : BMap K} {rf : K} {rd : Nat} (hb : sparseFirstTerm b = .term rf rd) :
    ∀ (fuel : Nat) (c : K) (sd : Nat) (rem rem' : BMap K) (div q : Sparse K) (r : BMap K), sparseFirstTerm rem = .term c sd →
      entriesPoly rem'.entries = entriesPoly rem.entries →
      Sparse.divModLoopRepaired b rf rd fuel (c / rf) sd rem div = .ok (q, r) →
      ∃ r', Sparse.divModLoopDrop b rf rd fuel (c / rf) sd rem' div = .ok (q, r') ∧
        entriesPoly r'.entries = entriesPoly r.entries := by
  obtain ⟨hrf, hbd, hbl⟩ := sparseFirstTerm_term hb
  intro fuel
  induction fuel with
  | zero => intro c sd rem rem' div q r _ _ h; cases h
  | succ fuel ih =>
    intro c sd rem rem' div q r hr hrr h
    obtain ⟨hc, hrd, hrl⟩ := sparseFirstTerm_term hr
    unfold Sparse.divModLoopRepaired at h
    unfold Sparse.divModLoopDrop
    by_cases hle : sd ≥ rd
    · simp only [if_pos hle] at h ⊢
      have hp := mapSubWScaleRepaired_poly rem b (c / rf) (sd - rd)
      have hp' : entriesPoly (mapSubWScaleRepaired rem' b (c / rf) (sd - rd)).entries =
          entriesPoly (mapSubWScaleRepaired rem b (c / rf) (sd - rd)).entries := by
        rw [mapSubWScaleRepaired_poly, hp, hrr]
      have hdeg : (entriesPoly (mapSubWScaleRepaired rem b (c / rf) (sd - rd)).entries).degree < (sd : WithBot ℕ) := by
        rw [hp, ← hrd]
        have hM : (C (c / rf) * X ^ (sd - rd) * entriesPoly b.entries).degree = (sd : WithBot ℕ) := by
          rw [degree_mul, degree_C_mul_X_pow _ (div_ne_zero hc hrf), hbd, ← Nat.cast_add, Nat.sub_add_cancel hle]
        refine degree_sub_lt_left (by rw [hM, hrd]) (by intro h; rw [h] at hrl; simp at hrl; exact hc hrl.symm) ?_
        rw [leadingCoeff_mul, leadingCoeff_C_mul_X_pow, hrl, hbl, div_mul_cancel₀ _ hrf]
      have hpr := (retain_poly (hp' ▸ hdeg)).trans hp'
      cases hf : sparseFirstTerm (mapSubWScaleRepaired rem b (c / rf) (sd - rd)) with
      | zeroTerm =>
        rw [hf] at h
        cases h
        rw [sparseFirstTerm_zero.2 (hpr.trans (sparseFirstTerm_zero.1 hf))]
        exact ⟨_, rfl, hpr⟩
      | term c' sd' =>
        rw [hf] at h
        obtain ⟨_, g2, g3⟩ := sparseFirstTerm_term hf
        rw [sparseFirstTerm_of_poly (hpr ▸ g2) (hpr ▸ g3)]
        simp only [LawfulRDiv.rdiv_eq _ _ hrf, Res.ok_bind] at h ⊢
        exact ih c' sd' _ _ _ q r hf hpr h
    · simp only [if_neg hle] at h ⊢
      cases h
      exact ⟨_, rfl, hrr⟩

/-- C140: over a field nothing changes: quotient and remainder are those of the repair of C137. -/
theorem C140_field_same (p b q r : Sparse K) (fuel : Nat) (h : p.divModRepaired fuel b = .ok (q, r)) :
    ∃ r', p.divModDrop fuel b = .ok (q, r') ∧ entriesPoly r'.terms.entries = entriesPoly r.terms.entries := by
  unfold Sparse.divModRepaired at h
  unfold Sparse.divModDrop
  cases hbf : sparseFirstTerm b.terms with
  | zeroTerm => rw [hbf] at h; cases h
  | term rf rd =>
    rw [hbf] at h
    cases hpf : sparseFirstTerm p.terms with
    | zeroTerm => simp only [hpf] at h ⊢; cases h; exact ⟨_, rfl, rfl⟩
    | term c d =>
      simp only [hpf] at h ⊢
      by_cases hlt : d < rd
      · simp only [if_pos hlt] at h ⊢
        cases h; exact ⟨_, rfl, rfl⟩
      · simp only [if_neg hlt, LawfulRDiv.rdiv_eq _ _ (sparseFirstTerm_term hbf).1, Res.ok_bind] at h ⊢
        obtain ⟨⟨q', m⟩, h1, h2⟩ := Res.bind_eq_ok.1 h
        cases h2
        obtain ⟨r', h3, h4⟩ := sparse_drop_same_loop hbf fuel c d p.terms p.terms _ _ m hpf rfl h1
        exact ⟨Sparse.new r', by rw [h3, Res.ok_bind], h4⟩

end

-- `x^5 / (49 x + 1)`, which does not end now, nor with the change of the shift alone: the degree of the remainder stays 5
example : ((Sparse.fromVec [(1 : Fl binary64), 0, 0, 0, 0, 0]).divModDrop 6 (Sparse.fromVec [ofNat 49, 1])).bind
    (fun x => .ok (x.1.terms.entries.map Prod.fst, x.2.terms.entries.map Prod.fst, decide x.1.AllFinite, decide x.2.AllFinite)) =
    .ok ([0, 1, 2, 3, 4], [0], true, true) := by decide +kernel
example : ((Sparse.fromVec [(1 : Fl binary64), 0, 0, 0, 0, 0]).divModRepaired 100 (Sparse.fromVec [ofNat 49, 1])).bind
    (fun x => .ok x.1.terms.entries) = .fuel := by decide +kernel
example : (Sparse.fromVec [(ofNat 49 : Fl binary64), 1]).degree = .num 1 ∧
    (Sparse.fromVec [(ofNat 49 : Fl binary64), 1]).terms.get 1 = some (ofNat 49) ∧
    (Sparse.fromVec [(1 : Fl binary64), 0, 0, 0, 0, 0]).degree = .num 5 := by decide +kernel
-- NaN and infinities
example : ((Sparse.fromVec [(1 : Fl binary64), inf false, nan]).divModDrop 3 (Sparse.fromVec [inf true, 1])).bind
    (fun x => .ok (x.2.terms.entries.map Prod.fst)) = .ok [0] := by decide +kernel
example : ((Sparse.fromVec [(1 : Fl binary64), 1]).divModDrop 4 (Sparse.fromVec [0, -0])).bind
    (fun x => .ok x.1.terms.entries) = .panic := by decide +kernel
-- over the rationals
example : ((Sparse.fromVec [1, 0, 0, (1 : ℚ)]).divModDrop 5 (Sparse.fromVec [2, 1])).bind
    (fun x => .ok (x.1.terms.entries, x.2.terms.entries)) = .ok ([(0, 1 / 8), (1, -1 / 4), (2, 1 / 2)], [(0, 7 / 8)]) := by
  decide +kernel

end Fl
end Rustnomial
