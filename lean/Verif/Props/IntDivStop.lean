import Verif.Props.FloatDivDrop
import Verif.Props.DenseDiv

/-!
# C138: division of integer polynomials that ends when the degree of the remainder does not drop
-/

open Polynomial

namespace Rustnomial

/-- One round. -/
theorem divModLoopStop_round {N : Type} [Zero N] [NumZero N] [Sub N] [Mul N] [RDiv N] {b : List N} {rf : N} {rd offset : Nat}
    {sd : Nat} {c : N} {rem dv : List N} (hle : rd ≤ sd) (hoff : sd ≤ offset)
    (hlen : dv.length = offset - rd + 1) {s : N} (hs : rdiv c rf = .ok s) {rem' : List N}
    (hrem : vecSubWScale rem sd b rd s = .ok rem') (fuel : Nat) :
    Poly.divModLoopStop b rf rd offset (fuel + 1) c sd rem dv =
      match firstTerm rem' with
      | .zeroTerm => .ok (dv.set (offset - sd) s, rem')
      | .term c' d' => if d' = sd then .ok (dv.set (offset - sd) s, rem')
          else Poly.divModLoopStop b rf rd offset fuel c' d' rem' (dv.set (offset - sd) s) := by
  have hu : usub offset sd = .ok (offset - sd) := by simp [usub, hoff]
  have hi : offset - sd < dv.length := by rw [hlen]; omega
  rw [Poly.divModLoopStop, if_pos hle, hs, Res.ok_bind, hrem, Res.ok_bind, hu, Res.ok_bind, if_pos hi]
  cases firstTerm rem' <;> rfl

/-- What is left in front after a round that does not lower the degree. -/
theorem lead_of_same_degree {N : Type} [Zero N] [NumZero N] [Sub N] [Mul N] {b : List N} {rf : N} {rd : Nat}
    (hb : firstTerm b = .term rf rd) {sd : Nat} {c : N} {rem : List N} (hr : firstTerm rem = .term c sd) (s : N)
    {rem' : List N} (hrem : vecSubWScale rem sd b rd s = .ok rem') {c' : N} {d' : Nat} (hf : firstTerm rem' = .term c' d') : d' ≤ sd ∧ (d' = sd → c' = c - rf * s) := by
  obtain ⟨vs, r1, r2, r3, r4, r5⟩ := firstTerm_term hr
  obtain ⟨ws, b1, b2, b3, b4, b5⟩ := firstTerm_term hb
  rw [vecSubWScale_ok s r3 b3] at hrem
  cases hrem
  rw [r4, b4, zipMut_cons] at hf
  refine ⟨firstTerm_step_any hr (by simp [r2]) hf, ?_⟩
  rintro rfl
  obtain ⟨us, u1, u2, _⟩ := firstTerm_term hf
  rw [take_zeros_append hr] at u1
  by_cases h : isZero (c - rf * s) = true
  · rw [List.dropWhile_cons_of_pos h] at u1
    have := (List.dropWhile_suffix (l := zipMut (fun l r => l - r * s) vs ws) (isZero (N := N))).length_le
    rw [u1, List.length_cons, length_zipMut] at this
    omega
  · rw [List.dropWhile_cons_of_neg h] at u1
    injection u1 with u1 _
    exact u1.symm

/-- The loop that stops always returns. -/
theorem stop_loop {b : List ℤ} {rf : ℤ} {rd offset : Nat} (hb : firstTerm b = .term rf rd) :
    ∀ (sd : Nat) (c : ℤ) (rem dv : List ℤ), firstTerm rem = .term c sd → sd ≤ offset →
      dv.length = offset - rd + 1 → (∀ i, offset - sd ≤ i → dv.getD i 0 = 0) →
      ∃ dv' rem', (∀ fuel, sd + 2 ≤ fuel → Poly.divModLoopStop b rf rd offset fuel c sd rem dv = .ok (dv', rem')) ∧
        descPoly rem + descPoly dv * descPoly b = descPoly rem' + descPoly dv' * descPoly b ∧
        ((descPoly rem').degree < (descPoly b).degree ∨
          |(descPoly rem').leadingCoeff| < |(descPoly b).leadingCoeff|) := by
  obtain ⟨hrf, hbd, hbl⟩ := firstTerm_poly hb
  intro sd
  induction sd using Nat.strong_induction_on with
  | _ sd ih =>
    intro c rem dv hr hoff hlen hz
    obtain ⟨hc, hrd, hrl⟩ := firstTerm_poly hr
    by_cases hle : rd ≤ sd
    swap
    · refine ⟨dv, rem, fun fuel hfuel => ?_, rfl, .inl ?_⟩
      · obtain ⟨fuel, rfl⟩ : ∃ k, fuel = k + 1 := ⟨fuel - 1, by omega⟩
        rw [Poly.divModLoopStop, if_neg hle]
      · rw [hrd, hbd]; exact_mod_cast not_le.1 hle
    obtain ⟨rem', hv, hvl, hvp⟩ := vecSubWScale_poly (c.tdiv rf) hr hb hle
    have hround := divModLoopStop_round hle hoff hlen (int_rdiv hrf) hv
    have hi : offset - sd < dv.length := by rw [hlen]; omega
    have hdp : descPoly (dv.set (offset - sd) (c.tdiv rf)) = descPoly dv + C (c.tdiv rf) * X ^ (sd - rd) := by
      rw [descPoly_set _ _ _ hi (hz _ le_rfl)]
      congr 3
      rw [hlen]; omega
    have heq : descPoly rem + descPoly dv * descPoly b =
        descPoly rem' + descPoly (dv.set (offset - sd) (c.tdiv rf)) * descPoly b := by
      rw [hdp, hvp]; ring
    cases hf : firstTerm rem' with
    | zeroTerm =>
      refine ⟨_, rem', fun fuel hfuel => ?_, heq, .inl ?_⟩
      · obtain ⟨fuel, rfl⟩ : ∃ k, fuel = k + 1 := ⟨fuel - 1, by omega⟩
        rw [hround, hf]
      · rw [firstTerm_zero_poly.1 hf, hbd]; exact WithBot.bot_lt_coe _
    | term c' d' =>
      obtain ⟨hd, hlead⟩ := lead_of_same_degree hb hr _ hv hf
      by_cases hd' : d' = sd
      · refine ⟨_, rem', fun fuel hfuel => ?_, heq, .inr ?_⟩
        · obtain ⟨fuel, rfl⟩ : ∃ k, fuel = k + 1 := ⟨fuel - 1, by omega⟩
          rw [hround, hf]
          simp only
          rw [if_pos hd']
        · obtain ⟨_, _, hl'⟩ := firstTerm_poly hf
          rw [hl', hbl, hlead hd']
          have := Int.tmod_def c rf
          rw [← this]
          have h1 := Int.natAbs_tmod c rf
          have h2 : c.natAbs % rf.natAbs < rf.natAbs := Nat.mod_lt _ (Int.natAbs_pos.2 hrf)
          rw [Int.abs_eq_natAbs, Int.abs_eq_natAbs, h1]
          exact_mod_cast h2
      · obtain ⟨dv', rem'', k1, k2, k3⟩ := ih d' (by omega) c' rem' (dv.set (offset - sd) (c.tdiv rf)) hf (by omega)
          (by simpa using hlen) (fun i hi' => by
            rw [List.getD_eq_getElem?_getD, List.getElem?_set_ne (by omega), ← List.getD_eq_getElem?_getD]
            exact hz i (by omega))
        refine ⟨dv', rem'', fun fuel hfuel => ?_, heq.trans k2, k3⟩
        obtain ⟨fuel, rfl⟩ : ∃ k, fuel = k + 1 := ⟨fuel - 1, by omega⟩
        rw [hround, hf]
        simp only
        rw [if_neg hd']
        exact k1 fuel (by omega)

/-- C138 (C21): division of integer polynomials that ends when the degree of the remainder does not drop returns for all
operands with a divisor other than zero, within as many rounds as the dividend has coefficients; the dividend is exactly
quotient times divisor plus remainder, and either the degree of the remainder is smaller than that of the divisor, or its
leading coefficient is smaller in absolute value. -/
theorem C138_integer (p b : Poly ℤ) (hb : descPoly b.terms ≠ 0) :
    ∃ q r, (∀ fuel, p.terms.length + 1 ≤ fuel → p.divModStop fuel b = .ok (q, r)) ∧
      descPoly p.terms = descPoly q.terms * descPoly b.terms + descPoly r.terms ∧
      ((descPoly r.terms).degree < (descPoly b.terms).degree ∨
        |(descPoly r.terms).leadingCoeff| < |(descPoly b.terms).leadingCoeff|) := by
  cases hbf : firstTerm b.terms with
  | zeroTerm => exact absurd (firstTerm_zero_poly.1 hbf) hb
  | term rf rd =>
    obtain ⟨_, hbd, _⟩ := firstTerm_poly hbf
    cases hpf : firstTerm p.terms with
    | zeroTerm =>
      refine ⟨Poly.zero, p, fun fuel _ => by simp [Poly.divModStop, hbf, hpf], by simp [Poly.zero], .inl ?_⟩
      rw [firstTerm_zero_poly.1 hpf, hbd]; exact WithBot.bot_lt_coe _
    | term c d =>
      by_cases hlt : d < rd
      · refine ⟨Poly.zero, p, fun fuel _ => by simp [Poly.divModStop, hbf, hpf, hlt], by simp [Poly.zero], .inl ?_⟩
        rw [(firstTerm_poly hpf).2.1, hbd]; exact_mod_cast hlt
      · have hd1 := (firstTerm_term hpf).choose_spec.2.2.1
        obtain ⟨dv', rem', k1, k2, k3⟩ := stop_loop (offset := d) hbf d c p.terms (List.replicate (d - rd + 1) 0) hpf le_rfl
          (by simp) (fun i _ => by
            rw [List.getD_eq_getElem?_getD, List.getElem?_replicate]
            split <;> rfl)
        refine ⟨Poly.new dv', Poly.new rem', fun fuel hfuel => ?_, ?_, ?_⟩
        · simp only [Poly.divModStop, hbf, hpf]
          rw [if_neg hlt, k1 fuel (by omega), Res.ok_bind]
        · rw [new_terms, new_terms, descPoly_dropWhile, descPoly_dropWhile]
          rw [descPoly_replicate_zero, zero_mul, add_zero] at k2
          rw [k2]; ring
        · rw [new_terms, descPoly_dropWhile]; exact k3

/-- With a leading coefficient smaller than that of the divisor the code's loop never returns. -/
theorem small_lead_loop {b : List ℤ} {rf : ℤ} {rd offset : Nat} (hb : firstTerm b = .term rf rd) :
    ∀ (fuel : Nat) (c : ℤ) (sd : Nat) (rem dv : List ℤ), firstTerm rem = .term c sd → rd ≤ sd → sd ≤ offset →
      dv.length = offset - rd + 1 → |c| < |rf| → Poly.divModLoop b rf rd offset fuel c sd rem dv = .fuel := by
  have hrf := (firstTerm_poly hb).1
  intro fuel
  induction fuel with
  | zero => intros; rfl
  | succ fuel ih =>
    intro c sd rem dv hr hle hoff hlen hlt
    have h0 : c.tdiv rf = 0 := by
      rw [Int.abs_eq_natAbs, Int.abs_eq_natAbs] at hlt
      apply Int.natAbs_eq_zero.1
      rw [Int.natAbs_tdiv]
      exact Nat.div_eq_of_lt (by exact_mod_cast hlt)
    have hs : rdiv c rf = .ok 0 := by rw [int_rdiv hrf, h0]
    rw [divModLoop_round hb hr hle hoff hlen hs]
    have hz : ∀ (xs ys : List ℤ), zipMut (fun l r => l - r * 0) xs ys = xs := by
      intro xs
      induction xs with
      | nil => intro ys; cases ys <;> rfl
      | cons x xs ihx =>
        intro ys
        cases ys with
        | nil => rfl
        | cons y ys => rw [zipMut_cons, ihx]; simp
    rw [hz, List.take_append_drop, hr]
    exact ih c sd rem _ hr hle hoff (by simpa using hlen) hlt

/-- C138: wherever the code's division of integer polynomials returns, the result is the same. -/
theorem C138_integer_same (p b q r : Poly ℤ) (fuel : Nat) (h : p.divMod fuel b = .ok (q, r)) :
    p.divModStop fuel b = .ok (q, r) := by
  have hloop : ∀ {rf : ℤ} {rd offset : Nat}, firstTerm b.terms = .term rf rd →
      ∀ (fuel sd : Nat) (c : ℤ) (rem dv : List ℤ) (x : List ℤ × List ℤ), firstTerm rem = .term c sd → sd ≤ offset →
      dv.length = offset - rd + 1 → Poly.divModLoop b.terms rf rd offset fuel c sd rem dv = .ok x →
      Poly.divModLoopStop b.terms rf rd offset fuel c sd rem dv = .ok x := by
    intro rf rd offset hb fuel
    have hrf := (firstTerm_poly hb).1
    induction fuel with
    | zero => intro sd c rem dv x _ _ _ h; cases h
    | succ fuel ih =>
      intro sd c rem dv x hr hoff hlen h
      by_cases hle : rd ≤ sd
      swap
      · rw [Poly.divModLoop, if_neg hle] at h
        rw [Poly.divModLoopStop, if_neg hle, h]
      obtain ⟨vs, r1, r2, r3, r4, r5⟩ := firstTerm_term hr
      obtain ⟨ws, b1, b2, b3, b4, b5⟩ := firstTerm_term hb
      have hv := vecSubWScale_ok (c.tdiv rf) r3 b3
      rw [divModLoop_round hb hr hle hoff hlen (int_rdiv hrf)] at h
      rw [divModLoopStop_round hle hoff hlen (int_rdiv hrf) hv]
      generalize rem.take (rem.length - sd - 1) ++ zipMut (fun l r => l - r * c.tdiv rf) (rem.drop (rem.length - sd - 1))
        (b.terms.drop (b.terms.length - rd - 1)) = rem' at h hv
      cases hf : firstTerm rem' with
      | zeroTerm => rw [hf] at h; exact h
      | term c' d' =>
        rw [hf] at h
        simp only at h ⊢
        obtain ⟨hd, hlead⟩ := lead_of_same_degree hb hr _ hv hf
        by_cases hd' : d' = sd
        · subst hd'
          rw [small_lead_loop hb fuel c' d' rem' _ hf hle hoff (by simpa using hlen) (by
            rw [hlead rfl, ← Int.tmod_def, Int.abs_eq_natAbs, Int.abs_eq_natAbs, Int.natAbs_tmod]
            exact_mod_cast Nat.mod_lt _ (Int.natAbs_pos.2 hrf))] at h
          cases h
        · rw [if_neg hd']
          exact ih d' c' rem' _ x hf (by omega) (by simpa using hlen) h
  unfold Poly.divMod at h
  unfold Poly.divModStop
  cases hbf : firstTerm b.terms with
  | zeroTerm => rw [hbf] at h; cases h
  | term rf rd =>
    rw [hbf] at h
    cases hpf : firstTerm p.terms with
    | zeroTerm => simp only [hpf] at h ⊢; exact h
    | term c d =>
      simp only [hpf] at h ⊢
      split
      · rename_i hlt; rw [if_pos hlt] at h; exact h
      · rename_i hlt
        rw [if_neg hlt] at h
        obtain ⟨x, h1, h2⟩ := Res.bind_eq_ok.1 h
        rw [hloop hbf fuel d c p.terms _ x hpf le_rfl (by simp) h1, Res.ok_bind]
        exact h2

-- x / 2 never returns now (`C21_dense_div_mod_int_false`); (7x^2 + 3x + 1) / (2x + 1) with quotient 3x, remainder x^2 + 1
example : (⟨[1, 0]⟩ : Poly ℤ).divModStop 3 ⟨[2]⟩ = .ok (⟨[]⟩, ⟨[1, 0]⟩) := by decide +kernel
example : (⟨[7, 3, 1]⟩ : Poly ℤ).divModStop 4 ⟨[2, 1]⟩ = .ok (⟨[3, 0]⟩, ⟨[1, 0, 1]⟩) := by decide +kernel
example : (⟨[2, 3, 1]⟩ : Poly ℤ).divMod 4 ⟨[2, 1]⟩ = .ok (⟨[1, 1]⟩, ⟨[]⟩) ∧
    (⟨[2, 3, 1]⟩ : Poly ℤ).divModStop 4 ⟨[2, 1]⟩ = .ok (⟨[1, 1]⟩, ⟨[]⟩) := by decide +kernel

end Rustnomial
