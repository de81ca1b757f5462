import Verif.Props.MachineWrapDiv
import Verif.Props.MachineDiv

/-!
# C82, continued: dense division of machine integers without overflow checks, in every case
-/

open Polynomial

namespace Rustnomial

section
variable (t : IntTy)

theorem dvd_iff_wrap (a b : Int) : (2 : ℤ) ^ t.bits ∣ a - b ↔ t.wrap a = t.wrap b := by
  rw [wrap_eq_iff, eq_comm, ZMod.intCast_eq_intCast_iff_dvd_sub]
  push_cast
  rfl

theorem isWrapQuot_iff (P B Q T : ℤ[X]) : IsWrapQuot t P B Q T ↔ (∀ d, t.InRange (Q.coeff d)) ∧ (∀ d, t.InRange (T.coeff d)) ∧
    T.degree < B.degree ∧ red t P = red t Q * red t B + red t T ∧ ∀ k, t.InRange (Q.coeff k * B.leadingCoeff) := by
  unfold IsWrapQuot
  rw [← map_mul, ← map_add, red_eq_iff]
  simp only [coeff_sub, dvd_iff_wrap]

theorem eq_of_wrap (hbits : 1 ≤ t.bits) {a b : Int} (ha : t.InRange a) (hb : t.InRange b) (h : t.wrap a = t.wrap b) : a = b := by
  rwa [t.wrap_of_inRange hbits _ ha, t.wrap_of_inRange hbits _ hb] at h

variable {t}

/-- The leading terms of such a division. -/
theorem IsWrapQuot.top (hbits : 1 ≤ t.bits) {P B Q T : ℤ[X]} (h : IsWrapQuot t P B Q T) (hP : ∀ d, t.InRange (P.coeff d)) :
    (Q = 0 → P = T) ∧ (Q ≠ 0 → P.degree = ((Q.natDegree + B.natDegree : ℕ) : WithBot ℕ) ∧
      P.leadingCoeff = Q.leadingCoeff * B.leadingCoeff) := by
  obtain ⟨h1, h2, h3, h4, h5⟩ := h
  have hw : ∀ d, t.wrap (P.coeff d) = t.wrap ((Q * B + T).coeff d) := fun d => by
    rw [← dvd_iff_wrap, ← coeff_sub]; exact h4 d
  refine ⟨fun h0 => ?_, fun h0 => ?_⟩
  · ext d
    have := hw d
    rw [h0, zero_mul, zero_add] at this
    exact eq_of_wrap t hbits (hP d) (h2 d) this
  · have hB : B ≠ 0 := by rintro rfl; simp at h3
    have hT : ∀ d, B.natDegree ≤ d → T.coeff d = 0 := fun d hd =>
      coeff_eq_zero_of_degree_lt (h3.trans_le (degree_le_natDegree.trans (by exact_mod_cast hd)))
    refine degree_of_coeffs (mul_ne_zero (leadingCoeff_ne_zero.2 h0) (leadingCoeff_ne_zero.2 hB)) ?_ fun d hd => ?_
    · refine eq_of_wrap t hbits (hP _) (h5 _) ?_
      rw [hw, coeff_add, hT _ (by omega), add_zero, coeff_mul_degree_add_degree]
    · refine eq_of_wrap t hbits (hP d) t.zero_inRange ?_
      rw [hw, coeff_add, hT _ (by omega), add_zero, coeff_eq_zero_of_natDegree_lt]
      rw [natDegree_mul h0 hB]; exact hd

/-- The quotient and the remainder are determined. -/
theorem IsWrapQuot.unique (hbits : 1 ≤ t.bits) {P B Q T Q' T' : ℤ[X]} (h : IsWrapQuot t P B Q T)
    (h' : IsWrapQuot t P B Q' T') : Q = Q' ∧ T = T' := by
  rw [isWrapQuot_iff] at h h'
  obtain ⟨a1, a2, a3, a4, a5⟩ := h
  obtain ⟨b1, b2, b3, b4, b5⟩ := h'
  have hB : B ≠ 0 := by rintro rfl; simp at a3
  have hlc := leadingCoeff_ne_zero.2 hB
  have e : red t ((Q - Q') * B) = red t (T' - T) := by
    rw [map_mul, map_sub, map_sub]
    linear_combination b4 - a4
  have hQ : Q = Q' := by
    by_contra hne
    have h0 : Q - Q' ≠ 0 := sub_ne_zero.2 hne
    have h1 := (red_eq_iff t _ _).1 e ((Q - Q').natDegree + B.natDegree)
    have hT : (T' - T).coeff ((Q - Q').natDegree + B.natDegree) = 0 := by
      refine coeff_eq_zero_of_degree_lt (((degree_sub_le _ _).trans_lt (max_lt b3 a3)).trans_le
        (degree_le_natDegree.trans ?_))
      exact_mod_cast Nat.le_add_left _ _
    rw [coeff_mul_degree_add_degree, hT, ← dvd_iff_wrap, sub_zero] at h1
    have h2 := eq_of_wrap t hbits (a5 (Q - Q').natDegree) (b5 (Q - Q').natDegree) ((dvd_iff_wrap t _ _).1 (by
      rw [← sub_mul, ← coeff_sub]; exact h1))
    have h3 : (Q - Q').leadingCoeff = 0 := by
      rw [leadingCoeff, coeff_sub, mul_right_cancel₀ hlc h2, sub_self]
    exact h0 (leadingCoeff_eq_zero.1 h3)
  subst hQ
  refine ⟨rfl, ?_⟩
  rw [sub_self, zero_mul, red_eq_iff] at e
  have e' : red t T = red t T' := add_left_cancel (a4.symm.trans b4)
  ext d
  exact eq_of_wrap t hbits (a2 d) (b2 d) ((red_eq_iff t _ _).1 e' d)

theorem isWrapQuot_zero {P B : ℤ[X]} (hP : ∀ d, t.InRange (P.coeff d)) (h : P.degree < B.degree) : IsWrapQuot t P B 0 P := by
  rw [isWrapQuot_iff]
  exact ⟨fun d => by rw [coeff_zero]; exact t.zero_inRange, hP, h, by simp, fun k => by
    rw [coeff_zero, zero_mul]; exact t.zero_inRange⟩

/-- One round adds the leading term of the quotient. -/
theorem IsWrapQuot.round {R R' B Q T : ℤ[X]} {s : Int} {k : Nat} (h : IsWrapQuot t R' B Q T)
    (hd : Q.degree < k) (hs : t.InRange s) (hsb : t.InRange (s * B.leadingCoeff))
    (hR : red t R' = red t R - red t (C s * X ^ k * B)) : IsWrapQuot t R B (C s * X ^ k + Q) T := by
  rw [isWrapQuot_iff] at h ⊢
  obtain ⟨a1, a2, a3, a4, a5⟩ := h
  have hc : ∀ d, (C s * X ^ k + Q).coeff d = if d = k then s else Q.coeff d := by
    intro d
    rw [coeff_add, coeff_C_mul_X_pow]
    split_ifs with e
    · rw [e, coeff_eq_zero_of_degree_lt hd, add_zero]
    · rw [zero_add]
  refine ⟨fun d => ?_, a2, a3, ?_, fun d => ?_⟩
  · rw [hc]; split_ifs; exacts [hs, a1 d]
  · rw [hR] at a4
    rw [map_add, map_mul (red t) (_ * _)] at *
    linear_combination a4
  · rw [hc]; split_ifs; exacts [hsb, a5 d]

/-- Conversely, one round takes the leading term off the quotient. -/
theorem IsWrapQuot.unround {R R' B Q T : ℤ[X]} (h : IsWrapQuot t R B Q T)
    (hR : red t R' = red t R - red t (C Q.leadingCoeff * X ^ Q.natDegree * B)) : IsWrapQuot t R' B Q.eraseLead T := by
  rw [isWrapQuot_iff] at h ⊢
  obtain ⟨a1, a2, a3, a4, a5⟩ := h
  refine ⟨fun d => ?_, a2, a3, ?_, fun d => ?_⟩
  · rw [eraseLead_coeff]; split_ifs; exacts [t.zero_inRange, a1 d]
  · have e : Q = Q.eraseLead + C Q.leadingCoeff * X ^ Q.natDegree := by
      conv_lhs => rw [← eraseLead_add_C_mul_X_pow Q]
    have e2 : red t Q = red t Q.eraseLead + red t (C Q.leadingCoeff * X ^ Q.natDegree) := by
      rw [← map_add, ← e]
    rw [hR, a4, e2, map_mul (red t) (_ * _)]
    ring
  · rw [eraseLead_coeff]; split_ifs
    · rw [zero_mul]; exact t.zero_inRange
    · exact a5 d

theorem IsWrapQuot.degree_lt (hbits : 1 ≤ t.bits) {P B Q T : ℤ[X]} (h : IsWrapQuot t P B Q T) (hP : ∀ d, t.InRange (P.coeff d))
    {k : Nat} (hd : P.degree < ((k + B.natDegree : ℕ) : WithBot ℕ)) : Q.degree < k := by
  rcases eq_or_ne Q 0 with rfl | h0
  · rw [degree_zero]; exact WithBot.bot_lt_coe _
  · rw [((h.top hbits hP).2 h0).1] at hd
    have : Q.natDegree + B.natDegree < k + B.natDegree := by exact_mod_cast hd
    rw [degree_eq_natDegree h0]
    exact_mod_cast (show Q.natDegree < k by omega)

variable (t)

theorem wrapQuot_divModLoopM (hbits : 1 ≤ t.bits) {b : List Int} {rf : Int} {rd offset : Nat} (hb : firstTerm b = .term rf rd)
    (hbr : t.InRange rf) :
    ∀ (fuel : Nat) (c : Int) (sd : Nat) (rem div : List Int),
    firstTerm rem = .term c sd → AllIn t rem → sd ≤ offset → div.length = offset - rd + 1 →
    (∀ j, offset - sd ≤ j → div.getD j 0 = 0) →
    (Poly.divModLoopM (.machine false t) b rf rd offset fuel c sd rem div = .fuel ∧
      (sd + 2 ≤ fuel → rf ≠ -1 ∧ ¬ ∃ Q T, IsWrapQuot t (descPoly rem) (descPoly b) Q T)) ∨
    (Poly.divModLoopM (.machine false t) b rf rd offset fuel c sd rem div = .panic ∧ (t.signed = true ∧ rf = -1) ∧
      ¬ ∃ Q T, IsWrapQuot t (descPoly rem) (descPoly b) Q T) ∨
    ∃ div' rem', Poly.divModLoopM (.machine false t) b rf rd offset fuel c sd rem div = .ok (div', rem') ∧
      IsWrapQuot t (descPoly rem) (descPoly b) (descPoly div' - descPoly div) (descPoly rem') := by
  obtain ⟨hrf, hbd, hbl⟩ := firstTerm_poly hb
  have hbn : (descPoly b).natDegree = rd := natDegree_eq_of_degree_eq_some hbd
  intro fuel
  induction fuel with
  | zero => intro c sd rem div _ _ _ _ _; exact .inl ⟨rfl, fun h => by omega⟩
  | succ fuel ih =>
    intro c sd rem div hr hin hoff hlen hz
    obtain ⟨hc, hrd, hrl⟩ := firstTerm_poly hr
    have hP := (inRange_descPoly t rem).1 hin
    have hcin : t.InRange c := by rw [← hrl]; exact hP _
    unfold Poly.divModLoopM
    by_cases hle : rd ≤ sd
    · rw [if_pos hle]
      -- what a quotient has to look like
      have hlead : ∀ {Q T}, IsWrapQuot t (descPoly rem) (descPoly b) Q T →
          Q ≠ 0 ∧ Q.natDegree = sd - rd ∧ c = Q.leadingCoeff * rf := by
        intro Q T h
        obtain ⟨t1, t2⟩ := h.top hbits hP
        have h0 : Q ≠ 0 := fun h0 => by
          have := h.2.2.1
          rw [← t1 h0, hrd, hbd] at this
          have : sd < rd := by exact_mod_cast this
          omega
        obtain ⟨t3, t4⟩ := t2 h0
        rw [hrd, hbn] at t3
        have : sd = Q.natDegree + rd := by exact_mod_cast t3
        exact ⟨h0, by omega, by rw [← hrl, t4, hbl]⟩
      by_cases hs : t.InRange (c.tdiv rf)
      · rw [machine_div_ok hrf hs, Res.ok_bind]
        obtain ⟨rem', hv, hvl, hin', hvp⟩ := vecSubWScaleM_wrap t hbits (c.tdiv rf) hr hb hle hin
        have hv' : vecSubWScaleM (Arith2.machine false t).toArith rem sd b rd (c.tdiv rf) = .ok rem' := hv
        have hu : usub offset sd = .ok (offset - sd) := by simp [usub, hoff]
        have hi : offset - sd < div.length := by rw [hlen]; omega
        rw [hv', Res.ok_bind, hu, Res.ok_bind, if_pos hi]
        dsimp only
        have hdp : descPoly (div.set (offset - sd) (c.tdiv rf))
            = descPoly div + C (c.tdiv rf) * X ^ (sd - rd) := by
          rw [descPoly_set _ _ _ hi (hz _ le_rfl)]
          congr 3
          rw [hlen]; omega
        have hred := red_step t hbits hvp
        have hP' := (inRange_descPoly t rem').1 hin'
        have hback : ∀ {Q T}, IsWrapQuot t (descPoly rem) (descPoly b) Q T →
            IsWrapQuot t (descPoly rem') (descPoly b) Q.eraseLead T := by
          intro Q T h
          obtain ⟨_, l2, l3⟩ := hlead h
          refine h.unround ?_
          rw [hred, l2, l3, Int.mul_tdiv_cancel _ hrf]
        by_cases hdv : rf ∣ c
        · have hsb : c.tdiv rf * rf = c := Int.tdiv_mul_cancel hdv
          -- the leading term goes
          have hco : ∀ d, sd ≤ d → (descPoly rem').coeff d = 0 := by
            intro d hd
            have hbc : (descPoly b).coeff rd = rf := by rw [← hbn]; exact hbl
            have hrc : (descPoly rem).coeff sd = c := by
              rw [← natDegree_eq_of_degree_eq_some hrd]; exact hrl
            rw [hvp d, coeff_sub, mul_assoc, coeff_C_mul, coeff_X_pow_mul', if_pos (by omega)]
            rcases eq_or_ne d sd with rfl | hne
            · rw [Nat.sub_sub_self hle, hbc, hsb, hrc, sub_self, t.wrap_zero]
            · rw [coeff_eq_zero_of_degree_lt (by rw [hrd]; exact_mod_cast (show sd < d by omega)),
                coeff_eq_zero_of_degree_lt (by rw [hbd]; exact_mod_cast (show rd < d - (sd - rd) by omega)), mul_zero,
                sub_zero, t.wrap_zero]
          have hdeg : (descPoly rem').degree < ((sd - rd + (descPoly b).natDegree : ℕ) : WithBot ℕ) := by
            rw [hbn, Nat.sub_add_cancel hle, degree_lt_iff_coeff_zero]
            exact fun d hd => hco d (by exact_mod_cast hd)
          have hround : ∀ {Q T}, IsWrapQuot t (descPoly rem') (descPoly b) Q T →
              IsWrapQuot t (descPoly rem) (descPoly b) (C (c.tdiv rf) * X ^ (sd - rd) + Q) T := fun h =>
            h.round (h.degree_lt hbits hP' hdeg) hs (by rw [hbl, hsb]; exact hcin) hred
          cases hf : firstTerm rem' with
          | zeroTerm =>
            refine .inr (.inr ⟨_, _, rfl, ?_⟩)
            have := hround (isWrapQuot_zero hP' (by rw [firstTerm_zero_poly.1 hf, hbd]; exact WithBot.bot_lt_coe _))
            rw [hdp, add_sub_cancel_left]
            rwa [add_zero] at this
          | term c' sd' =>
            obtain ⟨hc', hrd', hrl'⟩ := firstTerm_poly hf
            have hlt : sd' < sd := by
              by_contra h
              have := hco sd' (by omega)
              rw [← natDegree_eq_of_degree_eq_some hrd'] at this
              exact hc' (hrl' ▸ this)
            dsimp only
            rcases ih c' sd' rem' (div.set (offset - sd) (c.tdiv rf)) hf hin' (by omega) (by simpa using hlen)
              (fun j hj => by
                have hne : offset - sd ≠ j := by omega
                have := hz j (by omega)
                rw [List.getD_eq_getElem?_getD] at this ⊢
                rw [List.getElem?_set_ne hne, this]) with ⟨h, h'⟩ | ⟨h, h', h''⟩ | ⟨div', rem'', h1, h2⟩
            · refine .inl ⟨h, fun hf => ?_⟩
              obtain ⟨g1, g2⟩ := h' (by omega)
              exact ⟨g1, fun ⟨Q, T, hq⟩ => g2 ⟨_, _, hback hq⟩⟩
            · exact .inr (.inl ⟨h, h', fun ⟨Q, T, hq⟩ => h'' ⟨_, _, hback hq⟩⟩)
            · refine .inr (.inr ⟨div', rem'', h1, ?_⟩)
              have := hround h2
              rw [hdp] at this
              rwa [show descPoly div' - descPoly div = C (c.tdiv rf) * X ^ (sd - rd) +
                (descPoly div' - (descPoly div + C (c.tdiv rf) * X ^ (sd - rd))) by ring]
        · -- stuck
          have hno : rf ≠ -1 ∧ ¬ ∃ Q T, IsWrapQuot t (descPoly rem) (descPoly b) Q T := by
            refine ⟨fun h => hdv (h ▸ (Int.neg_dvd.2 (one_dvd c))), fun ⟨Q, T, hq⟩ => hdv ?_⟩
            rw [(hlead hq).2.2]; exact dvd_mul_left _ _
          have hbc : (descPoly b).coeff rd = rf := by rw [← hbn]; exact hbl
          have hrc : (descPoly rem).coeff sd = c := by
            rw [← natDegree_eq_of_degree_eq_some hrd]; exact hrl
          have hm : c.tmod rf ≠ 0 := fun h => hdv (Int.dvd_of_tmod_eq_zero h)
          have hsd : (descPoly rem').coeff sd = c.tmod rf := by
            rw [hvp sd, coeff_sub, mul_assoc, coeff_C_mul, coeff_X_pow_mul', if_pos (by omega), Nat.sub_sub_self hle, hbc, hrc]
            have := Int.mul_tdiv_add_tmod c rf
            rw [show c - c.tdiv rf * rf = c.tmod rf by linarith]
            exact t.wrap_of_inRange hbits _ (tmod_inRange t hcin rf)
          cases hf : firstTerm rem' with
          | zeroTerm =>
            rw [firstTerm_zero_poly.1 hf, coeff_zero] at hsd
            exact absurd hsd.symm hm
          | term c' sd' =>
            obtain ⟨w1, w2⟩ := wrap_step t hbits hr hb hle hin hvp hf
            have w3 : sd ≤ sd' := by
              have := le_degree_of_ne_zero (p := descPoly rem') (n := sd) (by rw [hsd]; exact hm)
              rw [(firstTerm_poly hf).2.1] at this
              exact_mod_cast this
            obtain rfl : sd' = sd := by omega
            have hz' : c'.tdiv rf = 0 := by rw [w2 rfl]; exact tdiv_tmod_self c rf
            exact .inl ⟨(wrap_divModLoopM_stuck t hbits hb hz' hle hoff fuel _ _ hf hin' (by simpa using hlen)).1, fun _ => hno⟩
      · right; left
        rw [machine_div_panic hs]
        refine ⟨rfl, overflow_cause t hr hin hrf hbr hs, fun ⟨Q, T, hq⟩ => hs ?_⟩
        rw [(hlead hq).2.2, Int.mul_tdiv_cancel _ hrf]
        exact hq.1 _
    · rw [if_neg hle]
      refine .inr (.inr ⟨_, _, rfl, ?_⟩)
      rw [sub_self]
      exact isWrapQuot_zero hP (by rw [hrd, hbd]; exact_mod_cast Nat.lt_of_not_le hle)

/-- A quotient of the leading coefficients which overflows leaves only a remainder alone. -/
theorem wrapQuot_bad (hbits : 1 ≤ t.bits) {rem b : List Int} {c rf : Int} {sd rd : Nat} (hr : firstTerm rem = .term c sd)
    (hb : firstTerm b = .term rf rd) (hin : AllIn t rem) (hs : ¬ t.InRange (c.tdiv rf)) (Q T : ℤ[X])
    (h : IsWrapQuot t (descPoly rem) (descPoly b) Q T) : T ≠ 0 ∧ ¬ t.InRange (T.leadingCoeff.tdiv rf) := by
  obtain ⟨hrf, hbd, hbl⟩ := firstTerm_poly hb
  obtain ⟨hc, hrd, hrl⟩ := firstTerm_poly hr
  obtain ⟨t1, t2⟩ := h.top hbits ((inRange_descPoly t rem).1 hin)
  rcases eq_or_ne Q 0 with h0 | h0
  · rw [← t1 h0, hrl]
    exact ⟨fun h => hc (by rw [← hrl, h, leadingCoeff_zero]), hs⟩
  · have := (t2 h0).2
    rw [hrl, hbl] at this
    rw [this, Int.mul_tdiv_cancel _ hrf] at hs
    exact absurd (h.1 _) hs

theorem wrapQuot_remAssignLoopM (hbits : 1 ≤ t.bits) {b : List Int} {rf : Int} {rd : Nat} (hb : firstTerm b = .term rf rd)
    (hbr : t.InRange rf) :
    ∀ (fuel : Nat) (c : Int) (sd : Nat) (rem : List Int), firstTerm rem = .term c sd → AllIn t rem →
    (((Arith2.machine false t).div c rf >>= fun s => Poly.remAssignLoopM (.machine false t) b rf rd fuel s sd rem) = .fuel ∧
      (sd + 2 ≤ fuel → rf ≠ -1 ∧ ¬ ∃ Q T, IsWrapQuot t (descPoly rem) (descPoly b) Q T)) ∨
    (((Arith2.machine false t).div c rf >>= fun s => Poly.remAssignLoopM (.machine false t) b rf rd fuel s sd rem) = .panic ∧
      (t.signed = true ∧ rf = -1) ∧
      ∀ Q T, IsWrapQuot t (descPoly rem) (descPoly b) Q T → T ≠ 0 ∧ ¬ t.InRange (T.leadingCoeff.tdiv rf)) ∨
    ∃ rem' Q, ((Arith2.machine false t).div c rf >>= fun s => Poly.remAssignLoopM (.machine false t) b rf rd fuel s sd rem) = .ok rem' ∧
      IsWrapQuot t (descPoly rem) (descPoly b) Q (descPoly rem') ∧
      (descPoly rem' = 0 ∨ t.InRange ((descPoly rem').leadingCoeff.tdiv rf)) := by
  obtain ⟨hrf, hbd, hbl⟩ := firstTerm_poly hb
  have hbn : (descPoly b).natDegree = rd := natDegree_eq_of_degree_eq_some hbd
  intro fuel
  induction fuel with
  | zero =>
    intro c sd rem hr hin
    by_cases hs : t.InRange (c.tdiv rf)
    · rw [machine_div_ok hrf hs, Res.ok_bind]
      exact .inl ⟨rfl, fun h => by omega⟩
    · rw [machine_div_panic hs]
      exact .inr (.inl ⟨rfl, overflow_cause t hr hin hrf hbr hs, wrapQuot_bad t hbits hr hb hin hs⟩)
  | succ fuel ih =>
    intro c sd rem hr hin
    obtain ⟨hc, hrd, hrl⟩ := firstTerm_poly hr
    have hP := (inRange_descPoly t rem).1 hin
    have hcin : t.InRange c := by rw [← hrl]; exact hP _
    by_cases hs : t.InRange (c.tdiv rf)
    swap
    · rw [machine_div_panic hs]
      exact .inr (.inl ⟨rfl, overflow_cause t hr hin hrf hbr hs, wrapQuot_bad t hbits hr hb hin hs⟩)
    rw [machine_div_ok hrf hs, Res.ok_bind]
    unfold Poly.remAssignLoopM
    by_cases hle : rd ≤ sd
    · rw [if_pos hle]
      -- what a quotient has to look like
      have hlead : ∀ {Q T}, IsWrapQuot t (descPoly rem) (descPoly b) Q T →
          Q ≠ 0 ∧ Q.natDegree = sd - rd ∧ c = Q.leadingCoeff * rf := by
        intro Q T h
        obtain ⟨t1, t2⟩ := h.top hbits hP
        have h0 : Q ≠ 0 := fun h0 => by
          have := h.2.2.1
          rw [← t1 h0, hrd, hbd] at this
          have : sd < rd := by exact_mod_cast this
          omega
        obtain ⟨t3, t4⟩ := t2 h0
        rw [hrd, hbn] at t3
        have : sd = Q.natDegree + rd := by exact_mod_cast t3
        exact ⟨h0, by omega, by rw [← hrl, t4, hbl]⟩
      · obtain ⟨rem', hv, hvl, hin', hvp⟩ := vecSubWScaleM_wrap t hbits (c.tdiv rf) hr hb hle hin
        have hv' : vecSubWScaleM (Arith2.machine false t).toArith rem sd b rd (c.tdiv rf) = .ok rem' := hv
        rw [hv', Res.ok_bind]
        have hred := red_step t hbits hvp
        have hP' := (inRange_descPoly t rem').1 hin'
        have hback : ∀ {Q T}, IsWrapQuot t (descPoly rem) (descPoly b) Q T →
            IsWrapQuot t (descPoly rem') (descPoly b) Q.eraseLead T := by
          intro Q T h
          obtain ⟨_, l2, l3⟩ := hlead h
          refine h.unround ?_
          rw [hred, l2, l3, Int.mul_tdiv_cancel _ hrf]
        by_cases hdv : rf ∣ c
        · have hsb : c.tdiv rf * rf = c := Int.tdiv_mul_cancel hdv
          -- the leading term goes
          have hco : ∀ d, sd ≤ d → (descPoly rem').coeff d = 0 := by
            intro d hd
            have hbc : (descPoly b).coeff rd = rf := by rw [← hbn]; exact hbl
            have hrc : (descPoly rem).coeff sd = c := by
              rw [← natDegree_eq_of_degree_eq_some hrd]; exact hrl
            rw [hvp d, coeff_sub, mul_assoc, coeff_C_mul, coeff_X_pow_mul', if_pos (by omega)]
            rcases eq_or_ne d sd with rfl | hne
            · rw [Nat.sub_sub_self hle, hbc, hsb, hrc, sub_self, t.wrap_zero]
            · rw [coeff_eq_zero_of_degree_lt (by rw [hrd]; exact_mod_cast (show sd < d by omega)),
                coeff_eq_zero_of_degree_lt (by rw [hbd]; exact_mod_cast (show rd < d - (sd - rd) by omega)), mul_zero,
                sub_zero, t.wrap_zero]
          have hdeg : (descPoly rem').degree < ((sd - rd + (descPoly b).natDegree : ℕ) : WithBot ℕ) := by
            rw [hbn, Nat.sub_add_cancel hle, degree_lt_iff_coeff_zero]
            exact fun d hd => hco d (by exact_mod_cast hd)
          have hround : ∀ {Q T}, IsWrapQuot t (descPoly rem') (descPoly b) Q T →
              IsWrapQuot t (descPoly rem) (descPoly b) (C (c.tdiv rf) * X ^ (sd - rd) + Q) T := fun h =>
            h.round (h.degree_lt hbits hP' hdeg) hs (by rw [hbl, hsb]; exact hcin) hred
          cases hf : firstTerm rem' with
          | zeroTerm =>
            exact .inr (.inr ⟨_, _, rfl, hround (isWrapQuot_zero hP' (by
              rw [firstTerm_zero_poly.1 hf, hbd]; exact WithBot.bot_lt_coe _)), .inl (firstTerm_zero_poly.1 hf)⟩)
          | term c' sd' =>
            obtain ⟨hc', hrd', hrl'⟩ := firstTerm_poly hf
            have hlt : sd' < sd := by
              by_contra h
              have := hco sd' (by omega)
              rw [← natDegree_eq_of_degree_eq_some hrd'] at this
              exact hc' (hrl' ▸ this)
            dsimp only
            rcases ih c' sd' rem' hf hin' with ⟨h, h'⟩ | ⟨h, h', h''⟩ | ⟨rem'', Q, h1, h2, h3⟩
            · refine .inl ⟨h, fun hf => ?_⟩
              obtain ⟨g1, g2⟩ := h' (by omega)
              exact ⟨g1, fun ⟨Q, T, hq⟩ => g2 ⟨_, _, hback hq⟩⟩
            · exact .inr (.inl ⟨h, h', fun Q T hq => h'' _ _ (hback hq)⟩)
            · exact .inr (.inr ⟨rem'', _, h1, hround h2, h3⟩)
        · -- stuck
          have hno : rf ≠ -1 ∧ ¬ ∃ Q T, IsWrapQuot t (descPoly rem) (descPoly b) Q T := by
            refine ⟨fun h => hdv (h ▸ (Int.neg_dvd.2 (one_dvd c))), fun ⟨Q, T, hq⟩ => hdv ?_⟩
            rw [(hlead hq).2.2]; exact dvd_mul_left _ _
          have hbc : (descPoly b).coeff rd = rf := by rw [← hbn]; exact hbl
          have hrc : (descPoly rem).coeff sd = c := by
            rw [← natDegree_eq_of_degree_eq_some hrd]; exact hrl
          have hm : c.tmod rf ≠ 0 := fun h => hdv (Int.dvd_of_tmod_eq_zero h)
          have hsd : (descPoly rem').coeff sd = c.tmod rf := by
            rw [hvp sd, coeff_sub, mul_assoc, coeff_C_mul, coeff_X_pow_mul', if_pos (by omega), Nat.sub_sub_self hle, hbc, hrc]
            have := Int.mul_tdiv_add_tmod c rf
            rw [show c - c.tdiv rf * rf = c.tmod rf by linarith]
            exact t.wrap_of_inRange hbits _ (tmod_inRange t hcin rf)
          cases hf : firstTerm rem' with
          | zeroTerm =>
            rw [firstTerm_zero_poly.1 hf, coeff_zero] at hsd
            exact absurd hsd.symm hm
          | term c' sd' =>
            obtain ⟨w1, w2⟩ := wrap_step t hbits hr hb hle hin hvp hf
            have w3 : sd ≤ sd' := by
              have := le_degree_of_ne_zero (p := descPoly rem') (n := sd) (by rw [hsd]; exact hm)
              rw [(firstTerm_poly hf).2.1] at this
              exact_mod_cast this
            obtain rfl : sd' = sd := by omega
            have hz' : c'.tdiv rf = 0 := by rw [w2 rfl]; exact tdiv_tmod_self c rf
            dsimp only
            rw [machine_div_ok hrf (by rw [hz']; exact t.zero_inRange), Res.ok_bind, hz']
            exact .inl ⟨(wrap_divModLoopM_stuck t hbits hb hz' hle le_rfl fuel _ (List.replicate (sd' - rd + 1) 0) hf hin'
              (by simp)).2, fun _ => hno⟩
    · rw [if_neg hle]
      refine .inr (.inr ⟨_, 0, rfl, isWrapQuot_zero hP (by rw [hrd, hbd]; exact_mod_cast Nat.lt_of_not_le hle), .inr ?_⟩)
      rw [hrl]; exact hs

/-- C82, the exact outcome of `div_mod` and `floor_div` of dense polynomials without overflow checks, for a nonzero divisor.
When a quotient and a remainder modulo `2 ^ bits` exist for which no product with the leading coefficient of the divisor wraps,
they are returned.  Otherwise, if the type is signed and the leading coefficient of the divisor is `-1`, there is a panic; if not,
the functions do not return. -/
theorem C82_dense_div_mod_exact (hbits : 1 ≤ t.bits) (p b : Poly Int) (hp : AllIn t p.terms) (hbr : AllIn t b.terms)
    (hb : descPoly b.terms ≠ 0) :
    (∀ Q T, IsWrapQuot t (descPoly p.terms) (descPoly b.terms) Q T → ∀ fuel, p.terms.length + 1 ≤ fuel →
      ∃ q r, p.divModM (.machine false t) fuel b = .ok (q, r) ∧ p.floorDivM (.machine false t) fuel b = .ok q ∧
        descPoly q.terms = Q ∧ descPoly r.terms = T) ∧
    ((¬ ∃ Q T, IsWrapQuot t (descPoly p.terms) (descPoly b.terms) Q T) →
      (t.signed = true ∧ (descPoly b.terms).leadingCoeff = -1 → ∀ fuel, p.terms.length + 1 ≤ fuel →
        p.divModM (.machine false t) fuel b = .panic ∧ p.floorDivM (.machine false t) fuel b = .panic) ∧
      (¬ (t.signed = true ∧ (descPoly b.terms).leadingCoeff = -1) → ∀ fuel,
        p.divModM (.machine false t) fuel b = .fuel ∧ p.floorDivM (.machine false t) fuel b = .fuel)) := by
  have hP := (inRange_descPoly t p.terms).1 hp
  have key : ∀ fuel, (p.divModM (.machine false t) fuel b = .fuel ∧ (p.terms.length + 1 ≤ fuel →
        (descPoly b.terms).leadingCoeff ≠ -1 ∧ ¬ ∃ Q T, IsWrapQuot t (descPoly p.terms) (descPoly b.terms) Q T)) ∨
      (p.divModM (.machine false t) fuel b = .panic ∧ (t.signed = true ∧ (descPoly b.terms).leadingCoeff = -1) ∧
        ¬ ∃ Q T, IsWrapQuot t (descPoly p.terms) (descPoly b.terms) Q T) ∨
      ∃ q r, p.divModM (.machine false t) fuel b = .ok (q, r) ∧
        IsWrapQuot t (descPoly p.terms) (descPoly b.terms) (descPoly q.terms) (descPoly r.terms) := by
    intro fuel
    unfold Poly.divModM
    cases hbf : firstTerm b.terms with
    | zeroTerm => exact absurd (firstTerm_zero_poly.1 hbf) hb
    | term rf rd =>
      obtain ⟨hrf, hbd, hbl⟩ := firstTerm_poly hbf
      have hbin : t.InRange rf := by
        rw [← hbl]; exact (inRange_descPoly t b.terms).1 hbr _
      have hz0 : descPoly (Poly.zero : Poly Int).terms = 0 := by simp [Poly.zero]
      cases hpf : firstTerm p.terms with
      | zeroTerm =>
        refine .inr (.inr ⟨_, _, rfl, ?_⟩)
        rw [hz0]
        exact isWrapQuot_zero hP (by rw [firstTerm_zero_poly.1 hpf, hbd]; exact WithBot.bot_lt_coe _)
      | term c d =>
        simp only
        by_cases hlt : d < rd
        · rw [if_pos hlt]
          refine .inr (.inr ⟨_, _, rfl, ?_⟩)
          rw [hz0]
          exact isWrapQuot_zero hP (by rw [(firstTerm_poly hpf).2.1, hbd]; exact_mod_cast hlt)
        · rw [if_neg hlt]
          have hdl : d + 1 ≤ p.terms.length := by obtain ⟨_, _, _, h, _⟩ := firstTerm_term hpf; exact h
          rcases wrapQuot_divModLoopM t hbits hbf hbin fuel c d p.terms (List.replicate (d - rd + 1) 0) hpf hp le_rfl (by simp)
            (fun j _ => by
              rw [List.getD_eq_getElem?_getD, List.getElem?_replicate]; split <;> rfl)
            with ⟨h, h'⟩ | ⟨h, h'⟩ | ⟨div', rem', h1, h2⟩
          · left; rw [h, hbl]; exact ⟨rfl, fun e => h' (by omega)⟩
          · right; left; rw [h, hbl]; exact ⟨rfl, h'⟩
          · refine .inr (.inr ⟨_, _, by rw [h1]; rfl, ?_⟩)
            rw [C01_new_same_polynomial, C01_new_same_polynomial]
            rwa [descPoly_replicate_zero, sub_zero] at h2
  have kf : ∀ fuel, (p.divModM (.machine false t) fuel b = .fuel → p.floorDivM (.machine false t) fuel b = .fuel) ∧
      (p.divModM (.machine false t) fuel b = .panic → p.floorDivM (.machine false t) fuel b = .panic) := fun fuel =>
    ⟨fun h => by unfold Poly.floorDivM; rw [h]; rfl, fun h => by unfold Poly.floorDivM; rw [h]; rfl⟩
  refine ⟨fun Q T h fuel hf => ?_, fun hno => ⟨fun hc fuel hf => ?_, fun hc fuel => ?_⟩⟩
  · rcases key fuel with ⟨_, h'⟩ | ⟨_, _, h'⟩ | ⟨q, r, h1, h2⟩
    · exact absurd ⟨Q, T, h⟩ (h' hf).2
    · exact absurd ⟨Q, T, h⟩ h'
    · obtain ⟨e1, e2⟩ := h2.unique hbits h
      exact ⟨q, r, h1, by unfold Poly.floorDivM; rw [h1]; rfl, e1, e2⟩
  · rcases key fuel with ⟨_, h'⟩ | ⟨h, _, _⟩ | ⟨q, r, _, h2⟩
    · exact absurd hc.2 (h' hf).1
    · exact ⟨h, (kf fuel).2 h⟩
    · exact absurd ⟨_, _, h2⟩ hno
  · rcases key fuel with ⟨h, _⟩ | ⟨_, h', _⟩ | ⟨q, r, _, h2⟩
    · exact ⟨h, (kf fuel).1 h⟩
    · exact absurd h' hc
    · exact absurd ⟨_, _, h2⟩ hno

/-- C82, the exact outcome of `%=` of dense polynomials without overflow checks, for a nonzero divisor: the remainder of
`div_mod`, except that it panics when a term of the quotient was found and the remainder left, not zero, has a leading coefficient
whose quotient by the divisor's overflows (`MIN / -1`).  Where `div_mod` does not return or panics, so does `%=`. -/
theorem C82_dense_rem_assign_exact (hbits : 1 ≤ t.bits) (p b : Poly Int) (hp : AllIn t p.terms) (hbr : AllIn t b.terms)
    (hb : descPoly b.terms ≠ 0) :
    (∀ Q T, IsWrapQuot t (descPoly p.terms) (descPoly b.terms) Q T → ∀ fuel, p.terms.length + 1 ≤ fuel →
      (Q = 0 ∨ T = 0 ∨ t.InRange (T.leadingCoeff.tdiv (descPoly b.terms).leadingCoeff) →
        ∃ r, p.remAssignM (.machine false t) fuel b = .ok r ∧ descPoly r.terms = T) ∧
      (Q ≠ 0 ∧ T ≠ 0 ∧ ¬ t.InRange (T.leadingCoeff.tdiv (descPoly b.terms).leadingCoeff) →
        p.remAssignM (.machine false t) fuel b = .panic)) ∧
    ((¬ ∃ Q T, IsWrapQuot t (descPoly p.terms) (descPoly b.terms) Q T) →
      (t.signed = true ∧ (descPoly b.terms).leadingCoeff = -1 → ∀ fuel, p.terms.length + 1 ≤ fuel →
        p.remAssignM (.machine false t) fuel b = .panic) ∧
      (¬ (t.signed = true ∧ (descPoly b.terms).leadingCoeff = -1) → ∀ fuel,
        p.remAssignM (.machine false t) fuel b = .fuel)) := by
  have hP := (inRange_descPoly t p.terms).1 hp
  by_cases hsm : (descPoly p.terms).degree < (descPoly b.terms).degree
  · have hq := isWrapQuot_zero hP hsm
    refine ⟨fun Q T h fuel hf => ?_, fun hno => absurd ⟨_, _, hq⟩ hno⟩
    obtain ⟨rfl, rfl⟩ := hq.unique hbits h
    refine ⟨fun _ => ⟨p, ?_, rfl⟩, fun h => absurd rfl h.1⟩
    unfold Poly.remAssignM
    cases hbf : firstTerm b.terms with
    | zeroTerm => exact absurd (firstTerm_zero_poly.1 hbf) hb
    | term rf rd =>
      cases hpf : firstTerm p.terms with
      | zeroTerm => rfl
      | term c d =>
        rw [(firstTerm_poly hbf).2.1, (firstTerm_poly hpf).2.1] at hsm
        simp only
        rw [if_pos (by exact_mod_cast hsm)]
  have hQ0 : ∀ {Q T}, IsWrapQuot t (descPoly p.terms) (descPoly b.terms) Q T → Q ≠ 0 := fun h h0 =>
    hsm (by rw [(h.top hbits hP).1 h0]; exact h.2.2.1)
  have key : ∀ fuel, (p.remAssignM (.machine false t) fuel b = .fuel ∧ (p.terms.length + 1 ≤ fuel →
        (descPoly b.terms).leadingCoeff ≠ -1 ∧ ¬ ∃ Q T, IsWrapQuot t (descPoly p.terms) (descPoly b.terms) Q T)) ∨
      (p.remAssignM (.machine false t) fuel b = .panic ∧ (t.signed = true ∧ (descPoly b.terms).leadingCoeff = -1) ∧
        ∀ Q T, IsWrapQuot t (descPoly p.terms) (descPoly b.terms) Q T →
          T ≠ 0 ∧ ¬ t.InRange (T.leadingCoeff.tdiv (descPoly b.terms).leadingCoeff)) ∨
      ∃ r Q, p.remAssignM (.machine false t) fuel b = .ok r ∧
        IsWrapQuot t (descPoly p.terms) (descPoly b.terms) Q (descPoly r.terms) ∧
        (descPoly r.terms = 0 ∨ t.InRange ((descPoly r.terms).leadingCoeff.tdiv (descPoly b.terms).leadingCoeff)) := by
    intro fuel
    unfold Poly.remAssignM
    cases hbf : firstTerm b.terms with
    | zeroTerm => exact absurd (firstTerm_zero_poly.1 hbf) hb
    | term rf rd =>
      obtain ⟨hrf, hbd, hbl⟩ := firstTerm_poly hbf
      have hbin : t.InRange rf := by
        rw [← hbl]; exact (inRange_descPoly t b.terms).1 hbr _
      cases hpf : firstTerm p.terms with
      | zeroTerm =>
        exact absurd (by rw [firstTerm_zero_poly.1 hpf, hbd]; exact WithBot.bot_lt_coe _) hsm
      | term c d =>
        simp only
        have hlt : ¬ d < rd := fun h => hsm (by rw [(firstTerm_poly hpf).2.1, hbd]; exact_mod_cast h)
        rw [if_neg hlt]
        have hdl : d + 1 ≤ p.terms.length := by obtain ⟨_, _, _, h, _⟩ := firstTerm_term hpf; exact h
        rw [← bind_assoc, hbl]
        rcases wrapQuot_remAssignLoopM t hbits hbf hbin fuel c d p.terms hpf hp
          with ⟨h, h'⟩ | ⟨h, h'⟩ | ⟨rem', Q, h1, h2⟩
        · left; rw [h]; exact ⟨rfl, fun e => h' (by omega)⟩
        · right; left; rw [h]; exact ⟨rfl, h'⟩
        · exact .inr (.inr ⟨⟨rem'⟩, Q, by rw [h1]; rfl, h2⟩)
  refine ⟨fun Q T h fuel hf => ⟨fun hc => ?_, fun hc => ?_⟩, fun hno => ⟨fun hc fuel hf => ?_, fun hc fuel => ?_⟩⟩
  · rcases key fuel with ⟨_, h'⟩ | ⟨_, _, h'⟩ | ⟨r, Q', h1, h2, h3⟩
    · exact absurd ⟨Q, T, h⟩ (h' hf).2
    · obtain ⟨g1, g2⟩ := h' Q T h
      rcases hc with hc | hc | hc
      · exact absurd hc (hQ0 h)
      · exact absurd hc g1
      · exact absurd hc g2
    · exact ⟨r, h1, (h2.unique hbits h).2⟩
  · rcases key fuel with ⟨_, h'⟩ | ⟨h', _, _⟩ | ⟨r, Q', h1, h2, h3⟩
    · exact absurd ⟨Q, T, h⟩ (h' hf).2
    · exact h'
    · rw [(h2.unique hbits h).2] at h3
      rcases h3 with h3 | h3
      · exact absurd h3 hc.2.1
      · exact absurd h3 hc.2.2
  · rcases key fuel with ⟨_, h'⟩ | ⟨h, _, _⟩ | ⟨r, Q', _, h2, _⟩
    · exact absurd hc.2 (h' hf).1
    · exact h
    · exact absurd ⟨_, _, h2⟩ hno
  · rcases key fuel with ⟨h, _⟩ | ⟨_, h', _⟩ | ⟨r, Q', _, h2, _⟩
    · exact h
    · exact absurd h' hc
    · exact absurd ⟨_, _, h2⟩ hno

end

/-! ## Examples in `u8` and `i8` -/

/-- `2x / (2x + 255)` in `u8` is `1` with the remainder `1`: the hypothesis of the first part is met. -/
example : let t : IntTy := ⟨false, 8⟩
    IsWrapQuot t (descPoly [2, 0]) (descPoly [2, 255]) 1 1 ∧
    Poly.divModM (.machine false t) 3 ⟨[2, 0]⟩ ⟨[2, 255]⟩ = .ok (⟨[1]⟩, ⟨[1]⟩) ∧
    Poly.remAssignM (.machine false t) 3 ⟨[2, 0]⟩ ⟨[2, 255]⟩ = .ok ⟨[0, 1]⟩ := by
  intro t
  have hl : (descPoly [2, 255] : ℤ[X]).degree = (1 : ℕ) ∧ (descPoly [2, 255] : ℤ[X]).leadingCoeff = 2 :=
    (firstTerm_poly (show firstTerm [(2 : ℤ), 255] = .term 2 1 by decide)).2
  refine ⟨⟨fun d => ?_, fun d => ?_, ?_, fun d => ?_, fun d => ?_⟩, by decide, by decide⟩
  · rw [coeff_one]; split <;> decide
  · rw [coeff_one]; split <;> decide
  · rw [hl.1, degree_one]; exact_mod_cast Nat.zero_lt_one
  · have e : (descPoly [2, 0] - (1 * descPoly [2, 255] + 1) : ℤ[X]) = C (-256) := by
      simp [descPoly]; ring_nf
    rw [e, coeff_C]; split <;> decide
  · rw [hl.2, coeff_one]; split <;> decide

/-- `3x / 2x` does not return in `u8`: there is no quotient and no remainder. -/
example : let t : IntTy := ⟨false, 8⟩
    (¬ ∃ Q T, IsWrapQuot t (descPoly [3, 0]) (descPoly [2, 0]) Q T) ∧
    ∀ fuel, Poly.divModM (.machine false t) fuel ⟨[3, 0]⟩ ⟨[2, 0]⟩ = .fuel := by
  intro t
  have hb : descPoly (⟨[2, 0]⟩ : Poly Int).terms ≠ 0 := fun h0 => absurd (firstTerm_zero_poly.2 h0) (by decide)
  obtain ⟨h1, h2⟩ := C82_dense_div_mod_exact t (by decide) ⟨[3, 0]⟩ ⟨[2, 0]⟩ (by unfold AllIn; decide) (by unfold AllIn; decide) hb
  have hno : ¬ ∃ Q T, IsWrapQuot t (descPoly [3, 0]) (descPoly [2, 0]) Q T := by
    rintro ⟨Q, T, h⟩
    obtain ⟨q, r, h3, _⟩ := h1 Q T h 3 (by decide)
    have : Poly.divModM (.machine false t) 3 ⟨[3, 0]⟩ ⟨[2, 0]⟩ = .fuel := by decide
    rw [this] at h3; exact absurd h3 (by simp)
  exact ⟨hno, fun fuel => ((h2 hno).2 (by simp [t]) fuel).1⟩

/-- `MIN * x / (-x)` panics in `i8`, and so does `%=` for `(-x + MIN) / (-x)`, which `div_mod` computes. -/
example : let t : IntTy := ⟨true, 8⟩
    Poly.divModM (.machine false t) 3 ⟨[-128, 0]⟩ ⟨[-1, 0]⟩ = .panic ∧
    Poly.divModM (.machine false t) 3 ⟨[-1, -128]⟩ ⟨[-1, 0]⟩ = .ok (⟨[1]⟩, ⟨[-128]⟩) ∧
    Poly.remAssignM (.machine false t) 3 ⟨[-1, -128]⟩ ⟨[-1, 0]⟩ = .panic := by decide

end Rustnomial
