import Verif.SpecMachineDiv
import Verif.Props.MachineLoops
import Mathlib.Algebra.Polynomial.EraseLead

/-!
# C99: dense division of machine integers with overflow checks, in every case
-/

open Polynomial

namespace Rustnomial

section
variable (t : IntTy)

theorem zip_fits {xs ys : List Int} {s : Int} (hl : ys.length ≤ xs.length) (hx : ∀ x ∈ xs, t.InRange x) :
    (∀ z ∈ xs.zip ys, t.InRange (z.2 * s) ∧ t.InRange (z.1 - z.2 * s)) ↔
      (∀ y ∈ ys, t.InRange (y * s)) ∧ ∀ z ∈ zipMut (fun l r => l - r * s) xs ys, t.InRange z := by
  rw [← zipMut_all (g := fun l r => l - r * s) (R := t.InRange) xs ys hx]
  constructor
  · intro h
    refine ⟨fun y hy => ?_, fun z hz => (h z hz).2⟩
    obtain ⟨i, hi, rfl⟩ := List.getElem_of_mem hy
    have : (xs[i], ys[i]) ∈ xs.zip ys := by
      rw [List.mem_iff_getElem]
      exact ⟨i, by simp; omega, by simp⟩
    exact (h _ this).1
  · rintro ⟨h1, h2⟩ z hz
    exact ⟨h1 _ (List.of_mem_zip hz).2, h2 z hz⟩

theorem coeff_all {b : List Int} {rf : Int} {rd : Nat} (hb : firstTerm b = .term rf rd) (s : Int) :
    (∀ y ∈ b.drop (b.length - rd - 1), t.InRange (y * s)) ↔ ∀ j, t.InRange (s * (descPoly b).coeff j) := by
  obtain ⟨ws, b1, b2, b3, b4, _⟩ := firstTerm_term hb
  have h := inRange_descPoly t ((b.drop (b.length - rd - 1)).map (s * ·))
  have e : descPoly ((b.drop (b.length - rd - 1)).map (s * ·)) = C s * descPoly b := by
    rw [descPoly_map_mul_left, b4, ← b1, descPoly_dropWhile]
  rw [e] at h
  simp only [coeff_C_mul] at h
  rw [← h]
  simp only [List.forall_mem_map, mul_comm s]

theorem chk_vecSub {rem b : List Int} {c rf s : Int} {sd rd : Nat} (hr : firstTerm rem = .term c sd)
    (hb : firstTerm b = .term rf rd) (hle : rd ≤ sd) (hin : ∀ x ∈ rem, t.InRange x) (hs : t.InRange s) :
    ∃ rem', Chk (RoundFits t (descPoly rem) (descPoly b) s (sd - rd)) (vecSubWScaleM (.machine true t) rem sd b rd s) rem' ∧
      rem'.length = rem.length ∧ descPoly rem' = descPoly rem - C s * X ^ (sd - rd) * descPoly b := by
  obtain ⟨vs, _, _, r3, _, _⟩ := firstTerm_term hr
  obtain ⟨ws, _, _, b3, _, _⟩ := firstTerm_term hb
  obtain ⟨rem', h1, h2, h3⟩ := vecSubWScale_poly s hr hb hle
  refine ⟨rem', ?_, h2, h3⟩
  rw [vecSubWScaleM_eq _ s r3 b3]
  rw [vecSubWScale_ok s r3 b3] at h1
  cases h1
  have hc : ∀ x y : Int, Chk (t.InRange (y * s) ∧ t.InRange (x - y * s))
      ((Arith.machine true t).mul y s >>= fun v => (Arith.machine true t).sub x v) (x - y * s) := fun x y =>
    (chk_result t (y * s)).bind (fun _ => chk_result t (x - y * s))
  refine ((chk_zipMutM hc (rem.drop (rem.length - sd - 1)) (b.drop (b.length - rd - 1))).map
    (fun tail => rem.take (rem.length - sd - 1) ++ tail)).of_iff ?_
  rw [zip_fits t (by simp; omega) (inRange_drop hin _), coeff_all t hb]
  have e := inRange_descPoly t (rem.take (rem.length - sd - 1) ++ zipMut (fun l r => l - r * s)
    (rem.drop (rem.length - sd - 1)) (b.drop (b.length - rd - 1)))
  rw [h3] at e
  unfold RoundFits
  rw [← e]
  constructor
  · rintro ⟨h4, h5⟩
    refine ⟨hs, h4, fun x hx => ?_⟩
    rcases List.mem_append.1 hx with hx | hx
    · exact inRange_take hin _ x hx
    · exact h5 x hx
  · rintro ⟨_, h4, h5⟩
    exact ⟨h4, fun z hz => h5 z (List.mem_append.2 (.inr hz))⟩

theorem termsAbove_natDegree (Q : ℤ[X]) : termsAbove Q Q.natDegree = 0 := by
  unfold termsAbove
  rw [Finset.filter_false_of_mem, Finset.sum_empty]
  intro i hi
  exact not_lt.2 (le_natDegree_of_mem_supp i hi)

theorem termsAbove_eraseLead {Q : ℤ[X]} (h0 : Q ≠ 0) {k : ℕ} (hk : k < Q.natDegree) :
    termsAbove Q k = C Q.leadingCoeff * X ^ Q.natDegree + termsAbove Q.eraseLead k := by
  unfold termsAbove
  have h1 : Q.natDegree ∈ Q.support.filter (k < ·) := by
    rw [Finset.mem_filter]; exact ⟨natDegree_mem_support_of_nonzero h0, hk⟩
  rw [← Finset.add_sum_erase _ _ h1, eraseLead_support, Finset.filter_erase]
  congr 1
  refine Finset.sum_congr rfl fun i hi => ?_
  rw [eraseLead_coeff_of_ne _ (Finset.ne_of_mem_erase hi)]

theorem roundsFit_zero (P B : ℤ[X]) : RoundsFit t P B 0 := fun k h => absurd (coeff_zero k) h

theorem roundsFit_step {P B Q : ℤ[X]} (h0 : Q ≠ 0) :
    RoundsFit t P B Q ↔ RoundFits t P B Q.leadingCoeff Q.natDegree ∧
      RoundsFit t (P - C Q.leadingCoeff * X ^ Q.natDegree * B) B Q.eraseLead := by
  have hlt : ∀ k, Q.eraseLead.coeff k ≠ 0 → k < Q.natDegree ∧ Q.eraseLead.coeff k = Q.coeff k := by
    intro k hk
    have hne : k ≠ Q.natDegree := by
      rintro rfl; exact hk (eraseLead_coeff_natDegree)
    rw [eraseLead_coeff_of_ne _ hne] at hk ⊢
    exact ⟨lt_of_le_of_ne (le_natDegree_of_ne_zero hk) hne, rfl⟩
  have key : ∀ k, k < Q.natDegree → P - termsAbove Q k * B =
      P - C Q.leadingCoeff * X ^ Q.natDegree * B - termsAbove Q.eraseLead k * B := by
    intro k hk
    rw [termsAbove_eraseLead h0 hk]; ring
  constructor
  · intro h
    refine ⟨?_, fun k hk => ?_⟩
    · have := h Q.natDegree (by rwa [coeff_natDegree, Ne, leadingCoeff_eq_zero])
      rwa [termsAbove_natDegree, zero_mul, sub_zero, coeff_natDegree] at this
    · obtain ⟨h1, h2⟩ := hlt k hk
      rw [h2] at hk ⊢
      have := h k hk
      rwa [key k h1] at this
  · rintro ⟨h1, h2⟩ k hk
    rcases (le_natDegree_of_ne_zero hk).lt_or_eq with h | rfl
    · have e : Q.eraseLead.coeff k = Q.coeff k := eraseLead_coeff_of_ne _ h.ne
      have := h2 k (by rwa [e])
      rwa [e, ← key k h] at this
    · rwa [termsAbove_natDegree, zero_mul, sub_zero, coeff_natDegree]

/-- The leading term of the quotient is that of the division. -/
theorem lead_step {R B Q T : ℤ[X]} {c rf : Int} {sd rd : Nat} (hR : R.degree = sd) (hRl : R.leadingCoeff = c)
    (hB : B.degree = rd) (hBl : B.leadingCoeff = rf) (hrf : rf ≠ 0) (h : R = Q * B + T) (hQ : Q ≠ 0)
    (hT : T.degree < ((Q.natDegree + rd : ℕ) : WithBot ℕ)) :
    sd = Q.natDegree + rd ∧ c.tdiv rf = Q.leadingCoeff ∧
      R - C Q.leadingCoeff * X ^ Q.natDegree * B = Q.eraseLead * B + T := by
  have hQB : (Q * B).degree = ((Q.natDegree + rd : ℕ) : WithBot ℕ) := by
    rw [degree_mul, degree_eq_natDegree hQ, hB]; norm_cast
  have hd : R.degree = ((Q.natDegree + rd : ℕ) : WithBot ℕ) := by
    rw [h, degree_add_eq_left_of_degree_lt (by rwa [hQB]), hQB]
  have hl : R.leadingCoeff = Q.leadingCoeff * rf := by
    rw [h, leadingCoeff_add_of_degree_lt' (by rwa [hQB]), leadingCoeff_mul, hBl]
  refine ⟨?_, ?_, ?_⟩
  · rw [hR] at hd; exact_mod_cast hd
  · rw [← hRl, hl, Int.mul_tdiv_cancel _ hrf]
  · rw [h]
    nth_rewrite 1 [← eraseLead_add_C_mul_X_pow Q]
    ring

/-- A remainder whose leading coefficient gives a zero quotient is never left. -/
theorem stuck_dense {b : List Int} {rf : Int} {rd off : Nat} (hb : firstTerm b = .term rf rd)
    {c : Int} {sd : Nat} {rem : List Int} (hr : firstTerm rem = .term c sd) (hc : c.tdiv rf = 0) (hle : rd ≤ sd)
    (hoff : sd ≤ off) (hin : ∀ x ∈ rem, t.InRange x) :
    ∀ (fuel : Nat) (div : List Int), div.length = off - rd + 1 →
      Poly.divModLoopM (.machine true t) b rf rd off fuel c sd rem div = .fuel ∧
      Poly.remAssignLoopM (.machine true t) b rf rd fuel 0 sd rem = .fuel := by
  have hrf := (firstTerm_poly hb).1
  have hdv : (Arith2.machine true t).div c rf = .ok 0 := by
    rw [machine_div_ok hrf (by rw [hc]; exact t.zero_inRange), hc]
  obtain ⟨_, _, _, r3, _, _⟩ := firstTerm_term hr
  obtain ⟨_, _, _, b3, _, _⟩ := firstTerm_term hb
  have hv : vecSubWScaleM (Arith.machine true t) rem sd b rd 0 = .ok rem := by
    rw [vecSubWScaleM_eq _ 0 r3 b3, zipMutM_id, Res.ok_bind, List.take_append_drop]
    intro x hx y
    have hxr := hin x (List.mem_of_mem_drop hx)
    show (t.checked (y * 0) >>= fun v => t.checked (x - v)) = .ok x
    rw [mul_zero, IntTy.checked, if_pos t.zero_inRange, Res.ok_bind, sub_zero, IntTy.checked, if_pos hxr]
  have hv' : vecSubWScaleM (Arith2.machine true t).toArith rem sd b rd 0 = .ok rem := hv
  intro fuel
  induction fuel with
  | zero => intro div _; exact ⟨rfl, rfl⟩
  | succ fuel ih =>
    intro div hlen
    have hu : usub off sd = .ok (off - sd) := by simp [usub, hoff]
    have hi : off - sd < div.length := by rw [hlen]; omega
    constructor
    · unfold Poly.divModLoopM
      simp only [if_pos hle, hdv, Res.ok_bind, hv', hu, if_pos hi, hr]
      exact (ih _ (by simpa using hlen)).1
    · unfold Poly.remAssignLoopM
      simp only [if_pos hle, hv', Res.ok_bind, hr, hdv]
      exact (ih div hlen).2

/-- What the two division loops do on a remainder of no lower degree than the divisor. -/
theorem checked_loops {b : List Int} {rf : Int} {rd off : Nat} (hb : firstTerm b = .term rf rd) :
    ∀ (fuel : Nat) (c : Int) (sd : Nat) (rem div : List Int) (Q T : ℤ[X]), firstTerm rem = .term c sd → rd ≤ sd →
      sd ≤ off → div.length = off - rd + 1 → (∀ x ∈ rem, t.InRange x) → descPoly rem = Q * descPoly b + T →
      (T.degree < (descPoly b).degree → sd - rd + 2 ≤ fuel →
        (RoundsFit t (descPoly rem) (descPoly b) Q →
          (∃ x, Poly.divModLoopM (.machine true t) b rf rd off fuel c sd rem div = .ok x) ∧
          (T = 0 ∨ t.InRange (T.leadingCoeff.tdiv rf) → ∃ x, ((Arith2.machine true t).div c rf >>= fun s =>
            Poly.remAssignLoopM (.machine true t) b rf rd fuel s sd rem) = .ok x) ∧
          (¬ (T = 0 ∨ t.InRange (T.leadingCoeff.tdiv rf)) → ((Arith2.machine true t).div c rf >>= fun s =>
            Poly.remAssignLoopM (.machine true t) b rf rd fuel s sd rem) = .panic)) ∧
        (¬ RoundsFit t (descPoly rem) (descPoly b) Q →
          Poly.divModLoopM (.machine true t) b rf rd off fuel c sd rem div = .panic ∧
          ((Arith2.machine true t).div c rf >>= fun s =>
            Poly.remAssignLoopM (.machine true t) b rf rd fuel s sd rem) = .panic)) ∧
      (StuckAt (descPoly rem) (descPoly b) Q T →
        (RoundsFit t (descPoly rem) (descPoly b) Q ∧
            RoundFits t T (descPoly b) (T.leadingCoeff.tdiv rf) (T.natDegree - rd) →
          Poly.divModLoopM (.machine true t) b rf rd off fuel c sd rem div = .fuel ∧
          ((Arith2.machine true t).div c rf >>= fun s =>
            Poly.remAssignLoopM (.machine true t) b rf rd fuel s sd rem) = .fuel) ∧
        (¬ (RoundsFit t (descPoly rem) (descPoly b) Q ∧
            RoundFits t T (descPoly b) (T.leadingCoeff.tdiv rf) (T.natDegree - rd)) → sd - rd + 2 ≤ fuel →
          Poly.divModLoopM (.machine true t) b rf rd off fuel c sd rem div = .panic ∧
          ((Arith2.machine true t).div c rf >>= fun s =>
            Poly.remAssignLoopM (.machine true t) b rf rd fuel s sd rem) = .panic)) := by
  obtain ⟨hrf, hbd, hbl⟩ := firstTerm_poly hb
  have hbn : (descPoly b).natDegree = rd := natDegree_eq_of_degree_eq_some hbd
  intro fuel
  induction fuel with
  | zero =>
    intro c sd rem div Q T hr hle hoff hlen hin hQ
    obtain ⟨hc, hrd, hrl⟩ := firstTerm_poly hr
    refine ⟨fun _ h => by omega, fun hst => ⟨fun hfit => ⟨rfl, ?_⟩, fun _ h => by omega⟩⟩
    obtain ⟨_, hdT, hnd, hk⟩ := hst
    have hs : t.InRange (c.tdiv rf) := by
      by_cases hQ0 : Q = 0
      · rw [hQ0, zero_mul, zero_add] at hQ
        rw [← hrl, hQ]; exact hfit.2.1
      · have hTd : T.degree < ((Q.natDegree + rd : ℕ) : WithBot ℕ) := by
          refine degree_le_natDegree.trans_lt ?_
          have := hk Q.natDegree (by rwa [coeff_natDegree, Ne, leadingCoeff_eq_zero])
          rw [hbn] at this
          exact_mod_cast this
        obtain ⟨_, h2, _⟩ := lead_step hrd hrl hbd hbl hrf hQ hQ0 hTd
        rw [h2]
        exact ((roundsFit_step t hQ0).1 hfit.1).1.1
    rw [machine_div_ok hrf hs, Res.ok_bind]; rfl
  | succ fuel ih =>
    intro c sd rem div Q T hr hle hoff hlen hin hQ
    obtain ⟨hc, hrd, hrl⟩ := firstTerm_poly hr
    have hu : usub off sd = .ok (off - sd) := by simp [usub, hoff]
    have hi : off - sd < div.length := by rw [hlen]; omega
    -- one round
    have hround : ∀ s, c.tdiv rf = s →
        (¬ RoundFits t (descPoly rem) (descPoly b) s (sd - rd) →
          Poly.divModLoopM (.machine true t) b rf rd off (fuel + 1) c sd rem div = .panic ∧
          ((Arith2.machine true t).div c rf >>= fun s =>
            Poly.remAssignLoopM (.machine true t) b rf rd (fuel + 1) s sd rem) = .panic) ∧
        (RoundFits t (descPoly rem) (descPoly b) s (sd - rd) → ∃ rem', rem'.length = rem.length ∧
          descPoly rem' = descPoly rem - C s * X ^ (sd - rd) * descPoly b ∧ (∀ x ∈ rem', t.InRange x) ∧
          Poly.divModLoopM (.machine true t) b rf rd off (fuel + 1) c sd rem div =
            (match firstTerm rem' with
              | .zeroTerm => .ok (div.set (off - sd) s, rem')
              | .term c' d' => Poly.divModLoopM (.machine true t) b rf rd off fuel c' d' rem' (div.set (off - sd) s)) ∧
          ((Arith2.machine true t).div c rf >>= fun s =>
            Poly.remAssignLoopM (.machine true t) b rf rd (fuel + 1) s sd rem) =
            (match firstTerm rem' with
              | .zeroTerm => .ok rem'
              | .term c' d' => ((Arith2.machine true t).div c' rf >>= fun s =>
                  Poly.remAssignLoopM (.machine true t) b rf rd fuel s d' rem'))) := by
      intro s hs
      by_cases hsr : t.InRange s
      · have hdv : (Arith2.machine true t).div c rf = .ok s := by rw [machine_div_ok hrf (hs ▸ hsr), hs]
        obtain ⟨rem', hchk, hl', hp'⟩ := chk_vecSub t hr hb hle hin hsr
        have hdm : Poly.divModLoopM (.machine true t) b rf rd off (fuel + 1) c sd rem div =
            (vecSubWScaleM (Arith2.machine true t).toArith rem sd b rd s >>= fun remainder =>
              match firstTerm remainder with
              | .zeroTerm => .ok (div.set (off - sd) s, remainder)
              | .term c' d' => Poly.divModLoopM (.machine true t) b rf rd off fuel c' d' remainder
                  (div.set (off - sd) s)) := by
          rw [Poly.divModLoopM]
          simp only [if_pos hle, hdv, Res.ok_bind, hu, if_pos hi]
          rfl
        have hra : ((Arith2.machine true t).div c rf >>= fun s =>
            Poly.remAssignLoopM (.machine true t) b rf rd (fuel + 1) s sd rem) =
            (vecSubWScaleM (Arith2.machine true t).toArith rem sd b rd s >>= fun remainder =>
              match firstTerm remainder with
              | .zeroTerm => .ok remainder
              | .term c' d' => ((Arith2.machine true t).div c' rf >>= fun s =>
                  Poly.remAssignLoopM (.machine true t) b rf rd fuel s d' remainder)) := by
          rw [hdv, Res.ok_bind, Poly.remAssignLoopM]
          simp only [if_pos hle]
          rfl
        refine ⟨fun h => ?_, fun h => ⟨rem', hl', hp', ?_, ?_, ?_⟩⟩
        · have := hchk.2 h
          rw [hdm, hra, show vecSubWScaleM (Arith2.machine true t).toArith rem sd b rd s = .panic from this]
          exact ⟨rfl, rfl⟩
        · rw [inRange_descPoly, hp']; exact h.2.2
        · have := hchk.1 h
          rw [hdm, show vecSubWScaleM (Arith2.machine true t).toArith rem sd b rd s = .ok rem' from this, Res.ok_bind]
        · have := hchk.1 h
          rw [hra, show vecSubWScaleM (Arith2.machine true t).toArith rem sd b rd s = .ok rem' from this, Res.ok_bind]
      · refine ⟨fun _ => ?_, fun h => absurd h.1 hsr⟩
        have hdv : (Arith2.machine true t).div c rf = .panic := machine_div_panic (hs ▸ hsr)
        rw [Poly.divModLoopM]
        simp only [if_pos hle, hdv]
        exact ⟨rfl, rfl⟩
    by_cases hQ0 : Q = 0
    · rw [hQ0, zero_mul, zero_add] at hQ
      refine ⟨fun hT => ?_, fun hst => ?_⟩
      · rw [← hQ, hrd, hbd] at hT
        exact absurd (by exact_mod_cast hT : sd < rd) (by omega)
      · obtain ⟨_, hdT, hnd, _⟩ := hst
        subst hQ0
        rw [← hQ] at hnd ⊢
        rw [hrl, natDegree_eq_of_degree_eq_some hrd]
        rw [hrl, hbl] at hnd
        obtain ⟨hr1, hr2⟩ := hround (c.tdiv rf) rfl
        refine ⟨fun hfit => ?_, fun hfit _ => hr1 fun h => hfit ⟨roundsFit_zero t _ _, h⟩⟩
        obtain ⟨rem', hl', hp', hin', e1, e2⟩ := hr2 hfit.2
        rw [e1, e2]
        -- the leading coefficient of what remains
        have hco : (descPoly rem').coeff sd = c.tmod rf := by
          have h2 : (descPoly rem).coeff sd = c := by
            rw [← hrl, leadingCoeff, natDegree_eq_of_degree_eq_some hrd]
          have h3 : (descPoly b).coeff rd = rf := by
            rw [← hbl, leadingCoeff, natDegree_eq_of_degree_eq_some hbd]
          rw [hp', coeff_sub, h2, mul_assoc, coeff_C_mul, coeff_X_pow_mul', if_pos (Nat.sub_le _ _),
            Nat.sub_sub_self hle, h3]
          have := Int.mul_tdiv_add_tmod c rf
          linarith
        have hne : c.tmod rf ≠ 0 := fun h => hnd (Int.dvd_of_tmod_eq_zero h)
        cases hf : firstTerm rem' with
        | zeroTerm => rw [firstTerm_zero_poly.1 hf, coeff_zero] at hco; exact absurd hco.symm hne
        | term c' d' =>
          obtain ⟨_, hd', hl''⟩ := firstTerm_poly hf
          have h5 := firstTerm_step hr hb hle hp' hf
          have h6 : d' = sd := by
            refine le_antisymm h5 ?_
            have := le_degree_of_ne_zero (hco ▸ hne : (descPoly rem').coeff sd ≠ 0)
            rw [hd'] at this; exact_mod_cast this
          subst h6
          have h7 : c' = c.tmod rf := by
            rw [← hl'', leadingCoeff, natDegree_eq_of_degree_eq_some hd', hco]
          have h8 : c'.tdiv rf = 0 := by rw [h7]; exact tdiv_tmod_self c rf
          obtain ⟨i1, i2⟩ := stuck_dense t hb hf h8 hle hoff hin' fuel (div.set (off - d') (c.tdiv rf))
            (by simpa using hlen)
          simp only
          rw [machine_div_ok hrf (by rw [h8]; exact t.zero_inRange), h8, Res.ok_bind]
          exact ⟨i1, i2⟩
    · -- an exact round
      have step : T.degree < ((Q.natDegree + rd : ℕ) : WithBot ℕ) →
          sd = Q.natDegree + rd ∧ c.tdiv rf = Q.leadingCoeff ∧
          descPoly rem - C Q.leadingCoeff * X ^ Q.natDegree * descPoly b = Q.eraseLead * descPoly b + T :=
        fun hT => lead_step hrd hrl hbd hbl hrf hQ hQ0 hT
      have hdeg : ∀ rem' : List Int, T.degree < ((Q.natDegree + rd : ℕ) : WithBot ℕ) →
          descPoly rem' = Q.eraseLead * descPoly b + T → ∀ c' d', firstTerm rem' = .term c' d' → d' < sd := by
        intro rem' hT hp' c' d' hf
        have h1 := (step hT).1
        have h2 : (descPoly rem').degree < (sd : WithBot ℕ) := by
          rw [hp', h1]
          refine (degree_add_le _ _).trans_lt (max_lt ?_ hT)
          rcases eq_or_ne Q.eraseLead 0 with h0 | h0
          · rw [h0, zero_mul, degree_zero]; exact WithBot.bot_lt_coe _
          · rw [degree_mul, degree_eq_natDegree h0, hbd]
            have h4 : Q.eraseLead.natDegree < Q.natDegree := by
              refine lt_of_le_of_ne ?_ fun h => ?_
              · exact natDegree_le_natDegree (degree_eraseLead_lt hQ0).le
              · have := degree_eraseLead_lt hQ0
                rw [degree_eq_natDegree h0, degree_eq_natDegree hQ0, h] at this
                exact lt_irrefl _ this
            norm_cast
            omega
        rw [(firstTerm_poly hf).2.1] at h2
        exact_mod_cast h2
      refine ⟨fun hT hf => ?_, fun hst => ?_⟩
      · have hT' : T.degree < ((Q.natDegree + rd : ℕ) : WithBot ℕ) := by
          refine (hT.trans_le (by rw [hbd])).trans_le ?_
          exact_mod_cast Nat.le_add_left _ _
        obtain ⟨s1, s2, s3⟩ := step hT'
        have hk : sd - rd = Q.natDegree := by omega
        obtain ⟨hr1, hr2⟩ := hround _ s2
        rw [hk] at hr1 hr2
        rw [roundsFit_step t hQ0]
        by_cases hfit : RoundFits t (descPoly rem) (descPoly b) Q.leadingCoeff Q.natDegree
        · obtain ⟨rem', hl', hp', hin', e1, e2⟩ := hr2 hfit
          rw [s3] at hp'
          rw [e1, e2, s3, ← hp']
          cases hf' : firstTerm rem' with
          | zeroTerm =>
            have hz := firstTerm_zero_poly.1 hf'
            -- the division is complete
            have hE : Q.eraseLead = 0 := by
              by_contra h0
              rw [hz] at hp'
              have : (Q.eraseLead * descPoly b).degree = T.degree := by
                rw [eq_neg_of_add_eq_zero_left hp'.symm, degree_neg]
              rw [degree_mul, degree_eq_natDegree h0, hbd] at this
              rw [← this, hbd] at hT
              have hT2 : ((Q.eraseLead.natDegree + rd : ℕ) : WithBot ℕ) < (rd : WithBot ℕ) := by
                push_cast; exact hT
              have : Q.eraseLead.natDegree + rd < rd := by exact_mod_cast hT2
              omega
            have hT0 : T = 0 := by
              rw [hz, hE, zero_mul, zero_add] at hp'; exact hp'.symm
            refine ⟨fun _ => ⟨⟨_, rfl⟩, fun _ => ⟨_, rfl⟩, fun h => absurd (.inl hT0) h⟩, fun h => ?_⟩
            exact absurd ⟨hfit, hE ▸ roundsFit_zero t _ _⟩ h
          | term c' d' =>
            have hlt := hdeg rem' hT' hp' c' d' hf'
            by_cases hle' : rd ≤ d'
            · have := (ih c' d' rem' (div.set (off - sd) Q.leadingCoeff) Q.eraseLead T hf' hle' (by omega)
                (by simpa using hlen) hin' hp').1 hT (by omega)
              refine ⟨fun h => this.1 h.2, fun h => this.2 fun h' => h ⟨hfit, h'⟩⟩
            · -- what remains has lower degree: it is `T`
              obtain ⟨_, hd', hl''⟩ := firstTerm_poly hf'
              have hE : Q.eraseLead = 0 := by
                by_contra h0
                have h2 : (Q.eraseLead * descPoly b).degree < (rd : WithBot ℕ) := by
                  have e : Q.eraseLead * descPoly b = descPoly rem' - T := by rw [hp']; ring
                  rw [e]
                  refine (degree_sub_le _ _).trans_lt (max_lt ?_ (by rwa [hbd] at hT))
                  rw [hd']; exact_mod_cast Nat.lt_of_not_le hle'
                rw [degree_mul, degree_eq_natDegree h0, hbd] at h2
                have : Q.eraseLead.natDegree + rd < rd := by exact_mod_cast h2
                omega
              have hTe : T = descPoly rem' := by rw [hp', hE, zero_mul, zero_add]
              obtain ⟨fuel, rfl⟩ : ∃ n, fuel = n + 1 := ⟨fuel - 1, by omega⟩
              have hT0 : T ≠ 0 := by
                rw [hTe]; intro h; rw [h] at hd'; cases hd'
              refine ⟨fun _ => ⟨?_, fun h => ?_, fun h => ?_⟩, fun h => ?_⟩
              · simp only
                rw [Poly.divModLoopM, if_neg hle']; exact ⟨_, rfl⟩
              · simp only
                rcases h with h | h
                · exact absurd h hT0
                · rw [hTe, hl''] at h
                  rw [machine_div_ok hrf h, Res.ok_bind, Poly.remAssignLoopM, if_neg hle']
                  exact ⟨_, rfl⟩
              · simp only
                have h' : ¬ t.InRange (c'.tdiv rf) := fun hh => h (.inr (by rw [hTe, hl'']; exact hh))
                rw [machine_div_panic h']; rfl
              · exact absurd ⟨hfit, hE ▸ roundsFit_zero t _ _⟩ h
        · have := hr1 hfit
          exact ⟨fun h => absurd h.1 hfit, fun _ => this⟩
      · obtain ⟨_, hdT, hnd, hkk⟩ := hst
        have hT' : T.degree < ((Q.natDegree + rd : ℕ) : WithBot ℕ) := by
          refine degree_le_natDegree.trans_lt ?_
          have := hkk Q.natDegree (by rwa [coeff_natDegree, Ne, leadingCoeff_eq_zero])
          rw [hbn] at this
          exact_mod_cast this
        obtain ⟨s1, s2, s3⟩ := step hT'
        have hk : sd - rd = Q.natDegree := by omega
        obtain ⟨hr1, hr2⟩ := hround _ s2
        rw [hk] at hr1 hr2
        rw [roundsFit_step t hQ0]
        by_cases hfit : RoundFits t (descPoly rem) (descPoly b) Q.leadingCoeff Q.natDegree
        · obtain ⟨rem', hl', hp', hin', e1, e2⟩ := hr2 hfit
          rw [s3] at hp'
          rw [e1, e2, s3, ← hp']
          have hst' : StuckAt (descPoly rem') (descPoly b) Q.eraseLead T := by
            refine ⟨hp', hdT, hnd, fun k hk => hkk k ?_⟩
            have hne : k ≠ Q.natDegree := by
              rintro rfl; exact hk (eraseLead_coeff_natDegree)
            rwa [eraseLead_coeff_of_ne _ hne] at hk
          -- the remainder has degree at least that of `T`
          have hge : (rd : WithBot ℕ) ≤ (descPoly rem').degree := by
            by_contra hcon
            rw [not_le] at hcon
            have hTd : (descPoly rem').degree < T.degree := lt_of_lt_of_le hcon (by rw [← hbd]; exact hdT)
            have h0 : Q.eraseLead ≠ 0 := by
              intro h0
              rw [h0, zero_mul, zero_add] at hp'
              rw [hp'] at hTd; exact lt_irrefl _ hTd
            have h1 := hst'.2.2.2 Q.eraseLead.natDegree (by rwa [coeff_natDegree, Ne, leadingCoeff_eq_zero])
            have h2 : T.degree < (Q.eraseLead * descPoly b).degree := by
              refine degree_le_natDegree.trans_lt ?_
              rw [degree_mul, degree_eq_natDegree h0, hbd]
              rw [hbn] at h1
              exact_mod_cast h1
            rw [hp', degree_add_eq_left_of_degree_lt h2] at hTd
            exact lt_asymm hTd h2
          cases hf' : firstTerm rem' with
          | zeroTerm =>
            rw [firstTerm_zero_poly.1 hf', degree_zero, le_bot_iff] at hge
            cases hge
          | term c' d' =>
            have hlt := hdeg rem' hT' hp' c' d' hf'
            have hle' : rd ≤ d' := by
              rw [(firstTerm_poly hf').2.1] at hge; exact_mod_cast hge
            have := (ih c' d' rem' (div.set (off - sd) Q.leadingCoeff) Q.eraseLead T hf' hle' (by omega)
              (by simpa using hlen) hin' hp').2 hst'
            refine ⟨fun h => this.1 ⟨h.1.2, h.2⟩, fun h hf => this.2 (fun h' => h ⟨⟨hfit, h'.1⟩, h'.2⟩) (by omega)⟩
        · have := hr1 hfit
          exact ⟨fun h => absurd h.1.1 hfit, fun _ _ => this⟩

theorem divModM_panic_floor {p b : Poly ℤ} {A : Arith2} {fuel : Nat} (h : p.divModM A fuel b = .panic) :
    p.floorDivM A fuel b = .panic := by
  unfold Poly.floorDivM; rw [h]; rfl

/-- The loops of `checked_loops` as operations. -/
theorem divModM_unfold {p b : Poly ℤ} {rf : Int} {rd : Nat} {c : Int} {sd : Nat} (hb : firstTerm b.terms = .term rf rd)
    (hp : firstTerm p.terms = .term c sd) (hle : rd ≤ sd) (A : Arith2) (fuel : Nat) :
    p.divModM A fuel b = (Poly.divModLoopM A b.terms rf rd sd fuel c sd p.terms (List.replicate (sd - rd + 1) 0) >>=
      fun x => .ok (Poly.new x.1, Poly.new x.2)) ∧
    p.remAssignM A fuel b = ((A.div c rf >>= fun s => Poly.remAssignLoopM A b.terms rf rd fuel s sd p.terms) >>=
      fun x => .ok ⟨x⟩) := by
  unfold Poly.divModM Poly.remAssignM
  simp only [hb, hp, if_neg (not_lt.2 hle)]
  refine ⟨trivial, ?_⟩
  cases A.div c rf <;> rfl

theorem exact_quotient_zero {P B Q T : ℤ[X]} (h : P = Q * B + T) (hT : T.degree < B.degree) (hP : P.degree < B.degree) :
    Q = 0 := by
  by_contra h0
  have e : Q * B = P - T := by rw [h]; ring
  have h1 : (Q * B).degree < B.degree := by
    rw [e]; exact (degree_sub_le _ _).trans_lt (max_lt hP hT)
  have hB : B ≠ 0 := by rintro rfl; simp at hT
  rw [degree_mul, degree_eq_natDegree h0, degree_eq_natDegree hB] at h1
  have : Q.natDegree + B.natDegree < B.natDegree := by exact_mod_cast h1
  omega

/-- The three outcomes, before the values are named. -/
theorem checked_division (p b : Poly ℤ) (hin : ∀ x ∈ p.terms, t.InRange x) (hb : descPoly b.terms ≠ 0) (Q T : ℤ[X])
    (hQ : descPoly p.terms = Q * descPoly b.terms + T) (fuel : Nat) :
    (T.degree < (descPoly b.terms).degree → p.terms.length + 1 ≤ fuel →
      (RoundsFit t (descPoly p.terms) (descPoly b.terms) Q →
        (∃ x, p.divModM (.machine true t) fuel b = .ok x) ∧
        (Q = 0 ∨ T = 0 ∨ t.InRange (T.leadingCoeff.tdiv (descPoly b.terms).leadingCoeff) →
          ∃ x, p.remAssignM (.machine true t) fuel b = .ok x) ∧
        (¬ (Q = 0 ∨ T = 0 ∨ t.InRange (T.leadingCoeff.tdiv (descPoly b.terms).leadingCoeff)) →
          p.remAssignM (.machine true t) fuel b = .panic)) ∧
      (¬ RoundsFit t (descPoly p.terms) (descPoly b.terms) Q →
        p.divModM (.machine true t) fuel b = .panic ∧ p.remAssignM (.machine true t) fuel b = .panic)) ∧
    (StuckAt (descPoly p.terms) (descPoly b.terms) Q T →
      (RoundsFit t (descPoly p.terms) (descPoly b.terms) Q ∧
        RoundFits t T (descPoly b.terms) (T.leadingCoeff.tdiv (descPoly b.terms).leadingCoeff)
          (T.natDegree - (descPoly b.terms).natDegree) →
        p.divModM (.machine true t) fuel b = .fuel ∧ p.remAssignM (.machine true t) fuel b = .fuel) ∧
      (¬ (RoundsFit t (descPoly p.terms) (descPoly b.terms) Q ∧
        RoundFits t T (descPoly b.terms) (T.leadingCoeff.tdiv (descPoly b.terms).leadingCoeff)
          (T.natDegree - (descPoly b.terms).natDegree)) → p.terms.length + 1 ≤ fuel →
        p.divModM (.machine true t) fuel b = .panic ∧ p.remAssignM (.machine true t) fuel b = .panic)) := by
  cases hbf : firstTerm b.terms with
  | zeroTerm => exact absurd (firstTerm_zero_poly.1 hbf) hb
  | term rf rd =>
    obtain ⟨hrf, hbd, hbl⟩ := firstTerm_poly hbf
    have hbn : (descPoly b.terms).natDegree = rd := natDegree_eq_of_degree_eq_some hbd
    have small : (descPoly p.terms).degree < (descPoly b.terms).degree →
        (∃ x, p.divModM (.machine true t) fuel b = .ok x) ∧ (∃ x, p.remAssignM (.machine true t) fuel b = .ok x) := by
      intro h
      unfold Poly.divModM Poly.remAssignM
      cases hpf : firstTerm p.terms with
      | zeroTerm => simp only [hbf]; exact ⟨⟨_, rfl⟩, ⟨_, rfl⟩⟩
      | term c sd =>
        rw [(firstTerm_poly hpf).2.1, hbd] at h
        have : sd < rd := by exact_mod_cast h
        simp only [hbf, if_pos this]; exact ⟨⟨_, rfl⟩, ⟨_, rfl⟩⟩
    rcases lt_or_ge (descPoly p.terms).degree (descPoly b.terms).degree with hlt | hge
    · obtain ⟨s1, s2⟩ := small hlt
      refine ⟨fun hT _ => ?_, fun hst => ?_⟩
      · have hQ0 := exact_quotient_zero hQ hT hlt
        refine ⟨fun _ => ⟨s1, fun _ => s2, fun h => absurd (.inl hQ0) h⟩, fun h => ?_⟩
        exact absurd (hQ0 ▸ roundsFit_zero t _ _) h
      · -- not stuck
        exfalso
        obtain ⟨_, h1, h2, h3⟩ := hst
        rcases eq_or_ne Q 0 with h0 | h0
        · rw [h0, zero_mul, zero_add] at hQ
          rw [hQ] at hlt
          exact absurd h1 (not_le.2 hlt)
        · have h4 := h3 Q.natDegree (by rwa [coeff_natDegree, Ne, leadingCoeff_eq_zero])
          have h5 : T.degree < (Q * descPoly b.terms).degree := by
            refine degree_le_natDegree.trans_lt ?_
            rw [degree_mul, degree_eq_natDegree h0, hbd]
            rw [hbn] at h4
            exact_mod_cast h4
          rw [hQ, degree_add_eq_left_of_degree_lt h5] at hlt
          exact absurd (h1.trans h5.le) (not_le.2 hlt)
    · cases hpf : firstTerm p.terms with
      | zeroTerm =>
        rw [firstTerm_zero_poly.1 hpf, degree_zero, le_bot_iff, hbd] at hge
        cases hge
      | term c sd =>
        obtain ⟨_, hpd, _⟩ := firstTerm_poly hpf
        obtain ⟨_, _, hvl, hpl, _, _⟩ := firstTerm_term hpf
        have hle : rd ≤ sd := by rw [hpd, hbd] at hge; exact_mod_cast hge
        obtain ⟨u1, u2⟩ := divModM_unfold hbf hpf hle (.machine true t) fuel
        obtain ⟨l1, l2⟩ := checked_loops t hbf fuel c sd p.terms (List.replicate (sd - rd + 1) 0) Q T hpf hle le_rfl
          (by simp) hin hQ
        rw [u1, u2, hbl, hbn]
        refine ⟨fun hT hf => ?_, fun hst => ?_⟩
        · obtain ⟨m1, m2⟩ := l1 hT (by omega)
          have hQ0 : Q ≠ 0 := by
            rintro rfl
            rw [zero_mul, zero_add] at hQ
            rw [← hQ] at hT
            exact absurd hge (not_le.2 hT)
          refine ⟨fun h => ?_, fun h => ?_⟩
          · obtain ⟨⟨x, n1⟩, n2, n3⟩ := m1 h
            rw [n1]
            refine ⟨⟨_, rfl⟩, fun hh => ?_, fun hh => ?_⟩
            · obtain ⟨y, hy⟩ := n2 (hh.resolve_left hQ0)
              rw [hy]; exact ⟨_, rfl⟩
            · rw [n3 fun h => hh (.inr h)]; rfl
          · rw [(m2 h).1, (m2 h).2]; exact ⟨rfl, rfl⟩
        · obtain ⟨m1, m2⟩ := l2 hst
          refine ⟨fun h => ?_, fun h hf => ?_⟩
          · rw [(m1 h).1, (m1 h).2]; exact ⟨rfl, rfl⟩
          · obtain ⟨n1, n2⟩ := m2 h (by omega)
            rw [n1, n2]; exact ⟨rfl, rfl⟩

/-- C99: the division which completes over the integers, with overflow checks.  `div_mod` and `floor_div` return its
quotient and remainder when the values of every round are values of the type, and panic otherwise. -/
theorem C99_div_mod (p b : Poly ℤ) (hin : ∀ x ∈ p.terms, t.InRange x) (hb : descPoly b.terms ≠ 0) (Q T : ℤ[X])
    (hQ : descPoly p.terms = Q * descPoly b.terms + T) (hT : T.degree < (descPoly b.terms).degree) (fuel : Nat)
    (hf : p.terms.length + 1 ≤ fuel) :
    (RoundsFit t (descPoly p.terms) (descPoly b.terms) Q → ∃ q r, p.divModM (.machine true t) fuel b = .ok (q, r) ∧
      p.floorDivM (.machine true t) fuel b = .ok q ∧ descPoly q.terms = Q ∧ descPoly r.terms = T) ∧
    (¬ RoundsFit t (descPoly p.terms) (descPoly b.terms) Q →
      p.divModM (.machine true t) fuel b = .panic ∧ p.floorDivM (.machine true t) fuel b = .panic) := by
  obtain ⟨h1, h2⟩ := (checked_division t p b hin hb Q T hQ fuel).1 hT hf
  refine ⟨fun h => ?_, fun h => ⟨(h2 h).1, divModM_panic_floor (h2 h).1⟩⟩
  obtain ⟨⟨⟨q, r⟩, h3⟩, -, -⟩ := h1 h
  obtain ⟨q', r', _, e1, _, e3, e4, _⟩ := ((C60_int_division_outcome p b).2 hb).1 Q T hQ hT fuel hf
  refine ⟨q, r, h3, by unfold Poly.floorDivM; rw [h3]; rfl, ?_⟩
  rcases Poly.divModM_mono (machine_le_exact t) fuel p b with h' | h'
  · rw [h'] at h3; cases h3
  · rw [h', p.divModM_exact, e1] at h3; cases h3
    exact ⟨e3, e4⟩

/-- C99: `%=` for such a division.  It panics too when a nonzero remainder is left whose leading coefficient cannot be
divided by that of the divisor, although that quotient is not used. -/
theorem C99_rem_assign (p b : Poly ℤ) (hin : ∀ x ∈ p.terms, t.InRange x) (hb : descPoly b.terms ≠ 0) (Q T : ℤ[X])
    (hQ : descPoly p.terms = Q * descPoly b.terms + T) (hT : T.degree < (descPoly b.terms).degree) (fuel : Nat)
    (hf : p.terms.length + 1 ≤ fuel) :
    (RoundsFit t (descPoly p.terms) (descPoly b.terms) Q →
      (Q = 0 ∨ T = 0 ∨ t.InRange (T.leadingCoeff.tdiv (descPoly b.terms).leadingCoeff)) →
      ∃ r, p.remAssignM (.machine true t) fuel b = .ok r ∧ descPoly r.terms = T) ∧
    (RoundsFit t (descPoly p.terms) (descPoly b.terms) Q →
      Q ≠ 0 → T ≠ 0 → ¬ t.InRange (T.leadingCoeff.tdiv (descPoly b.terms).leadingCoeff) →
      p.remAssignM (.machine true t) fuel b = .panic) ∧
    (¬ RoundsFit t (descPoly p.terms) (descPoly b.terms) Q → p.remAssignM (.machine true t) fuel b = .panic) := by
  obtain ⟨h1, h2⟩ := (checked_division t p b hin hb Q T hQ fuel).1 hT hf
  refine ⟨fun h hc => ?_, fun h c1 c2 c3 => (h1 h).2.2 (by tauto), fun h => (h2 h).2⟩
  obtain ⟨r, h3⟩ := (h1 h).2.1 hc
  obtain ⟨_, _, s, _, e2, _, _, e5⟩ := ((C60_int_division_outcome p b).2 hb).1 Q T hQ hT fuel hf
  refine ⟨r, h3, ?_⟩
  rcases Poly.remAssignM_mono (machine_le_exact t) fuel p b with h' | h'
  · rw [h'] at h3; cases h3
  · rw [h', p.remAssignM_exact, e2] at h3; cases h3
    exact e5

/-- C99: the division which comes to a leading coefficient that is not a multiple of the divisor's, with overflow checks.
It does not return when the values of every round up to and including that one are values of the type, and panics
otherwise. -/
theorem C99_stuck (p b : Poly ℤ) (hin : ∀ x ∈ p.terms, t.InRange x) (hb : descPoly b.terms ≠ 0) (Q T : ℤ[X])
    (hs : StuckAt (descPoly p.terms) (descPoly b.terms) Q T) :
    (RoundsFit t (descPoly p.terms) (descPoly b.terms) Q ∧
      RoundFits t T (descPoly b.terms) (T.leadingCoeff.tdiv (descPoly b.terms).leadingCoeff)
        (T.natDegree - (descPoly b.terms).natDegree) →
      ∀ fuel, p.divModM (.machine true t) fuel b = .fuel ∧ p.floorDivM (.machine true t) fuel b = .fuel ∧
        p.remAssignM (.machine true t) fuel b = .fuel) ∧
    (¬ (RoundsFit t (descPoly p.terms) (descPoly b.terms) Q ∧
      RoundFits t T (descPoly b.terms) (T.leadingCoeff.tdiv (descPoly b.terms).leadingCoeff)
        (T.natDegree - (descPoly b.terms).natDegree)) →
      ∀ fuel, p.terms.length + 1 ≤ fuel → p.divModM (.machine true t) fuel b = .panic ∧
        p.floorDivM (.machine true t) fuel b = .panic ∧ p.remAssignM (.machine true t) fuel b = .panic) := by
  refine ⟨fun h fuel => ?_, fun h fuel hf => ?_⟩
  · obtain ⟨h1, h2⟩ := ((checked_division t p b hin hb Q T hs.1 fuel).2 hs).1 h
    refine ⟨h1, ?_, h2⟩
    unfold Poly.floorDivM; rw [h1]; rfl
  · obtain ⟨h1, h2⟩ := ((checked_division t p b hin hb Q T hs.1 fuel).2 hs).2 h hf
    exact ⟨h1, divModM_panic_floor h1, h2⟩

theorem stuck_degree_le {P B Q T : ℤ[X]} (hB : B ≠ 0) (h : StuckAt P B Q T) : T.degree ≤ P.degree := by
  obtain ⟨h0, _, _, h3⟩ := h
  rcases eq_or_ne Q 0 with hq | hq
  · rw [h0, hq, zero_mul, zero_add]
  · have h4 := h3 Q.natDegree (by rwa [coeff_natDegree, Ne, leadingCoeff_eq_zero])
    have h5 : T.degree < (Q * B).degree := by
      refine degree_le_natDegree.trans_lt ?_
      rw [degree_mul, degree_eq_natDegree hq, degree_eq_natDegree hB]
      exact_mod_cast h4
    rw [h0, degree_add_eq_left_of_degree_lt h5]
    exact h5.le

theorem division_exists {B : ℤ[X]} (hB : B ≠ 0) : ∀ (n : ℕ) (P : ℤ[X]), P.degree < n →
    (∃ Q T, P = Q * B + T ∧ T.degree < B.degree) ∨ ∃ Q T, StuckAt P B Q T := by
  intro n
  induction n with
  | zero =>
    intro P h
    have : P = 0 := by
      rw [← degree_eq_bot]
      exact Nat.WithBot.lt_zero_iff.1 (by simpa using h)
    refine .inl ⟨0, 0, by simp [this], ?_⟩
    rw [degree_zero, bot_lt_iff_ne_bot, Ne, degree_eq_bot]; exact hB
  | succ n ih =>
    intro P h
    rcases lt_or_ge P.degree B.degree with hlt | hge
    · exact .inl ⟨0, P, by simp, hlt⟩
    · by_cases hd : B.leadingCoeff ∣ P.leadingCoeff
      · obtain ⟨s, hs⟩ := hd
        have hP : P ≠ 0 := by
          rintro rfl
          rw [degree_zero, le_bot_iff, degree_eq_bot] at hge; exact hB hge
        have hs0 : s ≠ 0 := by
          rintro rfl
          rw [mul_zero, leadingCoeff_eq_zero] at hs; exact hP hs
        have hnat : B.natDegree ≤ P.natDegree := natDegree_le_natDegree hge
        have hdeg : (C s * X ^ (P.natDegree - B.natDegree) * B).degree = P.degree := by
          rw [degree_mul, degree_C_mul_X_pow _ hs0, degree_eq_natDegree hB, degree_eq_natDegree hP]
          norm_cast
          omega
        have hlc : (C s * X ^ (P.natDegree - B.natDegree) * B).leadingCoeff = P.leadingCoeff := by
          rw [leadingCoeff_mul, leadingCoeff_C_mul_X_pow, hs, mul_comm]
        have hlt : (P - C s * X ^ (P.natDegree - B.natDegree) * B).degree < P.degree :=
          degree_sub_lt hdeg.symm hP hlc.symm
        have hn : (P - C s * X ^ (P.natDegree - B.natDegree) * B).degree < (n : WithBot ℕ) := by
          refine hlt.trans_le ?_
          rw [degree_eq_natDegree hP] at h ⊢
          have : P.natDegree < n + 1 := by exact_mod_cast h
          exact_mod_cast Nat.lt_succ_iff.1 this
        rcases ih _ hn with ⟨Q, T, h1, h2⟩ | ⟨Q, T, h1⟩
        · refine .inl ⟨Q + C s * X ^ (P.natDegree - B.natDegree), T, ?_, h2⟩
          rw [add_mul, add_right_comm, ← h1]; ring
        · refine .inr ⟨Q + C s * X ^ (P.natDegree - B.natDegree), T, ?_, h1.2.1, h1.2.2.1, fun k hk => ?_⟩
          · rw [add_mul, add_right_comm, ← h1.1]; ring
          · by_cases hke : k = P.natDegree - B.natDegree
            · have h5 := (stuck_degree_le hB h1).trans_lt hlt
              have h6 : T.natDegree < P.natDegree := by
                have hT0 : T ≠ 0 := by
                  rintro rfl
                  exact h1.2.2.1 (by simp)
                exact (natDegree_lt_natDegree_iff hT0).2 h5
              omega
            · rw [coeff_add, coeff_C_mul_X_pow, if_neg hke, add_zero] at hk
              exact h1.2.2.2 k hk
      · exact .inr ⟨0, P, by simp, hge, hd, fun k hk => absurd (coeff_zero k) hk⟩

theorem stuck_not_le {B T T' D : ℤ[X]} (h : D * B = T' - T)
    (hlt : T.degree < (D * B).degree) : B.leadingCoeff ∣ T'.leadingCoeff := by
  have e : T' = D * B + T := by rw [h]; ring
  rw [e, leadingCoeff_add_of_degree_lt' hlt, leadingCoeff_mul]
  exact dvd_mul_left _ _

/-- C99: every division by a nonzero polynomial is of exactly one of the two kinds, with one quotient and one remainder. -/
theorem C99_cases (P B : ℤ[X]) (hB : B ≠ 0) :
    ((∃ Q T, P = Q * B + T ∧ T.degree < B.degree) ∨ ∃ Q T, StuckAt P B Q T) ∧
    ¬ ((∃ Q T, P = Q * B + T ∧ T.degree < B.degree) ∧ ∃ Q T, StuckAt P B Q T) ∧
    ∀ Q T Q' T', StuckAt P B Q T → StuckAt P B Q' T' → Q = Q' ∧ T = T' := by
  refine ⟨division_exists hB (P.natDegree + 1) P ?_, ?_, ?_⟩
  · refine degree_le_natDegree.trans_lt ?_
    exact_mod_cast Nat.lt_succ_self _
  · rintro ⟨⟨Q, T, h1, h2⟩, Q', T', h3, h4, h5, _⟩
    have e : (Q - Q') * B = T' - T := by
      have := h1.symm.trans h3
      linear_combination this
    rcases eq_or_ne (Q - Q') 0 with h0 | h0
    · rw [h0, zero_mul] at e
      rw [sub_eq_zero.1 e.symm] at h4
      exact absurd h4 (not_le.2 h2)
    · refine h5 (stuck_not_le e ?_)
      refine h2.trans_le ?_
      rw [degree_mul, degree_eq_natDegree h0, degree_eq_natDegree hB]
      exact_mod_cast Nat.le_add_left _ _
  · intro Q T Q' T' h h'
    have key : ∀ {Q T Q' T'}, StuckAt P B Q T → StuckAt P B Q' T' → Q - Q' ≠ 0 →
        Q.coeff (Q - Q').natDegree = 0 := by
      intro Q T Q' T' h h' h0
      by_contra hk
      have e : (Q - Q') * B = T' - T := by
        have := h.1.symm.trans h'.1
        linear_combination this
      refine h'.2.2.1 (stuck_not_le e ?_)
      refine degree_le_natDegree.trans_lt ?_
      rw [degree_mul, degree_eq_natDegree h0, degree_eq_natDegree hB]
      exact_mod_cast h.2.2.2 _ hk
    have hQ : Q = Q' := by
      by_contra hne
      have h0 : Q - Q' ≠ 0 := sub_ne_zero.2 hne
      have h1 := key h h' h0
      have h2 := key h' h (sub_ne_zero.2 (Ne.symm hne))
      rw [natDegree_sub] at h2
      have h3 : (Q - Q').coeff (Q - Q').natDegree = 0 := by rw [coeff_sub, h1, h2, sub_zero]
      exact h0 (leadingCoeff_eq_zero.1 h3)
    subst hQ
    have := h.1.symm.trans h'.1
    exact ⟨rfl, add_left_cancel this⟩

/-- C99: a zero divisor is a panic. -/
theorem C99_zero (p b : Poly ℤ) (hb : descPoly b.terms = 0) (fuel : Nat) :
    p.divModM (.machine true t) fuel b = .panic ∧ p.floorDivM (.machine true t) fuel b = .panic ∧
    p.remAssignM (.machine true t) fuel b = .panic := by
  have h := firstTerm_zero_poly.2 hb
  have h1 : p.divModM (.machine true t) fuel b = .panic := by unfold Poly.divModM; simp only [h]
  exact ⟨h1, divModM_panic_floor h1, by unfold Poly.remAssignM; simp only [h]⟩

end

/-! ## Examples in `i8` -/

/-- `(6x² + 7x + 5) / (2x + 1)` in `i8`: the quotient is `3x + 2` and the remainder `3`. -/
example : let t : IntTy := ⟨true, 8⟩
    (descPoly [6, 7, 5] : ℤ[X]) = descPoly [3, 2] * descPoly [2, 1] + descPoly [3] ∧
    RoundsFit t (descPoly [6, 7, 5]) (descPoly [2, 1]) (descPoly [3, 2]) ∧
    Poly.divModM (.machine true t) 4 ⟨[6, 7, 5]⟩ ⟨[2, 1]⟩ = .ok (⟨[3, 2]⟩, ⟨[3]⟩) ∧
    Poly.remAssignM (.machine true t) 4 ⟨[6, 7, 5]⟩ ⟨[2, 1]⟩ = .ok ⟨[0, 0, 3]⟩ := by
  intro t
  have e : (descPoly [6, 7, 5] : ℤ[X]) = descPoly [3, 2] * descPoly [2, 1] + descPoly [3] := by
    simp [descPoly]; ring
  have hd : (descPoly [3] : ℤ[X]).degree < (descPoly [2, 1] : ℤ[X]).degree := by
    rw [(firstTerm_poly (show firstTerm [(3 : ℤ)] = .term 3 0 by decide)).2.1,
      (firstTerm_poly (show firstTerm [(2 : ℤ), 1] = .term 2 1 by decide)).2.1]
    decide
  refine ⟨e, ?_, by decide, by decide⟩
  by_contra h
  have := ((C99_div_mod t ⟨[6, 7, 5]⟩ ⟨[2, 1]⟩ (by decide)
    (by intro h0; exact absurd (firstTerm_zero_poly.2 h0) (by decide)) _ _ e hd 4 (by decide)).2 h).1
  revert this
  decide

/-- `100x² / (x - 2)` in `i8`: the quotient and remainder over the integers are `100x + 200` and `400`, and the division
panics. -/
example : let t : IntTy := ⟨true, 8⟩
    (descPoly [100, 0, 0] : ℤ[X]) = descPoly [100, 200] * descPoly [1, -2] + descPoly [400] ∧
    ¬ RoundsFit t (descPoly [100, 0, 0]) (descPoly [1, -2]) (descPoly [100, 200]) ∧
    Poly.divModM (.machine true t) 4 ⟨[100, 0, 0]⟩ ⟨[1, -2]⟩ = .panic := by
  intro t
  refine ⟨by simp [descPoly]; ring, fun h => ?_, by decide⟩
  have h1 := (h 1 (by simp [descPoly])).2.1 0
  have h2 : (descPoly [100, 200] : ℤ[X]).coeff 1 = 100 := by simp [descPoly]
  have h3 : (descPoly [1, -2] : ℤ[X]).coeff 0 = -2 := by simp [descPoly]
  rw [h2, h3] at h1
  revert h1
  decide

/-- C99: in every signed type of at least two bits, `(-x + MIN) / (-x)` is `1` with the remainder `MIN` by `div_mod`, and `%=`
panics on it, for it divides `MIN` by `-1`. -/
theorem C99_rem_assign_min (t : IntTy) (hs : t.signed = true) (hw : 2 ≤ t.bits) :
    (∃ q r, Poly.divModM (.machine true t) 3 ⟨[-1, t.min]⟩ ⟨[-1, 0]⟩ = .ok (q, r) ∧ descPoly q.terms = 1 ∧
      descPoly r.terms = C t.min) ∧
    Poly.remAssignM (.machine true t) 3 ⟨[-1, t.min]⟩ ⟨[-1, 0]⟩ = .panic := by
  obtain ⟨n, hn⟩ : ∃ n, t.bits = n + 2 := ⟨t.bits - 2, by omega⟩
  have hp : (1 : ℤ) ≤ 2 ^ n := by exact_mod_cast Nat.one_le_two_pow
  have hmin : t.min = -(2 * 2 ^ n) := by rw [IntTy.min, if_pos hs, hn]; simp [pow_succ, mul_comm]
  have hmax : t.max = 2 * 2 ^ n - 1 := by rw [IntTy.max, if_pos hs, hn]; simp [pow_succ, mul_comm]
  have hr : ∀ v : ℤ, -2 ≤ v → v ≤ 1 → t.InRange v := fun v h1 h2 => by
    unfold IntTy.InRange; rw [hmin, hmax]; constructor <;> linarith
  have hm0 : t.min ≠ 0 := by rw [hmin]; linarith
  have hin : t.InRange t.min := by
    unfold IntTy.InRange; rw [hmax, hmin]; constructor <;> linarith
  have hb : (descPoly [-1, 0] : ℤ[X]) = - X := by simp [descPoly]
  have hP : (descPoly [-1, t.min] : ℤ[X]) = 1 * descPoly [-1, 0] + C t.min := by simp [descPoly]
  have hpin : ∀ x ∈ [-1, t.min], t.InRange x := by
    intro x hx
    rcases List.mem_cons.1 hx with rfl | hx
    · exact hr _ (by norm_num) (by norm_num)
    · rw [List.mem_singleton] at hx; rw [hx]; exact hin
  have hb0 : (descPoly [-1, 0] : ℤ[X]) ≠ 0 := fun h0 => absurd (firstTerm_zero_poly.2 h0) (by decide)
  have hd : (C t.min : ℤ[X]).degree < (descPoly [-1, 0] : ℤ[X]).degree := by
    rw [hb, degree_neg, degree_X, degree_C hm0]; exact zero_lt_one
  have hfit : RoundsFit t (descPoly [-1, t.min]) (descPoly [-1, 0]) 1 := by
    have h1 : (1 : ℤ[X]).leadingCoeff = 1 := leadingCoeff_one
    rw [roundsFit_step t one_ne_zero]
    rw [show (1 : ℤ[X]).eraseLead = 0 by rw [← C_1, eraseLead_C]]
    refine ⟨⟨?_, fun j => ?_, fun d => ?_⟩, roundsFit_zero t _ _⟩
    · rw [h1]; exact hr _ (by norm_num) (by norm_num)
    · rw [h1, hb, one_mul, coeff_neg, coeff_X]
      split <;> exact hr _ (by norm_num) (by norm_num)
    · rw [hP, h1]
      have : (1 * descPoly [-1, 0] + C t.min - C 1 * X ^ (1 : ℤ[X]).natDegree * descPoly [-1, 0] : ℤ[X]) = C t.min := by
        rw [natDegree_one]; simp
      rw [this, coeff_C]
      split
      · exact hin
      · exact hr _ (by norm_num) (by norm_num)
  refine ⟨?_, ?_⟩
  · obtain ⟨q, r, h1, -, h2, h3⟩ := (C99_div_mod t ⟨[-1, t.min]⟩ ⟨[-1, 0]⟩ hpin hb0 1 _ hP hd 3 (by simp)).1 hfit
    exact ⟨q, r, h1, h2, h3⟩
  · refine (C99_rem_assign t ⟨[-1, t.min]⟩ ⟨[-1, 0]⟩ hpin hb0 1 _ hP hd 3 (by simp)).2.1 hfit one_ne_zero
      (C_ne_zero.2 hm0) ?_
    rw [leadingCoeff_C, (firstTerm_poly (show firstTerm [(-1 : ℤ), 0] = .term (-1) 1 by decide)).2.2,
      show t.min.tdiv (-1) = - t.min by simp]
    intro h
    have := h.2
    rw [hmax, hmin] at this
    linarith

example : Poly.divModM (.machine true ⟨true, 8⟩) 3 ⟨[-1, -128]⟩ ⟨[-1, 0]⟩ = .ok (⟨[1]⟩, ⟨[-128]⟩) ∧
    Poly.remAssignM (.machine true ⟨true, 8⟩) 3 ⟨[-1, -128]⟩ ⟨[-1, 0]⟩ = .panic := ⟨by decide, by decide⟩

/-- `(2x² + 3x) / 2x` in `i8`: the quotient has the term `x`, and then `3x` is left, whose leading coefficient is no multiple
of `2`: the division does not return.  Division by `-2x + 127` panics. -/
example : let t : IntTy := ⟨true, 8⟩
    StuckAt (descPoly [2, 3, 0]) (descPoly [2, 0]) (descPoly [1, 0]) (descPoly [3, 0]) ∧
    (∀ fuel, Poly.divModM (.machine true t) fuel ⟨[2, 3, 0]⟩ ⟨[2, 0]⟩ = .fuel) ∧
    Poly.divModM (.machine true t) 4 ⟨[2, 3, 0]⟩ ⟨[-2, 127]⟩ = .panic := by
  intro t
  have hs : StuckAt (descPoly [2, 3, 0]) (descPoly [2, 0]) (descPoly [1, 0]) (descPoly [3, 0]) := by
    obtain ⟨_, d1, l1⟩ := firstTerm_poly (show firstTerm [(2 : ℤ), 0] = .term 2 1 by decide)
    obtain ⟨_, d2, l2⟩ := firstTerm_poly (show firstTerm [(3 : ℤ), 0] = .term 3 1 by decide)
    refine ⟨by simp [descPoly]; ring, by rw [d1, d2], by rw [l1, l2]; decide, fun k hk => ?_⟩
    rw [natDegree_eq_of_degree_eq_some d1, natDegree_eq_of_degree_eq_some d2]
    rcases k with - | k
    · simp [descPoly] at hk
    · omega
  refine ⟨hs, ?_, by decide⟩
  have hb : descPoly [(2 : ℤ), 0] ≠ 0 := fun h0 => absurd (firstTerm_zero_poly.2 h0) (by decide)
  refine fun fuel => ((C99_stuck t ⟨[2, 3, 0]⟩ ⟨[2, 0]⟩ (by decide) hb _ _ hs).1 ?_ fuel).1
  by_contra h
  have := ((C99_stuck t ⟨[2, 3, 0]⟩ ⟨[2, 0]⟩ (by decide) hb _ _ hs).2 h 4 (by decide)).1
  revert this
  decide

end Rustnomial
