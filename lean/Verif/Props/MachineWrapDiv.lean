import Verif.Props.MachineWrap
import Verif.Props.MachineLoops

/-!
# C82: division of machine integers in a build without overflow checks

Every difference is reduced modulo `2 ^ bits`; `MIN / -1` still panics.
-/

open Polynomial

namespace Rustnomial

section
variable (t : IntTy)

theorem tmod_inRange {c : Int} (hc : t.InRange c) (b : Int) : t.InRange (c.tmod b) := by
  obtain ⟨z1, z2⟩ := t.zero_inRange
  obtain ⟨h1, h2⟩ := hc
  have habs : (c.tmod b).natAbs ≤ c.natAbs := by rw [Int.natAbs_tmod]; exact Nat.mod_le _ _
  rcases le_or_gt 0 c with h | h
  · have := Int.tmod_nonneg b h
    exact ⟨by omega, by omega⟩
  · have h3 : c.tmod b ≤ 0 := by
      have := Int.tmod_nonneg b (show 0 ≤ -c by omega)
      rw [Int.neg_tmod] at this; omega
    exact ⟨by omega, by omega⟩

/-- The subtraction of a multiple of the divisor, wrapping. -/
theorem vecSubWScaleM_wrap (hbits : 1 ≤ t.bits) {rem b : List Int} {c rf : Int} {sd rd : Nat} (s : Int)
    (hr : firstTerm rem = .term c sd) (hb : firstTerm b = .term rf rd) (h : rd ≤ sd) (hin : AllIn t rem) :
    ∃ rem', vecSubWScaleM (.machine false t) rem sd b rd s = .ok rem' ∧ rem'.length = rem.length ∧ AllIn t rem' ∧
      ∀ d, (descPoly rem').coeff d = t.wrap ((descPoly rem - C s * X ^ (sd - rd) * descPoly b).coeff d) := by
  obtain ⟨vs, r1, r2, r3, r4, _⟩ := firstTerm_term hr
  obtain ⟨ws, b1, b2, b3, b4, _⟩ := firstTerm_term hb
  obtain ⟨rem', hv, hvl, hvp⟩ := vecSubWScale_poly s hr hb h
  rw [vecSubWScale_ok s r3 b3] at hv
  have hv := Res.ok.inj hv
  have hf : ∀ x y, ((Arith.machine false t).mul y s >>= fun v => (Arith.machine false t).sub (t.wrap x) v) =
      .ok (t.wrap (x - y * s)) := by
    intro x y
    show Res.ok (t.wrap (t.wrap x - t.wrap (y * s))) = _
    congr 1
    rw [wrap_eq_iff]
    push_cast
    rw [cast_wrap, cast_wrap]
    push_cast
    rfl
  have hz := wrap_zipMutM (f := fun x y => (Arith.machine false t).mul y s >>= fun v => (Arith.machine false t).sub x v)
    (g := fun x y => x - y * s) t hf (rem.drop (rem.length - sd - 1)) (b.drop (b.length - rd - 1))
  rw [List.map_drop, wrap_allIn t hbits hin] at hz
  have htake : (rem.take (rem.length - sd - 1)).map t.wrap = rem.take (rem.length - sd - 1) := by
    rw [List.map_take, wrap_allIn t hbits hin]
  refine ⟨rem'.map t.wrap, ?_, by simpa using hvl, AllIn.map_wrap t hbits _, fun d => by rw [coeff_map_wrap, hvp]⟩
  rw [vecSubWScaleM_eq _ s r3 b3, hz, Res.ok_bind, ← hv, List.map_append, htake]

/-- One round on the leading terms: the degree does not grow, and if it stays, the new leading coefficient is the
remainder of the old one. -/
theorem wrap_step {rem b rem' : List Int} {c rf c' : Int} {sd rd sd' : Nat}
    (hbits : 1 ≤ t.bits) (hr : firstTerm rem = .term c sd) (hb : firstTerm b = .term rf rd) (hle : rd ≤ sd) (hin : AllIn t rem)
    (hv : ∀ d, (descPoly rem').coeff d = t.wrap ((descPoly rem - C (c.tdiv rf) * X ^ (sd - rd) * descPoly b).coeff d))
    (hf : firstTerm rem' = .term c' sd') : sd' ≤ sd ∧ (sd' = sd → c' = c.tmod rf) := by
  obtain ⟨hc, hrd, hrl⟩ := firstTerm_poly hr
  obtain ⟨hrf, hbd, hbl⟩ := firstTerm_poly hb
  obtain ⟨hc', hrd', hrl'⟩ := firstTerm_poly hf
  have h1 : (descPoly rem').coeff sd' = c' := by
    rw [← hrl', leadingCoeff, natDegree_eq_of_degree_eq_some hrd']
  have h2 : (descPoly rem).coeff sd = c := by
    rw [← hrl, leadingCoeff, natDegree_eq_of_degree_eq_some hrd]
  have h3 : (descPoly b).coeff rd = rf := by
    rw [← hbl, leadingCoeff, natDegree_eq_of_degree_eq_some hbd]
  have hco : ∀ d, sd ≤ d → (descPoly rem - C (c.tdiv rf) * X ^ (sd - rd) * descPoly b).coeff d =
      if d = sd then c.tmod rf else 0 := by
    intro d hd
    rw [coeff_sub, mul_assoc, coeff_C_mul, coeff_X_pow_mul', if_pos (by omega)]
    split_ifs with e
    · subst e
      rw [h2, Nat.sub_sub_self hle, h3]
      have := Int.mul_tdiv_add_tmod c rf
      linarith
    · rw [coeff_eq_zero_of_degree_lt (by rw [hrd]; exact_mod_cast (show sd < d by omega)),
        coeff_eq_zero_of_degree_lt (by rw [hbd]; exact_mod_cast (show rd < d - (sd - rd) by omega))]
      simp
  have hcin : t.InRange c := by rw [← h2]; exact (inRange_descPoly t rem).1 hin sd
  constructor
  · by_contra hlt
    push Not at hlt
    have := hv sd'
    rw [hco sd' hlt.le, if_neg hlt.ne', t.wrap_zero, h1] at this
    exact hc' this
  · rintro rfl
    have := hv sd'
    rw [hco sd' le_rfl, if_pos rfl, h1, t.wrap_of_inRange hbits _ (tmod_inRange t hcin rf)] at this
    exact this


theorem firstTerm_of_poly {l : List Int} {c : Int} {sd : Nat} (h1 : (descPoly l).degree = sd) (h2 : (descPoly l).leadingCoeff = c) :
    firstTerm l = .term c sd := by
  cases hf : firstTerm l with
  | zeroTerm => rw [firstTerm_zero_poly.1 hf] at h1; simp at h1
  | term c' sd' =>
    obtain ⟨_, h3, h4⟩ := firstTerm_poly hf
    rw [h1] at h3
    rw [← h2, h4, show sd = sd' by exact_mod_cast h3]

/-- The leading coefficient of a nonzero polynomial from its coefficients. -/
theorem degree_of_coeffs {P : ℤ[X]} {c : Int} {sd : Nat} (hc : c ≠ 0) (h1 : P.coeff sd = c) (h2 : ∀ d, sd < d → P.coeff d = 0) :
    P.degree = sd ∧ P.leadingCoeff = c := by
  have hd : P.degree = sd := le_antisymm (degree_le_iff_coeff_zero _ _ |>.2 fun d hd => h2 d (by exact_mod_cast hd))
    (le_degree_of_ne_zero (h1 ▸ hc))
  exact ⟨hd, by rw [leadingCoeff, natDegree_eq_of_degree_eq_some hd, h1]⟩

/-- A state whose leading coefficient truncates to a zero quotient is never left. -/
theorem wrap_divModLoopM_stuck (hbits : 1 ≤ t.bits) {b : List Int} {rf : Int} {rd offset : Nat} (hb : firstTerm b = .term rf rd)
    {c : Int} {sd : Nat} (hc : c.tdiv rf = 0) (hle : rd ≤ sd) (hoff : sd ≤ offset) :
    ∀ (fuel : Nat) (rem div : List Int), firstTerm rem = .term c sd → AllIn t rem → div.length = offset - rd + 1 →
      Poly.divModLoopM (.machine false t) b rf rd offset fuel c sd rem div = .fuel ∧
      Poly.remAssignLoopM (.machine false t) b rf rd fuel 0 sd rem = .fuel := by
  intro fuel
  have hrf := (firstTerm_poly hb).1
  have hdiv : (Arith2.machine false t).div c rf = .ok 0 := by
    rw [machine_div_ok hrf (by rw [hc]; exact t.zero_inRange), hc]
  induction fuel with
  | zero => intros; exact ⟨rfl, rfl⟩
  | succ fuel ih =>
    intro rem div hr hin hlen
    have hu : usub offset sd = .ok (offset - sd) := by simp [usub, hoff]
    have hi : offset - sd < div.length := by rw [hlen]; omega
    obtain ⟨rem', hv, hvl, hin', hvp⟩ := vecSubWScaleM_wrap t hbits 0 hr hb hle hin
    have hv' : vecSubWScaleM (Arith2.machine false t).toArith rem sd b rd 0 = .ok rem' := hv
    have hpe : descPoly rem' = descPoly rem := by
      ext d
      rw [hvp d]
      simp only [C_0, zero_mul, sub_zero]
      exact t.wrap_of_inRange hbits _ ((inRange_descPoly t rem).1 hin d)
    have hf : firstTerm rem' = .term c sd := by
      obtain ⟨_, h2, h3⟩ := firstTerm_poly hr
      exact firstTerm_of_poly (by rw [hpe, h2]) (by rw [hpe, h3])
    obtain ⟨i1, i2⟩ := ih rem' (div.set (offset - sd) 0) hf hin' (by simpa using hlen)
    constructor
    · unfold Poly.divModLoopM
      rw [if_pos hle, hdiv, Res.ok_bind, hv', Res.ok_bind, hu, Res.ok_bind, if_pos hi]
      dsimp only
      rw [hf]
      exact i1
    · unfold Poly.remAssignLoopM
      rw [if_pos hle, hv', Res.ok_bind, hf]
      dsimp only
      rw [hdiv, Res.ok_bind]
      exact i2

theorem red_step (hbits : 1 ≤ t.bits) {rem rem' : List Int} {S : ℤ[X]}
    (hv : ∀ d, (descPoly rem').coeff d = t.wrap ((descPoly rem - S).coeff d)) :
    red t (descPoly rem') = red t (descPoly rem) - red t S := by
  rw [← map_sub, red_eq_iff]
  intro d
  rw [hv d, t.wrap_of_inRange hbits _ (t.wrap_inRange hbits _)]

/-- A quotient of leading coefficients which overflows is `MIN / -1`. -/
theorem overflow_cause {rem : List Int} {c rf : Int} {sd : Nat} (hr : firstTerm rem = .term c sd) (hin : AllIn t rem)
    (hrf : rf ≠ 0) (hbr : t.InRange rf) (hs : ¬ t.InRange (c.tdiv rf)) : t.signed = true ∧ rf = -1 := by
  obtain ⟨hc, hrd, hrl⟩ := firstTerm_poly hr
  have hcin : t.InRange c := by
    have := (inRange_descPoly t rem).1 hin sd
    rwa [show (descPoly rem).coeff sd = c by rw [← hrl, leadingCoeff, natDegree_eq_of_degree_eq_some hrd]] at this
  by_contra hn
  exact hs ((div_cond hcin hbr).2 ⟨hrf, fun h => hn ⟨h.1, h.2.1⟩⟩).2

theorem wrap_divModLoopM (hbits : 1 ≤ t.bits) {b : List Int} {rf : Int} {rd offset : Nat} (hb : firstTerm b = .term rf rd)
    (hbr : t.InRange rf) :
    ∀ (fuel : Nat) (c : Int) (sd : Nat) (rem div : List Int),
    firstTerm rem = .term c sd → AllIn t rem → AllIn t div → sd ≤ offset → div.length = offset - rd + 1 →
    (∀ j, offset - sd ≤ j → div.getD j 0 = 0) →
    (Poly.divModLoopM (.machine false t) b rf rd offset fuel c sd rem div = .fuel ∧ (rf = 1 → fuel < sd + 2)) ∨
    (Poly.divModLoopM (.machine false t) b rf rd offset fuel c sd rem div = .panic ∧ t.signed = true ∧ rf = -1) ∨
    ∃ div' rem', Poly.divModLoopM (.machine false t) b rf rd offset fuel c sd rem div = .ok (div', rem') ∧
      AllIn t div' ∧ AllIn t rem' ∧
      red t (descPoly rem) = (red t (descPoly div') - red t (descPoly div)) * red t (descPoly b) + red t (descPoly rem') ∧
      (descPoly rem').degree < (descPoly b).degree := by
  obtain ⟨hrf, hbd, hbl⟩ := firstTerm_poly hb
  intro fuel
  induction fuel with
  | zero => intro c sd rem div hr _ _ _ _ _; exact .inl ⟨rfl, fun _ => by omega⟩
  | succ fuel ih =>
    intro c sd rem div hr hin hdin hoff hlen hz
    obtain ⟨hc, hrd, hrl⟩ := firstTerm_poly hr
    unfold Poly.divModLoopM
    by_cases hle : rd ≤ sd
    · rw [if_pos hle]
      by_cases hs : t.InRange (c.tdiv rf)
      · rw [machine_div_ok hrf hs, Res.ok_bind]
        obtain ⟨rem', hv, hvl, hin', hvp⟩ := vecSubWScaleM_wrap t hbits (c.tdiv rf) hr hb hle hin
        have hv' : vecSubWScaleM (Arith2.machine false t).toArith rem sd b rd (c.tdiv rf) = .ok rem' := hv
        have hu : usub offset sd = .ok (offset - sd) := by simp [usub, hoff]
        have hi : offset - sd < div.length := by rw [hlen]; omega
        rw [hv', Res.ok_bind, hu, Res.ok_bind, if_pos hi]
        dsimp only
        have hdp : descPoly (div.set (offset - sd) (c.tdiv rf))
            = descPoly div + C (c.tdiv rf) * X ^ (sd - rd) := by
          rw [descPoly_set _ _ _ hi (hz _ le_rfl)]
          congr 3
          rw [hlen]; omega
        have hred := red_step t hbits hvp
        have hdin' : AllIn t (div.set (offset - sd) (c.tdiv rf)) := by
          intro x hx
          rcases List.mem_or_eq_of_mem_set hx with h | rfl
          · exact hdin x h
          · exact hs
        cases hf : firstTerm rem' with
        | zeroTerm =>
          refine .inr (.inr ⟨_, _, rfl, hdin', hin', ?_, ?_⟩)
          · rw [hdp, hred, map_add, map_mul (red t) (_ * _)]; ring
          · rw [firstTerm_zero_poly.1 hf, hbd]; exact WithBot.bot_lt_coe _
        | term c' sd' =>
          obtain ⟨hsd, hsc⟩ := wrap_step t hbits hr hb hle hin hvp hf
          simp only
          by_cases heq : sd' = sd
          · left
            have hc' := hsc heq
            subst heq
            have hz' : c'.tdiv rf = 0 := by rw [hc']; exact tdiv_tmod_self c rf
            refine ⟨(wrap_divModLoopM_stuck t hbits hb hz' hle hoff fuel _ _ hf hin' (by simpa using hlen)).1, ?_⟩
            rintro rfl
            rw [Int.tmod_one] at hc'
            exact absurd hc' (firstTerm_poly hf).1
          · rcases ih c' sd' rem' (div.set (offset - sd) (c.tdiv rf)) hf hin' hdin' (by omega) (by simpa using hlen)
              (fun j hj => by
                have hne : offset - sd ≠ j := by omega
                have := hz j (by omega)
                rw [List.getD_eq_getElem?_getD] at this ⊢
                rw [List.getElem?_set_ne hne, this]) with ⟨h, h'⟩ | h | ⟨div', rem'', h1, h2, h3, h4, h5⟩
            · exact .inl ⟨h, fun e => by have := h' e; omega⟩
            · exact .inr (.inl h)
            · refine .inr (.inr ⟨div', rem'', h1, h2, h3, ?_, h5⟩)
              rw [hdp, hred, map_add, map_mul (red t) (_ * _)] at h4
              linear_combination h4
      · right; left
        rw [machine_div_panic hs]
        exact ⟨rfl, overflow_cause t hr hin hrf hbr hs⟩
    · rw [if_neg hle]
      refine .inr (.inr ⟨_, _, rfl, hdin, hin, by ring, ?_⟩)
      rw [hrd, hbd]; exact_mod_cast Nat.lt_of_not_le hle

/-- `rem_assign` runs through the same remainders. -/
theorem wrap_remAssignLoopM (hbits : 1 ≤ t.bits) {b : List Int} {rf : Int} {rd : Nat} (hb : firstTerm b = .term rf rd)
    (hbr : t.InRange rf) :
    ∀ (fuel : Nat) (c : Int) (sd : Nat) (rem : List Int), firstTerm rem = .term c sd → AllIn t rem →
    (((Arith2.machine false t).div c rf >>= fun s => Poly.remAssignLoopM (.machine false t) b rf rd fuel s sd rem) = .fuel ∧
      (rf = 1 → fuel < sd + 2)) ∨
    (((Arith2.machine false t).div c rf >>= fun s => Poly.remAssignLoopM (.machine false t) b rf rd fuel s sd rem) = .panic ∧
      t.signed = true ∧ rf = -1) ∨
    ∃ rem' Q, ((Arith2.machine false t).div c rf >>= fun s => Poly.remAssignLoopM (.machine false t) b rf rd fuel s sd rem) = .ok rem' ∧
      AllIn t rem' ∧ red t (descPoly rem) = red t Q * red t (descPoly b) + red t (descPoly rem') ∧
      (descPoly rem').degree < (descPoly b).degree := by
  obtain ⟨hrf, hbd, hbl⟩ := firstTerm_poly hb
  intro fuel
  induction fuel with
  | zero =>
    intro c sd rem hr hin
    by_cases hs : t.InRange (c.tdiv rf)
    · rw [machine_div_ok hrf hs, Res.ok_bind]
      exact .inl ⟨rfl, fun _ => by omega⟩
    · rw [machine_div_panic hs]
      exact .inr (.inl ⟨rfl, overflow_cause t hr hin hrf hbr hs⟩)
  | succ fuel ih =>
    intro c sd rem hr hin
    obtain ⟨hc, hrd, hrl⟩ := firstTerm_poly hr
    by_cases hs : t.InRange (c.tdiv rf)
    · rw [machine_div_ok hrf hs, Res.ok_bind]
      unfold Poly.remAssignLoopM
      by_cases hle : rd ≤ sd
      · rw [if_pos hle]
        obtain ⟨rem', hv, hvl, hin', hvp⟩ := vecSubWScaleM_wrap t hbits (c.tdiv rf) hr hb hle hin
        have hv' : vecSubWScaleM (Arith2.machine false t).toArith rem sd b rd (c.tdiv rf) = .ok rem' := hv
        rw [hv', Res.ok_bind]
        have hred := red_step t hbits hvp
        cases hf : firstTerm rem' with
        | zeroTerm =>
          refine .inr (.inr ⟨_, C (c.tdiv rf) * X ^ (sd - rd), rfl, hin', ?_, ?_⟩)
          · rw [hred, map_mul (red t) (_ * _)]; ring
          · rw [firstTerm_zero_poly.1 hf, hbd]; exact WithBot.bot_lt_coe _
        | term c' sd' =>
          obtain ⟨hsd, hsc⟩ := wrap_step t hbits hr hb hle hin hvp hf
          simp only
          by_cases heq : sd' = sd
          · left
            have hc' := hsc heq
            subst heq
            have hz' : c'.tdiv rf = 0 := by rw [hc']; exact tdiv_tmod_self c rf
            rw [machine_div_ok hrf (by rw [hz']; exact t.zero_inRange), Res.ok_bind, hz']
            refine ⟨(wrap_divModLoopM_stuck t hbits hb hz' hle le_rfl fuel _ (List.replicate (sd' - rd + 1) 0) hf hin' (by simp)).2, ?_⟩
            rintro rfl
            rw [Int.tmod_one] at hc'
            exact absurd hc' (firstTerm_poly hf).1
          · rcases ih c' sd' rem' hf hin' with ⟨h, h'⟩ | h | ⟨rem'', Q, h1, h2, h3, h4⟩
            · exact .inl ⟨h, fun e => by have := h' e; omega⟩
            · exact .inr (.inl h)
            · refine .inr (.inr ⟨rem'', C (c.tdiv rf) * X ^ (sd - rd) + Q, h1, h2, ?_, h4⟩)
              rw [hred, map_mul (red t) (_ * _)] at h3
              rw [map_add]
              linear_combination h3
      · rw [if_neg hle]
        refine .inr (.inr ⟨_, 0, rfl, hin, by rw [map_zero]; ring, ?_⟩)
        rw [hrd, hbd]; exact_mod_cast Nat.lt_of_not_le hle
    · right; left
      rw [machine_div_panic hs]
      exact ⟨rfl, overflow_cause t hr hin hrf hbr hs⟩

theorem isWrapOf_of_red (hbits : 1 ≤ t.bits) {r : Poly Int} {P : ℤ[X]} (h1 : AllIn t r.terms) (h2 : red t (descPoly r.terms) = red t P) :
    IsWrapOf t r P := by
  refine ⟨h1, fun d => ?_⟩
  rw [← (red_eq_iff t _ _).1 h2 d, t.wrap_of_inRange hbits _ ((inRange_descPoly t r.terms).1 h1 d)]

theorem wrap_divModM (hbits : 1 ≤ t.bits) (p b : Poly Int) (hp : AllIn t p.terms) (hbr : AllIn t b.terms)
    (hb : descPoly b.terms ≠ 0) (fuel : Nat) :
    (p.divModM (.machine false t) fuel b = .fuel ∧ ((descPoly b.terms).leadingCoeff = 1 → fuel ≤ p.terms.length)) ∨
    (p.divModM (.machine false t) fuel b = .panic ∧ t.signed = true ∧ (descPoly b.terms).leadingCoeff = -1) ∨
    ∃ q r, p.divModM (.machine false t) fuel b = .ok (q, r) ∧
      AllIn t q.terms ∧ IsWrapOf t r (descPoly p.terms - descPoly q.terms * descPoly b.terms) ∧
      (descPoly r.terms).degree < (descPoly b.terms).degree := by
  unfold Poly.divModM
  cases hbf : firstTerm b.terms with
  | zeroTerm => exact absurd (firstTerm_zero_poly.1 hbf) hb
  | term rf rd =>
    obtain ⟨hrf, hbd, hbl⟩ := firstTerm_poly hbf
    have hbin : t.InRange rf := by
      rw [← hbl]; exact (inRange_descPoly t b.terms).1 hbr _
    have htriv : ∃ q r : Poly Int, Res.ok (Poly.zero, p) = .ok (q, r) ∧
        AllIn t q.terms ∧ IsWrapOf t r (descPoly p.terms - descPoly q.terms * descPoly b.terms) ∧ r = p :=
      ⟨_, _, rfl, by simp [Poly.zero, AllIn], isWrapOf_of_red t hbits hp (by simp [Poly.zero]), rfl⟩
    cases hpf : firstTerm p.terms with
    | zeroTerm =>
      obtain ⟨q, r, h1, h2, h3, rfl⟩ := htriv
      refine .inr (.inr ⟨q, r, h1, h2, h3, ?_⟩)
      rw [firstTerm_zero_poly.1 hpf, hbd]; exact WithBot.bot_lt_coe _
    | term c d =>
      simp only
      by_cases hlt : d < rd
      · rw [if_pos hlt]
        obtain ⟨q, r, h1, h2, h3, rfl⟩ := htriv
        refine .inr (.inr ⟨q, r, h1, h2, h3, ?_⟩)
        rw [(firstTerm_poly hpf).2.1, hbd]; exact_mod_cast hlt
      · rw [if_neg hlt]
        have hdl : d + 1 ≤ p.terms.length := by obtain ⟨_, _, _, h, _⟩ := firstTerm_term hpf; exact h
        rcases wrap_divModLoopM t hbits hbf hbin fuel c d p.terms (List.replicate (d - rd + 1) 0) hpf hp
          (by intro x hx; rw [List.eq_of_mem_replicate hx]; exact t.zero_inRange) le_rfl (by simp)
          (fun j _ => by
            rw [List.getD_eq_getElem?_getD, List.getElem?_replicate]; split <;> rfl)
          with ⟨h, h'⟩ | ⟨h, h'⟩ | ⟨div', rem', h1, h2, h3, h4, h5⟩
        · left; rw [h, hbl]; exact ⟨rfl, fun e => by have := h' e; omega⟩
        · right; left; rw [h, hbl]; exact ⟨rfl, h'⟩
        · refine .inr (.inr ⟨_, _, by rw [h1]; rfl, AllIn.new t h2, isWrapOf_of_red t hbits (AllIn.new t h3) ?_, ?_⟩)
          · rw [C01_new_same_polynomial, C01_new_same_polynomial, map_sub, map_mul, h4, descPoly_replicate_zero, map_zero]
            ring
          · rw [C01_new_same_polynomial]; exact h5

theorem wrap_remAssignM (hbits : 1 ≤ t.bits) (p b : Poly Int) (hp : AllIn t p.terms) (hbr : AllIn t b.terms)
    (hb : descPoly b.terms ≠ 0) (fuel : Nat) :
    (p.remAssignM (.machine false t) fuel b = .fuel ∧ ((descPoly b.terms).leadingCoeff = 1 → fuel ≤ p.terms.length)) ∨
    (p.remAssignM (.machine false t) fuel b = .panic ∧ t.signed = true ∧ (descPoly b.terms).leadingCoeff = -1) ∨
    ∃ r Q, p.remAssignM (.machine false t) fuel b = .ok r ∧
      IsWrapOf t r (descPoly p.terms - Q * descPoly b.terms) ∧
      (descPoly r.terms).degree < (descPoly b.terms).degree := by
  unfold Poly.remAssignM
  cases hbf : firstTerm b.terms with
  | zeroTerm => exact absurd (firstTerm_zero_poly.1 hbf) hb
  | term rf rd =>
    obtain ⟨hrf, hbd, hbl⟩ := firstTerm_poly hbf
    have hbin : t.InRange rf := by
      rw [← hbl]; exact (inRange_descPoly t b.terms).1 hbr _
    cases hpf : firstTerm p.terms with
    | zeroTerm =>
      refine .inr (.inr ⟨_, 0, rfl, isWrapOf_of_red t hbits hp (by simp), ?_⟩)
      rw [firstTerm_zero_poly.1 hpf, hbd]; exact WithBot.bot_lt_coe _
    | term c d =>
      simp only
      by_cases hlt : d < rd
      · rw [if_pos hlt]
        refine .inr (.inr ⟨_, 0, rfl, isWrapOf_of_red t hbits hp (by simp), ?_⟩)
        rw [(firstTerm_poly hpf).2.1, hbd]; exact_mod_cast hlt
      · rw [if_neg hlt]
        have hdl : d + 1 ≤ p.terms.length := by obtain ⟨_, _, _, h, _⟩ := firstTerm_term hpf; exact h
        rw [← bind_assoc]
        rcases wrap_remAssignLoopM t hbits hbf hbin fuel c d p.terms hpf hp
          with ⟨h, h'⟩ | ⟨h, h'⟩ | ⟨rem', Q, h1, h2, h3, h4⟩
        · left; rw [h, hbl]; exact ⟨rfl, fun e => by have := h' e; omega⟩
        · right; left; rw [h, hbl]; exact ⟨rfl, h'⟩
        · exact .inr (.inr ⟨⟨rem'⟩, Q, by rw [h1]; rfl, isWrapOf_of_red t hbits h2 (by rw [map_sub, map_mul, h3]; ring), h4⟩)

/-- C82: without overflow checks `div_mod` of dense polynomials with a nonzero divisor never returns, panics – only
for a signed type and a divisor with leading coefficient `-1` – or returns values of the type with
`p ≡ q * b + r` modulo `2 ^ bits` and `r` of lower degree than the divisor.  `floor_div` returns the same
quotient. -/
theorem C82_dense_div_mod (hbits : 1 ≤ t.bits) (p b : Poly Int) (hp : AllIn t p.terms) (hbr : AllIn t b.terms)
    (hb : descPoly b.terms ≠ 0) (fuel : Nat) :
    (p.divModM (.machine false t) fuel b = .fuel ∧ p.floorDivM (.machine false t) fuel b = .fuel) ∨
    (p.divModM (.machine false t) fuel b = .panic ∧ p.floorDivM (.machine false t) fuel b = .panic ∧
      t.signed = true ∧ (descPoly b.terms).leadingCoeff = -1) ∨
    ∃ q r, p.divModM (.machine false t) fuel b = .ok (q, r) ∧ p.floorDivM (.machine false t) fuel b = .ok q ∧
      AllIn t q.terms ∧ IsWrapOf t r (descPoly p.terms - descPoly q.terms * descPoly b.terms) ∧
      (descPoly r.terms).degree < (descPoly b.terms).degree := by
  unfold Poly.floorDivM
  rcases wrap_divModM t hbits p b hp hbr hb fuel with ⟨h, _⟩ | ⟨h, h'⟩ | ⟨q, r, h, h'⟩
  · left; rw [h]; exact ⟨rfl, rfl⟩
  · right; left; rw [h]; exact ⟨rfl, rfl, h'⟩
  · right; right; rw [h]; exact ⟨q, r, rfl, rfl, h'⟩

/-- C82: without overflow checks `%=` of dense polynomials with a nonzero divisor never returns, panics – only for a
signed type and a divisor with leading coefficient `-1` – or leaves values of the type congruent to
`p - q * b` modulo `2 ^ bits`, for some `q`, and of lower degree than the divisor. -/
theorem C82_dense_rem_assign (hbits : 1 ≤ t.bits) (p b : Poly Int) (hp : AllIn t p.terms) (hbr : AllIn t b.terms)
    (hb : descPoly b.terms ≠ 0) (fuel : Nat) :
    p.remAssignM (.machine false t) fuel b = .fuel ∨
    (p.remAssignM (.machine false t) fuel b = .panic ∧ t.signed = true ∧ (descPoly b.terms).leadingCoeff = -1) ∨
    ∃ r Q, p.remAssignM (.machine false t) fuel b = .ok r ∧
      IsWrapOf t r (descPoly p.terms - Q * descPoly b.terms) ∧
      (descPoly r.terms).degree < (descPoly b.terms).degree := by
  rcases wrap_remAssignM t hbits p b hp hbr hb fuel with ⟨h, _⟩ | h | h
  · exact .inl h
  · exact .inr (.inl h)
  · exact .inr (.inr h)

theorem monic_unique (hbits : 1 ≤ t.bits) {P B Q R : ℤ[X]} (hB : B.Monic) (h : red t R = red t (P - Q * B)) (hd : R.degree < B.degree) :
    red t (P /ₘ B) = red t Q ∧ red t (P %ₘ B) = red t R := by
  have : Fact (1 < 2 ^ t.bits) := ⟨Nat.one_lt_two_pow (by omega)⟩
  have hBm : (red t B).Monic := hB.map _
  have hBd : (red t B).degree = B.degree := hB.degree_map _
  have hRd : (red t R).degree < (red t B).degree := by
    rw [hBd]; exact (degree_map_le).trans_lt hd
  have := div_modByMonic_unique (f := red t P) (red t Q) (red t R) hBm ⟨by rw [h, map_sub, map_mul]; ring, hRd⟩
  have e1 : red t (P /ₘ B) = red t P /ₘ red t B := map_divByMonic _ hB
  have e2 : red t (P %ₘ B) = red t P %ₘ red t B := map_modByMonic _ hB
  rw [e1, e2]
  exact this

/-- C82: without overflow checks division of dense polynomials by a monic divisor returns within `len(self) + 1`
rounds, with the coefficients of the exact quotient and remainder reduced to the type. -/
theorem C82_dense_monic (hbits : 1 ≤ t.bits) (p b : Poly Int) (hp : AllIn t p.terms) (hbr : AllIn t b.terms)
    (hb : (descPoly b.terms).Monic) (fuel : Nat) (hf : p.terms.length + 1 ≤ fuel) :
    ∃ q r, p.divModM (.machine false t) fuel b = .ok (q, r) ∧ p.floorDivM (.machine false t) fuel b = .ok q ∧
      (∃ r', p.remAssignM (.machine false t) fuel b = .ok r' ∧ IsWrapOf t r' (descPoly p.terms %ₘ descPoly b.terms)) ∧
      IsWrapOf t q (descPoly p.terms /ₘ descPoly b.terms) ∧ IsWrapOf t r (descPoly p.terms %ₘ descPoly b.terms) := by
  have h1 : (descPoly b.terms).leadingCoeff = 1 := hb
  have hne : (1 : ℤ) ≠ -1 := by norm_num
  unfold Poly.floorDivM
  rcases wrap_divModM t hbits p b hp hbr hb.ne_zero fuel with ⟨_, h'⟩ | ⟨_, _, h'⟩ | ⟨q, r, h, hq, hr, hd⟩
  · have := h' h1; omega
  · rw [h1] at h'; exact absurd h' hne
  · rw [h]
    obtain ⟨u1, u2⟩ := monic_unique t hbits hb (hr.red_eq) hd
    refine ⟨q, r, rfl, rfl, ?_, isWrapOf_of_red t hbits hq u1.symm, isWrapOf_of_red t hbits hr.1 u2.symm⟩
    rcases wrap_remAssignM t hbits p b hp hbr hb.ne_zero fuel with ⟨_, h'⟩ | ⟨_, _, h'⟩ | ⟨r', Q, h', hr', hd'⟩
    · have := h' h1; omega
    · rw [h1] at h'; exact absurd h' hne
    · exact ⟨r', h', isWrapOf_of_red t hbits hr'.1 (monic_unique t hbits hb (hr'.red_eq) hd').2.symm⟩

/-! ### Sparse polynomials -/

theorem wrap_mapSubWScaleM (hbits : 1 ≤ t.bits) {l : BMap Int} (hl : ∀ e ∈ l.entries, t.InRange e.2) (r : BMap Int) (s : Int) :
    ∃ m, mapSubWScaleM (Arith2.machine false t).toArith l r s = .ok m ∧ (∀ e ∈ m.entries, t.InRange e.2) ∧
      ∀ d, (entriesPoly m.entries).coeff d = t.wrap ((entriesPoly l.entries - C s * entriesPoly r.entries).coeff d) := by
  have h := foldlM_sim (φ := fun m => m.mapVals t.wrap)
    (f := fun m (e : Nat × Int) => m.upsertM e.1 ((Arith.machine false t).neg e.2 >>= fun n => (Arith.machine false t).mul n s)
      (fun l => (Arith.machine false t).mul e.2 s >>= fun x => (Arith.machine false t).sub l x))
    (g := fun m e => m.upsert e.1 (-e.2 * s) (· - e.2 * s)) r.entries
    (fun m e _ => upsertM_mapVals t (w := -e.2 * s) (g := (· - e.2 * s))
      (v := (Arith.machine false t).neg e.2 >>= fun n => (Arith.machine false t).mul n s)
      (f := fun l => (Arith.machine false t).mul e.2 s >>= fun x => (Arith.machine false t).sub l x) (by
        show Res.ok (t.wrap (t.wrap (-e.2) * s)) = _
        congr 1
        rw [wrap_eq_iff]; push_cast; rw [cast_wrap]; push_cast; rfl) (fun x => by
        show Res.ok (t.wrap (t.wrap x - t.wrap (e.2 * s))) = _
        congr 1
        rw [wrap_eq_iff]; push_cast; rw [cast_wrap, cast_wrap]; push_cast; rfl)) l
  rw [mapVals_wrap_eq t hbits hl] at h
  have hw := isWrapOfS_mapVals t hbits (mapSubWScale l r s)
  rw [mapSubWScale_poly] at hw
  exact ⟨_, h, hw.1, hw.2⟩

theorem addTermM_wrap_ok (p : Sparse Int) (c : Int) (k : Nat) : ∃ r, p.addTermM (.machine false t) c k = .ok r := by
  unfold Sparse.addTermM BMap.upsertM
  split
  · exact ⟨_, rfl⟩
  · cases p.terms.get k <;> exact ⟨_, rfl⟩

/-- A round which leaves the leading term of the remainder is repeated forever. -/
theorem wrap_sparse_stuck (hbits : 1 ≤ t.bits) {b : BMap Int} {rf c s : Int} {rd sd off : Nat} (hb : sparseFirstTerm b = .term rf rd)
    (hd : rd ≤ sd) (hdiv : (Arith2.machine false t).div c rf = .ok s) (hs : rd < sd ∨ s = 0) :
    ∀ (fuel : Nat) (rem : BMap Int) (div : Sparse Int),
    (∀ e ∈ rem.entries, t.InRange e.2) → sparseFirstTerm rem = .term c sd →
      Sparse.divModLoopM (.machine false t) b rf rd off fuel s sd rem div = .fuel ∧
      Sparse.remLoopM (.machine false t) b rf rd fuel s sd rem = .fuel := by
  intro fuel
  obtain ⟨hrf, hbd, hbl⟩ := sparseFirstTerm_term hb
  induction fuel with
  | zero => intros; exact ⟨rfl, rfl⟩
  | succ fuel ih =>
    intro rem div hin hr
    obtain ⟨hc, hrd, hrl⟩ := sparseFirstTerm_term hr
    obtain ⟨m, hm, hmin, hmp⟩ := wrap_mapSubWScaleM t hbits hin b s
    obtain ⟨div', hdiv'⟩ := addTermM_wrap_ok t div s off
    have hco : ∀ d, sd ≤ d → (entriesPoly m.entries).coeff d = (entriesPoly rem.entries).coeff d := by
      intro d hsd
      rw [hmp d, coeff_sub, coeff_C_mul]
      have : s * (entriesPoly b.entries).coeff d = 0 := by
        rcases hs with h | h
        · rw [coeff_eq_zero_of_degree_lt (by rw [hbd]; exact_mod_cast (show rd < d by omega)), mul_zero]
        · rw [h, zero_mul]
      rw [this, sub_zero]
      exact t.wrap_of_inRange hbits _ ((inRange_mapPoly t rem).1 hin d)
    obtain ⟨g1, g2⟩ := degree_of_coeffs (P := entriesPoly m.entries) (sd := sd) hc
      (by rw [hco sd le_rfl, ← hrl, leadingCoeff, natDegree_eq_of_degree_eq_some hrd])
      (fun d hd => by rw [hco d hd.le]; exact coeff_eq_zero_of_degree_lt (by rw [hrd]; exact_mod_cast hd))
    have hf := sparseFirstTerm_of_poly g1 g2
    obtain ⟨i1, i2⟩ := ih m div' hmin hf
    constructor
    · unfold Sparse.divModLoopM
      rw [if_pos hd, hm, Res.ok_bind]
      have : div.addTermM (Arith2.machine false t).toArith s off = .ok div' := hdiv'
      rw [this, Res.ok_bind, hf]
      dsimp only
      rw [hdiv, Res.ok_bind, i1]
    · unfold Sparse.remLoopM
      rw [if_pos hd, hm, Res.ok_bind, hf]
      dsimp only
      rw [hdiv, Res.ok_bind, i2]

/-- C82, sparse division without overflow checks, when the divisor `B` is not zero and of no larger degree than the
dividend `P`.  With `s` the quotient of the leading coefficients:
* it panics when `s` overflows (`MIN / -1`);
* of a larger degree than `B`, it never returns;
* of equal degrees, it never returns unless the leading coefficient of `B` divides that of `P`; then, with `R` the
  reduction of `P - s * B`, it returns `s` and `R`, or panics when the quotient of the leading coefficients of
  `R` and `B` overflows. -/
theorem C82_sparse_division (hbits : 1 ≤ t.bits) (p b : Sparse Int) (hp : ∀ e ∈ p.terms.entries, t.InRange e.2)
    (P B : ℤ[X]) (hP : P = entriesPoly p.terms.entries) (hB : B = entriesPoly b.terms.entries) (hB0 : B ≠ 0)
    (hdeg : B.degree ≤ P.degree) (s : Int) (hs : s = P.leadingCoeff.tdiv B.leadingCoeff) :
    (¬ t.InRange s → ∀ fuel, p.divModM (.machine false t) fuel b = .panic ∧ p.remM (.machine false t) fuel b = .panic) ∧
    (t.InRange s →
      (B.degree < P.degree → ∀ fuel,
        p.divModM (.machine false t) fuel b = .fuel ∧ p.remM (.machine false t) fuel b = .fuel) ∧
      (B.degree = P.degree →
        (¬ B.leadingCoeff ∣ P.leadingCoeff → ∀ fuel,
          p.divModM (.machine false t) fuel b = .fuel ∧ p.remM (.machine false t) fuel b = .fuel) ∧
        (B.leadingCoeff ∣ P.leadingCoeff → ∃ R : ℤ[X], R.degree < B.degree ∧
          (∀ d, R.coeff d = t.wrap ((P - C s * B).coeff d)) ∧
          (t.InRange (R.leadingCoeff.tdiv B.leadingCoeff) → ∀ fuel, 2 ≤ fuel →
            ∃ q r, p.divModM (.machine false t) fuel b = .ok (q, r) ∧ p.remM (.machine false t) fuel b = .ok r ∧
              entriesPoly q.terms.entries = C s ∧ entriesPoly r.terms.entries = R) ∧
          (¬ t.InRange (R.leadingCoeff.tdiv B.leadingCoeff) → ∀ fuel, 1 ≤ fuel →
            p.divModM (.machine false t) fuel b = .panic ∧ p.remM (.machine false t) fuel b = .panic)))) := by
  cases hbf : sparseFirstTerm b.terms with
  | zeroTerm => exact absurd (hB.trans (sparseFirstTerm_zero.1 hbf)) hB0
  | term rf rd =>
  obtain ⟨hrf, hbd, hbl⟩ := sparseFirstTerm_term hbf
  cases hpf : sparseFirstTerm p.terms with
  | zeroTerm =>
    rw [hP, sparseFirstTerm_zero.1 hpf, degree_zero, le_bot_iff, degree_eq_bot] at hdeg
    exact absurd hdeg hB0
  | term c d =>
  obtain ⟨hc, hpd, hpl⟩ := sparseFirstTerm_term hpf
  rw [← hB] at hbd hbl
  rw [← hP] at hpd hpl
  rw [hbl, hpl] at hs
  rw [hbd, hpd, hbl, hpl]
  have hd : rd ≤ d := by rw [hbd, hpd] at hdeg; exact_mod_cast hdeg
  have unf : ∀ fuel, p.divModM (.machine false t) fuel b = ((Arith2.machine false t).div c rf >>= fun scale =>
        Sparse.divModLoopM (.machine false t) b.terms rf rd (d - rd) fuel scale d p.terms (Sparse.fromVec []) >>= fun x =>
          .ok (x.1, Sparse.new x.2)) ∧
      p.remM (.machine false t) fuel b = ((Arith2.machine false t).div c rf >>= fun scale =>
        Sparse.remLoopM (.machine false t) b.terms rf rd fuel scale d p.terms >>= fun r => .ok (Sparse.new r)) := by
    intro fuel
    unfold Sparse.divModM Sparse.remM
    simp only [hbf, hpf, if_neg (not_lt.2 hd)]
    exact ⟨trivial, trivial⟩
  refine ⟨fun h fuel => ?_, fun h => ?_⟩
  · obtain ⟨u1, u2⟩ := unf fuel
    rw [machine_div_panic (hs ▸ h)] at u1 u2
    exact ⟨u1, u2⟩
  have hdiv : (Arith2.machine false t).div c rf = .ok s := by rw [machine_div_ok hrf (hs ▸ h), ← hs]
  have unf' : ∀ fuel, p.divModM (.machine false t) fuel b =
        (Sparse.divModLoopM (.machine false t) b.terms rf rd (d - rd) fuel s d p.terms (Sparse.fromVec []) >>= fun x =>
          .ok (x.1, Sparse.new x.2)) ∧
      p.remM (.machine false t) fuel b =
        (Sparse.remLoopM (.machine false t) b.terms rf rd fuel s d p.terms >>= fun r => .ok (Sparse.new r)) := by
    intro fuel
    obtain ⟨u1, u2⟩ := unf fuel
    rw [hdiv, Res.ok_bind] at u1 u2
    exact ⟨u1, u2⟩
  have hempty : (Sparse.fromVec ([] : List Int)).terms.get (d - rd) = none := rfl
  have hadd : ∃ div', (Sparse.fromVec []).addTermM (Arith2.machine false t).toArith s (d - rd) = .ok div' ∧
      entriesPoly div'.terms.entries = C s * X ^ (d - rd) := by
    unfold Sparse.addTermM
    by_cases h0 : s = 0
    · exact ⟨_, if_pos h0, by rw [h0]; simp; rfl⟩
    · rw [if_neg h0]
      unfold BMap.upsertM
      rw [hempty]
      refine ⟨_, rfl, ?_⟩
      rw [mapPoly_insert_fresh _ _ _ hempty]
      exact (zero_add _)
  obtain ⟨div', hdiv', hdivp⟩ := hadd
  obtain ⟨m, hm, hmin, hmp⟩ := wrap_mapSubWScaleM t hbits hp b.terms s
  rw [← hP, ← hB] at hmp
  have hcin : t.InRange c := by rw [← hpl]; rw [hP]; exact (inRange_mapPoly t _).1 hp _
  refine ⟨fun hlt fuel => ?_, fun heq => ?_⟩
  · obtain ⟨u1, u2⟩ := unf' fuel
    obtain ⟨i1, i2⟩ := wrap_sparse_stuck t (off := d - rd) hbits hbf hd hdiv (.inl (by exact_mod_cast hlt)) fuel p.terms
      (Sparse.fromVec []) hp hpf
    rw [i1] at u1
    rw [i2] at u2
    exact ⟨u1, u2⟩
  have heq' : rd = d := by exact_mod_cast heq
  have hmod : c - s * rf = c.tmod rf := by
    have := Int.mul_tdiv_add_tmod c rf
    rw [← hs] at this; linarith
  have hco : (entriesPoly m.entries).coeff d = c.tmod rf := by
    rw [hmp d, coeff_sub, coeff_C_mul, show P.coeff d = c by rw [← hpl, leadingCoeff, natDegree_eq_of_degree_eq_some hpd],
      show B.coeff d = rf by rw [← hbl, leadingCoeff, natDegree_eq_of_degree_eq_some hbd, heq'], hmod]
    exact t.wrap_of_inRange hbits _ (tmod_inRange t hcin rf)
  have hup : ∀ k, d < k → (entriesPoly m.entries).coeff k = 0 := by
    intro k hk
    rw [hmp k, coeff_sub, coeff_C_mul, coeff_eq_zero_of_degree_lt (by rw [hpd]; exact_mod_cast hk),
      coeff_eq_zero_of_degree_lt (by rw [hbd, heq']; exact_mod_cast hk), mul_zero, sub_zero, t.wrap_zero]
  refine ⟨fun hdvd fuel => ?_, fun hdvd => ⟨entriesPoly m.entries, ?_, hmp, fun hlast fuel hf => ?_, fun hlast fuel hf => ?_⟩⟩
  · have hne : c.tmod rf ≠ 0 := fun h0 => hdvd (Int.dvd_of_tmod_eq_zero h0)
    obtain ⟨g1, g2⟩ := degree_of_coeffs hne hco hup
    have hfirst := sparseFirstTerm_of_poly g1 g2
    have hz := tdiv_tmod_self c rf
    obtain ⟨u1, u2⟩ := unf' fuel
    cases fuel with
    | zero => exact ⟨u1, u2⟩
    | succ fuel =>
      have hdv : (Arith2.machine false t).div (c.tmod rf) rf = .ok 0 := by
        rw [machine_div_ok hrf (by rw [hz]; exact t.zero_inRange), hz]
      obtain ⟨i1, i2⟩ := wrap_sparse_stuck t (off := d - rd) hbits hbf hd hdv (.inr rfl) fuel m div' hmin hfirst
      unfold Sparse.divModLoopM at u1
      unfold Sparse.remLoopM at u2
      rw [if_pos hd, hm, Res.ok_bind] at u1 u2
      rw [hdiv', Res.ok_bind, hfirst] at u1
      rw [hfirst] at u2
      dsimp only at u1 u2
      rw [hdv, Res.ok_bind] at u1 u2
      rw [i1] at u1
      rw [i2] at u2
      exact ⟨u1, u2⟩
  all_goals
    have h0 : c.tmod rf = 0 := Int.tmod_eq_zero_of_dvd hdvd
    have hdl : (entriesPoly m.entries).degree < rd := by
      rw [degree_lt_iff_coeff_zero]
      intro k hk
      rcases Nat.lt_or_ge d k with h | h
      · exact hup k h
      · rw [show k = d by omega, hco, h0]
  · exact hdl
  · obtain ⟨u1, u2⟩ := unf' fuel
    obtain ⟨fuel, rfl⟩ : ∃ f, fuel = f + 2 := ⟨fuel - 2, by omega⟩
    unfold Sparse.divModLoopM at u1
    unfold Sparse.remLoopM at u2
    rw [if_pos hd, hm, Res.ok_bind] at u1 u2
    rw [hdiv', Res.ok_bind] at u1
    have hq : entriesPoly div'.terms.entries = C s := by rw [hdivp, heq']; simp
    refine ⟨div', Sparse.new m, ?_, ?_, hq, rfl⟩ <;>
    · cases hf' : sparseFirstTerm m with
      | zeroTerm =>
        rw [hf'] at u1 u2
        assumption
      | term c' d' =>
        obtain ⟨_, h2, h3⟩ := sparseFirstTerm_term hf'
        have hlt : ¬ d' ≥ rd := by
          rw [h2] at hdl; exact not_le.2 (by exact_mod_cast hdl)
        rw [hf'] at u1 u2
        dsimp only at u1 u2
        rw [machine_div_ok hrf (h3 ▸ hlast), Res.ok_bind] at u1 u2
        unfold Sparse.divModLoopM at u1
        unfold Sparse.remLoopM at u2
        rw [if_neg hlt] at u1 u2
        assumption
  · obtain ⟨u1, u2⟩ := unf' fuel
    obtain ⟨fuel, rfl⟩ : ∃ f, fuel = f + 1 := ⟨fuel - 1, by omega⟩
    unfold Sparse.divModLoopM at u1
    unfold Sparse.remLoopM at u2
    rw [if_pos hd, hm, Res.ok_bind] at u1 u2
    rw [hdiv', Res.ok_bind] at u1
    cases hf' : sparseFirstTerm m with
    | zeroTerm =>
      rw [sparseFirstTerm_zero.1 hf'] at hlast
      exact absurd (by simpa using t.zero_inRange) hlast
    | term c' d' =>
      obtain ⟨_, _, h3⟩ := sparseFirstTerm_term hf'
      rw [hf'] at u1 u2
      dsimp only at u1 u2
      rw [machine_div_panic (h3 ▸ hlast)] at u1 u2
      exact ⟨u1, u2⟩

end

-- Non-vacuity, `i8`: a monic divisor with wrapping, a divisor which never returns, the panic of `MIN / -1`, and a
-- divisor which is not monic.
example : (⟨[100, 100, 3]⟩ : Poly Int).divModM (.machine false ⟨true, 8⟩) 4 ⟨[1, 2]⟩ = .ok (⟨[100, -100]⟩, ⟨[-53]⟩) ∧
    (⟨[3, 0]⟩ : Poly Int).divModM (.machine false ⟨true, 8⟩) 50 ⟨[2]⟩ = .fuel ∧
    (⟨[-128, 0]⟩ : Poly Int).divModM (.machine false ⟨true, 8⟩) 50 ⟨[-1]⟩ = .panic ∧
    (⟨[100, 100, 3]⟩ : Poly Int).remAssignM (.machine false ⟨true, 8⟩) 4 ⟨[1, 2]⟩ = .ok ⟨[0, 0, -53]⟩ := by decide +kernel

example : (⟨[6, 100, 0]⟩ : Poly Int).divModM (.machine false ⟨true, 8⟩) 4 ⟨[2, 100]⟩ = .ok (⟨[3, 28]⟩, ⟨[16]⟩) ∧
    (⟨[6, 100, 0]⟩ : Poly Int).floorDivM (.machine false ⟨true, 8⟩) 4 ⟨[2, 100]⟩ = .ok ⟨[3, 28]⟩ := by decide +kernel

example : ((Sparse.fromVec [6, 100]).divModM (.machine false ⟨true, 8⟩) 4 (Sparse.fromVec [2, 100])).bind
      (fun r => .ok (r.1.terms.entries, r.2.terms.entries)) = .ok ([(0, 3)], [(0, 56), (1, 0)]) ∧
    ((Sparse.fromVec [6, 100, 1]).remM (.machine false ⟨true, 8⟩) 300 (Sparse.fromVec [2, 100])).bind
      (fun r => .ok r.terms.entries) = .fuel := by decide +kernel

end Rustnomial
