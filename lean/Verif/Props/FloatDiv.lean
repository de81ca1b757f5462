import Verif.Props.FloatArith
import Verif.Props.DenseDiv

/-!
# C70: division of polynomials with floating point coefficients
-/

set_option linter.unusedSectionVars false

open Polynomial

namespace Rustnomial

/-! ## Facts about the division loops that need no laws of arithmetic -/

section
variable {N : Type} [Zero N] [NumZero N]

theorem take_zeros_append {l t : List N} {c : N} {d : Nat} (h : firstTerm l = .term c d) :
    (l.take (l.length - d - 1) ++ t).dropWhile isZero = t.dropWhile isZero := by
  obtain ⟨vs, h1, h2, h3, h4, _⟩ := firstTerm_term h
  have hz : ∀ x ∈ l.take (l.length - d - 1), isZero x = true := by
    have hi : l.length - d - 1 = firstNonzeroIndex l := by
      have := firstNonzeroIndex_add l
      rw [h1, List.length_cons] at this
      omega
    rw [hi, firstNonzeroIndex_eq]
    intro x hx
    rw [← List.takeWhile_eq_take_findIdx_not] at hx
    exact List.mem_takeWhile_imp hx
  exact List.dropWhile_append_of_pos hz

/-- The degree of the remainder never grows. -/
theorem firstTerm_step_any {l t : List N} {c c' : N} {d d' : Nat} (h : firstTerm l = .term c d)
    (ht : t.length = d + 1) (h' : firstTerm (l.take (l.length - d - 1) ++ t) = .term c' d') : d' ≤ d := by
  obtain ⟨vs, h1, h2, _⟩ := firstTerm_term h'
  rw [take_zeros_append h] at h1
  have := (List.dropWhile_suffix (l := t) (isZero (N := N))).length_le
  rw [h1, List.length_cons] at this
  omega

variable [Sub N] [Mul N] [RDiv N]

theorem divModLoop_ne_panic_any {b : List N} {rf : N} {rd offset : Nat} (hb : firstTerm b = .term rf rd)
    (hok : ∀ x : N, ∃ y, rdiv x rf = .ok y) :
    ∀ (fuel : Nat) (c : N) (sd : Nat) (rem div : List N),
    firstTerm rem = .term c sd → sd ≤ offset → div.length = offset - rd + 1 →
    Poly.divModLoop b rf rd offset fuel c sd rem div ≠ .panic ∧
    (∀ s, rdiv c rf = .ok s → Poly.remAssignLoop b rf rd fuel s sd rem ≠ .panic) ∧
    ∀ q r, Poly.divModLoop b rf rd offset fuel c sd rem div = .ok (q, r) → q.length = div.length ∧
      ∀ c' d', firstTerm r = .term c' d' → d' < rd := by
  intro fuel
  induction fuel with
  | zero =>
    intro c sd rem div _ _ _
    exact ⟨by simp [Poly.divModLoop], by simp [Poly.remAssignLoop], by simp [Poly.divModLoop]⟩
  | succ fuel ih =>
    intro c sd rem div hr hoff hlen
    unfold Poly.divModLoop Poly.remAssignLoop
    by_cases hle : rd ≤ sd
    · obtain ⟨s, hs⟩ := hok c
      obtain ⟨vs, r1, r2, r3, r4, _⟩ := firstTerm_term hr
      obtain ⟨ws, b1, b2, b3, b4, _⟩ := firstTerm_term hb
      have hu : usub offset sd = .ok (offset - sd) := by simp [usub, hoff]
      have hi : offset - sd < div.length := by rw [hlen]; omega
      simp only [if_pos hle, hs, vecSubWScale_ok _ r3 b3, hu, Res.ok_bind, if_pos hi]
      cases hf : firstTerm (rem.take (rem.length - sd - 1) ++
          zipMut (fun l r => l - r * s) (rem.drop (rem.length - sd - 1)) (b.drop (b.length - rd - 1))) with
      | zeroTerm =>
        refine ⟨by simp, ?_, ?_⟩
        · intro s' hs'
          cases hs'
          simp [hf]
        · intro q r h
          cases h
          refine ⟨by simp, fun c' d' h => ?_⟩
          rw [hf] at h
          cases h
      | term c' sd' =>
        have hsd := firstTerm_step_any hr (by simp; omega) hf
        obtain ⟨g1, g2, g3⟩ := ih c' sd' _ (div.set (offset - sd) s) hf (by omega) (by simpa using hlen)
        refine ⟨g1, ?_, ?_⟩
        · intro s' hs'
          cases hs'
          obtain ⟨s'', hs''⟩ := hok c'
          simp only [hf, hs'', Res.ok_bind]
          exact g2 s'' hs''
        · intro q r h
          obtain ⟨k1, k2⟩ := g3 q r h
          exact ⟨by rw [k1]; simp, k2⟩
    · simp only [if_neg hle]
      refine ⟨by simp, by simp, ?_⟩
      intro q r h
      cases h
      refine ⟨rfl, fun c' d' h => ?_⟩
      rw [hr] at h
      cases h
      omega

/-- State of the loop of `div_mod`: `coeff`, `self_degree`, `remainder`, `div`. -/
abbrev DivState (N : Type) := N × Nat × List N × List N

/-- One round of the loop of `div_mod` that neither ends nor panics. -/
def divModNext (rhs : List N) (rhsFirst : N) (rhsDeg offset : Nat) (st : DivState N) : Option (DivState N) :=
  if rhsDeg ≤ st.2.1 then
    match rdiv st.1 rhsFirst with
    | .ok scale =>
      match vecSubWScale st.2.2.1 st.2.1 rhs rhsDeg scale with
      | .ok remainder =>
        if st.2.1 ≤ offset ∧ offset - st.2.1 < st.2.2.2.length then
          match firstTerm remainder with
          | .zeroTerm => none
          | .term c d => some (c, d, remainder, st.2.2.2.set (offset - st.2.1) scale)
        else none
      | _ => none
    | _ => none
  else none

theorem divModLoop_next {rhs : List N} {rf : N} {rd offset : Nat} {st st' : DivState N}
    (h : divModNext rhs rf rd offset st = some st') (fuel : Nat) :
    Poly.divModLoop rhs rf rd offset (fuel + 1) st.1 st.2.1 st.2.2.1 st.2.2.2 =
      Poly.divModLoop rhs rf rd offset fuel st'.1 st'.2.1 st'.2.2.1 st'.2.2.2 := by
  unfold divModNext at h
  rw [Poly.divModLoop]
  split at h
  · rename_i hle
    rw [if_pos hle]
    split at h
    · rename_i scale hs
      rw [hs, Res.ok_bind]
      split at h
      · rename_i rem hv
        rw [hv, Res.ok_bind]
        split at h
        · rename_i hc
          have hu : usub offset st.2.1 = .ok (offset - st.2.1) := by simp [usub, hc.1]
          rw [hu, Res.ok_bind, if_pos hc.2]
          cases hf : firstTerm rem with
          | zeroTerm => rw [hf] at h; cases h
          | term c d => rw [hf] at h; cases h; rfl
        · cases h
      · cases h
    · cases h
  · cases h

/-- `n` rounds. -/
def divModIter (rhs : List N) (rhsFirst : N) (rhsDeg offset : Nat) : Nat → DivState N → Option (DivState N)
  | 0, st => some st
  | n + 1, st => (divModNext rhs rhsFirst rhsDeg offset st).bind (divModIter rhs rhsFirst rhsDeg offset n)

/-- A run that reaches a state which leads to itself (up to the stored quotient) never ends. -/
theorem divModLoop_fuel_of_inv {rhs : List N} {rf : N} {rd offset : Nat} (P : DivState N → Prop)
    (hP : ∀ st, P st → ∃ st', divModNext rhs rf rd offset st = some st' ∧ P st') :
    ∀ (fuel : Nat) (st : DivState N), P st →
      Poly.divModLoop rhs rf rd offset fuel st.1 st.2.1 st.2.2.1 st.2.2.2 = .fuel := by
  intro fuel
  induction fuel with
  | zero => intro st _; rfl
  | succ fuel ih =>
    intro st h
    obtain ⟨st', h1, h2⟩ := hP st h
    rw [divModLoop_next h1, ih st' h2]

theorem divModLoop_fuel_of_iter {rhs : List N} {rf : N} {rd offset : Nat} (P : DivState N → Prop)
    (hP : ∀ st, P st → ∃ st', divModNext rhs rf rd offset st = some st' ∧ P st') :
    ∀ (n : Nat) (st st' : DivState N), divModIter rhs rf rd offset n st = some st' → P st' → ∀ fuel,
      Poly.divModLoop rhs rf rd offset fuel st.1 st.2.1 st.2.2.1 st.2.2.2 = .fuel := by
  intro n
  induction n with
  | zero =>
    intro st st' h hst fuel
    cases h
    exact divModLoop_fuel_of_inv P hP fuel st hst
  | succ n ih =>
    intro st st' h hst fuel
    rw [divModIter, Option.bind_eq_some_iff] at h
    obtain ⟨mid, h1, h2⟩ := h
    cases fuel with
    | zero => rfl
    | succ fuel => rw [divModLoop_next h1, ih mid st' h2 hst]

end

namespace Fl
variable {f : FlFmt}

theorem rdiv_eq (x y : Fl f) : rdiv x y = .ok (div x y) := rfl

theorem not_zero_first {b : Poly (Fl f)} (hb : ∃ c ∈ b.terms, isZero c = false) :
    ∃ rf rd, firstTerm b.terms = .term rf rd := by
  cases h : firstTerm b.terms with
  | term rf rd => exact ⟨rf, rd, rfl⟩
  | zeroTerm =>
    rw [firstTerm_zero_iff, List.dropWhile_eq_nil_iff] at h
    obtain ⟨c, hc, hc'⟩ := hb
    rw [h c hc] at hc'
    cases hc'

/-- C70: division by a polynomial with a non-zero coefficient (NaN and infinities count as non-zero) never
panics, however long it runs. -/
theorem C70_never_panics (p b : Poly (Fl f)) (hb : ∃ c ∈ b.terms, isZero c = false) (fuel : Nat) :
    p.divMod fuel b ≠ .panic ∧ p.floorDiv fuel b ≠ .panic ∧ p.remAssign fuel b ≠ .panic := by
  obtain ⟨rf, rd, hbf⟩ := not_zero_first hb
  have h1 : p.divMod fuel b ≠ .panic := by
    unfold Poly.divMod
    rw [hbf]
    cases hpf : firstTerm p.terms with
    | zeroTerm => simp
    | term c d =>
      simp only
      split
      · simp
      · have := (divModLoop_ne_panic_any (offset := d) hbf (fun x => ⟨_, rdiv_eq x rf⟩) fuel c d p.terms
          (List.replicate (d - rd + 1) 0) hpf le_rfl (by simp)).1
        revert this
        cases Poly.divModLoop b.terms rf rd d fuel c d p.terms (List.replicate (d - rd + 1) 0) <;> simp
  refine ⟨h1, ?_, ?_⟩
  · unfold Poly.floorDiv
    revert h1
    cases p.divMod fuel b <;> simp
  · unfold Poly.remAssign
    rw [hbf]
    cases hpf : firstTerm p.terms with
    | zeroTerm => simp
    | term c d =>
      simp only
      split
      · simp
      · rw [rdiv_eq, Res.ok_bind]
        have := (divModLoop_ne_panic_any (offset := d) hbf (fun x => ⟨_, rdiv_eq x rf⟩) fuel c d p.terms
          (List.replicate (d - rd + 1) 0) hpf le_rfl (by simp)).2.1 _ (rdiv_eq c rf)
        revert this
        cases Poly.remAssignLoop b.terms rf rd fuel (div c rf) d p.terms <;> simp

/-- C70: a returned remainder has lower degree than the divisor, and the quotient at most the difference of
the degrees. -/
theorem C70_degrees (p b q r : Poly (Fl f)) (fuel : Nat) (h : p.divMod fuel b = .ok (q, r)) :
    (∀ d e, r.degree = .num d → b.degree = .num e → d < e) ∧
    (∀ d e g, q.degree = .num g → p.degree = .num d → b.degree = .num e → g + e ≤ d) := by
  have hdeg : ∀ {l : List (Fl f)} {d : Nat}, denseDegree l = .num d ↔ ∃ c, firstTerm l = .term c d := by
    intro l d
    rw [denseDegree_eq, firstTerm_eq]
    cases l.dropWhile isZero <;> simp
  unfold Poly.degree
  unfold Poly.divMod at h
  cases hbf : firstTerm b.terms with
  | zeroTerm => rw [hbf] at h; cases h
  | term rf rd =>
    rw [hbf] at h
    have hbd : ∀ e, denseDegree b.terms = .num e → e = rd := by
      intro e he
      obtain ⟨c, hc⟩ := hdeg.1 he
      rw [hbf] at hc; cases hc; rfl
    cases hpf : firstTerm p.terms with
    | zeroTerm =>
      rw [hpf] at h
      cases h
      have hp0 : ∀ d, denseDegree p.terms ≠ .num d := by
        intro d hd
        obtain ⟨c, hc⟩ := hdeg.1 hd
        rw [hpf] at hc; cases hc
      exact ⟨fun d e hd _ => absurd hd (hp0 d), fun d e g _ hd _ => absurd hd (hp0 d)⟩
    | term c d =>
      rw [hpf] at h
      have hpd : ∀ e, denseDegree p.terms = .num e → e = d := by
        intro e he
        obtain ⟨c, hc⟩ := hdeg.1 he
        rw [hpf] at hc; cases hc; rfl
      simp only at h
      split at h
      · rename_i hlt
        cases h
        refine ⟨fun d' e hd he => ?_, fun d' e g hg _ _ => ?_⟩
        · rw [hbd e he, hpd d' hd]; exact hlt
        · simp [Poly.zero, denseDegree, firstNonzeroIndex, scanChunks, chunks4, scanRemainder] at hg
      · rename_i hge
        obtain ⟨⟨dv, rm⟩, h1, h2⟩ := Res.bind_eq_ok.1 h
        cases h2
        obtain ⟨_, _, h3⟩ := divModLoop_ne_panic_any (offset := d) hbf (fun x => ⟨_, rdiv_eq x rf⟩) fuel c d
          p.terms (List.replicate (d - rd + 1) 0) hpf le_rfl (by simp)
        obtain ⟨h4, h5⟩ := h3 dv rm h1
        refine ⟨fun d' e hd he => ?_, fun d' e g hg hd he => ?_⟩
        · rw [hbd e he]
          rw [new_terms] at hd
          obtain ⟨c', hc'⟩ := hdeg.1 hd
          refine h5 c' d' ?_
          rw [firstTerm_eq] at hc' ⊢
          rw [List.dropWhile_idempotent] at hc'
          exact hc'
        · rw [hbd e he, hpd d' hd]
          rw [new_terms] at hg
          obtain ⟨c', hc'⟩ := hdeg.1 hg
          obtain ⟨_, _, _, h6, _⟩ := firstTerm_term hc'
          have := (List.dropWhile_suffix (l := dv) (isZero (N := Fl f))).length_le
          rw [h4, List.length_replicate] at this
          simp only at h6
          omega

/-! ## Divergence -/

theorem finite_cases (x : Fl f) (h : x.isFinite = false) : x = nan ∨ ∃ s, x = inf s := by
  cases x with
  | nan => exact .inl rfl
  | inf s => exact .inr ⟨s, rfl⟩
  | fin s a => cases h

/-- With a non-finite leading coefficient on either side the difference is NaN. -/
theorem lead_nan {c rf : Fl f} (hrf : isZero rf = false) (h : c.isFinite = false ∨ rf.isFinite = false) :
    c - rf * div c rf = nan := by
  have h0 : ∀ t, rf ≠ fin t 0 := by
    intro t ht
    rw [isZero_iff.2 ⟨t, ht⟩] at hrf
    cases hrf
  rw [sub_def, add_def, neg_def, mul_def]
  cases c with
  | nan => rfl
  | inf s =>
    cases rf with
    | nan => rfl
    | inf t => rfl
    | fin t m =>
      have hm : m ≠ 0 := fun hm => h0 t (by rw [hm])
      simp only [div, mul, if_neg hm, neg, add]
      cases s <;> cases t <;> rfl
  | fin s a =>
    cases rf with
    | nan => rfl
    | inf t => simp [div, mul, neg, add]
    | fin t m => rcases h with h | h <;> cases h

/-- If the leading terms do not cancel exactly, the loop goes on at the same degree. -/
theorem next_same_degree {b : List (Fl f)} {rf : Fl f} {rd offset : Nat} (hb : firstTerm b = .term rf rd)
    {c : Fl f} {sd : Nat} {rem dv : List (Fl f)} (hr : firstTerm rem = .term c sd) (hle : rd ≤ sd)
    (hoff : sd ≤ offset) (hlen : dv.length = offset - rd + 1)
    (hne : isZero (c - rf * div c rf) = false) :
    ∃ rem', divModNext b rf rd offset (c, sd, rem, dv) =
        some (c - rf * div c rf, sd, rem', dv.set (offset - sd) (div c rf)) ∧
      firstTerm rem' = .term (c - rf * div c rf) sd := by
  obtain ⟨vs, r1, r2, r3, r4, _⟩ := firstTerm_term hr
  obtain ⟨ws, b1, b2, b3, b4, _⟩ := firstTerm_term hb
  have hf : firstTerm (rem.take (rem.length - sd - 1) ++ zipMut (fun l r => l - r * div c rf)
      (rem.drop (rem.length - sd - 1)) (b.drop (b.length - rd - 1))) = .term (c - rf * div c rf) sd := by
    rw [firstTerm_eq, take_zeros_append hr, r4, b4, zipMut_cons, List.dropWhile_cons_of_neg (by simpa using hne)]
    simp [r2]
  refine ⟨_, ?_, hf⟩
  unfold divModNext
  have hc : sd ≤ offset ∧ offset - sd < dv.length := ⟨hoff, by rw [hlen]; omega⟩
  simp only [if_pos hle, rdiv_eq, vecSubWScale_ok _ r3 b3, if_pos hc, hf]

theorem nan_loop {b : List (Fl f)} {rf : Fl f} {rd offset : Nat} (hb : firstTerm b = .term rf rd)
    (fuel : Nat) {c : Fl f} {sd : Nat} {rem dv : List (Fl f)} (hr : firstTerm rem = .term c sd) (hle : rd ≤ sd)
    (hoff : sd ≤ offset) (hlen : dv.length = offset - rd + 1)
    (h : c.isFinite = false ∨ rf.isFinite = false) :
    Poly.divModLoop b rf rd offset fuel c sd rem dv = .fuel := by
  have hrf := (firstTerm_term hb).choose_spec.2.2.2.2
  have := divModLoop_fuel_of_inv (rhs := b) (rf := rf) (rd := rd) (offset := offset)
    (fun st => firstTerm st.2.2.1 = .term st.1 st.2.1 ∧ rd ≤ st.2.1 ∧ st.2.1 ≤ offset ∧
      st.2.2.2.length = offset - rd + 1 ∧ (st.1.isFinite = false ∨ rf.isFinite = false))
    (by
      rintro ⟨c, sd, rem, dv⟩ ⟨h1, h2, h3, h4, h5⟩
      simp only at h1 h2 h3 h4 h5
      have hn := lead_nan hrf h5
      obtain ⟨rem', g1, g2⟩ := next_same_degree hb h1 h2 h3 h4 (by rw [hn]; rfl)
      rw [hn] at g1 g2
      exact ⟨_, g1, g2, h2, h3, by simpa using h4, .inl rfl⟩)
    fuel (c, sd, rem, dv) ⟨hr, hle, hoff, hlen, h⟩
  exact this

theorem firstTerm_num {l : List (Fl f)} {d : Nat} (h : denseDegree l = .num d) : ∃ c, firstTerm l = .term c d := by
  rw [denseDegree_eq] at h
  rw [firstTerm_eq]
  revert h
  cases l.dropWhile isZero <;> simp

theorem termWithDeg_first {l : List (Fl f)} {c : Fl f} {d : Nat} (h : firstTerm l = .term c d) :
    termWithDeg l d = .term c d := by
  obtain ⟨vs, _, _, h3, h4, h5⟩ := firstTerm_term h
  unfold termWithDeg
  have hi : l.length - d - 1 < l.length := by omega
  have hg : l.getD (l.length - d - 1) 0 = c := by
    rw [List.getD_eq_getElem _ _ hi]
    have := List.drop_eq_getElem_cons hi
    rw [h4] at this
    exact (List.cons.inj this).1.symm
  rw [if_pos (by omega), hg]
  simp [Term.new, h5]

/-- C70: if the leading coefficient of dividend or divisor is NaN or infinite, `div_mod` and `floor_div` never
return. -/
theorem C70_nonfinite_diverges (p b : Poly (Fl f)) (d e : Nat) (hd : p.degree = .num d) (he : b.degree = .num e)
    (hle : e ≤ d)
    (hnf : (∃ c, p.termWithDegree d = .term c d ∧ c.isFinite = false) ∨
      ∃ c, b.termWithDegree e = .term c e ∧ c.isFinite = false) (fuel : Nat) :
    p.divMod fuel b = .fuel ∧ p.floorDiv fuel b = .fuel := by
  obtain ⟨c, hc⟩ := firstTerm_num hd
  obtain ⟨rf, hrf⟩ := firstTerm_num he
  have h' : c.isFinite = false ∨ rf.isFinite = false := by
    rcases hnf with ⟨x, hx, hx'⟩ | ⟨x, hx, hx'⟩
    · rw [Poly.termWithDegree, termWithDeg_first hc] at hx; cases hx; exact .inl hx'
    · rw [Poly.termWithDegree, termWithDeg_first hrf] at hx; cases hx; exact .inr hx'
  have h1 : p.divMod fuel b = .fuel := by
    unfold Poly.divMod
    rw [hrf, hc]
    simp only
    rw [if_neg (by omega), nan_loop hrf fuel hc hle le_rfl (by simp) h']
    rfl
  exact ⟨h1, by simp [Poly.floorDiv, h1]⟩

/-- A stuck run: after `n` rounds the state repeats itself. -/
theorem divMod_stuck (p b : Poly (Fl f)) (c rf : Fl f) (d rd n : Nat) (hc : firstTerm p.terms = .term c d)
    (hb : firstTerm b.terms = .term rf rd) (hle : rd ≤ d) (st : DivState (Fl f))
    (hn : divModIter b.terms rf rd d n (c, d, p.terms, List.replicate (d - rd + 1) 0) = some st)
    (hst : divModNext b.terms rf rd d st = some st) (fuel : Nat) : p.divMod fuel b = .fuel := by
  unfold Poly.divMod
  rw [hb, hc]
  simp only
  rw [if_neg (by omega)]
  have := divModLoop_fuel_of_iter (rhs := b.terms) (rf := rf) (rd := rd) (offset := d) (fun s => s = st)
    (by rintro s rfl; exact ⟨s, hst, rfl⟩) n _ _ hn rfl fuel
  rw [this]
  rfl

/-- C70: `1 / 49` in `f64` never returns: `1 - 49 * (1 / 49)` is not zero, and dividing the rest again and
again ends in a rest that is too small to change. -/
theorem C70_diverges : ∀ fuel, (⟨[1]⟩ : Poly (Fl binary64)).divMod fuel ⟨[ofNat 49]⟩ = .fuel := by
  intro fuel
  obtain ⟨st, h1, h2⟩ : ∃ st, divModIter [ofNat 49] (ofNat 49 : Fl binary64) 0 0 25 (1, 0, [1], [0]) = some st ∧
      divModNext [ofNat 49] (ofNat 49 : Fl binary64) 0 0 st = some st := by
    have h : ((divModIter [ofNat 49] (ofNat 49 : Fl binary64) 0 0 25 (1, 0, [1], [0])).bind fun st =>
        if divModNext [ofNat 49] (ofNat 49 : Fl binary64) 0 0 st = some st then some st else none).isSome = true := by
      decide +kernel
    obtain ⟨st, hst⟩ := Option.isSome_iff_exists.1 h
    rw [Option.bind_eq_some_iff] at hst
    obtain ⟨st', g1, g2⟩ := hst
    split at g2
    · cases g2
      exact ⟨st, g1, by assumption⟩
    · cases g2
  exact divMod_stuck ⟨[1]⟩ ⟨[ofNat 49]⟩ 1 (ofNat 49) 0 0 25 (by decide +kernel) (by decide +kernel) le_rfl st h1 h2 fuel

/-- C70: when the second round succeeds, the quotient of the first round is overwritten: `7 / 25` in `f64`
returns the quotient `-3.6e-17` (rounded) instead of `0.28`, with remainder zero. -/
theorem C70_quotient_false :
    ∃ q, (⟨[ofNat 7]⟩ : Poly (Fl binary64)).divMod 3 ⟨[ofNat 25]⟩ = .ok (⟨[q]⟩, ⟨[]⟩) ∧
      q.isFinite = true ∧ -1 / 10 ^ 16 < q.toRat ∧ q.toRat < 0 := by
  refine ⟨fin true (0x147ae147ae147b * 2 ^ 967), by decide +kernel, rfl, by decide +kernel, by decide +kernel⟩

-- inputs that meet the hypotheses of `C70_never_panics`, `C70_degrees` and `C70_nonfinite_diverges`
example : ∃ c ∈ (⟨[0, ofNat 3]⟩ : Poly (Fl binary64)).terms, isZero c = false := 
  ⟨ofNat 3, by simp, by decide +kernel⟩
example : (⟨[1, 0, 0]⟩ : Poly (Fl binary64)).divMod 3 ⟨[ofNat 2, 1]⟩ =
    .ok (⟨[div 1 (ofNat 2), -div 1 (ofNat 4)]⟩, ⟨[div 1 (ofNat 4)]⟩) := by decide +kernel
example : (⟨[.inf false, 1]⟩ : Poly (Fl binary64)).degree = .num 1 ∧
    (⟨[.inf false, 1]⟩ : Poly (Fl binary64)).termWithDegree 1 = .term (.inf false) 1 ∧
    (⟨[ofNat 2]⟩ : Poly (Fl binary64)).degree = .num 0 := by decide +kernel

/-! ## Divisors with leading coefficient 1 -/

theorem roundRat_fits (hp : 1 ≤ f.p) {a : Nat} (h : FitsIn f.p a) : roundRat f.p a 1 = a := by
  have := roundRat_nearest (num := a) hp one_pos h
  simp only [Nat.cast_one, div_one, sub_self, abs_zero] at this
  have := sub_eq_zero.1 (abs_eq_zero.1 (le_antisymm this (abs_nonneg _)))
  exact_mod_cast this

theorem div_one' (hp : 1 ≤ f.p) {c : Fl f} (hv : c.Valid) (hc : c.isFinite = true) : div c 1 = c := by
  obtain ⟨s, a, rfl⟩ := isFinite_iff.1 hc
  show div (fin s a) (fin false (2 ^ f.q)) = _
  have h2 : 2 ^ f.q ≠ 0 := by positivity
  simp only [div, if_neg h2]
  have := roundRat_scale (p := f.p) (num := a) (den := 1) (c := 2 ^ f.q) (by positivity)
  rw [one_mul] at this
  rw [this, roundRat_fits hp hv.1, pack, if_pos hv.2]
  simp

theorem one_mul' (hp : 1 ≤ f.p) {c : Fl f} (hv : c.Valid) (hc : c.isFinite = true) : 1 * c = c := by
  obtain ⟨s, a, rfl⟩ := isFinite_iff.1 hc
  show mul (fin false (2 ^ f.q)) (fin s a) = _
  simp only [mul]
  have := roundRat_scale (p := f.p) (num := a) (den := 1) (c := 2 ^ f.q) (by positivity)
  rw [one_mul, mul_comm] at this
  rw [this, roundRat_fits hp hv.1, pack, if_pos hv.2]
  simp

theorem sub_self' {c : Fl f} (hc : c.isFinite = true) : c - c = 0 := by
  obtain ⟨s, a, rfl⟩ := isFinite_iff.1 hc
  rw [sub_def, add_def, neg_def]
  simp only [neg, add]
  cases s <;> rfl

/-- The leading terms cancel exactly. -/
theorem lead_one (hp : 1 ≤ f.p) {c : Fl f} (hv : c.Valid) (hc : c.isFinite = true) :
    isZero (c - 1 * div c 1) = true := by
  rw [div_one' hp hv hc, one_mul' hp hv hc, sub_self' hc]
  rfl

/-- Dividing by `±2^(j-q)` with `j ≤ q` is exact, so the leading terms cancel exactly, or else it overflows. -/
theorem lead_pow (hp : 1 ≤ f.p) {c : Fl f} (hv : c.Valid) (hc : c.isFinite = true) (t : Bool) {j : Nat} (hj : j ≤ f.q) :
    isZero (c - fin t (2 ^ j) * div c (fin t (2 ^ j))) = true ∨
      (c - fin t (2 ^ j) * div c (fin t (2 ^ j))).isFinite = false := by
  obtain ⟨s, a, rfl⟩ := isFinite_iff.1 hc
  have h2 : 2 ^ j ≠ 0 := by positivity
  have hfit : FitsIn f.p (a * 2 ^ (f.q - j)) := by
    obtain ⟨k, e, hk, rfl⟩ := hv.1
    exact ⟨k, e + (f.q - j), hk, by rw [pow_add, mul_assoc]⟩
  have hr : roundRat f.p (a * 2 ^ f.q) (2 ^ j) = a * 2 ^ (f.q - j) := by
    have := roundRat_scale (p := f.p) (num := a * 2 ^ (f.q - j)) (den := 1) (c := 2 ^ j) (by positivity)
    rw [one_mul, mul_assoc, ← pow_add, Nat.sub_add_cancel hj] at this
    rw [this, roundRat_fits hp hfit]
  have hd : div (fin s a) (fin t (2 ^ j) : Fl f) = pack (s != t) (a * 2 ^ (f.q - j)) := by
    simp only [div, if_neg h2, hr]
  rw [hd]
  by_cases hw : a * 2 ^ (f.q - j) < 2 ^ f.w
  · left
    rw [pack, if_pos hw]
    have hm : (fin t (2 ^ j) : Fl f) * fin (s != t) (a * 2 ^ (f.q - j)) = fin s a := by
      rw [mul_def]
      simp only [mul]
      have := roundRat_scale (p := f.p) (num := a) (den := 1) (c := 2 ^ f.q) (by positivity)
      rw [one_mul] at this
      rw [show 2 ^ j * (a * 2 ^ (f.q - j)) = a * 2 ^ f.q by
        rw [mul_left_comm, ← pow_add, Nat.add_sub_cancel' hj], this, roundRat_fits hp hv.1, pack, if_pos hv.2]
      cases s <;> cases t <;> rfl
    rw [hm, sub_self' rfl]
    rfl
  · right
    rw [pack, if_neg hw, mul_def]
    simp only [mul, if_neg h2]
    rw [sub_def, neg_def, add_def]
    cases s <;> cases t <;> rfl

theorem neg_mul' (x y : Fl f) : -(x * y) = -x * y := by
  rw [neg_def, neg_def, mul_def, mul_def]
  have hpk : ∀ s m, neg (pack s m : Fl f) = pack (!s) m := by
    intro s m
    unfold pack
    split <;> rfl
  cases x <;> cases y <;> simp only [mul, neg]
  · rename_i s t; cases s <;> cases t <;> rfl
  · rename_i s t b
    by_cases h : b = 0
    · simp [h]
    · simp only [if_neg h]
      cases s <;> cases t <;> rfl
  · rename_i s a t
    by_cases h : a = 0
    · simp [h]
    · simp only [if_neg h]
      cases s <;> cases t <;> rfl
  · rename_i s a t b
    refine (hpk _ _).trans ?_
    cases s <;> cases t <;> rfl

theorem map_set_getD (g : Fl f → ℚ) (hg : g 0 = 0) (dv : List (Fl f)) (i : Nat) (s : Fl f) (hi : i < dv.length)
    (h0 : dv.getD i 0 = 0) :
    descPoly ((dv.set i s).map g) = descPoly (dv.map g) + C (g s) * X ^ (dv.length - i - 1) := by
  rw [List.map_set, descPoly_set _ _ _ (by simpa using hi)]
  · simp
  · rw [List.getD_eq_getElem _ _ (by simpa using hi)]
    rw [List.getD_eq_getElem _ _ hi] at h0
    simp [h0, hg]

/-- One round of `div_mod`: the new remainder with its exact and absolute values, and its entry in place of the leading one. -/
theorem div_round_lead {L : Fl f → Prop} {b : List (Fl f)} {rf : Fl f}
    {rd offset : Nat} (hb : firstTerm b = .term rf rd) (hbL : ∀ y ∈ b, L (-y)) {sd : Nat} {c : Fl f}
    {T : List (Fl f × ℚ × ℚ)} {dv : List (Fl f)} {m : Nat} (hr : firstTerm (T.map Prod.fst) = .term c sd)
    (hle : rd ≤ sd) (hoff : sd ≤ offset) (hlen : dv.length = offset - rd + 1)
    {s : Fl f} (hs : div c rf = s) (hsL : L s) :
    ∃ T' : List (Fl f × ℚ × ℚ),
      T'.map Prod.fst = (T.map Prod.fst).take ((T.map Prod.fst).length - sd - 1) ++
        zipMut (fun l r => l - r * s) ((T.map Prod.fst).drop ((T.map Prod.fst).length - sd - 1))
          (b.drop (b.length - rd - 1)) ∧
      (∀ {B : Nat → Fl f × ℚ × ℚ → Prop}, MulInv L B → (∀ x ∈ T, B m x) → ∀ x ∈ T', B (m + 1) x) ∧
      (∃ x ∈ T, x.1 = c ∧ T'[T.length - sd - 1]? =
        some (c + -rf * s, x.2.1 + (-rf).toRat * s.toRat, x.2.2 + |(-rf).toRat| * |s.toRat|)) ∧
      descPoly (T'.map fun x => x.2.1) =
        descPoly (T.map fun x => x.2.1) - C s.toRat * X ^ (sd - rd) * descPoly (b.map toRat) ∧
      descPoly (T'.map fun x => x.2.2) =
        descPoly (T.map fun x => x.2.2) + C |s.toRat| * X ^ (sd - rd) * descPoly (b.map fun x => |x.toRat|) ∧
      ∀ fuel, Poly.divModLoop b rf rd offset (fuel + 1) c sd (T.map Prod.fst) dv =
        match firstTerm (T'.map Prod.fst) with
        | .zeroTerm => .ok (dv.set (offset - sd) s, T'.map Prod.fst)
        | .term c' d' => Poly.divModLoop b rf rd offset fuel c' d' (T'.map Prod.fst) (dv.set (offset - sd) s) := by
  obtain ⟨vs, r1, r2, r3, r4, r5⟩ := firstTerm_term hr
  obtain ⟨ws, b1, b2, b3, b4, b5⟩ := firstTerm_term hb
  have hl3 : sd + 1 ≤ T.length := by simpa using r3
  let F : Fl f × ℚ × ℚ → Fl f → Fl f × ℚ × ℚ := fun x y =>
    (x.1 + -y * s, x.2.1 + (-y).toRat * s.toRat, x.2.2 + |(-y).toRat| * |s.toRat|)
  let T' := T.take (T.length - sd - 1) ++ zipMut F (T.drop (T.length - sd - 1)) (b.drop (b.length - rd - 1))
  have hT'B : ∀ {B : Nat → Fl f × ℚ × ℚ → Prop}, MulInv L B → (∀ x ∈ T, B m x) → ∀ x ∈ T', B (m + 1) x := by
    intro B hMI hB x hx
    rcases List.mem_append.1 hx with hx | hx
    · exact hMI.mono (by omega) x (hB x (List.mem_of_mem_take hx))
    · exact forall_zipMut_mem (P := B m) (L := fun y => L (-y)) (fun x hx => hMI.mono (by omega) x hx)
        (fun x y hx hy => hMI.step x hx (-y) s hy hsL) _ _ (fun x hx => hB x (List.mem_of_mem_drop hx))
        (fun y hy => hbL y (List.mem_of_mem_drop hy)) x hx
  have hfst : T'.map Prod.fst = (T.map Prod.fst).take ((T.map Prod.fst).length - sd - 1) ++
      zipMut (fun l r => l - r * s) ((T.map Prod.fst).drop ((T.map Prod.fst).length - sd - 1))
        (b.drop (b.length - rd - 1)) := by
    rw [List.map_append, map_zipMut Prod.fst F (fun l r => l - r * s) (fun x y => by
      simp only [F]; rw [sub_def, neg_mul']), List.map_take, List.map_drop, List.length_map]
  have hbd : (b.drop (b.length - rd - 1)).length = rd + 1 := by simp; omega
  have hbpoly : ∀ g : Fl f → ℚ, (∀ t, g (fin t 0) = 0) →
      descPoly ((b.drop (b.length - rd - 1)).map g) = descPoly (b.map g) := by
    intro g hg
    rw [b4, ← b1, descPoly_dropWhile_toRat g hg]
  have hi : offset - sd < dv.length := by rw [hlen]; omega
  have hS' : descPoly (T'.map fun x => x.2.1) =
      descPoly (T.map fun x => x.2.1) - C s.toRat * X ^ (sd - rd) * descPoly (b.map toRat) := by
    rw [List.map_append,
      map_zipMut (fun x : Fl f × ℚ × ℚ => x.2.1) F (fun t y => t + (-y).toRat * s.toRat) (fun _ _ => rfl),
      List.map_take, List.map_drop,
      descPoly_take_append (P := -(C s.toRat * X ^ (sd - rd) * descPoly (b.map toRat))) (by simp)]
    · ring
    · rw [descPoly_zipMut_add (fun y : Fl f => (-y).toRat * s.toRat)
        (fun (t : ℚ) (y : Fl f) => t + (-y).toRat * s.toRat) (fun _ _ => rfl) _ _ (by simp; omega)]
      have e1 : (b.drop (b.length - rd - 1)).map (fun y => (-y).toRat * s.toRat) =
          ((b.drop (b.length - rd - 1)).map toRat).map (fun x => -s.toRat * x) := by
        rw [List.map_map]
        refine List.map_congr_left fun y _ => ?_
        simp only [Function.comp_apply, toRat_neg]
        ring
      have e2 : ((T.map fun x => x.2.1).drop (T.length - sd - 1)).length -
          (b.drop (b.length - rd - 1)).length = sd - rd := by rw [hbd]; simp; omega
      rw [e1, descPoly_map_mul_left, e2, hbpoly toRat toRat_fin_zero, C_neg]
      ring
  have hA' : descPoly (T'.map fun x => x.2.2) =
      descPoly (T.map fun x => x.2.2) + C |s.toRat| * X ^ (sd - rd) * descPoly (b.map fun x => |x.toRat|) := by
    rw [List.map_append,
      map_zipMut (fun x : Fl f × ℚ × ℚ => x.2.2) F (fun t y => t + |(-y).toRat| * |s.toRat|) (fun _ _ => rfl),
      List.map_take, List.map_drop,
      descPoly_take_append (P := C |s.toRat| * X ^ (sd - rd) * descPoly (b.map fun x => |x.toRat|)) (by simp)]
    · rw [descPoly_zipMut_add (fun y : Fl f => |(-y).toRat| * |s.toRat|)
        (fun (t : ℚ) (y : Fl f) => t + |(-y).toRat| * |s.toRat|) (fun _ _ => rfl) _ _ (by simp; omega)]
      have e1 : (b.drop (b.length - rd - 1)).map (fun y => |(-y).toRat| * |s.toRat|) =
          ((b.drop (b.length - rd - 1)).map fun x => |x.toRat|).map (fun x => |s.toRat| * x) := by
        rw [List.map_map]
        refine List.map_congr_left fun y _ => ?_
        simp only [Function.comp_apply, toRat_neg, abs_neg]
        ring
      have e2 : ((T.map fun x => x.2.2).drop (T.length - sd - 1)).length -
          (b.drop (b.length - rd - 1)).length = sd - rd := by rw [hbd]; simp; omega
      rw [e1, descPoly_map_mul_left, e2, hbpoly (fun x => |x.toRat|) (fun t => by simp [toRat_fin_zero])]
      ring
  have hu : usub offset sd = .ok (offset - sd) := by simp [usub, hoff]
  have hunf : ∀ fuel, Poly.divModLoop b rf rd offset (fuel + 1) c sd (T.map Prod.fst) dv =
      match firstTerm (T'.map Prod.fst) with
      | .zeroTerm => .ok (dv.set (offset - sd) s, T'.map Prod.fst)
      | .term c' d' => Poly.divModLoop b rf rd offset fuel c' d' (T'.map Prod.fst) (dv.set (offset - sd) s) := by
    intro fuel
    rw [Poly.divModLoop, if_pos hle, rdiv_eq, hs, Res.ok_bind, vecSubWScale_ok s r3 b3, Res.ok_bind, hu,
      Res.ok_bind, if_pos hi, ← hfst]
    cases firstTerm (T'.map Prod.fst) <;> rfl
  have hlead : ∃ x ∈ T, x.1 = c ∧ T'[T.length - sd - 1]? =
      some (c + -rf * s, x.2.1 + (-rf).toRat * s.toRat, x.2.2 + |(-rf).toRat| * |s.toRat|) := by
    rw [List.length_map, ← List.map_drop] at r4
    cases hd : T.drop (T.length - sd - 1) with
    | nil => rw [hd] at r4; cases r4
    | cons x xs =>
      rw [hd, List.map_cons] at r4
      injection r4 with r6 _
      refine ⟨x, List.mem_of_mem_drop (i := T.length - sd - 1) (by rw [hd]; simp), r6, ?_⟩
      have hlt : (T.take (T.length - sd - 1)).length = T.length - sd - 1 := by simp; omega
      show (T.take (T.length - sd - 1) ++ zipMut F (T.drop (T.length - sd - 1)) (b.drop (b.length - rd - 1)))[_]? = _
      rw [hd, b4, zipMut_cons, List.getElem?_append_right (by rw [hlt]), hlt, Nat.sub_self, List.getElem?_cons_zero]
      simp only [F, r6]
  exact ⟨T', hfst, hT'B, hlead, hS', hA', hunf⟩

/-- One round of `div_mod`: the new remainder with its exact and absolute values. -/
theorem div_round {L : Fl f → Prop} {B : Nat → Fl f × ℚ × ℚ → Prop} (hMI : MulInv L B) {b : List (Fl f)} {rf : Fl f}
    {rd offset : Nat} (hb : firstTerm b = .term rf rd) (hbL : ∀ y ∈ b, L (-y)) {sd : Nat} {c : Fl f}
    {T : List (Fl f × ℚ × ℚ)} {dv : List (Fl f)} {m : Nat} (hr : firstTerm (T.map Prod.fst) = .term c sd)
    (hle : rd ≤ sd) (hoff : sd ≤ offset) (hlen : dv.length = offset - rd + 1) (hB : ∀ x ∈ T, B m x)
    {s : Fl f} (hs : div c rf = s) (hsL : L s) :
    ∃ T' : List (Fl f × ℚ × ℚ),
      T'.map Prod.fst = (T.map Prod.fst).take ((T.map Prod.fst).length - sd - 1) ++
        zipMut (fun l r => l - r * s) ((T.map Prod.fst).drop ((T.map Prod.fst).length - sd - 1))
          (b.drop (b.length - rd - 1)) ∧
      (∀ x ∈ T', B (m + 1) x) ∧
      descPoly (T'.map fun x => x.2.1) =
        descPoly (T.map fun x => x.2.1) - C s.toRat * X ^ (sd - rd) * descPoly (b.map toRat) ∧
      descPoly (T'.map fun x => x.2.2) =
        descPoly (T.map fun x => x.2.2) + C |s.toRat| * X ^ (sd - rd) * descPoly (b.map fun x => |x.toRat|) ∧
      ∀ fuel, Poly.divModLoop b rf rd offset (fuel + 1) c sd (T.map Prod.fst) dv =
        match firstTerm (T'.map Prod.fst) with
        | .zeroTerm => .ok (dv.set (offset - sd) s, T'.map Prod.fst)
        | .term c' d' => Poly.divModLoop b rf rd offset fuel c' d' (T'.map Prod.fst) (dv.set (offset - sd) s) := by
  obtain ⟨T', h1, h2, _, h3, h4, h5⟩ := div_round_lead (L := L) hb hbL (m := m) hr hle hoff hlen hs hsL
  exact ⟨T', h1, h2 hMI hB, h3, h4, h5⟩

/-- One round of `div_mod`, if the quotient has no coefficient yet at this degree. -/
theorem div_step {L : Fl f → Prop} {B : Nat → Fl f × ℚ × ℚ → Prop} (hMI : MulInv L B) {b : List (Fl f)} {rf : Fl f}
    {rd offset : Nat} (hb : firstTerm b = .term rf rd) (hbL : ∀ y ∈ b, L (-y)) {P A : ℚ[X]} {sd : Nat} {c : Fl f}
    {T : List (Fl f × ℚ × ℚ)} {dv : List (Fl f)} {m : Nat} (hr : firstTerm (T.map Prod.fst) = .term c sd)
    (hle : rd ≤ sd) (hoff : sd ≤ offset) (hlen : dv.length = offset - rd + 1)
    (hz : ∀ i, offset - sd ≤ i → dv.getD i 0 = 0) (hB : ∀ x ∈ T, B m x)
    (hS : descPoly (T.map fun x => x.2.1) = P - descPoly (dv.map toRat) * descPoly (b.map toRat))
    (hA : descPoly (T.map fun x => x.2.2) =
      A + descPoly (dv.map fun x => |x.toRat|) * descPoly (b.map fun x => |x.toRat|))
    {s : Fl f} (hs : div c rf = s) (hsL : L s) :
    ∃ T' : List (Fl f × ℚ × ℚ),
      T'.map Prod.fst = (T.map Prod.fst).take ((T.map Prod.fst).length - sd - 1) ++
        zipMut (fun l r => l - r * s) ((T.map Prod.fst).drop ((T.map Prod.fst).length - sd - 1))
          (b.drop (b.length - rd - 1)) ∧
      (∀ x ∈ T', B (m + 1) x) ∧
      descPoly (T'.map fun x => x.2.1) =
        P - descPoly ((dv.set (offset - sd) s).map toRat) * descPoly (b.map toRat) ∧
      descPoly (T'.map fun x => x.2.2) =
        A + descPoly ((dv.set (offset - sd) s).map fun x => |x.toRat|) * descPoly (b.map fun x => |x.toRat|) ∧
      ∀ fuel, Poly.divModLoop b rf rd offset (fuel + 1) c sd (T.map Prod.fst) dv =
        match firstTerm (T'.map Prod.fst) with
        | .zeroTerm => .ok (dv.set (offset - sd) s, T'.map Prod.fst)
        | .term c' d' => Poly.divModLoop b rf rd offset fuel c' d' (T'.map Prod.fst) (dv.set (offset - sd) s) := by
  obtain ⟨T', h1, h2, h3, h4, h5⟩ := div_round hMI hb hbL hr hle hoff hlen hB hs hsL
  have hi : offset - sd < dv.length := by rw [hlen]; omega
  have hexp : dv.length - (offset - sd) - 1 = sd - rd := by rw [hlen]; omega
  refine ⟨T', h1, h2, ?_, ?_, h5⟩
  · rw [h3, hS, map_set_getD toRat toRat_zero dv _ s hi (hz _ le_rfl), hexp]; ring
  · rw [h4, hA, map_set_getD (fun x => |x.toRat|) (by simp) dv _ s hi (hz _ le_rfl), hexp]; ring

theorem pow_loop (hp : 1 ≤ f.p) {b : List (Fl f)} {rf : Fl f} {rd offset : Nat} (hb : firstTerm b = .term rf rd)
    (hrf : ∀ c : Fl f, c.Valid → c.isFinite = true →
      isZero (c - rf * div c rf) = true ∨ (c - rf * div c rf).isFinite = false)
    (P A : ℚ[X]) : ∀ (sd : Nat) (c : Fl f) (T : List (Fl f × ℚ × ℚ)) (dv : List (Fl f)) (m : Nat),
    firstTerm (T.map Prod.fst) = .term c sd → rd ≤ sd → sd ≤ offset → dv.length = offset - rd + 1 →
    (∀ i, offset - sd ≤ i → dv.getD i 0 = 0) → (∀ x ∈ T, Bnd m x) → (∀ x ∈ T, x.1.Valid) →
    descPoly (T.map fun x => x.2.1) = P - descPoly (dv.map toRat) * descPoly (b.map toRat) →
    descPoly (T.map fun x => x.2.2) =
      A + descPoly (dv.map fun x => |x.toRat|) * descPoly (b.map fun x => |x.toRat|) →
    (∃ (dv' : List (Fl f)) (T' : List (Fl f × ℚ × ℚ)),
      (∀ fuel, sd + 2 ≤ fuel →
        Poly.divModLoop b rf rd offset fuel c sd (T.map Prod.fst) dv = .ok (dv', T'.map Prod.fst)) ∧
      (∀ x ∈ T', Bnd (m + (sd + 1)) x) ∧
      descPoly (T'.map fun x => x.2.1) = P - descPoly (dv'.map toRat) * descPoly (b.map toRat) ∧
      descPoly (T'.map fun x => x.2.2) =
        A + descPoly (dv'.map fun x => |x.toRat|) * descPoly (b.map fun x => |x.toRat|)) ∨
    ∀ fuel, Poly.divModLoop b rf rd offset fuel c sd (T.map Prod.fst) dv = .fuel := by
  intro sd
  induction sd using Nat.strong_induction_on with
  | _ sd ih =>
    intro c T dv m hr hle hoff hlen hz hB hV hS hA
    by_cases hcf : c.isFinite = true
    swap
    · right
      intro fuel
      exact nan_loop hb fuel hr hle hoff hlen (.inl (by simpa using hcf))
    obtain ⟨vs, r1, r2, r3, r4, r5⟩ := firstTerm_term hr
    obtain ⟨ws, b1, b2, b3, b4, b5⟩ := firstTerm_term hb
    have hcv : c.Valid := by
      have : c ∈ T.map Prod.fst := (List.dropWhile_suffix isZero).subset (by rw [r1]; simp)
      obtain ⟨x, hx, rfl⟩ := List.mem_map.1 this
      exact hV x hx
    rcases hrf c hcv hcf with hlead | hinf
    swap
    · right
      intro fuel
      cases fuel with
      | zero => rfl
      | succ fuel =>
        obtain ⟨rem', g1, g2⟩ := next_same_degree hb hr hle hoff hlen (by
          generalize c - rf * div c rf = z at hinf
          cases z with
          | fin => cases hinf
          | _ => rfl)
        rw [divModLoop_next g1]
        exact nan_loop hb fuel g2 hle hoff (by simpa using hlen) (.inl hinf)
    generalize hs : div c rf = s at hlead
    obtain ⟨T', hfst, hT'B, hS', hA', hunf⟩ := div_step mulInv_Bnd hb (fun _ _ => trivial) hr hle hoff hlen hz hB hS
      hA hs trivial
    have hT'V : ∀ x ∈ T', x.1.Valid := by
      intro x hx
      have hx' := List.mem_map_of_mem (f := Prod.fst) hx
      rw [hfst] at hx'
      rcases List.mem_append.1 hx' with hx' | hx'
      · obtain ⟨y, hy, e⟩ := List.mem_map.1 (List.mem_of_mem_take hx')
        rw [← e]; exact hV y hy
      · exact forall_zipMut (P := fun x => x.Valid) (Q := fun x => x.Valid) (fun x hx => hx)
          (fun x y _ => (C65_closed hp _ _).2.1) _ _ (fun x hx => by
            obtain ⟨y, hy, e⟩ := List.mem_map.1 (List.mem_of_mem_drop hx)
            rw [← e]; exact hV y hy) _ hx'
    cases hf : firstTerm (T'.map Prod.fst) with
    | zeroTerm =>
      left
      refine ⟨_, T', ?_, fun x hx => Bnd_mono (by omega) x (hT'B x hx), hS', hA'⟩
      intro fuel hfuel
      obtain ⟨fuel, rfl⟩ : ∃ k, fuel = k + 1 := ⟨fuel - 1, by omega⟩
      rw [hunf, hf]
    | term c' d' =>
      have hd' : d' < sd := by
        obtain ⟨us, u1, u2, _⟩ := firstTerm_term hf
        rw [hfst, take_zeros_append hr, r4, b4, zipMut_cons, List.dropWhile_cons_of_pos hlead] at u1
        have := (List.dropWhile_suffix (l := zipMut (fun l r => l - r * s) vs ws) (isZero (N := Fl f))).length_le
        rw [u1, List.length_cons, length_zipMut] at this
        omega
      have hz' : ∀ i, offset - d' ≤ i → (dv.set (offset - sd) s).getD i 0 = 0 := by
        intro i hi'
        have hne : offset - sd ≠ i := by omega
        rw [List.getD_eq_getElem?_getD, List.getElem?_set_ne hne, ← List.getD_eq_getElem?_getD]
        exact hz i (by omega)
      by_cases hle' : rd ≤ d'
      · rcases ih d' hd' c' T' (dv.set (offset - sd) s) (m + 1) hf hle' (by omega) (by simpa using hlen) hz'
          hT'B hT'V hS' hA' with ⟨dv', T'', k1, k2, k3, k4⟩ | k
        · left
          refine ⟨dv', T'', ?_, fun x hx => Bnd_mono (by omega) x (k2 x hx), k3, k4⟩
          intro fuel hfuel
          obtain ⟨fuel, rfl⟩ : ∃ k, fuel = k + 1 := ⟨fuel - 1, by omega⟩
          rw [hunf, hf]
          exact k1 fuel (by omega)
        · right
          intro fuel
          cases fuel with
          | zero => rfl
          | succ fuel =>
            rw [hunf, hf]
            exact k fuel
      · left
        refine ⟨_, T', ?_, fun x hx => Bnd_mono (by omega) x (hT'B x hx), hS', hA'⟩
        intro fuel hfuel
        obtain ⟨fuel, rfl⟩ : ∃ k, fuel = k + 2 := ⟨fuel - 2, by omega⟩
        rw [hunf, hf]
        simp only
        rw [Poly.divModLoop, if_neg hle']

/-- `C70_power_of_two` for a leading coefficient by which division either is exact or overflows. -/
theorem pow_lead (hp : 1 ≤ f.p) (p b : Poly (Fl f)) (hpv : ∀ c ∈ p.terms, c.Valid) (e : Nat)
    (he : b.degree = .num e) {l : Fl f} (hb : b.termWithDegree e = .term l e)
    (hl : ∀ c : Fl f, c.Valid → c.isFinite = true →
      isZero (c - l * div c l) = true ∨ (c - l * div c l).isFinite = false) :
    (∃ q r, (∀ fuel, p.terms.length + 1 ≤ fuel → p.divMod fuel b = .ok (q, r)) ∧
      ((∀ c ∈ r.terms, c.isFinite = true) → ∀ k,
        |(descPoly (r.terms.map toRat) - (descPoly (p.terms.map toRat) -
            descPoly (q.terms.map toRat) * descPoly (b.terms.map toRat))).coeff k| ≤
          ((1 + uro f) ^ (p.terms.length + 1) - 1) * (descPoly (p.terms.map fun c => |c.toRat|) +
            descPoly (q.terms.map fun c => |c.toRat|) * descPoly (b.terms.map fun c => |c.toRat|)).coeff k +
          p.terms.length * (1 + uro f) ^ p.terms.length * eta f)) ∨
    ∀ fuel, p.divMod fuel b = .fuel := by
  obtain ⟨rf, hbf⟩ := firstTerm_num he
  rw [Poly.termWithDegree, termWithDeg_first hbf] at hb
  cases hb
  have hu := uro_nonneg (f := f)
  have hη := eta_nonneg (f := f)
  have hz : ∀ s : Bool, (fun x : Fl f => |x.toRat|) (fin s 0) = 0 := fun s => by simp [toRat_fin_zero]
  -- nothing to do
  have trivial_case : (∀ fuel, p.divMod fuel b = .ok (Poly.zero, p)) →
      ∃ q r, (∀ fuel, p.terms.length + 1 ≤ fuel → p.divMod fuel b = .ok (q, r)) ∧
      ((∀ c ∈ r.terms, c.isFinite = true) → ∀ k,
        |(descPoly (r.terms.map toRat) - (descPoly (p.terms.map toRat) -
            descPoly (q.terms.map toRat) * descPoly (b.terms.map toRat))).coeff k| ≤
          ((1 + uro f) ^ (p.terms.length + 1) - 1) * (descPoly (p.terms.map fun c => |c.toRat|) +
            descPoly (q.terms.map fun c => |c.toRat|) * descPoly (b.terms.map fun c => |c.toRat|)).coeff k +
          p.terms.length * (1 + uro f) ^ p.terms.length * eta f) := by
    intro h
    refine ⟨_, _, fun fuel _ => h fuel, fun _ k => ?_⟩
    have h1 : 0 ≤ (descPoly (p.terms.map fun c => |c.toRat|)).coeff k := by
      rcases coeff_cases p.terms k with ⟨x, _, e⟩ | e
      · rw [e]; exact abs_nonneg _
      · rw [e]
    have h2 : (1 : ℚ) ≤ (1 + uro f) ^ (p.terms.length + 1) := one_le_pow₀ (by linarith)
    have h3 : 0 ≤ (1 + uro f) ^ (p.terms.length + 1) - 1 := by linarith
    simp only [Poly.zero, List.map_nil, descPoly_nil, zero_mul, sub_zero, sub_self, add_zero, coeff_zero, abs_zero]
    positivity
  cases hpf : firstTerm p.terms with
  | zeroTerm =>
    left
    exact trivial_case fun fuel => by simp [Poly.divMod, hbf, hpf]
  | term c d =>
    by_cases hlt : d < e
    · left
      exact trivial_case fun fuel => by simp [Poly.divMod, hbf, hpf, hlt]
    · have hd1 := (firstTerm_term hpf).choose_spec.2.2.1
      have hunf : ∀ fuel, p.divMod fuel b = ((Poly.divModLoop b.terms l e d fuel c d p.terms
          (List.replicate (d - e + 1) 0)) >>= fun x => .ok (Poly.new x.1, Poly.new x.2)) := by
        intro fuel
        unfold Poly.divMod
        rw [hbf, hpf]
        simp only
        rw [if_neg hlt]
      have hfst : (p.terms.map fun c => (c, c.toRat, |c.toRat|)).map Prod.fst = p.terms := by
        rw [List.map_map]; exact List.map_id _
      have hrep : ∀ g : Fl f → ℚ, g 0 = 0 → descPoly ((List.replicate (d - e + 1) (0 : Fl f)).map g) = 0 := by
        intro g hg
        rw [List.map_replicate, hg]
        simp
      rcases pow_loop hp (b := b.terms) (rd := e) (offset := d) hbf hl (descPoly (p.terms.map toRat))
        (descPoly (p.terms.map fun c => |c.toRat|)) d c (p.terms.map fun c => (c, c.toRat, |c.toRat|))
        (List.replicate (d - e + 1) 0) 0 (by rw [hfst]; exact hpf) (not_lt.1 hlt) le_rfl (by simp)
        (fun i _ => by
          rw [List.getD_eq_getElem?_getD, List.getElem?_replicate]
          split <;> rfl)
        (by
          intro x hx
          obtain ⟨y, _, rfl⟩ := List.mem_map.1 hx
          refine ⟨le_rfl, fun _ => ?_⟩
          simp only [sub_self, abs_zero, Nat.cast_zero, zero_mul, add_zero, pow_one, zero_add]
          have := abs_nonneg y.toRat
          nlinarith)
        (by
          intro x hx
          obtain ⟨y, hy, rfl⟩ := List.mem_map.1 hx
          exact hpv y hy)
        (by rw [hrep toRat toRat_zero, List.map_map]; simp [Function.comp_def])
        (by rw [hrep (fun x => |x.toRat|) (by simp), List.map_map]; simp [Function.comp_def]) with
        ⟨dv', T', k1, k2, k3, k4⟩ | k
      · left
        rw [hfst] at k1
        refine ⟨Poly.new dv', Poly.new (T'.map Prod.fst), fun fuel hfuel => ?_, fun hfin k => ?_⟩
        · rw [hunf, k1 fuel (by omega), Res.ok_bind]
        · rw [new_terms] at hfin ⊢
          rw [new_terms]
          rw [descPoly_dropWhile_toRat _ toRat_fin_zero, descPoly_dropWhile_toRat _ toRat_fin_zero,
            descPoly_dropWhile_toRat _ hz, ← k3, ← k4, coeff_sub, List.map_map]
          rcases coeff_cases T' k with ⟨x, hx, e'⟩ | e'
          · rw [e', e', e']
            have hb := Bnd_mono (d := p.terms.length) (by omega) x (k2 x hx)
            exact hb.2 (finite_of_dropWhile hfin _ (List.mem_map_of_mem hx))
          · rw [e', e', e']
            simp only [sub_self, abs_zero, mul_zero, zero_add]
            positivity
      · right
        intro fuel
        rw [hfst] at k
        rw [hunf, k fuel]
        rfl

/-- C70: division by a polynomial with leading coefficient `±1/2^j` either returns within as many rounds as the dividend
has coefficients, or never (an overflow).  If it returns and the remainder is finite, then quotient and remainder
satisfy `r = p - q * b` up to rounding, relative to the polynomials with absolute coefficients. -/
theorem C70_power_of_two (hp : 1 ≤ f.p) (p b : Poly (Fl f)) (hpv : ∀ c ∈ p.terms, c.Valid) (e : Nat)
    (he : b.degree = .num e) (l : Fl f) (hb : b.termWithDegree e = .term l e) (hl : l.isFinite = true) (j : Nat)
    (hj : |l.toRat| = 1 / 2 ^ j) :
    (∃ q r, (∀ fuel, p.terms.length + 1 ≤ fuel → p.divMod fuel b = .ok (q, r)) ∧
      ((∀ c ∈ r.terms, c.isFinite = true) → ∀ k,
        |(descPoly (r.terms.map toRat) - (descPoly (p.terms.map toRat) -
            descPoly (q.terms.map toRat) * descPoly (b.terms.map toRat))).coeff k| ≤
          ((1 + uro f) ^ (p.terms.length + 1) - 1) * (descPoly (p.terms.map fun c => |c.toRat|) +
            descPoly (q.terms.map fun c => |c.toRat|) * descPoly (b.terms.map fun c => |c.toRat|)).coeff k +
          p.terms.length * (1 + uro f) ^ p.terms.length * eta f)) ∨
    ∀ fuel, p.divMod fuel b = .fuel := by
  obtain ⟨t, m, rfl⟩ := isFinite_iff.1 hl
  refine pow_lead hp p b hpv e he hb fun c hv hc => ?_
  have hm : m * 2 ^ j = 2 ^ f.q := by
    have h1 : |(fin t m : Fl f).toRat| = m / 2 ^ f.q := by
      have : (0 : ℚ) ≤ m / 2 ^ f.q := by positivity
      cases t <;> simp [toRat, abs_of_nonneg this]
    rw [h1, div_eq_div_iff (by positivity) (by positivity), one_mul] at hj
    exact_mod_cast hj
  have hjq : j ≤ f.q := by
    by_contra h
    have : 2 ^ f.q < 2 ^ j := Nat.pow_lt_pow_right (by norm_num) (by omega)
    have h0 : 0 < m := by
      rcases Nat.eq_zero_or_pos m with rfl | h0
      · have : 0 < 2 ^ f.q := by positivity
        omega
      · exact h0
    have := Nat.le_mul_of_pos_left (2 ^ j) h0
    omega
  have : m = 2 ^ (f.q - j) := by
    apply Nat.eq_of_mul_eq_mul_right (show 0 < 2 ^ j by positivity)
    rw [hm, ← pow_add, Nat.sub_add_cancel hjq]
  subst this
  exact lead_pow hp hv hc t (Nat.sub_le _ _)

/-- C70: the bound 1 on the leading coefficient in `C70_power_of_two` is needed: the smallest positive number
divided by any finite number of magnitude at least 2 never returns, not even if the division is by a power of two. -/
theorem C70_large_lead_diverges (hp : 1 ≤ f.p) (hw : 1 ≤ f.w) (l : Fl f) (hl : l.isFinite = true) (h2 : 2 ≤ |l.toRat|) :
    ∀ fuel, (⟨[fin false 1]⟩ : Poly (Fl f)).divMod fuel ⟨[l]⟩ = .fuel := by
  obtain ⟨t, m, rfl⟩ := isFinite_iff.1 hl
  have hm : 2 * 2 ^ f.q ≤ m := by
    have h1 : |(fin t m : Fl f).toRat| = m / 2 ^ f.q := by
      have : (0 : ℚ) ≤ m / 2 ^ f.q := by positivity
      cases t <;> simp [toRat, abs_of_nonneg this]
    rw [h1, le_div_iff₀ (by positivity)] at h2
    exact_mod_cast h2
  have h0 : 0 < 2 ^ f.q := by positivity
  have hm0 : m ≠ 0 := by omega
  have hw2 : 1 < 2 ^ f.w := Nat.one_lt_two_pow (by omega)
  have hd : div (fin false 1) (fin t m : Fl f) = fin (false != t) 0 := by
    have : roundRat f.p (1 * 2 ^ f.q) m = 0 := by
      unfold roundRat
      simp only [one_mul]
      rw [Nat.div_eq_of_lt (by omega : 2 ^ f.q < m)]
      simp only [Nat.size_zero, Nat.zero_sub, pow_zero, mul_one]
      rw [Nat.div_eq_of_lt (by omega : 2 ^ f.q < m), Nat.mod_eq_of_lt (by omega : 2 ^ f.q < m)]
      rw [if_neg (by omega)]
    simp only [div, if_neg hm0, this, pack]
    rw [if_pos (by omega)]
  have hs : (fin false 1 : Fl f) - fin t m * fin (false != t) 0 = fin false 1 := by
    have h1 : (fin t m : Fl f) * fin (false != t) 0 = fin (t != (false != t)) 0 := by
      rw [mul_def]
      simp only [mul, mul_zero]
      have := roundRat_fits (f := f) hp (a := 0) ⟨0, 0, by positivity, by simp⟩
      have h := roundRat_scale (p := f.p) (num := 0) (den := 1) (c := 2 ^ f.q) (by positivity)
      rw [zero_mul, one_mul, this] at h
      rw [h, pack, if_pos (by omega)]
    have h3 : roundRat f.p 1 1 = 1 := roundRat_fits hp ⟨1, 0, Nat.one_lt_two_pow (by omega), by simp⟩
    rw [h1, sub_def, neg_def, add_def]
    cases t <;> simp [neg, add, h3, pack, hw2] 
  have hone : firstTerm [(fin false 1 : Fl f)] = .term (fin false 1) 0 := by
    rw [firstTerm_eq, List.dropWhile_cons_of_neg (by rw [isZero_iff]; rintro ⟨_, h⟩; cases h)]
    rfl
  have hmf : firstTerm [(fin t m : Fl f)] = .term (fin t m) 0 := by
    rw [firstTerm_eq, List.dropWhile_cons_of_neg (by rw [isZero_iff]; rintro ⟨_, h⟩; cases h; exact hm0 rfl)]
    rfl
  have hst : ∀ z : Fl f, divModNext [fin t m] (fin t m : Fl f) 0 0 (fin false 1, 0, [fin false 1], [z]) =
      some (fin false 1, 0, [fin false 1], [fin (false != t) 0]) := by
    intro z
    have hv : vecSubWScale [(fin false 1 : Fl f)] 0 [fin t m] 0 (fin (false != t) 0) = .ok [fin false 1] := by
      generalize (fin (false != t) 0 : Fl f) = y at hs
      simp [vecSubWScale, usub, sliceFrom, zipMut, Res.ok_bind, hs]
    have hr : rdiv (fin false 1) (fin t m : Fl f) = .ok (fin (false != t) 0) := by rw [← hd]; rfl
    unfold divModNext
    simp only [hr, hv]
    simp [hone]
  exact divMod_stuck _ _ (fin false 1) (fin t m) 0 0 1 hone hmf le_rfl (fin false 1, 0, [fin false 1], [fin (false != t) 0])
    (by
      show (divModNext _ _ _ _ (fin false 1, 0, [fin false 1], [0])).bind (divModIter _ _ _ _ 0) = _
      rw [hst]; rfl) (hst _)

-- the hypotheses hold for `f64` and `f32` and 2
example : (ofNat 2 : Fl binary64).isFinite = true ∧ 2 ≤ |(ofNat 2 : Fl binary64).toRat| := by decide +kernel

/-- C70: the case of leading coefficient 1. -/
theorem C70_monic (hp : 1 ≤ f.p) (p b : Poly (Fl f)) (hpv : ∀ c ∈ p.terms, c.Valid) (e : Nat)
    (he : b.degree = .num e) (hb : b.termWithDegree e = .term 1 e) :
    (∃ q r, (∀ fuel, p.terms.length + 1 ≤ fuel → p.divMod fuel b = .ok (q, r)) ∧
      ((∀ c ∈ r.terms, c.isFinite = true) → ∀ k,
        |(descPoly (r.terms.map toRat) - (descPoly (p.terms.map toRat) -
            descPoly (q.terms.map toRat) * descPoly (b.terms.map toRat))).coeff k| ≤
          ((1 + uro f) ^ (p.terms.length + 1) - 1) * (descPoly (p.terms.map fun c => |c.toRat|) +
            descPoly (q.terms.map fun c => |c.toRat|) * descPoly (b.terms.map fun c => |c.toRat|)).coeff k +
          p.terms.length * (1 + uro f) ^ p.terms.length * eta f)) ∨
    ∀ fuel, p.divMod fuel b = .fuel :=
  pow_lead hp p b hpv e he hb fun _ hv hc => .inl (lead_one hp hv hc)

-- (x^2 + 0.1) / (-x/4 + 0.3) returns; the hypotheses are met
example : (∃ q r, (⟨[1, 0, div 1 (ofNat 10)]⟩ : Poly (Fl binary64)).divMod 4
      ⟨[-div 1 (ofNat 4), div (ofNat 3) (ofNat 10)]⟩ = .ok (q, r) ∧ (∀ c ∈ r.terms, c.isFinite = true)) ∧
    (-div 1 (ofNat 4) : Fl binary64).isFinite = true ∧ |(-div 1 (ofNat 4) : Fl binary64).toRat| = 1 / 2 ^ 2 := by
  refine ⟨⟨⟨[-ofNat 4, -(ofNat 4 * (ofNat 4 * div (ofNat 3) (ofNat 10)))]⟩, ⟨[div 1 (ofNat 10) +
    div (ofNat 3) (ofNat 10) * (ofNat 4 * (ofNat 4 * div (ofNat 3) (ofNat 10)))]⟩, ?_⟩, ?_⟩ <;> decide +kernel

-- (x^2 + 0.1) / (x - 0.3) returns; the hypotheses are met
example : ∃ q r, (⟨[1, 0, div 1 (ofNat 10)]⟩ : Poly (Fl binary64)).divMod 4
      ⟨[1, -div (ofNat 3) (ofNat 10)]⟩ = .ok (q, r) ∧ (∀ c ∈ r.terms, c.isFinite = true) ∧
    (⟨[1, -div (ofNat 3) (ofNat 10)]⟩ : Poly (Fl binary64)).degree = .num 1 ∧
    (⟨[1, -div (ofNat 3) (ofNat 10)]⟩ : Poly (Fl binary64)).termWithDegree 1 = .term 1 1 :=
  ⟨⟨[1, div (ofNat 3) (ofNat 10)]⟩, ⟨[div 1 (ofNat 10) + div (ofNat 3) (ofNat 10) * div (ofNat 3) (ofNat 10)]⟩,
    by decide +kernel⟩

end Fl
end Rustnomial
