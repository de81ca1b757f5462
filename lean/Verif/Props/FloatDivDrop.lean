import Verif.Model.Repaired
import Verif.Props.FloatDiv
import Verif.Props.FloatDivTerm

/-!
# C138: division of polynomials with floating point coefficients, with the leading coefficient dropped in each round
-/

set_option linter.unusedSectionVars false

open Polynomial

namespace Rustnomial

section
variable {N : Type} [Zero N] [NumZero N] [Sub N] [Mul N] [RDiv N]

/-- One round of the repaired loop. -/
theorem divModLoopDrop_round {b : List N} {rf : N} {rd offset : Nat} (hb : firstTerm b = .term rf rd) {sd : Nat} {c : N}
    {rem dv : List N} (hr : firstTerm rem = .term c sd) (hle : rd ≤ sd) (hoff : sd ≤ offset)
    (hlen : dv.length = offset - rd + 1) {s : N} (hs : rdiv c rf = .ok s) (fuel : Nat) :
    Poly.divModLoopDrop b rf rd offset (fuel + 1) c sd rem dv =
      match firstTerm ((rem.take (rem.length - sd - 1) ++
        zipMut (fun l r => l - r * s) (rem.drop (rem.length - sd - 1)) (b.drop (b.length - rd - 1))).set (rem.length - sd - 1) 0) with
      | .zeroTerm => .ok (dv.set (offset - sd) s, (rem.take (rem.length - sd - 1) ++
          zipMut (fun l r => l - r * s) (rem.drop (rem.length - sd - 1)) (b.drop (b.length - rd - 1))).set (rem.length - sd - 1) 0)
      | .term c' d' => Poly.divModLoopDrop b rf rd offset fuel c' d' ((rem.take (rem.length - sd - 1) ++
          zipMut (fun l r => l - r * s) (rem.drop (rem.length - sd - 1)) (b.drop (b.length - rd - 1))).set (rem.length - sd - 1) 0)
          (dv.set (offset - sd) s) := by
  obtain ⟨vs, r1, r2, r3, r4, r5⟩ := firstTerm_term hr
  obtain ⟨ws, b1, b2, b3, b4, b5⟩ := firstTerm_term hb
  have hu : usub offset sd = .ok (offset - sd) := by simp [usub, hoff]
  have hi : offset - sd < dv.length := by rw [hlen]; omega
  have hL : (rem.take (rem.length - sd - 1) ++ zipMut (fun l r => l - r * s) (rem.drop (rem.length - sd - 1))
      (b.drop (b.length - rd - 1))).length = rem.length := by
    rw [List.length_append, length_zipMut, ← List.length_append, List.take_append_drop]
  rw [Poly.divModLoopDrop, if_pos hle, hs, Res.ok_bind, vecSubWScale_ok s r3 b3, Res.ok_bind, hu, Res.ok_bind, if_pos hi, hL]
  cases firstTerm ((rem.take (rem.length - sd - 1) ++ zipMut (fun l r => l - r * s) (rem.drop (rem.length - sd - 1))
      (b.drop (b.length - rd - 1))).set (rem.length - sd - 1) 0) <;> rfl

/-- The remainder after a round, as a list. -/
theorem drop_set {b : List N} {rf : N} {rd : Nat} (hb : firstTerm b = .term rf rd) {sd : Nat} {c : N} {rem : List N}
    (hr : firstTerm rem = .term c sd) (s : N) :
    ∃ vs ws, rem.drop (rem.length - sd - 1) = c :: vs ∧ vs.length = sd ∧ b.drop (b.length - rd - 1) = rf :: ws ∧
      (rem.take (rem.length - sd - 1) ++ zipMut (fun l r => l - r * s) (rem.drop (rem.length - sd - 1))
        (b.drop (b.length - rd - 1))).set (rem.length - sd - 1) 0 =
      rem.take (rem.length - sd - 1) ++ 0 :: zipMut (fun l r => l - r * s) vs ws := by
  obtain ⟨vs, r1, r2, r3, r4, r5⟩ := firstTerm_term hr
  obtain ⟨ws, b1, b2, b3, b4, b5⟩ := firstTerm_term hb
  refine ⟨vs, ws, r4, r2, b4, ?_⟩
  have hlt : (rem.take (rem.length - sd - 1)).length = rem.length - sd - 1 := by simp; omega
  rw [r4, b4, zipMut_cons, List.set_append_right _ _ (by rw [hlt]), hlt, Nat.sub_self, List.set_cons_zero]

/-- The degree of the remainder drops. -/
theorem drop_degree {b : List N} {rf : N} {rd : Nat} (hb : firstTerm b = .term rf rd) {sd : Nat} {c : N} {rem : List N}
    (hr : firstTerm rem = .term c sd) (s : N) (h0 : isZero (0 : N) = true) {c' : N} {d' : Nat}
    (h : firstTerm ((rem.take (rem.length - sd - 1) ++ zipMut (fun l r => l - r * s) (rem.drop (rem.length - sd - 1))
        (b.drop (b.length - rd - 1))).set (rem.length - sd - 1) 0) = .term c' d') : d' < sd := by
  obtain ⟨vs, ws, h1, h2, h3, h4⟩ := drop_set hb hr s
  obtain ⟨us, u1, u2, _⟩ := firstTerm_term h
  rw [h4, take_zeros_append hr, List.dropWhile_cons_of_pos h0] at u1
  have := (List.dropWhile_suffix (l := zipMut (fun l r => l - r * s) vs ws) (isZero (N := N))).length_le
  rw [u1, List.length_cons, length_zipMut] at this
  omega

/-- If the leading terms cancel, the repaired round is the round of the code. -/
theorem drop_eq {b : List N} {rf : N} {rd : Nat} (hb : firstTerm b = .term rf rd) {sd : Nat} {c : N} {rem : List N}
    (hr : firstTerm rem = .term c sd) (s : N) (h : c - rf * s = 0) :
    (rem.take (rem.length - sd - 1) ++ zipMut (fun l r => l - r * s) (rem.drop (rem.length - sd - 1))
        (b.drop (b.length - rd - 1))).set (rem.length - sd - 1) 0 =
      rem.take (rem.length - sd - 1) ++ zipMut (fun l r => l - r * s) (rem.drop (rem.length - sd - 1))
        (b.drop (b.length - rd - 1)) := by
  obtain ⟨vs, ws, h1, h2, h3, h4⟩ := drop_set hb hr s
  rw [h4, h1, h3, zipMut_cons, h]

/-- A round of the code. -/
theorem divModLoop_round {b : List N} {rf : N} {rd offset : Nat} (hb : firstTerm b = .term rf rd) {sd : Nat} {c : N}
    {rem dv : List N} (hr : firstTerm rem = .term c sd) (hle : rd ≤ sd) (hoff : sd ≤ offset)
    (hlen : dv.length = offset - rd + 1) {s : N} (hs : rdiv c rf = .ok s) (fuel : Nat) :
    Poly.divModLoop b rf rd offset (fuel + 1) c sd rem dv =
      match firstTerm (rem.take (rem.length - sd - 1) ++
        zipMut (fun l r => l - r * s) (rem.drop (rem.length - sd - 1)) (b.drop (b.length - rd - 1))) with
      | .zeroTerm => .ok (dv.set (offset - sd) s, rem.take (rem.length - sd - 1) ++
          zipMut (fun l r => l - r * s) (rem.drop (rem.length - sd - 1)) (b.drop (b.length - rd - 1)))
      | .term c' d' => Poly.divModLoop b rf rd offset fuel c' d' (rem.take (rem.length - sd - 1) ++
          zipMut (fun l r => l - r * s) (rem.drop (rem.length - sd - 1)) (b.drop (b.length - rd - 1)))
          (dv.set (offset - sd) s) := by
  obtain ⟨vs, r1, r2, r3, r4, r5⟩ := firstTerm_term hr
  obtain ⟨ws, b1, b2, b3, b4, b5⟩ := firstTerm_term hb
  have hu : usub offset sd = .ok (offset - sd) := by simp [usub, hoff]
  have hi : offset - sd < dv.length := by rw [hlen]; omega
  rw [Poly.divModLoop, if_pos hle, hs, Res.ok_bind, vecSubWScale_ok s r3 b3, Res.ok_bind, hu, Res.ok_bind, if_pos hi]
  cases firstTerm (rem.take (rem.length - sd - 1) ++ zipMut (fun l r => l - r * s) (rem.drop (rem.length - sd - 1))
      (b.drop (b.length - rd - 1))) <;> rfl

/-- Both loops do the same as long as the code's leading terms cancel or the code's loop is lost. -/
theorem drop_same_loop {b : List N} {rf : N} {rd offset : Nat} (hb : firstTerm b = .term rf rd) (V : N → Prop)
    (hV : ∀ x y s, V x → V (x - y * s)) (hok : ∀ c, ∃ s, rdiv c rf = .ok s)
    (hcase : ∀ (c : N) (sd : Nat) (rem dv : List N) (s : N), V c → firstTerm rem = .term c sd → rd ≤ sd → sd ≤ offset →
      dv.length = offset - rd + 1 → rdiv c rf = .ok s →
      c - rf * s = 0 ∨ ∀ fuel, Poly.divModLoop b rf rd offset fuel c sd rem dv = .fuel) :
    ∀ (fuel sd : Nat) (c : N) (rem dv : List N) (x : List N × List N), (∀ c ∈ rem, V c) → firstTerm rem = .term c sd →
      sd ≤ offset → dv.length = offset - rd + 1 → Poly.divModLoop b rf rd offset fuel c sd rem dv = .ok x →
      Poly.divModLoopDrop b rf rd offset fuel c sd rem dv = .ok x := by
  intro fuel
  induction fuel with
  | zero => intro sd c rem dv x _ _ _ _ h; cases h
  | succ fuel ih =>
    intro sd c rem dv x hv hr hoff hlen h
    by_cases hle : rd ≤ sd
    swap
    · rw [Poly.divModLoop, if_neg hle] at h
      rw [Poly.divModLoopDrop, if_neg hle, h]
    obtain ⟨s, hs⟩ := hok c
    have hcv : V c := hv c ((List.dropWhile_suffix isZero).subset (by rw [(firstTerm_term hr).choose_spec.1]; simp))
    rcases hcase c sd rem dv s hcv hr hle hoff hlen hs with h0 | h0
    swap
    · rw [h0] at h; cases h
    rw [divModLoop_round hb hr hle hoff hlen hs] at h
    rw [divModLoopDrop_round hb hr hle hoff hlen hs, drop_eq hb hr s h0]
    cases hf : firstTerm (rem.take (rem.length - sd - 1) ++ zipMut (fun l r => l - r * s) (rem.drop (rem.length - sd - 1))
        (b.drop (b.length - rd - 1))) with
    | zeroTerm => rw [hf] at h; exact h
    | term c' d' =>
      rw [hf] at h
      have hd := firstTerm_step_any hr (t := zipMut (fun l r => l - r * s) (rem.drop (rem.length - sd - 1))
        (b.drop (b.length - rd - 1))) (by
          obtain ⟨vs, _, r2, r3, r4, _⟩ := firstTerm_term hr
          rw [length_zipMut, r4, List.length_cons, r2]) hf
      refine ih d' c' _ _ x ?_ hf (by omega) (by simpa using hlen) h
      intro y hy
      rcases List.mem_append.1 hy with hy | hy
      · exact hv y (List.mem_of_mem_take hy)
      · exact Fl.forall_zipMut (P := V) (Q := V) (fun x hx => hx) (fun x y hx => hV x y s hx) _ _
          (fun x hx => hv x (List.mem_of_mem_drop hx)) _ hy

end

namespace Fl

variable {f : FlFmt}

/-- As `Bnd`, with the smallest positive number scaled by `M`. -/
def BndM (M : ℚ) (c : Nat) (x : Fl f × ℚ × ℚ) : Prop :=
  |x.2.1| ≤ x.2.2 ∧ (x.1.isFinite = true →
    |x.1.toRat - x.2.1| ≤ ((1 + uro f) ^ (c + 1) - 1) * x.2.2 + c * (1 + uro f) ^ c * (M * eta f))

theorem BndM_mono {M : ℚ} (hM : 1 ≤ M) {c d : Nat} (h : c ≤ d) (x : Fl f × ℚ × ℚ) (hx : BndM M c x) : BndM M d x := by
  refine ⟨hx.1, fun hf => (hx.2 hf).trans ?_⟩
  have hu := uro_nonneg (f := f)
  have hη : 0 ≤ M * eta f := mul_nonneg (by linarith) eta_nonneg
  have hA : 0 ≤ x.2.2 := (abs_nonneg _).trans hx.1
  have h1 : (1 : ℚ) ≤ 1 + uro f := by linarith
  have h2 : (c : ℚ) ≤ d := by exact_mod_cast h
  have h3 : (1 + uro f) ^ c ≤ (1 + uro f) ^ d := pow_le_pow_right₀ h1 h
  have h4 : (1 + uro f) ^ (c + 1) ≤ (1 + uro f) ^ (d + 1) := pow_le_pow_right₀ h1 (by omega)
  have h5 : (c : ℚ) * (1 + uro f) ^ c ≤ d * (1 + uro f) ^ d := by gcongr
  have h6 := mul_le_mul_of_nonneg_right h5 hη
  have h7 := mul_le_mul_of_nonneg_right h4 hA
  linarith

theorem BndM_of_Bnd {M : ℚ} (hM : 1 ≤ M) {c : Nat} (x : Fl f × ℚ × ℚ) (hx : Bnd c x) : BndM M c x := by
  refine ⟨hx.1, fun hf => (hx.2 hf).trans ?_⟩
  have hu := uro_nonneg (f := f)
  have hη := eta_nonneg (f := f)
  have h1 : eta f ≤ M * eta f := le_mul_of_one_le_left hη hM
  have h2 : (0 : ℚ) ≤ c * (1 + uro f) ^ c := by positivity
  have := mul_le_mul_of_nonneg_left h1 h2
  linarith

theorem BndM_step {M : ℚ} (hM : 1 ≤ M) {c : Nat} (x : Fl f × ℚ × ℚ) (hx : BndM M c x) (r l : Fl f) :
    BndM M (c + 1) (x.1 + r * l, x.2.1 + r.toRat * l.toRat, x.2.2 + |r.toRat| * |l.toRat|) := by
  obtain ⟨t, s, a⟩ := x
  obtain ⟨hsa, hE⟩ := hx
  simp only at hsa hE
  refine ⟨?_, fun hf => ?_⟩
  · simp only
    refine (abs_add_le _ _).trans ?_
    rw [abs_mul]; linarith
  · simp only at hf ⊢
    obtain ⟨hft, hfm⟩ := finite_of_add hf
    have hE := hE hft
    have h1 := add_error hf
    have h2 := mul_error hfm
    have hu := uro_nonneg (f := f)
    have hη0 := eta_nonneg (f := f)
    have hη : 0 ≤ M * eta f := mul_nonneg (by linarith) hη0
    have hηM : eta f ≤ M * eta f := le_mul_of_one_le_left hη0 hM
    have hA : 0 ≤ a := (abs_nonneg _).trans hsa
    rw [← abs_mul]
    generalize (t + r * l).toRat = z at *
    generalize (r * l).toRat = m at *
    generalize r.toRat * l.toRat = w at *
    generalize t.toRat = t at *
    have hg : 1 ≤ (1 + uro f) ^ c := one_le_pow₀ (by linarith)
    push_cast
    rw [pow_succ] at hE
    rw [pow_succ, pow_succ]
    generalize (1 + uro f) ^ c = g at *
    generalize uro f = u at *
    generalize M * eta f = η at *
    replace h2 : |m - w| ≤ u * |w| + η := by linarith
    have hw := abs_nonneg w
    have e1 : |z - (s + w)| ≤ |z - (t + m)| + |t - s| + |m - w| := by
      have : z - (s + w) = (z - (t + m)) + (t - s) + (m - w) := by ring
      rw [this]
      exact (abs_add_le _ _).trans (by have := abs_add_le (z - (t + m)) (t - s); linarith)
    have e2 : |t + m| ≤ a + |t - s| + |w| + |m - w| := by
      have : t + m = s + (t - s) + w + (m - w) := by ring
      rw [this]
      have i1 := abs_add_le (s + (t - s) + w) (m - w)
      have i2 := abs_add_le (s + (t - s)) w
      have i3 := abs_add_le s (t - s)
      linarith
    have e3 : u * |t + m| ≤ u * (a + |t - s| + |w| + |m - w|) := mul_le_mul_of_nonneg_left e2 hu
    have e4 : (1 + u) * |t - s| ≤ (1 + u) * ((g * (1 + u) - 1) * a + c * g * η) :=
      mul_le_mul_of_nonneg_left hE (by linarith)
    have e5 : (1 + u) * |m - w| ≤ (1 + u) * (u * |w| + η) := mul_le_mul_of_nonneg_left h2 (by linarith)
    have e6 : (1 + u) * (1 + u) * |w| ≤ g * ((1 + u) * (1 + u)) * |w| := by
      refine mul_le_mul_of_nonneg_right ?_ hw
      exact le_mul_of_one_le_left (by positivity) hg
    have e7 : (1 + u) * η ≤ g * ((1 + u) * η) := le_mul_of_one_le_left (by positivity) hg
    nlinarith

theorem mulInv_BndM {M : ℚ} (hM : 1 ≤ M) : MulInv (f := f) (fun _ => True) (BndM M) :=
  ⟨BndM_mono hM, ⟨by simp, fun _ => by simp⟩, fun x hx r l _ _ => BndM_step hM x hx r l,
    fun r l _ _ => BndM_of_Bnd hM _ (Bnd_first r l)⟩

/-- The dropped leading coefficient was small: `0` in its place is as good as what a subtraction gives. -/
theorem BndM_drop {M : ℚ} (hM : 1 ≤ M) {c : Nat} (x : Fl f × ℚ × ℚ) (hx : BndM M c x) {rf : Fl f}
    (hrf : rf.isFinite = true) (h0 : rf.toRat ≠ 0) (hrM : |rf.toRat| ≤ M) (hs : (div x.1 rf).isFinite = true)
    (hxf : x.1.isFinite = true) :
    BndM M (c + 1) ((0 : Fl f), x.2.1 + (-rf).toRat * (div x.1 rf).toRat,
      x.2.2 + |(-rf).toRat| * |(div x.1 rf).toRat|) := by
  obtain ⟨t, s, a⟩ := x
  obtain ⟨hsa, hE⟩ := hx
  simp only at hsa hE hxf hs ⊢
  have hE := hE hxf
  have hd := div_error hxf hrf h0 hs
  refine ⟨?_, fun _ => ?_⟩
  · simp only
    refine (abs_add_le _ _).trans ?_
    rw [abs_mul]; linarith
  simp only [toRat_zero, toRat_neg, abs_neg]
  rw [← abs_mul]
  have hu := uro_nonneg (f := f)
  have hη0 := eta_nonneg (f := f)
  have hη : 0 ≤ M * eta f := mul_nonneg (by linarith) hη0
  have hA : 0 ≤ a := (abs_nonneg _).trans hsa
  have h1 : |rf.toRat * (div t rf).toRat - t.toRat| ≤ uro f * |t.toRat| + M * eta f := by
    have e : rf.toRat * (div t rf).toRat - t.toRat = rf.toRat * ((div t rf).toRat - t.toRat / rf.toRat) := by
      field_simp
    rw [e, abs_mul]
    have e2 : |rf.toRat| * |t.toRat / rf.toRat| = |t.toRat| := by
      rw [← abs_mul, mul_div_cancel₀ _ h0]
    calc |rf.toRat| * |(div t rf).toRat - t.toRat / rf.toRat|
        ≤ |rf.toRat| * (uro f * |t.toRat / rf.toRat| + eta f) := mul_le_mul_of_nonneg_left hd (abs_nonneg _)
      _ = uro f * (|rf.toRat| * |t.toRat / rf.toRat|) + |rf.toRat| * eta f := by ring
      _ ≤ uro f * |t.toRat| + M * eta f := by
        rw [e2]
        have := mul_le_mul_of_nonneg_right hrM hη0
        linarith
  have hw := abs_nonneg (rf.toRat * (div t rf).toRat)
  have e0 : (0 : ℚ) - (s + -rf.toRat * (div t rf).toRat) = (rf.toRat * (div t rf).toRat - t.toRat) + (t.toRat - s) := by ring
  rw [e0]
  generalize rf.toRat * (div t rf).toRat = w at *
  generalize t.toRat = t at *
  have hg : 1 ≤ (1 + uro f) ^ c := one_le_pow₀ (by linarith)
  push_cast
  rw [pow_succ] at hE
  rw [pow_succ, pow_succ]
  generalize (1 + uro f) ^ c = g at *
  generalize uro f = u at *
  generalize M * eta f = η at *
  have e1 := abs_add_le (w - t) (t - s)
  have e2 : |t| ≤ a + |t - s| := by
    have := abs_add_le s (t - s)
    rw [add_sub_cancel] at this
    linarith
  have e3 : u * |t| ≤ u * (a + |t - s|) := mul_le_mul_of_nonneg_left e2 hu
  have e4 : (1 + u) * |t - s| ≤ (1 + u) * ((g * (1 + u) - 1) * a + c * g * η) :=
    mul_le_mul_of_nonneg_left hE (by linarith)
  have e5 : η ≤ g * ((1 + u) * η) := by
    have : (1 + u) * η ≤ g * ((1 + u) * η) := le_mul_of_one_le_left (by positivity) hg
    nlinarith [mul_nonneg hu hη]
  have e6 : 0 ≤ (g * (1 + u) * (1 + u) - 1) * |w| := by
    refine mul_nonneg ?_ hw
    nlinarith [mul_nonneg hu hu, mul_nonneg (by linarith : (0:ℚ) ≤ g - 1) hu]
  nlinarith

/-- The repaired loop always returns. -/
theorem drop_loop {b : List (Fl f)} {rf : Fl f} {rd offset : Nat} (hb : firstTerm b = .term rf rd) {M : ℚ} (hM : 1 ≤ M)
    (P A : ℚ[X]) : ∀ (sd : Nat) (c : Fl f) (T : List (Fl f × ℚ × ℚ)) (dv : List (Fl f)) (m : Nat),
    firstTerm (T.map Prod.fst) = .term c sd → rd ≤ sd → sd ≤ offset → dv.length = offset - rd + 1 →
    (∀ i, offset - sd ≤ i → dv.getD i 0 = 0) →
    descPoly (T.map fun x => x.2.1) = P - descPoly (dv.map toRat) * descPoly (b.map toRat) →
    descPoly (T.map fun x => x.2.2) =
      A + descPoly (dv.map fun x => |x.toRat|) * descPoly (b.map fun x => |x.toRat|) →
    ∃ (dv' : List (Fl f)) (T' : List (Fl f × ℚ × ℚ)),
      (∀ fuel, sd + 2 ≤ fuel →
        Poly.divModLoopDrop b rf rd offset fuel c sd (T.map Prod.fst) dv = .ok (dv', T'.map Prod.fst)) ∧
      (∀ c' d', firstTerm (T'.map Prod.fst) = .term c' d' → d' < rd) ∧
      dv'.length = dv.length ∧ (∀ i, i < offset - sd → dv'.getD i 0 = dv.getD i 0) ∧
      (rf.isFinite = true → |rf.toRat| ≤ M → (∀ x ∈ dv', x.isFinite = true) → (∀ x ∈ T, BndM M m x) →
        ∀ x ∈ T', BndM M (m + (sd + 1)) x) ∧
      descPoly (T'.map fun x => x.2.1) = P - descPoly (dv'.map toRat) * descPoly (b.map toRat) ∧
      descPoly (T'.map fun x => x.2.2) =
        A + descPoly (dv'.map fun x => |x.toRat|) * descPoly (b.map fun x => |x.toRat|) := by
  intro sd
  induction sd using Nat.strong_induction_on with
  | _ sd ih =>
    intro c T dv m hr hle hoff hlen hz hS hA
    have hrf0 := (firstTerm_term hb).choose_spec.2.2.2.2
    obtain ⟨T1, hfst, hB1, ⟨x, hxT, hxc, hlead⟩, hS1, hA1, _⟩ := div_round_lead (L := fun _ => True) hb (fun _ _ => trivial)
      (m := m) hr hle hoff hlen (s := div c rf) rfl trivial
    set s := div c rf with hs
    set loc := T.length - sd - 1 with hloc
    have hi : offset - sd < dv.length := by rw [hlen]; omega
    have hexp : dv.length - (offset - sd) - 1 = sd - rd := by rw [hlen]; omega
    -- the entry set to zero
    obtain ⟨T2, hT2⟩ : ∃ T2, T2 = T1.set loc ((0 : Fl f), x.2.1 + (-rf).toRat * s.toRat, x.2.2 + |(-rf).toRat| * |s.toRat|) :=
      ⟨_, rfl⟩
    have h21 : ∀ g : ℚ × ℚ → ℚ, T2.map (fun y => g y.2) = T1.map (fun y => g y.2) := by
      intro g
      rw [hT2, List.map_set]
      apply List.ext_getElem? 
      intro i
      rw [List.getElem?_set]
      by_cases hii : loc = i
      · subst hii
        rw [if_pos rfl, List.getElem?_map, hlead]
        have : loc < (T1.map fun y => g y.2).length := by
          rw [List.length_map]
          exact (List.getElem?_eq_some_iff.1 hlead).1
        rw [if_pos this]
        rfl
      · rw [if_neg hii]
    have hfst2 : T2.map Prod.fst = ((T.map Prod.fst).take ((T.map Prod.fst).length - sd - 1) ++
        zipMut (fun l r => l - r * s) ((T.map Prod.fst).drop ((T.map Prod.fst).length - sd - 1))
          (b.drop (b.length - rd - 1))).set ((T.map Prod.fst).length - sd - 1) 0 := by
      rw [hT2, List.map_set, hfst, List.length_map]
    have hS2 : descPoly (T2.map fun x => x.2.1) =
        P - descPoly ((dv.set (offset - sd) s).map toRat) * descPoly (b.map toRat) := by
      rw [h21 Prod.fst, hS1, hS, map_set_getD toRat toRat_zero dv _ s hi (hz _ le_rfl), hexp]; ring
    have hA2 : descPoly (T2.map fun x => x.2.2) =
        A + descPoly ((dv.set (offset - sd) s).map fun x => |x.toRat|) * descPoly (b.map fun x => |x.toRat|) := by
      rw [h21 Prod.snd, hA1, hA, map_set_getD (fun x => |x.toRat|) (by simp) dv _ s hi (hz _ le_rfl), hexp]; ring
    have hB2 : rf.isFinite = true → |rf.toRat| ≤ M → s.isFinite = true → (∀ x ∈ T, BndM M m x) →
        ∀ x ∈ T2, BndM M (m + 1) x := by
      intro h1 h2 h3 h4 y hy
      rw [hT2] at hy
      rcases List.mem_or_eq_of_mem_set hy with hy | rfl
      · exact hB1 (mulInv_BndM hM) h4 y hy
      · have hcf : c.isFinite = true := by
          by_contra hc
          have hc' : c.isFinite = false := by simpa using hc
          rcases finite_cases c hc' with e | ⟨t, e⟩
          · rw [hs, e] at h3; cases rf <;> cases h3
          · rw [hs, e] at h3
            cases rf <;> simp [div, isFinite] at h3 h1
        have h0 : rf.toRat ≠ 0 := by
          intro h
          rw [(isZero_iff_toRat h1).2 h] at hrf0
          cases hrf0
        have := BndM_drop hM x (h4 x hxT) h1 h0 h2 (by rw [hxc]; exact h3) (by rw [hxc]; exact hcf)
        rwa [hxc] at this
    have hround := fun fuel => divModLoopDrop_round hb hr hle hoff hlen (rdiv_eq c rf) fuel
    simp only [← hs, ← hfst2] at hround
    have hgetD : ∀ i, i ≠ offset - sd → (dv.set (offset - sd) s).getD i 0 = dv.getD i 0 := by
      intro i hi'
      rw [List.getD_eq_getElem?_getD, List.getElem?_set_ne (fun h => hi' h.symm), ← List.getD_eq_getElem?_getD]
    have hgetS : (dv.set (offset - sd) s).getD (offset - sd) 0 = s := by
      rw [List.getD_eq_getElem?_getD, List.getElem?_set_self hi]; rfl
    cases hf : firstTerm (T2.map Prod.fst) with
    | zeroTerm =>
      refine ⟨dv.set (offset - sd) s, T2, ?_, by simp [hf], by simp, fun i hi' => hgetD i (by omega), ?_, hS2, hA2⟩
      · intro fuel hfuel
        obtain ⟨fuel, rfl⟩ : ∃ k, fuel = k + 1 := ⟨fuel - 1, by omega⟩
        rw [hround, hf]
      · intro h1 h2 h3 h4 y hy
        exact BndM_mono hM (by omega) y (hB2 h1 h2 (h3 s (List.mem_set hi s)) h4 y hy)
    | term c' d' =>
      have hd' : d' < sd := drop_degree hb hr s rfl (by rw [← hfst2]; exact hf)
      by_cases hle' : rd ≤ d'
      · obtain ⟨dv', T', k1, k2, k3, k4, k5, k6, k7⟩ := ih d' hd' c' T2 (dv.set (offset - sd) s) (m + 1) hf hle' (by omega)
          (by simpa using hlen) (fun i hi' => by rw [hgetD i (by omega)]; exact hz i (by omega)) hS2 hA2
        refine ⟨dv', T', ?_, k2, by simpa using k3, fun i hi' => by rw [k4 i (by omega), hgetD i (by omega)], ?_, k6, k7⟩
        · intro fuel hfuel
          obtain ⟨fuel, rfl⟩ : ∃ k, fuel = k + 1 := ⟨fuel - 1, by omega⟩
          rw [hround, hf]
          exact k1 fuel (by omega)
        · intro h1 h2 h3 h4 y hy
          have hsf : s.isFinite = true := by
            have e := k4 (offset - sd) (by omega)
            rw [hgetS] at e
            have hi' : offset - sd < dv'.length := by rw [k3]; simpa using hi
            rw [List.getD_eq_getElem _ _ hi'] at e
            rw [← e]
            exact h3 _ (List.getElem_mem _)
          exact BndM_mono hM (by omega) y (k5 h1 h2 h3 (hB2 h1 h2 hsf h4) y hy)
      · refine ⟨dv.set (offset - sd) s, T2, ?_, ?_, by simp, fun i hi' => hgetD i (by omega), ?_, hS2, hA2⟩
        · intro fuel hfuel
          obtain ⟨fuel, rfl⟩ : ∃ k, fuel = k + 2 := ⟨fuel - 2, by omega⟩
          rw [hround, hf]
          simp only
          rw [Poly.divModLoopDrop, if_neg hle']
        · intro c'' d'' h
          rw [hf] at h
          cases h
          omega
        · intro h1 h2 h3 h4 y hy
          exact BndM_mono hM (by omega) y (hB2 h1 h2 (h3 s (List.mem_set hi s)) h4 y hy)

/-- C138: division with the leading coefficient dropped in each round returns for all dividends and divisors, NaN and
infinities included, within as many rounds as the dividend has coefficients; the remainder has a smaller degree than the
divisor.  If the divisor's leading coefficient `l`, the quotient and the remainder are finite, then `r = p - q * b` up
to rounding, relative to the polynomials with absolute coefficients, for every `l`. -/
theorem C138_division (p b : Poly (Fl f)) (e : Nat) (he : b.degree = .num e) (l : Fl f)
    (hb : b.termWithDegree e = .term l e) :
    ∃ q r, (∀ fuel, p.terms.length + 1 ≤ fuel → p.divModDrop fuel b = .ok (q, r)) ∧
      (∀ d, r.degree = .num d → d < e) ∧
      (l.isFinite = true → (∀ c ∈ q.terms, c.isFinite = true) → (∀ c ∈ r.terms, c.isFinite = true) → ∀ k,
        |(descPoly (r.terms.map toRat) - (descPoly (p.terms.map toRat) -
            descPoly (q.terms.map toRat) * descPoly (b.terms.map toRat))).coeff k| ≤
          ((1 + uro f) ^ (p.terms.length + 1) - 1) * (descPoly (p.terms.map fun c => |c.toRat|) +
            descPoly (q.terms.map fun c => |c.toRat|) * descPoly (b.terms.map fun c => |c.toRat|)).coeff k +
          p.terms.length * (1 + uro f) ^ p.terms.length * (max 1 |l.toRat| * eta f)) := by
  obtain ⟨rf, hbf⟩ := firstTerm_num he
  rw [Poly.termWithDegree, termWithDeg_first hbf] at hb
  cases hb
  have hu := uro_nonneg (f := f)
  have hη := eta_nonneg (f := f)
  have hM : (1 : ℚ) ≤ max 1 |l.toRat| := le_max_left _ _
  have hMη : 0 ≤ max 1 |l.toRat| * eta f := mul_nonneg (by linarith) hη
  have hz : ∀ s : Bool, (fun x : Fl f => |x.toRat|) (fin s 0) = 0 := fun s => by simp [toRat_fin_zero]
  -- nothing to do
  have trivial_case : (∀ fuel, p.divModDrop fuel b = .ok (Poly.zero, p)) → (∀ d, p.degree = .num d → d < e) →
      ∃ q r, (∀ fuel, p.terms.length + 1 ≤ fuel → p.divModDrop fuel b = .ok (q, r)) ∧
      (∀ d, r.degree = .num d → d < e) ∧
      (l.isFinite = true → (∀ c ∈ q.terms, c.isFinite = true) → (∀ c ∈ r.terms, c.isFinite = true) → ∀ k,
        |(descPoly (r.terms.map toRat) - (descPoly (p.terms.map toRat) -
            descPoly (q.terms.map toRat) * descPoly (b.terms.map toRat))).coeff k| ≤
          ((1 + uro f) ^ (p.terms.length + 1) - 1) * (descPoly (p.terms.map fun c => |c.toRat|) +
            descPoly (q.terms.map fun c => |c.toRat|) * descPoly (b.terms.map fun c => |c.toRat|)).coeff k +
          p.terms.length * (1 + uro f) ^ p.terms.length * (max 1 |l.toRat| * eta f)) := by
    intro h hd
    refine ⟨_, _, fun fuel _ => h fuel, hd, fun _ _ _ k => ?_⟩
    have h1 : 0 ≤ (descPoly (p.terms.map fun c => |c.toRat|)).coeff k := by
      rcases coeff_cases p.terms k with ⟨x, _, e⟩ | e
      · rw [e]; exact abs_nonneg _
      · rw [e]
    have h2 : (1 : ℚ) ≤ (1 + uro f) ^ (p.terms.length + 1) := one_le_pow₀ (by linarith)
    have h3 : 0 ≤ (1 + uro f) ^ (p.terms.length + 1) - 1 := by linarith
    simp only [Poly.zero, List.map_nil, descPoly_nil, zero_mul, sub_zero, sub_self, add_zero, coeff_zero, abs_zero]
    positivity
  cases hpf : firstTerm p.terms with
  | zeroTerm =>
    refine trivial_case (fun fuel => by simp [Poly.divModDrop, hbf, hpf]) fun d hd => ?_
    obtain ⟨c, hc⟩ := firstTerm_num hd
    rw [hpf] at hc; cases hc
  | term c d =>
    by_cases hlt : d < e
    · refine trivial_case (fun fuel => by simp [Poly.divModDrop, hbf, hpf, hlt]) fun d' hd => ?_
      obtain ⟨c', hc⟩ := firstTerm_num hd
      rw [hpf] at hc; cases hc; exact hlt
    · have hd1 := (firstTerm_term hpf).choose_spec.2.2.1
      have hunf : ∀ fuel, p.divModDrop fuel b = ((Poly.divModLoopDrop b.terms l e d fuel c d p.terms
          (List.replicate (d - e + 1) 0)) >>= fun x => .ok (Poly.new x.1, Poly.new x.2)) := by
        intro fuel
        unfold Poly.divModDrop
        rw [hbf, hpf]
        simp only
        rw [if_neg hlt]
      have hfst : (p.terms.map fun c => (c, c.toRat, |c.toRat|)).map Prod.fst = p.terms := by
        rw [List.map_map]; exact List.map_id _
      have hrep : ∀ g : Fl f → ℚ, g 0 = 0 → descPoly ((List.replicate (d - e + 1) (0 : Fl f)).map g) = 0 := by
        intro g hg
        rw [List.map_replicate, hg]
        simp
      obtain ⟨dv', T', k1, kd, _, _, k2, k3, k4⟩ := drop_loop (b := b.terms) (rd := e) (offset := d) hbf hM
        (descPoly (p.terms.map toRat))
        (descPoly (p.terms.map fun c => |c.toRat|)) d c (p.terms.map fun c => (c, c.toRat, |c.toRat|))
        (List.replicate (d - e + 1) 0) 0 (by rw [hfst]; exact hpf) (not_lt.1 hlt) le_rfl (by simp)
        (fun i _ => by
          rw [List.getD_eq_getElem?_getD, List.getElem?_replicate]
          split <;> rfl)
        (by rw [hrep toRat toRat_zero, List.map_map]; simp [Function.comp_def])
        (by rw [hrep (fun x => |x.toRat|) (by simp), List.map_map]; simp [Function.comp_def])
      rw [hfst] at k1
      refine ⟨Poly.new dv', Poly.new (T'.map Prod.fst), fun fuel hfuel => ?_, fun d' hd => ?_, fun hlf hqf hfin k => ?_⟩
      · rw [hunf, k1 fuel (by omega), Res.ok_bind]
      · obtain ⟨c', hc⟩ := firstTerm_num hd
        rw [new_terms, firstTerm_eq, List.dropWhile_idempotent, ← firstTerm_eq] at hc
        exact kd c' d' hc
      · rw [new_terms] at hfin hqf ⊢
        rw [new_terms]
        rw [descPoly_dropWhile_toRat _ toRat_fin_zero, descPoly_dropWhile_toRat _ toRat_fin_zero,
          descPoly_dropWhile_toRat _ hz, ← k3, ← k4, coeff_sub, List.map_map]
        have hB0 : ∀ x ∈ p.terms.map fun c => (c, c.toRat, |c.toRat|), BndM (f := f) (max 1 |l.toRat|) 0 x := by
          intro x hx
          obtain ⟨y, _, rfl⟩ := List.mem_map.1 hx
          refine ⟨le_rfl, fun _ => ?_⟩
          simp only [sub_self, abs_zero, Nat.cast_zero, zero_mul, add_zero, pow_one, zero_add]
          have := abs_nonneg y.toRat
          nlinarith
        have hB := k2 hlf (le_max_right _ _) (finite_of_dropWhile hqf) hB0
        rcases coeff_cases T' k with ⟨x, hx, e'⟩ | e'
        · rw [e', e', e']
          have hb := BndM_mono hM (d := p.terms.length) (by omega) x (hB x hx)
          exact hb.2 (finite_of_dropWhile hfin _ (List.mem_map_of_mem hx))
        · rw [e', e', e']
          simp only [sub_self, abs_zero, mul_zero, zero_add]
          positivity

/-- C138: division by zero panics, as now. -/
theorem C138_zero (p b : Poly (Fl f)) (fuel : Nat) (h : ∀ c ∈ b.terms, isZero c = true) :
    p.divModDrop fuel b = .panic := by
  have : firstTerm b.terms = .zeroTerm := by
    rw [firstTerm_eq, List.dropWhile_eq_nil_iff.2 h]
  simp [Poly.divModDrop, this]

/-- The lift of `drop_same_loop` to `div_mod`. -/
theorem drop_same {N : Type} [Zero N] [NumZero N] [Sub N] [Mul N] [RDiv N] {p b q r : Poly N} {fuel : Nat} (V : N → Prop)
    (hV : ∀ x y s, V x → V (x - y * s)) (hp : ∀ c ∈ p.terms, V c)
    (hcase : ∀ rf rd, firstTerm b.terms = .term rf rd → (∀ c, ∃ s, rdiv c rf = .ok s) ∧
      ∀ (offset : Nat) (c : N) (sd : Nat) (rem dv : List N) (s : N), V c → firstTerm rem = .term c sd → rd ≤ sd → sd ≤ offset →
      dv.length = offset - rd + 1 → rdiv c rf = .ok s →
      c - rf * s = 0 ∨ ∀ fuel, Poly.divModLoop b.terms rf rd offset fuel c sd rem dv = .fuel)
    (h : p.divMod fuel b = .ok (q, r)) : p.divModDrop fuel b = .ok (q, r) := by
  unfold Poly.divMod at h
  unfold Poly.divModDrop
  cases hbf : firstTerm b.terms with
  | zeroTerm => rw [hbf] at h; cases h
  | term rf rd =>
    rw [hbf] at h
    cases hpf : firstTerm p.terms with
    | zeroTerm => simp only [hpf] at h ⊢; exact h
    | term c d =>
      simp only [hpf] at h ⊢
      split
      · rename_i hlt; rw [if_pos hlt] at h; exact h
      · rename_i hlt
        rw [if_neg hlt] at h
        obtain ⟨x, h1, h2⟩ := Res.bind_eq_ok.1 h
        have := drop_same_loop hbf V hV (hcase rf rd hbf).1 ((hcase rf rd hbf).2 d) fuel d c p.terms
          (List.replicate (d - rd + 1) 0) x hp hpf le_rfl (by simp) h1
        rw [this, Res.ok_bind]
        exact h2

/-- C138: over a field nothing changes: the leading terms cancel exactly. -/
theorem C138_field_same {K : Type} [Field K] [NumZero K] [LawfulNumZero K] [RDiv K] [LawfulRDiv K] (p b q r : Poly K)
    (fuel : Nat) (h : p.divMod fuel b = .ok (q, r)) : p.divModDrop fuel b = .ok (q, r) := by
  refine drop_same (fun _ => True) (fun _ _ _ _ => trivial) (fun _ _ => trivial) (fun rf rd hb => ?_) h
  have h0 : rf ≠ 0 := by
    intro h
    have := (firstTerm_term hb).choose_spec.2.2.2.2
    rw [h] at this
    simp at this
  have hdiv : ∀ c, rdiv c rf = .ok (c / rf) := fun c => LawfulRDiv.rdiv_eq c rf h0
  refine ⟨fun c => ⟨_, hdiv c⟩, fun offset c sd rem dv s _ _ _ _ _ hs => .inl ?_⟩
  rw [hdiv] at hs
  cases hs
  rw [mul_div_cancel₀ _ h0, sub_self]

/-- A difference that is zero, of a number that is not, is `+0`. -/
theorem sub_eq_zero_of_isZero (hp : 1 ≤ f.p) {c y : Fl f} (hc : isZero c = false) (h : isZero (c - y) = true) : c - y = 0 := by
  have hr : ∀ n, 0 < n → roundRat f.p n 1 ≠ 0 := by
    intro n hn h0
    have := roundRat_one_error f.p n
    rw [h0] at this
    have hn' : (0 : ℚ) < n := by exact_mod_cast hn
    have h2 : (2 : ℚ) ≤ 2 ^ f.p := by
      calc (2 : ℚ) = 2 ^ 1 := by norm_num
        _ ≤ 2 ^ f.p := pow_le_pow_right₀ (by norm_num) hp
    rw [Nat.cast_zero, zero_sub, abs_neg, abs_of_pos hn', le_div_iff₀ (by positivity)] at this
    nlinarith
  have hpk : ∀ (s : Bool) n, n ≠ 0 → isZero (pack s n : Fl f) = false := by
    intro s n hn
    by_contra hc
    obtain ⟨t, ht⟩ := isZero_iff.1 (by simpa using hc)
    unfold pack at ht
    split at ht
    · cases ht; exact hn rfl
    · cases ht
  obtain ⟨z, hz⟩ := isZero_iff.1 h
  obtain ⟨hcf, hyf⟩ := finite_of_sub (x := c) (y := y) (by rw [hz]; rfl)
  obtain ⟨s, a, rfl⟩ := isFinite_iff.1 hcf
  obtain ⟨t, d, rfl⟩ := isFinite_iff.1 hyf
  have ha : a ≠ 0 := by
    rintro rfl
    rw [isZero_iff.2 ⟨s, rfl⟩] at hc
    cases hc
  rw [sub_def, neg_def, add_def] at h ⊢
  simp only [neg, add] at h ⊢
  split at h
  · rw [hpk _ _ (hr _ (by omega))] at h; cases h
  · rename_i h1
    rw [if_neg h1]
    split at h
    · rename_i h2
      rw [if_pos h2]; rfl
    · split at h
      · rw [hpk _ _ (hr _ (by omega))] at h; cases h
      · rw [hpk _ _ (hr _ (by omega))] at h; cases h

/-- C138: where the code is right in floating point, nothing changes: for divisors with leading coefficient `±1/2^j`
the same quotient and remainder are returned. -/
theorem C138_power_of_two_same (hp : 1 ≤ f.p) (p b q r : Poly (Fl f)) (hpv : ∀ c ∈ p.terms, c.Valid) (e : Nat)
    (he : b.degree = .num e) (l : Fl f) (hb : b.termWithDegree e = .term l e) (hl : l.isFinite = true) (j : Nat)
    (hj : |l.toRat| = 1 / 2 ^ j) (fuel : Nat) (h : p.divMod fuel b = .ok (q, r)) : p.divModDrop fuel b = .ok (q, r) := by
  obtain ⟨rf', hbf⟩ := firstTerm_num he
  rw [Poly.termWithDegree, termWithDeg_first hbf] at hb
  cases hb
  have hlead : ∀ c : Fl f, c.Valid → c.isFinite = true →
      isZero (c - l * div c l) = true ∨ (c - l * div c l).isFinite = false := by
    intro c hv hc
    obtain ⟨t, m, rfl⟩ := isFinite_iff.1 hl
    have hm : m * 2 ^ j = 2 ^ f.q := by
      have h1 : |(fin t m : Fl f).toRat| = m / 2 ^ f.q := by
        have : (0 : ℚ) ≤ m / 2 ^ f.q := by positivity
        cases t <;> simp [toRat, abs_of_nonneg this]
      rw [h1, div_eq_div_iff (by positivity) (by positivity), one_mul] at hj
      exact_mod_cast hj
    have hjq : j ≤ f.q := by
      by_contra h
      have : 2 ^ f.q < 2 ^ j := Nat.pow_lt_pow_right (by norm_num) (by omega)
      have h0 : 0 < m := by
        rcases Nat.eq_zero_or_pos m with rfl | h0
        · have : 0 < 2 ^ f.q := by positivity
          omega
        · exact h0
      have := Nat.le_mul_of_pos_left (2 ^ j) h0
      omega
    have : m = 2 ^ (f.q - j) := by
      apply Nat.eq_of_mul_eq_mul_right (show 0 < 2 ^ j by positivity)
      rw [hm, ← pow_add, Nat.sub_add_cancel hjq]
    subst this
    exact lead_pow hp hv hc t (Nat.sub_le _ _)
  refine drop_same (fun c => c.Valid) (fun x y s _ => (C65_closed hp _ _).2.1) hpv (fun rf rd hb => ?_) h
  rw [hbf] at hb
  cases hb
  refine ⟨fun c => ⟨_, rdiv_eq c l⟩, fun offset c sd rem dv s hv hr hle hoff hlen hs => ?_⟩
  rw [rdiv_eq] at hs
  cases hs
  by_cases hcf : c.isFinite = true
  swap
  · exact .inr fun fuel => nan_loop hbf fuel hr hle hoff hlen (.inl (by simpa using hcf))
  rcases hlead c hv hcf with h0 | h0
  · exact .inl (sub_eq_zero_of_isZero hp (firstTerm_term hr).choose_spec.2.2.2.2 h0)
  · right
    intro fuel
    cases fuel with
    | zero => rfl
    | succ fuel =>
      obtain ⟨rem', g1, g2⟩ := next_same_degree hbf hr hle hoff hlen (by
        generalize c - l * div c l = z at h0
        cases z with
        | fin => cases h0
        | _ => rfl)
      rw [divModLoop_next g1]
      exact nan_loop hbf fuel g2 hle hoff (by simpa using hlen) (.inl h0)

-- 1 / 49, which never returns now (`C70_diverges`), and 7 / 25, which returns a wrong quotient now (`C70_quotient_false`)
example : (⟨[1]⟩ : Poly (Fl binary64)).divModDrop 2 ⟨[ofNat 49]⟩ = .ok (⟨[div 1 (ofNat 49)]⟩, ⟨[]⟩) := by decide +kernel
example : (⟨[ofNat 7]⟩ : Poly (Fl binary64)).divModDrop 2 ⟨[ofNat 25]⟩ = .ok (⟨[div (ofNat 7) (ofNat 25)]⟩, ⟨[]⟩) := by
  decide +kernel

-- (x^2 + 0.1) / (49x + 3): the hypotheses of `C138_division` are met, and quotient and remainder are finite
example : (⟨[ofNat 49, ofNat 3]⟩ : Poly (Fl binary64)).degree = .num 1 ∧
    (⟨[ofNat 49, ofNat 3]⟩ : Poly (Fl binary64)).termWithDegree 1 = .term (ofNat 49) 1 ∧ (ofNat 49 : Fl binary64).isFinite = true ∧
    ((⟨[1, 0, div 1 (ofNat 10)]⟩ : Poly (Fl binary64)).divModDrop 4 ⟨[ofNat 49, ofNat 3]⟩).bind
      (fun x => .ok (x.1.terms.length, x.2.terms.length, x.1.terms.all isFinite, x.2.terms.all isFinite)) =
      .ok (2, 1, true, true) := by decide +kernel

-- an infinite dividend returns too, with infinity in the quotient
example : ((⟨[inf false, 1]⟩ : Poly (Fl binary64)).divModDrop 3 ⟨[ofNat 3, 1]⟩).bind
    (fun x => .ok (x.1.terms, x.2.terms.length)) = .ok ([inf false], 1) := by decide +kernel

-- (x^2 + 0.1) / (x - 0.3): both return the same
example : ∃ q r, (⟨[1, 0, div 1 (ofNat 10)]⟩ : Poly (Fl binary64)).divMod 4 ⟨[1, -div (ofNat 3) (ofNat 10)]⟩ = .ok (q, r) ∧
    (⟨[1, 0, div 1 (ofNat 10)]⟩ : Poly (Fl binary64)).divModDrop 4 ⟨[1, -div (ofNat 3) (ofNat 10)]⟩ = .ok (q, r) :=
  ⟨⟨[1, div (ofNat 3) (ofNat 10)]⟩, ⟨[div 1 (ofNat 10) + div (ofNat 3) (ofNat 10) * div (ofNat 3) (ofNat 10)]⟩,
    by decide +kernel⟩

end Fl

end Rustnomial
