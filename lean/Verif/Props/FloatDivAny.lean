import Verif.Props.FloatDiv

/-!
# C70: what division in floating point computes for an arbitrary leading coefficient
-/

set_option linter.unusedSectionVars false

open Polynomial

namespace Rustnomial
namespace Fl

variable {f : FlFmt}

/-- The polynomial `Σ s * x^k` over the rounds `(s, k)` of a division, with `g` applied to each factor. -/
noncomputable def roundSum (g : Fl f → ℚ) (S : List (Fl f × Nat)) : ℚ[X] :=
  (S.map fun x => C (g x.1) * X ^ x.2).sum

theorem roundSum_cons (g : Fl f → ℚ) (x : Fl f × Nat) (S : List (Fl f × Nat)) :
    roundSum g (x :: S) = C (g x.1) * X ^ x.2 + roundSum g S := by
  simp [roundSum]

/-- The factor of the last round at degree `k`, `0` if there is none. -/
def lastRound (S : List (Fl f × Nat)) (k : Nat) : ℚ :=
  ((S.filter fun x => x.2 == k).getLast?.map fun x => x.1.toRat).getD 0

/-- The loop of `div_mod` with any leading coefficient: the rounds it went through. -/
theorem any_loop {b : List (Fl f)} {rf : Fl f} {rd offset : Nat} (hb : firstTerm b = .term rf rd) :
    ∀ (fuel sd : Nat) (c : Fl f) (T : List (Fl f × ℚ × ℚ)) (dv : List (Fl f)) (m : Nat) (dv' rem' : List (Fl f)),
    firstTerm (T.map Prod.fst) = .term c sd → sd ≤ offset → dv.length = offset - rd + 1 →
    (∀ x ∈ T, Bnd m x) →
    Poly.divModLoop b rf rd offset fuel c sd (T.map Prod.fst) dv = .ok (dv', rem') →
    ∃ (S : List (Fl f × Nat)) (T' : List (Fl f × ℚ × ℚ)), rem' = T'.map Prod.fst ∧ S.length ≤ fuel ∧
      (S.map Prod.snd).Pairwise (· ≥ ·) ∧ (∀ x ∈ S, x.1.isFinite = true ∧ x.2 + rd ≤ sd) ∧
      (∀ x ∈ T', Bnd (m + S.length) x) ∧
      dv' = S.foldl (fun l x => l.set (l.length - 1 - x.2) x.1) dv ∧
      descPoly (T'.map fun x => x.2.1) =
        descPoly (T.map fun x => x.2.1) - roundSum toRat S * descPoly (b.map toRat) ∧
      descPoly (T'.map fun x => x.2.2) =
        descPoly (T.map fun x => x.2.2) + roundSum (fun x => |x.toRat|) S * descPoly (b.map fun x => |x.toRat|) := by
  intro fuel
  induction fuel with
  | zero => intro sd c T dv m dv' rem' _ _ _ _ h; cases h
  | succ fuel ih =>
    intro sd c T dv m dv' rem' hr hoff hlen hB h
    by_cases hle : rd ≤ sd
    swap
    · rw [Poly.divModLoop, if_neg hle] at h
      cases h
      exact ⟨[], T, rfl, by simp, by simp, by simp, by simpa using hB, by simp, by simp [roundSum], by simp [roundSum]⟩
    have hcf : (c - rf * div c rf).isFinite = true := by
      by_contra hinf
      obtain ⟨rem', g1, g2⟩ := next_same_degree hb hr hle hoff hlen (by
        generalize c - rf * div c rf = z at hinf
        cases z with
        | fin => exact absurd rfl hinf
        | _ => rfl)
      rw [divModLoop_next g1, nan_loop hb fuel g2 hle hoff (by simpa using hlen) (.inl (by simpa using hinf))] at h
      cases h
    have hsf : (div c rf).isFinite = true := (finite_of_mul (finite_of_sub hcf).2).2
    obtain ⟨T', hfst, hT'B, hS', hA', hunf⟩ := div_round mulInv_Bnd hb (fun _ _ => trivial) hr hle hoff hlen hB
      (s := div c rf) rfl trivial
    rw [hunf] at h
    have hidx : offset - sd = dv.length - 1 - (sd - rd) := by rw [hlen]; omega
    cases hf : firstTerm (T'.map Prod.fst) with
    | zeroTerm =>
      rw [hf] at h
      cases h
      refine ⟨[(div c rf, sd - rd)], T', rfl, by simp, by simp, by simp [hsf]; omega, by simpa using hT'B, ?_, ?_, ?_⟩
      · simp [hidx]
      · rw [hS']; simp [roundSum]
      · rw [hA']; simp [roundSum]
    | term c' d' =>
      rw [hf] at h
      have hd' : d' ≤ sd := by
        obtain ⟨us, u1, u2, _⟩ := firstTerm_term hf
        rw [hfst, take_zeros_append hr] at u1
        obtain ⟨vs, r1, r2, r3, r4, r5⟩ := firstTerm_term hr
        have := (List.dropWhile_suffix (isZero (N := Fl f)) (l := zipMut (fun l r => l - r * div c rf)
          ((T.map Prod.fst).drop ((T.map Prod.fst).length - sd - 1)) (b.drop (b.length - rd - 1)))).length_le
        rw [u1, List.length_cons, length_zipMut, r4, List.length_cons] at this
        omega
      obtain ⟨S, T'', k1, k2, k3, k4, k5, k6, k7, k8⟩ := ih d' c' T' (dv.set (offset - sd) (div c rf)) (m + 1) dv' rem' hf
        (by omega) (by simpa using hlen) hT'B h
      refine ⟨(div c rf, sd - rd) :: S, T'', k1, by simpa using k2, ?_, ?_, ?_, ?_, ?_, ?_⟩
      · simp only [List.map_cons, List.pairwise_cons]
        refine ⟨fun a ha => ?_, k3⟩
        obtain ⟨x, hx, rfl⟩ := List.mem_map.1 ha
        have := (k4 x hx).2
        show x.2 ≤ sd - rd
        omega
      · intro x hx
        rcases List.mem_cons.1 hx with rfl | hx
        · exact ⟨hsf, by simp only; omega⟩
        · exact ⟨(k4 x hx).1, (k4 x hx).2.trans hd'⟩
      · intro x hx
        have := k5 x hx
        rwa [List.length_cons, Nat.add_comm S.length, ← Nat.add_assoc]
      · rw [k6, List.foldl_cons, hidx]
      · rw [k7, hS', roundSum_cons]; ring
      · rw [k8, hA', roundSum_cons]; ring

theorem coeff_set (l : List ℚ) (i : Nat) (c : ℚ) (hi : i < l.length) (k : Nat) :
    (descPoly (l.set (l.length - 1 - i) c)).coeff k = if i = k then c else (descPoly l).coeff k := by
  rw [coeff_descPoly, coeff_descPoly]
  simp only [List.getD_eq_getElem?_getD]
  by_cases hk : k < l.length
  · rw [List.getElem?_reverse (by simpa using hk), List.getElem?_reverse hk, List.length_set, List.getElem?_set]
    by_cases h : i = k
    · subst h
      rw [if_pos rfl, if_pos (by omega), if_pos rfl]
      rfl
    · rw [if_neg (by omega), if_neg h]
  · rw [if_neg (by omega), List.getElem?_eq_none (by simpa using hk), List.getElem?_eq_none (by simpa using hk)]

theorem coeff_rounds : ∀ (S : List (Fl f × Nat)) (dv : List (Fl f)) (k : Nat), (∀ x ∈ S, x.2 < dv.length) →
    (descPoly ((S.foldl (fun l x => l.set (l.length - 1 - x.2) x.1) dv).map toRat)).coeff k =
      ((S.filter fun x => x.2 == k).getLast?.map fun x => x.1.toRat).getD ((descPoly (dv.map toRat)).coeff k)
  | [], dv, k, _ => by simp
  | x :: S, dv, k, h => by
    rw [List.foldl_cons, coeff_rounds S _ k (fun y hy => by simpa using h y (List.mem_cons_of_mem _ hy)),
      List.map_set]
    have := coeff_set (dv.map toRat) x.2 x.1.toRat (by simpa using h x (List.mem_cons_self)) k
    rw [List.length_map] at this
    rw [this, List.filter_cons]
    by_cases hx : x.2 = k
    · simp only [hx, if_true, beq_self_eq_true, List.getLast?_cons]
      cases (S.filter fun x => x.2 == k).getLast? <;> rfl
    · simp [hx]

theorem coeff_roundSum (g : Fl f → ℚ) : ∀ (S : List (Fl f × Nat)), (S.map Prod.snd).Nodup → ∀ k,
    (roundSum g S).coeff k = ((S.filter fun x => x.2 == k).getLast?.map fun x => g x.1).getD 0
  | [], _, k => by simp [roundSum]
  | x :: S, h, k => by
    rw [List.map_cons, List.nodup_cons] at h
    rw [roundSum_cons, coeff_add, coeff_roundSum g S h.2 k, coeff_C_mul_X_pow, List.filter_cons]
    by_cases hx : x.2 = k
    · have h0 : S.filter (fun y => y.2 == k) = [] := by
        rw [List.filter_eq_nil_iff]
        intro y hy e
        exact h.1 (List.mem_map.2 ⟨y, hy, by rw [hx]; simpa using e⟩)
      simp [hx, h0]
    · have : ¬ k = x.2 := fun e => hx e.symm
      simp [hx, this]

/-- C70: what `div_mod` computes whenever it returns, whatever the leading coefficient: it went through at most `fuel`
rounds `(s, k)`, in each of which `s * x^k * b` was subtracted, with finite `s` and degrees `k` that never increase.
The remainder, if it is finite, is the dividend minus all of these, up to rounding; the quotient has at each degree the
factor of the last round only, so that it is the sum of the rounds if no degree occurs twice. -/
theorem C70_rounds (p b q r : Poly (Fl f)) (fuel : Nat) (h : p.divMod fuel b = .ok (q, r)) :
    ∃ S : List (Fl f × Nat), S.length ≤ fuel ∧ (S.map Prod.snd).Pairwise (· ≥ ·) ∧ (∀ x ∈ S, x.1.isFinite = true) ∧
      (∀ k, (descPoly (q.terms.map toRat)).coeff k = lastRound S k) ∧
      ((S.map Prod.snd).Nodup → descPoly (q.terms.map toRat) = roundSum toRat S) ∧
      ((∀ c ∈ r.terms, c.isFinite = true) → ∀ k,
        |(descPoly (r.terms.map toRat) - (descPoly (p.terms.map toRat) -
            roundSum toRat S * descPoly (b.terms.map toRat))).coeff k| ≤
          ((1 + uro f) ^ (S.length + 1) - 1) * (descPoly (p.terms.map fun c => |c.toRat|) +
            roundSum (fun c => |c.toRat|) S * descPoly (b.terms.map fun c => |c.toRat|)).coeff k +
          S.length * (1 + uro f) ^ S.length * eta f) := by
  have hu := uro_nonneg (f := f)
  have hη := eta_nonneg (f := f)
  have hnn : ∀ k, 0 ≤ (descPoly (p.terms.map fun c => |c.toRat|)).coeff k := by
    intro k
    rcases coeff_cases p.terms k with ⟨x, _, e⟩ | e
    · rw [e]; exact abs_nonneg _
    · rw [e]
  have trivial_case : q = Poly.zero → r = p → ∃ S : List (Fl f × Nat), S.length ≤ fuel ∧
      (S.map Prod.snd).Pairwise (· ≥ ·) ∧ (∀ x ∈ S, x.1.isFinite = true) ∧
      (∀ k, (descPoly (q.terms.map toRat)).coeff k = lastRound S k) ∧
      ((S.map Prod.snd).Nodup → descPoly (q.terms.map toRat) = roundSum toRat S) ∧
      ((∀ c ∈ r.terms, c.isFinite = true) → ∀ k,
        |(descPoly (r.terms.map toRat) - (descPoly (p.terms.map toRat) -
            roundSum toRat S * descPoly (b.terms.map toRat))).coeff k| ≤
          ((1 + uro f) ^ (S.length + 1) - 1) * (descPoly (p.terms.map fun c => |c.toRat|) +
            roundSum (fun c => |c.toRat|) S * descPoly (b.terms.map fun c => |c.toRat|)).coeff k +
          S.length * (1 + uro f) ^ S.length * eta f) := by
    rintro rfl rfl
    refine ⟨[], by simp, by simp, by simp, fun k => by simp [Poly.zero, lastRound],
      fun _ => by simp [Poly.zero, roundSum], fun _ k => ?_⟩
    simp only [roundSum, List.map_nil, List.sum_nil, zero_mul, sub_zero, sub_self, coeff_zero, abs_zero, add_zero,
      List.length_nil, zero_add, pow_one, Nat.cast_zero, add_sub_cancel_left]
    exact mul_nonneg hu (hnn k)
  unfold Poly.divMod at h
  cases hbf : firstTerm b.terms with
  | zeroTerm => simp [hbf] at h
  | term rf rd =>
    rw [hbf] at h
    cases hpf : firstTerm p.terms with
    | zeroTerm =>
      simp only [hpf] at h
      cases h
      exact trivial_case rfl rfl
    | term c d =>
      simp only [hpf] at h
      by_cases hlt : d < rd
      · rw [if_pos hlt] at h
        cases h
        exact trivial_case rfl rfl
      rw [if_neg hlt] at h
      have hfst : (p.terms.map fun c => (c, c.toRat, |c.toRat|)).map Prod.fst = p.terms := by
        rw [List.map_map]; exact List.map_id _
      cases hl : Poly.divModLoop b.terms rf rd d fuel c d p.terms (List.replicate (d - rd + 1) 0) with
      | panic => rw [hl] at h; cases h
      | fuel => rw [hl] at h; cases h
      | ok x =>
        obtain ⟨dv', rem'⟩ := x
        rw [hl] at h
        cases h
        obtain ⟨S, T', k1, k2, k3, k4, k5, k6, k7, k8⟩ := any_loop hbf fuel d c
          (p.terms.map fun c => (c, c.toRat, |c.toRat|)) (List.replicate (d - rd + 1) 0) 0 dv' rem'
          (by rw [hfst]; exact hpf) le_rfl (by simp)
          (by
            intro x hx
            obtain ⟨y, _, rfl⟩ := List.mem_map.1 hx
            refine ⟨le_rfl, fun _ => ?_⟩
            simp only [sub_self, abs_zero, Nat.cast_zero, zero_mul, add_zero, pow_one, zero_add]
            have := abs_nonneg y.toRat
            nlinarith)
          (by rw [hfst]; exact hl)
        have hq : ∀ k, (descPoly ((Poly.new dv').terms.map toRat)).coeff k = lastRound S k := by
          intro k
          rw [new_terms, descPoly_dropWhile_toRat _ toRat_fin_zero, k6, coeff_rounds S _ k]
          · rw [lastRound, List.map_replicate, toRat_zero]
            simp
          · intro x hx
            have := (k4 x hx).2
            simp only [List.length_replicate]
            omega
        refine ⟨S, k2, k3, fun x hx => (k4 x hx).1, hq, fun hnd => ?_, fun hfin k => ?_⟩
        · ext k
          rw [hq, coeff_roundSum toRat S hnd]
          rfl
        · rw [new_terms] at hfin ⊢
          rw [descPoly_dropWhile_toRat _ toRat_fin_zero]
          rw [List.map_map] at k7 k8
          change _ = descPoly (p.terms.map toRat) - _ at k7
          change _ = descPoly (p.terms.map fun c => |c.toRat|) + _ at k8
          rw [← k7, ← k8, coeff_sub, k1, List.map_map]
          rcases coeff_cases T' k with ⟨x, hx, e'⟩ | e'
          · rw [e', e', e']
            have hb := k5 x hx
            rw [zero_add] at hb
            exact hb.2 (finite_of_dropWhile hfin _ (by rw [k1]; exact List.mem_map_of_mem hx))
          · rw [e', e', e']
            simp only [sub_self, abs_zero, mul_zero, zero_add]
            positivity

example : (⟨[1, 0, 0]⟩ : Poly (Fl binary64)).divMod 4 ⟨[ofNat 3, 1]⟩ =
    .ok (⟨[div 1 (ofNat 3), -div (div 1 (ofNat 3)) (ofNat 3)]⟩, ⟨[div (div 1 (ofNat 3)) (ofNat 3)]⟩) := by
  decide +kernel
-- `7 / 25` goes through two rounds at degree 0, of which the quotient keeps the second
example : (⟨[ofNat 7]⟩ : Poly (Fl binary64)).divMod 3 ⟨[ofNat 25]⟩ =
    .ok (⟨[div (ofNat 7 - ofNat 25 * div (ofNat 7) (ofNat 25)) (ofNat 25)]⟩, ⟨[]⟩) := by decide +kernel
example : lastRound [((ofNat 7 : Fl binary64), 1), (ofNat 3, 0), (ofNat 5, 0)] 0 = 5 := by decide +kernel

end Fl
end Rustnomial
