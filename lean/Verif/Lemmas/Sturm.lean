import Mathlib.Algebra.Polynomial.Roots
import Mathlib.Algebra.Polynomial.Derivative
import Mathlib.Algebra.Polynomial.RingDivision
import Mathlib.Analysis.Polynomial.Basic
import Mathlib.Topology.Algebra.Polynomial
import Mathlib.Topology.Order.IntermediateValue
import Mathlib.Topology.Connected.TotallyDisconnected

/-!
# Sturm's theorem
-/

open Polynomial Filter Topology

set_option linter.unusedSectionVars false

namespace Rustnomial

/-- Sign changes of a list of numbers, not counting zeros. -/
noncomputable def vch : Option Bool → List ℝ → Nat
  | _, [] => 0
  | last, v :: vs =>
    if v = 0 then vch last vs else (if last = some (!decide (0 < v)) then 1 else 0) + vch (some (decide (0 < v))) vs

theorem vch_zero (last : Option Bool) {v : ℝ} (vs : List ℝ) (h : v = 0) : vch last (v :: vs) = vch last vs := by
  rw [vch, if_pos h]

theorem vch_ne (last : Option Bool) {v : ℝ} (vs : List ℝ) (h : v ≠ 0) :
    vch last (v :: vs) = (if last = some (!decide (0 < v)) then 1 else 0) + vch (some (decide (0 < v))) vs := by
  rw [vch, if_neg h]

/-- Consecutive members behave as in a Sturm sequence: the last one has no zero, and at a zero of an inner one its neighbours have opposite signs. -/
def SturmLike : List ℝ[X] → Prop
  | [] => True
  | [p] => ∀ x, p.eval x ≠ 0
  | [_, q] => ∀ x, q.eval x ≠ 0
  | p :: q :: r :: rest => (∀ x, q.eval x = 0 → p.eval x * r.eval x < 0) ∧ SturmLike (q :: r :: rest)

/-- `x` is so near to `c` that signs are as at `c`, unless zero there. -/
def NearTo (L : List ℝ[X]) (c x : ℝ) : Prop := ∀ q ∈ L, q.eval x ≠ 0 ∧ (q.eval c ≠ 0 → (0 < q.eval x ↔ 0 < q.eval c))

theorem SturmLike.tail {p q : ℝ[X]} {rest : List ℝ[X]} (h : SturmLike (p :: q :: rest)) : SturmLike (q :: rest) := by
  cases rest with
  | nil => exact h
  | cons r rest => exact h.2

theorem vch_near : ∀ (L : List ℝ[X]) (_ : SturmLike L) (c x : ℝ) (_ : NearTo L c x) (_ : ∀ p ∈ L.head?, p.eval c ≠ 0) (last : Option Bool),
    vch last (L.map (eval x)) = vch last (L.map (eval c))
  | [], _, _, _, _, _, _ => rfl
  | [p], hL, c, x, hx, _, last => by
    have h1 := hx p (by simp)
    have h2 : decide (0 < p.eval x) = decide (0 < p.eval c) := by simpa using h1.2 (hL c)
    simp only [List.map_cons, List.map_nil]
    rw [vch_ne _ _ h1.1, vch_ne _ _ (hL c), h2]
  | p :: q :: rest, hL, c, x, hx, hc, last => by
    have hpc : p.eval c ≠ 0 := hc p (by simp)
    have h1 := hx p (by simp)
    have h2 : decide (0 < p.eval x) = decide (0 < p.eval c) := by simpa using h1.2 hpc
    simp only [List.map_cons]
    rw [vch_ne _ _ h1.1, vch_ne _ _ hpc, h2]
    congr 1
    by_cases hq : q.eval c = 0
    · match rest, hL, hx with
      | [], hL, hx => exact absurd hq (hL c)
      | r :: rest, hL, hx =>
        have hpr := hL.1 c hq
        have hrc : r.eval c ≠ 0 := fun h => by rw [h, mul_zero] at hpr; exact lt_irrefl _ hpr
        have ih := vch_near (r :: rest) hL.2.tail c x (fun s hs => hx s (by simp at hs ⊢; tauto)) (by simpa using hrc)
          (some (decide (0 < r.eval c)))
        have hqx := (hx q (by simp)).1
        have hrx := hx r (by simp)
        have h3 : decide (0 < r.eval x) = decide (0 < r.eval c) := by simpa using hrx.2 hrc
        simp only [List.map_cons] at ih ⊢
        rw [vch_ne _ _ hrx.1, vch_ne _ _ hrc, h3] at ih
        rw [vch_ne _ _ hqx, vch_ne _ _ hrx.1, vch_zero _ _ hq, vch_ne _ _ hrc, h3]
        have hopp : decide (0 < r.eval c) = !decide (0 < p.eval c) := by
          rcases lt_or_gt_of_ne hpc with h | h
          · have : 0 < r.eval c := by nlinarith
            simp [this, not_lt.2 h.le]
          · have : r.eval c < 0 := by nlinarith
            simp [h, not_lt.2 this.le]
        rw [hopp] at ih ⊢
        have ih' := Nat.add_left_cancel ih
        rw [ih']
        generalize decide (0 < p.eval c) = s
        generalize decide (0 < q.eval x) = t
        cases s <;> cases t <;> simp
    · have := vch_near (q :: rest) hL.tail c x (fun s hs => hx s (by simp at hs ⊢; tauto)) (by simpa using hq) (some (decide (0 < p.eval c)))
      simpa only [List.map_cons] using this
termination_by L => L.length

theorem eventually_near (L : List ℝ[X]) (hL : ∀ q ∈ L, q ≠ 0) (c : ℝ) : ∀ᶠ x in 𝓝[≠] c, NearTo L c x := by
  have : ∀ q ∈ {q | q ∈ L}, ∀ᶠ x in 𝓝[≠] c, q.eval x ≠ 0 ∧ (q.eval c ≠ 0 → (0 < q.eval x ↔ 0 < q.eval c)) := by
    intro q hq
    refine Eventually.and ?_ ?_
    · have hfin : (q.rootSet ℝ).Finite := q.rootSet_finite ℝ
      have hcl : IsClosed ((q.rootSet ℝ) \ {c}) := (hfin.subset Set.sdiff_subset).isClosed
      have hn : ((q.rootSet ℝ) \ {c})ᶜ ∈ 𝓝 c := hcl.isOpen_compl.mem_nhds (by simp)
      filter_upwards [mem_nhdsWithin_of_mem_nhds hn, self_mem_nhdsWithin] with x hx hxc h0
      refine hx ⟨?_, hxc⟩
      rw [mem_rootSet]
      exact ⟨hL q hq, by simpa using h0⟩
    · by_cases h0 : q.eval c = 0
      · exact Eventually.of_forall fun x h => absurd h0 h
      · refine eventually_nhdsWithin_of_eventually_nhds ?_
        have hct : ContinuousAt (fun x => q.eval x) c := q.continuous.continuousAt
        rcases lt_or_gt_of_ne h0 with h | h
        · filter_upwards [hct.eventually_lt continuousAt_const h] with x hx _
          exact ⟨fun h' => absurd hx (not_lt.2 h'.le), fun h' => absurd h (not_lt.2 h'.le)⟩
        · filter_upwards [continuousAt_const.eventually_lt hct h] with x hx _
          exact ⟨fun _ => h, fun _ => hx⟩
  exact (eventually_all_finite (List.finite_toSet L)).2 this

/-- Sturm's theorem for sequences with the properties above. -/
theorem sturm_like {p q : ℝ[X]} {rest : List ℝ[X]} (hL : SturmLike (p :: q :: rest)) (hne : ∀ s ∈ p :: q :: rest, s ≠ 0)
    (hroot : ∀ c, p.eval c = 0 → q.eval c ≠ 0 ∧ (∀ᶠ x in 𝓝[<] c, p.eval x * q.eval x < 0) ∧ (∀ᶠ x in 𝓝[>] c, 0 < p.eval x * q.eval x))
    (n : Nat) : ∀ (a b : ℝ) (_ : a < b) (_ : p.eval a ≠ 0) (_ : p.eval b ≠ 0)
      (_ : (p.roots.toFinset.filter fun z => a < z ∧ z < b).card = n),
      vch none ((p :: q :: rest).map (eval a)) = vch none ((p :: q :: rest).map (eval b)) + n := by
  have hp0 : p ≠ 0 := hne p (by simp)
  have hmem : ∀ a b z, z ∈ (p.roots.toFinset.filter fun z => a < z ∧ z < b) ↔ p.eval z = 0 ∧ a < z ∧ z < b := by
    intro a b z
    simp [hp0]
  -- constant where there is no root
  have hconst : ∀ a b, a ≤ b → (∀ z ∈ Set.Icc a b, p.eval z ≠ 0) →
      vch none ((p :: q :: rest).map (eval a)) = vch none ((p :: q :: rest).map (eval b)) := by
    intro a b hab hz
    have hcont : ContinuousOn (fun x => vch none ((p :: q :: rest).map (eval x))) (Set.Icc a b) := by
      intro c hc
      refine ContinuousAt.continuousWithinAt ?_
      have hev : ∀ᶠ x in 𝓝 c, vch none ((p :: q :: rest).map (eval x)) = vch none ((p :: q :: rest).map (eval c)) := by
        have := eventually_near _ hne c
        rw [eventually_nhdsWithin_iff] at this
        filter_upwards [this] with x hx
        by_cases hxc : x = c
        · rw [hxc]
        · exact vch_near _ hL c x (hx hxc) (by simpa using hz c hc) none
      exact (continuousAt_const (y := vch none ((p :: q :: rest).map (eval c)))).congr (by
        filter_upwards [hev] with x hx; exact hx.symm)
    exact isPreconnected_Icc.constant hcont (Set.left_mem_Icc.2 hab) (Set.right_mem_Icc.2 hab)
  induction n with
  | zero =>
    intro a b hab ha hb hcard
    rw [Nat.add_zero]
    refine hconst a b hab.le fun z hz h0 => ?_
    have : z ∈ (p.roots.toFinset.filter fun z => a < z ∧ z < b) := by
      rw [hmem]
      refine ⟨h0, lt_of_le_of_ne hz.1 ?_, lt_of_le_of_ne hz.2 ?_⟩
      · rintro rfl; exact ha h0
      · rintro rfl; exact hb h0
    rw [Finset.card_eq_zero.1 hcard] at this
    simp at this
  | succ n ih =>
    intro a b hab ha hb hcard
    have hnon : (p.roots.toFinset.filter fun z => a < z ∧ z < b).Nonempty := Finset.card_pos.1 (by omega)
    obtain ⟨c, hcm, hmin⟩ := Finset.exists_min_image _ id hnon
    obtain ⟨hc0, hac, hcb⟩ := (hmem a b c).1 hcm
    obtain ⟨hqc, hleft, hright⟩ := hroot c hc0
    have hnear := eventually_near _ hne c
    have hval : ∀ x, NearTo (p :: q :: rest) c x → vch none ((p :: q :: rest).map (eval x)) =
        (if p.eval x * q.eval x < 0 then 1 else 0) + vch none ((q :: rest).map (eval c)) := by
      intro x hx
      have h1 := (hx p (by simp)).1
      have h2 := (hx q (by simp)).1
      have h3 := vch_near (q :: rest) hL.tail c x (fun s hs => hx s (by simp at hs ⊢; tauto)) (by simpa using hqc) none
      rw [← h3]
      simp only [List.map_cons]
      rw [vch_ne _ _ h1, vch_ne _ _ h2, vch_ne _ _ h2]
      rcases lt_or_gt_of_ne h1 with k1 | k1 <;> rcases lt_or_gt_of_ne h2 with k2 | k2
      · simp [not_lt.2 k1.le, not_lt.2 k2.le, not_lt.2 (mul_pos_of_neg_of_neg k1 k2).le]
      · simp [not_lt.2 k1.le, k2, mul_neg_of_neg_of_pos k1 k2]
      · simp [k1, not_lt.2 k2.le, mul_neg_of_pos_of_neg k1 k2]
      · simp [k1, k2, not_lt.2 (mul_pos k1 k2).le]
    have hnl : ∀ᶠ x in 𝓝[<] c, NearTo (p :: q :: rest) c x := nhdsWithin_mono c (fun x hx => ne_of_lt hx) hnear
    have hnr : ∀ᶠ x in 𝓝[>] c, NearTo (p :: q :: rest) c x := nhdsWithin_mono c (fun x hx => ne_of_gt hx) hnear
    -- a point on the left
    have hl : ∀ᶠ x in 𝓝[<] c, p.eval x * q.eval x < 0 ∧ NearTo (p :: q :: rest) c x ∧ a < x ∧ x < c := by
      refine hleft.and (hnl.and (Eventually.and ?_ self_mem_nhdsWithin))
      exact eventually_nhdsWithin_of_eventually_nhds (eventually_gt_nhds hac)
    obtain ⟨x, hx1, hx2, hx3, hx4⟩ := hl.exists
    -- a point on the right
    have hfar : ∀ᶠ y in 𝓝 c, ∀ z ∈ (p.roots.toFinset.filter fun z => a < z ∧ z < b).erase c, y < z := by
      rw [Finset.eventually_all]
      intro z hz
      have hz' := Finset.mem_erase.1 hz
      have : c < z := lt_of_le_of_ne (hmin z hz'.2) (Ne.symm hz'.1)
      exact eventually_lt_nhds this
    have hr : ∀ᶠ y in 𝓝[>] c, 0 < p.eval y * q.eval y ∧ NearTo (p :: q :: rest) c y ∧
        (∀ z ∈ (p.roots.toFinset.filter fun z => a < z ∧ z < b).erase c, y < z) ∧ y < b ∧ c < y := by
      refine hright.and (hnr.and
        ((eventually_nhdsWithin_of_eventually_nhds hfar).and (Eventually.and ?_ self_mem_nhdsWithin)))
      exact eventually_nhdsWithin_of_eventually_nhds (eventually_lt_nhds hcb)
    obtain ⟨y, hy1, hy2, hy3, hy4, hy5⟩ := hr.exists
    have e1 := hconst a x hx3.le (fun z hz h0 => by
      rcases eq_or_lt_of_le hz.1 with h | h
      · rw [← h] at h0; exact ha h0
      · have := hmin z ((hmem a b z).2 ⟨h0, h, by linarith [hz.2]⟩)
        simp only [id] at this
        linarith [hz.2])
    have e2 := ih y b hy4 (hy2 p (by simp)).1 hb (by
      rw [show (p.roots.toFinset.filter fun z => y < z ∧ z < b) = (p.roots.toFinset.filter fun z => a < z ∧ z < b).erase c by
        ext z
        rw [Finset.mem_erase, hmem, hmem]
        constructor
        · rintro ⟨k1, k2, k3⟩
          exact ⟨by rintro rfl; linarith, k1, by linarith, k3⟩
        · rintro ⟨k1, k2, k3, k4⟩
          exact ⟨k2, hy3 z (Finset.mem_erase.2 ⟨k1, (hmem a b z).2 ⟨k2, k3, k4⟩⟩), k4⟩, Finset.card_erase_of_mem hcm, hcard]
      rfl)
    rw [e1, hval x hx2, if_pos hx1]
    rw [hval y hy2, if_neg (not_lt.2 hy1.le)] at e2
    omega

/-- The same for any end points: the roots in the interval without the left and with the right end. -/
theorem sturm_like_ends {p q : ℝ[X]} {rest : List ℝ[X]} (hL : SturmLike (p :: q :: rest)) (hne : ∀ s ∈ p :: q :: rest, s ≠ 0)
    (hroot : ∀ c, p.eval c = 0 → q.eval c ≠ 0 ∧ (∀ᶠ x in 𝓝[<] c, p.eval x * q.eval x < 0) ∧ (∀ᶠ x in 𝓝[>] c, 0 < p.eval x * q.eval x))
    {a b : ℝ} (hab : a < b) :
    vch none ((p :: q :: rest).map (eval a)) =
      vch none ((p :: q :: rest).map (eval b)) + (p.roots.toFinset.filter fun z => a < z ∧ z ≤ b).card := by
  have hp0 : p ≠ 0 := hne p (by simp)
  -- a point just right of `c` with the same value
  have hright : ∀ c d, c < d → ∃ y, c < y ∧ y < d ∧ p.eval y ≠ 0 ∧ (∀ z, p.eval z = 0 → c < z → y < z) ∧
      vch none ((p :: q :: rest).map (eval y)) = vch none ((p :: q :: rest).map (eval c)) := by
    intro c d hcd
    have hfar : ∀ᶠ y in 𝓝 c, ∀ z ∈ p.roots.toFinset.filter fun z => c < z, y < z := by
      rw [Finset.eventually_all]
      intro z hz
      exact eventually_lt_nhds (Finset.mem_filter.1 hz).2
    have hnr : ∀ᶠ x in 𝓝[>] c, NearTo (p :: q :: rest) c x :=
      nhdsWithin_mono c (fun x hx => ne_of_gt hx) (eventually_near _ hne c)
    have hs : ∀ᶠ x in 𝓝[>] c, p.eval c = 0 → 0 < p.eval x * q.eval x := by
      by_cases h0 : p.eval c = 0
      · filter_upwards [(hroot c h0).2.2] with x hx _ using hx
      · exact Eventually.of_forall fun x h => absurd h h0
    have hr : ∀ᶠ y in 𝓝[>] c, (p.eval c = 0 → 0 < p.eval y * q.eval y) ∧ NearTo (p :: q :: rest) c y ∧
        (∀ z ∈ p.roots.toFinset.filter fun z => c < z, y < z) ∧ y < d ∧ c < y := by
      refine hs.and (hnr.and ((eventually_nhdsWithin_of_eventually_nhds hfar).and (Eventually.and ?_ self_mem_nhdsWithin)))
      exact eventually_nhdsWithin_of_eventually_nhds (eventually_lt_nhds hcd)
    obtain ⟨y, hy1, hy2, hy3, hy4, hy5⟩ := hr.exists
    refine ⟨y, hy5, hy4, (hy2 p (by simp)).1, fun z hz hcz => hy3 z (by simp [hp0, hz, hcz]), ?_⟩
    by_cases h0 : p.eval c = 0
    · have h1 := (hy2 p (by simp)).1
      have h2 := (hy2 q (by simp)).1
      have h3 := vch_near (q :: rest) hL.tail c y (fun s hs => hy2 s (by simp at hs ⊢; tauto)) (by simpa using (hroot c h0).1) none
      simp only [List.map_cons] at h3 ⊢
      rw [vch_zero _ _ h0, ← h3, vch_ne _ _ h1, vch_ne _ _ h2, vch_ne _ _ h2]
      have hpos := hy1 h0
      rcases lt_or_gt_of_ne h1 with k1 | k1
      · have k2 : q.eval y < 0 := by nlinarith
        simp [not_lt.2 k1.le, not_lt.2 k2.le]
      · have k2 : 0 < q.eval y := by nlinarith
        simp [k1, k2]
    · exact vch_near _ hL c y hy2 (by simpa using h0) none
  obtain ⟨a', h1, h2, h3, h4, h5⟩ := hright a b hab
  obtain ⟨b', k1, -, k3, k4, k5⟩ := hright b (b + 1) (by linarith)
  rw [← h5, ← k5, sturm_like hL hne hroot _ a' b' (by linarith) h3 k3 rfl]
  congr 2
  ext z
  simp only [Finset.mem_filter, Multiset.mem_toFinset, mem_roots', IsRoot]
  constructor
  · rintro ⟨⟨m1, m2⟩, m3, m4⟩
    exact ⟨⟨m1, m2⟩, by linarith, not_lt.1 fun h => absurd (k4 z m2 h) (not_lt.2 m4.le)⟩
  · rintro ⟨⟨m1, m2⟩, m3, m4⟩
    exact ⟨⟨m1, m2⟩, h4 z m2 m3, by linarith⟩

/-- Near a root, a polynomial and its derivative have opposite signs on the left and the same sign on the right. -/
theorem mul_derivative_sign {p : ℝ[X]} (hp : p ≠ 0) {c : ℝ} (hc : p.eval c = 0) :
    (∀ᶠ x in 𝓝[<] c, p.eval x * (derivative p).eval x < 0) ∧ (∀ᶠ x in 𝓝[>] c, 0 < p.eval x * (derivative p).eval x) := by
  obtain ⟨h, hh, hnd⟩ := exists_eq_pow_rootMultiplicity_mul_and_not_dvd p hp c
  have hk : 0 < p.rootMultiplicity c := (rootMultiplicity_pos hp).2 hc
  obtain ⟨k, hk⟩ := Nat.exists_eq_succ_of_ne_zero hk.ne'
  rw [hk] at hh
  have hhc : h.eval c ≠ 0 := fun h0 => hnd (dvd_iff_isRoot.2 h0)
  have hval : ∀ x, p.eval x * (derivative p).eval x =
      (x - c) ^ (2 * k + 1) * (h.eval x * ((k + 1) * h.eval x + (x - c) * (derivative h).eval x)) := by
    intro x
    rw [hh]
    simp only [derivative_mul, derivative_X_sub_C_pow, eval_mul, eval_pow, eval_sub, eval_X, eval_C, eval_add, Nat.succ_eq_add_one,
      Nat.add_sub_cancel, Nat.cast_add, Nat.cast_one]
    ring
  have hpos : ∀ᶠ x in 𝓝 c, 0 < h.eval x * ((k + 1) * h.eval x + (x - c) * (derivative h).eval x) := by
    have hct : ContinuousAt (fun x => h.eval x * ((k + 1) * h.eval x + (x - c) * (derivative h).eval x)) c := by
      have h1 := h.continuous
      have h2 := (derivative h).continuous
      fun_prop
    refine continuousAt_const.eventually_lt hct ?_
    have : 0 < h.eval c * h.eval c := mul_self_pos.2 hhc
    have hk0 : (0 : ℝ) ≤ k := Nat.cast_nonneg k
    nlinarith
  have hodd : Odd (2 * k + 1) := ⟨k, rfl⟩
  constructor
  · filter_upwards [eventually_nhdsWithin_of_eventually_nhds hpos, self_mem_nhdsWithin] with x h1 h2
    rw [hval]
    exact mul_neg_of_neg_of_pos (hodd.pow_neg (sub_neg.2 h2)) h1
  · filter_upwards [eventually_nhdsWithin_of_eventually_nhds hpos, self_mem_nhdsWithin] with x h1 h2
    rw [hval]
    exact mul_pos (pow_pos (sub_pos.2 h2) _) h1

/-- The sequence of negated remainders. -/
def RemSeq : List ℝ[X] → Prop
  | [] => False
  | [_] => True
  | [p, q] => q ∣ p
  | p :: q :: r :: rest => (∃ m, p = m * q - r) ∧ RemSeq (q :: r :: rest)

theorem remSeq_quotients : ∀ (L : List ℝ[X]) (_ : RemSeq L) (_ : ∀ p ∈ L, p ≠ 0), ∃ g Q, g ≠ 0 ∧ L = Q.map (g * ·) ∧ SturmLike Q ∧
    (∀ q ∈ Q, q ≠ 0) ∧ (∀ p q rest, Q = p :: q :: rest → ∀ x, p.eval x = 0 → q.eval x ≠ 0)
  | [], h, _ => h.elim
  | [g], _, hne => ⟨g, [1], hne g (by simp), by simp, fun x => by simp, by simp, by simp⟩
  | [p, q], ⟨k, hk⟩, hne => by
    refine ⟨q, [k, 1], hne q (by simp), by simp [hk], fun x => by simp, ?_, ?_⟩
    · have : k ≠ 0 := by rintro rfl; exact hne p (by simp) (by rw [hk, mul_zero])
      simpa using this
    · rintro p' q' rest ⟨⟩ x _
      simp
  | p :: q :: r :: rest, ⟨⟨m, hm⟩, hL⟩, hne => by
    obtain ⟨g, Q, hg, hQ, hS, hn, hadj⟩ := remSeq_quotients (q :: r :: rest) hL (fun s hs => hne s (List.mem_cons_of_mem _ hs))
    match Q, hQ, hS, hn, hadj with
    | [], hQ, _, _, _ => simp at hQ
    | [_], hQ, _, _, _ => simp at hQ
    | q' :: r' :: rest', hQ, hS, hn, hadj =>
      simp only [List.map_cons, List.cons.injEq] at hQ
      obtain ⟨h1, h2, h3⟩ := hQ
      have hp : p = g * (m * q' - r') := by rw [hm, h1, h2]; ring
      refine ⟨g, (m * q' - r') :: q' :: r' :: rest', hg, by simp only [List.map_cons]; rw [← hp, ← h1, ← h2, ← h3], ⟨fun x hx => ?_, hS⟩, ?_, ?_⟩
      · have := hadj q' r' rest' rfl x hx
        rw [eval_sub, eval_mul, hx, mul_zero, zero_sub, neg_mul]
        exact neg_neg_of_pos (mul_self_pos.2 this)
      · intro s hs
        rcases List.mem_cons.1 hs with rfl | hs
        · intro h0; exact hne p (by simp) (by rw [hp, h0, mul_zero])
        · exact hn s hs
      · rintro p1 q1 rest1 ⟨⟩ x hx hqx
        refine hadj q' r' rest' rfl x hqx ?_
        rw [eval_sub, eval_mul, hqx, mul_zero, zero_sub, neg_eq_zero] at hx
        exact hx

theorem vch_mul {c : ℝ} (hc : c ≠ 0) : ∀ (vs : List ℝ) (last : Option Bool),
    vch (last.map (fun s => if 0 < c then s else !s)) (vs.map (c * ·)) = vch last vs
  | [], last => rfl
  | v :: vs, last => by
    simp only [List.map_cons]
    by_cases hv : v = 0
    · rw [vch_zero _ _ hv, vch_zero _ _ (by rw [hv, mul_zero]), vch_mul hc vs last]
    · rw [vch_ne _ _ hv, vch_ne _ _ (mul_ne_zero hc hv), ← vch_mul hc vs (some (decide (0 < v)))]
      have hs : decide (0 < c * v) = if 0 < c then decide (0 < v) else !decide (0 < v) := by
        rcases lt_or_gt_of_ne hc with h | h <;> rcases lt_or_gt_of_ne hv with k | k
        · simp [not_lt.2 h.le, not_lt.2 k.le, mul_pos_of_neg_of_neg h k]
        · simp [not_lt.2 h.le, k, not_lt.2 (mul_neg_of_neg_of_pos h k).le]
        · simp [h, not_lt.2 k.le, not_lt.2 (mul_neg_of_pos_of_neg h k).le]
        · simp [h, k]
      rw [hs]
      congr 1
      by_cases h : 0 < c
      · simp [h]
      · cases last with
        | none => simp
        | some s => simp only [h, if_false, Option.map_some]; generalize decide (0 < v) = t; cases s <;> cases t <;> rfl

/-- Sturm's theorem, with multiple roots allowed. -/
theorem sturm_remSeq {p : ℝ[X]} {rest : List ℝ[X]} (hL : RemSeq (p :: derivative p :: rest)) (hne : ∀ s ∈ p :: derivative p :: rest, s ≠ 0)
    {a b : ℝ} (hab : a < b) (ha : p.eval a = 0 → (derivative p).eval a ≠ 0) (hb : p.eval b = 0 → (derivative p).eval b ≠ 0) :
    vch none ((p :: derivative p :: rest).map (eval a)) = vch none ((p :: derivative p :: rest).map (eval b)) +
      (p.roots.toFinset.filter fun z => a < z ∧ z ≤ b).card := by
  obtain ⟨g, Q, hg, hQ, hS, hn, hadj⟩ := remSeq_quotients _ hL hne
  match Q, hQ, hS, hn, hadj with
  | [], hQ, _, _, _ => simp at hQ
  | [_], hQ, _, _, _ => simp at hQ
  | p' :: q' :: rest', hQ, hS, hn, hadj =>
    have hQ' := hQ
    simp only [List.map_cons, List.cons.injEq] at hQ'
    obtain ⟨h1, h2, -⟩ := hQ'
    have hp0 : p ≠ 0 := hne p (by simp)
    have hv : ∀ x, (p.eval x = 0 → (derivative p).eval x ≠ 0) → vch none ((p :: derivative p :: rest).map (eval x)) = vch none ((p' :: q' :: rest').map (eval x)) := by
      intro x hx
      have hgx : g.eval x ≠ 0 := fun h0 => hx (by rw [h1, eval_mul, h0, zero_mul]) (by rw [h2, eval_mul, h0, zero_mul])
      rw [hQ, ← vch_mul hgx ((p' :: q' :: rest').map (eval x)) none]
      simp [Function.comp_def]
    have hroots : ∀ z, p.eval z = 0 ↔ p'.eval z = 0 := by
      intro z
      refine ⟨fun hz => ?_, fun hz => by rw [h1, eval_mul, hz, mul_zero]⟩
      -- near z, p p' has a sign change, g² none
      by_contra hne'
      obtain ⟨hl, hr⟩ := mul_derivative_sign hp0 hz
      have hmul : p.rootMultiplicity z = g.rootMultiplicity z := by
        conv_lhs => rw [h1]
        rw [rootMultiplicity_mul (h1 ▸ hp0), rootMultiplicity_eq_zero hne', add_zero]
      have hle : g.rootMultiplicity z ≤ (derivative p).rootMultiplicity z := by
        rw [h2]
        rw [rootMultiplicity_mul (h2 ▸ hne _ (by simp))]
        omega
      have hd := derivative_rootMultiplicity_of_root (p := p) (t := z) hz
      have := (rootMultiplicity_pos hp0).2 hz
      omega
    have hroot : ∀ c, p'.eval c = 0 → q'.eval c ≠ 0 ∧ (∀ᶠ x in 𝓝[<] c, p'.eval x * q'.eval x < 0) ∧
        (∀ᶠ x in 𝓝[>] c, 0 < p'.eval x * q'.eval x) := by
      intro c hc
      refine ⟨hadj p' q' rest' rfl c hc, ?_⟩
      obtain ⟨hl, hr⟩ := mul_derivative_sign hp0 ((hroots c).2 hc)
      have he : ∀ x, p.eval x * (derivative p).eval x = (g.eval x) ^ 2 * (p'.eval x * q'.eval x) := by
        intro x
        rw [h2, eval_mul, show p.eval x = g.eval x * p'.eval x by conv_lhs => rw [h1, eval_mul]]
        ring
      constructor
      · filter_upwards [hl] with x hx
        rw [he] at hx
        nlinarith [sq_nonneg (g.eval x), mul_nonneg (sq_nonneg (g.eval x)) (sq_nonneg (p'.eval x))]
      · filter_upwards [hr] with x hx
        rw [he] at hx
        exact pos_of_mul_pos_right hx (sq_nonneg _)
    have hfil : (p.roots.toFinset.filter fun z => a < z ∧ z ≤ b) = (p'.roots.toFinset.filter fun z => a < z ∧ z ≤ b) := by
      ext z
      simp [hp0, hn p' (by simp), hroots z]
    rw [hv a ha, hv b hb, hfil]
    exact sturm_like_ends hS hn hroot hab

end Rustnomial
