import Verif.Props.FloatSparse
import Verif.Props.FloatDivTerm

/-!
# C85, continued: sparse float division of operands of equal degree
-/

open Polynomial

namespace Rustnomial
namespace Fl
variable {f : FlFmt}

theorem iterate_nonfinite {l : Fl f} (hl : isZero l = false) {x : Fl f} (hx : x.isFinite = false) :
    ∀ k, ((fun x => x - l * div x l)^[k] x).isFinite = false := by
  intro k
  induction k generalizing x with
  | zero => exact hx
  | succ k ih =>
    rw [Function.iterate_succ_apply]
    refine ih ?_
    show (x - l * div x l).isFinite = false
    rw [lead_nan hl (.inl hx)]; rfl

/-- Above the degree of the divisor a round by a finite scale keeps zeros zero. -/
theorem high_zeros {m b : BMap (Fl f)} {s : Fl f} {e : Nat} (hs : s.isFinite = true)
    (hb : ∀ j c', e < j → b.get j = some c' → isZero c' = true)
    (hm : ∀ j c', e < j → m.get j = some c' → isZero c' = true) :
    ∀ j c', e < j → (mapSubWScale m b s).get j = some c' → isZero c' = true := by
  intro j v hj hv
  obtain ⟨s', a, rfl⟩ := isFinite_iff.1 hs
  have hmz : ∀ sg, (fin sg 0 : Fl f) * fin s' a = fin (sg != s') 0 := by
    intro sg
    have : (fin sg 0 * fin s' a : Fl f) = pack (sg != s') (roundRat f.p (0 * a) (2 ^ f.q)) := rfl
    rw [this, Nat.zero_mul]
    simp [roundRat, pack]
  rw [mapSubWScale_get] at hv
  cases hbj : b.get j with
  | none => rw [hbj] at hv; exact hm j v hj hv
  | some y =>
    obtain ⟨sg, rfl⟩ := isZero_iff.1 (hb j y hj hbj)
    rw [hbj] at hv
    cases hx : m.get j with
    | none =>
      rw [hx] at hv
      cases hv
      rw [show (-(fin sg 0) : Fl f) = fin (!sg) 0 from rfl, hmz]
      exact isZero_iff.2 ⟨_, rfl⟩
    | some x =>
      rw [hx] at hv
      cases hv
      obtain ⟨sx, rfl⟩ := isZero_iff.1 (hm j x hj hx)
      rw [hmz, show (fin sx 0 - fin (sg != s') 0 : Fl f) = add (fin sx 0) (fin (!(sg != s')) 0) from rfl]
      cases sx <;> cases sg <;> cases s' <;> simp [add, roundRat, pack, isZero_iff]

theorem first_of_get {m : BMap (Fl f)} {e : Nat} {c : Fl f} (h : m.get e = some c) (hz : isZero c = false)
    (hm : ∀ j c', e < j → m.get j = some c' → isZero c' = true) : sparseFirstTerm m = .term c e := by
  rcases firstTerm_last m with ⟨_, _, h3⟩ | ⟨k, c', h1, _, h3, h4, h5⟩
  · rw [h3 e c h] at hz; cases hz
  · rcases lt_trichotomy e k with hlt | rfl | hlt
    · rw [hm k c' hlt h3] at h4; cases h4
    · rw [h] at h3; cases h3; exact h1
    · rw [h5 e c hlt h] at hz; cases hz

/-- A non-finite coefficient at or above the degree of the divisor is never removed. -/
theorem loops_nonfinite (b : BMap (Fl f)) (rf : Fl f) (e offset k : Nat) (hk : e ≤ k) : ∀ (fuel : Nat) (scale : Fl f)
    (sd : Nat) (m : BMap (Fl f)) (dv : Sparse (Fl f)), e ≤ sd → (∃ c, m.get k = some c ∧ c.isFinite = false) →
    Sparse.divModLoop b rf e offset fuel scale sd m dv = .fuel ∧ Sparse.remLoop b rf e fuel scale sd m = .fuel
  | 0, _, _, _, _, _, _ => ⟨rfl, rfl⟩
  | fuel + 1, scale, sd, m, dv, hsd, ⟨c, hc, hf⟩ => by
    obtain ⟨c', hc', hf'⟩ : ∃ c', (mapSubWScale m b scale).get k = some c' ∧ c'.isFinite = false := by
      rw [mapSubWScale_get, hc]
      cases b.get k with
      | none => exact ⟨c, rfl, hf⟩
      | some y =>
        refine ⟨_, rfl, ?_⟩
        by_contra h
        rw [(finite_of_sub (by simpa using h)).1] at hf
        cases hf
    have hz' : isZero c' = false := by
      by_contra h
      obtain ⟨s, rfl⟩ := isZero_iff.1 (by simpa using h)
      cases hf'
    obtain ⟨k', x, h1, h2⟩ := firstTerm_high hc' hz'
    have ih := fun s => loops_nonfinite b rf e offset k hk fuel s k' (mapSubWScale m b scale)
    constructor
    · rw [Sparse.divModLoop, if_pos (by omega)]
      simp only [h1]
      exact (ih (div x rf) (dv.addTerm scale offset) (by omega) ⟨c', hc', hf'⟩).1
    · rw [Sparse.remLoop, if_pos (by omega)]
      simp only [h1]
      exact (ih (div x rf) dv (by omega) ⟨c', hc', hf'⟩).2

theorem loops_zero {b : BMap (Fl f)} {l : Fl f} {e offset : Nat} (hl : b.get e = some l) (hl0 : isZero l = false)
    (hb : ∀ j c', e < j → b.get j = some c' → isZero c' = true) : ∀ (k : Nat) (c : Fl f) (m : BMap (Fl f))
    (dv : Sparse (Fl f)), m.get e = some c → (∀ j c', e < j → m.get j = some c' → isZero c' = true) →
    isZero ((fun x => x - l * div x l)^[k] c) = true → (∀ j < k, isZero ((fun x => x - l * div x l)^[j] c) = false) →
    1 ≤ k → ∃ q m', (∀ fuel, k + 1 ≤ fuel → Sparse.divModLoop b l e offset fuel (div c l) e m dv = .ok (q, m') ∧
        Sparse.remLoop b l e fuel (div c l) e m = .ok m') ∧
      (sparseDegree m' = .negInf ∨ ∃ d < e, sparseDegree m' = .num d)
  | 0, _, _, _, _, _, _, _, h => by omega
  | k + 1, c, m, dv, hc, hm, hz, hne, _ => by
    have hfin : (c - l * div c l).isFinite = true := by
      by_contra h
      have := iterate_nonfinite hl0 (by simpa using h) k
      rw [Function.iterate_succ_apply] at hz
      obtain ⟨s, hs⟩ := isZero_iff.1 hz
      rw [hs] at this
      cases this
    have hsf : (div c l).isFinite = true := (finite_of_mul (finite_of_sub hfin).2).2
    have hm' := high_zeros hsf hb hm
    have hg : (mapSubWScale m b (div c l)).get e = some (c - l * div c l) := by
      rw [mapSubWScale_get, hl, hc]
    by_cases hk : k = 0
    · subst hk
      have hz1 : isZero (c - l * div c l) = true := hz
      refine ⟨dv.addTerm (div c l) offset, mapSubWScale m b (div c l), ?_, ?_⟩
      · intro fuel hf
        obtain ⟨fuel, rfl⟩ : ∃ k, fuel = k + 2 := ⟨fuel - 2, by omega⟩
        rw [Sparse.divModLoop, if_pos le_rfl, Sparse.remLoop, if_pos le_rfl]
        rcases firstTerm_last (mapSubWScale m b (div c l)) with ⟨h1, _, _⟩ | ⟨d, v, h1, _, h3, h4, _⟩
        · simp [h1]
        · have hd : d < e := by
            by_contra hlt
            rcases (not_lt.1 hlt).eq_or_lt with rfl | h
            · rw [hg] at h3; cases h3; rw [hz1] at h4; cases h4
            · rw [hm' d v h h3] at h4; cases h4
          simp only [h1]
          rw [show (rdiv v l : Res (Fl f)) = .ok (div v l) from rfl, Res.ok_bind, Sparse.divModLoop,
            if_neg (by omega), Res.ok_bind, Sparse.remLoop, if_neg (by omega)]
          exact ⟨rfl, rfl⟩
      · rcases firstTerm_last (mapSubWScale m b (div c l)) with ⟨_, h2, _⟩ | ⟨d, v, _, h2, h3, h4, _⟩
        · exact .inl h2
        · refine .inr ⟨d, ?_, h2⟩
          by_contra hlt
          rcases (not_lt.1 hlt).eq_or_lt with rfl | h
          · rw [hg] at h3; cases h3; rw [hz1] at h4; cases h4
          · rw [hm' d v h h3] at h4; cases h4
    · have hne1 : isZero (c - l * div c l) = false := hne 1 (by omega)
      obtain ⟨q, m', h1, h2⟩ := loops_zero (offset := offset) hl hl0 hb k (c - l * div c l) _ (dv.addTerm (div c l) offset) hg hm'
        (by rw [Function.iterate_succ_apply] at hz; exact hz)
        (fun j hj => by have := hne (j + 1) (by omega); rw [Function.iterate_succ_apply] at this; exact this) (by omega)
      refine ⟨q, m', fun fuel hf => ?_, h2⟩
      obtain ⟨fuel, rfl⟩ : ∃ k, fuel = k + 1 := ⟨fuel - 1, by omega⟩
      rw [Sparse.divModLoop, if_pos le_rfl, Sparse.remLoop, if_pos le_rfl]
      simp only [first_of_get hg hne1 hm']
      exact h1 fuel (by omega)

theorem loops_never {b : BMap (Fl f)} {l : Fl f} {e offset : Nat} (hl : b.get e = some l)
    (hb : ∀ j c', e < j → b.get j = some c' → isZero c' = true) : ∀ (fuel : Nat) (c : Fl f) (m : BMap (Fl f))
    (dv : Sparse (Fl f)), m.get e = some c → (∀ j c', e < j → m.get j = some c' → isZero c' = true) →
    (∀ k, isZero ((fun x => x - l * div x l)^[k] c) = false) →
    Sparse.divModLoop b l e offset fuel (div c l) e m dv = .fuel ∧ Sparse.remLoop b l e fuel (div c l) e m = .fuel
  | 0, _, _, _, _, _, _ => ⟨rfl, rfl⟩
  | fuel + 1, c, m, dv, hc, hm, hz => by
    have hg : (mapSubWScale m b (div c l)).get e = some (c - l * div c l) := by
      rw [mapSubWScale_get, hl, hc]
    have hz1 : isZero (c - l * div c l) = false := hz 1
    by_cases hfin : (c - l * div c l).isFinite = true
    · have hsf : (div c l).isFinite = true := (finite_of_mul (finite_of_sub hfin).2).2
      have hm' := high_zeros hsf hb hm
      have ih := fun dv => loops_never (offset := offset) hl hb fuel (c - l * div c l) _ dv hg hm'
        (fun k => by have := hz (k + 1); rw [Function.iterate_succ_apply] at this; exact this)
      rw [Sparse.divModLoop, if_pos le_rfl, Sparse.remLoop, if_pos le_rfl]
      simp only [first_of_get hg hz1 hm']
      exact ⟨(ih _).1, (ih dv).2⟩
    · obtain ⟨k', x, h1, h2⟩ := firstTerm_high hg hz1
      have ih := fun dv => loops_nonfinite b l e offset e le_rfl fuel (div x l) k' (mapSubWScale m b (div c l)) dv h2
        ⟨_, hg, by simpa using hfin⟩
      rw [Sparse.divModLoop, if_pos le_rfl, Sparse.remLoop, if_pos le_rfl]
      simp only [h1]
      exact ⟨(ih _).1, (ih dv).2⟩

/-- C85: operands of equal degree: with `c` and `l` the leading coefficients, every round replaces `c` by the rounded
`c - l * (c / l)`.  If that reaches zero after `k` rounds, division returns then, with a remainder of lower degree;
if it never reaches zero, division never returns.  (C85_div_outcome has the other degrees.) -/
theorem C85_div_equal_outcome (p b : Sparse (Fl f)) (e : Nat) (c l : Fl f) (hpd : p.degree = .num e)
    (hbd : b.degree = .num e) (hc : p.terms.get e = some c) (hl : b.terms.get e = some l) :
    (∀ k, isZero ((fun x => x - l * div x l)^[k] c) = true → (∀ j < k, isZero ((fun x => x - l * div x l)^[j] c) = false) →
      ∃ q r, (∀ fuel, k + 1 ≤ fuel → p.divMod fuel b = .ok (q, r) ∧ p.rem fuel b = .ok r) ∧
        (r.degree = .negInf ∨ ∃ d < e, r.degree = .num d)) ∧
    ((∀ k, isZero ((fun x => x - l * div x l)^[k] c) = false) →
      ∀ fuel, p.divMod fuel b = .fuel ∧ p.rem fuel b = .fuel) := by
  have key : ∀ {s : Sparse (Fl f)} {x : Fl f}, s.degree = .num e → s.terms.get e = some x →
      sparseFirstTerm s.terms = .term x e ∧ isZero x = false ∧
      ∀ j c', e < j → s.terms.get j = some c' → isZero c' = true := by
    intro s x hd hx
    unfold Sparse.degree at hd
    rcases firstTerm_last s.terms with ⟨_, h2, _⟩ | ⟨e', rf', h1, h2, h3, h4, h5⟩
    · rw [h2] at hd; cases hd
    · rw [h2] at hd
      cases hd
      rw [h3] at hx
      cases hx
      exact ⟨h1, h4, h5⟩
  obtain ⟨p1, p2, p3⟩ := key hpd hc
  obtain ⟨b1, b2, b3⟩ := key hbd hl
  unfold Sparse.divMod Sparse.rem
  rw [b1, p1]
  simp only [lt_irrefl, if_false, Nat.sub_self]
  have hr : (rdiv c l : Res (Fl f)) = .ok (div c l) := rfl
  simp only [hr, Res.ok_bind]
  constructor
  · intro k hz hne
    have hk : 1 ≤ k := by
      rcases Nat.eq_zero_or_pos k with rfl | h
      · rw [Function.iterate_zero_apply, p2] at hz; cases hz
      · exact h
    obtain ⟨q, m, h1, h2⟩ := loops_zero (offset := 0) hl b2 b3 k c p.terms (Sparse.fromVec []) hc p3 hz hne hk
    refine ⟨q, Sparse.new m, fun fuel hf => ?_, h2⟩
    rw [(h1 fuel hf).1, (h1 fuel hf).2]
    exact ⟨rfl, rfl⟩
  · intro hz fuel
    have := loops_never (offset := 0) hl b3 fuel c p.terms (Sparse.fromVec []) hc p3 hz
    rw [this.1, this.2]
    exact ⟨rfl, rfl⟩

/-- C85: for a leading coefficient of the divisor below `3/2` in magnitude, division of operands of equal degree
returns after at most `w` rounds, unless a round makes the leading coefficient infinite or NaN; then it never returns. -/
theorem C85_div_equal_terminates (hp : 3 ≤ f.p) (p b : Sparse (Fl f)) (e : Nat) (c l : Fl f) (hpd : p.degree = .num e)
    (hbd : b.degree = .num e) (hc : p.terms.get e = some c) (hl : b.terms.get e = some l) (hcv : c.Valid)
    (hcf : c.isFinite = true) (hlf : l.isFinite = true) (h3 : |l.toRat| < 3 / 2) :
    (∃ q r, (∀ fuel, f.w + 1 ≤ fuel → p.divMod fuel b = .ok (q, r) ∧ p.rem fuel b = .ok r) ∧
        (r.degree = .negInf ∨ ∃ d < e, r.degree = .num d)) ∨
    ((∀ fuel, p.divMod fuel b = .fuel ∧ p.rem fuel b = .fuel) ∧
      ∃ k ≤ f.w, ((fun x => x - l * div x l)^[k] c).isFinite = false) := by
  have hl0 : isZero l = false := by
    unfold Sparse.degree at hbd
    rcases firstTerm_last b.terms with ⟨_, h2, _⟩ | ⟨e', rf', h1, h2, h3, h4, h5⟩
    · rw [h2] at hbd; cases hbd
    · rw [h2] at hbd; cases hbd; rw [h3] at hl; cases hl; exact h4
  obtain ⟨t, n, rfl⟩ := isFinite_iff.1 hlf
  have hn : 0 < n := by
    rcases Nat.eq_zero_or_pos n with rfl | h
    · rw [isZero_iff.2 ⟨t, rfl⟩] at hl0; cases hl0
    · exact h
  have hn3 : 2 * n < 3 * 2 ^ f.q := by
    rw [abs_toRat_fin, div_lt_div_iff₀ (by positivity) (by norm_num)] at h3
    have : (2 * n : ℚ) < 3 * 2 ^ f.q := by linarith
    exact_mod_cast this
  -- the leading coefficients
  have main : ∀ (N : Nat) (x : Fl f), x.Valid → (∃ s a, x = fin s a ∧ a.size ≤ N) →
      (∃ k ≤ N, isZero ((fun x => x - fin t n * div x (fin t n))^[k] x) = true) ∨
      ∃ k ≤ N, ((fun x => x - fin t n * div x (fin t n))^[k] x).isFinite = false := by
    intro N
    induction N with
    | zero =>
      rintro x _ ⟨s, a, rfl, ha⟩
      have : a = 0 := Nat.size_eq_zero.1 (by omega)
      exact .inl ⟨0, le_rfl, isZero_iff.2 ⟨s, by rw [this]; rfl⟩⟩
    | succ N ih =>
      rintro x hv ⟨s, a, rfl, ha⟩
      rcases Nat.eq_zero_or_pos a with rfl | ha0
      · exact .inl ⟨0, by omega, isZero_iff.2 ⟨s, rfl⟩⟩
      have hval := (C65_closed (by omega : 1 ≤ f.p) (fin s a : Fl f) (fin t n * div (fin s a) (fin t n))).2.1
      rcases lead_shrinks hp (t := t) hv ha0 hn hn3 with ⟨h, _⟩ | ⟨s', a', h, h'⟩
      · exact .inr ⟨1, by omega, h⟩
      · have hsz : a'.size ≤ N := by
          rw [Nat.size_le]
          have h4 := Nat.lt_size_self a
          have h5 : 2 ^ a.size ≤ 2 ^ (N + 1) := Nat.pow_le_pow_right (by norm_num) ha
          rw [pow_succ] at h5
          omega
        rw [h] at hval
        rcases ih (fin s' a') hval ⟨s', a', rfl, hsz⟩ with ⟨k, hk, hz⟩ | ⟨k, hk, hz⟩
        · refine .inl ⟨k + 1, by omega, ?_⟩
          rw [Function.iterate_succ_apply]
          simp only [h]; exact hz
        · refine .inr ⟨k + 1, by omega, ?_⟩
          rw [Function.iterate_succ_apply]
          simp only [h]; exact hz
  obtain ⟨h1, h2⟩ := C85_div_equal_outcome p b e c (fin t n) hpd hbd hc hl
  by_cases hz : ∃ k, isZero ((fun x => x - fin t n * div x (fin t n))^[k] c) = true
  · classical
    obtain ⟨q, r, h3, h4⟩ := h1 (Nat.find hz) (Nat.find_spec hz) fun j hj => by simpa using Nat.find_min hz hj
    refine .inl ⟨q, r, fun fuel hf => h3 fuel ?_, h4⟩
    have : Nat.find hz ≤ f.w := by
      obtain ⟨s, a, rfl⟩ := isFinite_iff.1 hcf
      rcases main f.w _ hcv ⟨s, a, rfl, Nat.size_le.2 hcv.2⟩ with ⟨k, hk, hz'⟩ | ⟨k, hk, hz'⟩
      · exact (Nat.find_min' hz hz').trans hk
      · by_contra hlt
        have h5 := iterate_nonfinite hl0 hz' (Nat.find hz - k)
        rw [← Function.iterate_add_apply, Nat.sub_add_cancel (by omega)] at h5
        obtain ⟨s, hs⟩ := isZero_iff.1 (Nat.find_spec hz)
        rw [hs] at h5
        cases h5
    omega
  · refine .inr ⟨h2 fun k => by simpa using fun h => hz ⟨k, h⟩, ?_⟩
    obtain ⟨s, a, rfl⟩ := isFinite_iff.1 hcf
    rcases main f.w _ hcv ⟨s, a, rfl, Nat.size_le.2 hcv.2⟩ with ⟨k, hk, hz'⟩ | h
    · exact absurd ⟨k, hz'⟩ hz
    · exact h

/-- C85: the bound `3/2` is exact: the smallest positive number divided by a finite constant of magnitude `3/2` or more never
returns. -/
theorem C85_div_equal_diverges (hp : 2 ≤ f.p) (hw : 2 ≤ f.w) (l : Fl f) (hl : l.isFinite = true) (h3 : 3 / 2 ≤ |l.toRat|)
    (p b : Sparse (Fl f)) (e : Nat) (hpd : p.degree = .num e) (hbd : b.degree = .num e)
    (hc : p.terms.get e = some (fin false 1)) (hb : b.terms.get e = some l) (fuel : Nat) :
    p.divMod fuel b = .fuel ∧ p.rem fuel b = .fuel := by
  refine (C85_div_equal_outcome p b e _ l hpd hbd hc hb).2 (fun k => ?_) fuel
  obtain ⟨t, n, rfl⟩ := isFinite_iff.1 hl
  rw [abs_toRat_fin, div_le_div_iff₀ (by norm_num) (by positivity)] at h3
  have h3' : 3 * 2 ^ f.q ≤ 2 * n := by
    have : (3 * 2 ^ f.q : ℚ) ≤ 2 * n := by linarith
    exact_mod_cast this
  have hstep : ∀ s, ∃ s', (fin s 1 : Fl f) - fin t n * div (fin s 1) (fin t n) = fin s' 1 := by
    intro s
    rcases Nat.lt_or_ge n (2 * 2 ^ f.q) with h | h
    · exact ⟨_, unit_alternates hp hw h3' h s⟩
    · exact ⟨s, unit_stays (by omega) (by omega) h s⟩
  have : ∀ s, ∃ s', (fun x => x - fin t n * div x (fin t n))^[k] (fin s 1 : Fl f) = fin s' 1 := by
    induction k with
    | zero => exact fun s => ⟨s, rfl⟩
    | succ k ih =>
      intro s
      obtain ⟨s', h⟩ := hstep s
      rw [Function.iterate_succ_apply]
      simp only [h]
      exact ih s'
  obtain ⟨s', h⟩ := this false
  rw [h]
  by_contra h0
  obtain ⟨_, h0⟩ := isZero_iff.1 (by simpa using h0)
  cases h0

-- `(7 x + 1) / (1.2 x + 1)`: the first round leaves a rest of the leading coefficient, the second none
def exSeven : Sparse (Fl binary64) := Sparse.fromVec [ofNat 7, 1]
def exTwelve : Sparse (Fl binary64) := Sparse.fromVec [div (ofNat 12) (ofNat 10), 1]
example : exSeven.degree = .num 1 ∧ exTwelve.degree = .num 1 ∧ exSeven.terms.get 1 = some (ofNat 7) ∧
    exTwelve.terms.get 1 = some (div (ofNat 12) (ofNat 10)) := by decide +kernel
example : (div (ofNat 12) (ofNat 10) : Fl binary64).isFinite = true ∧
    |(div (ofNat 12) (ofNat 10) : Fl binary64).toRat| < 3 / 2 := by decide +kernel
example : isZero ((fun x : Fl binary64 => x - div (ofNat 12) (ofNat 10) * div x (div (ofNat 12) (ofNat 10)))^[1] (ofNat 7)) = false ∧
    isZero ((fun x : Fl binary64 => x - div (ofNat 12) (ofNat 10) * div x (div (ofNat 12) (ofNat 10)))^[2] (ofNat 7)) = true := by
  decide +kernel
-- an overflow: `2^1023 / 0.1`
example : ((fun x : Fl binary64 => x - div 1 (ofNat 10) * div x (div 1 (ofNat 10)))^[1] (fin false (2 ^ 2097))).isFinite = false := by
  decide +kernel
-- the smallest number divided by `3/2`
example : (Sparse.fromVec [(fin false 1 : Fl binary64)]).degree = .num 0 ∧
    (Sparse.fromVec [(fin false 1 : Fl binary64)]).terms.get 0 = some (fin false 1) ∧
    (Sparse.fromVec [(div (ofNat 3) (ofNat 2) : Fl binary64)]).terms.get 0 = some (div (ofNat 3) (ofNat 2)) ∧
    3 / 2 ≤ |(div (ofNat 3) (ofNat 2) : Fl binary64).toRat| := by decide +kernel

end Fl
end Rustnomial
