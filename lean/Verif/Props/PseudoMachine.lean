import Verif.Model.PseudoMachine
import Verif.Props.Pseudo
import Verif.Props.MachineDiv
import Verif.Lemmas.CheckedAgree

/-!
# C142: the programs of C141 over fixed-width integers with overflow checks
-/

open Polynomial

set_option linter.unusedSectionVars false

namespace Rustnomial

variable {t : IntTy}

/-! ## Every program panics or does what it does over the integers -/

theorem mulSquaresM_ref (c : Int) : ∀ (k : Nat) (s : Int), Ref (mulSquaresM (Arith2.machine true t).toArith c k s) (.ok (mulTimes (c * c) k s))
  | 0, s => .refl _
  | k + 1, s => by
    unfold mulSquaresM mulTimes
    have h1 : Ref ((Arith2.machine true t).mul c c) (.ok (c * c)) := ref_result t _
    rcases h1 with h1 | h1
    · rw [h1]; exact .inl rfl
    · rw [h1, Res.ok_bind]
      have h2 : Ref ((Arith2.machine true t).mul s (c * c)) (.ok (s * (c * c))) := ref_result t _
      rcases h2 with h2 | h2
      · rw [h2]; exact .inl rfl
      · rw [h2, Res.ok_bind]; exact mulSquaresM_ref c k _

theorem mulScalarM_ref (a : Poly Int) (s : Int) : Ref (a.mulScalarM (Arith2.machine true t).toArith s) (.ok (a.mulScalar s)) := by
  have := Poly.mulScalarM_mono (machine_le_exact t).toLe a s
  rwa [show a.mulScalarM Arith2.exact.toArith s = .ok (a.mulScalar s) from (C56_exact a a s 0).2.2.2.2.2.1] at this

theorem pseudoRemM_ref (fuel : Nat) (a b : Poly Int) : Ref (a.pseudoRemM (.machine true t) fuel b) (a.pseudoRem fuel b) := by
  unfold Poly.pseudoRemM Poly.pseudoRem
  cases b.orderedTermIter with
  | nil => exact .refl _
  | cons x ts =>
    obtain ⟨c, n⟩ := x
    simp only
    rcases mulSquaresM_ref (t := t) c (a.degreeOrZero + 1 - n) 1 with h | h
    · rw [h]; exact .inl rfl
    · rw [h, Res.ok_bind]
      rcases mulScalarM_ref (t := t) a (mulTimes (c * c) (a.degreeOrZero + 1 - n) 1) with h | h
      · rw [h]; exact .inl rfl
      · rw [h, Res.ok_bind, ← Poly.remAssignM_exact]
        exact Poly.remAssignM_mono (machine_le_exact t) fuel _ b

theorem pseudoDivModM_ref (fuel : Nat) (a b : Poly Int) : Ref (a.pseudoDivModM (.machine true t) fuel b) (a.pseudoDivMod fuel b) := by
  unfold Poly.pseudoDivModM Poly.pseudoDivMod
  cases b.orderedTermIter with
  | nil => exact .refl _
  | cons x ts =>
    obtain ⟨c, n⟩ := x
    simp only
    rcases mulSquaresM_ref (t := t) c (a.degreeOrZero + 1 - n) 1 with h | h
    · rw [h]; exact .inl rfl
    · rw [h, Res.ok_bind]
      rcases mulScalarM_ref (t := t) a (mulTimes (c * c) (a.degreeOrZero + 1 - n) 1) with h | h
      · rw [h]; exact .inl rfl
      · rw [h, Res.ok_bind, ← Poly.divModM_exact]
        exact (Poly.divModM_mono (machine_le_exact t) fuel _ b).bind fun _ => .refl _

theorem euclid_ref {P : Type} {isZ : P → Bool} {op op' : P → P → Res P} (h : ∀ a b, Ref (op a b) (op' a b)) :
    ∀ (steps : Nat) (a b : P), Ref (euclid isZ op steps a b) (euclid isZ op' steps a b)
  | 0, _, _ => .refl _
  | n + 1, a, b => by
    unfold euclid
    split
    · exact .refl _
    · exact (h a b).bind fun r => euclid_ref h n b r

theorem sturmLoopPseudoM_ref (fuel : Nat) : ∀ (steps : Nat) (a b : Poly Int),
    Ref (Poly.sturmLoopPseudoM (.machine true t) fuel steps a b) (Poly.sturmLoopPseudo fuel steps a b)
  | 0, _, _ => .refl _
  | n + 1, a, b => by
    unfold Poly.sturmLoopPseudoM Poly.sturmLoopPseudo
    split
    · exact .refl _
    · refine (pseudoRemM_ref fuel a b).bind fun r => ?_
      have hn : Ref (r.negM (Arith2.machine true t).toArith) (.ok r.neg) := by
        have := Poly.negM_mono (machine_le_exact t).toLe r
        rwa [show r.negM Arith2.exact.toArith = .ok r.neg from (C56_exact r r 0 0).1] at this
      rcases hn with hn | hn
      · rw [hn]; exact .inl rfl
      · rw [hn, Res.ok_bind]
        exact (sturmLoopPseudoM_ref fuel n b r.neg).bind fun _ => .refl _

theorem variationsFromM_ref (x : Int) : ∀ (ch : List (Poly Int)) (last : Option Bool),
    Ref (Poly.variationsFromM (Arith2.machine true t).toArith x last ch) (.ok (variationsFrom x last ch))
  | [], _ => .refl _
  | p :: ps, last => by
    unfold Poly.variationsFromM variationsFrom
    have he : Ref (p.evalM (Arith2.machine true t).toArith x) (.ok (p.eval x)) := by
      have := Poly.evalM_mono (machine_le_exact t).toLe p x
      rwa [show p.evalM Arith2.exact.toArith x = .ok (p.eval x) from (C56_exact p p 0 x).2.2.2.2.2.2.2.2.2] at this
    rcases he with he | he
    · rw [he]; exact .inl rfl
    · rw [he, Res.ok_bind]
      simp only
      by_cases h0 : p.eval x = 0
      · rw [if_pos h0, if_pos ((LawfulNumZero.isZero_iff _).2 h0)]
        exact variationsFromM_ref x ps last
      · rw [if_neg h0, if_neg (fun k => h0 ((LawfulNumZero.isZero_iff _).1 k))]
        rcases variationsFromM_ref x ps (some (isPositive (p.eval x))) with h | h
        · rw [h]; exact .inl rfl
        · rw [h, Res.ok_bind]; exact .refl _

/-! ## The results -/

/-- **C142.** Over a fixed-width integer type with overflow checks, both divisions of C141 panic or return the exact result: no wrong
quotient, and no endless loop. -/
theorem C142_division (a b : Poly Int) (hb : descPoly b.terms ≠ 0) (fuel : Nat) (hf : a.terms.length + 1 ≤ fuel) :
    (a.pseudoDivModM (.machine true t) fuel b = .panic ∨ ∃ s q r, a.pseudoDivModM (.machine true t) fuel b = .ok (s, q, r) ∧ 0 < s ∧
      C s * descPoly a.terms = descPoly q.terms * descPoly b.terms + descPoly r.terms ∧
      (descPoly r.terms).degree < (descPoly b.terms).degree) ∧
    (a.pseudoRemM (.machine true t) fuel b = .panic ∨ ∃ r, a.pseudoRemM (.machine true t) fuel b = .ok r ∧
      (∃ (s : ℤ) (Q : ℤ[X]), 0 < s ∧ C s * descPoly a.terms = Q * descPoly b.terms + descPoly r.terms) ∧
      (descPoly r.terms).degree < (descPoly b.terms).degree) := by
  obtain ⟨s, q, r, u, h1, h2, h3, -, h4, h5, h6, -⟩ := C141_division a b hb fuel hf
  have e1 := pseudoDivModM_ref (t := t) fuel a b
  have e2 := pseudoRemM_ref (t := t) fuel a b
  rw [h1] at e1; rw [h2] at e2
  exact ⟨e1.imp_right fun e => ⟨s, q, r, e, h3, h4, h6⟩,
    e2.imp_right fun e => ⟨u, e, ⟨s, descPoly q.terms, h3, by rw [h5]; exact h4⟩, by rw [h5]; exact h6⟩⟩

theorem inRange_of_le {x y : Int} (hx : 0 ≤ x) (hxy : x ≤ y) (hy : t.InRange y) : t.InRange x :=
  ⟨t.zero_inRange.1.trans hx, hxy.trans hy.2⟩

theorem mulSquaresM_chk {c : Int} (hc : c ≠ 0) : ∀ (k : Nat) (s : Int), 0 < s →
    Chk (k ≠ 0 → t.InRange (s * c ^ (2 * k))) (mulSquaresM (Arith2.machine true t).toArith c k s) (s * c ^ (2 * k))
  | 0, s, _ => ⟨fun _ => by simp [mulSquaresM], fun h => absurd (fun h' => absurd rfl h') h⟩
  | k + 1, s, hs => by
    have hcc : 0 < c * c := mul_self_pos.2 hc
    have hpow : 0 < c ^ (2 * k) := by rw [pow_mul]; exact pow_pos (by rw [pow_two]; exact hcc) _
    have e : s * c ^ (2 * (k + 1)) = s * (c * c) * c ^ (2 * k) := by ring
    have hle : s * (c * c) ≤ s * c ^ (2 * (k + 1)) := by
      rw [e]; exact le_mul_of_one_le_right (mul_pos hs hcc).le hpow
    have hle' : c * c ≤ s * (c * c) := le_mul_of_one_le_left hcc.le hs
    unfold mulSquaresM
    have c1 : Chk (t.InRange (c * c)) ((Arith2.machine true t).mul c c) (c * c) := chk_result t _
    have c2 : Chk (t.InRange (s * (c * c))) ((Arith2.machine true t).mul s (c * c)) (s * (c * c)) := chk_result t _
    have c3 := mulSquaresM_chk hc k (s * (c * c)) (mul_pos hs hcc)
    rw [← e] at c3
    constructor
    · intro h
      have h := h (by omega)
      have i2 := inRange_of_le (mul_pos hs hcc).le hle h
      rw [c1.1 (inRange_of_le hcc.le hle' i2), Res.ok_bind, c2.1 i2, Res.ok_bind, c3.1 fun _ => h]
    · intro h
      have h : ¬ t.InRange (s * c ^ (2 * (k + 1))) := fun h' => h fun _ => h'
      by_cases i1 : t.InRange (c * c)
      · rw [c1.1 i1, Res.ok_bind]
        by_cases i2 : t.InRange (s * (c * c))
        · rw [c2.1 i2, Res.ok_bind]
          refine c3.2 fun h' => ?_
          by_cases hk : k = 0
          · subst hk; rw [e] at h; simp at h; exact h i2
          · exact h (h' hk)
        · rw [c2.2 i2]; rfl
      · rw [c1.2 i1]; rfl

/-- **C142.** Exactly when `div_mod` after the multiplication panics: when the factor, a coefficient of the multiplied dividend or a value of a
round of the division is not a value of the type. -/
theorem C142_division_outcome (a b : Poly Int) (hb : descPoly b.terms ≠ 0) (k : Nat) (s : Int)
    (hk : k = (descPoly a.terms).natDegree + 1 - (descPoly b.terms).natDegree) (hs : s = (descPoly b.terms).leadingCoeff ^ (2 * k))
    (Q T : ℤ[X]) (hQ : C s * descPoly a.terms = Q * descPoly b.terms + T) (hT : T.degree < (descPoly b.terms).degree)
    (fuel : Nat) (hf : a.terms.length + 1 ≤ fuel) :
    ((k ≠ 0 → t.InRange s) ∧ (∀ d, t.InRange ((C s * descPoly a.terms).coeff d)) ∧ RoundsFit t (C s * descPoly a.terms) (descPoly b.terms) Q →
      ∃ q r, a.pseudoDivModM (.machine true t) fuel b = .ok (s, q, r) ∧ descPoly q.terms = Q ∧ descPoly r.terms = T) ∧
    (¬ ((k ≠ 0 → t.InRange s) ∧ (∀ d, t.InRange ((C s * descPoly a.terms).coeff d)) ∧
        RoundsFit t (C s * descPoly a.terms) (descPoly b.terms) Q) →
      a.pseudoDivModM (.machine true t) fuel b = .panic) := by
  unfold Poly.pseudoDivModM
  cases h : b.orderedTermIter with
  | nil => exact absurd (termIter_nil h) hb
  | cons x ts =>
    obtain ⟨c, n⟩ := x
    obtain ⟨h1, h2, h3⟩ := termIter_cons h
    have hkn : a.degreeOrZero + 1 - n = k := by rw [degreeOrZero_eq, hk, h1]
    simp only
    rw [hkn]
    have c1 := mulSquaresM_chk (t := t) h3 k 1 one_pos
    rw [one_mul, ← h2, ← hs] at c1
    rw [← h2]
    obtain ⟨m1, m2⟩ := C56_mul_scalar t a s
    rw [mul_comm (descPoly a.terms)] at m1 m2
    by_cases i1 : k ≠ 0 → t.InRange s
    · rw [c1.1 i1, Res.ok_bind]
      by_cases i2 : ∀ d, t.InRange ((C s * descPoly a.terms).coeff d)
      · obtain ⟨⟨p, e1, e2, e3⟩, -⟩ := m1 i2
        have hl : p.terms.length ≤ a.terms.length := by
          rcases mulScalarM_ref (t := t) a s with e | e
          · exact absurd (e1.symm.trans e) (by simp)
          · have := Res.ok.inj (e1.symm.trans e)
            rw [this]; exact mulScalar_length a s
        have e1' : a.mulScalarM (Arith2.machine true t).toArith s = .ok p := e1
        rw [e1', Res.ok_bind]
        obtain ⟨d1, d2⟩ := C99_div_mod (t := t) p b e3 hb Q T (by rw [e2]; exact hQ) hT fuel (by omega)
        rw [e2] at d1 d2
        refine ⟨fun H => ?_, fun H => ?_⟩
        · obtain ⟨q, r, f1, -, f2, f3⟩ := d1 H.2.2
          exact ⟨q, r, by rw [f1]; rfl, f2, f3⟩
        · rw [(d2 fun H' => H ⟨i1, i2, H'⟩).1]; rfl
      · refine ⟨fun H => absurd H.2.1 i2, fun _ => ?_⟩
        have e1' : a.mulScalarM (Arith2.machine true t).toArith s = .panic := (m2 i2).1
        rw [e1']; rfl
    · refine ⟨fun H => absurd H.1 i1, fun _ => ?_⟩
      rw [c1.2 i1]; rfl

/-- **C142.** Euclid's algorithm panics or returns what is over the rational numbers a greatest common divisor. -/
theorem C142_gcd (a b : Poly Int) (fuel steps : Nat) (hf : max a.terms.length b.terms.length + 1 ≤ fuel) (hs : b.terms.length + 1 ≤ steps) :
    a.gcdPseudoM (.machine true t) fuel steps b = .panic ∨ ∃ g, a.gcdPseudoM (.machine true t) fuel steps b = .ok g ∧
      IsGcd ((descPoly g.terms).map (Int.castRingHom ℚ)) ((descPoly a.terms).map (Int.castRingHom ℚ))
        ((descPoly b.terms).map (Int.castRingHom ℚ)) := by
  obtain ⟨g, h1, h2⟩ := C141_gcd a b fuel steps hf hs
  have h : Ref (a.gcdPseudoM (.machine true t) fuel steps b) (a.gcdPseudo fuel steps b) :=
    euclid_ref (fun a b => pseudoRemM_ref fuel a b) steps a b
  rw [h1] at h
  exact h.imp_right fun e => ⟨g, e, h2⟩

theorem derivLoopM_length {A : Arith} : ∀ (l : List Int) (d : Int) (r : List Int), Poly.derivLoopM A l d = .ok r → r.length = l.length
  | [], _, r, h => by cases h; rfl
  | x :: l, d, r, h => by
    unfold Poly.derivLoopM at h
    obtain ⟨d', -, h⟩ := Res.bind_eq_ok.1 h
    obtain ⟨y, -, h⟩ := Res.bind_eq_ok.1 h
    obtain ⟨ys, h1, h⟩ := Res.bind_eq_ok.1 h
    cases h
    simp [derivLoopM_length l _ _ h1]

theorem derivativeM_length {A : Arith} {fu : Nat → Option Int} {p d : Poly Int} (h : p.derivativeM A fu = .ok d) :
    d.terms.length ≤ p.terms.length := by
  unfold Poly.derivativeM at h
  simp only at h
  split at h
  · cases h
  · split at h
    · cases h; simp [Poly.zero]
    · rename_i x xs hx
      obtain ⟨ys, h1, h⟩ := Res.bind_eq_ok.1 h
      cases h
      have := congrArg List.length hx
      rw [List.length_drop, List.length_cons] at this
      simp only [derivLoopM_length _ _ _ h1, List.length_dropLast, List.length_cons]
      omega

/-- **C142.** Counting roots panics or returns the number of distinct real roots. -/
theorem C142_count (uw : Nat) (hbits : 1 ≤ t.bits) (p : Poly Int) (hlen : p.terms.length < 2 ^ uw) (hp : descPoly p.terms ≠ 0) {a b : ℤ}
    (hab : a < b) (ha : (descPoly p.terms).eval a = 0 → (derivative (descPoly p.terms)).eval a ≠ 0)
    (hb : (descPoly p.terms).eval b = 0 → (derivative (descPoly p.terms)).eval b ≠ 0)
    {fuel steps : Nat} (hfuel : p.terms.length + 1 ≤ fuel) (hsteps : p.terms.length + 1 ≤ steps) :
    p.countRootsPseudoM (.machine true t) (tryFromUsizeContInt uw t) fuel steps a b = .panic ∨
    p.countRootsPseudoM (.machine true t) (tryFromUsizeContInt uw t) fuel steps a b =
      .ok (rootsIn ((descPoly p.terms).map (Int.castRingHom ℚ)) a b).card := by
  unfold Poly.countRootsPseudoM
  obtain ⟨d1, d2⟩ := C56_derivative uw t hbits p hlen
  by_cases hd : (descPoly p.terms ≠ 0 → t.InRange ((descPoly p.terms).natDegree + 1)) ∧ ∀ d, t.InRange ((descPoly p.terms).derivative.coeff d)
  · obtain ⟨d, e1, e2, -⟩ := d1 hd
    have e1' : p.derivativeM (Arith2.machine true t).toArith (tryFromUsizeContInt uw t) = .ok d := e1
    rw [e1', Res.ok_bind]
    obtain ⟨ch, h1, hkey⟩ := chain_count_int p d hp e2 (derivativeM_length e1) hab ha hb hfuel hsteps
    have hs := sturmLoopPseudoM_ref (t := t) fuel steps p d
    rw [h1] at hs
    rcases hs with hs | hs
    · rw [hs]; exact .inl rfl
    · rw [hs, Res.ok_bind]
      rcases variationsFromM_ref (t := t) a ch none with h | h
      · rw [h]; exact .inl rfl
      · rw [h, Res.ok_bind]
        rcases variationsFromM_ref (t := t) b ch none with h | h
        · rw [h]; exact .inl rfl
        · rw [h, Res.ok_bind, if_neg (by omega)]
          right
          congr 1
          omega
  · have e1' : p.derivativeM (Arith2.machine true t).toArith (tryFromUsizeContInt uw t) = .panic := d2 hd
    rw [e1']; exact .inl rfl

/-- **C142.** With the ends exchanged: zero or a panic, and a panic if there is a root between them. -/
theorem C142_count_reversed (uw : Nat) (hbits : 1 ≤ t.bits) (p : Poly Int) (hlen : p.terms.length < 2 ^ uw) (hp : descPoly p.terms ≠ 0) {a b : ℤ}
    (hab : a < b) (ha : (descPoly p.terms).eval a = 0 → (derivative (descPoly p.terms)).eval a ≠ 0)
    (hb : (descPoly p.terms).eval b = 0 → (derivative (descPoly p.terms)).eval b ≠ 0)
    {fuel steps : Nat} (hfuel : p.terms.length + 1 ≤ fuel) (hsteps : p.terms.length + 1 ≤ steps) :
    p.countRootsPseudoM (.machine true t) (tryFromUsizeContInt uw t) fuel steps b a = .panic ∨
    (p.countRootsPseudoM (.machine true t) (tryFromUsizeContInt uw t) fuel steps b a = .ok 0 ∧
      rootsIn ((descPoly p.terms).map (Int.castRingHom ℚ)) a b = ∅) := by
  unfold Poly.countRootsPseudoM
  obtain ⟨d1, d2⟩ := C56_derivative uw t hbits p hlen
  by_cases hd : (descPoly p.terms ≠ 0 → t.InRange ((descPoly p.terms).natDegree + 1)) ∧ ∀ d, t.InRange ((descPoly p.terms).derivative.coeff d)
  · obtain ⟨d, e1, e2, -⟩ := d1 hd
    have e1' : p.derivativeM (Arith2.machine true t).toArith (tryFromUsizeContInt uw t) = .ok d := e1
    rw [e1', Res.ok_bind]
    obtain ⟨ch, h1, hkey⟩ := chain_count_int p d hp e2 (derivativeM_length e1) hab ha hb hfuel hsteps
    have hs := sturmLoopPseudoM_ref (t := t) fuel steps p d
    rw [h1] at hs
    rcases hs with hs | hs
    · rw [hs]; exact .inl rfl
    · rw [hs, Res.ok_bind]
      rcases variationsFromM_ref (t := t) b ch none with h | h
      · rw [h]; exact .inl rfl
      · rw [h, Res.ok_bind]
        rcases variationsFromM_ref (t := t) a ch none with h | h
        · rw [h]; exact .inl rfl
        · rw [h, Res.ok_bind]
          by_cases hr : rootsIn ((descPoly p.terms).map (Int.castRingHom ℚ)) a b = ∅
          · right
            refine ⟨?_, hr⟩
            rw [hr, Finset.card_empty] at hkey
            rw [if_neg (by omega)]
            congr 1
            omega
          · left
            have := Finset.card_pos.2 (Finset.nonempty_iff_ne_empty.2 hr)
            rw [if_pos (by omega)]
  · have e1' : p.derivativeM (Arith2.machine true t).toArith (tryFromUsizeContInt uw t) = .panic := d2 hd
    rw [e1']; exact .inl rfl

/-- **C142.** Without overflow checks this is false: in `i8` the program finds no root of `2 x² - 1` between 0 and 1, where there is one. -/
theorem C142_unchecked_false :
    (⟨[2, 0, -1]⟩ : Poly Int).countRootsPseudoM (.machine false ⟨true, 8⟩) (tryFromUsizeContInt 64 ⟨true, 8⟩) 4 4 0 1 = .ok 0 ∧
    (rootsIn ((descPoly ([2, 0, -1] : List ℤ)).map (Int.castRingHom ℚ)) ((0 : ℤ) : ℝ) ((1 : ℤ) : ℝ)).card = 1 := by
  refine ⟨by decide +kernel, ?_⟩
  have h := C141_count ⟨[2, 0, -1]⟩ (a := 0) (b := 1) (fuel := 4) (steps := 4)
    (by
      intro h0
      have := congrArg (eval 0) h0
      simp [descPoly_cons] at this)
    (by norm_num) (by intro h0; simp [descPoly_cons] at h0) (by intro h0; simp [descPoly_cons] at h0) (by simp) (by simp)
  have h1 : (⟨[2, 0, -1]⟩ : Poly ℤ).countRootsPseudo 4 4 0 1 = .ok 1 := by decide +kernel
  rw [h1] at h
  exact (Res.ok.inj h).symm

-- `i32`: `16 (3 x² + 1) = 24 x (2 x) + 16`; `i8`: with `5 x` for `2 x` the factor 625 is too large
example : (⟨[3, 0, 1]⟩ : Poly Int).pseudoDivModM (.machine true ⟨true, 32⟩) 4 ⟨[2, 0]⟩ = .ok (16, ⟨[24, 0]⟩, ⟨[16]⟩) ∧
    (⟨[3, 0, 1]⟩ : Poly Int).pseudoDivModM (.machine true ⟨true, 8⟩) 4 ⟨[5, 0]⟩ = .panic := by decide +kernel
example : (⟨[2, -1, -1]⟩ : Poly Int).gcdPseudoM (.machine true ⟨true, 64⟩) 4 4 ⟨[2, 7, 3]⟩ = .ok ⟨[0, -32, -16]⟩ := by decide +kernel
-- `x³ - 2` has one root in (1, 2], in `i64`; in `i8` the chain does not fit
example : (⟨[1, 0, 0, -2]⟩ : Poly Int).countRootsPseudoM (.machine true ⟨true, 64⟩) (tryFromUsizeContInt 64 ⟨true, 64⟩) 5 5 1 2 = .ok 1 ∧
    (⟨[1, 0, 0, -2]⟩ : Poly Int).countRootsPseudoM (.machine true ⟨true, 8⟩) (tryFromUsizeContInt 64 ⟨true, 8⟩) 5 5 1 2 = .panic := by
  decide +kernel

end Rustnomial
