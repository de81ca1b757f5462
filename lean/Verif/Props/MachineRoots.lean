import Verif.Model.MachineRoots
import Verif.Props.MachineFixed
import Verif.Props.MachineSparse
import Verif.Props.MachineWrap
import Verif.Props.MachineBuild

/-!
# C105: definite integrals, constants of integration, linear roots and quadratic factors over machine integers
-/

open Polynomial

namespace Rustnomial

/-! ## `Integral` -/

theorem Chk.definite {t : IntTy} {P : Type} {ev : P → Int → Res Int} {p : P} {a b : Int} {Ha Hb : Prop} {va vb : Int}
    (ha : Chk Ha (ev p a) va) (hb : Chk Hb (ev p b) vb) :
    Chk (Hb ∧ Ha ∧ t.InRange (vb - va)) (Integral.evalM (.machine true t) ev ⟨p⟩ a b) (vb - va) := by
  unfold Integral.evalM
  exact hb.bind fun _ => ha.bind fun _ => chk_result t _

section
variable (t : IntTy)

/-- C105, `Integral::eval` of a `Polynomial` with overflow checks: it returns the difference of the values at the two ends
exactly when both evaluations and the difference stay within the type. -/
theorem C105_dense_definite (p : Poly Int) (a b : Int) :
    (HornerFits t (descPoly p.terms) b ∧ HornerFits t (descPoly p.terms) a ∧
        t.InRange ((descPoly p.terms).eval b - (descPoly p.terms).eval a) →
      Integral.evalM (.machine true t) (Poly.evalM (.machine true t)) ⟨p⟩ a b =
        .ok ((descPoly p.terms).eval b - (descPoly p.terms).eval a)) ∧
    (¬ (HornerFits t (descPoly p.terms) b ∧ HornerFits t (descPoly p.terms) a ∧
        t.InRange ((descPoly p.terms).eval b - (descPoly p.terms).eval a)) →
      Integral.evalM (.machine true t) (Poly.evalM (.machine true t)) ⟨p⟩ a b = .panic) :=
  Chk.definite (C56_eval t p a) (C56_eval t p b)

-- `x^3` in `i8`: from `2` to `5` it is `117`; from `-4` to `4` each value fits but not the difference; at `6` nothing does
example : Integral.evalM (.machine true ⟨true, 8⟩) (Poly.evalM (.machine true ⟨true, 8⟩)) ⟨⟨[1, 0, 0, 0]⟩⟩ 2 5 = .ok 117 ∧
    Integral.evalM (.machine true ⟨true, 8⟩) (Poly.evalM (.machine true ⟨true, 8⟩)) ⟨⟨[1, 0, 0, 0]⟩⟩ (-4) 4 = .panic ∧
    Integral.evalM (.machine true ⟨true, 8⟩) (Poly.evalM (.machine true ⟨true, 8⟩)) ⟨⟨[1, 0, 0, 0]⟩⟩ 6 6 = .panic := by decide

/-- C105, `Integral::eval` of a `SparsePolynomial` (as integrals of monomials are), likewise. -/
theorem C105_sparse_definite (p : Sparse Int) (a b : Int) (h32 : ∀ e ∈ p.terms.entries, e.1 < 2 ^ 32) :
    (TermwiseFits t p.terms.entries b ∧ TermwiseFits t p.terms.entries a ∧
        t.InRange ((entriesPoly p.terms.entries).eval b - (entriesPoly p.terms.entries).eval a) →
      Integral.evalM (.machine true t) (Sparse.evalM (.machine true t)) ⟨p⟩ a b =
        .ok ((entriesPoly p.terms.entries).eval b - (entriesPoly p.terms.entries).eval a)) ∧
    (¬ (TermwiseFits t p.terms.entries b ∧ TermwiseFits t p.terms.entries a ∧
        t.InRange ((entriesPoly p.terms.entries).eval b - (entriesPoly p.terms.entries).eval a)) →
      Integral.evalM (.machine true t) (Sparse.evalM (.machine true t)) ⟨p⟩ a b = .panic) :=
  Chk.definite (C76_sparse_eval t p a h32) (C76_sparse_eval t p b h32)

-- `2 x^3 + x` in `i8`, from `-1` to `3`
example : Integral.evalM (.machine true ⟨true, 8⟩) (Sparse.evalM (.machine true ⟨true, 8⟩)) ⟨⟨⟨[(1, 1), (3, 2)], by decide⟩⟩⟩ (-1) 3 =
    .ok 60 := by decide

/-- C105, `Integral::eval` without overflow checks: the difference of the values, reduced to the type. -/
theorem C105_definite_wrap (hb : 1 ≤ t.bits) (p : Poly Int) (s : Sparse Int) (x y : Int) (hp : AllIn t p.terms)
    (h32 : ∀ e ∈ s.terms.entries, e.1 < 2 ^ 32) :
    Integral.evalM (.machine false t) (Poly.evalM (.machine false t)) ⟨p⟩ x y =
      .ok (t.wrap ((descPoly p.terms).eval y - (descPoly p.terms).eval x)) ∧
    Integral.evalM (.machine false t) (Sparse.evalM (.machine false t)) ⟨s⟩ x y =
      .ok (t.wrap ((entriesPoly s.terms.entries).eval y - (entriesPoly s.terms.entries).eval x)) := by
  have key : ∀ u v : Int, t.wrap (t.wrap u - t.wrap v) = t.wrap (u - v) := fun u v =>
    t.wrap_congr ((t.wrap_modEq u).sub (t.wrap_modEq v))
  constructor
  · unfold Integral.evalM
    rw [C57_eval t hb p y hp, Res.ok_bind, C57_eval t hb p x hp, Res.ok_bind]
    exact congrArg Res.ok (key _ _)
  · unfold Integral.evalM
    rw [C81_sparse_eval t s y h32, Res.ok_bind, C81_sparse_eval t s x h32, Res.ok_bind]
    exact congrArg Res.ok (key _ _)

-- `x^3` in `i8`: from `-4` to `4` it wraps to `-128`
example : Integral.evalM (.machine false ⟨true, 8⟩) (Poly.evalM (.machine false ⟨true, 8⟩)) ⟨⟨[1, 0, 0, 0]⟩⟩ (-4) 4 =
    .ok (-128) := by decide

theorem eval_mono_of_nonneg {P : ℤ[X]} (h : ∀ n, 0 ≤ P.coeff n) {x y : Int} (hx : 0 ≤ x) (hxy : x ≤ y) :
    P.eval x ≤ P.eval y := by
  rw [eval_eq_sum_range, eval_eq_sum_range]
  exact Finset.sum_le_sum fun i _ => mul_le_mul_of_nonneg_left (pow_le_pow_left₀ hx hxy i) (h i)

theorem eval_strictMono_of_nonneg {P : ℤ[X]} (h : ∀ n, 0 ≤ P.coeff n) (hd : 1 ≤ P.natDegree) {x y : Int} (hx : 0 ≤ x)
    (hxy : x < y) : P.eval x < P.eval y := by
  rw [eval_eq_sum_range, eval_eq_sum_range]
  refine Finset.sum_lt_sum (fun i _ => mul_le_mul_of_nonneg_left (pow_le_pow_left₀ hx hxy.le i) (h i))
    ⟨P.natDegree, by simp, ?_⟩
  have hlc : 0 < P.coeff P.natDegree := lt_of_le_of_ne (h _) (Ne.symm (leadingCoeff_ne_zero.2 (by rintro rfl; simp at hd)))
  exact mul_lt_mul_of_pos_left (pow_lt_pow_left₀ hxy hx (by omega)) hlc

/-- C105, `Integral::eval` over unsigned types with overflow checks: from left to right it returns exactly when the value at
the right end is a value of the type; from right to left it panics, unless the polynomial is constant. -/
theorem C105_definite_unsigned (bits : Nat) (p : Poly Int) (a b : Int) (hp : AllIn ⟨false, bits⟩ p.terms)
    (ha : 0 ≤ a) (hb : 0 ≤ b) :
    (a ≤ b → ((Integral.evalM (.machine true ⟨false, bits⟩) (Poly.evalM (.machine true ⟨false, bits⟩)) ⟨p⟩ a b =
      .ok ((descPoly p.terms).eval b - (descPoly p.terms).eval a)) ↔ (descPoly p.terms).eval b < 2 ^ bits)) ∧
    (b < a → 1 ≤ (descPoly p.terms).natDegree →
      Integral.evalM (.machine true ⟨false, bits⟩) (Poly.evalM (.machine true ⟨false, bits⟩)) ⟨p⟩ a b = .panic) := by
  have hc : ∀ n, 0 ≤ (descPoly p.terms).coeff n := fun n => by
    have := ((inRange_descPoly _ p.terms).1 hp n).1
    simpa [IntTy.min] using this
  have rng : ∀ v : Int, (⟨false, bits⟩ : IntTy).InRange v ↔ 0 ≤ v ∧ v < 2 ^ bits := by
    intro v
    simp only [IntTy.InRange, IntTy.min, IntTy.max, Bool.false_eq_true, if_false]
    omega
  have ev : ∀ x : Int, 0 ≤ x → ((descPoly p.terms).eval x < 2 ^ bits →
      Poly.evalM (.machine true ⟨false, bits⟩) p x = .ok ((descPoly p.terms).eval x)) ∧
      (¬ (descPoly p.terms).eval x < 2 ^ bits → Poly.evalM (.machine true ⟨false, bits⟩) p x = .panic) := by
    intro x hx
    have h1 := C56_eval_unsigned bits p x hp hx
    refine ⟨h1.2, fun h => ?_⟩
    by_cases hH : HornerFits ⟨false, bits⟩ (descPoly p.terms) x
    · exact absurd (h1.1 ((C56_eval _ p x).1 hH)) h
    · exact (C56_eval _ p x).2 hH
  have h := Chk.definite (t := ⟨false, bits⟩) (ev a ha) (ev b hb)
  have nn : ∀ x : Int, 0 ≤ x → 0 ≤ (descPoly p.terms).eval x := fun x hx => by
    rw [eval_eq_sum_range]
    exact Finset.sum_nonneg fun i _ => mul_nonneg (hc i) (pow_nonneg hx i)
  refine ⟨fun hab => ⟨fun hr => ?_, fun hb' => ?_⟩, fun hab hd => ?_⟩
  · by_contra hn
    rw [h.2 (fun H => hn H.1)] at hr
    simp at hr
  · have hm := eval_mono_of_nonneg hc ha hab
    exact h.1 ⟨hb', by omega, (rng _).2 ⟨by omega, by have := nn a ha; omega⟩⟩
  · have hm := eval_strictMono_of_nonneg hc hd hb hab
    exact h.2 (fun H => by have := ((rng _).1 H.2.2).1; omega)

-- `x^2` in `u8`, from `3` to `15` and back
example : Integral.evalM (.machine true ⟨false, 8⟩) (Poly.evalM (.machine true ⟨false, 8⟩)) ⟨⟨[1, 0, 0]⟩⟩ 3 15 = .ok 216 ∧
    Integral.evalM (.machine true ⟨false, 8⟩) (Poly.evalM (.machine true ⟨false, 8⟩)) ⟨⟨[1, 0, 0]⟩⟩ 15 3 = .panic := by decide

/-- C105, `Integral::replace_c` of a `Polynomial` with overflow checks: it adds the constant, and panics when the constant
coefficient overflows.  An integral made by `integral()` has constant coefficient zero, and then it never panics. -/
theorem C105_dense_replace_c (w cap : Nat) (hcap : cap < 2 ^ w) (h1 : 1 ≤ cap) (p : Poly Int) (c : Int)
    (hp : p.terms.length ≤ cap) (hc : t.InRange c) :
    (t.InRange ((descPoly p.terms).coeff 0 + c) →
      ∃ r, Integral.replaceCE (.machine true t w cap) ⟨p⟩ c = .ok r ∧ descPoly r.terms = descPoly p.terms + C c) ∧
    (¬ t.InRange ((descPoly p.terms).coeff 0 + c) → Integral.replaceCE (.machine true t w cap) ⟨p⟩ c = .panic) ∧
    ((descPoly p.terms).coeff 0 = 0 →
      ∃ r, Integral.replaceCE (.machine true t w cap) ⟨p⟩ c = .ok r ∧ descPoly r.terms = descPoly p.terms + C c) := by
  have h := addTermE_chk t w cap hcap p c 0 hp
  have e : descPoly (p.addTerm c 0).terms = descPoly p.terms + C c := by
    have := C31_dense_add_term p c 0
    simpa using this
  exact ⟨fun H => ⟨_, h.1 ⟨by omega, H⟩, e⟩, fun H => h.2 (fun H' => H H'.2), fun H => ⟨_, h.1 ⟨by omega, by rwa [H, zero_add]⟩, e⟩⟩

-- `x^2 + 100` in `i8`
example : Integral.replaceCE (.machine true ⟨true, 8⟩ 16 100) ⟨⟨[1, 0, 100]⟩⟩ 27 = .ok ⟨[1, 0, 127]⟩ ∧
    Integral.replaceCE (.machine true ⟨true, 8⟩ 16 100) ⟨⟨[1, 0, 100]⟩⟩ 28 = .panic := by decide

/-- C105, `Integral::replace_c` of a `SparsePolynomial`, likewise. -/
theorem C105_sparse_replace_c (p : Sparse Int) (c : Int) (hp : ∀ e ∈ p.terms.entries, t.InRange e.2) (hc : t.InRange c) :
    (t.InRange ((entriesPoly p.terms.entries).coeff 0 + c) →
      ∃ r, Integral.replaceCSparseM (.machine true t) ⟨p⟩ c = .ok r ∧
        entriesPoly r.terms.entries = entriesPoly p.terms.entries + C c) ∧
    (¬ t.InRange ((entriesPoly p.terms.entries).coeff 0 + c) →
      Integral.replaceCSparseM (.machine true t) ⟨p⟩ c = .panic) := by
  have h := C76_sparse_add_term t p c 0 hp hc
  rwa [pow_zero, mul_one] at h

/-- C105, `Integral::replace_c` without overflow checks: the constant coefficient is reduced to the type. -/
theorem C105_replace_c_wrap (w cap : Nat) (hb : 1 ≤ t.bits) (hcap : cap < 2 ^ w) (h1 : 1 ≤ cap) (p : Poly Int)
    (s : Sparse Int) (c : Int) (hl : p.terms.length ≤ cap) (hp : AllIn t p.terms)
    (hs : ∀ e ∈ s.terms.entries, t.InRange e.2) (hc : t.InRange c) :
    (∃ r, Integral.replaceCE (.machine false t w cap) ⟨p⟩ c = .ok r ∧ IsWrapOf t r (descPoly p.terms + C c)) ∧
    (∃ r, Integral.replaceCSparseM (.machine false t) ⟨s⟩ c = .ok r ∧
      IsWrapOfS t r (entriesPoly s.terms.entries + C c)) := by
  constructor
  · have h := C81_dense_add_term t hb p c 0 hp
    unfold Integral.replaceCE
    rw [addTermE_room t w cap false hcap p c 0 hl (by omega)]
    rwa [pow_zero, mul_one] at h
  · obtain ⟨_, _, _, _, h⟩ := C81_sparse_add_sub t hb s s p c 0 hs hs hc
    rwa [pow_zero, mul_one] at h

example : Integral.replaceCE (.machine false ⟨true, 8⟩ 16 100) ⟨⟨[1, 0, 100]⟩⟩ 28 = .ok ⟨[1, 0, -128]⟩ := by decide

end

/-! ## Linear roots -/

theorem tdiv_rem_lt (n a : Int) (ha : a ≠ 0) : |a * n.tdiv a - n| < |a| := by
  have h := Int.mul_tdiv_add_tmod n a
  have h2 : (n.tmod a).natAbs < a.natAbs := by
    rw [Int.natAbs_tmod]; exact Nat.mod_lt _ (by omega)
  have h3 : a * n.tdiv a - n = - n.tmod a := by omega
  rw [h3, abs_neg, Int.abs_eq_natAbs, Int.abs_eq_natAbs]
  exact_mod_cast h2

/-- C105, `LinearBinomial::root` for a signed type: of `a x + b` with `a ≠ 0`, a whole number `r` with `|a r + b| < |a|`, the
root if there is a whole one.  Only `b = MIN` is different: with overflow checks it panics; without them it panics for
`a = -1`, and otherwise the answer has the wrong sign. -/
theorem C105_linear_root (t : IntTy) (hs : t.signed = true) (hb : 1 ≤ t.bits) (b : LinearBinomial Int)
    (h0 : t.InRange b.c0) (h1 : t.InRange b.c1) (chk : Bool) :
    (b.poly = 0 → b.rootM (.machine chk t) = .ok .infiniteRoots) ∧
    (b.c0 = 0 → b.c1 ≠ 0 → b.rootM (.machine chk t) = .ok .noRoots) ∧
    (b.c0 ≠ 0 → b.c1 ≠ t.min → ∃ r, b.rootM (.machine chk t) = .ok (.oneRealRoot r) ∧ t.InRange r ∧
      |b.poly.eval r| < |b.c0| ∧ ((∃ z : Int, b.poly.eval z = 0) → b.poly.eval r = 0)) ∧
    (b.c0 ≠ 0 → b.c1 = t.min → b.rootM (.machine true t) = .panic) ∧
    (b.c0 = -1 → b.c1 = t.min → b.rootM (.machine false t) = .panic) ∧
    (b.c0 ≠ 0 → b.c0 ≠ -1 → b.c1 = t.min → ∃ r, b.rootM (.machine false t) = .ok (.oneRealRoot r) ∧ t.InRange r ∧
      |b.poly.eval (-r)| < |b.c0|) := by
  obtain ⟨a, c⟩ := b
  simp only at h0 h1 ⊢
  have hev : ∀ z, (LinearBinomial.poly ⟨a, c⟩).eval z = a * z + c := by
    intro z; simp [LinearBinomial.poly]
  have rng : ∀ v : Int, t.InRange v ↔ -2 ^ (t.bits - 1) ≤ v ∧ v < 2 ^ (t.bits - 1) := by
    intro v; simp only [IntTy.InRange, IntTy.min, IntTy.max, hs, if_true]; omega
  have hmin : t.min = -2 ^ (t.bits - 1) := by simp [IntTy.min, hs]
  have hpow : (1 : Int) ≤ 2 ^ (t.bits - 1) := one_le_pow₀ (by norm_num)
  have hdiv : ∀ n : Int, (n.tdiv a).natAbs ≤ n.natAbs := by
    intro n; rw [Int.natAbs_tdiv]; exact Nat.div_le_self _ _
  refine ⟨?_, ?_, ?_, ?_, ?_, ?_⟩
  · intro h
    have ha : a = 0 := by
      have := congrArg (fun P => P.coeff 1) h
      simp only [LinearBinomial.poly, linear_coeff] at this
      simpa using this
    have hc : c = 0 := by
      have := congrArg (fun P => P.coeff 0) h
      simp only [LinearBinomial.poly, linear_coeff] at this
      simpa using this
    simp [LinearBinomial.rootM, ha, hc]
  · intro ha hc
    simp [LinearBinomial.rootM, ha, hc]
  · intro ha hc
    have hn : t.InRange (-c) := by rw [rng] at h1 ⊢; omega
    have hneg : (Arith2.machine chk t).neg c = .ok (-c) := by
      show t.result chk (-c) = _
      unfold IntTy.result
      cases chk
      · simp [t.wrap_of_inRange hb _ hn]
      · simp [IntTy.checked, hn]
    have hr : t.InRange ((-c).tdiv a) := by
      have := hdiv (-c)
      rw [rng] at h1 ⊢
      omega
    have hd : (Arith2.machine chk t).div (-c) a = .ok ((-c).tdiv a) := by
      show (if a = 0 then Res.panic else t.checked ((-c).tdiv a)) = _
      rw [if_neg ha, IntTy.checked, if_pos hr]
    refine ⟨(-c).tdiv a, ?_, hr, ?_, ?_⟩
    · simp only [LinearBinomial.rootM, if_neg ha, hneg, Res.ok_bind, hd]
    · rw [hev]
      have := tdiv_rem_lt (-c) a ha
      rwa [sub_neg_eq_add] at this
    · rintro ⟨z, hz⟩
      rw [hev] at hz ⊢
      have : -c = a * z := by omega
      rw [this, Int.mul_tdiv_cancel_left _ ha]
      exact hz
  · intro ha hc
    have hneg : (Arith2.machine true t).neg c = .panic := by
      show t.checked (-c) = _
      rw [IntTy.checked, if_neg]
      rw [rng, hc, hmin]; omega
    simp only [LinearBinomial.rootM, if_neg ha, hneg]
    rfl
  · intro ha hc
    have hw : (Arith2.machine false t).neg c = .ok c := by
      show Res.ok (t.wrap (-c)) = _
      have hm : t.wrap (-c) = t.wrap c := by
        rw [show -c = c + 2 ^ t.bits by
          rw [hc, hmin]
          obtain ⟨k, hk⟩ : ∃ k, t.bits = k + 1 := ⟨t.bits - 1, by omega⟩
          rw [hk, Nat.add_sub_cancel, pow_succ]; ring]
        unfold IntTy.wrap
        simp only [hs, if_true]
        rw [show (2 ^ t.bits : Int) = ((2 ^ t.bits : ℕ) : Int) by push_cast; rfl]
        exact Int.add_bmod_right ..
      rw [hm, t.wrap_of_inRange hb _ h1]
    have hd : (Arith2.machine false t).div c a = .panic := by
      show (if a = 0 then Res.panic else t.checked (c.tdiv a)) = _
      rw [if_neg (by omega), IntTy.checked, if_neg]
      rw [ha, show (-1 : Int) = -(1 : Int) from rfl, Int.tdiv_neg, Int.tdiv_one, rng, hc, hmin]
      omega
    have ha' : a ≠ 0 := by omega
    simp only [LinearBinomial.rootM, if_neg ha', hw, Res.ok_bind, hd]
    rfl
  · intro ha ha1 hc
    have hw : (Arith2.machine false t).neg c = .ok c := by
      show Res.ok (t.wrap (-c)) = _
      have hm : t.wrap (-c) = t.wrap c := by
        rw [show -c = c + 2 ^ t.bits by
          rw [hc, hmin]
          obtain ⟨k, hk⟩ : ∃ k, t.bits = k + 1 := ⟨t.bits - 1, by omega⟩
          rw [hk, Nat.add_sub_cancel, pow_succ]; ring]
        unfold IntTy.wrap
        simp only [hs, if_true]
        rw [show (2 ^ t.bits : Int) = ((2 ^ t.bits : ℕ) : Int) by push_cast; rfl]
        exact Int.add_bmod_right ..
      rw [hm, t.wrap_of_inRange hb _ h1]
    have hr : t.InRange (c.tdiv a) := by
      by_cases h1a : a = 1
      · rw [h1a, Int.tdiv_one]; exact h1
      · have h2 : 2 * (c.tdiv a).natAbs ≤ c.natAbs := by
          rw [Int.natAbs_tdiv]
          have : c.natAbs / a.natAbs ≤ c.natAbs / 2 := Nat.div_le_div_left (by omega) (by norm_num)
          show 2 * (c.natAbs / a.natAbs) ≤ _
          omega
        rw [rng] at h1 ⊢
        omega
    have hd : (Arith2.machine false t).div c a = .ok (c.tdiv a) := by
      show (if a = 0 then Res.panic else t.checked (c.tdiv a)) = _
      rw [if_neg ha, IntTy.checked, if_pos hr]
    refine ⟨c.tdiv a, ?_, hr, ?_⟩
    · simp only [LinearBinomial.rootM, if_neg ha, hw, Res.ok_bind, hd]
    · rw [hev]
      have := tdiv_rem_lt c a ha
      rw [show a * -c.tdiv a + c = -(a * c.tdiv a - c) by ring, abs_neg]
      exact this

-- `3 x + 7`, `x - 128`, `-x - 128` and `2 x - 128` in `i8`
example : LinearBinomial.rootM (.machine true ⟨true, 8⟩) ⟨3, 7⟩ = .ok (.oneRealRoot (-2)) ∧
    LinearBinomial.rootM (.machine true ⟨true, 8⟩) ⟨1, -128⟩ = .panic ∧
    LinearBinomial.rootM (.machine false ⟨true, 8⟩) ⟨-1, -128⟩ = .panic ∧
    LinearBinomial.rootM (.machine false ⟨true, 8⟩) ⟨2, -128⟩ = .ok (.oneRealRoot (-64)) := by decide

/-- C105, `ArrayPolynomial<N, 2>::root` does the same. -/
theorem C105_array_root (A : Arith2) (p : ArrayPoly Int 2) (a b : Int) (hp : p.coefficients = [a, b]) :
    p.rootM A = LinearBinomial.rootM A ⟨a, b⟩ := by
  unfold ArrayPoly.rootM LinearBinomial.rootM
  rw [hp]

/-! ## Factors of quadratics -/

theorem factors_iff {a b c : Int} (ha : a ≠ 0) {m s : Int} (hm : m = (-b).tdiv (2 * a))
    (hs : s = ((discrim a b c).natAbs.sqrt : Int).tdiv (2 * a)) :
    C a * (LinearBinomial.new 1 (-(m + s))).poly * (LinearBinomial.new 1 (-(m - s))).poly =
        (QuadraticTrinomial.new a b c).poly ↔
      ∃ u v : Int, Even (u - v) ∧ (QuadraticTrinomial.new a b c).poly = C a * (X - C u) * (X - C v) := by
  have hl : ∀ r : Int, (LinearBinomial.new 1 (-r)).poly = X - C r := by
    intro r; simp [LinearBinomial.poly, LinearBinomial.new, sub_eq_add_neg]
  rw [hl, hl]
  constructor
  · intro h
    exact ⟨_, _, ⟨s, by ring⟩, h.symm⟩
  · rintro ⟨u, v, ⟨k, hk⟩, h⟩
    have hu : u = v + 2 * k := by omega
    have e : C a * (X - C u) * (X - C v) = C a * X ^ 2 + C (-(a * (u + v))) * X + C (a * u * v) := by
      simp only [C_mul, C_neg, C_add]; ring
    rw [e] at h
    have h1 := congrArg (fun P => P.coeff 1) h
    have h0 := congrArg (fun P => P.coeff 0) h
    simp only [QuadraticTrinomial.poly, QuadraticTrinomial.new, quadratic_coeff] at h1 h0
    simp at h1 h0
    have hb : -b = 2 * a * (v + k) := by rw [h1, hu]; ring
    have hm' : m = v + k := by rw [hm, hb, Int.mul_tdiv_cancel_left _ (by omega)]
    have hDv : discrim a b c = (2 * a * k) ^ 2 := by
      unfold discrim; rw [h1, h0, hu]; ring
    have hsq : (discrim a b c).natAbs.sqrt = (2 * a * k).natAbs := by
      rw [hDv, Int.natAbs_pow, Nat.sqrt_eq']
    have hs' : s = k ∨ s = -k := by
      rw [hs, hsq]
      rcases Int.natAbs_eq (2 * a * k) with h | h
      · left; rw [← h, Int.mul_tdiv_cancel_left _ (by omega)]
      · right
        rw [show (((2 * a * k).natAbs : Int)) = 2 * a * (-k) by rw [mul_neg]; omega, Int.mul_tdiv_cancel_left _ (by omega)]
    have hfin : C a * (X - C (m + s)) * (X - C (m - s)) = C a * (X - C u) * (X - C v) := by
      rcases hs' with h | h
      · rw [hm', h, show v + k + k = u by omega, show v + k - k = v by omega]
      · rw [hm', h, show v + k + -k = v by omega, show v + k - -k = u by omega]; ring
    rw [hfin, e, h]

section
variable (h : Nat)

/-- The operands for which `roots` does not overflow, see `C79_quadratic_roots`. -/
def RootsFit (h : Nat) (q : QuadraticTrinomial Int) : Prop :=
  q.c0 ≠ 0 ∧ (⟨true, 2 * h⟩ : IntTy).InRange (q.c1 ^ 2) ∧ (⟨true, 2 * h⟩ : IntTy).InRange (4 * q.c0 * q.c2) ∧
    (⟨true, 2 * h⟩ : IntTy).InRange (discrim q.c0 q.c1 q.c2) ∧ (⟨true, 2 * h⟩ : IntTy).InRange (2 * q.c0)

/-- The roots are small enough to be negated. -/
theorem roots_bound {q : QuadraticTrinomial Int} (hf : RootsFit h q) {m s : Int}
    (hm : m = (-q.c1).tdiv (2 * q.c0)) (hs : s = ((discrim q.c0 q.c1 q.c2).natAbs.sqrt : Int).tdiv (2 * q.c0)) :
    (⟨true, 2 * h⟩ : IntTy).InRange (-(m + s)) ∧ (⟨true, 2 * h⟩ : IntTy).InRange (-(m - s)) := by
  obtain ⟨a, b, c⟩ := q
  obtain ⟨ha, hb2, h4, hDr, h2a⟩ := hf
  simp only at *
  have rng : ∀ v : Int, (⟨true, 2 * h⟩ : IntTy).InRange v ↔ -2 ^ (2 * h - 1) ≤ v ∧ v < 2 ^ (2 * h - 1) := by
    intro v; simp only [IntTy.InRange, IntTy.min, IntTy.max, if_true]; omega
  have half : ∀ x : Int, 2 * (x.tdiv (2 * a)).natAbs ≤ x.natAbs := by
    intro x
    rw [Int.natAbs_tdiv]
    have : x.natAbs / (2 * a).natAbs ≤ x.natAbs / 2 := Nat.div_le_div_left (by omega) (by norm_num)
    show 2 * (x.natAbs / (2 * a).natAbs) ≤ _
    omega
  have hm' := half (-b)
  have hs' := half ((discrim a b c).natAbs.sqrt : Int)
  rw [← hm, Int.natAbs_neg] at hm'
  rw [← hs, Int.natAbs_natCast] at hs'
  rw [rng] at hb2 hDr
  have h3 : ((2 ^ (2 * h - 1) : Nat) : Int) = 2 ^ (2 * h - 1) := by push_cast; rfl
  have hbabs : b.natAbs < 2 ^ (2 * h - 1) := by
    have h1 : b.natAbs ≤ b.natAbs ^ 2 := Nat.le_self_pow (by norm_num) _
    have h2 : ((b.natAbs ^ 2 : Nat) : Int) = b ^ 2 := by push_cast; exact sq_abs b
    omega
  have hsq : (discrim a b c).natAbs.sqrt ≤ 2 ^ (2 * h - 1) :=
    le_trans (Nat.sqrt_le_self _) (by omega)
  rw [rng, rng]
  omega

theorem machine_neg_ok {t : IntTy} {v : Int} (hv : t.InRange (-v)) : (Arith2.machine true t).neg v = .ok (-v) :=
  (chk_result t (-v)).1 hv

/-- C105, `QuadraticTrinomial::real_factors` for a signed type of even width at least four, with overflow checks: it panics
exactly when `roots` does (`C79_quadratic_roots`).  Otherwise it returns `None` exactly for a negative discriminant, and
two factors if not, which multiply back exactly when the polynomial is `a (x - u) (x - v)` with whole `u` and `v` both even
or both odd. -/
theorem C105_real_factors (hh : 2 ≤ h) (q : QuadraticTrinomial Int) :
    (RootsFit h q → ∀ fuel, (discrim q.c0 q.c1 q.c2).natAbs + 2 ≤ fuel →
      (discrim q.c0 q.c1 q.c2 < 0 → q.realFactorsM (.machine true ⟨true, 2 * h⟩) true (2 * h) fuel = .ok none) ∧
      (0 ≤ discrim q.c0 q.c1 q.c2 → ∃ u v : Int,
        q.rootsM (.machine true ⟨true, 2 * h⟩) true (2 * h) fuel = .ok (.twoRealRoots u v) ∧
        q.realFactorsM (.machine true ⟨true, 2 * h⟩) true (2 * h) fuel =
          .ok (some (q.c0, .new 1 (-u), .new 1 (-v))) ∧
        (C q.c0 * (LinearBinomial.new 1 (-u)).poly * (LinearBinomial.new 1 (-v)).poly = q.poly ↔
          ∃ u v : Int, Even (u - v) ∧ q.poly = C q.c0 * (X - C u) * (X - C v)))) ∧
    (¬ RootsFit h q → ∀ fuel, q.realFactorsM (.machine true ⟨true, 2 * h⟩) true (2 * h) fuel = .panic) := by
  obtain ⟨r1, r2⟩ := C79_quadratic_roots h hh q
  constructor
  · intro hf fuel hfu
    obtain ⟨m, s, hm, hs, hr⟩ := r1 hf fuel hfu
    obtain ⟨b1, b2⟩ := roots_bound h hf hm hs
    constructor
    · intro hD
      rw [if_pos hD] at hr
      simp only [QuadraticTrinomial.realFactorsM, hr, Res.ok_bind]
    · intro hD
      rw [if_neg (by omega)] at hr
      refine ⟨_, _, hr, ?_, ?_⟩
      · simp only [QuadraticTrinomial.realFactorsM, hr, Res.ok_bind, machine_neg_ok b1, machine_neg_ok b2]
      · obtain ⟨a, b, c⟩ := q
        exact factors_iff hf.1 hm hs
  · intro hf fuel
    simp only [QuadraticTrinomial.realFactorsM, r2 hf fuel]
    rfl

-- in `i16`: `2 (x - 1) (x - 5)` comes back, `(x - 1) (x - 2)` does not, `x^2 + 1` has no real factors, and the discriminant of
-- `x^2 + 200 x` is out of range
example : RootsFit 8 ⟨2, -12, 10⟩ ∧ RootsFit 8 ⟨1, -3, 2⟩ ∧ RootsFit 8 ⟨1, 0, 1⟩ ∧ ¬ RootsFit 8 ⟨1, 200, 0⟩ := by
  unfold RootsFit discrim IntTy.InRange IntTy.min IntTy.max; decide

example : QuadraticTrinomial.realFactorsM (.machine true ⟨true, 16⟩) true 16 100 ⟨2, -12, 10⟩ =
      .ok (some (2, .new 1 (-5), .new 1 (-1))) ∧
    QuadraticTrinomial.realFactorsM (.machine true ⟨true, 16⟩) true 16 100 ⟨1, -3, 2⟩ =
      .ok (some (1, .new 1 (-1), .new 1 (-1))) := by decide +kernel

example : QuadraticTrinomial.realFactorsM (.machine true ⟨true, 16⟩) true 16 100 ⟨1, 0, 1⟩ = .ok none ∧
    QuadraticTrinomial.realFactorsM (.machine true ⟨true, 16⟩) true 16 100 ⟨1, 200, 0⟩ = .panic := by decide +kernel

/-- C105, `QuadraticTrinomial::complex_factors`, likewise: the two roots in `x + root` if the discriminant is negative (the
wrong sign: C45), and `x - root` otherwise. -/
theorem C105_complex_factors (hh : 2 ≤ h) (q : QuadraticTrinomial Int) :
    (RootsFit h q → ∀ fuel, (discrim q.c0 q.c1 q.c2).natAbs + 2 ≤ fuel →
      (discrim q.c0 q.c1 q.c2 < 0 → ∃ u v : Cplx Int,
        q.rootsM (.machine true ⟨true, 2 * h⟩) true (2 * h) fuel = .ok (.twoComplexRoots u v) ∧
        q.complexFactorsM (.machine true ⟨true, 2 * h⟩) true (2 * h) fuel = .ok (q.c0, .new ⟨1, 0⟩ u, .new ⟨1, 0⟩ v)) ∧
      (0 ≤ discrim q.c0 q.c1 q.c2 → ∃ u v : Int,
        q.rootsM (.machine true ⟨true, 2 * h⟩) true (2 * h) fuel = .ok (.twoRealRoots u v) ∧
        q.complexFactorsM (.machine true ⟨true, 2 * h⟩) true (2 * h) fuel =
          .ok (q.c0, .new ⟨1, 0⟩ ⟨-u, 0⟩, .new ⟨1, 0⟩ ⟨-v, 0⟩))) ∧
    (¬ RootsFit h q → ∀ fuel, q.complexFactorsM (.machine true ⟨true, 2 * h⟩) true (2 * h) fuel = .panic) := by
  obtain ⟨r1, r2⟩ := C79_quadratic_roots h hh q
  have h0 : (Arith2.machine true ⟨true, 2 * h⟩).neg 0 = .ok 0 := by
    have := machine_neg_ok (t := ⟨true, 2 * h⟩) (v := 0) (by rw [neg_zero]; exact IntTy.zero_inRange _)
    rwa [neg_zero] at this
  constructor
  · intro hf fuel hfu
    obtain ⟨m, s, hm, hs, hr⟩ := r1 hf fuel hfu
    obtain ⟨b1, b2⟩ := roots_bound h hf hm hs
    constructor
    · intro hD
      rw [if_pos hD] at hr
      refine ⟨_, _, hr, ?_⟩
      simp only [QuadraticTrinomial.complexFactorsM, hr, Res.ok_bind, h0]
    · intro hD
      rw [if_neg (by omega)] at hr
      refine ⟨_, _, hr, ?_⟩
      simp only [QuadraticTrinomial.complexFactorsM, hr, Res.ok_bind, machine_neg_ok b1, machine_neg_ok b2]
  · intro hf fuel
    simp only [QuadraticTrinomial.complexFactorsM, r2 hf fuel]
    rfl

-- `x^2 - 2 x + 5` in `i16`
example : QuadraticTrinomial.complexFactorsM (.machine true ⟨true, 16⟩) true 16 100 ⟨1, -2, 5⟩ =
      .ok (1, .new ⟨1, 0⟩ ⟨1, 2⟩, .new ⟨1, 0⟩ ⟨1, -2⟩) ∧
    QuadraticTrinomial.complexFactorsM (.machine true ⟨true, 16⟩) true 16 100 ⟨2, -12, 10⟩ =
      .ok (2, .new ⟨1, 0⟩ ⟨-5, 0⟩, .new ⟨1, 0⟩ ⟨-1, 0⟩) := by decide +kernel

/-- Operands of `roots` without overflow checks: `2a` reduced to the type is even, and zero for `a = 0` and `a = MIN` only. -/
theorem wrap_double (hh : 1 ≤ h) {a : Int} (ha : (⟨true, 2 * h⟩ : IntTy).InRange a) :
    Even ((⟨true, 2 * h⟩ : IntTy).wrap (2 * a)) ∧
    ((⟨true, 2 * h⟩ : IntTy).wrap (2 * a) = 0 ↔ a = 0 ∨ a = (⟨true, 2 * h⟩ : IntTy).min) := by
  have hm : (⟨true, 2 * h⟩ : IntTy).wrap (2 * a) ≡ 2 * a [ZMOD 2 ^ (2 * h)] := IntTy.wrap_modEq _ _
  have hp : (2 : Int) ^ (2 * h) = 2 * 2 ^ (2 * h - 1) := by rw [← pow_succ']; congr 1; omega
  have hmin : (⟨true, 2 * h⟩ : IntTy).min = -2 ^ (2 * h - 1) := by simp [IntTy.min]
  have hmax : (⟨true, 2 * h⟩ : IntTy).max = 2 ^ (2 * h - 1) - 1 := by simp [IntTy.max]
  rw [IntTy.InRange, hmin, hmax] at ha
  rw [hmin]
  obtain ⟨k, hk⟩ := hm.dvd
  rw [hp] at hk
  refine ⟨⟨a - 2 ^ (2 * h - 1) * k, by linarith⟩, ⟨fun h0 => ?_, ?_⟩⟩
  · rw [h0] at hk
    have hk' : a = 2 ^ (2 * h - 1) * k := by linarith
    have hpos : (0 : Int) < 2 ^ (2 * h - 1) := by positivity
    have h1 : -1 ≤ k := by nlinarith
    have h2 : k < 1 := by nlinarith
    have : k = 0 ∨ k = -1 := by omega
    rcases this with rfl | rfl
    · left; simpa using hk'
    · right; simpa using hk'
  · have hz : (⟨true, 2 * h⟩ : IntTy).wrap 0 = 0 :=
      IntTy.wrap_of_inRange _ (show 1 ≤ 2 * h by omega) 0 (IntTy.zero_inRange _)
    rintro (rfl | rfl)
    · rw [mul_zero]; exact hz
    · rw [← hz]
      refine IntTy.wrap_congr _ (Int.modEq_zero_iff_dvd.2 ⟨-1, ?_⟩)
      show 2 * -2 ^ (2 * h - 1) = 2 ^ (2 * h) * -1
      rw [hp]; ring

/-- C105, `QuadraticTrinomial::roots` without overflow checks, for a signed type of even width at least four: a panic (division by
zero) exactly for `a = 0` and `a = MIN`, and otherwise the formula with the discriminant, `2a` and `-b` reduced to the type. -/
theorem C105_roots_wrap (hh : 2 ≤ h) (q : QuadraticTrinomial Int) (ha : (⟨true, 2 * h⟩ : IntTy).InRange q.c0) :
    (q.c0 = 0 ∨ q.c0 = (⟨true, 2 * h⟩ : IntTy).min →
      ∀ fuel, q.rootsM (.machine false ⟨true, 2 * h⟩) false (2 * h) fuel = .panic) ∧
    (q.c0 ≠ 0 → q.c0 ≠ (⟨true, 2 * h⟩ : IntTy).min → ∀ D, D = (⟨true, 2 * h⟩ : IntTy).wrap (discrim q.c0 q.c1 q.c2) →
      ∀ fuel, D.natAbs + 2 ≤ fuel → ∃ m s : Int,
        m = ((⟨true, 2 * h⟩ : IntTy).wrap (-q.c1)).tdiv ((⟨true, 2 * h⟩ : IntTy).wrap (2 * q.c0)) ∧
        s = (D.natAbs.sqrt : Int).tdiv ((⟨true, 2 * h⟩ : IntTy).wrap (2 * q.c0)) ∧
        (⟨true, 2 * h⟩ : IntTy).InRange (-(m + s)) ∧ (⟨true, 2 * h⟩ : IntTy).InRange (-(m - s)) ∧
        q.rootsM (.machine false ⟨true, 2 * h⟩) false (2 * h) fuel = .ok (
          if D < 0 then .twoComplexRoots ⟨m, s⟩ ⟨m, -s⟩ else .twoRealRoots (m + s) (m - s))) := by
  have hwd := wrap_double h (by omega) ha
  have hdis : ∀ q : QuadraticTrinomial Int, q.discriminantM (Arith2.machine false ⟨true, 2 * h⟩).toArith =
      .ok ((⟨true, 2 * h⟩ : IntTy).wrap (discrim q.c0 q.c1 q.c2)) := by
    intro q
    show Res.ok (IntTy.wrap _ (IntTy.wrap _ (q.c1 * q.c1) - IntTy.wrap _ (IntTy.wrap _ (q.c0 * q.c2) * 4))) = _
    congr 1
    refine IntTy.wrap_congr _ ?_
    have e : discrim q.c0 q.c1 q.c2 = q.c1 * q.c1 - q.c0 * q.c2 * 4 := by unfold discrim; ring
    rw [e]
    exact (IntTy.wrap_modEq _ _).sub ((IntTy.wrap_modEq _ _).trans ((IntTy.wrap_modEq _ _).mul_right 4))
  have hb : 1 ≤ (⟨true, 2 * h⟩ : IntTy).bits := show 1 ≤ 2 * h by omega
  have rng : ∀ v : Int, (⟨true, 2 * h⟩ : IntTy).InRange v ↔ -2 ^ (2 * h - 1) ≤ v ∧ v < 2 ^ (2 * h - 1) := by
    intro v; simp only [IntTy.InRange, IntTy.min, IntTy.max, if_true]; omega
  have hB := (rng _).1 (IntTy.wrap_inRange ⟨true, 2 * h⟩ hb (-q.c1))
  have e2 : q.c0 * 2 = 2 * q.c0 := mul_comm _ _
  have r1 : (Arith2.machine false ⟨true, 2 * h⟩).mul q.c0 2 = .ok ((⟨true, 2 * h⟩ : IntTy).wrap (2 * q.c0)) := by
    rw [← e2]; rfl
  have r2 : (Arith2.machine false ⟨true, 2 * h⟩).neg q.c1 = .ok ((⟨true, 2 * h⟩ : IntTy).wrap (-q.c1)) := rfl
  constructor
  · intro h0 fuel
    unfold QuadraticTrinomial.rootsM
    rw [hdis, Res.ok_bind]
    rw [r1, Res.ok_bind, r2, Res.ok_bind, show ∀ x, (Arith2.machine false ⟨true, 2 * h⟩).div x
      ((⟨true, 2 * h⟩ : IntTy).wrap (2 * q.c0)) = .panic from fun x => (chk_div false _ _ _).2 (by simp [hwd.2.2 h0])]
    rfl
  · intro h0 h0' D hD fuel hf
    refine ⟨_, _, rfl, rfl, ?_⟩
    have hA0 : (⟨true, 2 * h⟩ : IntTy).wrap (2 * q.c0) ≠ 0 := fun h => (hwd.2.1 h).elim h0 h0'
    obtain ⟨k, hk⟩ := hwd.1
    have hDr := (rng _).1 (IntTy.wrap_inRange ⟨true, 2 * h⟩ hb (discrim q.c0 q.c1 q.c2))
    have hr0 : absSqrtI false (2 * h) fuel D = .ok (D.natAbs.sqrt : Int) := by
      by_cases hmin : D = (⟨true, 2 * h⟩ : IntTy).min
      · have hn : D.natAbs = 2 ^ (2 * h - 1) := by
          rw [hmin, show (⟨true, 2 * h⟩ : IntTy).min = -2 ^ (2 * h - 1) by simp [IntTy.min], Int.natAbs_neg, Int.natAbs_pow]
          rfl
        have := (C40_signed_min h hh).2 fuel (by omega)
        rw [hn, hmin]; exact this
      · exact C40_signed false h D hh (by rw [hD]; exact IntTy.wrap_inRange _ hb _) hmin fuel hf
    rw [← hD] at hDr
    unfold QuadraticTrinomial.rootsM
    rw [hdis, Res.ok_bind, ← hD]
    rw [r1, Res.ok_bind, r2, Res.ok_bind]
    generalize (⟨true, 2 * h⟩ : IntTy).wrap (2 * q.c0) = A at *
    generalize (⟨true, 2 * h⟩ : IntTy).wrap (-q.c1) = B at *
    have half : ∀ x : Int, 2 * (x.tdiv A).natAbs ≤ x.natAbs := by
      intro x
      rw [Int.natAbs_tdiv]
      have : x.natAbs / A.natAbs ≤ x.natAbs / 2 := Nat.div_le_div_left (by omega) (by norm_num)
      show 2 * (x.natAbs / A.natAbs) ≤ _
      omega
    have hm := half B
    have hs := half (D.natAbs.sqrt : Int)
    rw [Int.natAbs_natCast] at hs
    have h3 : ((2 ^ (2 * h - 1) : Nat) : Int) = 2 ^ (2 * h - 1) := by push_cast; rfl
    have h8 : 8 ≤ 2 ^ (2 * h - 1) := by
      have : 2 ^ 3 ≤ 2 ^ (2 * h - 1) := Nat.pow_le_pow_right (by norm_num) (by omega)
      simpa using this
    -- the square root is at most half of the bound
    have hsq : 2 * D.natAbs.sqrt < 2 ^ (2 * h - 1) := by
      have h1 := Nat.sqrt_le D.natAbs
      have h2 : D.natAbs ≤ 2 ^ (2 * h - 1) := by omega
      by_contra hc
      have h4 : 4 ≤ D.natAbs.sqrt := by omega
      nlinarith
    have r3 : (Arith2.machine false ⟨true, 2 * h⟩).div B A = .ok (B.tdiv A) :=
      (chk_div false _ _ _).1 ⟨hA0, (rng _).2 (by omega)⟩
    have r4 : (Arith2.machine false ⟨true, 2 * h⟩).div (D.natAbs.sqrt : Int) A = .ok ((D.natAbs.sqrt : Int).tdiv A) :=
      (chk_div false _ _ _).1 ⟨hA0, (rng _).2 (by omega)⟩
    have ok : ∀ v : Int, (⟨true, 2 * h⟩ : IntTy).InRange v → (⟨true, 2 * h⟩ : IntTy).result false v = .ok v := by
      intro v hv
      show Res.ok _ = _
      rw [IntTy.wrap_of_inRange _ hb v hv]
    rw [r3, Res.ok_bind]
    generalize B.tdiv A = m at *
    refine ⟨(rng _).2 (by omega), (rng _).2 (by omega), ?_⟩
    by_cases hD0 : D = 0
    · rw [if_pos hD0, if_neg (by omega), hD0]; simp
    · rw [if_neg hD0, hr0, Res.ok_bind, r4, Res.ok_bind]
      generalize (D.natAbs.sqrt : Int).tdiv A = s at *
      by_cases hDn : D < 0
      · rw [if_pos hDn, if_neg (by simp [isPositiveInt]; omega),
          show (Arith2.machine false ⟨true, 2 * h⟩).neg s = .ok (-s) from ok _ ((rng _).2 (by omega)), Res.ok_bind]
      · rw [if_neg hDn, if_pos (by simp [isPositiveInt]; omega),
          show (Arith2.machine false ⟨true, 2 * h⟩).add m s = .ok (m + s) from ok _ ((rng _).2 (by omega)), Res.ok_bind,
          show (Arith2.machine false ⟨true, 2 * h⟩).sub m s = .ok (m - s) from ok _ ((rng _).2 (by omega)), Res.ok_bind]

-- in `i8`: `-128 x^2` panics; the discriminant `144` of `x^2 - 12 x` becomes `-112`, so that the real roots `0` and `12` become
-- complex; that of `x^2 - 8 x - 16` becomes `-128 = MIN`
example : QuadraticTrinomial.rootsM (.machine false ⟨true, 8⟩) false 8 200 ⟨-128, 0, 0⟩ = .panic ∧
    QuadraticTrinomial.rootsM (.machine false ⟨true, 8⟩) false 8 200 ⟨1, -12, 0⟩ = .ok (.twoComplexRoots ⟨6, 5⟩ ⟨6, -5⟩) ∧
    QuadraticTrinomial.rootsM (.machine false ⟨true, 8⟩) false 8 200 ⟨1, -8, -16⟩ = .ok (.twoComplexRoots ⟨4, 5⟩ ⟨4, -5⟩) := by
  decide +kernel

/-- C105, the factors without overflow checks: they panic exactly for `a = 0` and `a = MIN`, and otherwise are made of the roots. -/
theorem C105_factors_wrap (hh : 2 ≤ h) (q : QuadraticTrinomial Int) (ha : (⟨true, 2 * h⟩ : IntTy).InRange q.c0) :
    (q.c0 = 0 ∨ q.c0 = (⟨true, 2 * h⟩ : IntTy).min → ∀ fuel,
      q.realFactorsM (.machine false ⟨true, 2 * h⟩) false (2 * h) fuel = .panic ∧
      q.complexFactorsM (.machine false ⟨true, 2 * h⟩) false (2 * h) fuel = .panic) ∧
    (q.c0 ≠ 0 → q.c0 ≠ (⟨true, 2 * h⟩ : IntTy).min → ∀ D, D = (⟨true, 2 * h⟩ : IntTy).wrap (discrim q.c0 q.c1 q.c2) →
      ∀ fuel, D.natAbs + 2 ≤ fuel →
      (D < 0 → ∃ u v : Cplx Int,
        q.rootsM (.machine false ⟨true, 2 * h⟩) false (2 * h) fuel = .ok (.twoComplexRoots u v) ∧
        q.realFactorsM (.machine false ⟨true, 2 * h⟩) false (2 * h) fuel = .ok none ∧
        q.complexFactorsM (.machine false ⟨true, 2 * h⟩) false (2 * h) fuel = .ok (q.c0, .new ⟨1, 0⟩ u, .new ⟨1, 0⟩ v)) ∧
      (0 ≤ D → ∃ u v : Int,
        q.rootsM (.machine false ⟨true, 2 * h⟩) false (2 * h) fuel = .ok (.twoRealRoots u v) ∧
        q.realFactorsM (.machine false ⟨true, 2 * h⟩) false (2 * h) fuel = .ok (some (q.c0, .new 1 (-u), .new 1 (-v))) ∧
        q.complexFactorsM (.machine false ⟨true, 2 * h⟩) false (2 * h) fuel =
          .ok (q.c0, .new ⟨1, 0⟩ ⟨-u, 0⟩, .new ⟨1, 0⟩ ⟨-v, 0⟩))) := by
  obtain ⟨r1, r2⟩ := C105_roots_wrap h hh q ha
  have ok : ∀ v : Int, (⟨true, 2 * h⟩ : IntTy).InRange (-v) → (Arith2.machine false ⟨true, 2 * h⟩).neg v = .ok (-v) := by
    intro v hv
    show Res.ok _ = _
    rw [IntTy.wrap_of_inRange _ (show 1 ≤ 2 * h by omega) _ hv]
  constructor
  · intro h0 fuel
    simp only [QuadraticTrinomial.realFactorsM, QuadraticTrinomial.complexFactorsM, r1 h0 fuel]
    exact ⟨rfl, rfl⟩
  · intro h0 h0' D hD fuel hf
    obtain ⟨m, s, -, -, b1, b2, hr⟩ := r2 h0 h0' D hD fuel hf
    constructor
    · intro hDn
      rw [if_pos hDn] at hr
      have hz : (Arith2.machine false ⟨true, 2 * h⟩).neg 0 = .ok 0 := by
        have := ok 0 (by rw [neg_zero]; exact IntTy.zero_inRange _)
        rwa [neg_zero] at this
      refine ⟨_, _, hr, ?_, ?_⟩
      · simp only [QuadraticTrinomial.realFactorsM, hr, Res.ok_bind]
      · simp only [QuadraticTrinomial.complexFactorsM, hr, Res.ok_bind, hz]
    · intro hDn
      rw [if_neg (by omega)] at hr
      refine ⟨_, _, hr, ?_, ?_⟩
      · simp only [QuadraticTrinomial.realFactorsM, hr, Res.ok_bind, ok _ b1, ok _ b2]
      · simp only [QuadraticTrinomial.complexFactorsM, hr, Res.ok_bind, ok _ b1, ok _ b2]

example : QuadraticTrinomial.realFactorsM (.machine false ⟨true, 8⟩) false 8 200 ⟨1, -12, 0⟩ = .ok none ∧
    QuadraticTrinomial.realFactorsM (.machine false ⟨true, 8⟩) false 8 200 ⟨1, -6, 5⟩ =
      .ok (some (1, .new 1 (-5), .new 1 (-1))) := by decide +kernel

end

/-- C105, `ArrayPolynomial<N, 3>` does the same as `QuadraticTrinomial`: discriminant, roots and factors, in every build. -/
theorem C105_array_same (A : Arith2) (chk : Bool) (w fuel : Nat) (p : ArrayPoly Int 3) (a b c : Int)
    (hp : p.coefficients = [a, b, c]) :
    p.discriminantM A.toArith = QuadraticTrinomial.discriminantM A.toArith ⟨a, b, c⟩ ∧
    p.roots3M A chk w fuel = QuadraticTrinomial.rootsM A chk w fuel ⟨a, b, c⟩ ∧
    p.realFactorsM A chk w fuel = (do
      let r ← QuadraticTrinomial.realFactorsM A chk w fuel ⟨a, b, c⟩
      .ok (r.map fun f => (f.1, ⟨[f.2.1.c0, f.2.1.c1], rfl⟩, ⟨[f.2.2.c0, f.2.2.c1], rfl⟩))) ∧
    p.complexFactorsM A chk w fuel = (do
      let f ← QuadraticTrinomial.complexFactorsM A chk w fuel ⟨a, b, c⟩
      .ok (f.1, ⟨[f.2.1.c0, f.2.1.c1], rfl⟩, ⟨[f.2.2.c0, f.2.2.c1], rfl⟩)) := by
  have ht : p.asTrinomial = .ok ⟨a, b, c⟩ := by unfold ArrayPoly.asTrinomial; rw [hp]
  have hr : p.roots3M A chk w fuel = QuadraticTrinomial.rootsM A chk w fuel ⟨a, b, c⟩ := by
    unfold ArrayPoly.roots3M; rw [ht, Res.ok_bind]
  refine ⟨?_, hr, ?_, ?_⟩
  · unfold ArrayPoly.discriminantM; rw [ht, Res.ok_bind]
  · unfold ArrayPoly.realFactorsM QuadraticTrinomial.realFactorsM
    rw [hp]
    simp only [hr]
    cases QuadraticTrinomial.rootsM A chk w fuel ⟨a, b, c⟩ with
    | panic => rfl
    | fuel => rfl
    | ok r =>
      cases r with
      | twoRealRoots u v =>
        simp only [Res.ok_bind]
        cases A.neg u with
        | panic => rfl
        | fuel => rfl
        | ok u => cases A.neg v <;> rfl
      | _ => rfl
  · unfold ArrayPoly.complexFactorsM QuadraticTrinomial.complexFactorsM
    rw [hp]
    simp only [hr]
    cases QuadraticTrinomial.rootsM A chk w fuel ⟨a, b, c⟩ with
    | panic => rfl
    | fuel => rfl
    | ok r =>
      cases r with
      | twoRealRoots u v =>
        simp only [Res.ok_bind]
        cases A.neg u with
        | panic => rfl
        | fuel => rfl
        | ok u => cases A.neg v <;> rfl
      | twoComplexRoots u v =>
        simp only [Res.ok_bind]
        cases A.neg 0 <;> rfl
      | _ => rfl

end Rustnomial
