import Verif.Props.Roots
import Mathlib.Algebra.Order.Ring.Abs
import Mathlib.Tactic.NormNum
import Mathlib.Tactic.Positivity

/-!
# C46: the cubic formula
-/

set_option linter.unusedVariables false

open Polynomial

namespace Rustnomial

theorem cbrt_cube (x : ℝ) : cbrt x ^ 3 = x := by
  show (if 0 ≤ x then x ^ (1 / 3 : ℝ) else -((-x) ^ (1 / 3 : ℝ))) ^ 3 = x
  have key : ∀ y : ℝ, 0 ≤ y → (y ^ (1 / 3 : ℝ)) ^ 3 = y := by
    intro y hy
    rw [← Real.rpow_natCast, ← Real.rpow_mul hy]
    norm_num
  by_cases h : 0 ≤ x
  · rw [if_pos h, key x h]
  · rw [if_neg h, neg_pow, key (-x) (by linarith)]
    norm_num

theorem cube_inj {x y : ℝ} (h : x ^ 3 = y ^ 3) : x = y :=
  (Odd.strictMono_pow (by decide : Odd 3)).injective h

/-- The coefficient `q` of the cubic formula. -/
noncomputable def cubQ (a b c d : ℝ) : ℝ :=
  -b / (3 * a) * (-b / (3 * a)) * (-b / (3 * a)) + (b * c - 3 * a * d) / (6 * (a * a))

/-- The radicand of the cubic formula. -/
noncomputable def cubD (a b c d : ℝ) : ℝ :=
  cubQ a b c d * cubQ a b c d +
    (c / (3 * a) - -b / (3 * a) * (-b / (3 * a))) * (c / (3 * a) - -b / (3 * a) * (-b / (3 * a))) *
      (c / (3 * a) - -b / (3 * a) * (-b / (3 * a)))

/-- The first root reported by the cubic formula. -/
noncomputable def cubX (a b c d : ℝ) : ℝ :=
  cbrt (cubQ a b c d + √|cubD a b c d|) + cbrt (cubQ a b c d - √|cubD a b c d|) + -b / (3 * a)

theorem cubicRoots_real (a b c d : ℝ) :
    cubicRoots a b c d = (do
      let roots ← trinomialRoots 1 (b / a + cubX a b c d)
        (c / a + (b / a + cubX a b c d) * cubX a b c d)
      match roots with
      | .twoRealRoots r s => .ok (.threeRealRoots (cubX a b c d) r s)
      | .twoComplexRoots r s => .ok (.threeComplexRoots ⟨cubX a b c d, 0⟩ r s)
      | _ => .panic) := by
  have h3 : ((3 : ℕ) : ℝ) = 3 := by norm_num
  have h6 : ((6 : ℕ) : ℝ) = 6 := by norm_num
  unfold cubicRoots cubX cubD cubQ
  rw [h3, h6]
  have hr : ∀ x y : ℝ, rdiv x y = Res.ok (x / y) := fun _ _ => rfl
  have ha : ∀ x : ℝ, absSqrt x = Res.ok √|x| := fun _ => rfl
  simp only [hr, ha, Res.ok_bind]
  congr 1
  funext r
  cases r <;> rfl

/-- `q = 0` in terms of the coefficients. -/
theorem cubQ_eq (a b c d : ℝ) (ha : a ≠ 0) :
    cubQ a b c d = -(2 * b ^ 3 - 9 * a * b * c + 27 * a ^ 2 * d) / (54 * a ^ 3) := by
  unfold cubQ; field_simp; ring

/-- The radicand is a negative multiple of the discriminant of the cubic. -/
theorem cubD_eq (a b c d : ℝ) (ha : a ≠ 0) :
    cubD a b c d = -(18 * a * b * c * d - 4 * b ^ 3 * d + b ^ 2 * c ^ 2 - 4 * a * c ^ 3 -
      27 * a ^ 2 * d ^ 2) / (108 * a ^ 4) := by
  unfold cubD cubQ; field_simp; ring

/-- The reported number is a root exactly when the radicand is non-negative or `q = 0`. -/
theorem cubX_root_iff (a b c d : ℝ) (ha : a ≠ 0) :
    a * cubX a b c d ^ 3 + b * cubX a b c d ^ 2 + c * cubX a b c d + d = 0 ↔
      0 ≤ cubD a b c d ∨ cubQ a b c d = 0 := by
  set q := cubQ a b c d with hq
  set D := cubD a b c d with hD
  set u := cbrt (q + √|D|) with hu
  set v := cbrt (q - √|D|) with hv
  have hx : cubX a b c d = u + v + -b / (3 * a) := rfl
  have hu3 : u ^ 3 = q + √|D| := cbrt_cube _
  have hv3 : v ^ 3 = q - √|D| := cbrt_cube _
  set m := c / (3 * a) - -b / (3 * a) * (-b / (3 * a)) with hm
  have hDm : D = q ^ 2 + m ^ 3 := by rw [hD, cubD]; ring
  -- value at x
  have hval : a * cubX a b c d ^ 3 + b * cubX a b c d ^ 2 + c * cubX a b c d + d =
      a * (3 * (u * v + m) * (u + v)) := by
    have h1 : a * cubX a b c d ^ 3 + b * cubX a b c d ^ 2 + c * cubX a b c d + d =
        a * ((u + v) ^ 3 + 3 * m * (u + v) - 2 * q) := by
      rw [hx, hm, hq, cubQ]; field_simp; ring
    rw [h1]
    have h2 : u ^ 3 + v ^ 3 = 2 * q := by rw [hu3, hv3]; ring
    linear_combination a * h2
  rw [hval]
  have hsq : √|D| ^ 2 = |D| := Real.sq_sqrt (abs_nonneg _)
  have huv : (u * v) ^ 3 = q ^ 2 - |D| := by
    rw [mul_pow, hu3, hv3]; linear_combination -1 * hsq
  constructor
  · intro h
    by_contra hc
    rw [not_or, not_le] at hc
    rcases mul_eq_zero.1 h with h | h
    · exact ha h
    · rcases mul_eq_zero.1 h with h | h
      · have huvm : u * v = -m := by linarith
        rw [huvm, abs_of_neg hc.1] at huv
        rw [hDm] at hc
        have : q ^ 2 + m ^ 3 = 0 := by rw [hDm] at huv; nlinarith
        linarith [hc.1]
      · have : u = -v := by linarith
        have h3 : u ^ 3 = -(v ^ 3) := by rw [this]; ring
        rw [hu3, hv3] at h3
        exact hc.2 (by linarith)
  · rintro (h | h)
    · rw [abs_of_nonneg h, hDm] at huv
      have : u * v = -m := cube_inj (by rw [huv]; ring)
      rw [this]; ring
    · have : u = -v := cube_inj (by
        rw [hu3, h, neg_pow, hv3, h]; ring)
      rw [this]; ring

theorem cubic_factor {K : Type} [Field K] {a b c d x : K} {Q : K[X]} (ha : a ≠ 0)
    (hx : a * x ^ 3 + b * x ^ 2 + c * x + d = 0)
    (hQ : Q = C (1 : K) * X ^ 2 + C (b / a + x) * X + C (c / a + (b / a + x) * x)) :
    C a * X ^ 3 + C b * X ^ 2 + C c * X + C d = C a * (X - C x) * Q := by
  have hb : C a * C (b / a) = C b := by rw [← C_mul]; congr 1; field_simp
  have hc : C a * C (c / a) = C c := by rw [← C_mul]; congr 1; field_simp
  have hd : C d = -(C a * C x ^ 3 + C b * C x ^ 2 + C c * C x) := by
    rw [show d = -(a * x ^ 3 + b * x ^ 2 + c * x) by linear_combination hx]
    simp only [C_neg, C_add, C_mul, C_pow]
  rw [hQ, hd]
  simp only [C_add, C_mul, C_1]
  linear_combination (-1 * X ^ 2 + C x ^ 2) * hb + (C x - X) * hc

/-- **C46**, the part that holds: if the discriminant of the cubic is not positive, or the cubic is
symmetric about its inflection point (`2b³ - 9abc + 27a²d = 0`), the call returns three numbers over which
the cubic is the product: three real ones, or one real and a conjugate pair.  Missing for the full
claim: positive discriminant (three distinct real roots), where it is false, see `C46_false`. -/
theorem C46_cubic_partial (a b c d : ℝ) (ha : a ≠ 0)
    (h : 18 * a * b * c * d - 4 * b ^ 3 * d + b ^ 2 * c ^ 2 - 4 * a * c ^ 3 - 27 * a ^ 2 * d ^ 2 ≤ 0 ∨
      2 * b ^ 3 - 9 * a * b * c + 27 * a ^ 2 * d = 0) :
    (∃ x r s, cubicRoots a b c d = .ok (.threeRealRoots x r s) ∧
      C a * X ^ 3 + C b * X ^ 2 + C c * X + C d = C a * (X - C x) * (X - C r) * (X - C s)) ∨
    (∃ x z w, cubicRoots a b c d = .ok (.threeComplexRoots ⟨x, 0⟩ z w) ∧
      w.toC = (starRingEnd ℂ) z.toC ∧ z.toC ≠ w.toC ∧
      (C a * X ^ 3 + C b * X ^ 2 + C c * X + C d : ℝ[X]).map (algebraMap ℝ ℂ) =
        C (a : ℂ) * (X - C (x : ℂ)) * (X - C z.toC) * (X - C w.toC)) := by
  have hcond : 0 ≤ cubD a b c d ∨ cubQ a b c d = 0 := by
    rcases h with h | h
    · left
      rw [cubD_eq a b c d ha]
      apply div_nonneg (by linarith) (by positivity)
    · right
      rw [cubQ_eq a b c d ha, h]; simp
  have hx := (cubX_root_iff a b c d ha).2 hcond
  rw [cubicRoots_real]
  set x := cubX a b c d with hxdef
  set B := b / a + x with hB
  set E := c / a + B * x with hE
  have hfac := cubic_factor (Q := C (1 : ℝ) * X ^ 2 + C B * X + C E) ha hx rfl
  rcases le_or_gt 0 (B ^ 2 - 4 * 1 * E) with hd | hd
  · obtain ⟨r, s, h1, h2, _⟩ := C43_real_roots ⟨1, B, E⟩ one_ne_zero hd
    left
    refine ⟨x, r, s, ?_, ?_⟩
    · have : trinomialRoots 1 B E = .ok (.twoRealRoots r s) := h1
      rw [this, Res.ok_bind]
    · have h2' : C (1 : ℝ) * X ^ 2 + C B * X + C E = C 1 * (X - C r) * (X - C s) := h2
      rw [hfac, h2', C_1]; ring
  · obtain ⟨z, w, h1, h2, h3, h4⟩ := C43_complex_roots ⟨1, B, E⟩ one_ne_zero hd
    right
    refine ⟨x, z, w, ?_, h2, h3, ?_⟩
    · have : trinomialRoots 1 B E = .ok (.twoComplexRoots z w) := h1
      rw [this, Res.ok_bind]
    · have h4' : (C (1 : ℝ) * X ^ 2 + C B * X + C E).map (algebraMap ℝ ℂ) =
          C ((1 : ℝ) : ℂ) * (X - C z.toC) * (X - C w.toC) := h4
      rw [hfac, Polynomial.map_mul, h4']
      simp only [Polynomial.map_mul, Polynomial.map_sub, map_C, map_X, Complex.coe_algebraMap,
        Complex.ofReal_one, C_1]
      ring

-- Non-vacuity: a cubic with one real root, and the symmetric one with three.
example := C46_cubic_partial 1 0 (-1) 0 one_ne_zero (Or.inr (by norm_num))
example := C46_cubic_partial 1 0 1 1 one_ne_zero (Or.inl (by norm_num))

/-- **C46** is false whenever the cubic has three distinct real roots (positive discriminant) and
is not symmetric: whatever is returned, its first entry is *not* a root of the cubic. -/
theorem C46_false (a b c d : ℝ) (ha : a ≠ 0)
    (hdisc : 0 < 18 * a * b * c * d - 4 * b ^ 3 * d + b ^ 2 * c ^ 2 - 4 * a * c ^ 3 - 27 * a ^ 2 * d ^ 2)
    (hsym : 2 * b ^ 3 - 9 * a * b * c + 27 * a ^ 2 * d ≠ 0) :
    ∃ x, ((∃ r s, cubicRoots a b c d = .ok (.threeRealRoots x r s)) ∨
        ∃ z w, cubicRoots a b c d = .ok (.threeComplexRoots ⟨x, 0⟩ z w)) ∧
      ¬ (C a * X ^ 3 + C b * X ^ 2 + C c * X + C d : ℝ[X]).IsRoot x := by
  refine ⟨cubX a b c d, ?_, ?_⟩
  · rw [cubicRoots_real, trinomialRoots_real]
    split
    · exact .inl ⟨_, _, rfl⟩
    · split
      · exact .inl ⟨_, _, rfl⟩
      · exact .inr ⟨_, _, rfl⟩
  · intro h
    have h' : a * cubX a b c d ^ 3 + b * cubX a b c d ^ 2 + c * cubX a b c d + d = 0 := by
      simpa [IsRoot.def] using h
    rcases (cubX_root_iff a b c d ha).1 h' with h | h
    · rw [cubD_eq a b c d ha] at h
      have : -(18 * a * b * c * d - 4 * b ^ 3 * d + b ^ 2 * c ^ 2 - 4 * a * c ^ 3 -
        27 * a ^ 2 * d ^ 2) / (108 * a ^ 4) < 0 := div_neg_of_neg_of_pos (by linarith) (by positivity)
      linarith
    · rw [cubQ_eq a b c d ha] at h
      rcases div_eq_zero_iff.1 h with h | h
      · exact hsym (by linarith)
      · have : (54 * a ^ 3) ≠ 0 := by positivity
        exact this h

-- A witness: x³ - 6x - 4 = (x + 2)(x² - 2x - 2) has three real roots, none reported first.
example : ∃ x, ((∃ r s, cubicRoots (1 : ℝ) 0 (-6) (-4) = .ok (.threeRealRoots x r s)) ∨
      ∃ z w, cubicRoots (1 : ℝ) 0 (-6) (-4) = .ok (.threeComplexRoots ⟨x, 0⟩ z w)) ∧
    ¬ (C (1 : ℝ) * X ^ 3 + C 0 * X ^ 2 + C (-6) * X + C (-4) : ℝ[X]).IsRoot x :=
  C46_false 1 0 (-6) (-4) one_ne_zero (by norm_num) (by norm_num)

end Rustnomial
