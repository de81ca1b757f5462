import Verif.SpecRootSymmetry
import Verif.Lemmas.RootRel
import Verif.Props.FindRoots
import Verif.Props.Cubic

/-!
# Symmetries of the root functions (C117)
-/

namespace Rustnomial
open Polynomial

/-! ## Whole numbers and real numbers -/

theorem int_rdiv_neg (a b : Int) : rdiv (-a) (-b) = rdiv a b := by
  show (if -b = 0 then Res.panic else .ok (Int.tdiv (-a) (-b))) = if b = 0 then Res.panic else .ok (Int.tdiv a b)
  rw [Int.tdiv_neg, Int.neg_tdiv, neg_neg]
  by_cases h : b = 0 <;> simp [h]

theorem int_rdiv_neg_right (a b : Int) : rdiv a (-b) = Res.mapOk (-·) (rdiv a b) := by
  show (if -b = 0 then Res.panic else .ok (Int.tdiv a (-b))) = Res.mapOk _ (if b = 0 then Res.panic else .ok (Int.tdiv a b))
  rw [Int.tdiv_neg]
  by_cases h : b = 0 <;> simp [h, Res.mapOk]

theorem int_rdiv_neg_left (a b : Int) : rdiv (-a) b = Res.mapOk (-·) (rdiv a b) := by
  show (if b = 0 then Res.panic else .ok (Int.tdiv (-a) b)) = Res.mapOk _ (if b = 0 then Res.panic else .ok (Int.tdiv a b))
  rw [Int.neg_tdiv]
  by_cases h : b = 0 <;> simp [h, Res.mapOk]

/-- C117: negating a quadratic over the integers exchanges the two roots (`/` truncates, so this is not a matter of course). -/
theorem C117_int_neg (t : QuadraticTrinomial Int) : t.neg.roots = Res.mapOk Roots.swap t.roots := by
  obtain ⟨a, b, c⟩ := t
  show trinomialRoots (-a) (-b) (-c) = Res.mapOk Roots.swap (trinomialRoots a b c)
  unfold trinomialRoots discriminantTrinomial
  have hD : -b * -b - -a * -c * ((4 : Nat) : Int) = b * b - a * c * ((4 : Nat) : Int) := by ring
  have hA : -a * ((2 : Nat) : Int) = -(a * ((2 : Nat) : Int)) := by ring
  simp only [hD, hA, int_rdiv_neg]
  generalize b * b - a * c * ((4 : Nat) : Int) = D
  generalize a * ((2 : Nat) : Int) = A
  cases hB : (rdiv (-b) A : Res Int) with
  | panic => rfl
  | fuel => rfl
  | ok B =>
    simp only [Res.ok_bind]
    split
    · rfl
    · show (absSqrt D >>= _) = Res.mapOk Roots.swap (absSqrt D >>= _)
      cases hS : (absSqrt D : Res Int) with
      | panic => rfl
      | fuel => rfl
      | ok S =>
        simp only [Res.ok_bind, int_rdiv_neg_right]
        cases hQ : (rdiv S A : Res Int) with
        | panic => rfl
        | fuel => rfl
        | ok Q =>
          simp only [Res.mapOk, Res.ok_bind]
          split
          · simp [Roots.swap, sub_eq_add_neg]
          · simp [Roots.swap]

example : (QuadraticTrinomial.new 2 3 (-5) : QuadraticTrinomial Int).roots = .ok (.twoRealRoots 1 (-1)) ∧
    (QuadraticTrinomial.new 2 3 (-5) : QuadraticTrinomial Int).neg.roots = .ok (.twoRealRoots (-1) 1) := by decide +kernel
example : (QuadraticTrinomial.new 1 5 7 : QuadraticTrinomial Int).roots = .ok (.twoComplexRoots ⟨-2, 0⟩ ⟨-2, 0⟩) ∧
    (QuadraticTrinomial.new 0 5 7 : QuadraticTrinomial Int).neg.roots = .panic := by decide +kernel

/-- C117: the roots of `t(-x)` over the integers are the negated ones. -/
theorem C117_int_mirror (a b c : Int) :
    (QuadraticTrinomial.new a (-b) c).roots = Res.mapOk Roots.mirror (QuadraticTrinomial.new a b c).roots := by
  show trinomialRoots a (-b) c = Res.mapOk Roots.mirror (trinomialRoots a b c)
  unfold trinomialRoots discriminantTrinomial
  have hD : -b * -b - a * c * ((4 : Nat) : Int) = b * b - a * c * ((4 : Nat) : Int) := by ring
  simp only [hD]
  generalize b * b - a * c * ((4 : Nat) : Int) = D
  generalize a * ((2 : Nat) : Int) = A
  rw [int_rdiv_neg_left (-b) A]
  cases hB : (rdiv (-b) A : Res Int) with
  | panic => rfl
  | fuel => rfl
  | ok B =>
    simp only [Res.mapOk, Res.ok_bind]
    split
    · rfl
    · show (absSqrt D >>= _) = Res.mapOk Roots.mirror (absSqrt D >>= _)
      cases hS : (absSqrt D : Res Int) with
      | panic => rfl
      | fuel => rfl
      | ok S =>
        simp only [Res.ok_bind]
        cases hQ : (rdiv S A : Res Int) with
        | panic => rfl
        | fuel => rfl
        | ok Q =>
          simp only [Res.mapOk, Res.ok_bind]
          split
          · simp only [Roots.mirror, Res.ok.injEq, Roots.twoRealRoots.injEq]; constructor <;> ring
          · simp [Roots.mirror, Cplx.negated]

example : (QuadraticTrinomial.new 2 (-3) (-5) : QuadraticTrinomial Int).roots = .ok (.twoRealRoots 1 (-1)) ∧
    (QuadraticTrinomial.new 1 (-7) 10 : QuadraticTrinomial Int).roots = .ok (.twoRealRoots 4 2) ∧
    (QuadraticTrinomial.new 1 7 10 : QuadraticTrinomial Int).roots = .ok (.twoRealRoots (-2) (-4)) := by decide +kernel

/-- C117: over the real numbers multiplying a quadratic by a positive number leaves the answer of `roots()` as it is and a negative one
exchanges the two roots. -/
theorem C117_real_scale (t : QuadraticTrinomial ℝ) (k : ℝ) :
    (0 < k → (t.mulScalar k).roots = t.roots) ∧ (k < 0 → (t.mulScalar k).roots = Res.mapOk Roots.swap t.roots) ∧
    (t.mulScalar k).discriminant = k ^ 2 * t.discriminant := by
  obtain ⟨a, b, c⟩ := t
  have hD : (b * k) * (b * k) - (a * k) * (c * k) * 4 = (b * b - a * c * 4) * (k * k) := by ring
  have hz : k ≠ 0 → ((b * b - a * c * 4) * (k * k) = 0 ↔ b * b - a * c * 4 = 0) := fun h => by simp [h]
  have hpos : k ≠ 0 → (0 < (b * b - a * c * 4) * (k * k) ↔ 0 < b * b - a * c * 4) := fun h => by
    rw [mul_pos_iff_of_pos_right (mul_self_pos.2 h)]
  have hB : k ≠ 0 → -(b * k) / (a * k * 2) = -b / (a * 2) := fun h => by
    rw [show -(b * k) = -b * k by ring, show a * k * 2 = a * 2 * k by ring, mul_div_mul_right _ _ h]
  have hS : √|(b * b - a * c * 4) * (k * k)| = √|b * b - a * c * 4| * |k| := by
    rw [abs_mul, Real.sqrt_mul (abs_nonneg _), abs_of_nonneg (mul_self_nonneg k), Real.sqrt_mul_self_eq_abs]
  refine ⟨fun h => ?_, fun h => ?_, ?_⟩
  · have h0 := h.ne'
    show trinomialRoots (a * k) (b * k) (c * k) = trinomialRoots a b c
    rw [trinomialRoots_real, trinomialRoots_real, hD, hB h0, hS, abs_of_pos h,
      show a * k * 2 = a * 2 * k by ring, mul_div_mul_right _ _ h0]
    simp only [hz h0, gt_iff_lt, hpos h0]
  · have h0 := h.ne
    show trinomialRoots (a * k) (b * k) (c * k) = Res.mapOk Roots.swap (trinomialRoots a b c)
    rw [trinomialRoots_real, trinomialRoots_real, hD, hB h0, hS, abs_of_neg h,
      show a * k * 2 = a * 2 * k by ring, mul_neg, neg_div (a * 2 * k), mul_div_mul_right _ _ h0]
    simp only [hz h0, gt_iff_lt, hpos h0]
    split
    · rfl
    · split <;> simp [Res.mapOk, Roots.swap, sub_eq_add_neg]
  · show discriminantTrinomial (a * k) (b * k) (c * k) = k ^ 2 * discriminantTrinomial a b c
    simp only [discriminantTrinomial]; ring

theorem ex_roots : (QuadraticTrinomial.new 1 (-3) 2 : QuadraticTrinomial ℝ).roots = .ok (.twoRealRoots 2 1) := by
  show trinomialRoots (1 : ℝ) (-3) 2 = _
  rw [trinomialRoots_real]
  norm_num

example : ((QuadraticTrinomial.new 1 (-3) 2 : QuadraticTrinomial ℝ).mulScalar (-7)).roots = .ok (.twoRealRoots 1 2) := by
  rw [(C117_real_scale _ _).2.1 (by norm_num), ex_roots]; rfl
example : ((QuadraticTrinomial.new 1 (-3) 2 : QuadraticTrinomial ℝ).mulScalar 7).roots = .ok (.twoRealRoots 2 1) := by
  rw [(C117_real_scale _ _).1 (by norm_num), ex_roots]

/-- C117: over the real numbers the roots of `t(-x)` are the negated ones, in the other order. -/
theorem C117_real_mirror (a b c : ℝ) :
    (QuadraticTrinomial.new a (-b) c).roots = Res.mapOk Roots.mirror (QuadraticTrinomial.new a b c).roots := by
  show trinomialRoots a (-b) c = Res.mapOk Roots.mirror (trinomialRoots a b c)
  rw [trinomialRoots_real, trinomialRoots_real, neg_mul_neg]
  split
  · simp [Res.mapOk, Roots.mirror, neg_div]
  · split
    · simp only [Res.mapOk, Roots.mirror, Res.ok.injEq, Roots.twoRealRoots.injEq]; constructor <;> ring
    · simp [Res.mapOk, Roots.mirror, Cplx.negated, neg_div]

example : (QuadraticTrinomial.new 1 3 2 : QuadraticTrinomial ℝ).roots = .ok (.twoRealRoots (-1) (-2)) := by
  have h := C117_real_mirror 1 (-3) 2
  rw [ex_roots, neg_neg] at h
  exact h

theorem cubX_scale {k : ℝ} (hk : k ≠ 0) (a b c d : ℝ) : cubX (a * k) (b * k) (c * k) (d * k) = cubX a b c d := by
  have h1 : -(b * k) / (3 * (a * k)) = -b / (3 * a) := by
    rw [show -(b * k) = -b * k by ring, show 3 * (a * k) = 3 * a * k by ring, mul_div_mul_right _ _ hk]
  have h2 : c * k / (3 * (a * k)) = c / (3 * a) := by
    rw [show 3 * (a * k) = 3 * a * k by ring, mul_div_mul_right _ _ hk]
  have h3 : (b * k * (c * k) - 3 * (a * k) * (d * k)) / (6 * (a * k * (a * k))) = (b * c - 3 * a * d) / (6 * (a * a)) := by
    rw [show b * k * (c * k) - 3 * (a * k) * (d * k) = (b * c - 3 * a * d) * (k * k) by ring,
      show 6 * (a * k * (a * k)) = 6 * (a * a) * (k * k) by ring, mul_div_mul_right _ _ (mul_ne_zero hk hk)]
  unfold cubX cubD cubQ
  rw [h1, h2, h3]

/-- C117: over the real numbers multiplying a cubic by a number other than 0 leaves the answer as it is. -/
theorem C117_real_cubic_scale (a b c d k : ℝ) (hk : k ≠ 0) : cubicRoots (a * k) (b * k) (c * k) (d * k) = cubicRoots a b c d := by
  rw [cubicRoots_real, cubicRoots_real, cubX_scale hk, mul_div_mul_right _ _ hk, mul_div_mul_right _ _ hk]

theorem cbrt_neg_real (x : ℝ) : (cbrt (-x) : ℝ) = -cbrt x :=
  cube_inj (by rw [neg_pow (cbrt x : ℝ) 3, cbrt_cube, cbrt_cube]; norm_num)

/-- C117: over the real numbers the roots of the cubic `p(-x)` are the negated ones. -/
theorem C117_real_cubic_mirror (a b c d : ℝ) : cubicRoots a (-b) c (-d) = Res.mapOk Roots.mirror (cubicRoots a b c d) := by
  have hp : - -b / (3 * a) = -(-b / (3 * a)) := by ring
  have hQ : cubQ a (-b) c (-d) = -cubQ a b c d := by unfold cubQ; rw [hp]; ring
  have hD : cubD a (-b) c (-d) = cubD a b c d := by unfold cubD; rw [hQ, hp]; ring
  have hX : cubX a (-b) c (-d) = -cubX a b c d := by
    unfold cubX
    rw [hQ, hD, hp, show -cubQ a b c d + √|cubD a b c d| = -(cubQ a b c d - √|cubD a b c d|) by ring,
      show -cubQ a b c d - √|cubD a b c d| = -(cubQ a b c d + √|cubD a b c d|) by ring, cbrt_neg_real, cbrt_neg_real]
    ring
  rw [cubicRoots_real, cubicRoots_real, hX, show -b / a + -cubX a b c d = -(b / a + cubX a b c d) by ring, neg_mul_neg]
  have := C117_real_mirror 1 (b / a + cubX a b c d) (c / a + (b / a + cubX a b c d) * cubX a b c d)
  rw [show trinomialRoots (1 : ℝ) (-(b / a + cubX a b c d)) (c / a + (b / a + cubX a b c d) * cubX a b c d) =
    Res.mapOk Roots.mirror (trinomialRoots 1 (b / a + cubX a b c d) (c / a + (b / a + cubX a b c d) * cubX a b c d)) from this]
  cases trinomialRoots 1 (b / a + cubX a b c d) (c / a + (b / a + cubX a b c d) * cubX a b c d) with
  | panic => rfl
  | fuel => rfl
  | ok r => cases r <;> simp [Res.mapOk, Roots.mirror]

theorem respects_real {k : ℝ} (hk : k ≠ 0) : Respects (fun x x' : ℝ => x' = x * k) Eq where
  zero := by simp
  isZero := by rintro x _ rfl; simp [isZero, hk]
  sub := by rintro x _ s _ rfl rfl; ring
  add := by rintro x _ s _ r _ rfl rfl rfl; ring
  one := by
    rintro x _ rfl
    exact ⟨x / 1, x * k / 1, rfl, rfl, by simp, by simp⟩
  quot := by
    rintro x _ y _ rfl rfl _
    exact ⟨x / y, _, rfl, rfl, (mul_div_mul_right _ _ hk).symm⟩
  self := by
    rintro y q hy hq
    have : y ≠ 0 := by simpa [isZero] using hy
    injection hq with hq
    rw [div_self this] at hq
    rw [← hq]; simp [isZero]

theorem respects_eq : Respects (Eq : ℝ → ℝ → Prop) Eq := by
  have := respects_real one_ne_zero
  simpa [eq_comm] using this

theorem Roots.Rel.refl {N : Type} {S : N → N → Prop} (h : ∀ x, S x x) (r : Roots N) : Roots.Rel S r r := by
  have hc : ∀ z : Cplx N, Cplx.Rel S z z := fun z => ⟨h _, h _⟩
  cases r <;> simp only [Roots.Rel, List.forall₂_same] <;> simp [h, hc]

theorem forall₂_eq {α : Type} {l l' : List α} (h : List.Forall₂ Eq l l') : l = l' := by
  simpa using h

theorem Roots.Rel.eq {N : Type} {r r' : Roots N} (h : Roots.Rel Eq r r') : r = r' := by
  have hc : ∀ z w : Cplx N, Cplx.Rel Eq z w → z = w := by
    rintro ⟨a, b⟩ ⟨c, d⟩ ⟨h1, h2⟩
    simp only at h1 h2
    rw [h1, h2]
  have hl : ∀ {l l' : List (Cplx N)}, List.Forall₂ (Cplx.Rel Eq) l l' → l = l' := fun h => by
    induction h with
    | nil => rfl
    | cons a _ ih => rw [hc _ _ a, ih]
  cases r <;> cases r' <;> first
    | exact h.elim
    | rfl
    | exact congrArg _ (forall₂_eq h)
    | exact congrArg _ (hl h)
    | exact congrArg _ (hc _ _ h)
    | exact congrArg _ h
    | (obtain ⟨h1, h2, h3⟩ := h; rw [h1, h2, h3])
    | (obtain ⟨h1, h2, h3⟩ := h; rw [hc _ _ h1, hc _ _ h2, hc _ _ h3])
    | (obtain ⟨h1, h2⟩ := h; rw [h1, h2])
    | (obtain ⟨h1, h2⟩ := h; rw [hc _ _ h1, hc _ _ h2])

theorem formulas_real {k : ℝ} (hk : k ≠ 0) : Formulas (fun x x' : ℝ => x' = x * k) Eq (decide (k < 0)) where
  lin := by
    rintro a _ b _ rfl rfl _
    show -b / a = -(b * k) / (a * k)
    rw [show -(b * k) = -b * k by ring, mul_div_mul_right _ _ hk]
  quad := by
    rintro a _ b _ c _ rfl rfl rfl _
    obtain ⟨h1, h2, -⟩ := C117_real_scale ⟨a, b, c⟩ k
    have e : trinomialRoots (a * k) (b * k) (c * k) = Res.mapOk (fun r => if decide (k < 0) then r.swap else r) (trinomialRoots a b c) := by
      rcases lt_or_gt_of_ne hk with h | h
      · simp only [h, decide_true, if_true]; exact h2 h
      · simp only [not_lt_of_gt h, decide_false, Bool.false_eq_true, if_false]
        refine (h1 h).trans ?_
        show trinomialRoots a b c = _
        cases trinomialRoots a b c <;> rfl
    rw [e]
    cases trinomialRoots a b c with
    | ok r => exact Roots.Rel.refl (fun _ => rfl) _
    | panic => trivial
    | fuel => trivial
  cub := by
    rintro a _ b _ c _ d _ rfl rfl rfl rfl _
    rw [C117_real_cubic_scale _ _ _ _ _ hk]
    exact Res.Rel.same (Roots.Rel.refl fun _ => rfl) _

theorem termList_scale {vals : List (ℝ × Nat)} {P : ℝ[X]} (h : IsTermListOf vals P) {k : ℝ} (hk : k ≠ 0) :
    IsTermListOf (vals.map fun t => (t.1 * k, t.2)) (C k * P) := by
  refine ⟨?_, fun c d => ?_⟩
  · rw [List.pairwise_map]; exact h.1
  · rw [List.mem_map, coeff_C_mul]
    constructor
    · rintro ⟨⟨x, e⟩, hm, he⟩
      obtain ⟨hx, hP⟩ := (h.2 x e).1 hm
      injection he with h1 h2
      subst h1 h2
      exact ⟨mul_ne_zero hx hk, by rw [hP, mul_comm]⟩
    · rintro ⟨hc, rfl⟩
      refine ⟨(P.coeff d, d), (h.2 _ _).2 ⟨right_ne_zero_of_mul hc, rfl⟩, by rw [mul_comm]⟩

theorem leadDegree_spec {vals : List (ℝ × Nat)} {P : ℝ[X]} (h : IsTermListOf vals P) {d : Degree} (hd : d.toWithBot = P.degree) : d = leadDegree vals := by
  cases vals with
  | nil =>
    have : P = 0 := by
      ext n
      by_contra hn
      have := (h.2 (P.coeff n) n).2 ⟨hn, rfl⟩
      cases this
    rw [this, degree_zero] at hd
    cases d with
    | negInf => rfl
    | num d => cases hd
  | cons t ts =>
    obtain ⟨c, n⟩ := t
    obtain ⟨hc, hP⟩ := (h.2 c n).1 List.mem_cons_self
    have hdeg : P.degree = n := by
      refine le_antisymm (degree_le_iff_coeff_zero P n |>.2 fun m hm => ?_) (le_degree_of_ne_zero (by rw [hP]; exact hc))
      by_contra hne
      have hmem := (h.2 _ m).2 ⟨hne, rfl⟩
      have hm' : n < m := by exact_mod_cast hm
      rcases List.mem_cons.1 hmem with e | e
      · injection e with _ e; omega
      · have := (List.pairwise_cons.1 h.1).1 _ e
        simp only at this; omega
    rw [hdeg] at hd
    cases d with
    | negInf => cases hd
    | num d =>
      have : d = n := by
        have : ((d : Nat) : WithBot Nat) = n := hd
        exact_mod_cast this
      rw [this]; rfl

theorem findRoots_scale (oracle : List ℝ → List ℝ) (rnd : ℝ → ℝ) (fuel : Nat) {k : ℝ} (hk : k ≠ 0) {P : ℝ[X]} {vals vals' : List (ℝ × Nat)}
    {d d' : Degree} {eval eval' : ℝ → ℝ} (h : IsTermListOf vals P) (h' : IsTermListOf vals' (C k * P)) (hd : d.toWithBot = P.degree)
    (hd' : d'.toWithBot = (C k * P).degree) (he : ∀ x, eval x = P.eval x) (he' : ∀ x, eval' x = (C k * P).eval x) :
    findRoots oracle rnd fuel vals' d' eval' =
      if k < 0 ∧ P.natDegree = 2 then Res.mapOk Roots.reversed (findRoots oracle rnd fuel vals d eval) else findRoots oracle rnd fuel vals d eval := by
  have hv : vals' = vals.map fun t => (t.1 * k, t.2) := IsTermListOf.unique h' (termList_scale h hk)
  have hdd : d' = d := by
    rw [leadDegree_spec h' hd', leadDegree_spec h hd, hv]
    cases vals <;> rfl
  subst hv hdd
  have hrel : TermsRel (fun x x' : ℝ => x' = x * k) vals (vals.map fun t => (t.1 * k, t.2)) := by
    exact List.forall₂_map_right_iff.2 (List.forall₂_same.2 fun _ _ => ⟨rfl, rfl⟩)
  have hz : ∀ t ∈ vals, isZero t.1 = false := fun t ht => by
    have := ((h.2 t.1 t.2).1 ht).1
    simpa [isZero] using this
  have key := findRoots_rel (respects_real hk) respects_eq (formulas_real hk) (oracle := oracle) (rnd := rnd) (eval := eval) (eval' := eval')
    (fun l l' hl => by rw [forall₂_eq hl]; exact List.forall₂_same.2 fun _ _ => rfl)
    (fun r _ hr => by
      subst hr
      have e : ∀ x, eval' x = eval x * k := fun x => by rw [he', he, eval_mul, eval_C, mul_comm]
      unfold pickRoot
      have : absLess (eval' (rnd r)) (eval' r) = absLess (eval (rnd r)) (eval r) := by
        show decide (|eval' (rnd r)| < |eval' r|) = decide (|eval (rnd r)| < |eval r|)
        rw [e, e, abs_mul, abs_mul]
        simp only [decide_eq_decide]
        exact mul_lt_mul_iff_left₀ (abs_pos.2 hk)
      rw [this]) fuel hrel hz (leadDegree_spec h hd)
  have hcond : (decide (k < 0) && d' == Degree.num 2) = decide (k < 0 ∧ P.natDegree = 2) := by
    rw [Bool.decide_and]
    congr 1
    have : d' = .num 2 ↔ P.natDegree = 2 := by
      constructor
      · rintro rfl
        exact natDegree_eq_of_degree_eq_some hd.symm
      · intro h2
        have : P.degree = ((2 : Nat) : WithBot Nat) := degree_eq_iff_natDegree_eq_of_pos (by norm_num) |>.2 h2
        rw [this] at hd
        cases d' with
        | negInf => cases hd
        | num n =>
          have : ((n : Nat) : WithBot Nat) = (2 : Nat) := hd
          have : n = 2 := by exact_mod_cast this
          rw [this]
    rw [Bool.eq_iff_iff]; simpa using this
  rw [hcond] at key
  by_cases hc : k < 0 ∧ P.natDegree = 2
  · rw [if_pos hc]
    simp only [hc, decide_true, if_true, and_self] at key
    generalize findRoots oracle rnd fuel vals d' eval = x at key
    generalize findRoots oracle rnd fuel (vals.map fun t => (t.1 * k, t.2)) d' eval' = y at key
    cases x <;> cases y <;> first | exact congrArg Res.ok (Roots.Rel.eq key).symm | exact key.elim | rfl
  · rw [if_neg hc]
    simp only [hc, decide_false, Bool.false_eq_true, if_false] at key
    exact (Res.Rel.eq (key.imp fun _ _ => Roots.Rel.eq)).symm

/-- C117: `roots()` over the real numbers, for either type and whatever the external root finder answers: the answer for `k·P`, `k ≠ 0`, is the
answer for `P`, except that the two roots of a quadratic are exchanged when `k` is negative.  With `k = 1`: the two types agree. -/
theorem C117_real_roots_scale (oracle : List ℝ → List ℝ) (rnd : ℝ → ℝ) (fuel : Nat) (P : ℝ[X]) (k : ℝ) (hk : k ≠ 0) (res res' : Res (Roots ℝ))
    (h : RootsOf oracle rnd fuel P res) (h' : RootsOf oracle rnd fuel (C k * P) res') :
    (0 < k ∨ P.natDegree ≠ 2 → res' = res) ∧ (k < 0 → P.natDegree = 2 → res' = Res.mapOk Roots.reversed res) := by
  have key : res' = if k < 0 ∧ P.natDegree = 2 then Res.mapOk Roots.reversed res else res := by
    rcases h with ⟨p, hp, rfl⟩ | ⟨p, hp, hb, rfl⟩ <;> rcases h' with ⟨q, hq, rfl⟩ | ⟨q, hq, hb', rfl⟩
    · exact findRoots_scale oracle rnd fuel hk (hp ▸ dense_termList p) (hq ▸ dense_termList q) (hp ▸ C02_dense_degree p) (hq ▸ C02_dense_degree q)
        (fun x => hp ▸ C06_dense_eval p x) (fun x => hq ▸ C06_dense_eval q x)
    · exact findRoots_scale oracle rnd fuel hk (hp ▸ dense_termList p) (hq ▸ sparse_termList q) (hp ▸ C02_dense_degree p) (hq ▸ C02_sparse_degree q)
        (fun x => hp ▸ C06_dense_eval p x) (fun x => hq ▸ C07_sparse_eval_partial q x hb')
    · exact findRoots_scale oracle rnd fuel hk (hp ▸ sparse_termList p) (hq ▸ dense_termList q) (hp ▸ C02_sparse_degree p) (hq ▸ C02_dense_degree q)
        (fun x => hp ▸ C07_sparse_eval_partial p x hb) (fun x => hq ▸ C06_dense_eval q x)
    · exact findRoots_scale oracle rnd fuel hk (hp ▸ sparse_termList p) (hq ▸ sparse_termList q) (hp ▸ C02_sparse_degree p) (hq ▸ C02_sparse_degree q)
        (fun x => hp ▸ C07_sparse_eval_partial p x hb) (fun x => hq ▸ C07_sparse_eval_partial q x hb')
  refine ⟨fun h => ?_, fun h1 h2 => by rw [key, if_pos ⟨h1, h2⟩]⟩
  rw [key, if_neg]
  rintro ⟨h1, h2⟩
  rcases h with h | h
  · exact absurd h (not_lt_of_gt h1)
  · exact h h2

/-- The quartic `x⁴ - 1` and a sparse `3 - 3x⁴`: the same answer. -/
example (oracle : List ℝ → List ℝ) (rnd : ℝ → ℝ) (fuel : Nat) :
    (⟨(BMap.empty.insert 0 3).insert 4 (-3)⟩ : Sparse ℝ).roots oracle rnd fuel = (⟨[1, 0, 0, 0, -1]⟩ : Poly ℝ).roots oracle rnd fuel := by
  have hdeg : (descPoly [(1 : ℝ), 0, 0, 0, -1]).natDegree = 4 := by
    have : descPoly [(1 : ℝ), 0, 0, 0, -1] = X ^ 4 - C 1 := by
      simp [descPoly]
      ring
    rw [this]; exact natDegree_X_pow_sub_C
  refine (C117_real_roots_scale oracle rnd fuel (descPoly [(1 : ℝ), 0, 0, 0, -1]) (-3) (by norm_num) _ _ (.inl ⟨⟨[1, 0, 0, 0, -1]⟩, rfl, rfl⟩)
    (.inr ⟨⟨(BMap.empty.insert 0 3).insert 4 (-3)⟩, ?_, ?_, rfl⟩)).1 (.inr (by rw [hdeg]; norm_num))
  · show entriesPoly [(0, (3 : ℝ)), (4, -3)] = _
    simp [descPoly, entriesPoly]
    ring
  · intro e he
    have : e ∈ [(0, (3 : ℝ)), (4, -3)] := he
    simp only [List.mem_cons, List.not_mem_nil, or_false] at this
    rcases this with rfl | rfl <;> norm_num

end Rustnomial
