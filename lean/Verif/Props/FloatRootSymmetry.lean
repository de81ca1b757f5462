import Verif.Props.RootSymmetry
import Verif.Props.FloatOrder
import Verif.Props.FloatFindRoots
import Verif.Props.FloatCubic
import Verif.Props.FloatIntegral
import Verif.Props.AssignMore

/-!
# Symmetries of the root functions over floats (C117)
-/

namespace Rustnomial
namespace Fl
variable {f : FlFmt}

theorem div_neg_left (x y : Fl f) : div (-x) y = -div x y := by
  cases x with
  | nan => rfl
  | inf s =>
    cases y with
    | nan => rfl
    | inf t => rfl
    | fin t b => cases s <;> cases t <;> rfl
  | fin s a =>
    cases y with
    | nan => rfl
    | inf t => cases s <;> cases t <;> rfl
    | fin t b =>
      simp only [neg_def, neg, div]
      split
      · split
        · rfl
        · cases s <;> cases t <;> rfl
      · have e : ((!s) != t) = !(s != t) := by cases s <;> cases t <;> rfl
        rw [e, pack_neg]; rfl

theorem div_neg_right (x y : Fl f) : div x (-y) = -div x y := by
  cases x with
  | nan => rfl
  | inf s =>
    cases y with
    | nan => rfl
    | inf t => rfl
    | fin t b => cases s <;> cases t <;> rfl
  | fin s a =>
    cases y with
    | nan => rfl
    | inf t => cases s <;> cases t <;> rfl
    | fin t b =>
      simp only [neg_def, neg, div]
      split
      · split
        · rfl
        · cases s <;> cases t <;> rfl
      · have e : (s != !t) = !(s != t) := by cases s <;> cases t <;> rfl
        rw [e, pack_neg]; rfl

theorem div_neg_neg (x y : Fl f) : div (-x) (-y) = div x y := by rw [div_neg_left, div_neg_right, neg_neg']

theorem neg_mul_neg' (x y : Fl f) : -x * -y = x * y := by rw [mul_neg', ← neg_mul', neg_neg']

theorem SameNum.div_left {x x' : Fl f} (h : SameNum x x') (y : Fl f) : SameNum (div x y) (div x' y) := by
  rcases h with rfl | ⟨⟨s, rfl⟩, t, rfl⟩
  · exact .refl _
  · cases y with
    | nan => exact .refl _
    | inf u => exact .zeros ⟨_, rfl⟩ ⟨_, rfl⟩
    | fin u b =>
      simp only [div]
      split
      · exact .refl _
      · refine .zeros ⟨s != u, ?_⟩ ⟨t != u, ?_⟩ <;> rw [Nat.zero_mul, roundRat_zero, pack_zero]

theorem SameNum.absSqrt {x x' : Fl f} (h : SameNum x x') : sqrt (abs x) = sqrt (abs x') := by
  rcases h with rfl | ⟨⟨s, rfl⟩, t, rfl⟩ <;> rfl

theorem SameNum.isPositive {x x' : Fl f} (h : SameNum x x') : isPositive x = isPositive x' := by
  rcases h with rfl | ⟨⟨s, rfl⟩, t, rfl⟩
  · rfl
  · simp [Rustnomial.isPositive]

/-- The quadratic formula over floats always answers. -/
theorem trinomial_formula (a b c : Fl f) : trinomialRoots a b c = .ok (
    let D := b * b - a * c * ((4 : Nat) : Fl f)
    let B := div (-b) (a * ((2 : Nat) : Fl f))
    let S := div (sqrt (abs D)) (a * ((2 : Nat) : Fl f))
    if isZero D then .twoRealRoots B B else if isPositive D then .twoRealRoots (B + S) (B - S) else .twoComplexRoots ⟨B, S⟩ ⟨B, -S⟩) := by
  unfold trinomialRoots discriminantTrinomial
  simp only [rdiv_eq, Res.ok_bind, show ∀ x : Fl f, Rustnomial.absSqrt x = .ok (sqrt (abs x)) from fun _ => rfl]
  split
  · rfl
  · split <;> rfl

/-- Negated coefficients, up to the signs of zeros: the two roots exchanged. -/
theorem trinomial_neg_same {a b b' c c' : Fl f} (hb : SameNum (-b) b') (hc : SameNum (-c) c') :
    SameRootsRes (Res.mapOk Roots.swap (trinomialRoots a b c)) (trinomialRoots (-a) b' c') := by
  rw [trinomial_formula, trinomial_formula]
  have hD : SameNum (b * b - a * c * ((4 : Nat) : Fl f)) (b' * b' - -a * c' * ((4 : Nat) : Fl f)) := by
    have h1 := hb.mul hb
    have h2 := mul_same_left ((SameNum.refl (-a)).mul hc) ((4 : Nat) : Fl f)
    rw [neg_mul_neg'] at h1 h2
    exact h1.sub h2
  have hB : SameNum (div (-b) (a * ((2 : Nat) : Fl f))) (div (-b') (-a * ((2 : Nat) : Fl f))) := by
    rw [← neg_mul', ← div_neg_neg, neg_neg']
    have := (hb.neg).div_left (-(a * ((2 : Nat) : Fl f)))
    rwa [neg_neg'] at this
  simp only [hD.isZero, hD.absSqrt, hD.isPositive]
  generalize b' * b' - -a * c' * ((4 : Nat) : Fl f) = D at *
  have hS : div (sqrt (abs D)) (-a * ((2 : Nat) : Fl f)) = -div (sqrt (abs D)) (a * ((2 : Nat) : Fl f)) := by rw [← neg_mul', div_neg_right]
  rw [hS]
  generalize div (-b) (a * ((2 : Nat) : Fl f)) = B at *
  generalize div (-b') (-a * ((2 : Nat) : Fl f)) = B' at *
  generalize div (sqrt (abs D)) (a * ((2 : Nat) : Fl f)) = S at *
  split
  · exact ⟨hB, hB⟩
  · split
    · refine ⟨hB.sub (.refl _), ?_⟩
      have := hB.add (.refl S)
      rw [sub_def, neg_neg']
      exact this
    · refine ⟨⟨hB, .refl _⟩, hB, ?_⟩
      simp only [neg_neg']
      exact .refl _

/-- C117: negating a quadratic with float coefficients of any kind exchanges the two roots, bit for bit; the discriminant stays. -/
theorem C117_neg (t : QuadraticTrinomial (Fl f)) :
    t.neg.roots = Res.mapOk Roots.swap t.roots ∧ t.neg.discriminant = t.discriminant := by
  obtain ⟨a, b, c⟩ := t
  have hD : -b * -b - -a * -c * ((4 : Nat) : Fl f) = b * b - a * c * ((4 : Nat) : Fl f) := by
    rw [neg_mul_neg', neg_mul_neg']
  refine ⟨?_, hD⟩
  show trinomialRoots (-a) (-b) (-c) = Res.mapOk Roots.swap (trinomialRoots a b c)
  rw [trinomial_formula, trinomial_formula, hD]
  simp only
  rw [← neg_mul', div_neg_neg, div_neg_right (sqrt _)]
  generalize b * b - a * c * ((4 : Nat) : Fl f) = D
  generalize div (-b) (a * ((2 : Nat) : Fl f)) = B
  generalize div (sqrt (abs D)) (a * ((2 : Nat) : Fl f)) = S
  split
  · rfl
  · split
    · simp only [Res.mapOk, Roots.swap, sub_def, neg_neg']
    · simp only [Res.mapOk, Roots.swap, neg_neg']

/-- `x² - 3x + 2` and its negative: 2, 1 and 1, 2. -/
example : (QuadraticTrinomial.new 1 (-ofNat 3) (ofNat 2) : QuadraticTrinomial (Fl binary64)).roots = .ok (.twoRealRoots (ofNat 2) 1) ∧
    (QuadraticTrinomial.new 1 (-ofNat 3) (ofNat 2) : QuadraticTrinomial (Fl binary64)).neg.roots = .ok (.twoRealRoots 1 (ofNat 2)) := by
  decide +kernel

/-- C117: multiplying by a number changes the roots computed in floats in general: already for the factor 3 and `x² + 4x + 1` the rounding
differs. -/
theorem C117_scale_false : ∃ (t : QuadraticTrinomial (Fl binary64)) (k : Fl binary64), k.isFinite = true ∧ 0 < k.toRat ∧
    (t.mulScalar k).roots ≠ t.roots ∧ (t.mulScalar k).roots ≠ Res.mapOk Roots.swap t.roots :=
  ⟨.new 1 (ofNat 4) 1, ofNat 3, by decide +kernel⟩

/-- C117: negating a linear binomial leaves the answer of `root()` as it is, bit for bit. -/
theorem C117_linear_neg (b : LinearBinomial (Fl f)) : b.neg.root = b.root := by
  obtain ⟨a, c⟩ := b
  show LinearBinomial.root ⟨-a, -c⟩ = LinearBinomial.root ⟨a, c⟩
  unfold LinearBinomial.root
  simp only [isZero_neg, rdiv_eq, div_neg_neg]

example : (LinearBinomial.new (ofNat 3) (ofNat 1) : LinearBinomial (Fl binary64)).root = .ok (.oneRealRoot (-div 1 (ofNat 3))) ∧
    (LinearBinomial.new (ofNat 3) (ofNat 1) : LinearBinomial (Fl binary64)).neg.root = .ok (.oneRealRoot (-div 1 (ofNat 3))) := by
  decide +kernel

theorem trinomial_mirror_same {a b b' c c' : Fl f} (hb : SameNum (-b) b') (hc : SameNum c c') :
    SameRootsRes (Res.mapOk Roots.mirror (trinomialRoots a b c)) (trinomialRoots a b' c') := by
  rw [trinomial_formula, trinomial_formula]
  have hD : SameNum (b * b - a * c * ((4 : Nat) : Fl f)) (b' * b' - a * c' * ((4 : Nat) : Fl f)) := by
    have h1 := hb.mul hb
    have h2 := mul_same_left ((SameNum.refl a).mul hc) ((4 : Nat) : Fl f)
    rw [neg_mul_neg'] at h1
    exact h1.sub h2
  have hB : SameNum (-div (-b) (a * ((2 : Nat) : Fl f))) (div (-b') (a * ((2 : Nat) : Fl f))) := by
    rw [← div_neg_left]
    exact (hb.neg).div_left _
  simp only [hD.isZero, hD.absSqrt, hD.isPositive]
  generalize b' * b' - a * c' * ((4 : Nat) : Fl f) = D at *
  generalize div (-b) (a * ((2 : Nat) : Fl f)) = B at *
  generalize div (-b') (a * ((2 : Nat) : Fl f)) = B' at *
  generalize div (sqrt (abs D)) (a * ((2 : Nat) : Fl f)) = S at *
  split
  · exact ⟨hB, hB⟩
  · split
    · refine ⟨?_, ?_⟩
      · have := (neg_add_same B (-S)).trans (hB.add (.refl _))
        rw [neg_neg'] at this
        exact this
      · exact (neg_add_same B S).trans (hB.add (.refl _))
    · refine ⟨⟨hB, ?_⟩, hB, .refl _⟩
      simp only [Cplx.negated, neg_neg']
      exact .refl _

/-- C117: the roots of `t(-x)` are those of `t`, negated and in the other order, the same numbers. -/
theorem C117_mirror (a b c : Fl f) :
    SameRootsRes (Res.mapOk Roots.mirror (QuadraticTrinomial.new a b c).roots) (QuadraticTrinomial.new a (-b) c).roots :=
  trinomial_mirror_same (.refl _) (.refl _)

example : (QuadraticTrinomial.new 1 (ofNat 3) (ofNat 2) : QuadraticTrinomial (Fl binary64)).roots = .ok (.twoRealRoots (-1) (-ofNat 2)) := by
  decide +kernel
/-- Signs of zeros do differ: `x²` and `(-x)²`. -/
example : (QuadraticTrinomial.new 1 0 0 : QuadraticTrinomial (Fl binary64)).roots = .ok (.twoRealRoots (-0) (-0)) ∧
    (QuadraticTrinomial.new 1 (-0) 0 : QuadraticTrinomial (Fl binary64)).roots = .ok (.twoRealRoots 0 0) ∧ (-0 : Fl binary64) ≠ 0 := by
  decide +kernel

/-- The same coefficients up to the signs of zeros: the same roots. -/
theorem trinomial_same {a b b' c c' : Fl f} (hb : SameNum b b') (hc : SameNum c c') :
    SameRootsRes (trinomialRoots a b c) (trinomialRoots a b' c') := by
  rw [trinomial_formula, trinomial_formula]
  have hD : SameNum (b * b - a * c * ((4 : Nat) : Fl f)) (b' * b' - a * c' * ((4 : Nat) : Fl f)) :=
    (hb.mul hb).sub (mul_same_left ((SameNum.refl a).mul hc) ((4 : Nat) : Fl f))
  have hB : SameNum (div (-b) (a * ((2 : Nat) : Fl f))) (div (-b') (a * ((2 : Nat) : Fl f))) := (hb.neg).div_left _
  simp only [hD.isZero, hD.absSqrt, hD.isPositive]
  split
  · exact ⟨hB, hB⟩
  · split
    · exact ⟨hB.add (.refl _), hB.sub (.refl _)⟩
    · exact ⟨⟨hB, .refl _⟩, hB, .refl _⟩

section
variable [Cbrt (Fl f)]

/-- The first root of the cubic formula. -/
def cubicX (a b c d : Fl f) : Fl f :=
  let p := div (-b) (((3 : Nat) : Fl f) * a)
  let q := p * p * p + div (b * c - ((3 : Nat) : Fl f) * a * d) (((6 : Nat) : Fl f) * (a * a))
  let s := div c (((3 : Nat) : Fl f) * a) - p * p
  let k := sqrt (abs (q * q + s * s * s))
  cbrt (q + k) + cbrt (q - k) + p

/-- The answer made of the first root and those of the remaining quadratic. -/
def cubicJoin (x : Fl f) : Roots (Fl f) → Res (Roots (Fl f))
  | .twoRealRoots a b => .ok (.threeRealRoots x a b)
  | .twoComplexRoots a b => .ok (.threeComplexRoots ⟨x, 0⟩ a b)
  | _ => .panic

theorem cubic_formula (a b c d : Fl f) : cubicRoots a b c d =
    trinomialRoots 1 (div b a + cubicX a b c d) (div c a + (div b a + cubicX a b c d) * cubicX a b c d) >>= cubicJoin (cubicX a b c d) := by
  unfold cubicRoots
  simp only [rdiv_eq, Res.ok_bind, show ∀ x : Fl f, Rustnomial.absSqrt x = .ok (sqrt (abs x)) from fun _ => rfl]
  show trinomialRoots 1 (div b a + cubicX a b c d) (div c a + (div b a + cubicX a b c d) * cubicX a b c d) >>= _ = _
  congr 1
  funext r
  cases r <;> rfl

/-- C117: negating a cubic with float coefficients of any kind leaves the answer as it is, bit for bit, whatever the cube root. -/
theorem C117_cubic_neg (a b c d : Fl f) : cubicRoots (-a) (-b) (-c) (-d) = cubicRoots a b c d := by
  have hX : cubicX (-a) (-b) (-c) (-d) = cubicX a b c d := by
    unfold cubicX
    simp only [mul_neg' ((3 : Nat) : Fl f), neg_mul_neg', div_neg_neg]
  rw [cubic_formula, cubic_formula, hX, div_neg_neg, div_neg_neg]

example : letI : Cbrt (Fl binary64) := ⟨id⟩
    (match cubicRoots (1 : Fl binary64) (ofNat 6) (ofNat 11) (ofNat 6), cubicRoots (-1 : Fl binary64) (-ofNat 6) (-ofNat 11) (-ofNat 6) with
      | .ok (.threeRealRoots x y z), .ok (.threeRealRoots x' y' z') => x == x' && y == y' && z == z'
      | .ok (.threeComplexRoots x y z), .ok (.threeComplexRoots x' y' z') => x.re == x'.re && y.im == y'.im && z.im == z'.im
      | _, _ => false) = true := by decide +kernel

omit [Cbrt (Fl f)] in
theorem cubicJoin_same {x x' : Fl f} (hx : SameNum x x') {r r' : Res (Roots (Fl f))} (hr : SameRootsRes r r') :
    SameRootsRes (r >>= cubicJoin x) (r' >>= cubicJoin x') := by
  refine Res.Rel.bind hr fun q q' hq => ?_
  cases q <;> cases q' <;> first
    | exact hq.elim
    | trivial
    | exact ⟨hx, hq⟩
    | exact ⟨⟨hx, .refl _⟩, hq⟩

/-- Negated coefficients up to the signs of zeros: the same roots. -/
theorem cubic_neg_same (hcb : ∀ x x' : Fl f, SameNum x x' → SameNum (cbrt x) (cbrt x')) {a b b' c c' d d' : Fl f} (hb : SameNum (-b) b')
    (hc : SameNum (-c) c') (hd : SameNum (-d) d') : SameRootsRes (cubicRoots a b c d) (cubicRoots (-a) b' c' d') := by
  have hp : SameNum (div (-b) (((3 : Nat) : Fl f) * a)) (div (-b') (((3 : Nat) : Fl f) * -a)) := by
    have := (hb.neg).div_left (-(((3 : Nat) : Fl f) * a))
    rwa [div_neg_neg, ← mul_neg'] at this
  have hr : SameNum (div c (((3 : Nat) : Fl f) * a)) (div c' (((3 : Nat) : Fl f) * -a)) := by
    have := hc.div_left (-(((3 : Nat) : Fl f) * a))
    rwa [div_neg_neg, ← mul_neg'] at this
  have hn : SameNum (div (b * c - ((3 : Nat) : Fl f) * a * d) (((6 : Nat) : Fl f) * (a * a)))
      (div (b' * c' - ((3 : Nat) : Fl f) * -a * d') (((6 : Nat) : Fl f) * (-a * -a))) := by
    rw [neg_mul_neg']
    refine SameNum.div_left ?_ _
    have h1 := hb.mul hc
    have h2 := (SameNum.refl (-(((3 : Nat) : Fl f) * a))).mul hd
    rw [neg_mul_neg'] at h1 h2
    rw [← mul_neg'] at h2
    exact h1.sub h2
  have hX : SameNum (cubicX a b c d) (cubicX (-a) b' c' d') := by
    unfold cubicX
    simp only
    generalize div (-b) (((3 : Nat) : Fl f) * a) = P at *
    generalize div (-b') (((3 : Nat) : Fl f) * -a) = P' at *
    have hq := ((hp.mul hp).mul hp).add hn
    generalize P * P * P + _ = q at hq ⊢
    generalize P' * P' * P' + _ = q' at hq ⊢
    have hs := hr.sub (hp.mul hp)
    generalize _ - P * P = s at hs ⊢
    generalize _ - P' * P' = s' at hs ⊢
    rw [((hq.mul hq).add ((hs.mul hs).mul hs)).absSqrt]
    exact ((hcb _ _ (hq.add (.refl _))).add (hcb _ _ (hq.sub (.refl _)))).add hp
  have hB : SameNum (div b a) (div b' (-a)) := by
    have := hb.div_left (-a)
    rwa [div_neg_neg] at this
  have hC : SameNum (div c a) (div c' (-a)) := by
    have := hc.div_left (-a)
    rwa [div_neg_neg] at this
  rw [cubic_formula, cubic_formula]
  exact cubicJoin_same hX (trinomial_same (hB.add hX) (hC.add ((hB.add hX).mul hX)))

/-- C117: the roots of the cubic `p(-x)` are those of `p`, negated, if the cube root is odd. -/
theorem C117_cubic_mirror (hcb : ∀ x x' : Fl f, SameNum x x' → SameNum (cbrt x) (cbrt x')) (hodd : ∀ x : Fl f, SameNum (cbrt (-x)) (-cbrt x))
    (a b c d : Fl f) : SameRootsRes (Res.mapOk Roots.mirror (cubicRoots a b c d)) (cubicRoots a (-b) c (-d)) := by
  have hp : div (- -b) (((3 : Nat) : Fl f) * a) = -div (-b) (((3 : Nat) : Fl f) * a) := div_neg_left _ _
  have hn : SameNum (-div (b * c - ((3 : Nat) : Fl f) * a * d) (((6 : Nat) : Fl f) * (a * a)))
      (div (-b * c - ((3 : Nat) : Fl f) * a * -d) (((6 : Nat) : Fl f) * (a * a))) := by
    rw [← div_neg_left]
    refine SameNum.div_left ?_ _
    rw [sub_def, sub_def, mul_neg', ← neg_mul']
    exact neg_add_same _ _
  have hX : SameNum (-cubicX a b c d) (cubicX a (-b) c (-d)) := by
    unfold cubicX
    simp only [hp]
    generalize div (-b) (((3 : Nat) : Fl f) * a) = P at *
    have hPPP : -P * -P * -P = -(P * P * P) := by rw [neg_mul_neg', mul_neg']
    have hq : SameNum (-(P * P * P + div (b * c - ((3 : Nat) : Fl f) * a * d) (((6 : Nat) : Fl f) * (a * a))))
        (-P * -P * -P + div (-b * c - ((3 : Nat) : Fl f) * a * -d) (((6 : Nat) : Fl f) * (a * a))) := by
      rw [hPPP]
      exact (neg_add_same _ _).trans ((SameNum.refl _).add hn)
    generalize P * P * P + _ = q at hq ⊢
    generalize -P * -P * -P + _ = q' at hq ⊢
    rw [neg_mul_neg']
    generalize _ - P * P = s
    have hqq := hq.mul hq
    rw [neg_mul_neg'] at hqq
    rw [← (hqq.add (.refl (s * s * s))).absSqrt]
    generalize sqrt _ = k
    have h1 : SameNum (-cbrt (q - k)) (cbrt (q' + k)) := by
      refine (hodd _).symm.trans (hcb _ _ ?_)
      rw [sub_def]
      refine (neg_add_same _ _).trans ?_
      rw [neg_neg']
      exact hq.add (.refl _)
    have h2 : SameNum (-cbrt (q + k)) (cbrt (q' - k)) := by
      refine (hodd _).symm.trans (hcb _ _ ?_)
      rw [sub_def]
      exact (neg_add_same _ _).trans (hq.add (.refl _))
    refine (neg_add_same _ _).trans (SameNum.add ?_ (.refl _))
    refine (neg_add_same _ _).trans ?_
    rw [add_comm']
    exact h1.add h2
  have hB : SameNum (-(div b a + cubicX a b c d)) (div (-b) a + cubicX a (-b) c (-d)) := by
    rw [div_neg_left]
    exact (neg_add_same _ _).trans ((SameNum.refl _).add hX)
  have hC : SameNum (div c a + (div b a + cubicX a b c d) * cubicX a b c d)
      (div c a + (div (-b) a + cubicX a (-b) c (-d)) * cubicX a (-b) c (-d)) := by
    have := hB.mul hX
    rw [neg_mul_neg'] at this
    exact (SameNum.refl _).add this
  rw [cubic_formula, cubic_formula]
  have key := cubicJoin_same hX (trinomial_mirror_same (a := 1) hB hC)
  convert key using 1
  generalize trinomialRoots 1 (div b a + cubicX a b c d) _ = r
  cases r with
  | panic => rfl
  | fuel => rfl
  | ok r => cases r <;> rfl

end

/-! ## The order of the two roots -/

theorem sqrt_abs_nonneg (x : Fl f) (h : x ≠ .nan) : Le 0 (sqrt (abs x)) := by
  cases x with
  | nan => exact absurd rfl h
  | inf s => exact ⟨by rw [zero_def]; simp, by simp [abs, sqrt], .inr (.inl rfl)⟩
  | fin s a =>
    simp only [abs, sqrt, pack]
    split
    · exact ⟨by rw [zero_def]; simp, by simp, .inr (.inr ⟨rfl, rfl, by simp only [toRat]; simp; positivity⟩)⟩
    · exact ⟨by rw [zero_def]; simp, by simp, .inr (.inl rfl)⟩

theorem div_ne_nan_left {x y : Fl f} (h : div x y ≠ .nan) : x ≠ .nan ∧ y ≠ .nan := by
  constructor
  · rintro rfl; exact h rfl
  · rintro rfl; cases x <;> exact h rfl

/-- A non-negative number by one with a clear sign bit. -/
theorem div_nonneg_sign {x y : Fl f} (hx : Le 0 x) (hxs : x.signBit = false) (hy : y.signBit = false) (h : div x y ≠ .nan) : Le 0 (div x y) := by
  have h0 : (0 : Fl f) ≠ .nan := by rw [zero_def]; simp
  have hf : ∀ n, Le (0 : Fl f) (.fin false n) := fun n => ⟨h0, by simp, .inr (.inr ⟨rfl, rfl, by simp only [toRat]; simp; positivity⟩)⟩
  have hi : Le (0 : Fl f) (.inf false) := ⟨h0, by simp, .inr (.inl rfl)⟩
  cases x with
  | nan => exact absurd rfl h
  | inf s =>
    cases y with
    | nan => exact absurd rfl h
    | inf t => exact absurd rfl h
    | fin t b => simp only [signBit] at hxs hy; subst hxs hy; exact hi
  | fin s a =>
    cases y with
    | nan => exact absurd rfl h
    | inf t => simp only [signBit] at hxs hy; subst hxs hy; exact hf 0
    | fin t b =>
      simp only [signBit] at hxs hy
      subst hxs hy
      simp only [div] at h ⊢
      split at h
      · rename_i hb
        rw [if_pos hb]
        split at h
        · exact absurd rfl h
        · rename_i ha; rw [if_neg ha]; exact hi
      · rename_i hb
        rw [if_neg hb]
        simp only [bne_self_eq_false, pack]
        split
        · exact hf _
        · exact hi

theorem sqrt_abs_sign (x : Fl f) : (sqrt (abs x)).signBit = false := by
  cases x with
  | nan => rfl
  | inf s => rfl
  | fin s a => simp only [abs, sqrt, pack]; split <;> rfl

/-- C117: with a leading coefficient whose sign bit is clear the first of two real roots is not less than the second; the first of two
complex roots has the imaginary part that is not negative; and the second is its conjugate, bit for bit.  (Unless a NaN is among them.) -/
theorem C117_order (hp : 1 ≤ f.p) (hw : f.p ≤ f.w) (t : QuadraticTrinomial (Fl f)) (ha : t.c0.signBit = false) :
    (∀ r s, t.roots = .ok (.twoRealRoots r s) → r ≠ .nan → s ≠ .nan → Le s r) ∧
    (∀ z w, t.roots = .ok (.twoComplexRoots z w) → (z.im ≠ .nan → Le 0 z.im) ∧ w = ⟨z.re, -z.im⟩) := by
  obtain ⟨a, b, c⟩ := t
  simp only at ha
  have e : QuadraticTrinomial.roots ⟨a, b, c⟩ = _ := trinomial_formula a b c
  rw [e]
  clear e
  simp only
  have hA : (a * ((2 : Nat) : Fl f)).signBit = false := by
    have h2 : ∃ n, ((2 : Nat) : Fl f) = pack false n := ⟨_, rfl⟩
    obtain ⟨n, h2⟩ := h2
    rw [h2]
    unfold pack
    cases a with
    | nan => split <;> rfl
    | inf s =>
      simp only [signBit] at ha; subst ha
      split
      · simp only [mul_def, mul]; split <;> rfl
      · rfl
    | fin s m =>
      simp only [signBit] at ha; subst ha
      split
      · simp only [mul_def, mul, pack]; split <;> rfl
      · simp only [mul_def, mul]; split <;> rfl
  generalize b * b - a * c * ((4 : Nat) : Fl f) = D
  generalize a * ((2 : Nat) : Fl f) = A at *
  generalize div (-b) A = B
  have hS : div (sqrt (abs D)) A ≠ .nan → Le 0 (div (sqrt (abs D)) A) := fun h => by
    have hD : D ≠ .nan := by rintro rfl; exact h rfl
    exact div_nonneg_sign (sqrt_abs_nonneg D hD) (sqrt_abs_sign D) hA h
  generalize div (sqrt (abs D)) A = S at *
  constructor
  · intro r s h hr hs
    split at h
    · simp only [Res.ok.injEq, Roots.twoRealRoots.injEq] at h
      obtain ⟨rfl, rfl⟩ := h
      exact Le.refl hr
    · split at h
      · simp only [Res.ok.injEq, Roots.twoRealRoots.injEq] at h
        obtain ⟨rfl, rfl⟩ := h
        have hBn : B ≠ .nan := by rintro rfl; exact hr rfl
        have hSn : S ≠ .nan := by rintro rfl; cases B <;> exact hr rfl
        have h0 := hS hSn
        have hneg : Le (-S) S := by
          have h1 := h0.neg
          refine (h1.congr (.refl _) (.zeros ⟨true, rfl⟩ ⟨false, rfl⟩ : SameNum (-0 : Fl f) 0)).trans h0
        exact (Le.refl hBn).add hp hw hneg hs hr
      · simp at h
  · intro z w h
    split at h
    · simp at h
    · split at h
      · simp at h
      · simp only [Res.ok.injEq, Roots.twoComplexRoots.injEq] at h
        obtain ⟨rfl, rfl⟩ := h
        exact ⟨hS, rfl⟩

/-- `x² + x + 1`, and a quadratic whose roots overflow to `NaN`. -/
example : (QuadraticTrinomial.new 1 1 1 : QuadraticTrinomial (Fl binary64)).c0.signBit = false ∧
    (match (QuadraticTrinomial.new 1 1 1 : QuadraticTrinomial (Fl binary64)).roots with
      | .ok (.twoComplexRoots z w) => z.im.isFinite && !z.im.signBit && w.im.signBit
      | _ => false) = true ∧
    (QuadraticTrinomial.new 0 0 1 : QuadraticTrinomial (Fl binary64)).roots = .ok (.twoRealRoots .nan .nan) := by
  decide +kernel

/-! ## `roots()` of a negated polynomial -/

/-- A coefficient and the one of the negated polynomial (`σ`), or of the same. -/
def Turned (σ : Bool) (x x' : Fl f) : Prop := SameNum (if σ then -x else x) x'

theorem roundRat_pos {p num den : Nat} (hd : 0 < den) (h : den ≤ num) (hp : 1 ≤ p) : 0 < roundRat p num den := by
  have hm : Representable p 1 := ⟨1, 0, Nat.one_lt_two_pow (by omega), rfl⟩
  by_contra hz
  have hz : roundRat p num den = 0 := by omega
  have key := roundRat_nearest (num := num) hp hd hm
  have h1 : (1 : ℚ) ≤ num / den := by rw [le_div_iff₀ (by exact_mod_cast hd), one_mul]; exact_mod_cast h
  rw [hz, Nat.cast_zero, zero_sub, abs_neg, abs_of_nonneg (by linarith), Nat.cast_one, abs_sub_comm, abs_of_nonneg (by linarith)] at key
  linarith

theorem isZero_pack {s : Bool} {n : Nat} (h : 0 < n) : isZero (pack s n : Fl f) = false := by
  unfold pack
  split
  · cases e : isZero (fin s n : Fl f) with
    | false => rfl
    | true => obtain ⟨t, e⟩ := isZero_iff.1 e; cases e; omega
  · rfl

theorem isZero_div_one (hp : 1 ≤ f.p) (x : Fl f) : isZero (div x 1) = isZero x := by
  rw [one_def']
  cases x with
  | nan => rfl
  | inf s => rfl
  | fin s a =>
    have h2 : (2 : Nat) ^ f.q ≠ 0 := by positivity
    simp only [div, if_neg h2]
    rcases Nat.eq_zero_or_pos a with rfl | ha
    · rw [Nat.zero_mul, roundRat_zero, pack_zero, isZero_iff.2 ⟨_, rfl⟩, isZero_iff.2 ⟨_, rfl⟩]
    · rw [isZero_pack (roundRat_pos (by positivity) (Nat.le_mul_of_pos_left _ ha) hp)]
      cases e : isZero (fin s a : Fl f) with
      | false => rfl
      | true => obtain ⟨t, e⟩ := isZero_iff.1 e; cases e; omega

theorem Turned.ne_zero {σ : Bool} {y y' : Fl f} (h : Turned σ y y') (hz : isZero y = false) : y' = if σ then -y else y := by
  rcases h with h | ⟨⟨s, h⟩, -⟩
  · exact h.symm
  · have : isZero (if σ then -y else y) = true := isZero_iff.2 ⟨s, h⟩
    cases σ
    · rw [if_neg (by simp), hz] at this; cases this
    · rw [if_pos rfl, isZero_neg, hz] at this; cases this

theorem respects_fl (hp : 1 ≤ f.p) (hw : f.q < f.w) (σ : Bool) : Respects (Turned (f := f) σ) SameNum where
  zero := by
    cases σ
    · exact .refl _
    · exact .zeros ⟨true, rfl⟩ ⟨false, rfl⟩
  isZero := by
    intro x x' h
    rw [← SameNum.isZero h]
    cases σ
    · rfl
    · exact (isZero_neg x).symm
  sub := by
    intro x x' s s' hx hs
    cases σ
    · exact SameNum.sub hx ((SameNum.refl _).mul hs)
    · have h1 : SameNum (-x) x' := hx
      have h2 : SameNum (-s) s' := hs
      have h3 := (SameNum.refl 1).mul h2
      rw [mul_neg'] at h3
      show SameNum (-(x - 1 * s)) (x' - 1 * s')
      rw [sub_def, sub_def]
      exact (neg_add_same _ _).trans (h1.add h3.neg)
  add := by
    intro x x' s s' r r' hx hs hr
    cases σ
    · exact SameNum.add hx (hr.mul hs)
    · have h1 : SameNum (-x) x' := hx
      have h2 : SameNum (-s) s' := hs
      have h3 := hr.mul h2
      rw [mul_neg'] at h3
      exact (neg_add_same _ _).trans (h1.add h3)
  one := by
    intro x x' hx
    refine ⟨div x 1, div x' 1, rfl, rfl, ?_, isZero_div_one hp x⟩
    cases σ
    · exact SameNum.div_left hx _
    · show SameNum (-div x 1) (div x' 1)
      rw [← div_neg_left]
      exact SameNum.div_left hx _
  quot := by
    intro x x' y y' hx hy hz
    refine ⟨div x y, div x' y', rfl, rfl, ?_⟩
    rw [hy.ne_zero hz]
    cases σ
    · exact SameNum.div_left hx _
    · rw [← div_neg_neg x y]
      exact SameNum.div_left hx _
  self := by
    intro y q hz hq
    have hq : div y y = q := by injection hq
    subst hq
    cases e : y.isFinite with
    | true =>
      rw [div_self' hp hw e hz, one_def']
      cases e' : Rustnomial.isZero (fin false (2 ^ f.q) : Fl f) with
      | false => rfl
      | true =>
        obtain ⟨t, e'⟩ := isZero_iff.1 e'
        injection e' with _ e'
        exact absurd e' (by positivity)
    | false => cases y <;> first | rfl | cases e

theorem respects_same (hp : 1 ≤ f.p) (hw : f.q < f.w) : Respects (SameNum (f := f)) SameNum := respects_fl hp hw false

theorem formulas_fl [Cbrt (Fl f)] (hcb : ∀ x x' : Fl f, SameNum x x' → SameNum (cbrt x) (cbrt x')) : Formulas (Turned (f := f) true) SameNum true where
  lin := by
    intro a a' b b' ha hb hz
    show SameNum (div (-b) a) (div (-b') a')
    rw [ha.ne_zero hz, ← div_neg_neg (-b) a]
    exact SameNum.div_left (SameNum.neg hb) _
  quad := by
    intro a a' b b' c c' ha hb hc hz
    rw [ha.ne_zero hz]
    have := trinomial_neg_same (a := a) hb hc
    simp only [if_true]
    generalize trinomialRoots a b c = r at *
    generalize trinomialRoots (-a) b' c' = r' at *
    cases r <;> cases r' <;> exact this
  cub := by
    intro a a' b b' c c' d d' ha hb hc hd hz
    rw [ha.ne_zero hz]
    exact cubic_neg_same hcb hb hc hd

theorem SameNum.absLess {x x' y y' : Fl f} (hx : SameNum x x') (hy : SameNum y y') : absLess x y = absLess x' y' := by
  rcases hx with rfl | ⟨⟨s, rfl⟩, t, rfl⟩ <;> rcases hy with rfl | ⟨⟨u, rfl⟩, v, rfl⟩
  · rfl
  · cases x <;> rfl
  · cases y <;> rfl
  · rfl

theorem absLess_neg (x y : Fl f) : absLess (-x) (-y) = absLess x y := by
  cases x <;> cases y <;> rfl

theorem SameNum.round {x x' : Fl f} (h : SameNum x x') : SameNum (round x) (round x') := by
  rcases h with rfl | ⟨⟨s, rfl⟩, t, rfl⟩
  · exact .refl _
  · have : (2 * 0 + 2 ^ f.q) / (2 * 2 ^ f.q) = 0 := by
      rw [Nat.div_eq_zero_iff]; right
      have : 0 < 2 ^ f.q := by positivity
      omega
    refine .zeros ⟨s, ?_⟩ ⟨t, ?_⟩ <;> simp only [Fl.round, this, Nat.zero_mul]

theorem eval_point_same (p : Poly (Fl f)) {x x' : Fl f} (h : SameNum x x') : SameNum (p.eval x) (p.eval x') := by
  cases hz : isZero x with
  | true => rw [eval_zero p hz, eval_zero p (h.isZero ▸ hz)]; exact .refl _
  | false =>
    have : x = x' := by
      rcases h with h | ⟨⟨s, rfl⟩, -⟩
      · exact h
      · rw [isZero_iff.2 ⟨s, rfl⟩] at hz; cases hz
    rw [this]; exact .refl _

theorem pick_same {rnd eval eval' : Fl f → Fl f} (hr : ∀ x x', SameNum x x' → SameNum (rnd x) (rnd x'))
    (he : ∀ x x', SameNum x x' → SameNum (-eval x) (eval' x')) (r r' : Fl f) (h : SameNum r r') :
    SameNum (pickRoot rnd eval r) (pickRoot rnd eval' r') := by
  unfold pickRoot
  rw [← absLess_neg (eval (rnd r)), SameNum.absLess (he _ _ (hr _ _ h)) (he _ _ h)]
  split
  · exact hr _ _ h
  · exact h

theorem leadDegree_fl (l : List (Fl f × Nat)) : headDegree l = leadDegree l := by cases l <;> rfl

theorem descTerms_neg (l : List (Fl f)) : descTerms (l.map fun x => -x) = (descTerms l).map fun t => (-t.1, t.2) := by
  induction l with
  | nil => rfl
  | cons a l ih =>
    rw [List.map_cons, descTerms, descTerms, isZero_neg, List.length_map]
    split
    · exact ih
    · rw [List.map_cons, ih]

theorem roots_neg_gen [Cbrt (Fl f)] (hp : 1 ≤ f.p) (hw : f.q < f.w) (hcb : ∀ x x' : Fl f, SameNum x x' → SameNum (cbrt x) (cbrt x'))
    {oracle : List (Fl f) → List (Fl f)} (ho : ∀ l l', List.Forall₂ SameNum l l' → List.Forall₂ SameNum (oracle l) (oracle l')) (fuel : Nat)
    {vals : List (Fl f × Nat)} (hz : ∀ t ∈ vals, isZero t.1 = false) {eval eval' : Fl f → Fl f}
    (he : ∀ x x', SameNum x x' → SameNum (-eval x) (eval' x')) {d : Degree} (hd : d = headDegree vals) :
    (d ≠ .num 2 → SameRootsRes (findRoots oracle round fuel vals d eval) (findRoots oracle round fuel (vals.map fun t => (-t.1, t.2)) d eval')) ∧
    (d = .num 2 → SameRootsRes (Res.mapOk Roots.reversed (findRoots oracle round fuel vals d eval))
      (findRoots oracle round fuel (vals.map fun t => (-t.1, t.2)) d eval')) := by
  have hrel : TermsRel (Turned true) vals (vals.map fun t => (-t.1, t.2)) :=
    List.forall₂_map_right_iff.2 (List.forall₂_same.2 fun _ _ => ⟨.refl _, rfl⟩)
  have key := findRoots_rel (respects_fl hp hw true) (respects_same hp hw) (formulas_fl hcb) ho
    (pick_same (fun _ _ h => SameNum.round h) he) fuel hrel hz (hd.trans (leadDegree_fl vals))
  generalize findRoots oracle round fuel vals d eval = r at *
  generalize findRoots oracle round fuel (vals.map fun t => (-t.1, t.2)) d eval' = r' at *
  refine ⟨fun h => ?_, fun h => ?_⟩
  · have e : (true && d == Degree.num 2) = false := by simpa using h
    rw [e] at key
    exact key
  · subst h
    cases r <;> cases r' <;> exact key

/-- C117: `roots()` of the negated `Polynomial<f64>`, for coefficients of any kind: the same numbers, the two roots of a quadratic exchanged.
Assumed of the external functions: they answer with the same numbers when only signs of zeros differ. -/
theorem C117_poly_neg [Cbrt (Fl f)] (hp : 1 ≤ f.p) (hw : f.q < f.w) (hcb : ∀ x x' : Fl f, SameNum x x' → SameNum (cbrt x) (cbrt x'))
    (oracle : List (Fl f) → List (Fl f)) (ho : ∀ l l', List.Forall₂ SameNum l l' → List.Forall₂ SameNum (oracle l) (oracle l')) (fuel : Nat)
    (p : Poly (Fl f)) :
    (p.degree ≠ .num 2 → SameRootsRes (p.roots oracle round fuel) (p.neg.roots oracle round fuel)) ∧
    (p.degree = .num 2 → SameRootsRes (Res.mapOk Roots.reversed (p.roots oracle round fuel)) (p.neg.roots oracle round fuel)) := by
  have hv : p.neg.termsAsVec = p.termsAsVec.map fun t => (-t.1, t.2) := by
    show p.neg.orderedTermIter = p.orderedTermIter.map _
    rw [orderedTermIter_eq, orderedTermIter_eq]
    exact descTerms_neg p.terms
  have hd : p.neg.degree = p.degree := by
    rw [dense_degree, dense_degree, hv]
    cases p.termsAsVec <;> rfl
  have := roots_neg_gen hp hw hcb ho fuel (fun t ht => ((dense_coeffs p).coef t ht).1) (eval := p.eval) (eval' := p.neg.eval)
    (fun x x' h => ((C115_eval_neg p x).symm).trans (eval_point_same p.neg h)) (dense_degree p)
  rw [← hv] at this
  unfold Poly.roots
  rw [hd]
  exact this

section Examples

/-- A stand-in for the cube root, and a root finder that finds only the root 1. -/
local instance idCbrt : Cbrt (Fl binary64) := ⟨id⟩
def exFinder : List (Fl binary64) → List (Fl binary64) := fun _ => [1]
def exQuartic : Poly (Fl binary64) := ⟨[1, 0, 0, 0, -1]⟩
def exSurd : Sparse (Fl binary64) := ⟨(BMap.empty.insert 0 (-ofNat 3)).insert 2 1⟩

theorem exFinder_same (l l' : List (Fl binary64)) (_ : List.Forall₂ SameNum l l') : List.Forall₂ SameNum (exFinder l) (exFinder l') :=
  .cons (.refl _) .nil

theorem idCbrt_same (x x' : Fl binary64) (h : SameNum x x') : SameNum (cbrt x) (cbrt x') := h
theorem exQuartic_degree : exQuartic.degree ≠ .num 2 := by decide +kernel

/-- The hypotheses hold for `x⁴ - 1`, and roots are reported. -/
example : exQuartic.roots exFinder round 9 = .ok (.manyRealRoots [1, 1, 1, 1]) := by decide +kernel
attribute [local irreducible] Res.Rel in
example : SameRootsRes (exQuartic.roots exFinder round 9) (exQuartic.neg.roots exFinder round 9) :=
  (C117_poly_neg (f := binary64) (by decide) (by decide) idCbrt_same exFinder exFinder_same 9 exQuartic).1 exQuartic_degree

end Examples

attribute [local instance] sqPow

theorem powiLoop_same (b : Nat) : ∀ {r r' a a' : Fl f}, SameNum r r' → SameNum a a' → SameNum (powiLoop r a b) (powiLoop r' a' b) := by
  induction b using Nat.strong_induction_on with
  | _ b ih =>
    intro r r' a a' hr ha
    rw [powiLoop_step r, powiLoop_step r']
    have h1 : SameNum (if b % 2 = 1 then r * a else r) (if b % 2 = 1 then r' * a' else r') := by
      split
      · exact hr.mul ha
      · exact hr
    split
    · exact h1
    · exact ih (b / 2) (by omega) h1 (ha.mul ha)

theorem foldl_neg_same {x x' : Fl f} (h : SameNum x x') : ∀ (l : List (Nat × Fl f)), (∀ e ∈ l, e.1 < 2 ^ 31) → ∀ {a a' : Fl f}, SameNum (-a) a' →
    SameNum (-l.foldl (fun sum e => sum + e.2 * upow x e.1) a) ((l.map fun e => (e.1, -e.2)).foldl (fun sum e => sum + e.2 * upow x' e.1) a')
  | [], _, _, _, ha => ha
  | e :: l, hl, a, a', ha => by
    rw [List.map_cons, List.foldl_cons, List.foldl_cons]
    refine foldl_neg_same h l (fun e he => hl e (by simp [he])) ?_
    refine (neg_add_same _ _).trans (ha.add ?_)
    have hpow : SameNum (upow x e.1) (upow x' e.1) := by
      show SameNum (upowFl x e.1) (upowFl x' e.1)
      unfold upowFl powi
      rw [asI32_small (hl e (by simp))]
      rw [if_neg (by omega), if_neg (by omega)]
      exact powiLoop_same _ (.refl 1) h
    rw [neg_mul']
    exact (SameNum.refl (-e.2)).mul hpow

theorem sparse_neg_terms (p : Sparse (Fl f)) : p.neg.terms = p.terms.mapVals (fun x => -x) := by
  refine BMap.eq_of_get fun k => ?_
  rw [get_mapVals]
  exact get_rebuild (fun x => -x) p.terms k

/-- C117: the same for `SparsePolynomial` with exponents below `2 ^ 31` (powers by repeated squaring, as compiled). -/
theorem C117_sparse_neg [Cbrt (Fl f)] (hp : 1 ≤ f.p) (hw : f.q < f.w) (hcb : ∀ x x' : Fl f, SameNum x x' → SameNum (cbrt x) (cbrt x'))
    (oracle : List (Fl f) → List (Fl f)) (ho : ∀ l l', List.Forall₂ SameNum l l' → List.Forall₂ SameNum (oracle l) (oracle l')) (fuel : Nat)
    (p : Sparse (Fl f)) (hb : ∀ e ∈ p.terms.entries, e.1 < 2 ^ 31) :
    (p.degree ≠ .num 2 → SameRootsRes (p.roots oracle round fuel) (p.neg.roots oracle round fuel)) ∧
    (p.degree = .num 2 → SameRootsRes (Res.mapOk Roots.reversed (p.roots oracle round fuel)) (p.neg.roots oracle round fuel)) := by
  have hv : p.neg.termsAsVec = p.termsAsVec.map fun t => (-t.1, t.2) := by
    unfold Sparse.termsAsVec Sparse.orderedTermIter
    rw [sparse_neg_terms]
    show ((p.terms.entries.map fun e => (e.1, -e.2)).reverse.filterMap fun e => if isZero e.2 then none else some (e.2, e.1)) = _
    rw [← List.map_reverse, List.filterMap_map, List.map_filterMap]
    congr 1
    funext e
    simp only [Function.comp, isZero_neg]
    split <;> rfl
  have hd : p.neg.degree = p.degree := by
    rw [sparse_degree, sparse_degree, hv]
    cases p.termsAsVec <;> rfl
  have := roots_neg_gen hp hw hcb ho fuel (fun t ht => ((sparse_coeffs p).coef t ht).1) (eval := p.eval) (eval' := p.neg.eval)
    (fun x x' h => by
      unfold Sparse.eval
      rw [sparse_neg_terms]
      exact foldl_neg_same h p.terms.entries hb (.zeros ⟨true, rfl⟩ ⟨false, rfl⟩)) (sparse_degree p)
  rw [← hv] at this
  unfold Sparse.roots
  rw [hd]
  exact this

/-- C116: the value of the negated `SparsePolynomial` is the negated value; with odd exponents only, changing the sign of `x` changes the sign of
the value (up to the sign of zero). -/
theorem C116_sparse_odd (p : Sparse (Fl f)) (hd : ∀ e ∈ p.terms.entries, e.1 < 2 ^ 31) (x : Fl f) :
    SameNum (p.neg.eval x) (-p.eval x) ∧ ((∀ e ∈ p.terms.entries, e.1 % 2 = 1) → SameNum (p.eval (-x)) (-p.eval x)) := by
  have h1 : SameNum (p.neg.eval x) (-p.eval x) := by
    unfold Sparse.eval
    rw [sparse_neg_terms]
    exact (foldl_neg_same (.refl x) p.terms.entries hd (.zeros ⟨true, rfl⟩ ⟨false, rfl⟩)).symm
  refine ⟨h1, fun ho => ?_⟩
  rw [(C116_sparse_reflect p p.neg hd x ?_).1]
  · exact h1
  · rw [sparse_neg_terms]
    refine List.map_congr_left fun e he => ?_
    rw [if_pos (ho e he)]

/-- C116 (Monomial): the value at `-x` is that at `x` of the monomial negated if its degree is odd, exactly; and this is the negated value. -/
theorem C116_monomial_reflect (m : Monomial (Fl f)) (hd : m.deg < 2 ^ 31) (x : Fl f) :
    m.eval (-x) = (if m.deg % 2 = 1 then m.neg else m).eval x ∧ m.eval (-x) = if m.deg % 2 = 1 then -m.eval x else m.eval x := by
  have h : upow (-x) m.deg = if m.deg % 2 = 1 then -upow x m.deg else upow x m.deg := C116_upow_neg x m.deg hd
  unfold Monomial.eval
  rw [h]
  split
  · exact ⟨(mul_neg' _ _).trans (neg_mul' _ _), mul_neg' _ _⟩
  · exact ⟨rfl, rfl⟩

/-- `3x³ - x` and `3x³` at 2 and -2. -/
example : (⟨(BMap.empty.insert 1 (-1)).insert 3 (ofNat 3)⟩ : Sparse (Fl binary64)).eval (ofNat 2) = ofNat 22 ∧
    (⟨(BMap.empty.insert 1 (-1)).insert 3 (ofNat 3)⟩ : Sparse (Fl binary64)).eval (-ofNat 2) = -ofNat 22 ∧
    (⟨ofNat 3, 3⟩ : Monomial (Fl binary64)).eval (-ofNat 2) = -ofNat 24 := by decide +kernel

attribute [local instance] idCbrt in
attribute [local irreducible] Res.Rel in
/-- `x² - 3`, whose two roots are exchanged. -/
example : SameRootsRes (Res.mapOk Roots.reversed (exSurd.roots exFinder round 9)) (exSurd.neg.roots exFinder round 9) := by
  have h : ∀ e ∈ exSurd.terms.entries, e.1 < 3 := by decide +kernel
  have h2 : exSurd.degree = .num 2 := by decide +kernel
  exact (C117_sparse_neg (f := binary64) (by decide) (by decide) idCbrt_same exFinder exFinder_same 9 exSurd (fun e he => (h e he).trans (by norm_num))).2 h2

end Fl
end Rustnomial
