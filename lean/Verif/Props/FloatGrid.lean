import Verif.SpecFloatGrid
import Verif.Props.FloatScale
import Verif.Props.FloatExact

/-!
# C128: fixed-point numbers are computed exactly

A float has `p` significant bits.  Numbers with a fixed number of binary places are added, multiplied and evaluated without any rounding as long
as the exact results, with all signs made positive, stay below `2^p` units of the last place.
-/

namespace Rustnomial
namespace Fl
variable {f : FlFmt}
open Polynomial

theorem Grid.add {e : ℤ} {v w : ℚ} (h : Grid e v) (h' : Grid e w) : Grid e (v + w) := by
  obtain ⟨n, rfl⟩ := h
  obtain ⟨m, rfl⟩ := h'
  exact ⟨n + m, by push_cast; ring⟩

theorem Grid.neg {e : ℤ} {v : ℚ} (h : Grid e v) : Grid e (-v) := by
  obtain ⟨n, rfl⟩ := h
  exact ⟨-n, by push_cast; ring⟩

theorem Grid.mul {e g : ℤ} {v w : ℚ} (h : Grid e v) (h' : Grid g w) : Grid (e + g) (v * w) := by
  obtain ⟨n, rfl⟩ := h
  obtain ⟨m, rfl⟩ := h'
  exact ⟨n * m, by rw [zpow_add₀ (by norm_num)]; push_cast; ring⟩

theorem Grid.zero (e : ℤ) : Grid e 0 := ⟨0, by simp⟩

theorem Grid.mono {e g : ℤ} {v : ℚ} (h : Grid e v) (hg : g ≤ e) : Grid g v := by
  obtain ⟨n, rfl⟩ := h
  obtain ⟨k, hk⟩ := Int.eq_ofNat_of_zero_le (sub_nonneg.2 hg)
  refine ⟨n * 2 ^ k, ?_⟩
  rw [show e = k + g by omega, zpow_add₀ (by norm_num), zpow_natCast]
  push_cast
  ring

theorem Grid.sum {e : ℤ} {F : Nat → ℚ} (n : Nat) (h : ∀ i < n, Grid e (F i)) : Grid e (∑ i ∈ Finset.range n, F i) := by
  induction n with
  | zero => simpa using Grid.zero e
  | succ n ih => rw [Finset.sum_range_succ]; exact (ih fun i hi => h i (by omega)).add (h n (by omega))

/-- A whole multiple of `2^e` other than 0 is at least `2^e`. -/
theorem Grid.le_abs {e : ℤ} {v : ℚ} (h : Grid e v) (h0 : v ≠ 0) : 2 ^ e ≤ |v| := by
  obtain ⟨n, rfl⟩ := h
  have hn : n ≠ 0 := by rintro rfl; simp at h0
  have hp : (0 : ℚ) < 2 ^ e := by positivity
  rw [abs_mul, abs_of_pos hp]
  have : (1 : ℚ) ≤ |(n : ℚ)| := by exact_mod_cast Int.one_le_abs hn
  nlinarith

theorem grid_valid {e : ℤ} (he : GridOk f e) {v : ℚ} (hv : Grid e v) (hb : |v| < 2 ^ (f.p + e)) :
    (∃ z : Fl f, z.Valid ∧ z.isFinite = true ∧ z.toRat = v) ∧ |v| ≤ maxFinite f := by
  obtain ⟨n, rfl⟩ := hv
  obtain ⟨h1, h2⟩ := he
  obtain ⟨m, hm⟩ := Int.eq_ofNat_of_zero_le (show 0 ≤ e + f.q by omega)
  have he : e = m - f.q := by omega
  have hpos : (0 : ℚ) < 2 ^ f.q := by positivity
  have h2e : (2 : ℚ) ^ e = 2 ^ m / 2 ^ f.q := by rw [he, zpow_sub₀ (by norm_num), zpow_natCast, zpow_natCast]
  have hepos : (0 : ℚ) < 2 ^ e := by positivity
  have hnat : n.natAbs < 2 ^ f.p := by
    rw [abs_mul, abs_of_pos hepos, zpow_add₀ (by norm_num), zpow_natCast] at hb
    have hb := lt_of_mul_lt_mul_right hb hepos.le
    have : ((n.natAbs : ℕ) : ℚ) < 2 ^ f.p := by rw [Nat.cast_natAbs, Int.cast_abs]; exact hb
    exact_mod_cast this
  have hmw : f.p + m ≤ f.w := by omega
  refine ⟨⟨fin (decide (n < 0)) (n.natAbs * 2 ^ m), ⟨⟨_, _, hnat, rfl⟩, ?_⟩, rfl, ?_⟩, ?_⟩
  · calc n.natAbs * 2 ^ m < 2 ^ f.p * 2 ^ m := Nat.mul_lt_mul_of_pos_right hnat (by positivity)
      _ = 2 ^ (f.p + m) := by rw [pow_add]
      _ ≤ 2 ^ f.w := Nat.pow_le_pow_right (by norm_num) hmw
  · simp only [toRat]
    push_cast
    rw [h2e, Nat.cast_natAbs, Int.cast_abs]
    by_cases h : n < 0
    · have hq : (n : ℚ) < 0 := by exact_mod_cast h
      simp [h, abs_of_neg hq]; ring
    · have hq : (0 : ℚ) ≤ n := by exact_mod_cast not_lt.1 h
      simp [h, abs_of_nonneg hq]; ring
  · unfold maxFinite
    rw [le_div_iff₀ hpos, abs_mul, abs_of_pos hepos, h2e, mul_assoc, div_mul_cancel₀ _ hpos.ne']
    have h1 : |(n : ℚ)| = (n.natAbs : ℕ) := by rw [Nat.cast_natAbs, Int.cast_abs]
    rw [h1]
    have h2 : n.natAbs * 2 ^ m ≤ (2 ^ f.p - 1) * 2 ^ (f.w - f.p) :=
      Nat.mul_le_mul (by omega) (Nat.pow_le_pow_right (by norm_num) (by omega))
    exact_mod_cast h2

/-- **C128.** An operation on numbers whose exact result is a whole multiple of `2^e` below `2^(p + e)` returns this result. -/
theorem C128_number (hp : 1 ≤ f.p) {e : ℤ} (he : GridOk f e) {x y : Fl f} {a b : ℚ} (hx : Has x a) (hy : Has y b) :
    (Grid e (a + b) → |a + b| < 2 ^ (f.p + e) → Has (x + y) (a + b)) ∧
    (Grid e (a - b) → |a - b| < 2 ^ (f.p + e) → Has (x - y) (a - b)) ∧
    (Grid e (a * b) → |a * b| < 2 ^ (f.p + e) → Has (x * y) (a * b)) ∧
    (b ≠ 0 → Grid e (a / b) → |a / b| < 2 ^ (f.p + e) → Has (div x y) (a / b)) := by
  have hw : f.p ≤ f.w := by have := he.1; have := he.2; omega
  have fin : ∀ {u v w : ℚ}, |u - v| ≤ |w - v| → w = v → u = v := by
    intro u v w h e
    rw [e, sub_self, abs_zero] at h
    exact sub_eq_zero.1 (abs_eq_zero.1 (le_antisymm h (abs_nonneg _)))
  obtain ⟨x1, rfl⟩ := hx
  obtain ⟨y1, rfl⟩ := hy
  have hadd : ∀ {x y : Fl f}, x.isFinite = true → y.isFinite = true → Grid e (x.toRat + y.toRat) → |x.toRat + y.toRat| < 2 ^ (f.p + e) →
      Has (x + y) (x.toRat + y.toRat) := by
    intro x y x1 y1 hg hb
    obtain ⟨⟨z, z1, z2, z3⟩, hm⟩ := grid_valid he hg hb
    have := (C65_no_overflow hp hw x y x1 y1).1 hm
    exact ⟨this, fin ((C65_nearest hp x y z z1 z2).1 this) z3⟩
  refine ⟨hadd x1 y1, fun hg hb => ?_, fun hg hb => ?_, fun h0 hg hb => ?_⟩
  · have := hadd (y := -y) x1 (by rw [isFinite_neg, y1]) (by rwa [toRat_neg, ← sub_eq_add_neg]) (by rwa [toRat_neg, ← sub_eq_add_neg])
    rwa [toRat_neg, ← sub_eq_add_neg] at this
  · obtain ⟨⟨z, z1, z2, z3⟩, hm⟩ := grid_valid he hg hb
    have := (C65_no_overflow hp hw x y x1 y1).2.1 hm
    exact ⟨this, fin ((C65_nearest hp x y z z1 z2).2.2.1 this) z3⟩
  · obtain ⟨⟨z, z1, z2, z3⟩, hm⟩ := grid_valid he hg hb
    have := (C65_no_overflow hp hw x y x1 y1).2.2 h0 hm
    exact ⟨this, fin ((C65_nearest hp x y z z1 z2).2.2.2 x1 y1 h0 this) z3⟩

theorem Has.congr {x y : Fl f} {v : ℚ} (h : Has x v) (hxy : SameNum x y) : Has y v :=
  ⟨hxy.fin_eq.1 ▸ h.1, by rw [← hxy.fin_eq.2, h.2]⟩

theorem Has.zero : Has (0 : Fl f) 0 := ⟨rfl, toRat_zero⟩

theorem GridPoly.coeff {e : ℤ} {p : Poly (Fl f)} (h : GridPoly e p) (i : Nat) :
    Has (coeffOf p i) (coeffOf p i).toRat ∧ Grid e (coeffOf p i).toRat := by
  rcases coeffOf_mem p i with hm | hm
  · exact ⟨⟨(h _ hm).1, rfl⟩, (h _ hm).2.2⟩
  · rw [hm]
    exact ⟨⟨rfl, rfl⟩, by rw [toRat_zero]; exact Grid.zero e⟩

/-- **C128.** Sums and differences of polynomials with fixed-point coefficients are exact. -/
theorem C128_sum (hp : 1 ≤ f.p) {e : ℤ} (he : GridOk f e) {p q : Poly (Fl f)} (h : GridPoly e p) (h' : GridPoly e q) :
    ((∀ i, |(coeffOf p i).toRat + (coeffOf q i).toRat| < 2 ^ (f.p + e)) →
      ∃ r, p.add q = .ok r ∧ ∀ i, Has (coeffOf r i) ((coeffOf p i).toRat + (coeffOf q i).toRat)) ∧
    ((∀ i, |(coeffOf p i).toRat - (coeffOf q i).toRat| < 2 ^ (f.p + e)) →
      ∃ r, p.sub q = .ok r ∧ ∀ i, Has (coeffOf r i) ((coeffOf p i).toRat - (coeffOf q i).toRat)) := by
  refine ⟨fun hb => ?_, fun hb => ?_⟩
  · obtain ⟨r, e1, hr⟩ := (C115_add_coeff hp p q (fun c hc => (h c hc).2.1) fun c hc => (h' c hc).2.1).1
    exact ⟨r, e1, fun i => ((C128_number hp he (h.coeff i).1 (h'.coeff i).1).1 ((h.coeff i).2.add (h'.coeff i).2) (hb i)).congr (hr i).symm⟩
  · obtain ⟨r, e1, hr⟩ := (C115_sub_coeff hp p q (fun c hc => (h c hc).2.1) fun c hc => (h' c hc).2.1).1
    exact ⟨r, e1, fun i => ((C128_number hp he (h.coeff i).1 (h'.coeff i).1).2.1
      (by rw [sub_eq_add_neg]; exact (h.coeff i).2.add (h'.coeff i).2.neg) (hb i)).congr (hr i).symm⟩

theorem descSum_grid (hp : 1 ≤ f.p) {e : ℤ} (he : GridOk f e) {g : Nat → Fl f} {G : Nat → ℚ} : ∀ {n : Nat} {a : Fl f} {A : ℚ}, Has a A →
    Grid e A → (∀ d < n, Grid e (G d)) → (∀ d < n, |G d| < 2 ^ (f.p + e) → Has (g d) (G d)) →
    |A| + ∑ d ∈ Finset.range n, |G d| < 2 ^ (f.p + e) → Has (descSum g n a) (A + ∑ d ∈ Finset.range n, G d)
  | 0, a, A, h, _, _, _, _ => by rw [Finset.sum_range_zero, add_zero]; exact h
  | n + 1, a, A, h, hA, hG, hg, hb => by
    rw [Finset.sum_range_succ] at hb ⊢
    have hnn : 0 ≤ ∑ d ∈ Finset.range n, |G d| := Finset.sum_nonneg fun _ _ => abs_nonneg _
    have h1 := hg n (by omega) (by have := abs_nonneg A; linarith)
    have h2 := (C128_number hp he h h1).1 (hA.add (hG n (by omega))) (by have := abs_add_le A (G n); linarith)
    have := descSum_grid (g := g) (G := G) (n := n) hp he h2 (hA.add (hG n (by omega))) (fun d hd => hG d (by omega)) (fun d hd => hg d (by omega))
      (by have := abs_add_le A (G n); linarith)
    show Has (descSum g n (a + g n)) _
    rwa [show A + (∑ d ∈ Finset.range n, G d + G n) = A + G n + ∑ d ∈ Finset.range n, G d by ring]

/-- **C128.** Products of polynomials with fixed-point coefficients are exact, when the product of the polynomials with the absolute values
of the coefficients stays below the bound. -/
theorem C128_product (hp : 1 ≤ f.p) {e g : ℤ} (he : GridOk f (e + g)) {p q r : Poly (Fl f)} (h : GridPoly e p) (h' : GridPoly g q)
    (hr : p.mul q = .ok r ∨ p.mulRef q = .ok r)
    (hb : ∀ i, ∑ d ∈ Finset.range (i + 1), |(coeffOf q d).toRat * (coeffOf p (i - d)).toRat| < 2 ^ (f.p + (e + g))) (i : Nat) :
    Has (coeffOf r i) (∑ d ∈ Finset.range (i + 1), (coeffOf q d).toRat * (coeffOf p (i - d)).toRat) := by
  have c := C115_mul_coeff hp p q r (fun c hc => ⟨(h c hc).1, (h c hc).2.1⟩) (fun c hc => ⟨(h' c hc).1, (h' c hc).2.1⟩) hr i
  have hg : ∀ d, Grid (e + g) ((coeffOf q d).toRat * (coeffOf p (i - d)).toRat) := fun d => by
    rw [mul_comm]; exact (h.coeff _).2.mul (h'.coeff d).2
  have := descSum_grid (g := fun d => coeffOf q d * coeffOf p (i - d)) (G := fun d => (coeffOf q d).toRat * (coeffOf p (i - d)).toRat)
    hp he Has.zero (Grid.zero _) (fun d _ => hg d)
    (fun d _ hd => (C128_number hp he (h'.coeff d).1 (h.coeff (i - d)).1).2.2.1 (hg d) hd) (n := i + 1) (by simpa using hb i)
  rw [zero_add] at this
  exact this.congr c.symm

/-- **C128.** Multiplication and division by a number. -/
theorem C128_scalar (hp : 1 ≤ f.p) {e g : ℤ} (he : GridOk f (e + g)) {p : Poly (Fl f)} (h : GridPoly e p) {a : Fl f} (ha : a.isFinite = true)
    (hg : Grid g a.toRat) (hb : ∀ i, |(coeffOf p i).toRat * a.toRat| < 2 ^ (f.p + (e + g))) (i : Nat) :
    Has (coeffOf (p.mulScalar a) i) ((coeffOf p i).toRat * a.toRat) ∧
    Has (coeffOf (p.mulAssignScalar a) i) ((coeffOf p i).toRat * a.toRat) := by
  have c := C115_scale_coeff p a i (.inl ha)
  have := (C128_number hp he (h.coeff i).1 (⟨ha, rfl⟩ : Has a a.toRat)).2.2.1 ((h.coeff i).2.mul hg) (hb i)
  exact ⟨this.congr c.1.symm, this.congr c.2.symm⟩

theorem eval_grid (hp : 1 ≤ f.p) {e : ℤ} (m : Nat) {x : Fl f} (hx : x.isFinite = true) (hg : Grid (-m) x.toRat) (hz : isZero x = false)
    (hw : e + f.p + f.q ≤ f.w) (l : List (Fl f)) : ∀ n : Nat, GridPoly e ⟨l⟩ → (∀ i, n < i → (coeffOf ⟨l⟩ i).toRat = 0) →
      -(f.q : ℤ) ≤ e - m * n → ∑ i ∈ Finset.range (n + 1), |(coeffOf ⟨l⟩ i).toRat| * |x.toRat| ^ i < 2 ^ (f.p + (e - m * n)) →
      Has ((⟨l⟩ : Poly (Fl f)).eval x) (∑ i ∈ Finset.range (n + 1), (coeffOf ⟨l⟩ i).toRat * x.toRat ^ i) := by
  have hx0 : x.toRat ≠ 0 := by
    intro h0
    rw [(isZero_iff_toRat hx).2 h0] at hz
    cases hz
  have hx1 := hg.le_abs hx0
  have hxpos : 0 < |x.toRat| := abs_pos.2 hx0
  induction l using List.reverseRecOn with
  | nil =>
    intro n _ _ _ _
    rw [Finset.sum_eq_zero (fun i _ => by rw [show coeffOf (⟨[]⟩ : Poly (Fl f)) i = 0 from coeffOf_ge _ (by simp), toRat_zero, zero_mul])]
    exact Has.zero
  | append_singleton l c ih =>
    intro n hl hn he hb
    rw [eval_snoc l c hz]
    have hl' : GridPoly e (⟨l⟩ : Poly (Fl f)) := fun a ha => hl a (List.mem_append_left _ ha)
    have hc := hl c (by simp)
    have hmn : (0 : ℤ) ≤ m * n := by positivity
    have ok : GridOk f (e - m * n) := ⟨he, by omega⟩
    have grid : ∀ k : Nat, ∀ v, Grid (e - m * k) v → Grid (e - m * (k + 1 : Nat)) (v * x.toRat) := by
      intro k v hv
      have := hv.mul hg
      rwa [show e - m * k + -(m : ℤ) = e - m * ((k + 1 : Nat) : ℤ) by push_cast; ring] at this
    have hterm : ∀ N i : Nat, i ≤ N → Grid (e - m * N) ((coeffOf ⟨l⟩ i).toRat * x.toRat ^ i) := by
      intro N i hi
      have hpow : ∀ i : Nat, Grid (-(m * i : ℤ)) (x.toRat ^ i) := by
        intro i
        induction i with
        | zero => exact ⟨1, by simp⟩
        | succ i ih => rw [pow_succ]; have := ih.mul hg; rwa [show -(m * i : ℤ) + -m = -(m * ((i + 1 : Nat) : ℤ)) by push_cast; ring] at this
      have := (hl'.coeff i).2.mul (hpow i)
      refine this.mono ?_
      have : (m : ℤ) * i ≤ m * N := by
        have : (i : ℤ) ≤ N := by exact_mod_cast hi
        exact mul_le_mul_of_nonneg_left this (by positivity)
      omega
    rw [Finset.sum_range_succ'] at hb ⊢
    simp only [(coeffOf_snoc l c).1, (coeffOf_snoc l c).2, pow_zero, mul_one] at hb ⊢
    have hcg : Grid (e - m * n) c.toRat := hc.2.2.mono (by omega)
    have hcb : |c.toRat| < 2 ^ (f.p + (e - m * n)) := by
      have : 0 ≤ ∑ i ∈ Finset.range n, |(coeffOf (⟨l⟩ : Poly (Fl f)) i).toRat| * |x.toRat| ^ (i + 1) := Finset.sum_nonneg fun _ _ => by positivity
      linarith
    -- the part above the constant
    have key : Has (if l = [] then 0 else (⟨l⟩ : Poly (Fl f)).eval x * x)
        (∑ i ∈ Finset.range n, (coeffOf (⟨l⟩ : Poly (Fl f)) i).toRat * x.toRat ^ (i + 1)) ∧
        Grid (e - m * n) (∑ i ∈ Finset.range n, (coeffOf (⟨l⟩ : Poly (Fl f)) i).toRat * x.toRat ^ (i + 1)) := by
      have hzero : ∀ i, n ≤ i → (coeffOf (⟨l⟩ : Poly (Fl f)) i).toRat = 0 := by
        intro i hi
        have := hn (i + 1) (by omega)
        rwa [(coeffOf_snoc l c).2] at this
      by_cases hnil : l = []
      · subst hnil
        rw [if_pos rfl, Finset.sum_eq_zero (fun i _ => by
          rw [show coeffOf (⟨[]⟩ : Poly (Fl f)) i = 0 from coeffOf_ge _ (by simp), toRat_zero, zero_mul])]
        exact ⟨Has.zero, Grid.zero _⟩
      cases n with
      | zero =>
        rw [Finset.sum_range_zero]
        refine ⟨?_, Grid.zero _⟩
        split
        · exact Has.zero
        · have hall : ∀ i, (coeffOf (⟨l⟩ : Poly (Fl f)) i).toRat = 0 := fun i => hzero i (by omega)
          have := ih 0 hl' (fun i _ => hall i) he (by simp only [hall]; simp; positivity)
          simp only [hall, zero_mul, Finset.sum_const_zero] at this
          have := (C128_number hp ok this (⟨hx, rfl⟩ : Has x x.toRat)).2.2.1 (by rw [zero_mul]; exact Grid.zero _)
            (by rw [zero_mul, abs_zero]; positivity)
          rwa [zero_mul] at this
      | succ n =>
        have hs : ∑ i ∈ Finset.range (n + 1), (coeffOf (⟨l⟩ : Poly (Fl f)) i).toRat * x.toRat ^ (i + 1) =
            (∑ i ∈ Finset.range (n + 1), (coeffOf (⟨l⟩ : Poly (Fl f)) i).toRat * x.toRat ^ i) * x.toRat := by
          rw [Finset.sum_mul]
          exact Finset.sum_congr rfl fun i _ => by ring
        have ha : ∑ i ∈ Finset.range (n + 1), |(coeffOf (⟨l⟩ : Poly (Fl f)) i).toRat| * |x.toRat| ^ (i + 1) =
            (∑ i ∈ Finset.range (n + 1), |(coeffOf (⟨l⟩ : Poly (Fl f)) i).toRat| * |x.toRat| ^ i) * |x.toRat| := by
          rw [Finset.sum_mul]
          exact Finset.sum_congr rfl fun i _ => by ring
        rw [hs]
        rw [ha] at hb
        have hgr : Grid (e - m * ((n + 1 : Nat) : ℤ)) ((∑ i ∈ Finset.range (n + 1), (coeffOf (⟨l⟩ : Poly (Fl f)) i).toRat * x.toRat ^ i) * x.toRat) :=
          grid n _ (Grid.sum _ fun i hi => hterm n i (by omega))
        refine ⟨?_, hgr⟩
        have hle : |∑ i ∈ Finset.range (n + 1), (coeffOf (⟨l⟩ : Poly (Fl f)) i).toRat * x.toRat ^ i| ≤
            ∑ i ∈ Finset.range (n + 1), |(coeffOf (⟨l⟩ : Poly (Fl f)) i).toRat| * |x.toRat| ^ i :=
          (Finset.abs_sum_le_sum_abs _ _).trans (le_of_eq (Finset.sum_congr rfl fun i _ => by rw [abs_mul, abs_pow]))
        set S := ∑ i ∈ Finset.range (n + 1), |(coeffOf (⟨l⟩ : Poly (Fl f)) i).toRat| * |x.toRat| ^ i with hS
        have hSx : S * |x.toRat| < 2 ^ (f.p + (e - m * ((n + 1 : Nat) : ℤ))) := by have := abs_nonneg c.toRat; linarith
        have hSb : S < 2 ^ (f.p + (e - m * n)) := by
          have h1 : (2 : ℚ) ^ (f.p + (e - m * n)) * 2 ^ (-(m : ℤ)) = 2 ^ (f.p + (e - m * ((n + 1 : Nat) : ℤ))) := by
            rw [← zpow_add₀ (by norm_num)]; congr 1; push_cast; ring
          have h2 : S * |x.toRat| < 2 ^ (f.p + (e - m * n)) * |x.toRat| := by
            refine hSx.trans_le ?_
            rw [← h1]
            exact mul_le_mul_of_nonneg_left hx1 (by positivity)
          exact lt_of_mul_lt_mul_right h2 hxpos.le
        have := ih n hl' (fun i hi => hzero i (by omega)) (by
          have h1 : (0 : ℤ) ≤ m := by positivity
          push_cast at he
          rw [mul_add, mul_one] at he
          omega) hSb
        have := (C128_number hp ok this (⟨hx, rfl⟩ : Has x x.toRat)).2.2.1 hgr (by
          rw [abs_mul]; exact (mul_le_mul_of_nonneg_right hle hxpos.le).trans_lt hSx)
        rwa [if_neg hnil]
    refine (C128_number hp ok key.1 (⟨hc.1, rfl⟩ : Has c c.toRat)).1 (key.2.add hcg) ?_
    refine lt_of_le_of_lt (abs_add_le _ _) (lt_of_le_of_lt (add_le_add_left ?_ _) hb)
    exact (Finset.abs_sum_le_sum_abs _ _).trans (le_of_eq (Finset.sum_congr rfl fun i _ => by rw [abs_mul, abs_pow]))

/-- **C128.** Evaluation at a point with `m` binary places of a polynomial of degree at most `n` with coefficients that are multiples of `2^e`
is exact, if the sum of the absolute values of the terms is below `2^p` units of `2^(e - mn)`. -/
theorem C128_eval (hp : 1 ≤ f.p) {e : ℤ} {m n : Nat} (hw : e + f.p + f.q ≤ f.w) (he : -(f.q : ℤ) ≤ e - m * n) {p : Poly (Fl f)} (h : GridPoly e p)
    (hn : ∀ i, n < i → (coeffOf p i).toRat = 0) {x : Fl f} (hx : x.isFinite = true) (hg : Grid (-m) x.toRat)
    (hb : ∑ i ∈ Finset.range (n + 1), |(coeffOf p i).toRat| * |x.toRat| ^ i < 2 ^ (f.p + (e - m * n))) :
    Has (p.eval x) (∑ i ∈ Finset.range (n + 1), (coeffOf p i).toRat * x.toRat ^ i) := by
  cases hz : isZero x with
  | false => exact eval_grid hp m hx hg hz hw p.terms n h hn he hb
  | true =>
    rw [eval_zero p hz, (isZero_iff_toRat hx).1 hz, Finset.sum_range_succ']
    simp only [pow_succ, mul_zero, Finset.sum_const_zero, pow_zero, mul_one, zero_add]
    exact (h.coeff 0).1

/-- **C128.** The same for `LinearBinomial` and `QuadraticTrinomial`, at a point other than 0. -/
theorem C128_eval_fixed (hp : 1 ≤ f.p) {e : ℤ} {m : Nat} (hw : e + f.p + f.q ≤ f.w) (he : -(f.q : ℤ) ≤ e - m * 2) {x : Fl f}
    (hx : x.isFinite = true) (hz : x.toRat ≠ 0) (hg : Grid (-m) x.toRat) {a b c : Fl f} (ha : a.isFinite = true) (hb : b.isFinite = true)
    (hc : c.isFinite = true) (ga : Grid e a.toRat) (gb : Grid e b.toRat) (gc : Grid e c.toRat) :
    (|a.toRat * x.toRat| + |b.toRat| < 2 ^ (f.p + (e - m)) → Has ((LinearBinomial.new a b).eval x) (a.toRat * x.toRat + b.toRat)) ∧
    (|a.toRat * x.toRat ^ 2| + |b.toRat * x.toRat| + |c.toRat| < 2 ^ (f.p + (e - m * 2)) →
      Has ((QuadraticTrinomial.new a b c).eval x) (a.toRat * x.toRat ^ 2 + b.toRat * x.toRat + c.toRat)) := by
  have hm : (0 : ℤ) ≤ m := by positivity
  have ok1 : GridOk f (e - m) := ⟨by omega, by omega⟩
  have ok2 : GridOk f (e - m * 2) := ⟨he, by omega⟩
  have hX : Has x x.toRat := ⟨hx, rfl⟩
  have lin : ∀ {a b : Fl f}, a.isFinite = true → b.isFinite = true → Grid e a.toRat → Grid e b.toRat →
      |a.toRat * x.toRat| + |b.toRat| < 2 ^ (f.p + (e - m)) → Has (a * x) (a.toRat * x.toRat) ∧ Has (x * a) (a.toRat * x.toRat) ∧
        Grid (e - m) (a.toRat * x.toRat + b.toRat) ∧ ∀ y : Fl f, Has y (a.toRat * x.toRat) → Has (y + b) (a.toRat * x.toRat + b.toRat) := by
    intro a b ha hb ga gb h
    have g1 : Grid (e - m) (a.toRat * x.toRat) := ga.mul hg
    have h1 : |a.toRat * x.toRat| < 2 ^ (f.p + (e - m)) := by have := abs_nonneg b.toRat; linarith
    have g2 := g1.add (gb.mono (by omega : e - m ≤ e))
    refine ⟨(C128_number hp ok1 ⟨ha, rfl⟩ hX).2.2.1 g1 h1, ?_, g2, fun y hy => (C128_number hp ok1 hy ⟨hb, rfl⟩).1 g2
      (lt_of_le_of_lt (abs_add_le _ _) h)⟩
    have := (C128_number hp ok1 hX (⟨ha, rfl⟩ : Has a a.toRat)).2.2.1
    rw [mul_comm x.toRat] at this
    exact this g1 h1
  refine ⟨fun h => ?_, fun h => ?_⟩
  · obtain ⟨_, h2, _, h3⟩ := lin ha hb ga gb h
    exact h3 _ h2
  · have hxpos : 0 < |x.toRat| := abs_pos.2 hz
    have hs : |a.toRat * x.toRat ^ 2| + |b.toRat * x.toRat| = (|a.toRat * x.toRat| + |b.toRat|) * |x.toRat| := by
      simp only [abs_mul, abs_pow]; ring
    have hb1 : |a.toRat * x.toRat| + |b.toRat| < 2 ^ (f.p + (e - m)) := by
      have h1 : (2 : ℚ) ^ (f.p + (e - m)) * 2 ^ (-(m : ℤ)) = 2 ^ (f.p + (e - m * 2)) := by
        rw [← zpow_add₀ (by norm_num)]; congr 1; ring
      have h2 : (|a.toRat * x.toRat| + |b.toRat|) * |x.toRat| < 2 ^ (f.p + (e - m)) * |x.toRat| := by
        refine lt_of_lt_of_le (b := 2 ^ (f.p + (e - m * 2))) ?_ ?_
        · have := abs_nonneg c.toRat; linarith
        · rw [← h1]; exact mul_le_mul_of_nonneg_left (hg.le_abs hz) (by positivity)
      exact lt_of_mul_lt_mul_right h2 hxpos.le
    obtain ⟨h1, _, g, h3⟩ := lin ha hb ga gb hb1
    have h4 := h3 _ h1
    have g' : Grid (e - m * 2) (x.toRat * (a.toRat * x.toRat + b.toRat)) := by
      have := hg.mul g
      rwa [show -(m : ℤ) + (e - m) = e - m * 2 by ring] at this
    have e1 : x.toRat * (a.toRat * x.toRat + b.toRat) = a.toRat * x.toRat ^ 2 + b.toRat * x.toRat := by ring
    have h5 := (C128_number hp ok2 hX h4).2.2.1 g' (by
      rw [e1]; have := abs_add_le (a.toRat * x.toRat ^ 2) (b.toRat * x.toRat); have := abs_nonneg c.toRat; linarith)
    rw [e1] at h5 g'
    refine (C128_number hp ok2 h5 (⟨hc, rfl⟩ : Has c c.toRat)).1 (g'.add (gc.mono (by omega))) ?_
    have := abs_add_le (a.toRat * x.toRat ^ 2 + b.toRat * x.toRat) c.toRat
    have := abs_add_le (a.toRat * x.toRat ^ 2) (b.toRat * x.toRat)
    linarith

theorem has_of_state {T : List (Fl f × ℚ)} {B : ℚ} (h : ∀ x ∈ T, |x.2| < B → Has x.1 x.2)
    (hB : ∀ i, |(descPoly (T.map Prod.snd)).coeff i| < B) (i : Nat) : Has (coeffOf ⟨T.map Prod.fst⟩ i) ((descPoly (T.map Prod.snd)).coeff i) := by
  have hall : ∀ x ∈ T, Has x.1 x.2 := by
    intro x hx
    obtain ⟨k, hk⟩ := coeff_of_mem T x hx Prod.snd
    exact h x hx (by rw [← hk]; exact hB k)
  refine ⟨coeffOf_finite (fun c hc => ?_) i, ?_⟩
  · obtain ⟨x, hx, rfl⟩ := List.mem_map.1 hc
    exact (hall x hx).1
  · rw [toRat_coeffOf, List.map_map]
    rcases coeff_cases T i with ⟨x, hx, e⟩ | e
    · rw [e, e]; exact (hall x hx).2
    · rw [e, e]

theorem grid_derivative [FromUsizeCont (Fl f)] (hl : CountLaw f) (hp : 1 ≤ f.p) (hw : f.p + f.q ≤ f.w) {e : ℤ} (he : GridOk f e)
    {p r : Poly (Fl f)} (h : GridPoly e p) (hr : p.derivative = .ok r) (hb : ∀ i : Nat, |(coeffOf p (i + 1)).toRat * (i + 1)| < 2 ^ (f.p + e))
    (i : Nat) : Has (coeffOf r i) ((coeffOf p (i + 1)).toRat * (i + 1)) := by
  obtain ⟨T, h1, h2, h3⟩ := derivative_state hl hp hw (fun x => |x.2| < 2 ^ (f.p + e) → Has x.1 x.2) (fun c => c.isFinite = true ∧ Grid e c.toRat)
    (fun x y n hx hy hn hb => (C128_number hp he (⟨hx.1, rfl⟩ : Has x x.toRat) (⟨hy, hn⟩ : Has y n)).2.2.1 (by
      have := hx.2.mul (⟨n, by simp⟩ : Grid 0 (n : ℚ))
      rwa [add_zero] at this) hb) p r hr (fun c hc => ⟨(h c hc).1, (h c hc).2.2⟩)
  obtain ⟨t⟩ := r
  simp only at h1
  subst h1
  have hc : ∀ i : Nat, (descPoly (T.map Prod.snd)).coeff i = (coeffOf p (i + 1)).toRat * (i + 1) := by
    intro i
    rw [h3, Polynomial.coeff_derivative, ← toRat_coeffOf]
  have := has_of_state h2 (fun i => by rw [hc]; exact hb i) i
  rwa [hc] at this

/-- **C128.** The derivative is exact. -/
theorem C128_derivative {e : ℤ} :
    (GridOk binary64 e → ∀ p r : Poly (Fl binary64), GridPoly e p → p.derivative = .ok r →
      (∀ i : Nat, |(coeffOf p (i + 1)).toRat * (i + 1)| < 2 ^ (53 + e)) → ∀ i, Has (coeffOf r i) ((coeffOf p (i + 1)).toRat * (i + 1))) ∧
    (GridOk binary32 e → ∀ p r : Poly (Fl binary32), GridPoly e p → p.derivative = .ok r →
      (∀ i : Nat, |(coeffOf p (i + 1)).toRat * (i + 1)| < 2 ^ (24 + e)) → ∀ i, Has (coeffOf r i) ((coeffOf p (i + 1)).toRat * (i + 1))) :=
  ⟨fun he _ _ h hr hb => grid_derivative countLaw64 (by decide) (by decide) he h hr hb,
    fun he _ _ h hr hb => grid_derivative countLaw32 (by decide) (by decide) he h hr hb⟩

theorem integLoop_state (hp : 1 ≤ f.p) (hw : f.p + f.q ≤ f.w) (Q : Fl f × ℚ → Prop) (L : Fl f → Prop)
    (hop : ∀ (x y : Fl f) (n : Nat), L x → y.isFinite = true → y.toRat = (n + 1 : Nat) → Q (div x y, x.toRat / ((n + 1 : Nat) : ℚ))) :
    ∀ (xs : List (Fl f)) (d : Fl f),
    d.isFinite = true → d.toRat = (xs.length : ℚ) → xs.length ≤ 2 ^ f.p → (∀ c ∈ xs, L c) →
    ∃ T : List (Fl f × ℚ), Poly.integLoop xs d = .ok (T.map Prod.fst) ∧ (∀ x ∈ T, Q x) ∧
      T.length = xs.length ∧ Polynomial.derivative (descPoly (T.map Prod.snd) * Polynomial.X) = descPoly (xs.map toRat)
  | [], _, _, _, _, _ => ⟨[], rfl, by simp, rfl, by simp⟩
  | x :: xs, d, hd, hm, hle, hx => by
    rw [List.length_cons] at hm hle
    obtain ⟨g1, g2⟩ := pred_exact hp hw hd hm (by omega)
    obtain ⟨T, h1, h2, h3, h4⟩ := integLoop_state hp hw Q L hop xs (d - 1) g1 g2 (by omega) (fun c hc => hx c (by simp [hc]))
    refine ⟨(div x d, x.toRat / ((xs.length + 1 : Nat) : ℚ)) :: T, ?_, ?_, ?_, ?_⟩
    · rw [Poly.integLoop, h1]; rfl
    · intro y hy
      rcases List.mem_cons.1 hy with rfl | hy
      · exact hop _ _ _ (hx x (by simp)) hd hm
      · exact h2 y hy
    · simp [h3]
    · rw [List.map_cons, descPoly_cons, List.length_map, h3, List.map_cons, descPoly_cons, List.length_map,
        add_mul, Polynomial.derivative_add, h4, mul_assoc, ← pow_succ, Polynomial.derivative_C_mul_X_pow]
      have : ((xs.length + 1 : Nat) : ℚ) ≠ 0 := by positivity
      rw [div_mul_cancel₀ _ this]
      simp

theorem grid_integral [FromUsizeCont (Fl f)] (hl : CountLaw f) (hp : 1 ≤ f.p) (hw : f.p + f.q ≤ f.w) {e : ℤ} (he : GridOk f e)
    {p r : Poly (Fl f)} (h : ∀ c ∈ p.terms, c.isFinite = true) (hr : p.integral = .ok r) (hg : ∀ i : Nat, Grid e ((coeffOf p i).toRat / (i + 1)))
    (hb : ∀ i : Nat, |(coeffOf p i).toRat / (i + 1)| < 2 ^ (f.p + e)) :
    Has (coeffOf r 0) 0 ∧ ∀ i : Nat, Has (coeffOf r (i + 1)) ((coeffOf p i).toRat / (i + 1)) := by
  unfold Poly.integral at hr
  simp only [drop_firstNonzeroIndex] at hr
  have hlen := firstNonzeroIndex_add p.terms
  have hlen' : p.terms.length - firstNonzeroIndex p.terms = (p.terms.dropWhile isZero).length := by omega
  rw [hlen'] at hr
  split at hr
  · cases hr
  · rename_i d hd
    obtain ⟨d1, d2, d3⟩ := hl _ _ hd
    obtain ⟨T, t1, t2, t3, t4⟩ := integLoop_state hp hw (fun x => Grid e x.2 → |x.2| < 2 ^ (f.p + e) → Has x.1 x.2) (fun c => c.isFinite = true)
      (fun x y n hx hy hn g b => (C128_number hp he (⟨hx, rfl⟩ : Has x x.toRat) (⟨hy, hn⟩ : Has y ((n + 1 : Nat) : ℚ))).2.2.2 (by positivity) g b)
      _ d d1 d2 d3 (fun c hc => h c ((List.dropWhile_suffix isZero).subset hc))
    rw [t1] at hr
    cases hr
    have hc : ∀ i : Nat, (descPoly (T.map Prod.snd)).coeff i = (coeffOf p i).toRat / (i + 1) := by
      intro i
      have e := congrArg (fun P => Polynomial.coeff P i) t4
      simp only [Polynomial.coeff_derivative, Polynomial.coeff_mul_X] at e
      rw [← toRat_coeffOf, (coeffOf_dropWhile p.terms i).fin_eq.2] at e
      have hne : (i : ℚ) + 1 ≠ 0 := by positivity
      rw [show (coeffOf p i).toRat = _ from e.symm, mul_div_cancel_right₀ _ hne]
    refine ⟨by rw [(coeffOf_snoc _ _).1]; exact Has.zero, fun i => ?_⟩
    rw [(coeffOf_snoc _ _).2]
    have hgT : ∀ x ∈ T, |x.2| < 2 ^ (f.p + e) → Has x.1 x.2 := by
      intro x hx
      obtain ⟨k, hk⟩ := coeff_of_mem T x hx Prod.snd
      exact t2 x hx (by rw [← hk, hc]; exact hg k)
    have := has_of_state hgT (fun i => by rw [hc]; exact hb i) i
    rwa [hc] at this

/-- **C128.** The integral is exact when its coefficients are multiples of `2^e` below the bound. -/
theorem C128_integral {e : ℤ} :
    (GridOk binary64 e → ∀ p r : Poly (Fl binary64), (∀ c ∈ p.terms, c.isFinite = true) → p.integral = .ok r →
      (∀ i : Nat, Grid e ((coeffOf p i).toRat / (i + 1))) → (∀ i : Nat, |(coeffOf p i).toRat / (i + 1)| < 2 ^ (53 + e)) →
      Has (coeffOf r 0) 0 ∧ ∀ i : Nat, Has (coeffOf r (i + 1)) ((coeffOf p i).toRat / (i + 1))) ∧
    (GridOk binary32 e → ∀ p r : Poly (Fl binary32), (∀ c ∈ p.terms, c.isFinite = true) → p.integral = .ok r →
      (∀ i : Nat, Grid e ((coeffOf p i).toRat / (i + 1))) → (∀ i : Nat, |(coeffOf p i).toRat / (i + 1)| < 2 ^ (24 + e)) →
      Has (coeffOf r 0) 0 ∧ ∀ i : Nat, Has (coeffOf r (i + 1)) ((coeffOf p i).toRat / (i + 1))) :=
  ⟨fun he _ _ h hr hg hb => grid_integral countLaw64 (by decide) (by decide) he h hr hg hb,
    fun he _ _ h hr hg hb => grid_integral countLaw32 (by decide) (by decide) he h hr hg hb⟩

/-- **C128.** Division by a number. -/
theorem C128_scalar_div (hp : 1 ≤ f.p) {e : ℤ} (he : GridOk f e) {p : Poly (Fl f)} (h : ∀ c ∈ p.terms, c.isFinite = true) {a : Fl f}
    (ha : a.isFinite = true) (h0 : a.toRat ≠ 0) (hg : ∀ i, Grid e ((coeffOf p i).toRat / a.toRat))
    (hb : ∀ i, |(coeffOf p i).toRat / a.toRat| < 2 ^ (f.p + e)) :
    ∃ r, p.divScalar a = .ok r ∧ ∀ i, Has (coeffOf r i) ((coeffOf p i).toRat / a.toRat) := by
  unfold Poly.divScalar
  rw [mapM_rdiv]
  refine ⟨_, rfl, fun i => ?_⟩
  refine Has.congr ?_ (coeffOf_new _ i).symm
  by_cases hi : i < p.terms.length
  · rw [coeffOf_map _ hi]
    exact (C128_number hp he (⟨coeffOf_finite h i, rfl⟩ : Has (coeffOf p i) _) (⟨ha, rfl⟩ : Has a a.toRat)).2.2.2 h0 (hg i) (hb i)
  · rw [coeffOf_ge _ (by rw [List.length_map]; omega), show coeffOf p i = 0 from coeffOf_ge _ (by omega), toRat_zero, zero_div]
    exact Has.zero

theorem mem_coeffOf {p : Poly (Fl f)} {c : Fl f} (h : c ∈ p.terms) : ∃ i, coeffOf p i = c := by
  obtain ⟨i, hi, rfl⟩ := List.getElem_of_mem (List.mem_reverse.2 h)
  refine ⟨i, ?_⟩
  unfold coeffOf
  rw [List.getD_eq_getElem _ _ hi]

/-- **C128.** Such results are again fixed-point polynomials, to go on with. -/
theorem C128_closed {e : ℤ} (he : GridOk f e) {r : Poly (Fl f)} {V : Nat → ℚ} (h : ∀ i, Has (coeffOf r i) (V i)) (hg : ∀ i, Grid e (V i))
    (hb : ∀ i, |V i| < 2 ^ (f.p + e)) : GridPoly e r := by
  intro c hc
  obtain ⟨i, rfl⟩ := mem_coeffOf hc
  obtain ⟨h1, h2⟩ := h i
  refine ⟨h1, ?_, by rw [h2]; exact hg i⟩
  obtain ⟨⟨z, z1, z2, z3⟩, -⟩ := grid_valid he (hg i) (hb i)
  rw [← h2] at z3
  obtain ⟨s, a, e1⟩ := isFinite_iff.1 h1
  obtain ⟨t, b, rfl⟩ := isFinite_iff.1 z2
  rw [e1] at z3 ⊢
  have hpos : (0 : ℚ) < 2 ^ f.q := by positivity
  have hab : (a : ℚ) = b := by
    have := congrArg (fun z : ℚ => |z|) z3
    simp only [toRat, abs_mul, abs_div, Nat.abs_cast, abs_of_pos hpos] at this
    have hs : ∀ s : Bool, |if s = true then (-1 : ℚ) else 1| = 1 := by intro s; cases s <;> simp
    rw [hs, hs, one_mul, one_mul, div_left_inj' hpos.ne'] at this
    exact this.symm
  rw [show a = b by exact_mod_cast hab]
  exact z1

theorem gridOk_between {e g m : ℤ} (h1 : GridOk f e) (h2 : GridOk f g) (h : e ≤ m ∧ m ≤ g ∨ g ≤ m ∧ m ≤ e) : GridOk f m := by
  obtain ⟨a, b⟩ := h1
  obtain ⟨c, d⟩ := h2
  constructor <;> omega

theorem coeff_pow_grid {A : ℚ[X]} {e : ℤ} {b : Nat} (hA : ∀ k, 0 ≤ A.coeff k ∧ Grid e (A.coeff k)) {m n : Nat} (hm : 1 ≤ m) (hmn : m ≤ n)
    (h : ∀ k, (A ^ n).coeff k < 2 ^ (b + e * n)) : ∀ k, (A ^ m).coeff k < 2 ^ (b + e * m) := by
  have h2 : ∀ z : ℤ, (2 : ℚ) ^ z ≠ 0 := fun z => zpow_ne_zero _ (by norm_num)
  have hpow : ∀ (j k : Nat), ((C ((2 : ℚ) ^ (-e)) * A) ^ j).coeff k = 2 ^ (-(e * j)) * (A ^ j).coeff k := by
    intro j k
    rw [mul_pow, ← C_pow, coeff_C_mul, ← zpow_natCast, ← zpow_mul, neg_mul]
  have key := coeff_pow_lt (A := C ((2 : ℚ) ^ (-e)) * A) (fun k => by
    rw [coeff_C_mul]
    refine ⟨mul_nonneg (by positivity) (hA k).1, fun h0 => ?_⟩
    have h3 := (hA k).2.le_abs (by rintro h; rw [h, mul_zero] at h0; exact h0 rfl)
    rw [abs_of_nonneg (hA k).1] at h3
    calc (1 : ℚ) = 2 ^ (-e) * 2 ^ e := by rw [← zpow_add₀ (by norm_num)]; simp
      _ ≤ _ := mul_le_mul_of_nonneg_left h3 (by positivity)) (B := 2 ^ b) (by positivity) hm hmn (fun k => by
    rw [hpow]
    have h3 := h k
    rw [zpow_add₀ (by norm_num), zpow_natCast] at h3
    calc (2 : ℚ) ^ (-(e * n)) * (A ^ n).coeff k < 2 ^ (-(e * n)) * (2 ^ b * 2 ^ (e * n)) := mul_lt_mul_of_pos_left h3 (by positivity)
      _ = 2 ^ b * (2 ^ (-(e * n)) * 2 ^ (e * n)) := by ring
      _ = 2 ^ b := by rw [← zpow_add₀ (by norm_num)]; simp)
  intro k
  have h3 := key k
  rw [hpow] at h3
  rw [zpow_add₀ (by norm_num), zpow_natCast]
  calc (A ^ m).coeff k = 2 ^ (e * m) * (2 ^ (-(e * m)) * (A ^ m).coeff k) := by rw [← mul_assoc, ← zpow_add₀ (by norm_num)]; simp
    _ < 2 ^ (e * m) * 2 ^ b := mul_lt_mul_of_pos_left h3 (by positivity)
    _ = _ := by ring

theorem grid_mul_poly (hp : 1 ≤ f.p) {e g : ℤ} (he : GridOk f (e + g)) {p q r : Poly (Fl f)} (h : GridPoly e p) (h' : GridPoly g q)
    (hr : p.mul q = .ok r ∨ p.mulRef q = .ok r)
    (hb : ∀ k, (descPoly (p.terms.map fun c => |c.toRat|) * descPoly (q.terms.map fun c => |c.toRat|)).coeff k < 2 ^ (f.p + (e + g))) :
    GridPoly (e + g) r ∧ descPoly (r.terms.map toRat) = descPoly (p.terms.map toRat) * descPoly (q.terms.map toRat) := by
  have hs : ∀ i, ∑ d ∈ Finset.range (i + 1), |(coeffOf q d).toRat * (coeffOf p (i - d)).toRat| < 2 ^ (f.p + (e + g)) := by
    intro i
    have := hb i
    rw [mul_comm, coeff_mul, Finset.Nat.sum_antidiagonal_eq_sum_range_succ (fun a b => (descPoly (q.terms.map fun c => |c.toRat|)).coeff a *
      (descPoly (p.terms.map fun c => |c.toRat|)).coeff b)] at this
    simp only [coeff_dense_abs, ← toRat_coeffOf, ← abs_mul] at this
    exact this
  have key := C128_product hp he h h' hr hs
  have hv : ∀ i, ∑ d ∈ Finset.range (i + 1), (coeffOf q d).toRat * (coeffOf p (i - d)).toRat =
      (descPoly (p.terms.map toRat) * descPoly (q.terms.map toRat)).coeff i := by
    intro i
    rw [mul_comm, coeff_mul, Finset.Nat.sum_antidiagonal_eq_sum_range_succ (fun a b => (descPoly (q.terms.map toRat)).coeff a *
      (descPoly (p.terms.map toRat)).coeff b)]
    simp only [← toRat_coeffOf]
  refine ⟨C128_closed he key (fun i => Grid.sum _ fun d _ => ?_) (fun i => (Finset.abs_sum_le_sum_abs _ _).trans_lt (hs i)), ?_⟩
  · rw [mul_comm]; exact (h.coeff _).2.mul (h'.coeff d).2
  · ext i
    rw [← toRat_coeffOf, ← hv]
    exact (key i).2

/-- **C128.** Powers: the `n`-th power of a polynomial whose coefficients are multiples of `2^e` has coefficients that are multiples of `2^(en)` and
is exact, if the power of the polynomial of absolute values stays below `2^p` units. -/
theorem C128_pow (hp : 1 ≤ f.p) {e : ℤ} {n : Nat} (he : GridOk f e) (he' : GridOk f (e * n)) {p : Poly (Fl f)} (h : GridPoly e p)
    (h0 : descPoly (p.terms.map toRat) ≠ 0 ∨ n ≤ 1)
    (hk : ∀ k, (descPoly (p.terms.map fun c => |c.toRat|) ^ n).coeff k < 2 ^ (f.p + e * n)) :
    ∃ r, p.pow n = .ok r ∧ GridPoly (e * n) r ∧ descPoly (r.terms.map toRat) = descPoly (p.terms.map toRat) ^ n := by
  set P := descPoly (p.terms.map toRat) with hP
  set A := descPoly (p.terms.map fun c => |c.toRat|) with hA
  have hPA : ∀ k, |P.coeff k| ≤ A.coeff k := fun k => (coeff_dense_abs _ k).ge
  have hA1 : ∀ k, 0 ≤ A.coeff k ∧ Grid e (A.coeff k) := by
    intro k
    rw [hA, coeff_dense_abs, ← toRat_coeffOf]
    refine ⟨abs_nonneg _, ?_⟩
    rcases abs_choice (coeffOf p k).toRat with e1 | e1
    · rw [show |(coeffOf ⟨p.terms⟩ k).toRat| = _ from e1]; exact (h.coeff k).2
    · rw [show |(coeffOf ⟨p.terms⟩ k).toRat| = _ from e1]; exact (h.coeff k).2.neg
  have hmul : ∀ (a b : Poly (Fl f)) (i j : Nat), P ≠ 0 → GridOk f (e * ((i + j : Nat) : ℤ)) → GridPoly (e * i) a → GridPoly (e * j) b →
      descPoly (a.terms.map toRat) = P ^ i → descPoly (b.terms.map toRat) = P ^ j →
      (∀ k, (A ^ (i + j)).coeff k < 2 ^ (f.p + e * ((i + j : Nat) : ℤ))) →
      ∃ r, a.mulRef b = .ok r ∧ GridPoly (e * ((i + j : Nat) : ℤ)) r ∧ descPoly (r.terms.map toRat) = P ^ (i + j) := by
    intro a b i j hP0 hok ha hb ea eb hij
    have hne : ∃ r, a.mul b = .ok r := by
      rw [(C68_mul_panics_iff a b).2]
      rintro ⟨hz, -⟩
      have : descPoly (a.terms.map toRat) = 0 := by
        rw [← descPoly_dropWhile_toRat _ toRat_fin_zero, (dropWhile_nil_iff _).2 hz]; rfl
      rw [ea] at this
      exact pow_ne_zero i hP0 this
    obtain ⟨r, hr⟩ := hne
    obtain ⟨out, h1, h2⟩ := Res.bind_eq_ok.1 hr
    have hr' : a.mulRef b = .ok (Poly.new out) := by
      unfold Poly.mulRef
      rw [h1]; rfl
    refine ⟨_, hr', ?_⟩
    have hij' : e * ((i + j : Nat) : ℤ) = e * i + e * j := by push_cast; ring
    rw [hij'] at hok hij ⊢
    have := grid_mul_poly hp hok ha hb (.inr hr') (fun k => ?_)
    · rw [ea, eb, ← pow_add] at this
      exact this
    · refine lt_of_le_of_lt (le_trans (le_abs_self _) ?_) (hij k)
      rw [pow_add]
      refine coeff_mul_le (fun k => ?_) (fun k => ?_) k
      · rw [coeff_dense_abs, abs_abs, ea]; exact coeff_pow_le hPA i k
      · rw [coeff_dense_abs, abs_abs, eb]; exact coeff_pow_le hPA j k
  have h1' : GridPoly (e * ((1 : Nat) : ℤ)) p := by rwa [Nat.cast_one, mul_one]
  induction n using Nat.strong_induction_on with
  | _ n ih =>
    have mid : ∀ m : Nat, 1 ≤ m → m ≤ n → GridOk f (e * m) := by
      intro m hm hmn
      refine gridOk_between he he' ?_
      have a1 : (1 : ℤ) ≤ m := by exact_mod_cast hm
      have a2 : (m : ℤ) ≤ n := by exact_mod_cast hmn
      rcases le_total 0 e with h0 | h0
      · left; constructor <;> nlinarith
      · right; constructor <;> nlinarith
    rw [Poly.pow]
    by_cases n0 : n = 0
    · subst n0
      refine ⟨_, by rw [if_pos rfl], ?_, ?_⟩
      · intro c hc
        simp only [List.replicate_one, List.mem_singleton] at hc
        subst hc
        refine ⟨rfl, ?_, 1, by rw [toRat_one]; simp⟩
        rw [show (1 : Fl f) = fin false (2 ^ f.q) from rfl]
        have h00 := he'.2
        exact ⟨⟨1, f.q, Nat.one_lt_two_pow (by omega), by simp⟩, Nat.pow_lt_pow_right (by norm_num) (by omega)⟩
      · simp [descPoly_cons, toRat_one]
    by_cases n1 : n = 1
    · subst n1
      refine ⟨_, by rw [if_neg n0, if_pos rfl], ?_, ?_⟩
      · intro c hc
        rw [new_terms] at hc
        exact h1' c ((List.dropWhile_suffix isZero).subset hc)
      · rw [new_terms, descPoly_dropWhile_toRat _ toRat_fin_zero, pow_one]
    have hP0 : P ≠ 0 := h0.resolve_right (by omega)
    by_cases n2 : n = 2
    · subst n2
      rw [if_neg n0, if_neg n1, if_pos rfl]
      exact hmul p p 1 1 hP0 (mid 2 (by omega) le_rfl) h1' h1' (pow_one _).symm (pow_one _).symm hk
    rw [if_neg n0, if_neg n1, if_neg n2]
    split
    · rename_i hev
      obtain ⟨h, h1, h2, h3⟩ := ih (n / 2) (by omega) (mid _ (by omega) (by omega)) (.inl hP0)
        (coeff_pow_grid hA1 (by omega) (by omega) hk)
      rw [h1]
      obtain ⟨r, r1, r2, r3⟩ := hmul h h (n / 2) (n / 2) hP0 (by rw [show n / 2 + n / 2 = n by omega]; exact he') h2 h2 h3 h3
        (by rw [show n / 2 + n / 2 = n by omega]; exact hk)
      rw [show n / 2 + n / 2 = n by omega] at r2 r3
      refine ⟨r, ?_, r2, r3⟩
      change Poly.pow h 2 = _
      rw [Poly.pow, if_neg (by norm_num), if_neg (by norm_num), if_pos rfl]
      exact r1
    · obtain ⟨h, h1, h2, h3⟩ := ih (n - 1) (by omega) (mid _ (by omega) (by omega)) (.inl hP0)
        (coeff_pow_grid hA1 (by omega) (by omega) hk)
      rw [h1]
      obtain ⟨r, r1, r2, r3⟩ := hmul p h 1 (n - 1) hP0 (by rw [show 1 + (n - 1) = n by omega]; exact he') h1' h2 (pow_one _).symm h3
        (by rw [show 1 + (n - 1) = n by omega]; exact hk)
      rw [show 1 + (n - 1) = n by omega] at r2 r3
      exact ⟨r, r1, r2, r3⟩

/-! ## Sparse polynomials -/

/-- All stored coefficients are finite and whole multiples of `2^e`. -/
def GridNum (e : ℤ) (c : Fl f) : Prop := c.isFinite = true ∧ Grid e c.toRat

def GridEx (e : ℤ) (x : Fl f × ℚ) : Prop := Grid e x.2 ∧ (|x.2| < 2 ^ (f.p + e) → Has x.1 x.2)

theorem sparse_of_grid {e : ℤ} {r : Sparse (Fl f)} {P : ℚ[X]} (h : Sparse_state (GridEx e) r P) (hb : ∀ k, |P.coeff k| < 2 ^ (f.p + e)) :
    (∀ k c, r.terms.get k = some c → c.isFinite = true ∧ Grid e c.toRat) ∧ r.ratPoly = P := by
  have key : ∀ k c, r.terms.get k = some c → Has c (P.coeff k) ∧ Grid e (P.coeff k) := by
    intro k c hc
    have := h k
    rw [hc] at this
    exact ⟨this.2 (hb k), this.1⟩
  refine ⟨fun k c hc => ⟨(key k c hc).1.1, by rw [(key k c hc).1.2]; exact (key k c hc).2⟩, ?_⟩
  ext k
  rw [coeff_rat]
  cases hc : r.terms.get k with
  | none =>
    have := h k
    rw [hc] at this
    exact this.symm
  | some c => exact (key k c hc).1.2

/-- **C128.** Sums and differences of `SparsePolynomial`s, also minus a `Polynomial`. -/
theorem C128_sparse_sum (hp : 1 ≤ f.p) {e : ℤ} (he : GridOk f e) (p q : Sparse (Fl f)) (d : Poly (Fl f))
    (h : ∀ k c, p.terms.get k = some c → c.isFinite = true ∧ Grid e c.toRat)
    (h' : ∀ k c, q.terms.get k = some c → c.isFinite = true ∧ Grid e c.toRat) (hd : ∀ c ∈ d.terms, c.isFinite = true ∧ Grid e c.toRat) :
    ((∀ k, |(p.ratPoly + q.ratPoly).coeff k| < 2 ^ (f.p + e)) →
      ((∀ k c, (p.add q).terms.get k = some c → c.isFinite = true ∧ Grid e c.toRat) ∧ (p.add q).ratPoly = p.ratPoly + q.ratPoly) ∧
      (∀ k c, (p.addAssign q).terms.get k = some c → c.isFinite = true ∧ Grid e c.toRat) ∧ (p.addAssign q).ratPoly = p.ratPoly + q.ratPoly) ∧
    ((∀ k, |(p.ratPoly - q.ratPoly).coeff k| < 2 ^ (f.p + e)) →
      (∀ k c, (p.sub q).terms.get k = some c → c.isFinite = true ∧ Grid e c.toRat) ∧ (p.sub q).ratPoly = p.ratPoly - q.ratPoly) ∧
    ((∀ k, |(p.ratPoly - descPoly (d.terms.map toRat)).coeff k| < 2 ^ (f.p + e)) →
      (∀ k c, (p.subDense d).terms.get k = some c → c.isFinite = true ∧ Grid e c.toRat) ∧
        (p.subDense d).ratPoly = p.ratPoly - descPoly (d.terms.map toRat)) := by
  have keep : ∀ c : Fl f, GridNum e c → GridEx e (c, c.toRat) := fun c hc => ⟨hc.2, fun _ => ⟨hc.1, rfl⟩⟩
  have num : ∀ {x y : Fl f}, GridNum e x → GridNum e y → Has x x.toRat ∧ Has y y.toRat := fun hx hy => ⟨⟨hx.1, rfl⟩, hy.1, rfl⟩
  have ha := sparse_add_state (GridEx e) (GridNum e) keep
    (fun x y hx hy => ⟨hx.2.add hy.2, (C128_number hp he (num hx hy).1 (num hx hy).2).1 (hx.2.add hy.2)⟩) p q h h'
  have hg : ∀ {v w : ℚ}, Grid e v → Grid e w → Grid e (v - w) := fun a b => by rw [sub_eq_add_neg]; exact a.add b.neg
  have hs := sparse_sub_state (GridEx e) (GridNum e) keep (fun c hc => ⟨by rw [isFinite_neg, hc.1], by rw [toRat_neg]; exact hc.2.neg⟩)
    (fun x y hx hy => ⟨hg hx.2 hy.2, (C128_number hp he (num hx hy).1 (num hx hy).2).2.1 (hg hx.2 hy.2)⟩) p q d h
  exact ⟨fun hb => ⟨sparse_of_grid ha.1 hb, sparse_of_grid ha.2 hb⟩, fun hb => sparse_of_grid (hs.1 h') hb, fun hb => sparse_of_grid (hs.2 hd) hb⟩

def GridB (e : ℤ) (_ : Nat) (x : Fl f × ℚ × ℚ) : Prop :=
  Grid e x.2.1 ∧ |x.2.1| ≤ x.2.2 ∧ (x.2.2 < 2 ^ (f.p + e) → Has x.1 x.2.1)

theorem mulInv_grid (hp : 1 ≤ f.p) {e : ℤ} (he : GridOk f (e + e)) : MulInv (f := f) (GridNum e) (GridB (e + e)) where
  mono := fun _ _ h => h
  zero := ⟨Grid.zero _, by simp, fun _ => Has.zero⟩
  step := by
    rintro c ⟨t, s, a⟩ ⟨hg, hsa, h⟩ r l hr hl
    simp only at hg hsa h
    have hrl := hr.2.mul hl.2
    have hnn : 0 ≤ |r.toRat| * |l.toRat| := by positivity
    have hle : |s + r.toRat * l.toRat| ≤ a + |r.toRat| * |l.toRat| := by
      refine (abs_add_le _ _).trans ?_
      rw [abs_mul]; linarith
    refine ⟨hg.add hrl, hle, fun hb => ?_⟩
    simp only at hb ⊢
    have h0 : 0 ≤ a := (abs_nonneg _).trans hsa
    have h1 := (C128_number hp he (⟨hr.1, rfl⟩ : Has r r.toRat) (⟨hl.1, rfl⟩ : Has l l.toRat)).2.2.1 hrl (by rw [abs_mul]; linarith)
    exact (C128_number hp he (h (by linarith)) h1).1 (hg.add hrl) (by linarith)
  first := by
    intro c r l hr hl
    have hrl := hr.2.mul hl.2
    exact ⟨hrl, by simp [abs_mul], fun hb => (C128_number hp he (⟨hr.1, rfl⟩ : Has r r.toRat) (⟨hl.1, rfl⟩ : Has l l.toRat)).2.2.1 hrl
      (by simpa [abs_mul] using hb)⟩

/-- **C128.** Products of `SparsePolynomial`s whose coefficients are multiples of `2^e`. -/
theorem C128_sparse_product (hp : 1 ≤ f.p) {e : ℤ} (he : GridOk f (e + e)) (p q : Sparse (Fl f))
    (h : ∀ k c, p.terms.get k = some c → c.isFinite = true ∧ Grid e c.toRat)
    (h' : ∀ k c, q.terms.get k = some c → c.isFinite = true ∧ Grid e c.toRat)
    (hb : ∀ k, (p.absPoly * q.absPoly).coeff k < 2 ^ (f.p + (e + e))) :
    (∀ k c, (p.mul q).terms.get k = some c → c.isFinite = true ∧ Grid (e + e) c.toRat) ∧ (p.mul q).ratPoly = p.ratPoly * q.ratPoly := by
  have hs : ∀ k, StB (GridB (e + e)) (0 + q.terms.entries.length) ((p.mul q).terms.get k) ((p.ratPoly * q.ratPoly).coeff k)
      ((p.absPoly * q.absPoly).coeff k) := by
    intro k
    have := mapMul_state (mulInv_grid hp he) p.terms h q.terms.entries .empty 0 0 0
      (fun e he => h' e.1 e.2 ((BMap.mem_entries ..).1 he))
      (fun j => by simp [BMap.get, BMap.empty, BMap.getList, StB]) k
    simp only [zero_add] at this ⊢
    change StB (GridB (e + e)) _ ((p.mul q).terms.get k) ((q.ratPoly * p.ratPoly).coeff k)
      ((q.absPoly * p.absPoly).coeff k) at this
    rw [mul_comm q.ratPoly, mul_comm q.absPoly] at this
    exact this
  have key : Sparse_state (fun x => Grid (e + e) x.2 ∧ Has x.1 x.2) (p.mul q) (p.ratPoly * q.ratPoly) := by
    intro k
    have := hs k
    cases hc : (p.mul q).terms.get k with
    | none => rw [hc] at this; exact this.1
    | some c => rw [hc] at this; exact ⟨this.1, this.2.2 (hb k)⟩
  have hval : ∀ k c, (p.mul q).terms.get k = some c → Has c ((p.ratPoly * q.ratPoly).coeff k) ∧ Grid (e + e) ((p.ratPoly * q.ratPoly).coeff k) := by
    intro k c hc
    have := key k
    rw [hc] at this
    exact ⟨this.2, this.1⟩
  refine ⟨fun k c hc => ⟨(hval k c hc).1.1, by rw [(hval k c hc).1.2]; exact (hval k c hc).2⟩, ?_⟩
  ext k
  rw [coeff_rat]
  cases hc : (p.mul q).terms.get k with
  | none =>
    have := key k
    rw [hc] at this
    exact this.symm
  | some c => exact (hval k c hc).1.2

theorem grid_mul_count (hp : 1 ≤ f.p) {e : ℤ} (he : GridOk f e) (x y : Fl f) (n : Nat) (hx : GridNum e x) (hy : y.isFinite = true) (hn : y.toRat = n) :
    GridEx e (x * y, x.toRat * n) := by
  have hg : Grid e (x.toRat * n) := by
    have := hx.2.mul (⟨n, by simp⟩ : Grid 0 (n : ℚ))
    rwa [add_zero] at this
  exact ⟨hg, (C128_number hp he (⟨hx.1, rfl⟩ : Has x x.toRat) (⟨hy, hn⟩ : Has y n)).2.2.1 hg⟩

/-- **C128.** The derivative of a `SparsePolynomial`. -/
theorem C128_sparse_derivative {e : ℤ} (p r : Sparse (Fl binary64)) (p' r' : Sparse (Fl binary32)) :
    (GridOk binary64 e → p.derivative = .ok r → (∀ e ∈ p.terms.entries, e.1 < 2 ^ 64 - 1) →
      (∀ k c, p.terms.get k = some c → c.isFinite = true ∧ Grid e c.toRat) → (∀ k, |(derivative p.ratPoly).coeff k| < 2 ^ (53 + e)) →
      (∀ k c, r.terms.get k = some c → c.isFinite = true ∧ Grid e c.toRat) ∧ r.ratPoly = derivative p.ratPoly) ∧
    (GridOk binary32 e → p'.derivative = .ok r' → (∀ e ∈ p'.terms.entries, e.1 < 2 ^ 64 - 1) →
      (∀ k c, p'.terms.get k = some c → c.isFinite = true ∧ Grid e c.toRat) → (∀ k, |(derivative p'.ratPoly).coeff k| < 2 ^ (24 + e)) →
      (∀ k c, r'.terms.get k = some c → c.isFinite = true ∧ Grid e c.toRat) ∧ r'.ratPoly = derivative p'.ratPoly) :=
  ⟨fun he h hk hpi hb => sparse_of_grid (sparse_derivative_state exactLaw64 (GridEx e) (GridNum e) (grid_mul_count (by decide) he) p r h hk hpi) hb,
    fun he h hk hpi hb => sparse_of_grid (sparse_derivative_state exactLaw32 (GridEx e) (GridNum e) (grid_mul_count (by decide) he) p' r' h hk hpi) hb⟩

-- amounts in sixteenths: `1.5x^2 - 0.25x + 3.0625` and the point `2.75`
def gridExample : Poly (Fl binary64) := ⟨[div (ofNat 3) (ofNat 2), div (-1) (ofNat 4), div (ofNat 49) (ofNat 16)]⟩

theorem gridExample_grid : GridPoly (-4) gridExample := by
  have key : ∀ c ∈ gridExample.terms, c.isFinite = true ∧ (c.toRat * 16).isInt = true := by decide +kernel
  have val : gridExample.terms.map (fun c => match c with | .fin _ m => decide (m % 2 ^ 1060 = 0 ∧ m < 2 ^ 1100) | _ => false) = [true, true, true] := by
    decide +kernel
  intro c hc
  obtain ⟨h1, h2⟩ := key c hc
  refine ⟨h1, ?_, (c.toRat * 16).num, ?_⟩
  · obtain ⟨s, m, rfl⟩ := isFinite_iff.1 h1
    have hm := List.mem_map_of_mem (f := fun c : Fl binary64 => match c with | .fin _ m => decide (m % 2 ^ 1060 = 0 ∧ m < 2 ^ 1100) | _ => false) hc
    rw [val] at hm
    simp only [List.mem_cons, List.not_mem_nil, or_false, or_self, decide_eq_true_eq] at hm
    obtain ⟨h3, h4⟩ := hm
    refine ⟨⟨m / 2 ^ 1060, 1060, ?_, (Nat.div_mul_cancel (Nat.dvd_of_mod_eq_zero h3)).symm⟩, h4.trans_le (Nat.pow_le_pow_right (by norm_num) (by decide))⟩
    calc m / 2 ^ 1060 < 2 ^ 40 := by rw [Nat.div_lt_iff_lt_mul (by positivity), ← pow_add]; exact h4
      _ ≤ 2 ^ binary64.p := Nat.pow_le_pow_right (by norm_num) (by decide)
  · rw [← Rat.eq_num_of_isInt h2]
    norm_num [zpow_neg]
    ring

example : Has (gridExample.eval (div (ofNat 11) (ofNat 4))) (3 / 2 * (11 / 4) ^ 2 - 1 / 4 * (11 / 4) + 49 / 16) := by
  have h0 : (coeffOf gridExample 0).toRat = 49 / 16 := by decide +kernel
  have h1 : (coeffOf gridExample 1).toRat = -1 / 4 := by decide +kernel
  have h2 : (coeffOf gridExample 2).toRat = 3 / 2 := by decide +kernel
  have hx : (div (ofNat 11) (ofNat 4) : Fl binary64).toRat = 11 / 4 := by decide +kernel
  have := C128_eval (m := 2) (n := 2) (by decide) (by decide) (by decide) gridExample_grid (fun i hi => by
    rw [show coeffOf gridExample i = 0 from coeffOf_ge _ (by simp; omega), toRat_zero]) (x := div (ofNat 11) (ofNat 4)) (by decide +kernel)
    ⟨11, by rw [hx]; norm_num [zpow_neg]⟩ (by
      simp only [Finset.sum_range_succ, Finset.sum_range_zero, h0, h1, h2, hx]
      norm_num [abs_of_pos, abs_of_neg, binary64])
  simp only [Finset.sum_range_succ, Finset.sum_range_zero, h0, h1, h2, hx] at this
  convert this using 1
  norm_num

-- its square is exact, too
example : ∃ r, gridExample.pow 2 = .ok r ∧ GridPoly (-4 * (2 : Nat)) r ∧
    descPoly (r.terms.map toRat) = descPoly (gridExample.terms.map toRat) ^ 2 := by
  have ha : (gridExample.terms.map fun c => |c.toRat|) = [3 / 2, 1 / 4, 49 / 16] := by decide +kernel
  have hr : gridExample.terms.map toRat = [3 / 2, -1 / 4, 49 / 16] := by decide +kernel
  refine C128_pow (by decide) ⟨by decide, by decide⟩ ⟨by decide, by decide⟩ gridExample_grid (.inl fun h => ?_) (fun k => ?_)
  · have : (descPoly ([3 / 2, -1 / 4, 49 / 16] : List ℚ)).coeff 2 = 3 / 2 := by rw [coeff_descPoly]; rfl
    rw [← hr, h] at this
    norm_num at this
  · have hsq : ∀ a b c : ℚ, descPoly [a, b, c] * descPoly [a, b, c] = descPoly [a * a, a * b + b * a, a * c + c * a + b * b, b * c + c * b, c * c] := by
      intro a b c
      simp only [descPoly_cons, descPoly_nil, List.length_cons, List.length_nil, map_add, map_mul]
      ring
    rw [ha, sq, hsq]
    refine (le_abs_self _).trans_lt (coeff_lt_of_forall (by positivity) (fun x hx => ?_) k)
    have h20 : (2 : ℚ) ^ (4 : ℤ) ≤ 2 ^ ((binary64.p : ℤ) + -4 * (2 : Nat)) := zpow_le_zpow_right₀ (by norm_num) (by decide)
    refine lt_of_lt_of_le ?_ h20
    revert x
    decide +kernel

-- a sparse polynomial in quarters, times itself
def gridSparse : Sparse (Fl binary64) := ⟨(BMap.empty.insert 9 (div (ofNat 5) (ofNat 4))).insert 1 (div (-1) (ofNat 2))⟩
example : (∀ e ∈ gridSparse.terms.entries, e.2.isFinite = true ∧ (e.2.toRat * 4).isInt = true) ∧ GridOk binary64 (-2 + -2) ∧
    ((gridSparse.mul gridSparse).terms.entries.map fun e => (e.1, e.2.toRat)) = [(2, 1 / 4), (10, -5 / 4), (18, 25 / 16)] := by
  refine ⟨by decide +kernel, ⟨by decide, by decide⟩, by decide +kernel⟩

/-- **C128.** The bound cannot be left out, and numbers with decimal places are on no such grid: in `f64` `0.1 + 0.2` is not `0.3`. -/
theorem C128_false :
    (∃ x y : Fl binary32, Grid 0 x.toRat ∧ Grid 0 y.toRat ∧ x.isFinite = true ∧ y.isFinite = true ∧ (x + y).toRat ≠ x.toRat + y.toRat) ∧
    (div (1 : Fl binary64) (ofNat 10)) + (div (1 : Fl binary64) (ofNat 5)) ≠ div (ofNat 3) (ofNat 10) := by
  refine ⟨⟨ofNat (2 ^ 24), 1, ⟨2 ^ 24, ?_⟩, ⟨1, ?_⟩, ?_, ?_, ?_⟩, ?_⟩ <;> decide +kernel

end Fl
end Rustnomial
