import Verif.SpecFloatPow
import Verif.Props.FloatExact

/-!
# C89: powers of polynomials in floating point
-/

set_option linter.unusedSectionVars false

open Polynomial

namespace Rustnomial
namespace Fl
variable {f : FlFmt}

/-! ## A product of perturbed factors -/

theorem toRat_mul_zero {r l : Fl f} (h : r.toRat = 0 ∨ l.toRat = 0) (hf : (r * l).isFinite = true) :
    (r * l).toRat = 0 := by
  obtain ⟨h1, h2⟩ := finite_of_mul hf
  obtain ⟨s, a, rfl⟩ := isFinite_iff.1 h1
  obtain ⟨t, b, rfl⟩ := isFinite_iff.1 h2
  have hab : a * b = 0 := by
    rcases h with h | h
    · have : a = 0 := by
        have := (isZero_iff_toRat h1).2 h
        obtain ⟨_, e⟩ := isZero_iff.1 this
        cases e; rfl
      simp [this]
    · have : b = 0 := by
        have := (isZero_iff_toRat h2).2 h
        obtain ⟨_, e⟩ := isZero_iff.1 this
        cases e; rfl
      simp [this]
  have e : (fin s a * fin t b : Fl f) = pack (s != t) (roundRat f.p (a * b) (2 ^ f.q)) := rfl
  rw [e, hab] at hf ⊢
  rw [toRat_pack hf]
  simp [roundRat]

/-- The bound of a product that is exact where all products vanish. -/
def Bnd2 (c : Nat) (x : Fl f × ℚ × ℚ) : Prop :=
  Bnd c x ∧ (x.2.2 = 0 → x.1.isFinite = true → x.1.toRat = 0)

theorem mulInv_Bnd2 : MulInv (f := f) (fun _ => True) Bnd2 where
  mono h x hx := ⟨Bnd_mono h x hx.1, hx.2⟩
  zero := ⟨mulInv_Bnd.zero, fun _ _ => by simp⟩
  step x hx r l _ _ := by
    refine ⟨Bnd_step x hx.1 r l, fun h0 hf => ?_⟩
    simp only at h0 hf ⊢
    obtain ⟨hf1, hf2⟩ := finite_of_add hf
    have hA : 0 ≤ x.2.2 := (abs_nonneg _).trans hx.1.1
    have hB : 0 ≤ |r.toRat| * |l.toRat| := by positivity
    have h1 : |r.toRat| * |l.toRat| = 0 := by linarith
    have h2 : x.2.2 = 0 := by linarith
    have h3 := toRat_mul_zero (by simpa using h1) hf2
    have h4 := hx.2 h2 hf1
    have h5 := add_error hf
    rw [h3, h4] at h5
    simpa using h5
  first r l _ _ := by
    refine ⟨Bnd_first r l, fun h0 hf => ?_⟩
    exact toRat_mul_zero (by simpa using h0) hf

/-- Error of a product: relative part, and underflows where some product is not zero. -/
def prodErr (f : FlFmt) (m : Nat) (w : ℚ) : ℚ :=
  ((1 + uro f) ^ (m + 1) - 1) * w + if w = 0 then 0 else m * (1 + uro f) ^ m * eta f

theorem Bnd2_err {m : Nat} {x : Fl f × ℚ × ℚ} (h : Bnd2 m x) (hf : x.1.isFinite = true) :
    |x.1.toRat - x.2.1| ≤ prodErr f m x.2.2 := by
  unfold prodErr
  by_cases h0 : x.2.2 = 0
  · have h1 := h.2 h0 hf
    have h2 := h.1.1
    rw [h0] at h2 ⊢
    have : x.2.1 = 0 := by simpa using h2
    simp [h1, this]
  · rw [if_neg h0]
    exact h.1.2 hf

theorem prodErr_zero (f : FlFmt) (m : Nat) : prodErr f m 0 = 0 := by simp [prodErr]

theorem combine {X Y P Q A B W Z : ℚ[X]} {u : ℚ} (hu : u = uro f) (a b m : Nat)
    (hX : ∀ k, |(X - P).coeff k| ≤ ((1 + u) ^ a - 1) * A.coeff k) (hP : ∀ k, |P.coeff k| ≤ A.coeff k)
    (hY : ∀ k, |(Y - Q).coeff k| ≤ ((1 + u) ^ b - 1) * B.coeff k) (hQ : ∀ k, |Q.coeff k| ≤ B.coeff k)
    (hW : ∀ V V' : ℚ[X], (∀ k, |X.coeff k| ≤ V.coeff k) → (∀ k, |Y.coeff k| ≤ V'.coeff k) →
      ∀ k, |W.coeff k| ≤ (V * V').coeff k) (hW0 : ∀ k, 0 ≤ W.coeff k)
    (hZ : ∀ k, |(Z - X * Y).coeff k| ≤ prodErr f m (W.coeff k))
    (hτ : ∀ k, (A * B).coeff k ≠ 0 → eta f ≤ u * (A * B).coeff k) (k : Nat) :
    |(Z - P * Q).coeff k| ≤ ((1 + u) ^ (a + b + (2 * m + 1)) - 1) * (A * B).coeff k := by
  have hu0 : 0 ≤ u := hu ▸ uro_nonneg (f := f)
  have hη := eta_nonneg (f := f)
  have h1 : ∀ n, 1 ≤ (1 + u) ^ n := fun n => one_le_pow₀ (by linarith)
  have hX' : ∀ k, |X.coeff k| ≤ (C ((1 + u) ^ a) * A).coeff k := by
    intro k
    rw [coeff_C_mul]
    have h1 := hX k
    rw [coeff_sub] at h1
    have h2 := abs_sub_abs_le_abs_sub (X.coeff k) (P.coeff k)
    have h3 := hP k
    linarith
  have hY' : ∀ k, |Y.coeff k| ≤ (C ((1 + u) ^ b) * B).coeff k := by
    intro k
    rw [coeff_C_mul]
    have h1 := hY k
    rw [coeff_sub] at h1
    have h2 := abs_sub_abs_le_abs_sub (Y.coeff k) (Q.coeff k)
    have h3 := hQ k
    linarith
  have hW' : W.coeff k ≤ (1 + u) ^ (a + b) * (A * B).coeff k := by
    have := (le_abs_self _).trans (hW _ _ hX' hY' k)
    rw [show C ((1 + u) ^ a) * A * (C ((1 + u) ^ b) * B) = C ((1 + u) ^ (a + b)) * (A * B) by
      rw [pow_add, C_mul]; ring, coeff_C_mul] at this
    exact this
  have hE : |(X * Y - P * Q).coeff k| ≤ ((1 + u) ^ (a + b) - 1) * (A * B).coeff k := by
    have e1 : X * Y - P * Q = (X - P) * Y + P * (Y - Q) := by ring
    rw [e1, coeff_add]
    have i1 := coeff_mul_le (U := X - P) (V := C ((1 + u) ^ a - 1) * A) (fun k => by rw [coeff_C_mul]; exact hX k) hY' k
    have i2 := coeff_mul_le (V := A) (W := Y - Q) (Z := C ((1 + u) ^ b - 1) * B) hP
      (fun k => by rw [coeff_C_mul]; exact hY k) k
    rw [show C ((1 + u) ^ a - 1) * A * (C ((1 + u) ^ b) * B) = C (((1 + u) ^ a - 1) * (1 + u) ^ b) * (A * B) by
      rw [C_mul]; ring, coeff_C_mul] at i1
    rw [show A * (C ((1 + u) ^ b - 1) * B) = C ((1 + u) ^ b - 1) * (A * B) by ring, coeff_C_mul] at i2
    refine (abs_add_le _ _).trans ((add_le_add i1 i2).trans (le_of_eq ?_))
    rw [pow_add]; ring
  have hZ := hZ k
  have hAB : 0 ≤ (A * B).coeff k := (abs_nonneg _).trans (coeff_mul_le hP hQ k)
  have hsplit : |(Z - P * Q).coeff k| ≤ |(Z - X * Y).coeff k| + |(X * Y - P * Q).coeff k| := by
    rw [show Z - P * Q = (Z - X * Y) + (X * Y - P * Q) by ring, coeff_add]
    exact abs_add_le _ _
  refine hsplit.trans ((add_le_add hZ hE).trans ?_)
  by_cases h0 : (A * B).coeff k = 0
  · have hw0 : W.coeff k = 0 := le_antisymm (by rw [h0, mul_zero] at hW'; exact hW') (hW0 k)
    rw [h0, hw0, prodErr_zero]; simp
  · have hη' := hτ k h0
    have hlow : prodErr f m (W.coeff k) ≤ ((1 + u) ^ (m + 1) - 1) * W.coeff k + m * (1 + u) ^ m * eta f := by
      unfold prodErr
      rw [hu]
      split
      · have : 0 ≤ (m : ℚ) * (1 + uro f) ^ m * eta f := by
          have := uro_nonneg (f := f); positivity
        linarith
      · exact le_rfl
    refine (add_le_add_left hlow _).trans ?_
    generalize (A * B).coeff k = c at *
    have j1 : ((1 + u) ^ (m + 1) - 1) * W.coeff k ≤ ((1 + u) ^ (m + 1) - 1) * ((1 + u) ^ (a + b) * c) :=
      mul_le_mul_of_nonneg_left hW' (by have := h1 (m + 1); linarith)
    have j2 : (m : ℚ) * (1 + u) ^ m * eta f ≤ m * (1 + u) ^ m * (u * c) :=
      mul_le_mul_of_nonneg_left hη' (by positivity)
    have j3 : 1 + (m : ℚ) * u ≤ (1 + u) ^ m := one_add_mul_le_pow (by linarith) m
    have e1 : (1 + u) ^ (a + b + (2 * m + 1)) = (1 + u) ^ (a + b) * (1 + u) ^ m * (1 + u) ^ m * (1 + u) := by
      rw [pow_add, pow_succ, two_mul, pow_add]; ring
    rw [e1]
    rw [pow_succ] at j1 ⊢
    have ha := h1 (a + b)
    have hm := h1 m
    generalize (1 + u) ^ (a + b) = s at *
    generalize (1 + u) ^ m = g at *
    have k1 : (m : ℚ) * u ≤ g - 1 := by linarith
    have k2 : g * (m * u) * c ≤ g * (g - 1) * c := by gcongr
    have k3 : g * (g - 1) * c ≤ (s * (1 + u)) * (g * (g - 1) * c) := by
      refine le_mul_of_one_le_left ?_ ?_
      · exact mul_nonneg (mul_nonneg (by linarith) (by linarith)) hAB
      · nlinarith
    nlinarith

theorem coeff_pow_ge {A : ℚ[X]} {μ : ℚ} (hμ : 0 ≤ μ) (hA : ∀ k, 0 ≤ A.coeff k ∧ (A.coeff k ≠ 0 → μ ≤ A.coeff k))
    (n : Nat) : ∀ k, 0 ≤ (A ^ n).coeff k ∧ ((A ^ n).coeff k ≠ 0 → μ ^ n ≤ (A ^ n).coeff k) := by
  induction n with
  | zero =>
    intro k
    rw [pow_zero, pow_zero, coeff_one]
    split <;> simp
  | succ n ih =>
    intro k
    rw [pow_succ, pow_succ, coeff_mul]
    have hn : ∀ x ∈ Finset.antidiagonal k, 0 ≤ (A ^ n).coeff x.1 * A.coeff x.2 :=
      fun x _ => mul_nonneg (ih _).1 (hA _).1
    refine ⟨Finset.sum_nonneg hn, fun h => ?_⟩
    obtain ⟨x, hx, hne⟩ := Finset.exists_ne_zero_of_sum_ne_zero h
    refine le_trans ?_ (Finset.single_le_sum hn hx)
    exact mul_le_mul ((ih _).2 (left_ne_zero_of_mul hne)) ((hA _).2 (right_ne_zero_of_mul hne)) hμ (ih _).1

theorem eta_eq : eta f = uro f * minNormal f := by
  unfold eta uro minNormal
  field_simp

/-! ## Infinite coefficients stay -/

theorem zipMut_finite {r : Fl f} : ∀ (ts ls : List (Fl f)), ls.length ≤ ts.length →
    (∀ x ∈ zipMut (fun t l => t + r * l) ts ls, x.isFinite = true) →
    (∀ t ∈ ts, t.isFinite = true) ∧ ∀ l ∈ ls, (r * l).isFinite = true
  | [], [], _, _ => ⟨by simp, by simp⟩
  | [], _ :: _, h, _ => by simp at h
  | t :: ts, [], _, h => ⟨by simpa [zipMut] using h, by simp⟩
  | t :: ts, l :: ls, hl, h => by
    rw [zipMut] at h
    obtain ⟨h1, h2⟩ := zipMut_finite (r := r) ts ls (by simpa using hl)
      (fun x hx => h x (List.mem_cons_of_mem _ hx))
    obtain ⟨h3, h4⟩ := finite_of_add (h _ (List.mem_cons_self ..))
    refine ⟨?_, ?_⟩
    · intro x hx
      rcases List.mem_cons.1 hx with rfl | hx
      exacts [h3, h1 x hx]
    · intro x hx
      rcases List.mem_cons.1 hx with rfl | hx
      exacts [h4, h2 x hx]

theorem isZero_finite {r : Fl f} (h : isZero r = true) : r.isFinite = true := by
  obtain ⟨s, rfl⟩ := isZero_iff.1 h; rfl

theorem sliceMulLoop_finite (lhs : List (Fl f)) : ∀ (rest : List (Fl f)) (index : Nat) (T out : List (Fl f)),
    index + rest.length + lhs.length ≤ T.length + 1 → sliceMulLoop lhs rest index T = .ok out →
    (∀ x ∈ out, x.isFinite = true) → (∀ x ∈ T, x.isFinite = true) ∧
      (lhs ≠ [] → ∀ r ∈ rest, r.isFinite = true) ∧
      ((∃ r ∈ rest, isZero r = false) → ∀ l ∈ lhs, l.isFinite = true)
  | [], index, T, out, _, h, hf => by
    cases h
    exact ⟨hf, by simp, by simp⟩
  | r :: rest, index, T, out, hl, h, hf => by
    rw [sliceMulLoop] at h
    obtain ⟨T1, hT1, h⟩ := Res.bind_eq_ok.1 h
    simp only [List.length_cons] at hl
    unfold sliceMulStep at hT1
    by_cases hz : isZero r = true
    · rw [if_pos hz] at hT1
      cases hT1
      obtain ⟨h1, h2, h3⟩ := sliceMulLoop_finite lhs rest (index + 1) T out (by omega) h hf
      refine ⟨h1, fun hne x hx => ?_, fun ⟨x, hx, hxz⟩ => h3 ⟨x, ?_, hxz⟩⟩
      · rcases List.mem_cons.1 hx with rfl | hx
        exacts [isZero_finite hz, h2 hne x hx]
      · rcases List.mem_cons.1 hx with rfl | hx
        · rw [hz] at hxz; cases hxz
        · exact hx
    · rw [if_neg hz] at hT1
      have hidx : index ≤ T.length := by omega
      simp only [sliceFrom, hidx, if_true, Res.ok_bind] at hT1
      cases hT1
      have hzl : ∀ ts ls : List (Fl f), (zipMut (fun t l => t + r * l) ts ls).length = ts.length := by
        intro ts
        induction ts with
        | nil => intro ls; simp
        | cons t ts ih => intro ls; cases ls <;> simp [zipMut, ih]
      obtain ⟨h1, h2, h3⟩ := sliceMulLoop_finite lhs rest (index + 1) _ out
        (by simp only [List.length_append, List.length_take, hzl, List.length_drop]; omega) h hf
      obtain ⟨h4, h5⟩ := zipMut_finite (T.drop index) lhs (by simp; omega)
        (fun x hx => h1 x (List.mem_append_right _ hx))
      refine ⟨fun x hx => ?_, fun hne x hx => ?_, fun _ l hl => (finite_of_mul (h5 l hl)).2⟩
      · rw [← List.take_append_drop index T] at hx
        rcases List.mem_append.1 hx with hx | hx
        exacts [h1 x (List.mem_append_left _ hx), h4 x hx]
      · rcases List.mem_cons.1 hx with rfl | hx
        · obtain ⟨l, hl⟩ := List.exists_mem_of_ne_nil _ hne
          exact (finite_of_mul (h5 l hl)).1
        · exact h2 hne x hx

theorem dropWhile_finite {l : List (Fl f)} (h : ∀ c ∈ l.dropWhile isZero, c.isFinite = true) :
    ∀ c ∈ l, c.isFinite = true := finite_of_dropWhile h

/-- What a product that returns looks like. -/
theorem sliceMul_ok {a b out : List (Fl f)} (h : sliceMul a b = .ok out) :
    1 ≤ (b.dropWhile isZero).length + (a.dropWhile isZero).length ∧
    ((∀ x ∈ out, x.isFinite = true) →
      (a.dropWhile isZero ≠ [] → ∀ c ∈ b, c.isFinite = true) ∧
      (b.dropWhile isZero ≠ [] → ∀ c ∈ a, c.isFinite = true)) := by
  unfold sliceMul at h
  simp only [sliceFrom, firstNonzeroIndex_le, if_true, Res.ok_bind, drop_firstNonzeroIndex] at h
  obtain ⟨len, hlen, h⟩ := Res.bind_eq_ok.1 h
  unfold usub at hlen
  split at hlen
  · rename_i hl
    cases hlen
    refine ⟨hl, fun hf => ?_⟩
    obtain ⟨_, h2, h3⟩ := sliceMulLoop_finite _ _ 0 _ out (by simp; omega) h hf
    refine ⟨fun hne => finite_of_dropWhile (h2 hne), fun hne => finite_of_dropWhile (h3 ?_)⟩
    obtain ⟨c, l, e⟩ := List.exists_cons_of_ne_nil hne
    have := List.head_dropWhile_not (isZero (N := Fl f)) (w := hne)
    exact ⟨_, List.head_mem hne, by simpa using this⟩
  · cases hlen

/-! ## Dense powers -/

theorem sliceMul_length {a b out : List (Fl f)} (h : sliceMul a b = .ok out) :
    out.length ≤ b.length + a.length - 1 := by
  unfold sliceMul at h
  simp only [sliceFrom, firstNonzeroIndex_le, if_true, Res.ok_bind, drop_firstNonzeroIndex] at h
  obtain ⟨len, hlen, h⟩ := Res.bind_eq_ok.1 h
  unfold usub at hlen
  split at hlen
  · cases hlen
    have key : ∀ (rest : List (Fl f)) (index : Nat) (T out lhs : List (Fl f)),
        sliceMulLoop lhs rest index T = .ok out → out.length = T.length := by
      intro rest
      induction rest with
      | nil => intro index T out lhs h; cases h; rfl
      | cons r rest ih =>
        intro index T out lhs h
        rw [sliceMulLoop] at h
        obtain ⟨T1, hT1, h⟩ := Res.bind_eq_ok.1 h
        rw [ih _ _ _ _ h]
        unfold sliceMulStep at hT1
        split at hT1
        · cases hT1; rfl
        · obtain ⟨tl, htl, hT1⟩ := Res.bind_eq_ok.1 hT1
          unfold sliceFrom at htl
          split at htl
          · cases htl
            cases hT1
            have hzl : ∀ ts ls : List (Fl f), (zipMut (fun t l => t + r * l) ts ls).length = ts.length := by
              intro ts
              induction ts with
              | nil => intro ls; simp
              | cons t ts ih => intro ls; cases ls <;> simp [zipMut, ih]
            rw [List.length_append, hzl, List.length_take, List.length_drop]
            omega
          · cases htl
    rw [key _ _ _ _ _ h, List.length_replicate]
    have h1 := (List.dropWhile_suffix (l := a) isZero).length_le
    have h2 := (List.dropWhile_suffix (l := b) isZero).length_le
    omega
  · cases hlen

/-- The error of a dense product, exact where all products vanish. -/
theorem sliceMul_err {a b out : List (Fl f)} (h : sliceMul a b = .ok out) (hf : ∀ c ∈ out, c.isFinite = true)
    (k : Nat) : |(descPoly (out.map toRat) - descPoly (a.map toRat) * descPoly (b.map toRat)).coeff k| ≤
      prodErr f b.length
        ((descPoly (a.map fun c => |c.toRat|) * descPoly (b.map fun c => |c.toRat|)).coeff k) := by
  obtain ⟨T, rfl, h2, h3, h4⟩ := sliceMul_state mulInv_Bnd2 _ _ (fun _ _ => trivial) (fun _ _ => trivial) _ h
  rw [← h3, ← h4, coeff_sub, List.map_map]
  rcases coeff_cases T k with ⟨x, hx, e⟩ | e
  · rw [e, e, e]
    exact Bnd2_err (h2 x hx) (hf _ (List.mem_map_of_mem hx))
  · rw [e, e, e, prodErr_zero]; simp

theorem prodErr_mono {m n : Nat} (h : m ≤ n) {w : ℚ} (hw : 0 ≤ w) : prodErr f m w ≤ prodErr f n w := by
  have hu := uro_nonneg (f := f)
  have hη := eta_nonneg (f := f)
  have h1 : (1 : ℚ) ≤ 1 + uro f := by linarith
  have h2 : (m : ℚ) ≤ n := by exact_mod_cast h
  have h3 : (1 + uro f) ^ m ≤ (1 + uro f) ^ n := pow_le_pow_right₀ h1 h
  have h4 : (1 + uro f) ^ (m + 1) ≤ (1 + uro f) ^ (n + 1) := pow_le_pow_right₀ h1 (by omega)
  unfold prodErr
  refine add_le_add (mul_le_mul_of_nonneg_right (by linarith) hw) ?_
  split
  · exact le_rfl
  · gcongr

theorem pow_ok_nonzero (p : Poly (Fl f)) : ∀ (n : Nat) (r : Poly (Fl f)), 2 ≤ n → p.pow n = .ok r →
    p.terms.dropWhile isZero ≠ [] := by
  have hm : ∀ r, p.mulRef p = .ok r → p.terms.dropWhile isZero ≠ [] := by
    intro r h h0
    obtain ⟨out, h1, _⟩ := Res.bind_eq_ok.1 h
    have := (sliceMul_ok h1).1
    rw [h0] at this
    simp at this
  intro n
  induction n using Nat.strong_induction_on with
  | _ n ih =>
    intro r hn h
    rw [Poly.pow, if_neg (by omega), if_neg (by omega)] at h
    by_cases n2 : n = 2
    · rw [if_pos n2] at h
      exact hm r h
    · rw [if_neg n2] at h
      split at h
      · obtain ⟨q, h1, _⟩ := Res.bind_eq_ok.1 h
        exact ih (n / 2) (by omega) q (by omega) h1
      · obtain ⟨q, h1, _⟩ := Res.bind_eq_ok.1 h
        exact ih (n - 1) (by omega) q (by omega) h1

/-- `0.1 x - 3` in binary64. -/
def exTenth : Poly (Fl binary64) := ⟨[.fin false (7205759403792794 * 2 ^ 1018), -ofNat 3]⟩

/-- C89: the coefficients of a finite power are the exact ones up to `(n-1)(2nd+3)` roundings relative to the power
of the polynomial of absolute values, `d + 1` being the number of coefficients, provided that no product of `n`
coefficients that are not zero is below the smallest normal number. -/
theorem C89_dense_pow_error (p r : Poly (Fl f)) (n : Nat)
    (h : p.pow n = .ok r) (hr : ∀ c ∈ r.terms, c.isFinite = true) (μ : ℚ) (h0 : 0 < μ) (h1 : μ ≤ 1)
    (hμ : ∀ c ∈ p.terms, c.toRat ≠ 0 → μ ≤ |c.toRat|) (hn : minNormal f ≤ μ ^ n) (k : Nat) :
    |(descPoly (r.terms.map toRat) - descPoly (p.terms.map toRat) ^ n).coeff k| ≤
      ((1 + uro f) ^ powRounds n (p.terms.length - 1) - 1) *
        (descPoly (p.terms.map fun c => |c.toRat|) ^ n).coeff k := by
  set P := descPoly (p.terms.map toRat) with hP
  set A := descPoly (p.terms.map fun c => |c.toRat|) with hA
  have hu := uro_nonneg (f := f)
  have hPA : ∀ k, |P.coeff k| ≤ A.coeff k := fun k => (coeff_dense_abs _ k).ge
  have hA1 : ∀ k, 0 ≤ A.coeff k ∧ (A.coeff k ≠ 0 → μ ≤ A.coeff k) := by
    intro k
    rcases coeff_cases p.terms k with ⟨x, hx, e⟩ | e
    · rw [hA, e]
      exact ⟨abs_nonneg _, fun h => hμ x hx (by simpa using h)⟩
    · rw [hA, e]; simp
  have hAp := coeff_pow_ge h0.le hA1
  have hτ : ∀ i, i ≤ n → ∀ k, (A ^ i).coeff k ≠ 0 → eta f ≤ uro f * (A ^ i).coeff k := by
    intro i hi k hk
    rw [eta_eq]
    refine mul_le_mul_of_nonneg_left (hn.trans ((pow_le_pow_of_le_one h0.le h1 hi).trans ((hAp i k).2 hk))) hu
  set d := p.terms.length - 1 with hd
  set K := 2 * n * d + 3 with hK
  have hmul : ∀ (a b c : Poly (Fl f)) (i j : Nat), 1 ≤ i → 1 ≤ j → i + j ≤ n →
      a.terms.length ≤ i * d + 1 → b.terms.length ≤ j * d + 1 →
      (∀ k, |(descPoly (a.terms.map toRat) - P ^ i).coeff k| ≤ ((1 + uro f) ^ ((i - 1) * K) - 1) * (A ^ i).coeff k) →
      (∀ k, |(descPoly (b.terms.map toRat) - P ^ j).coeff k| ≤ ((1 + uro f) ^ ((j - 1) * K) - 1) * (A ^ j).coeff k) →
      a.mulRef b = .ok c → (∀ x ∈ c.terms, x.isFinite = true) →
      c.terms.length ≤ (i + j) * d + 1 ∧
      ∀ k, |(descPoly (c.terms.map toRat) - P ^ (i + j)).coeff k| ≤
        ((1 + uro f) ^ ((i + j - 1) * K) - 1) * (A ^ (i + j)).coeff k := by
    intro a b c i j hi hj hij hla hlb ha hb hc hf
    obtain ⟨out, hout, e⟩ := Res.bind_eq_ok.1 hc
    cases e
    rw [new_terms] at hf ⊢
    have hf' := finite_of_dropWhile hf
    refine ⟨?_, fun k => ?_⟩
    · have e1 := (List.dropWhile_suffix (l := out) isZero).length_le
      have e2 := sliceMul_length hout
      have e3 : (i + j) * d = i * d + j * d := by ring
      omega
    · rw [descPoly_dropWhile_toRat _ toRat_fin_zero, pow_add, pow_add]
      have hb1 : b.terms.length ≤ n * d + 1 := by
        refine hlb.trans ?_
        have : j * d ≤ n * d := Nat.mul_le_mul_right _ (by omega)
        omega
      have hW0 : ∀ k, 0 ≤ (descPoly (a.terms.map fun c => |c.toRat|) *
          descPoly (b.terms.map fun c => |c.toRat|)).coeff k := fun k =>
        (abs_nonneg _).trans (coeff_mul_le (U := descPoly (a.terms.map toRat)) (W := descPoly (b.terms.map toRat))
          (fun k => (coeff_dense_abs _ k).ge) (fun k => (coeff_dense_abs _ k).ge) k)
      have := combine (f := f) (Z := descPoly (out.map toRat)) rfl ((i - 1) * K) ((j - 1) * K) (n * d + 1) ha
        (coeff_pow_le hPA i) hb (coeff_pow_le hPA j)
        (fun V V' hV hV' k => coeff_mul_le (fun k => by rw [coeff_dense_abs, abs_abs]; exact hV k)
          (fun k => by rw [coeff_dense_abs, abs_abs]; exact hV' k) k) hW0
        (fun k => (sliceMul_err hout hf' k).trans (prodErr_mono hb1 (hW0 k)))
        (fun k hk => by rw [← pow_add] at hk ⊢; exact hτ (i + j) hij k hk) k
      refine this.trans (le_of_eq ?_)
      have e1 : (i - 1) * K + (j - 1) * K + (2 * (n * d + 1) + 1) = (i + j - 1) * K := by
        obtain ⟨i, rfl⟩ := Nat.exists_eq_add_of_le' hi
        obtain ⟨j, rfl⟩ := Nat.exists_eq_add_of_le' hj
        have : i + 1 + (j + 1) - 1 = i + j + 1 := by omega
        rw [this, hK]
        simp only [Nat.add_sub_cancel]
        ring
      rw [e1]
  have main : ∀ i, 1 ≤ i → i ≤ n → ∀ r : Poly (Fl f), p.pow i = .ok r → (∀ c ∈ r.terms, c.isFinite = true) →
      r.terms.length ≤ i * d + 1 ∧ ∀ k, |(descPoly (r.terms.map toRat) - P ^ i).coeff k| ≤
        ((1 + uro f) ^ ((i - 1) * K) - 1) * (A ^ i).coeff k := by
    have hone : p.terms.length ≤ 1 * d + 1 ∧ ∀ k, |(descPoly (p.terms.map toRat) - P ^ 1).coeff k| ≤
        ((1 + uro f) ^ ((1 - 1) * K) - 1) * (A ^ 1).coeff k := by
      refine ⟨by omega, fun k => ?_⟩
      rw [pow_one, ← hP]; simp
    intro i
    induction i using Nat.strong_induction_on with
    | _ i ih =>
      intro hi hin r h hr
      rw [Poly.pow, if_neg (by omega)] at h
      by_cases i1 : i = 1
      · subst i1
        rw [if_pos rfl] at h
        cases h
        rw [new_terms, descPoly_dropWhile_toRat _ toRat_fin_zero]
        exact ⟨(List.dropWhile_suffix (l := p.terms) isZero).length_le.trans hone.1, hone.2⟩
      rw [if_neg i1] at h
      by_cases i2 : i = 2
      · subst i2
        rw [if_pos rfl] at h
        exact hmul p p r 1 1 le_rfl le_rfl hin hone.1 hone.1 hone.2 hone.2 h hr
      rw [if_neg i2] at h
      split at h
      · obtain ⟨q, hq, h⟩ := Res.bind_eq_ok.1 h
        rw [Poly.pow, if_neg (by norm_num), if_neg (by norm_num), if_pos rfl] at h
        have hqf : ∀ c ∈ q.terms, c.isFinite = true := by
          obtain ⟨out, h1, e⟩ := Res.bind_eq_ok.1 h
          cases e
          rw [new_terms] at hr
          obtain ⟨h2, h3⟩ := sliceMul_ok h1
          refine (h3 (finite_of_dropWhile hr)).1 fun h0 => ?_
          rw [h0] at h2
          simp at h2
        obtain ⟨h2, h3⟩ := ih (i / 2) (by omega) (by omega) (by omega) q hq hqf
        have := hmul q q r (i / 2) (i / 2) (by omega) (by omega) (by omega) h2 h2 h3 h3 h hr
        rwa [show i / 2 + i / 2 = i by omega] at this
      · obtain ⟨q, hq, h⟩ := Res.bind_eq_ok.1 h
        have hpz := pow_ok_nonzero p (i - 1) q (by omega) hq
        have hqf : ∀ c ∈ q.terms, c.isFinite = true := by
          obtain ⟨out, h1, e⟩ := Res.bind_eq_ok.1 h
          cases e
          rw [new_terms] at hr
          exact ((sliceMul_ok h1).2 (finite_of_dropWhile hr)).1 hpz
        obtain ⟨h2, h3⟩ := ih (i - 1) (by omega) (by omega) (by omega) q hq hqf
        have := hmul p q r 1 (i - 1) le_rfl (by omega) (by omega) hone.1 h2 hone.2 h3 h hr
        rwa [show 1 + (i - 1) = i by omega] at this
  by_cases n0 : n = 0
  · subst n0
    rw [Poly.pow, if_pos rfl] at h
    cases h
    simp [descPoly_cons, toRat_one, powRounds]
  · exact (main n (by omega) le_rfl r h hr).2 k

/-! ## Powers that panic -/

-- `(0.1 x - 3)^3` in binary64, with 1/16 as the lower bound of the coefficients
example : (∃ r, exTenth.pow 3 = .ok r ∧ (∀ c ∈ r.terms, c.isFinite = true) ∧ r.terms.length = 4) ∧
    (∀ c ∈ exTenth.terms, c.toRat ≠ 0 → 1 / 16 ≤ |c.toRat|) ∧ minNormal binary64 ≤ (1 / 16) ^ 3 :=
  ⟨⟨(match exTenth.pow 3 with | .ok r => r | _ => ⟨[]⟩), by decide +kernel, by decide +kernel, by decide +kernel⟩,
    by decide +kernel, by decide +kernel⟩

theorem le_roundRat {p num den t : Nat} (hp : 1 ≤ p) (hden : 0 < den) (h : 2 ^ t * den ≤ num) :
    2 ^ t ≤ roundRat p num den := by
  have hr : Representable p (2 ^ t) := ⟨1, t, Nat.one_lt_two_pow (by omega), by simp⟩
  have h1 := roundRat_nearest (num := num) hp hden hr
  have hd : (0 : ℚ) < den := by exact_mod_cast hden
  have h2 : ((2 ^ t : Nat) : ℚ) ≤ num / den := by
    rw [le_div_iff₀ hd]; exact_mod_cast h
  have h3 : |((2 ^ t : Nat) : ℚ) - num / den| = num / den - (2 ^ t : Nat) := by
    rw [abs_of_nonpos (by linarith)]; ring
  rw [h3] at h1
  have h4 := (abs_le.1 h1).1
  have : ((2 ^ t : Nat) : ℚ) ≤ roundRat p num den := by linarith
  exact_mod_cast this

/-- Infinite, NaN, or at least `2^-e`. -/
def Big (e : Nat) (x : Fl f) : Prop := x.isFinite = true → 2 ^ (f.q - e) ≤ x.units

theorem Big_not_zero {e : Nat} {x : Fl f} (h : Big e x) : isZero x = false := by
  by_contra hz
  have hz : isZero x = true := by simpa using hz
  have := h (isZero_finite hz)
  obtain ⟨s, rfl⟩ := isZero_iff.1 hz
  have h2 : 0 < 2 ^ (f.q - e) := by positivity
  simp only [units] at this
  omega

theorem Big_pack {s : Bool} {e m : Nat} (h : 2 ^ (f.q - e) ≤ m) : Big e (pack s m : Fl f) := by
  unfold pack
  split
  · exact fun _ => h
  · intro h; cases h

theorem Big_mul (hp : 1 ≤ f.p) {d e : Nat} (hde : d + e ≤ f.q) {x y : Fl f} (hx : Big d x) (hy : Big e y) :
    Big (d + e) (0 + x * y) := by
  intro hf
  obtain ⟨-, hm⟩ := finite_of_add hf
  obtain ⟨h1, h2⟩ := finite_of_mul hm
  have hx := hx h1
  have hy := hy h2
  obtain ⟨s, a, rfl⟩ := isFinite_iff.1 h1
  obtain ⟨t, b, rfl⟩ := isFinite_iff.1 h2
  simp only [units] at hx hy
  have e1 : (fin s a * fin t b : Fl f) = pack (s != t) (roundRat f.p (a * b) (2 ^ f.q)) := rfl
  rw [e1] at hf hm ⊢
  have hlt := pack_isFinite.1 hm
  have hge : 2 ^ (f.q - (d + e)) ≤ roundRat f.p (a * b) (2 ^ f.q) := by
    refine le_roundRat hp (by positivity) ?_
    rw [← pow_add, show f.q - (d + e) + f.q = (f.q - d) + (f.q - e) by omega, pow_add]
    exact Nat.mul_le_mul hx hy
  have e2 : (pack (s != t) (roundRat f.p (a * b) (2 ^ f.q)) : Fl f) = fin (s != t) (roundRat f.p (a * b) (2 ^ f.q)) := by
    rw [pack, if_pos hlt]
  rw [e2] at hf ⊢
  generalize roundRat f.p (a * b) (2 ^ f.q) = g at *
  have hr : 2 ^ (f.q - (d + e)) ≤ roundRat f.p g 1 := le_roundRat hp one_pos (by simpa using hge)
  have hpos : 0 < 2 ^ (f.q - (d + e)) := by positivity
  have h0 : (0 + fin (s != t) g : Fl f) = if false = (s != t) then pack false (roundRat f.p (0 + g) 1)
      else if 0 = g then .fin false 0 else if g < 0 then pack false (roundRat f.p (0 - g) 1)
      else pack (s != t) (roundRat f.p (g - 0) 1) := rfl
  rw [h0, Nat.zero_add, Nat.sub_zero] at hf ⊢
  split
  · rename_i h; rw [if_pos h] at hf; exact Big_pack hr hf
  · rename_i h
    rw [if_neg h, if_neg (by omega), if_neg (by omega)] at hf
    rw [if_neg (by omega), if_neg (by omega)]
    exact Big_pack hr hf

/-- The first coefficient that is not zero is infinite, NaN or at least `2^-e`. -/
def LeadBig (e : Nat) (l : List (Fl f)) : Prop := ∃ c r, l.dropWhile isZero = c :: r ∧ Big e c

theorem sliceMulLoop_head (lhs : List (Fl f)) : ∀ (rest : List (Fl f)) (index : Nat) (x : Fl f) (T out : List (Fl f)),
    1 ≤ index → sliceMulLoop lhs rest index (x :: T) = .ok out → ∃ T', out = x :: T'
  | [], index, x, T, out, _, h => by cases h; exact ⟨T, rfl⟩
  | r :: rest, index, x, T, out, hi, h => by
    rw [sliceMulLoop] at h
    obtain ⟨T1, hT1, h⟩ := Res.bind_eq_ok.1 h
    have : ∃ T', T1 = x :: T' := by
      unfold sliceMulStep at hT1
      split at hT1
      · cases hT1; exact ⟨T, rfl⟩
      · obtain ⟨tl, htl, hT1⟩ := Res.bind_eq_ok.1 hT1
        cases hT1
        obtain ⟨i, rfl⟩ := Nat.exists_eq_add_of_le' hi
        rw [List.take_succ_cons]
        exact ⟨_, rfl⟩
    obtain ⟨T', rfl⟩ := this
    exact sliceMulLoop_head lhs rest (index + 1) x T' out (by omega) h

theorem mulRef_lead (hp : 1 ≤ f.p) {d e : Nat} (hde : d + e ≤ f.q) {a b : Poly (Fl f)} (ha : LeadBig d a.terms)
    (hb : LeadBig e b.terms) : ∃ r, a.mulRef b = .ok r ∧ LeadBig (d + e) r.terms := by
  obtain ⟨c, cs, h1, h2⟩ := ha
  obtain ⟨r, rs, h3, h4⟩ := hb
  have hok : ∃ x, a.mul b = .ok x := by
    rw [(C68_mul_panics_iff a b).2, ← dropWhile_nil_iff, h1]
    simp
  obtain ⟨x, hx⟩ := hok
  obtain ⟨out, hout, _⟩ := Res.bind_eq_ok.1 hx
  refine ⟨Poly.new out, by unfold Poly.mulRef; rw [hout]; rfl, ?_⟩
  have hz := Big_not_zero h4
  have hhead : ∃ T', out = (0 + r * c) :: T' := by
    unfold sliceMul at hout
    simp only [sliceFrom, firstNonzeroIndex_le, if_true, Res.ok_bind, drop_firstNonzeroIndex, h1, h3] at hout
    obtain ⟨len, hlen, h⟩ := Res.bind_eq_ok.1 hout
    unfold usub at hlen
    split at hlen
    · cases hlen
      rw [sliceMulLoop] at h
      obtain ⟨T1, hT1, h⟩ := Res.bind_eq_ok.1 h
      unfold sliceMulStep at hT1
      rw [if_neg (by simp [hz])] at hT1
      obtain ⟨tl, htl, hT1⟩ := Res.bind_eq_ok.1 hT1
      simp only [sliceFrom, Nat.zero_le, if_true, List.drop_zero] at htl
      cases htl
      cases hT1
      have hl : (r :: rs).length + (c :: cs).length - 1 = (rs.length + cs.length) + 1 := by simp; omega
      rw [hl, List.replicate_succ, zipMut] at h
      exact sliceMulLoop_head _ _ 1 _ _ _ le_rfl h
    · cases hlen
  obtain ⟨T', rfl⟩ := hhead
  have hB : Big (d + e) (0 + r * c) := by
    rw [Nat.add_comm d e] at hde ⊢
    exact Big_mul hp hde h4 h2
  rw [new_terms]
  refine ⟨0 + r * c, T', ?_, hB⟩
  have := Big_not_zero hB
  rw [List.dropWhile_cons, if_neg (by simp [this]), List.dropWhile_cons, if_neg (by simp [this])]

/-- C89: the power of a polynomial with leading coefficient at least `2^-m` returns (it may overflow) if
`m (n/2) <= q`.  Without that condition it can panic, see `C89_pow_false`. -/
theorem C89_dense_pow_returns (hp : 1 ≤ f.p) (p : Poly (Fl f)) (n m : Nat)
    (hl : 1 / 2 ^ m ≤ |(descPoly (p.terms.map toRat)).leadingCoeff|) (hm : m * (n / 2) ≤ f.q) :
    ∃ r, p.pow n = .ok r := by
  have hlead : m ≤ f.q → LeadBig m p.terms := by
    intro hmq
    cases hd : p.terms.dropWhile isZero with
    | nil =>
      rw [← descPoly_dropWhile_toRat _ toRat_fin_zero, hd] at hl
      have : (0 : ℚ) < 2 ^ m := by positivity
      simp at hl
      linarith
    | cons c r =>
      refine ⟨c, r, hd, fun hc => ?_⟩
      have hz : isZero c = false := by
        have := List.head_dropWhile_not (isZero (N := Fl f)) (l := p.terms) (w := by rw [hd]; simp)
        simpa [hd] using this
      have hne : c.toRat ≠ 0 := (toRat_ne_zero hc).1 hz
      rw [← descPoly_dropWhile_toRat _ toRat_fin_zero, hd, List.map_cons, descPoly_leadingCoeff _ hne] at hl
      obtain ⟨s, a, rfl⟩ := isFinite_iff.1 hc
      have e : |(fin s a : Fl f).toRat| = a / 2 ^ f.q := by
        unfold toRat
        rw [abs_mul, sign_abs, one_mul, abs_of_nonneg (by positivity)]
      rw [e, div_le_div_iff₀ (by positivity) (by positivity), one_mul] at hl
      simp only [units]
      have h2 : (2 : ℚ) ^ f.q = 2 ^ (f.q - m) * 2 ^ m := by rw [← pow_add]; congr 1; omega
      rw [h2] at hl
      have := le_of_mul_le_mul_right hl (by positivity)
      exact_mod_cast this
  have hpz : 2 ≤ n → p.terms.dropWhile isZero ≠ [] := by
    intro _ h0
    rw [← descPoly_dropWhile_toRat _ toRat_fin_zero, h0] at hl
    have : (0 : ℚ) < 2 ^ m := by positivity
    simp at hl
    linarith
  have hmulp : ∀ q : Poly (Fl f), 2 ≤ n → ∃ r, p.mulRef q = .ok r := by
    intro q h2
    have hok : ∃ x, p.mul q = .ok x := by
      rw [(C68_mul_panics_iff p q).2, ← dropWhile_nil_iff]
      exact fun h => hpz h2 h.1
    obtain ⟨x, hx⟩ := hok
    obtain ⟨out, hout, _⟩ := Res.bind_eq_ok.1 hx
    exact ⟨Poly.new out, by unfold Poly.mulRef; rw [hout]; rfl⟩
  have main : ∀ i, 1 ≤ i → m * i ≤ f.q → ∃ r, p.pow i = .ok r ∧ LeadBig (m * i) r.terms := by
    intro i
    induction i using Nat.strong_induction_on with
    | _ i ih =>
      intro hi hmi
      have hL : LeadBig m p.terms := hlead (by nlinarith)
      rw [Poly.pow, if_neg (by omega)]
      by_cases i1 : i = 1
      · subst i1
        refine ⟨_, by rw [if_pos rfl], ?_⟩
        rw [new_terms, Nat.mul_one]
        obtain ⟨c, r, h1, h2⟩ := hL
        refine ⟨c, r, ?_, h2⟩
        rw [h1, List.dropWhile_cons, if_neg (by simp [Big_not_zero h2])]
      rw [if_neg i1]
      by_cases i2 : i = 2
      · subst i2
        rw [if_pos rfl, Nat.mul_two]
        exact mulRef_lead hp (by omega) hL hL
      rw [if_neg i2]
      split
      · have hle : m * (i / 2) ≤ m * i := Nat.mul_le_mul_left _ (by omega)
        obtain ⟨q, h1, h2⟩ := ih (i / 2) (by omega) (by omega) (by omega)
        have hsum : m * (i / 2) + m * (i / 2) = m * i := by
          rw [← Nat.mul_add]; congr 1; omega
        obtain ⟨r, h3, h4⟩ := mulRef_lead hp (by omega) h2 h2
        rw [hsum] at h4
        refine ⟨r, ?_, h4⟩
        rw [h1, Res.ok_bind, Poly.pow, if_neg (by norm_num), if_neg (by norm_num), if_pos rfl, h3]
      · have hle : m * (i - 1) ≤ m * i := Nat.mul_le_mul_left _ (by omega)
        obtain ⟨q, h1, h2⟩ := ih (i - 1) (by omega) (by omega) (by omega)
        have hsum : m + m * (i - 1) = m * i := by
          obtain ⟨j, rfl⟩ := Nat.exists_eq_add_of_le' hi
          rw [Nat.add_sub_cancel, Nat.mul_succ]; omega
        obtain ⟨r, h3, h4⟩ := mulRef_lead hp (by omega) hL h2
        rw [hsum] at h4
        exact ⟨r, by rw [h1, Res.ok_bind, h3], h4⟩
  have heven : ∀ i, i % 2 = 0 → 2 ≤ i → i / 2 = n / 2 → ∃ r, p.pow i = .ok r := by
    intro i hi h2 hin
    have hn2 : 2 ≤ n := by omega
    rw [Poly.pow, if_neg (by omega), if_neg (by omega)]
    split_ifs
    · exact hmulp p hn2
    · obtain ⟨q, h1, c, l, h3, h4⟩ := main (i / 2) (by omega) (by rw [hin]; exact hm)
      rw [h1, Res.ok_bind, Poly.pow, if_neg (by norm_num), if_neg (by norm_num), if_pos rfl]
      have hok : ∃ x, q.mul q = .ok x := by
        rw [(C68_mul_panics_iff q q).2, ← dropWhile_nil_iff, h3]
        simp
      obtain ⟨x, hx⟩ := hok
      obtain ⟨out, hout, _⟩ := Res.bind_eq_ok.1 hx
      exact ⟨Poly.new out, by unfold Poly.mulRef; rw [hout]; rfl⟩
  by_cases hn : n ≤ 1
  · rw [Poly.pow]
    by_cases n0 : n = 0
    · exact ⟨_, by rw [if_pos n0]⟩
    · exact ⟨_, by rw [if_neg n0, if_pos (by omega)]⟩
  by_cases hpar : n % 2 = 0
  · exact heven n hpar (by omega) rfl
  · obtain ⟨q, hq⟩ := heven (n - 1) (by omega) (by omega) (by omega)
    rw [Poly.pow, if_neg (by omega), if_neg (by omega), if_neg (by omega), if_neg hpar, hq, Res.ok_bind]
    exact hmulp q (by omega)

-- the hypothesis holds for `0.1 x - 3` with `m = 4` up to the exponent 537
example : 1 / 2 ^ 4 ≤ |(descPoly (exTenth.terms.map toRat)).leadingCoeff| ∧ 4 * (537 / 2) ≤ binary64.q := by
  refine ⟨?_, by decide⟩
  have h : (Fl.fin false (7205759403792794 * 2 ^ 1018) : Fl binary64).toRat ≠ 0 := by decide +kernel
  rw [exTenth, List.map_cons, descPoly_leadingCoeff _ h]
  decide +kernel

/-- C89: the fourth power of `2^-538`, a number that is not zero, panics: the square underflows to the empty
polynomial and the square of that panics.  The fourth power of `2^-537` is zero. -/
theorem C89_pow_false :
    (⟨[.fin false (2 ^ 536)]⟩ : Poly (Fl binary64)).pow 4 = .panic ∧
    (⟨[.fin false (2 ^ 537)]⟩ : Poly (Fl binary64)).pow 4 = .ok ⟨[]⟩ ∧
    (⟨[.fin false (2 ^ 536)]⟩ : Poly (Fl binary64)).pow 3 = .ok ⟨[]⟩ := by
  decide +kernel

/-! ## Sparse powers -/

theorem sparse_mul_err (p q : Sparse (Fl f)) (h : (p.mul q).AllFinite) (k : Nat) :
    |((p.mul q).ratPoly - p.ratPoly * q.ratPoly).coeff k| ≤
      prodErr f q.terms.entries.length ((p.absPoly * q.absPoly).coeff k) := by
  have hs := mapMul_state mulInv_Bnd2 p.terms (fun _ _ _ => trivial) q.terms.entries .empty 0 0 0
    (fun _ _ => trivial) (fun j => by simp [BMap.get, BMap.empty, BMap.getList, StB]) k
  simp only [zero_add] at hs
  change StB Bnd2 _ ((p.mul q).terms.get k) ((q.ratPoly * p.ratPoly).coeff k) ((q.absPoly * p.absPoly).coeff k) at hs
  rw [mul_comm q.ratPoly, mul_comm q.absPoly] at hs
  rw [coeff_sub, coeff_rat]
  cases hx : (p.mul q).terms.get k with
  | none =>
    rw [hx] at hs
    rw [hs.1, hs.2, prodErr_zero]
    simp
  | some x =>
    rw [hx] at hs
    simp only [StB] at hs
    have hf := finite_get h hx
    generalize (p.ratPoly * q.ratPoly).coeff k = a at hs ⊢
    generalize (p.absPoly * q.absPoly).coeff k = b at hs ⊢
    exact Bnd2_err (x := (x, a, b)) hs hf

theorem sparse_mul_nonfinite (p q : Sparse (Fl f)) {i j : Nat} {c r : Fl f} (hc : p.terms.get i = some c)
    (hr : (j, r) ∈ q.terms.entries) (hz : isZero r = false) (hnf : (r * c).isFinite = false) :
    ∃ x, (p.mul q).terms.get (i + j) = some x ∧ x.isFinite = false := by
  have hadd : ∀ x y : Fl f, x.isFinite = false ∨ y.isFinite = false → (x + y).isFinite = false := by
    intro x y h
    by_contra hf
    obtain ⟨h1, h2⟩ := finite_of_add (by simpa using hf)
    rcases h with h | h
    · rw [h] at h1; cases h1
    · rw [h] at h2; cases h2
  have keep : ∀ (rest : List (Nat × Fl f)) (m : BMap (Fl f)) (k : Nat),
      (∃ x, m.get k = some x ∧ x.isFinite = false) → ∃ x, (rest.foldl (fun terms e => if isZero e.2 then terms else
        mapMulInner e.1 e.2 p.terms.entries terms) m).get k = some x ∧ x.isFinite = false := by
    intro rest
    induction rest with
    | nil => intro m k h; exact h
    | cons e rest ih =>
      intro m k h
      rw [List.foldl_cons]
      refine ih _ k ?_
      split
      · exact h
      · obtain ⟨x, hx, hf⟩ := h
        rw [mapMulInner_get]
        split
        · exact ⟨x, hx, hf⟩
        · rw [hx]
          exact ⟨_, rfl, hadd _ _ (.inl hf)⟩
  have reach : ∀ (rest : List (Nat × Fl f)) (m : BMap (Fl f)), (j, r) ∈ rest →
      ∃ x, (rest.foldl (fun terms e => if isZero e.2 then terms else
        mapMulInner e.1 e.2 p.terms.entries terms) m).get (i + j) = some x ∧ x.isFinite = false := by
    intro rest
    induction rest with
    | nil => intro m h; cases h
    | cons e rest ih =>
      intro m h
      rw [List.foldl_cons]
      rcases List.mem_cons.1 h with rfl | h
      · refine keep rest _ _ ?_
        simp only [hz, Bool.false_eq_true, if_false]
        rw [mapMulInner_get, if_pos (by omega), Nat.add_sub_cancel, hc]
        refine ⟨_, rfl, ?_⟩
        cases m.get (i + j) with
        | none => exact hnf
        | some x => exact hadd _ _ (.inr hnf)
      · exact ih _ h
  exact reach _ _ hr

theorem isZero_nonfinite' {c : Fl f} (h : c.isFinite = false) : isZero c = false := by
  cases c with
  | nan => rfl
  | inf s => rfl
  | fin s m => cases h

theorem sparse_sq_finite (h : Sparse (Fl f)) (hf : (h.mul h).AllFinite) : h.AllFinite := by
  intro e he
  by_contra hnf
  have hnf : e.2.isFinite = false := by simpa using hnf
  have hz := isZero_nonfinite' hnf
  have hm : (e.2 * e.2).isFinite = false := by
    by_contra h1
    have := (finite_of_mul (by simpa using h1)).1
    rw [hnf] at this; cases this
  obtain ⟨x, hx, hxf⟩ := sparse_mul_nonfinite h h ((BMap.mem_entries _ e.1 e.2).1 he) he hz hm
  have := finite_get hf hx
  rw [hxf] at this; cases this

theorem sparse_right_finite (p h : Sparse (Fl f)) (hp : p.terms.entries ≠ []) (hf : (p.mul h).AllFinite) :
    h.AllFinite := by
  intro e he
  by_contra hnf
  have hnf : e.2.isFinite = false := by simpa using hnf
  have hz := isZero_nonfinite' hnf
  obtain ⟨d, hd⟩ := List.exists_mem_of_ne_nil _ hp
  have hm : (e.2 * d.2).isFinite = false := by
    by_contra h1
    have := (finite_of_mul (by simpa using h1)).1
    rw [hnf] at this; cases this
  obtain ⟨x, hx, hxf⟩ := sparse_mul_nonfinite p h ((BMap.mem_entries _ d.1 d.2).1 hd) he hz hm
  have := finite_get hf hx
  rw [hxf] at this; cases this

theorem entries_length (m : BMap (Fl f)) (D : Nat) (h : ∀ e ∈ m.entries, e.1 ≤ D) : m.entries.length ≤ D + 1 := by
  have hn := BMap.keys_nodup m
  have : (m.entries.map Prod.fst).toFinset ⊆ Finset.range (D + 1) := by
    intro k hk
    obtain ⟨e, he, rfl⟩ := List.mem_map.1 (List.mem_toFinset.1 hk)
    exact Finset.mem_range.2 (by have := h e he; omega)
  have hc := Finset.card_le_card this
  rw [List.toFinset_card_of_nodup hn, Finset.card_range, List.length_map] at hc
  exact hc

theorem mul_keys_le (p q : Sparse (Fl f)) (D E : Nat) (hp : ∀ e ∈ p.terms.entries, e.1 ≤ D)
    (hq : ∀ e ∈ q.terms.entries, e.1 ≤ E) : ∀ e ∈ (p.mul q).terms.entries, e.1 ≤ D + E := by
  intro e he
  have h1 : (p.mul q).terms.get e.1 ≠ none := by rw [(BMap.mem_entries _ e.1 e.2).1 he]; simp
  obtain ⟨i, j, h2, h3, c, h4, _⟩ := (C85_mul_keys p q e.1).1 h1
  obtain ⟨x, hx⟩ := Option.ne_none_iff_exists'.1 h3
  have a1 := hp (i, x) ((BMap.mem_entries _ _ _).2 hx)
  have a2 := hq (j, c) ((BMap.mem_entries _ _ _).2 h4)
  simp only at a1 a2
  omega

/-- `0.1 x^7 - 3` in binary64. -/
def exTenthS : Sparse (Fl binary64) :=
  ⟨(BMap.empty.insert 0 (-ofNat 3)).insert 7 (.fin false (7205759403792794 * 2 ^ 1018))⟩

/-- C89: the same for sparse polynomials whose stored degrees are at most `d`. -/
theorem C89_sparse_pow_error (p : Sparse (Fl f)) (n d : Nat) (hd : ∀ e ∈ p.terms.entries, e.1 ≤ d)
    (hr : (p.pow n).AllFinite) (μ : ℚ) (h0 : 0 < μ) (h1 : μ ≤ 1)
    (hμ : ∀ e ∈ p.terms.entries, e.2.toRat ≠ 0 → μ ≤ |e.2.toRat|) (hn : minNormal f ≤ μ ^ n) (k : Nat) :
    |((p.pow n).ratPoly - p.ratPoly ^ n).coeff k| ≤
      ((1 + uro f) ^ powRounds n d - 1) * (p.absPoly ^ n).coeff k := by
  set P := p.ratPoly with hP
  set A := p.absPoly with hA
  have hu := uro_nonneg (f := f)
  have hPA : ∀ k, |P.coeff k| ≤ A.coeff k := fun k => (coeff_sparse_abs _ k).ge
  have hA1 : ∀ k, 0 ≤ A.coeff k ∧ (A.coeff k ≠ 0 → μ ≤ A.coeff k) := by
    intro k
    rw [hA, coeff_abs]
    cases hc : p.terms.get k with
    | none => simp
    | some c => exact ⟨abs_nonneg _, fun h => hμ (k, c) ((BMap.mem_entries _ _ _).2 hc) (by simpa using h)⟩
  have hAp := coeff_pow_ge h0.le hA1
  have hτ : ∀ i, i ≤ n → ∀ k, (A ^ i).coeff k ≠ 0 → eta f ≤ uro f * (A ^ i).coeff k := by
    intro i hi k hk
    rw [eta_eq]
    refine mul_le_mul_of_nonneg_left (hn.trans ((pow_le_pow_of_le_one h0.le h1 hi).trans ((hAp i k).2 hk))) hu
  set K := 2 * n * d + 3 with hK
  have hmul : ∀ (a b : Sparse (Fl f)) (i j : Nat), 1 ≤ i → 1 ≤ j → i + j ≤ n →
      (∀ e ∈ a.terms.entries, e.1 ≤ i * d) → (∀ e ∈ b.terms.entries, e.1 ≤ j * d) →
      (∀ k, |(a.ratPoly - P ^ i).coeff k| ≤ ((1 + uro f) ^ ((i - 1) * K) - 1) * (A ^ i).coeff k) →
      (∀ k, |(b.ratPoly - P ^ j).coeff k| ≤ ((1 + uro f) ^ ((j - 1) * K) - 1) * (A ^ j).coeff k) →
      (a.mul b).AllFinite →
      (∀ e ∈ (a.mul b).terms.entries, e.1 ≤ (i + j) * d) ∧
      ∀ k, |((a.mul b).ratPoly - P ^ (i + j)).coeff k| ≤
        ((1 + uro f) ^ ((i + j - 1) * K) - 1) * (A ^ (i + j)).coeff k := by
    intro a b i j hi hj hij hla hlb ha hb hf
    refine ⟨?_, fun k => ?_⟩
    · rw [Nat.add_mul]
      exact mul_keys_le a b _ _ hla hlb
    · rw [pow_add, pow_add]
      have hb1 : b.terms.entries.length ≤ n * d + 1 := by
        refine (entries_length _ _ hlb).trans ?_
        have : j * d ≤ n * d := Nat.mul_le_mul_right _ (by omega)
        omega
      have hW0 : ∀ k, 0 ≤ (a.absPoly * b.absPoly).coeff k := fun k =>
        (abs_nonneg _).trans (coeff_mul_le (U := a.ratPoly) (W := b.ratPoly)
          (fun k => (coeff_sparse_abs _ k).ge) (fun k => (coeff_sparse_abs _ k).ge) k)
      have := combine (f := f) (Z := (a.mul b).ratPoly) rfl ((i - 1) * K) ((j - 1) * K) (n * d + 1) ha
        (coeff_pow_le hPA i) hb (coeff_pow_le hPA j)
        (fun V V' hV hV' k => coeff_mul_le (fun k => by rw [coeff_sparse_abs, abs_abs]; exact hV k)
          (fun k => by rw [coeff_sparse_abs, abs_abs]; exact hV' k) k) hW0
        (fun k => (sparse_mul_err a b hf k).trans (prodErr_mono hb1 (hW0 k)))
        (fun k hk => by rw [← pow_add] at hk ⊢; exact hτ (i + j) hij k hk) k
      refine this.trans (le_of_eq ?_)
      have e1 : (i - 1) * K + (j - 1) * K + (2 * (n * d + 1) + 1) = (i + j - 1) * K := by
        obtain ⟨i, rfl⟩ := Nat.exists_eq_add_of_le' hi
        obtain ⟨j, rfl⟩ := Nat.exists_eq_add_of_le' hj
        have : i + 1 + (j + 1) - 1 = i + j + 1 := by omega
        rw [this, hK]
        simp only [Nat.add_sub_cancel]
        ring
      rw [e1]
  have hsq : ∀ h : Sparse (Fl f), h.pow 2 = h.mul h := fun h => by
    rw [Sparse.pow, if_neg (by norm_num), if_neg (by norm_num), if_pos rfl]
  have main : ∀ i, 1 ≤ i → i ≤ n → (p.pow i).AllFinite →
      (∀ e ∈ (p.pow i).terms.entries, e.1 ≤ i * d) ∧ ∀ k, |((p.pow i).ratPoly - P ^ i).coeff k| ≤
        ((1 + uro f) ^ ((i - 1) * K) - 1) * (A ^ i).coeff k := by
    have hone : (∀ e ∈ p.terms.entries, e.1 ≤ 1 * d) ∧ ∀ k, |(p.ratPoly - P ^ 1).coeff k| ≤
        ((1 + uro f) ^ ((1 - 1) * K) - 1) * (A ^ 1).coeff k := by
      refine ⟨by simpa using hd, fun k => ?_⟩
      rw [pow_one, ← hP]; simp
    have hempty : p.terms.entries = [] → ∀ i, 1 ≤ i → (p.pow i).AllFinite := by
      intro he i
      have hx : ∀ q : Sparse (Fl f), (p.mul q).AllFinite := by
        intro q e hee
        have h1 : (p.mul q).terms.get e.1 ≠ none := by rw [(BMap.mem_entries _ e.1 e.2).1 hee]; simp
        obtain ⟨i, j, _, h3, _⟩ := (C85_mul_keys p q e.1).1 h1
        obtain ⟨x, hx⟩ := Option.ne_none_iff_exists'.1 h3
        have := (BMap.mem_entries _ _ _).2 hx
        rw [he] at this; cases this
      have hnil : ∀ i, 1 ≤ i → (p.pow i).terms.entries = [] := by
        have hmulnil : ∀ a b : Sparse (Fl f), a.terms.entries = [] → (a.mul b).terms.entries = [] := by
          intro a b ha
          by_contra hne
          obtain ⟨e, hee⟩ := List.exists_mem_of_ne_nil _ hne
          have h1 : (a.mul b).terms.get e.1 ≠ none := by rw [(BMap.mem_entries _ e.1 e.2).1 hee]; simp
          obtain ⟨i, j, _, h3, _⟩ := (C85_mul_keys a b e.1).1 h1
          obtain ⟨x, hx⟩ := Option.ne_none_iff_exists'.1 h3
          have := (BMap.mem_entries _ _ _).2 hx
          rw [ha] at this; cases this
        intro i
        induction i using Nat.strong_induction_on with
        | _ i ih =>
          intro hi
          rw [Sparse.pow, if_neg (by omega)]
          by_cases i1 : i = 1
          · rw [if_pos i1]; exact he
          rw [if_neg i1]
          by_cases i2 : i = 2
          · rw [if_pos i2]; exact hmulnil _ _ he
          rw [if_neg i2]
          split
          · rw [hsq]; exact hmulnil _ _ (ih _ (by omega) (by omega))
          · exact hmulnil _ _ he
      intro hi e hee
      rw [hnil i hi] at hee; cases hee
    intro i
    induction i using Nat.strong_induction_on with
    | _ i ih =>
      intro hi hin hr
      rw [Sparse.pow, if_neg (by omega)] at hr ⊢
      by_cases i1 : i = 1
      · subst i1
        rw [if_pos rfl]
        exact hone
      rw [if_neg i1] at hr ⊢
      by_cases i2 : i = 2
      · subst i2
        rw [if_pos rfl] at hr ⊢
        exact hmul p p 1 1 le_rfl le_rfl hin hone.1 hone.1 hone.2 hone.2 hr
      rw [if_neg i2] at hr ⊢
      split
      · rename_i he
        rw [if_pos he, hsq] at hr
        rw [hsq]
        obtain ⟨h2, h3⟩ := ih (i / 2) (by omega) (by omega) (by omega) (sparse_sq_finite _ hr)
        have := hmul _ _ (i / 2) (i / 2) (by omega) (by omega) (by omega) h2 h2 h3 h3 hr
        rwa [show i / 2 + i / 2 = i by omega] at this
      · rename_i he
        rw [if_neg he] at hr
        have hqf : (p.pow (i - 1)).AllFinite := by
          by_cases hpe : p.terms.entries = []
          · exact hempty hpe _ (by omega)
          · exact sparse_right_finite _ _ hpe hr
        obtain ⟨h2, h3⟩ := ih (i - 1) (by omega) (by omega) (by omega) hqf
        have := hmul p _ 1 (i - 1) le_rfl (by omega) (by omega) hone.1 h2 hone.2 h3 hr
        rwa [show 1 + (i - 1) = i by omega] at this
  by_cases n0 : n = 0
  · subst n0
    have hg : ∀ k, (BMap.empty.insert 0 (1 : Fl f)).get k = if k = 0 then some 1 else none := by
      intro k
      rw [BMap.get_insert]
      split <;> rfl
    have : (p.pow 0).ratPoly = P ^ 0 := by
      ext k
      rw [Sparse.pow, if_pos rfl, coeff_rat, pow_zero]
      change (match (BMap.empty.insert 0 (1 : Fl f)).get k with | none => 0 | some c => c.toRat) = _
      rw [hg, coeff_one]
      by_cases hk0 : k = 0 <;> simp [hk0, toRat_one]
    rw [this]
    simp [powRounds]
  · exact (main n (by omega) le_rfl hr).2 k

-- `(0.1 x^7 - 3)^3`
example : (∀ e ∈ exTenthS.terms.entries, e.1 ≤ 7) ∧ (exTenthS.pow 3).AllFinite ∧
    (exTenthS.pow 3).terms.entries.map Prod.fst = [0, 7, 14, 21] ∧
    (∀ e ∈ exTenthS.terms.entries, e.2.toRat ≠ 0 → 1 / 16 ≤ |e.2.toRat|) :=
  ⟨by decide +kernel, by unfold Sparse.AllFinite; decide +kernel, by decide +kernel, by decide +kernel⟩

end Fl
end Rustnomial
