import Verif.SpecFloatExpr
import Verif.Props.Expr
import Verif.Props.FloatHistory
import Verif.Props.FloatPow
import Verif.Props.Stored

/-!
# C120: any expression in floating point
-/

set_option linter.unusedSectionVars false

open Polynomial

namespace Rustnomial
namespace Fl
variable {f : FlFmt}

/-! ## Values known up to roundings -/

/-- `X` is `P` up to `n` roundings relative to `A`, which bounds `P`. -/
def Near (f : FlFmt) (n : Nat) (X P A : ℚ[X]) : Prop :=
  (∀ k, |P.coeff k| ≤ A.coeff k) ∧ ∀ k, |(X - P).coeff k| ≤ ((1 + uro f) ^ n - 1) * A.coeff k

theorem Near.nonneg {n : Nat} {X P A : ℚ[X]} (h : Near f n X P A) (k : Nat) : 0 ≤ A.coeff k := (abs_nonneg _).trans (h.1 k)

theorem one_le_rounds (n : Nat) : 1 ≤ (1 + uro f) ^ n := one_le_pow₀ (by have := uro_nonneg (f := f); linarith)

theorem rounds_mono {m n : Nat} (h : m ≤ n) : (1 + uro f) ^ m ≤ (1 + uro f) ^ n :=
  pow_le_pow_right₀ (by have := uro_nonneg (f := f); linarith) h

theorem Near.mono {m n : Nat} (hmn : m ≤ n) {X P A : ℚ[X]} (h : Near f m X P A) : Near f n X P A :=
  ⟨h.1, fun k => (h.2 k).trans (mul_le_mul_of_nonneg_right (by have := rounds_mono (f := f) hmn; linarith) (h.nonneg k))⟩

theorem Near.le {n : Nat} {X P A : ℚ[X]} (h : Near f n X P A) (k : Nat) : |X.coeff k| ≤ (1 + uro f) ^ n * A.coeff k := by
  have h1 := h.1 k
  have h2 := h.2 k
  rw [coeff_sub] at h2
  have : |X.coeff k| ≤ |X.coeff k - P.coeff k| + |P.coeff k| := by
    simpa using abs_add_le (X.coeff k - P.coeff k) (P.coeff k)
  linarith

theorem Near.neg {n : Nat} {X P A : ℚ[X]} (h : Near f n X P A) : Near f n (-X) (-P) A := by
  refine ⟨fun k => by rw [coeff_neg, abs_neg]; exact h.1 k, fun k => ?_⟩
  rw [show -X - -P = -(X - P) by ring, coeff_neg, abs_neg]
  exact h.2 k

theorem Near.add {n : Nat} {X P A Y Q B Z : ℚ[X]} (h : Near f n X P A) (h' : Near f n Y Q B)
    (hZ : ∀ k, |(Z - (X + Y)).coeff k| ≤ uro f * |(X + Y).coeff k|) : Near f (n + 1) Z (P + Q) (A + B) := by
  have hu := uro_nonneg (f := f)
  refine ⟨fun k => ?_, fun k => ?_⟩
  · rw [coeff_add, coeff_add]
    exact (abs_add_le _ _).trans (add_le_add (h.1 k) (h'.1 k))
  · have h1 := h.2 k
    have h2 := h'.2 k
    have h3 := hZ k
    have h4 : |(X + Y).coeff k| ≤ (1 + uro f) ^ n * (A + B).coeff k := by
      rw [coeff_add, coeff_add, mul_add]
      exact (abs_add_le _ _).trans (add_le_add (h.le k) (h'.le k))
    have h5 : |(Z - (P + Q)).coeff k| ≤ |(Z - (X + Y)).coeff k| + |(X - P).coeff k| + |(Y - Q).coeff k| := by
      rw [show Z - (P + Q) = (Z - (X + Y)) + (X - P) + (Y - Q) by ring, coeff_add, coeff_add]
      exact (abs_add_le _ _).trans (add_le_add_left (abs_add_le _ _) _)
    have h6 := mul_le_mul_of_nonneg_left h4 hu
    rw [pow_succ]
    rw [coeff_add A B] at h6 ⊢
    nlinarith

theorem Near.sub {n : Nat} {X P A Y Q B Z : ℚ[X]} (h : Near f n X P A) (h' : Near f n Y Q B)
    (hZ : ∀ k, |(Z - (X - Y)).coeff k| ≤ uro f * |(X - Y).coeff k|) : Near f (n + 1) Z (P - Q) (A + B) := by
  rw [sub_eq_add_neg]
  exact h.add h'.neg fun k => by rw [← sub_eq_add_neg]; exact hZ k

theorem Near.scale {n : Nat} {X P A Z : ℚ[X]} {c : ℚ} (h : Near f n X P A) (hn : NormalCoeffs f (C |c| * A))
    (hZ : ∀ k, |Z.coeff k - X.coeff k * c| ≤ uro f * |X.coeff k * c| + if X.coeff k * c = 0 then 0 else eta f) :
    Near f (n + 2) Z (C c * P) (C |c| * A) := by
  have hu := uro_nonneg (f := f)
  refine ⟨fun k => ?_, fun k => ?_⟩
  · rw [coeff_C_mul, coeff_C_mul, abs_mul]
    exact mul_le_mul_of_nonneg_left (h.1 k) (abs_nonneg _)
  · have h1 := h.2 k
    have h2 := h.le k
    have h3 := hZ k
    have hk := hn k
    rw [coeff_C_mul] at hk
    rw [coeff_sub] at h1 ⊢
    rw [coeff_C_mul, coeff_C_mul]
    have hA : 0 ≤ |c| * A.coeff k := mul_nonneg (abs_nonneg _) (h.nonneg k)
    have h4 : |X.coeff k * c| ≤ (1 + uro f) ^ n * (|c| * A.coeff k) := by
      rw [abs_mul]
      nlinarith [abs_nonneg c]
    have h5 : |Z.coeff k - c * P.coeff k| ≤ |Z.coeff k - X.coeff k * c| + |c| * |X.coeff k - P.coeff k| := by
      rw [← abs_mul, show Z.coeff k - c * P.coeff k = (Z.coeff k - X.coeff k * c) + c * (X.coeff k - P.coeff k) by ring]
      exact abs_add_le _ _
    have h6 : (if X.coeff k * c = 0 then 0 else eta f) ≤ uro f * (|c| * A.coeff k) := by
      split_ifs with h0
      · exact mul_nonneg hu hA
      · rw [eta_eq]
        refine mul_le_mul_of_nonneg_left (hk fun h7 => h0 ?_) hu
        rw [h7, mul_zero] at h4
        exact abs_nonpos_iff.1 h4
    have h7 : |c| * |X.coeff k - P.coeff k| ≤ ((1 + uro f) ^ n - 1) * (|c| * A.coeff k) := by
      nlinarith [mul_le_mul_of_nonneg_left h1 (abs_nonneg c)]
    have h8 := mul_le_mul_of_nonneg_left h4 hu
    have h9 : ((1 + uro f) ^ n - 1) * (|c| * A.coeff k) + uro f * ((1 + uro f) ^ n * (|c| * A.coeff k)) + uro f * (|c| * A.coeff k) ≤
        ((1 + uro f) ^ (n + 2) - 1) * (|c| * A.coeff k) := by
      have h10 := one_le_rounds (f := f) n
      have h11 : (1 + uro f) ^ n - 1 + uro f * (1 + uro f) ^ n + uro f ≤ (1 + uro f) ^ (n + 2) - 1 := by
        rw [pow_add]
        nlinarith [mul_nonneg hu hu, mul_nonneg (mul_nonneg hu hu) (by linarith : 0 ≤ (1 + uro f) ^ n), mul_le_mul_of_nonneg_left h10 hu]
      nlinarith [mul_le_mul_of_nonneg_right h11 hA]
    linarith

theorem Near.shift {n : Nat} {X P A : ℚ[X]} (h : Near f n X P A) (j : Nat) :
    Near f n (X * Polynomial.X ^ j) (P * Polynomial.X ^ j) (A * Polynomial.X ^ j) := by
  refine ⟨fun k => ?_, fun k => ?_⟩
  · rw [coeff_mul_X_pow', coeff_mul_X_pow']
    split_ifs
    · exact h.1 _
    · simp
  · rw [← sub_mul, coeff_mul_X_pow', coeff_mul_X_pow']
    split_ifs
    · exact h.2 _
    · simp

theorem Near.mul {a b m : Nat} {X P A Y Q B W Z : ℚ[X]} (h : Near f a X P A) (h' : Near f b Y Q B)
    (hn : NormalCoeffs f (A * B))
    (hW : ∀ V V' : ℚ[X], (∀ k, |X.coeff k| ≤ V.coeff k) → (∀ k, |Y.coeff k| ≤ V'.coeff k) →
      ∀ k, |W.coeff k| ≤ (V * V').coeff k) (hW0 : ∀ k, 0 ≤ W.coeff k)
    (hZ : ∀ k, |(Z - X * Y).coeff k| ≤ prodErr f m (W.coeff k)) : Near f (a + b + (2 * m + 1)) Z (P * Q) (A * B) :=
  ⟨coeff_mul_le h.1 h'.1, combine rfl a b m h.2 h.1 h'.2 h'.1 hW hW0 hZ fun k hk => by
    rw [eta_eq]
    exact mul_le_mul_of_nonneg_left (hn k hk) uro_nonneg⟩

/-! ## Dense -/

theorem dense_mul_near {a b m : Nat} {x y r : Poly (Fl f)} {P A Q B : ℚ[X]} (h : Near f a (descPoly (x.terms.map toRat)) P A)
    (h' : Near f b (descPoly (y.terms.map toRat)) Q B) (hm : y.terms.length ≤ m) (hn : NormalCoeffs f (A * B))
    (hr : x.mul y = .ok r ∨ x.mulRef y = .ok r)
    (hf : ∀ c ∈ r.terms, c.isFinite = true) :
    Near f (a + b + (2 * m + 1)) (descPoly (r.terms.map toRat)) (P * Q) (A * B) ∧
      r.terms.length ≤ x.terms.length + y.terms.length - 1 := by
  obtain ⟨out, hout, hf', e1, e2⟩ : ∃ out, sliceMul x.terms y.terms = .ok out ∧ (∀ c ∈ out, c.isFinite = true) ∧
      descPoly (r.terms.map toRat) = descPoly (out.map toRat) ∧ r.terms.length ≤ out.length := by
    have key : ∀ out, sliceMul x.terms y.terms = .ok out → r = ⟨out⟩ ∨ r = Poly.new out →
        ∃ out, sliceMul x.terms y.terms = .ok out ∧ (∀ c ∈ out, c.isFinite = true) ∧
          descPoly (r.terms.map toRat) = descPoly (out.map toRat) ∧ r.terms.length ≤ out.length := by
      rintro out h (rfl | rfl)
      · exact ⟨out, h, hf, rfl, le_rfl⟩
      rw [new_terms] at hf ⊢
      exact ⟨out, h, finite_of_dropWhile hf, descPoly_dropWhile_toRat _ toRat_fin_zero _, (List.dropWhile_suffix _).length_le⟩
    rcases hr with hr | hr
    · obtain ⟨out, h1, e⟩ := Res.bind_eq_ok.1 hr
      exact key out h1 (by cases e; exact .inl rfl)
    · obtain ⟨out, h1, e⟩ := Res.bind_eq_ok.1 hr
      exact key out h1 (by cases e; exact .inr rfl)
  have hW0 : ∀ k, 0 ≤ (descPoly (x.terms.map fun c => |c.toRat|) * descPoly (y.terms.map fun c => |c.toRat|)).coeff k := fun k =>
    (abs_nonneg _).trans (coeff_mul_le (U := descPoly (x.terms.map toRat)) (W := descPoly (y.terms.map toRat))
      (fun k => (coeff_dense_abs _ k).ge) (fun k => (coeff_dense_abs _ k).ge) k)
  refine ⟨?_, ?_⟩
  · rw [e1]
    exact h.mul h' hn (fun V V' hV hV' k => coeff_mul_le (fun k => by rw [coeff_dense_abs, abs_abs]; exact hV k)
      (fun k => by rw [coeff_dense_abs, abs_abs]; exact hV' k) k) hW0
      fun k => (sliceMul_err hout hf' k).trans (prodErr_mono hm (hW0 k))
  · have := sliceMul_length hout
    omega


theorem dense_pow_near {a L n : Nat} {x r : Poly (Fl f)} {P A : ℚ[X]} (h : Near f a (descPoly (x.terms.map toRat)) P A)
    (hL : x.terms.length ≤ L) (hn : ∀ m, 2 ≤ m → m ≤ n → NormalCoeffs f (A ^ m)) (hr : x.pow n = .ok r)
    (hf : ∀ c ∈ r.terms, c.isFinite = true) :
    Near f (n * a + powRounds n (L - 1)) (descPoly (r.terms.map toRat)) (P ^ n) (A ^ n) ∧ r.terms.length ≤ n * (L - 1) + 1 := by
  set d := L - 1 with hd
  set K := 2 * n * d + 3 with hK
  have hmul : ∀ (p q c : Poly (Fl f)) (i j : Nat), 1 ≤ i → 1 ≤ j → i + j ≤ n →
      Near f (i * a + (i - 1) * K) (descPoly (p.terms.map toRat)) (P ^ i) (A ^ i) ∧ p.terms.length ≤ i * d + 1 →
      Near f (j * a + (j - 1) * K) (descPoly (q.terms.map toRat)) (P ^ j) (A ^ j) ∧ q.terms.length ≤ j * d + 1 →
      p.mulRef q = .ok c → (∀ x ∈ c.terms, x.isFinite = true) →
      Near f ((i + j) * a + (i + j - 1) * K) (descPoly (c.terms.map toRat)) (P ^ (i + j)) (A ^ (i + j)) ∧
        c.terms.length ≤ (i + j) * d + 1 := by
    intro p q c i j hi hj hij hp hq hc hcf
    have hb1 : q.terms.length ≤ n * d + 1 := by
      refine hq.2.trans ?_
      have : j * d ≤ n * d := Nat.mul_le_mul_right _ (by omega)
      omega
    obtain ⟨h1, h2⟩ := dense_mul_near hp.1 hq.1 hb1 (by rw [← pow_add]; exact hn _ (by omega) hij) (.inr hc) hcf
    rw [← pow_add, ← pow_add] at h1
    refine ⟨h1.mono (le_of_eq ?_), ?_⟩
    · obtain ⟨i, rfl⟩ := Nat.exists_eq_add_of_le' hi
      obtain ⟨j, rfl⟩ := Nat.exists_eq_add_of_le' hj
      have : i + 1 + (j + 1) - 1 = i + j + 1 := by omega
      rw [this, hK]
      simp only [Nat.add_sub_cancel]
      ring
    · have h3 := hp.2
      have h4 := hq.2
      have : (i + j) * d = i * d + j * d := by ring
      omega
  have hone : Near f (1 * a + (1 - 1) * K) (descPoly (x.terms.map toRat)) (P ^ 1) (A ^ 1) ∧ x.terms.length ≤ 1 * d + 1 := by
    rw [pow_one, pow_one]
    exact ⟨h.mono (by omega), by omega⟩
  have main : ∀ i, 1 ≤ i → i ≤ n → ∀ r : Poly (Fl f), x.pow i = .ok r → (∀ c ∈ r.terms, c.isFinite = true) →
      Near f (i * a + (i - 1) * K) (descPoly (r.terms.map toRat)) (P ^ i) (A ^ i) ∧ r.terms.length ≤ i * d + 1 := by
    intro i
    induction i using Nat.strong_induction_on with
    | _ i ih =>
      intro hi hin r h hr
      rw [Poly.pow, if_neg (by omega)] at h
      by_cases i1 : i = 1
      · subst i1
        rw [if_pos rfl] at h
        cases h
        rw [new_terms, descPoly_dropWhile_toRat _ toRat_fin_zero]
        exact ⟨hone.1, (List.dropWhile_suffix (l := x.terms) isZero).length_le.trans hone.2⟩
      rw [if_neg i1] at h
      by_cases i2 : i = 2
      · subst i2
        rw [if_pos rfl] at h
        exact hmul x x r 1 1 le_rfl le_rfl hin hone hone h hr
      rw [if_neg i2] at h
      split at h
      · obtain ⟨q, hq, h⟩ := Res.bind_eq_ok.1 h
        rw [Poly.pow, if_neg (by norm_num), if_neg (by norm_num), if_pos rfl] at h
        have hqf : ∀ c ∈ q.terms, c.isFinite = true := by
          obtain ⟨out, h1, e⟩ := Res.bind_eq_ok.1 h
          cases e
          rw [new_terms] at hr
          obtain ⟨h2, h3⟩ := sliceMul_ok h1
          refine (h3 (finite_of_dropWhile hr)).1 fun h0 => ?_
          rw [h0] at h2
          simp at h2
        have h2 := ih (i / 2) (by omega) (by omega) (by omega) q hq hqf
        have := hmul q q r (i / 2) (i / 2) (by omega) (by omega) (by omega) h2 h2 h hr
        rwa [show i / 2 + i / 2 = i by omega] at this
      · obtain ⟨q, hq, h⟩ := Res.bind_eq_ok.1 h
        have hpz := pow_ok_nonzero x (i - 1) q (by omega) hq
        have hqf : ∀ c ∈ q.terms, c.isFinite = true := by
          obtain ⟨out, h1, e⟩ := Res.bind_eq_ok.1 h
          cases e
          rw [new_terms] at hr
          exact ((sliceMul_ok h1).2 (finite_of_dropWhile hr)).1 hpz
        have h2 := ih (i - 1) (by omega) (by omega) (by omega) q hq hqf
        have := hmul x q r 1 (i - 1) le_rfl (by omega) (by omega) hone h2 h hr
        rwa [show 1 + (i - 1) = i by omega] at this
  by_cases n0 : n = 0
  · subst n0
    rw [Poly.pow, if_pos rfl] at hr
    cases hr
    refine ⟨⟨fun k => ?_, fun k => ?_⟩, by simp⟩
    · rw [pow_zero, pow_zero, coeff_one]
      split <;> simp
    · simp [descPoly_cons, toRat_one, powRounds]
  · exact main n (by omega) le_rfl r hr hf

/-- What the operators `o` of a type do in floating point; `val` is the exact polynomial of a value, `len` bounds the number of its
coefficients. -/
structure FloatComputes {V : Type} (o : ROps V (Fl f)) (val : V → ℚ[X]) (fin : V → Prop) (len : V → Nat → Prop) : Prop where
  lit : ∀ cs, (∀ c ∈ cs, c.isFinite = true) → val (o.lit cs) = descPoly (cs.map toRat) ∧ len (o.lit cs) cs.length
  neg : ∀ x r L, len x L → o.neg x = .ok r → val r = -val x ∧ len r L
  add : ∀ x y r L M, len x L → len y M → o.add x y = .ok r → fin r →
    (∀ k, |(val r - (val x + val y)).coeff k| ≤ uro f * |(val x + val y).coeff k|) ∧ len r (max L M)
  sub : ∀ x y r L M, len x L → len y M → o.sub x y = .ok r → fin r →
    (∀ k, |(val r - (val x - val y)).coeff k| ≤ uro f * |(val x - val y).coeff k|) ∧ len r (max L M)
  mul : ∀ x y r L M a b P A Q B, len x L → len y M → Near f a (val x) P A → Near f b (val y) Q B → NormalCoeffs f (A * B) →
    o.mul x y = .ok r → fin r → Near f (a + b + (2 * M + 1)) (val r) (P * Q) (A * B) ∧ len r (L + M - 1)
  pow : ∀ x r L n a P A, len x L → Near f a (val x) P A → (∀ m, 2 ≤ m → m ≤ n → NormalCoeffs f (A ^ m)) →
    o.pow x n = .ok r → fin r → Near f (n * a + powRounds n (L - 1)) (val r) (P ^ n) (A ^ n) ∧ len r (n * (L - 1) + 1)
  scale : ∀ x c r L, len x L → o.scale x c = .ok r → fin r →
    (∀ k, |(val r).coeff k - (val x).coeff k * c.toRat| ≤
      uro f * |(val x).coeff k * c.toRat| + if (val x).coeff k * c.toRat = 0 then 0 else eta f) ∧ len r L
  shl : ∀ x r L (k : Nat), len x L → o.shl x k = .ok r → val r = val x * X ^ k ∧ len r (L + k)

theorem mem_parts_self {N : Type} (e : RExpr N) : e ∈ e.parts := by cases e <;> simp [RExpr.parts]

theorem FloatComputes.run {V : Type} {o : ROps V (Fl f)} {val : V → ℚ[X]} {fin : V → Prop} {len : V → Nat → Prop}
    (K : FloatComputes o val fin len) : ∀ (e : RExpr (Fl f)) (r : V), e.run o = .ok r → e.AllValues o fin →
      e.Numbers (fun c => c.isFinite = true) → (e.map toRat).Normal f →
      Near f e.rounds (val r) (e.map toRat).den (e.map toRat).major ∧ len r e.size
  | .lit cs, r, h, _, hn, _ => by
    cases h
    obtain ⟨h1, h2⟩ := K.lit cs hn
    refine ⟨⟨fun k => ?_, fun k => ?_⟩, h2⟩
    · simp only [RExpr.map, RExpr.den, RExpr.major, List.map_map]
      exact (coeff_dense_abs cs k).ge
    · simp [RExpr.map, RExpr.den, RExpr.rounds, h1]
  | .neg a, r, h, hf, hn, hm => by
    obtain ⟨x, hx, h⟩ := Res.bind_eq_ok.1 h
    obtain ⟨h1, h2⟩ := K.run a x hx (fun s hs => hf s (by simp [RExpr.parts, hs])) hn hm
    obtain ⟨h3, h4⟩ := K.neg x r _ h2 h
    exact ⟨by rw [h3]; exact h1.neg, h4⟩
  | .add a b, r, h, hf, hn, hm => by
    have hr := hf _ (mem_parts_self _) r h
    obtain ⟨x, hx, h⟩ := Res.bind_eq_ok.1 h
    obtain ⟨y, hy, h⟩ := Res.bind_eq_ok.1 h
    obtain ⟨h1, h2⟩ := K.run a x hx (fun s hs => hf s (by simp [RExpr.parts, hs])) hn.1 hm.1
    obtain ⟨h3, h4⟩ := K.run b y hy (fun s hs => hf s (by simp [RExpr.parts, hs])) hn.2 hm.2
    obtain ⟨h5, h6⟩ := K.add x y r _ _ h2 h4 h hr
    exact ⟨(h1.mono (le_max_left _ _)).add (h3.mono (le_max_right _ _)) h5, h6⟩
  | .sub a b, r, h, hf, hn, hm => by
    have hr := hf _ (mem_parts_self _) r h
    obtain ⟨x, hx, h⟩ := Res.bind_eq_ok.1 h
    obtain ⟨y, hy, h⟩ := Res.bind_eq_ok.1 h
    obtain ⟨h1, h2⟩ := K.run a x hx (fun s hs => hf s (by simp [RExpr.parts, hs])) hn.1 hm.1
    obtain ⟨h3, h4⟩ := K.run b y hy (fun s hs => hf s (by simp [RExpr.parts, hs])) hn.2 hm.2
    obtain ⟨h5, h6⟩ := K.sub x y r _ _ h2 h4 h hr
    exact ⟨(h1.mono (le_max_left _ _)).sub (h3.mono (le_max_right _ _)) h5, h6⟩
  | .mul a b, r, h, hf, hn, hm => by
    have hr := hf _ (mem_parts_self _) r h
    obtain ⟨x, hx, h⟩ := Res.bind_eq_ok.1 h
    obtain ⟨y, hy, h⟩ := Res.bind_eq_ok.1 h
    obtain ⟨h1, h2⟩ := K.run a x hx (fun s hs => hf s (by simp [RExpr.parts, hs])) hn.1 hm.1
    obtain ⟨h3, h4⟩ := K.run b y hy (fun s hs => hf s (by simp [RExpr.parts, hs])) hn.2 hm.2.1
    exact K.mul x y r _ _ _ _ _ _ _ _ h2 h4 h1 h3 hm.2.2 h hr
  | .pow a n, r, h, hf, hn, hm => by
    have hr := hf _ (mem_parts_self _) r h
    obtain ⟨x, hx, h⟩ := Res.bind_eq_ok.1 h
    obtain ⟨h1, h2⟩ := K.run a x hx (fun s hs => hf s (by simp [RExpr.parts, hs])) hn hm.1
    exact K.pow x r _ n _ _ _ h2 h1 hm.2 h hr
  | .scale a c, r, h, hf, hn, hm => by
    have hr := hf _ (mem_parts_self _) r h
    obtain ⟨x, hx, h⟩ := Res.bind_eq_ok.1 h
    obtain ⟨h1, h2⟩ := K.run a x hx (fun s hs => hf s (by simp [RExpr.parts, hs])) hn.1 hm.1
    obtain ⟨h3, h4⟩ := K.scale x c r _ h2 h hr
    exact ⟨h1.scale hm.2 h3, h4⟩
  | .shl a k, r, h, hf, hn, hm => by
    obtain ⟨x, hx, h⟩ := Res.bind_eq_ok.1 h
    obtain ⟨h1, h2⟩ := K.run a x hx (fun s hs => hf s (by simp [RExpr.parts, hs])) hn hm
    obtain ⟨h3, h4⟩ := K.shl x r _ k h2 h
    exact ⟨by rw [h3]; exact h1.shift k, h4⟩

/-- A product by a number, if finite: one rounding, and exact if zero. -/
theorem mul_scale_error {c a : Fl f} (h : (c * a).isFinite = true) :
    |(c * a).toRat - c.toRat * a.toRat| ≤ uro f * |c.toRat * a.toRat| + if c.toRat * a.toRat = 0 then 0 else eta f := by
  split_ifs with h0
  · rw [h0, toRat_mul_zero (mul_eq_zero.1 h0) h]; simp
  · exact mul_error h

theorem dense_computes : FloatComputes (f := f) denseOps (fun p => descPoly (p.terms.map toRat))
    (fun p => ∀ c ∈ p.terms, c.isFinite = true) (fun p L => p.terms.length ≤ L) where
  lit cs _ := by
    refine ⟨?_, ?_⟩
    · exact (C92_trim cs ⟨[]⟩ ⟨.empty⟩).1.2.2.2
    · show (Poly.new cs).terms.length ≤ _
      rw [new_terms]; exact (List.dropWhile_suffix _).length_le
  neg x r L hL h := by
    cases h
    exact ⟨C67_neg x, by simpa [Poly.neg] using hL⟩
  add x y r L M hL hM h hf := by
    obtain ⟨s, h1, h2⟩ := (C67_add x y).1
    rw [show x.add y = .ok r from h] at h1; cases h1
    refine ⟨h2 hf, ?_⟩
    have h : x.add y = .ok r := h
    unfold Poly.add at h
    split at h
    rename_i hs
    obtain ⟨t, h3, h4⟩ := Res.bind_eq_ok.1 h
    cases h4
    rw [new_terms]
    refine (List.dropWhile_suffix _).length_le.trans ?_
    unfold sliceFrom at h3
    rw [if_pos (Nat.sub_le _ _)] at h3
    cases h3
    rw [List.length_append, length_zipMut, List.length_take, List.length_drop]
    split at hs <;> cases hs <;> omega
  sub x y r L M hL hM h hf := by
    obtain ⟨s, h1, h2⟩ := (C67_sub x y).1
    rw [show x.sub y = .ok r from h] at h1; cases h1
    refine ⟨h2 hf, ?_⟩
    obtain ⟨s, h1, h3⟩ := (C101_sum_length x y 0).1
    rw [show x.sub y = .ok r from h] at h1; cases h1
    rw [h3]; exact max_le_max hL hM
  mul x y r L M a b P A Q B hL hM h1 h2 hn h hf := by
    obtain ⟨h3, h4⟩ := dense_mul_near h1 h2 hM hn (.inl h) hf
    exact ⟨h3, by omega⟩
  pow x r L n a P A hL h1 hn h hf := dense_pow_near h1 hL hn h hf
  scale x c r L hL h hf := by
    cases h
    refine ⟨fun k => ?_, ?_⟩
    · have h1 : descPoly ((x.mulScalar c).terms.map toRat) = descPoly ((x.terms.map fun x => x * c).map toRat) := by
        unfold Poly.mulScalar
        rw [new_terms, descPoly_dropWhile_toRat _ toRat_fin_zero]
      have h2 : ∀ y ∈ x.terms.map (fun x => x * c), y.isFinite = true := by
        unfold Poly.mulScalar at hf
        rw [new_terms] at hf
        exact finite_of_dropWhile hf
      rw [h1]
      rcases coeff_cases x.terms k with ⟨y, hy, e⟩ | e
      · rw [List.map_map, e, e]
        exact mul_scale_error (h2 _ (List.mem_map_of_mem hy))
      · rw [List.map_map, e, e]; simp
    · show (x.mulScalar c).terms.length ≤ L
      unfold Poly.mulScalar
      rw [new_terms]
      exact (List.dropWhile_suffix _).length_le.trans (by simpa using hL)
  shl x r L k hL h := by
    have h1 : x.shl k = .ok ⟨x.terms.dropWhile isZero ++ List.replicate k 0⟩ := by
      simp [Poly.shl, Poly.shlPos, sliceFrom, firstNonzeroIndex_le, drop_firstNonzeroIndex]
    rw [show x.shl k = .ok r from h] at h1; cases h1
    refine ⟨?_, ?_⟩
    · rw [List.map_append, List.map_replicate, show (0 : Fl f).toRat = 0 from toRat_fin_zero _, descPoly_append_zeros,
        descPoly_dropWhile_toRat _ toRat_fin_zero]
    · have := (List.dropWhile_suffix (l := x.terms) isZero).length_le
      simp only [List.length_append, List.length_replicate]
      omega

/-! ## Sparse -/

/-- All stored degrees are below `L`. -/
def DegreesBelow (p : Sparse (Fl f)) (L : Nat) : Prop := ∀ k, Stores p k → k < L

theorem degreesBelow_length {p : Sparse (Fl f)} {L : Nat} (h : DegreesBelow p L) : p.terms.entries.length ≤ L := by
  cases L with
  | zero =>
    cases he : p.terms.entries with
    | nil => simp
    | cons e l => exact absurd (h e.1 ⟨e.2, by rw [he]; simp⟩) (by omega)
  | succ L => exact entries_length _ L fun e he => by have := h e.1 ⟨e.2, he⟩; omega

theorem sparse_mul_near {a b m : Nat} {x y : Sparse (Fl f)} {P A Q B : ℚ[X]} (h : Near f a x.ratPoly P A)
    (h' : Near f b y.ratPoly Q B) (hm : y.terms.entries.length ≤ m) (hn : NormalCoeffs f (A * B)) (hf : (x.mul y).AllFinite) :
    Near f (a + b + (2 * m + 1)) (x.mul y).ratPoly (P * Q) (A * B) := by
  have hW0 : ∀ k, 0 ≤ (x.absPoly * y.absPoly).coeff k := fun k =>
    (abs_nonneg _).trans (coeff_mul_le (U := x.ratPoly) (W := y.ratPoly)
      (fun k => (coeff_sparse_abs _ k).ge) (fun k => (coeff_sparse_abs _ k).ge) k)
  exact h.mul h' hn (fun V V' hV hV' k => coeff_mul_le (fun k => by rw [coeff_sparse_abs, abs_abs]; exact hV k)
    (fun k => by rw [coeff_sparse_abs, abs_abs]; exact hV' k) k) hW0
    fun k => (sparse_mul_err x y hf k).trans (prodErr_mono hm (hW0 k))

theorem mul_below {x y : Sparse (Fl f)} {L M : Nat} (hx : DegreesBelow x L) (hy : DegreesBelow y M) :
    DegreesBelow (x.mul y) (L + M - 1) := by
  intro k hk
  obtain ⟨a, b, h1, ⟨v, h2, _⟩, rfl⟩ := (hasKey_mapMul x y k).1 hk
  have h3 := hx a h1
  have h4 := hy b ⟨v, h2⟩
  omega

theorem sparse_pow_near {a L n : Nat} {x : Sparse (Fl f)} {P A : ℚ[X]} (h : Near f a x.ratPoly P A)
    (hL : DegreesBelow x L) (hn : ∀ m, 2 ≤ m → m ≤ n → NormalCoeffs f (A ^ m)) (hf : (x.pow n).AllFinite) :
    Near f (n * a + powRounds n (L - 1)) (x.pow n).ratPoly (P ^ n) (A ^ n) ∧ DegreesBelow (x.pow n) (n * (L - 1) + 1) := by
  set d := L - 1 with hd
  set K := 2 * n * d + 3 with hK
  have hmul : ∀ (p q : Sparse (Fl f)) (i j : Nat), 1 ≤ i → 1 ≤ j → i + j ≤ n →
      Near f (i * a + (i - 1) * K) p.ratPoly (P ^ i) (A ^ i) ∧ DegreesBelow p (i * d + 1) →
      Near f (j * a + (j - 1) * K) q.ratPoly (P ^ j) (A ^ j) ∧ DegreesBelow q (j * d + 1) → (p.mul q).AllFinite →
      Near f ((i + j) * a + (i + j - 1) * K) (p.mul q).ratPoly (P ^ (i + j)) (A ^ (i + j)) ∧
        DegreesBelow (p.mul q) ((i + j) * d + 1) := by
    intro p q i j hi hj hij hp hq hcf
    have hb1 : q.terms.entries.length ≤ n * d + 1 := by
      refine (degreesBelow_length hq.2).trans ?_
      have : j * d ≤ n * d := Nat.mul_le_mul_right _ (by omega)
      omega
    have h1 := sparse_mul_near hp.1 hq.1 hb1 (by rw [← pow_add]; exact hn _ (by omega) hij) hcf
    rw [← pow_add, ← pow_add] at h1
    refine ⟨h1.mono (le_of_eq ?_), ?_⟩
    · obtain ⟨i, rfl⟩ := Nat.exists_eq_add_of_le' hi
      obtain ⟨j, rfl⟩ := Nat.exists_eq_add_of_le' hj
      have : i + 1 + (j + 1) - 1 = i + j + 1 := by omega
      rw [this, hK]
      simp only [Nat.add_sub_cancel]
      ring
    · have h2 := mul_below hp.2 hq.2
      have : (i + j) * d = i * d + j * d := by ring
      intro k hk
      have := h2 k hk
      omega
  have hone : Near f (1 * a + (1 - 1) * K) x.ratPoly (P ^ 1) (A ^ 1) ∧ DegreesBelow x (1 * d + 1) := by
    rw [pow_one, pow_one]
    exact ⟨h.mono (by omega), fun k hk => by have := hL k hk; omega⟩
  have hsq : ∀ h : Sparse (Fl f), h.pow 2 = h.mul h := fun h => by
    rw [Sparse.pow, if_neg (by norm_num), if_neg (by norm_num), if_pos rfl]
  have hempty : x.terms.entries = [] → ∀ i, 1 ≤ i → (x.pow i).AllFinite := by
    intro he i
    have hx : ∀ q : Sparse (Fl f), (x.mul q).AllFinite := by
      intro q e hee
      have h1 : (x.mul q).terms.get e.1 ≠ none := by rw [(BMap.mem_entries _ e.1 e.2).1 hee]; simp
      obtain ⟨i, j, _, h3, _⟩ := (C85_mul_keys x q e.1).1 h1
      obtain ⟨v, hv⟩ := Option.ne_none_iff_exists'.1 h3
      have := (BMap.mem_entries _ _ _).2 hv
      rw [he] at this; cases this
    have hnil : ∀ i, 1 ≤ i → (x.pow i).terms.entries = [] := by
      have hmulnil : ∀ a b : Sparse (Fl f), a.terms.entries = [] → (a.mul b).terms.entries = [] := by
        intro a b ha
        by_contra hne
        obtain ⟨e, hee⟩ := List.exists_mem_of_ne_nil _ hne
        have h1 : (a.mul b).terms.get e.1 ≠ none := by rw [(BMap.mem_entries _ e.1 e.2).1 hee]; simp
        obtain ⟨i, j, _, h3, _⟩ := (C85_mul_keys a b e.1).1 h1
        obtain ⟨v, hv⟩ := Option.ne_none_iff_exists'.1 h3
        have := (BMap.mem_entries _ _ _).2 hv
        rw [ha] at this; cases this
      intro i
      induction i using Nat.strong_induction_on with
      | _ i ih =>
        intro hi
        rw [Sparse.pow, if_neg (by omega)]
        by_cases i1 : i = 1
        · rw [if_pos i1]; exact he
        rw [if_neg i1]
        by_cases i2 : i = 2
        · rw [if_pos i2]; exact hmulnil _ _ he
        rw [if_neg i2]
        split
        · rw [hsq]; exact hmulnil _ _ (ih _ (by omega) (by omega))
        · exact hmulnil _ _ he
    intro hi e hee
    rw [hnil i hi] at hee; cases hee
  have main : ∀ i, 1 ≤ i → i ≤ n → (x.pow i).AllFinite →
      Near f (i * a + (i - 1) * K) (x.pow i).ratPoly (P ^ i) (A ^ i) ∧ DegreesBelow (x.pow i) (i * d + 1) := by
    intro i
    induction i using Nat.strong_induction_on with
    | _ i ih =>
      intro hi hin hr
      rw [Sparse.pow, if_neg (by omega)] at hr ⊢
      by_cases i1 : i = 1
      · subst i1
        rw [if_pos rfl]
        exact hone
      rw [if_neg i1] at hr ⊢
      by_cases i2 : i = 2
      · subst i2
        rw [if_pos rfl] at hr ⊢
        exact hmul x x 1 1 le_rfl le_rfl hin hone hone hr
      rw [if_neg i2] at hr ⊢
      split
      · rename_i he
        rw [if_pos he, hsq] at hr
        rw [hsq]
        have h2 := ih (i / 2) (by omega) (by omega) (by omega) (sparse_sq_finite _ hr)
        have := hmul _ _ (i / 2) (i / 2) (by omega) (by omega) (by omega) h2 h2 hr
        rwa [show i / 2 + i / 2 = i by omega] at this
      · rename_i he
        rw [if_neg he] at hr
        have hqf : (x.pow (i - 1)).AllFinite := by
          by_cases hpe : x.terms.entries = []
          · exact hempty hpe _ (by omega)
          · exact sparse_right_finite _ _ hpe hr
        have h2 := ih (i - 1) (by omega) (by omega) (by omega) hqf
        have := hmul x _ 1 (i - 1) le_rfl (by omega) (by omega) hone h2 hr
        rwa [show 1 + (i - 1) = i by omega] at this
  by_cases n0 : n = 0
  · subst n0
    have he : (x.pow 0).terms.entries = [(0, 1)] := by rw [Sparse.pow, if_pos rfl]; rfl
    refine ⟨⟨fun k => ?_, fun k => ?_⟩, ?_⟩
    · rw [pow_zero, pow_zero, coeff_one]
      split <;> simp
    · simp [Sparse.ratPoly, he, entriesPoly_cons, toRat_one, powRounds]
    · rintro k ⟨v, hv⟩
      rw [he] at hv
      simp at hv
      omega
  · exact main n (by omega) le_rfl hf

theorem shlPos_entries (p : Sparse (Fl f)) (k : Nat) :
    (p.shlPos k).terms.entries = p.terms.entries.map (fun e => (e.1 + k, e.2)) := by
  rw [← ofList_entries (p.terms.entries.map fun e => (e.1 + k, e.2))
    (by rw [List.pairwise_map]; exact p.terms.sorted.imp fun h => by simpa using h)]
  unfold Sparse.shlPos Sparse.new BMap.ofList
  rw [List.foldl_map]

theorem shlPos_ratPoly (p : Sparse (Fl f)) (k : Nat) : (p.shlPos k).ratPoly = p.ratPoly * X ^ k := by
  unfold Sparse.ratPoly
  rw [shlPos_entries]
  induction p.terms.entries with
  | nil => simp
  | cons e l ih =>
    rw [List.map_cons, List.map_cons, List.map_cons, entriesPoly_cons, entriesPoly_cons, ih, pow_add]
    ring

theorem sparse_computes : FloatComputes (f := f) sparseOps Sparse.ratPoly Sparse.AllFinite DegreesBelow where
  lit cs hc := by
    refine ⟨(C92_trim cs ⟨[]⟩ ⟨.empty⟩).2.2.2.2 hc, fun k hk => ?_⟩
    obtain ⟨v, _, h⟩ := (C101_sparse_build_entries ⟨.empty⟩ 0 0 k [] cs).2.2.2.1.1 hk
    obtain ⟨h, _⟩ := List.getElem?_eq_some_iff.1 h
    simpa using h
  neg x r L hL h := by
    cases h
    exact ⟨C85_neg x, fun k hk => hL k ((C101_sparse_sum_entries x x 0 k).2.2.2.1.1 hk)⟩
  add x y r L M hL hM h hf := by
    cases h
    refine ⟨(C85_add x y).1 hf, fun k hk => ?_⟩
    rcases (C101_sparse_sum_entries x y 0 k).1.1 hk with h | h
    · exact lt_max_of_lt_left (hL k h)
    · exact lt_max_of_lt_right (hM k h)
  sub x y r L M hL hM h hf := by
    cases h
    refine ⟨(C85_sub x y ⟨[]⟩).1 hf, fun k hk => ?_⟩
    rcases (C101_sparse_sum_entries x y 0 k).2.2.1.1 hk with h | h
    · exact lt_max_of_lt_left (hL k h)
    · exact lt_max_of_lt_right (hM k h)
  mul x y r L M a b P A Q B hL hM h1 h2 hn h hf := by
    cases h
    exact ⟨sparse_mul_near h1 h2 (degreesBelow_length hM) hn hf, mul_below hL hM⟩
  pow x r L n a P A hL h1 hn h hf := by
    cases h
    exact sparse_pow_near h1 hL hn hf
  scale x c r L hL h hf := by
    cases h
    refine ⟨fun k => ?_, fun k hk => hL k ((C101_sparse_sum_entries x x c k).2.2.2.2.1.1 hk)⟩
    exact insert_error (B := fun y => uro f * |y| + if y = 0 then 0 else eta f) (by simp) (· * c) (· * c.toRat) (by simp) x _
      (get_rebuild _ _) (fun c _ hc => mul_scale_error hc) hf k
  shl x r L k hL h := by
    have h1 : x.shl k = .ok (x.shlPos k) := by simp [Sparse.shl]
    rw [show x.shl k = .ok r from h] at h1; cases h1
    refine ⟨shlPos_ratPoly x k, fun j hj => ?_⟩
    obtain ⟨v, hv⟩ := hj
    rw [shlPos_entries] at hv
    obtain ⟨e, he, h2⟩ := List.mem_map.1 hv
    cases h2
    have := hL e.1 ⟨e.2, he⟩
    omega

/-- C120 (Polynomial): if all values on the way are finite and products cannot underflow, every coefficient of the value of an expression
is the exact one up to `e.rounds` roundings, relative to the expression with absolute values. -/
theorem C120_dense_error (e : RExpr (Fl f)) (r : Poly (Fl f)) (h : e.run denseOps = .ok r)
    (hf : e.AllValues denseOps fun p => ∀ c ∈ p.terms, c.isFinite = true) (hc : e.Numbers fun c => c.isFinite = true)
    (hn : (e.map toRat).Normal f) (k : Nat) :
    |(descPoly (r.terms.map toRat) - (e.map toRat).den).coeff k| ≤
      ((1 + uro f) ^ e.rounds - 1) * (e.map toRat).major.coeff k :=
  (dense_computes.run e r h hf hc hn).1.2 k

/-- C120 (SparsePolynomial): the same. -/
theorem C120_sparse_error (e : RExpr (Fl f)) (r : Sparse (Fl f)) (h : e.run sparseOps = .ok r)
    (hf : e.AllValues sparseOps Sparse.AllFinite) (hc : e.Numbers fun c => c.isFinite = true)
    (hn : (e.map toRat).Normal f) (k : Nat) :
    |(r.ratPoly - (e.map toRat).den).coeff k| ≤ ((1 + uro f) ^ e.rounds - 1) * (e.map toRat).major.coeff k :=
  (sparse_computes.run e r h hf hc hn).1.2 k


theorem eval_bound {U A : ℚ[X]} {c : ℚ} (h : ∀ k, |U.coeff k| ≤ c * A.coeff k) (x : ℚ) : |U.eval x| ≤ c * A.eval |x| := by
  obtain ⟨n, h1, h2⟩ : ∃ n, U.natDegree < n ∧ A.natDegree < n :=
    ⟨max U.natDegree A.natDegree + 1, by omega, by omega⟩
  rw [eval_eq_sum_range' h1, eval_eq_sum_range' h2, Finset.mul_sum]
  refine (Finset.abs_sum_le_sum_abs _ _).trans (Finset.sum_le_sum fun k _ => ?_)
  rw [abs_mul, abs_pow, ← mul_assoc]
  exact mul_le_mul_of_nonneg_right (h k) (by positivity)

/-- C120 (Polynomial): evaluating the value of an expression at a number, compared with the expression on exact numbers.  The last term
counts underflows of the evaluation. -/
theorem C120_dense_value (e : RExpr (Fl f)) (r : Poly (Fl f)) (h : e.run denseOps = .ok r)
    (hf : e.AllValues denseOps fun p => ∀ c ∈ p.terms, c.isFinite = true) (hc : e.Numbers fun c => c.isFinite = true)
    (hn : (e.map toRat).Normal f) (x : Fl f) (hx : (r.eval x).isFinite = true) :
    |(r.eval x).toRat - (e.map toRat).at x.toRat| ≤
      ((1 + uro f) ^ (e.rounds + 2 * (e.size - 1) + 1) - 1) * (e.map toRat).major.eval |x.toRat| +
        (1 + uro f) * eta f * ∑ i ∈ Finset.range (e.size - 1), ((1 + uro f) ^ 2 * |x.toRat|) ^ i := by
  obtain ⟨h1, h2⟩ := dense_computes.run e r h hf hc hn
  have hu := uro_nonneg (f := f)
  have hη := eta_nonneg (f := f)
  have h2 : r.terms.length ≤ e.size := h2
  set M := (e.map toRat).major.eval |x.toRat| with hM
  have hM0 : 0 ≤ M := by
    have := eval_bound (c := 1) (fun k => by rw [one_mul]; exact h1.1 k) x.toRat
    rw [one_mul] at this
    exact (abs_nonneg _).trans this
  have a1 := eval_bound h1.2 x.toRat
  rw [eval_sub, ← RExpr.at_eq] at a1
  have a2 : (descPoly (r.terms.map fun c => |c.toRat|)).eval |x.toRat| ≤ (1 + uro f) ^ e.rounds * M := by
    have := eval_bound (U := descPoly (r.terms.map fun c => |c.toRat|)) (A := (e.map toRat).major) (c := (1 + uro f) ^ e.rounds)
      (fun k => by rw [coeff_dense_abs, abs_abs]; exact h1.le k) |x.toRat|
    rw [abs_abs] at this
    exact (le_abs_self _).trans this
  have a3 := C66_eval_error r x hx
  have a4 : |(r.eval x).toRat - (e.map toRat).at x.toRat| ≤ |(r.eval x).toRat - (descPoly (r.terms.map toRat)).eval x.toRat| +
      |(descPoly (r.terms.map toRat)).eval x.toRat - (e.map toRat).at x.toRat| := abs_sub_le _ _ _
  have a5 : ((1 + uro f) ^ (2 * (r.terms.length - 1) + 1) - 1) * (descPoly (r.terms.map fun c => |c.toRat|)).eval |x.toRat| ≤
      ((1 + uro f) ^ (2 * (e.size - 1) + 1) - 1) * ((1 + uro f) ^ e.rounds * M) := by
    have b1 := rounds_mono (f := f) (show 2 * (r.terms.length - 1) + 1 ≤ 2 * (e.size - 1) + 1 by omega)
    have b2 := one_le_rounds (f := f) (2 * (r.terms.length - 1) + 1)
    have b3 : 0 ≤ (1 + uro f) ^ e.rounds * M := mul_nonneg (by positivity) hM0
    exact (mul_le_mul_of_nonneg_left a2 (by linarith)).trans (mul_le_mul_of_nonneg_right (by linarith) b3)
  have a6 : ∑ i ∈ Finset.range (r.terms.length - 1), ((1 + uro f) ^ 2 * |x.toRat|) ^ i ≤
      ∑ i ∈ Finset.range (e.size - 1), ((1 + uro f) ^ 2 * |x.toRat|) ^ i :=
    Finset.sum_le_sum_of_subset_of_nonneg (Finset.range_mono (by omega)) fun i _ _ => by positivity
  have a7 := mul_le_mul_of_nonneg_left a6 (show 0 ≤ (1 + uro f) * eta f by positivity)
  have a8 : ((1 + uro f) ^ (2 * (e.size - 1) + 1) - 1) * ((1 + uro f) ^ e.rounds * M) + ((1 + uro f) ^ e.rounds - 1) * M =
      ((1 + uro f) ^ (e.rounds + 2 * (e.size - 1) + 1) - 1) * M := by
    rw [show e.rounds + 2 * (e.size - 1) + 1 = (2 * (e.size - 1) + 1) + e.rounds by omega, pow_add]
    ring
  linarith

/-! ## Whole numbers -/

theorem coeff_absCoeffs (P : ℚ[X]) (k : Nat) : (absCoeffs P).coeff k = |P.coeff k| := by
  unfold absCoeffs
  rw [finsetSum_coeff]
  simp only [coeff_C_mul, coeff_X_pow, mul_ite, mul_one, mul_zero]
  rw [Finset.sum_ite_eq]
  split_ifs with h
  · rfl
  · rw [notMem_support_iff.1 h, abs_zero]

theorem dense_absCoeffs (l : List (Fl f)) : descPoly (l.map fun c => |c.toRat|) = absCoeffs (descPoly (l.map toRat)) := by
  ext k; rw [coeff_absCoeffs, coeff_dense_abs]

theorem sparse_absCoeffs (p : Sparse (Fl f)) : p.absPoly = absCoeffs p.ratPoly := by
  ext k; rw [coeff_absCoeffs, coeff_sparse_abs]

theorem zeros_of_ratPoly {p : Poly (Fl f)} (h : ∀ c ∈ p.terms, c.IntValued) (h0 : descPoly (p.terms.map toRat) = 0) :
    ∀ c ∈ p.terms, isZero c = true := by
  intro c hc
  obtain ⟨k, hk⟩ := coeff_of_mem p.terms c hc toRat
  rw [isZero_iff_toRat (h c hc).1, ← hk, h0, coeff_zero]

theorem descPoly_zeros_rat {l : List (Fl f)} (h : ∀ c ∈ l, isZero c = true) : descPoly (l.map toRat) = 0 := by
  rw [← descPoly_dropWhile_toRat _ toRat_fin_zero, List.dropWhile_eq_nil_iff.2 h]
  rfl

theorem mulRef_zeros {p q : Poly (Fl f)} (hp : ∀ c ∈ p.terms, isZero c = true) (hq : ∀ c ∈ q.terms, isZero c = true) :
    p.mulRef q = .panic := by
  have h := (C68_mul_panics_iff p q).1.2 ⟨hp, hq⟩
  have h1 : sliceMul p.terms q.terms = .panic := by
    unfold Poly.mul at h
    cases hs : sliceMul p.terms q.terms with
    | ok out => rw [hs] at h; cases h
    | panic => rfl
    | fuel => rw [hs] at h; cases h
  show (sliceMul p.terms q.terms >>= _) = _
  rw [h1]; rfl

theorem pow_zeros {p : Poly (Fl f)} (hp : ∀ c ∈ p.terms, isZero c = true) (n : Nat) (hn : 2 ≤ n) : p.pow n = .panic := by
  induction n using Nat.strong_induction_on with
  | _ n ih =>
    rw [Poly.pow, if_neg (by omega), if_neg (by omega)]
    by_cases h2 : n = 2
    · rw [if_pos h2]; exact mulRef_zeros hp hp
    rw [if_neg h2]
    split
    · rw [ih (n / 2) (by omega) (by omega)]; rfl
    · rw [ih (n - 1) (by omega) (by omega)]; rfl

/-- C120 (Polynomial): an expression on whole numbers whose values stay below `2^p` (products and powers: computed with absolute values) is
exact.  It returns unless two zero polynomials are multiplied or zero is raised to a power from 2 on; then it panics. -/
theorem C120_dense_whole (hp : 1 ≤ f.p) (hw : f.p + f.q ≤ f.w) : ∀ (e : RExpr (Fl f)), e.Numbers (fun c => c.IntValued) →
    WholeExpr f (e.map toRat) →
    ((e.map toRat).Goes (fun _ => True) (fun P Q => ¬ (P = 0 ∧ Q = 0)) (fun P n => ¬ (P = 0 ∧ 2 ≤ n)) →
      ∃ r, e.run denseOps = .ok r ∧ (∀ c ∈ r.terms, c.IntValued) ∧ descPoly (r.terms.map toRat) = (e.map toRat).den) ∧
    (¬ (e.map toRat).Goes (fun _ => True) (fun P Q => ¬ (P = 0 ∧ Q = 0)) (fun P n => ¬ (P = 0 ∧ 2 ≤ n)) →
      e.run denseOps = .panic) := by
  let rel : Poly (Fl f) → ℚ[X] → Prop := fun r P => (∀ c ∈ r.terms, c.IntValued) ∧ descPoly (r.terms.map toRat) = P
  suffices key : ∀ e : RExpr (Fl f), e.Numbers (fun c => c.IntValued) → WholeExpr f (e.map toRat) →
      StepIs rel ((e.map toRat).Goes (fun _ => True) (fun P Q => ¬ (P = 0 ∧ Q = 0)) (fun P n => ¬ (P = 0 ∧ 2 ≤ n)))
        (e.map toRat).den (e.run denseOps) from key
  have hand : ∀ {A : Prop}, (A ∧ True) ↔ A := and_true _ |>.to_iff
  intro e
  induction e with
  | lit cs =>
    intro hc _
    refine .of_ok ⟨_, rfl, fun c h => hc c ?_, (C92_trim cs ⟨[]⟩ ⟨.empty⟩).1.2.2.2⟩
    have h : c ∈ (Poly.new cs).terms := h
    rw [new_terms] at h
    exact List.dropWhile_subset _ h
  | neg a ih =>
    intro hc hb
    refine (ih hc hb.1).bind fun r hr => .of_ok ⟨_, rfl, ?_, by rw [C67_neg, hr.2]; rfl⟩
    intro c h
    obtain ⟨d, hd, rfl⟩ := List.mem_map.1 h
    exact IntValued_neg d (hr.1 d hd)
  | add a b iha ihb =>
    intro hc hb
    refine (iha hc.1 hb.1).bind fun r hr => (ihb hc.2 hb.2.1).bind fun s hs => .of_ok ?_
    have h := ((C87_dense_add_sub hp hw r s hr.1 hs.1).1 (by rw [hr.2, hs.2]; exact hb.2.2)).1
    rw [hr.2, hs.2] at h
    exact h
  | sub a b iha ihb =>
    intro hc hb
    refine (iha hc.1 hb.1).bind fun r hr => (ihb hc.2 hb.2.1).bind fun s hs => .of_ok ?_
    have h := ((C87_dense_add_sub hp hw r s hr.1 hs.1).2 (by rw [hr.2, hs.2]; exact hb.2.2)).1
    rw [hr.2, hs.2] at h
    exact h
  | mul a b iha ihb =>
    intro hc hb
    refine (iha hc.1 hb.1).bind fun r hr => (ihb hc.2 hb.2.1).bind fun s hs => ⟨fun h0 => ?_, fun h0 => ?_⟩
    · obtain ⟨t, ht⟩ := (C68_mul_panics_iff r s).2.2 fun hz => h0 ⟨by
        rw [← hr.2]; exact descPoly_zeros_rat hz.1, by rw [← hs.2]; exact descPoly_zeros_rat hz.2⟩
      have h := C87_dense_mul hp hw r s t hr.1 hs.1
        (by rw [dense_absCoeffs, dense_absCoeffs, hr.2, hs.2]; exact hb.2.2) (.inl ht)
      rw [hr.2, hs.2] at h
      exact ⟨t, ht, h⟩
    · obtain ⟨h1, h2⟩ := not_not.1 h0
      exact (C68_mul_panics_iff r s).1.2 ⟨zeros_of_ratPoly hr.1 (by rw [hr.2, h1]), zeros_of_ratPoly hs.1 (by rw [hs.2, h2])⟩
  | pow a n ih =>
    intro hc hb
    refine (ih hc hb.1).bind fun r hr => ⟨fun h0 => ?_, fun h0 => ?_⟩
    · have h := C87_dense_pow hp hw r hr.1 n (by
        by_cases h1 : 2 ≤ n
        · exact .inl fun h2 => h0 ⟨by rw [← hr.2, h2], h1⟩
        · exact .inr (by omega)) (by rw [dense_absCoeffs, hr.2]; exact hb.2)
      rw [hr.2] at h
      exact h
    · obtain ⟨h1, h2⟩ := not_not.1 h0
      exact pow_zeros (zeros_of_ratPoly hr.1 (by rw [hr.2, h1])) n h2
  | scale a c ih =>
    intro hc hb
    refine (ih hc.1 hb.1).bind fun r hr => .of_ok ⟨_, rfl, ?_⟩
    have h := ((C87_dense_scalar hp hw r c hr.1 hc.2).1 (by rw [hr.2, mul_comm]; exact hb.2)).1
    rw [hr.2, mul_comm] at h
    exact h
  | shl a k ih =>
    intro hc hb
    refine ((ih hc hb).bind fun r hr => .of_ok (?_ : ∃ s, r.shl k = .ok s ∧ rel s _)).of_iff hand
    refine ⟨⟨r.terms.dropWhile isZero ++ List.replicate k 0⟩, ?_, ?_, ?_⟩
    · simp [Poly.shl, Poly.shlPos, sliceFrom, firstNonzeroIndex_le, drop_firstNonzeroIndex]
    · intro c h
      rcases List.mem_append.1 h with h | h
      · exact hr.1 c (List.dropWhile_subset _ h)
      · rw [List.eq_of_mem_replicate h]
        exact ⟨rfl, 0, by simp [toRat_fin_zero, show (0 : Fl f) = .fin false 0 from rfl]⟩
    · rw [List.map_append, List.map_replicate, show (0 : Fl f).toRat = 0 from toRat_fin_zero _, descPoly_append_zeros,
        descPoly_dropWhile_toRat _ toRat_fin_zero, hr.2]
      rfl

theorem fromVec_mem {cs : List (Fl f)} {e : Nat × Fl f} (h : e ∈ (Sparse.fromVec cs).terms.entries) : e.2 ∈ cs := by
  unfold Sparse.fromVec at h
  split at h
  · cases h
  · dsimp only at h
    have key : ∀ (l : List (Fl f × Nat)) (d : Nat) (m : BMap (Fl f)), (∀ e ∈ m.entries, e.2 ∈ cs) → (∀ e ∈ l, e.1 ∈ cs) →
        ∀ e ∈ (l.foldl (fun terms e => if !isZero e.1 then terms.insert (d - e.2) e.1 else terms) m).entries, e.2 ∈ cs := by
      intro l d
      induction l with
      | nil => intro m hm _; exact hm
      | cons a l ih =>
        intro m hm hl
        refine ih _ ?_ fun e he => hl e (.tail _ he)
        intro e he
        dsimp only at he
        split at he
        · have h1 := (BMap.mem_entries ..).1 he
          rw [BMap.get_insert] at h1
          split at h1
          · rw [← Option.some.inj h1]; exact hl a (.head _)
          · exact hm e ((BMap.mem_entries ..).2 h1)
        · exact hm e he
    refine key _ _ _ (fun e he => by cases he) (fun e he => ?_) e h
    obtain ⟨_, h2⟩ := List.mem_zipIdx' he
    rw [h2]
    exact List.getElem_mem _

/-- C120 (SparsePolynomial): an expression on whole numbers within the same bounds returns its exact value. -/
theorem C120_sparse_whole (hp : 1 ≤ f.p) (hw : f.p + f.q ≤ f.w) : ∀ (e : RExpr (Fl f)), e.Numbers (fun c => c.IntValued) →
    WholeExpr f (e.map toRat) →
    ∃ r, e.run sparseOps = .ok r ∧ (∀ k c, r.terms.get k = some c → c.IntValued) ∧ r.ratPoly = (e.map toRat).den := by
  intro e
  induction e with
  | lit cs =>
    intro hc _
    refine ⟨_, rfl, fun k c h => ?_, (C92_trim cs ⟨[]⟩ ⟨.empty⟩).2.2.2.2 fun c h => (hc c h).1⟩
    exact hc c (fromVec_mem (e := (k, c)) ((BMap.mem_entries ..).2 h))
  | neg a ih =>
    intro hc hb
    obtain ⟨r, h1, h2, h3⟩ := ih hc hb.1
    refine ⟨r.neg, by rw [RExpr.run, h1]; rfl, fun k c h => ?_, by rw [C85_neg, h3]; rfl⟩
    have h : (r.terms.entries.foldl (fun m e => m.insert e.1 (-e.2)) (.empty : BMap (Fl f))).get k = some c := h
    rw [get_rebuild (fun c => -c)] at h
    obtain ⟨d, hd, rfl⟩ := Option.map_eq_some_iff.1 h
    exact IntValued_neg d (h2 k d hd)
  | add a b iha ihb =>
    intro hc hb
    obtain ⟨r, h1, h2, h3⟩ := iha hc.1 hb.1
    obtain ⟨s, h4, h5, h6⟩ := ihb hc.2 hb.2.1
    have h := ((C87_sparse_add_sub hp hw r s ⟨[]⟩ h2 h5 (by simp)).1 (by rw [h3, h6]; exact hb.2.2)).1
    rw [h3, h6] at h
    exact ⟨r.add s, by rw [RExpr.run, h1, h4]; rfl, h⟩
  | sub a b iha ihb =>
    intro hc hb
    obtain ⟨r, h1, h2, h3⟩ := iha hc.1 hb.1
    obtain ⟨s, h4, h5, h6⟩ := ihb hc.2 hb.2.1
    have h := (C87_sparse_add_sub hp hw r s ⟨[]⟩ h2 h5 (by simp)).2.1 (by rw [h3, h6]; exact hb.2.2)
    rw [h3, h6] at h
    exact ⟨r.sub s, by rw [RExpr.run, h1, h4]; rfl, h⟩
  | mul a b iha ihb =>
    intro hc hb
    obtain ⟨r, h1, h2, h3⟩ := iha hc.1 hb.1
    obtain ⟨s, h4, h5, h6⟩ := ihb hc.2 hb.2.1
    have h := C87_sparse_mul hp hw r s h2 h5 (by rw [sparse_absCoeffs, sparse_absCoeffs, h3, h6]; exact hb.2.2)
    rw [h3, h6] at h
    exact ⟨r.mul s, by rw [RExpr.run, h1, h4]; rfl, h⟩
  | pow a n ih =>
    intro hc hb
    obtain ⟨r, h1, h2, h3⟩ := ih hc hb.1
    have h := C87_sparse_pow hp hw r h2 n (by rw [sparse_absCoeffs, h3]; exact hb.2)
    rw [h3] at h
    exact ⟨r.pow n, by rw [RExpr.run, h1]; rfl, h⟩
  | scale a c ih =>
    intro hc hb
    obtain ⟨r, h1, h2, h3⟩ := ih hc.1 hb.1
    have h := ((C87_sparse_scalar hp hw r c h2 hc.2).1 fun k => by
      have := hb.2 k
      rw [coeff_C_mul, mul_comm] at this
      rw [h3]; exact this).1
    rw [h3, mul_comm] at h
    exact ⟨r.mulScalar c, by rw [RExpr.run, h1]; rfl, h⟩
  | shl a k ih =>
    intro hc hb
    obtain ⟨r, h1, h2, h3⟩ := ih hc hb
    refine ⟨r.shlPos k, by rw [RExpr.run, h1]; simp [Sparse.shl, sparseOps], fun j c h => ?_, by rw [shlPos_ratPoly, h3]; rfl⟩
    have := (BMap.mem_entries ..).2 h
    rw [shlPos_entries] at this
    obtain ⟨e, he, h2'⟩ := List.mem_map.1 this
    cases h2'
    exact h2 e.1 e.2 ((BMap.mem_entries ..).1 he)

/-! ## Returning -/

/-- C120 (SparsePolynomial): an expression always returns, whatever the numbers (also infinities and NaNs). -/
theorem C120_sparse_returns (e : RExpr (Fl f)) : ∃ r, e.run sparseOps = .ok r := by
  induction e with
  | lit cs => exact ⟨_, rfl⟩
  | neg a ih => obtain ⟨r, h⟩ := ih; exact ⟨r.neg, by rw [RExpr.run, h]; rfl⟩
  | add a b iha ihb => obtain ⟨r, h⟩ := iha; obtain ⟨s, h'⟩ := ihb; exact ⟨r.add s, by rw [RExpr.run, h, h']; rfl⟩
  | sub a b iha ihb => obtain ⟨r, h⟩ := iha; obtain ⟨s, h'⟩ := ihb; exact ⟨r.sub s, by rw [RExpr.run, h, h']; rfl⟩
  | mul a b iha ihb => obtain ⟨r, h⟩ := iha; obtain ⟨s, h'⟩ := ihb; exact ⟨r.mul s, by rw [RExpr.run, h, h']; rfl⟩
  | pow a n ih => obtain ⟨r, h⟩ := ih; exact ⟨r.pow n, by rw [RExpr.run, h]; rfl⟩
  | scale a c ih => obtain ⟨r, h⟩ := ih; exact ⟨r.mulScalar c, by rw [RExpr.run, h]; rfl⟩
  | shl a k ih => obtain ⟨r, h⟩ := ih; exact ⟨r.shlPos k, by rw [RExpr.run, h]; simp [Sparse.shl, sparseOps]⟩

theorem RExpr.mem_parts {N : Type} (e : RExpr N) : e ∈ e.parts := by cases e <;> simp [RExpr.parts]

theorem mulRef_ok_of {p q : Poly (Fl f)} (h : ¬ ((∀ c ∈ p.terms, isZero c = true) ∧ ∀ c ∈ q.terms, isZero c = true)) :
    ∃ r, p.mulRef q = .ok r := by
  obtain ⟨r, hr⟩ := (C68_mul_panics_iff p q).2.2 h
  unfold Poly.mul at hr
  obtain ⟨out, h1, _⟩ := Res.bind_eq_ok.1 hr
  exact ⟨Poly.new out, by show (sliceMul p.terms q.terms >>= _) = _; rw [h1]; rfl⟩

theorem mulRef_ok_or (p q : Poly (Fl f)) : (∃ r, p.mulRef q = .ok r) ∨ p.mulRef q = .panic := by
  by_cases h : (∀ c ∈ p.terms, isZero c = true) ∧ ∀ c ∈ q.terms, isZero c = true
  · exact .inr (mulRef_zeros h.1 h.2)
  · exact .inl (mulRef_ok_of h)

theorem pow_ok_or (p : Poly (Fl f)) (n : Nat) : (∃ r, p.pow n = .ok r) ∨ p.pow n = .panic := by
  induction n using Nat.strong_induction_on with
  | _ n ih =>
    rw [Poly.pow]
    split
    · exact .inl ⟨_, rfl⟩
    split
    · exact .inl ⟨_, rfl⟩
    split
    · exact mulRef_ok_or p p
    split
    · rcases ih (n / 2) (by omega) with ⟨r, h⟩ | h
      · rw [h]; show (∃ t, r.pow 2 = .ok t) ∨ r.pow 2 = .panic; rw [Poly.pow]; exact mulRef_ok_or r r
      · rw [h]; exact .inr rfl
    · rcases ih (n - 1) (by omega) with ⟨r, h⟩ | h
      · rw [h]; exact mulRef_ok_or p r
      · rw [h]; exact .inr rfl

/-- What makes an expression of `Polynomial`s panic. -/
def MeetsZeros (e : RExpr (Fl f)) : Prop :=
  (∃ a b x y, .mul a b ∈ e.parts ∧ a.run denseOps = .ok x ∧ b.run denseOps = .ok y ∧
    (∀ c ∈ x.terms, isZero c = true) ∧ ∀ c ∈ y.terms, isZero c = true) ∨
  ∃ a n x, .pow a n ∈ e.parts ∧ a.run denseOps = .ok x ∧ x.pow n = .panic

theorem meets_unary {e a : RExpr (Fl f)} (hp : e.parts = e :: a.parts) {g : Poly (Fl f) → Poly (Fl f)} (hg : e.run denseOps = (a.run denseOps >>= fun x => .ok (g x)))
    (h1 : ∀ a b, e ≠ .mul a b) (h2 : ∀ a n, e ≠ .pow a n)
    (ih : ((∃ r, a.run denseOps = .ok r) ∨ a.run denseOps = .panic) ∧ (a.run denseOps = .panic ↔ MeetsZeros a)) :
    ((∃ r, e.run denseOps = .ok r) ∨ e.run denseOps = .panic) ∧ (e.run denseOps = .panic ↔ MeetsZeros e) := by
  have hm : MeetsZeros e ↔ MeetsZeros a := by
    unfold MeetsZeros
    rw [hp]
    simp only [List.mem_cons]
    constructor
    · rintro (⟨u, v, x, y, h | h, h'⟩ | ⟨u, n, x, h | h, h'⟩)
      · exact absurd h.symm (h1 _ _)
      · exact .inl ⟨u, v, x, y, h, h'⟩
      · exact absurd h.symm (h2 _ _)
      · exact .inr ⟨u, n, x, h, h'⟩
    · rintro (⟨u, v, x, y, h, h'⟩ | ⟨u, n, x, h, h'⟩)
      · exact .inl ⟨u, v, x, y, .inr h, h'⟩
      · exact .inr ⟨u, n, x, .inr h, h'⟩
  rw [hm, ← ih.2, hg]
  rcases ih.1 with ⟨r, h⟩ | h
  · rw [h]; exact ⟨.inl ⟨g r, rfl⟩, by constructor <;> intro h <;> cases h⟩
  · rw [h]; exact ⟨.inr rfl, by constructor <;> intro _ <;> rfl⟩

theorem meets_binary {e a b : RExpr (Fl f)} (hp : e.parts = e :: (a.parts ++ b.parts)) {g : Poly (Fl f) → Poly (Fl f) → Res (Poly (Fl f))}
    (hg : e.run denseOps = (a.run denseOps >>= fun x => b.run denseOps >>= fun y => g x y))
    {bad : Poly (Fl f) → Poly (Fl f) → Prop} (hok : ∀ x y, ((∃ r, g x y = .ok r) ∨ g x y = .panic) ∧ (g x y = .panic ↔ bad x y))
    (h1 : ∀ u v, e = .mul u v → u = a ∧ v = b ∧ ∀ x y, bad x y ↔ (∀ c ∈ x.terms, isZero c = true) ∧ ∀ c ∈ y.terms, isZero c = true)
    (h0 : (∃ u v, e = .mul u v) ∨ ∀ x y, ¬ bad x y)
    (h2 : ∀ a n, e ≠ .pow a n)
    (iha : ((∃ r, a.run denseOps = .ok r) ∨ a.run denseOps = .panic) ∧ (a.run denseOps = .panic ↔ MeetsZeros a))
    (ihb : ((∃ r, b.run denseOps = .ok r) ∨ b.run denseOps = .panic) ∧ (b.run denseOps = .panic ↔ MeetsZeros b)) :
    ((∃ r, e.run denseOps = .ok r) ∨ e.run denseOps = .panic) ∧ (e.run denseOps = .panic ↔ MeetsZeros e) := by
  have hm : MeetsZeros e ↔ (MeetsZeros a ∨ MeetsZeros b) ∨ ∃ x y, a.run denseOps = .ok x ∧ b.run denseOps = .ok y ∧ bad x y := by
    unfold MeetsZeros
    rw [hp]
    simp only [List.mem_cons, List.mem_append]
    constructor
    · rintro (⟨u, v, x, y, h | h | h, h'⟩ | ⟨u, n, x, h | h | h, h'⟩)
      · obtain ⟨rfl, rfl, hb⟩ := h1 _ _ h.symm
        exact .inr ⟨x, y, h'.1, h'.2.1, (hb x y).2 h'.2.2⟩
      · exact .inl (.inl (.inl ⟨u, v, x, y, h, h'⟩))
      · exact .inl (.inr (.inl ⟨u, v, x, y, h, h'⟩))
      · exact absurd h.symm (h2 _ _)
      · exact .inl (.inl (.inr ⟨u, n, x, h, h'⟩))
      · exact .inl (.inr (.inr ⟨u, n, x, h, h'⟩))
    · rintro (((⟨u, v, x, y, h, h'⟩ | ⟨u, n, x, h, h'⟩) | (⟨u, v, x, y, h, h'⟩ | ⟨u, n, x, h, h'⟩)) | ⟨x, y, hx, hy, hb⟩)
      · exact .inl ⟨u, v, x, y, .inr (.inl h), h'⟩
      · exact .inr ⟨u, n, x, .inr (.inl h), h'⟩
      · exact .inl ⟨u, v, x, y, .inr (.inr h), h'⟩
      · exact .inr ⟨u, n, x, .inr (.inr h), h'⟩
      · rcases h0 with ⟨u, v, h⟩ | h
        · obtain ⟨rfl, rfl, hb'⟩ := h1 _ _ h
          exact .inl ⟨u, v, x, y, .inl h.symm, hx, hy, (hb' x y).1 hb⟩
        · exact absurd hb (h x y)
  rw [hm, ← iha.2, ← ihb.2, hg]
  rcases iha.1 with ⟨r, h⟩ | h
  · rcases ihb.1 with ⟨s, h'⟩ | h'
    · rw [h, h']
      refine ⟨(hok r s).1, ?_⟩
      show g r s = .panic ↔ _
      rw [(hok r s).2]
      constructor
      · exact fun hb => .inr ⟨r, s, rfl, rfl, hb⟩
      · rintro ((h | h) | ⟨x, y, hx, hy, hb⟩)
        · cases h
        · cases h
        · cases hx; cases hy; exact hb
    · rw [h, h']
      exact ⟨.inr rfl, fun _ => .inl (.inr rfl), fun _ => rfl⟩
  · rw [h]
    exact ⟨.inr rfl, fun _ => .inl (.inl rfl), fun _ => rfl⟩

/-- C120 (Polynomial): an expression returns or panics, whatever the numbers.  It panics exactly when it meets a product of two
polynomials all of whose coefficients are zero, or a power that panics on a value on the way. -/
theorem C120_dense_panics (e : RExpr (Fl f)) :
    ((∃ r, e.run denseOps = .ok r) ∨ e.run denseOps = .panic) ∧
    (e.run denseOps = .panic ↔
      (∃ a b x y, .mul a b ∈ e.parts ∧ a.run denseOps = .ok x ∧ b.run denseOps = .ok y ∧
        (∀ c ∈ x.terms, isZero c = true) ∧ ∀ c ∈ y.terms, isZero c = true) ∨
      ∃ a n x, .pow a n ∈ e.parts ∧ a.run denseOps = .ok x ∧ x.pow n = .panic) := by
  show ((∃ r, e.run denseOps = .ok r) ∨ e.run denseOps = .panic) ∧ (e.run denseOps = .panic ↔ MeetsZeros e)
  induction e with
  | lit cs =>
    refine ⟨.inl ⟨_, rfl⟩, ⟨fun h => (by simp [RExpr.run] at h), ?_⟩⟩
    rintro (⟨u, v, x, y, h, _⟩ | ⟨u, n, x, h, _⟩) <;> simp [RExpr.parts] at h
  | neg a ih => exact meets_unary rfl rfl (by simp) (by simp) ih
  | add a b iha ihb =>
    refine meets_binary rfl rfl (bad := fun _ _ => False) (fun x y => ?_) (by simp) (.inr fun _ _ h => h) (by simp) iha ihb
    obtain ⟨r, h, _⟩ := (C67_add x y).1
    rw [show denseOps.add x y = .ok r from h]
    exact ⟨.inl ⟨r, rfl⟩, by simp⟩
  | sub a b iha ihb =>
    refine meets_binary rfl rfl (bad := fun _ _ => False) (fun x y => ?_) (by simp) (.inr fun _ _ h => h) (by simp) iha ihb
    obtain ⟨r, h, _⟩ := (C67_sub x y).1
    rw [show denseOps.sub x y = .ok r from h]
    exact ⟨.inl ⟨r, rfl⟩, by simp⟩
  | mul a b iha ihb =>
    refine meets_binary rfl rfl (bad := fun x y => (∀ c ∈ x.terms, isZero c = true) ∧ ∀ c ∈ y.terms, isZero c = true) (fun x y => ?_)
      (fun u v h => ?_) (.inl ⟨a, b, rfl⟩) (by simp) iha ihb
    · refine ⟨?_, (C68_mul_panics_iff x y).1⟩
      by_cases h : (∀ c ∈ x.terms, isZero c = true) ∧ ∀ c ∈ y.terms, isZero c = true
      · exact .inr ((C68_mul_panics_iff x y).1.2 h)
      · exact .inl ((C68_mul_panics_iff x y).2.2 h)
    · cases h; exact ⟨rfl, rfl, fun _ _ => .rfl⟩
  | pow a n ih =>
    have hm : MeetsZeros (.pow a n) ↔ MeetsZeros a ∨ ∃ x, a.run denseOps = .ok x ∧ x.pow n = .panic := by
      unfold MeetsZeros
      simp only [RExpr.parts, List.mem_cons]
      constructor
      · rintro (⟨u, v, x, y, h | h, h'⟩ | ⟨u, m, x, h | h, h'⟩)
        · cases h
        · exact .inl (.inl ⟨u, v, x, y, h, h'⟩)
        · cases h; exact .inr ⟨x, h'⟩
        · exact .inl (.inr ⟨u, m, x, h, h'⟩)
      · rintro ((⟨u, v, x, y, h, h'⟩ | ⟨u, m, x, h, h'⟩) | ⟨x, h⟩)
        · exact .inl ⟨u, v, x, y, .inr h, h'⟩
        · exact .inr ⟨u, m, x, .inr h, h'⟩
        · exact .inr ⟨a, n, x, .inl rfl, h⟩
    rw [hm, ← ih.2]
    rcases ih.1 with ⟨r, h⟩ | h
    · have e : (RExpr.pow a n).run denseOps = r.pow n := by rw [RExpr.run, h]; rfl
      rw [e, h]
      refine ⟨pow_ok_or r n, fun h => .inr ⟨r, rfl, h⟩, ?_⟩
      rintro (h | ⟨x, hx, h⟩)
      · cases h
      · cases hx; exact h
    · have e : (RExpr.pow a n).run denseOps = .panic := by rw [RExpr.run, h]; rfl
      rw [e, h]
      exact ⟨.inr rfl, fun _ => .inl rfl, fun _ => rfl⟩
  | scale a c ih => exact meets_unary rfl rfl (by simp) (by simp) ih
  | shl a k ih =>
    refine meets_unary (g := fun r => ⟨r.terms.dropWhile isZero ++ List.replicate k 0⟩) rfl ?_ (by simp) (by simp) ih
    show (a.run denseOps >>= fun r => r.shl k) = _
    congr 1
    funext r
    simp [Poly.shl, Poly.shlPos, sliceFrom, firstNonzeroIndex_le, drop_firstNonzeroIndex]

/-! ## When products cannot underflow -/

/-- Coefficients that are zero or at least 1. -/
def OneUp (P : ℚ[X]) : Prop := ∀ k, P.coeff k = 0 ∨ 1 ≤ P.coeff k

theorem OneUp.nonneg {P : ℚ[X]} (h : OneUp P) (k : Nat) : 0 ≤ P.coeff k := by
  rcases h k with h | h <;> linarith

theorem OneUp.add {P Q : ℚ[X]} (hP : OneUp P) (hQ : OneUp Q) : OneUp (P + Q) := by
  intro k
  rw [coeff_add]
  have h1 := hP.nonneg k
  have h2 := hQ.nonneg k
  rcases hP k with h | h
  · rw [h, zero_add]; exact hQ k
  · right; linarith

theorem OneUp.mul {P Q : ℚ[X]} (hP : OneUp P) (hQ : OneUp Q) : OneUp (P * Q) := by
  intro k
  rw [coeff_mul]
  have h0 : ∀ x ∈ Finset.antidiagonal k, 0 ≤ P.coeff x.1 * Q.coeff x.2 := fun x _ => mul_nonneg (hP.nonneg _) (hQ.nonneg _)
  by_cases h : ∃ x ∈ Finset.antidiagonal k, P.coeff x.1 * Q.coeff x.2 ≠ 0
  · obtain ⟨x, hx, hne⟩ := h
    right
    refine le_trans ?_ (Finset.single_le_sum h0 hx)
    have h1 := (hP x.1).resolve_left (left_ne_zero_of_mul hne)
    have h2 := (hQ x.2).resolve_left (right_ne_zero_of_mul hne)
    nlinarith
  · push Not at h
    exact .inl (Finset.sum_eq_zero h)

theorem OneUp.pow {P : ℚ[X]} (hP : OneUp P) (n : Nat) : OneUp (P ^ n) := by
  induction n with
  | zero => intro k; rw [pow_zero, coeff_one]; split_ifs <;> simp
  | succ n ih => rw [pow_succ]; exact ih.mul hP

theorem OneUp.C {c : ℚ} (h : c = 0 ∨ 1 ≤ |c|) : OneUp (Polynomial.C |c|) := by
  intro k
  rw [coeff_C]
  split_ifs
  · rcases h with h | h
    · rw [h, abs_zero]; exact .inl rfl
    · exact .inr h
  · exact .inl rfl

theorem OneUp.X (k : Nat) : OneUp (X ^ k) := by
  intro j
  rw [coeff_X_pow]
  split_ifs <;> simp

theorem OneUp.normal (hm : minNormal f ≤ 1) {P : ℚ[X]} (h : OneUp P) : NormalCoeffs f P :=
  fun k hk => hm.trans ((h k).resolve_left hk)

theorem descPoly_coeff_mem {l : List ℚ} {k : Nat} (h : (descPoly l).coeff k ≠ 0) : (descPoly l).coeff k ∈ l := by
  rw [coeff_descPoly] at h ⊢
  rw [List.getD_eq_getElem?_getD] at h ⊢
  cases hk : l.reverse[k]? with
  | none => rw [hk] at h; exact absurd rfl h
  | some v => exact List.mem_reverse.1 (List.mem_of_getElem? hk)

/-- C120: products cannot underflow when every number of the expression is zero or at least 1 in absolute value. -/
theorem C120_normal (hm : minNormal f ≤ 1) (e : RExpr ℚ) (h : e.Numbers fun c => c = 0 ∨ 1 ≤ |c|) : e.Normal f := by
  suffices key : e.Normal f ∧ OneUp e.major from key.1
  induction e with
  | lit cs =>
    refine ⟨trivial, fun k => ?_⟩
    show (descPoly (cs.map fun c => |c|)).coeff k = 0 ∨ 1 ≤ (descPoly (cs.map fun c => |c|)).coeff k
    by_cases hk : (descPoly (cs.map fun c => |c|)).coeff k = 0
    · exact .inl hk
    · obtain ⟨c, hc, h1⟩ := List.mem_map.1 (descPoly_coeff_mem hk)
      rw [← h1] at hk ⊢
      exact .inr ((h c hc).resolve_left fun h0 => hk (by rw [h0, abs_zero]))
  | neg a ih => exact ih h
  | add a b iha ihb => exact ⟨⟨(iha h.1).1, (ihb h.2).1⟩, (iha h.1).2.add (ihb h.2).2⟩
  | sub a b iha ihb => exact ⟨⟨(iha h.1).1, (ihb h.2).1⟩, (iha h.1).2.add (ihb h.2).2⟩
  | mul a b iha ihb =>
    have := (iha h.1).2.mul (ihb h.2).2
    exact ⟨⟨(iha h.1).1, (ihb h.2).1, this.normal hm⟩, this⟩
  | pow a n ih => exact ⟨⟨(ih h).1, fun m _ _ => ((ih h).2.pow m).normal hm⟩, (ih h).2.pow n⟩
  | scale a c ih =>
    have := (OneUp.C h.2).mul (ih h.1).2
    exact ⟨⟨(ih h.1).1, this.normal hm⟩, this⟩
  | shl a k ih => exact ⟨(ih h).1, (ih h).2.mul (OneUp.X k)⟩

/-! ## When whole numbers stay below `2^p` -/

/-- `A` has no negative coefficient and bounds the coefficients of `P`. -/
def Under (P A : ℚ[X]) : Prop := ∀ k, |P.coeff k| ≤ A.coeff k

theorem Under.nonneg {P A : ℚ[X]} (h : Under P A) (k : Nat) : 0 ≤ A.coeff k := (abs_nonneg _).trans (h k)

theorem Under.mul {P A Q B : ℚ[X]} (h1 : Under P A) (h2 : Under Q B) : Under (P * Q) (A * B) := by
  intro k
  rw [coeff_mul, coeff_mul]
  refine (Finset.abs_sum_le_sum_abs _ _).trans (Finset.sum_le_sum fun x _ => ?_)
  rw [abs_mul]
  exact mul_le_mul (h1 _) (h2 _) (abs_nonneg _) (h1.nonneg _)

theorem Under.pow {P A : ℚ[X]} (h : Under P A) (n : Nat) : Under (P ^ n) (A ^ n) := by
  induction n with
  | zero => intro k; rw [pow_zero, pow_zero, coeff_one]; split_ifs <;> simp
  | succ n ih => rw [pow_succ, pow_succ]; exact ih.mul h

theorem Under.abs {P A : ℚ[X]} (h : Under P A) : Under (absCoeffs P) A := fun k => by rw [coeff_absCoeffs, abs_abs]; exact h k

theorem RExpr.under (e : RExpr ℚ) : Under e.den e.major := by
  induction e with
  | lit cs =>
    intro k
    show |(descPoly cs).coeff k| ≤ (descPoly (cs.map fun c => |c|)).coeff k
    rw [coeff_descPoly, coeff_descPoly, ← List.map_reverse, List.getD_eq_getElem?_getD, List.getD_eq_getElem?_getD, List.getElem?_map]
    cases cs.reverse[k]? <;> simp
  | neg a ih => intro k; rw [show (RExpr.neg a).den = -a.den from rfl, coeff_neg, abs_neg]; exact ih k
  | add a b iha ihb =>
    intro k
    show |(a.den + b.den).coeff k| ≤ (a.major + b.major).coeff k
    rw [coeff_add, coeff_add]
    exact (abs_add_le _ _).trans (add_le_add (iha k) (ihb k))
  | sub a b iha ihb =>
    intro k
    show |(a.den - b.den).coeff k| ≤ (a.major + b.major).coeff k
    rw [coeff_sub, coeff_add]
    exact (abs_sub _ _).trans (add_le_add (iha k) (ihb k))
  | mul a b iha ihb => exact iha.mul ihb
  | pow a n ih => exact ih.pow n
  | scale a c ih =>
    intro k
    show |(C c * a.den).coeff k| ≤ (C |c| * a.major).coeff k
    rw [coeff_C_mul, coeff_C_mul, abs_mul]
    exact mul_le_mul_of_nonneg_left (ih k) (abs_nonneg _)
  | shl a j ih =>
    intro k
    rw [RExpr.den, RExpr.major, coeff_mul_X_pow', coeff_mul_X_pow']
    split_ifs
    · exact ih _
    · simp

theorem RExpr.major_eval_one (e : RExpr ℚ) : e.major.eval 1 = e.total := by
  induction e with
  | lit cs =>
    show (descPoly (cs.map fun c => |c|)).eval 1 = (cs.map fun c => |c|).sum
    generalize cs.map (fun c => |c|) = l
    induction l with
    | nil => simp [descPoly]
    | cons a l ih => rw [descPoly_cons, eval_add, ih]; simp
  | neg a ih => exact ih
  | add a b iha ihb => rw [RExpr.major, RExpr.total, eval_add, iha, ihb]
  | sub a b iha ihb => rw [RExpr.major, RExpr.total, eval_add, iha, ihb]
  | mul a b iha ihb => rw [RExpr.major, RExpr.total, eval_mul, iha, ihb]
  | pow a n ih => rw [RExpr.major, RExpr.total, eval_pow, ih]
  | scale a c ih => rw [RExpr.major, RExpr.total, eval_mul, ih, eval_C]
  | shl a j ih => rw [RExpr.major, RExpr.total, eval_mul, ih, eval_pow, eval_X, one_pow, mul_one]

theorem Under.lt {P : ℚ[X]} {e : RExpr ℚ} {b : ℚ} (h : Under P e.major) (hb : e.total < b) (k : Nat) : |P.coeff k| < b := by
  refine ((h k).trans ?_).trans_lt hb
  rw [← RExpr.major_eval_one, eval_eq_sum_range' (n := max e.major.natDegree k + 1) (by omega)]
  simp only [one_pow, mul_one]
  exact Finset.single_le_sum (f := fun k => e.major.coeff k) (fun k _ => h.nonneg k) (Finset.mem_range.2 (by omega))

/-- C120: whole numbers stay below `2^p` when the sums of absolute values of all parts of the expression do. -/
theorem C120_whole_of_total (e : RExpr ℚ) (h : ∀ s ∈ e.parts, s.total < 2 ^ f.p) : WholeExpr f e := by
  have hs : ∀ e : RExpr ℚ, (∀ s ∈ e.parts, s.total < 2 ^ f.p) → e.total < 2 ^ f.p := fun e h => h e (RExpr.mem_parts e)
  induction e with
  | lit cs => exact trivial
  | neg a ih => exact ⟨ih fun s hs => h s (by simp [RExpr.parts, hs]), fun k => (RExpr.under (.neg a)).lt (hs _ h) k⟩
  | add a b iha ihb =>
    exact ⟨iha fun s hs => h s (by simp [RExpr.parts, hs]), ihb fun s hs => h s (by simp [RExpr.parts, hs]),
      fun k => (RExpr.under (.add a b)).lt (hs _ h) k⟩
  | sub a b iha ihb =>
    exact ⟨iha fun s hs => h s (by simp [RExpr.parts, hs]), ihb fun s hs => h s (by simp [RExpr.parts, hs]),
      fun k => (RExpr.under (.sub a b)).lt (hs _ h) k⟩
  | mul a b iha ihb =>
    exact ⟨iha fun s hs => h s (by simp [RExpr.parts, hs]), ihb fun s hs => h s (by simp [RExpr.parts, hs]),
      fun k => (le_abs_self _).trans_lt (Under.lt (e := .mul a b) ((RExpr.under a).abs.mul (RExpr.under b).abs) (hs _ h) k)⟩
  | pow a n ih =>
    exact ⟨ih fun s hs => h s (by simp [RExpr.parts, hs]),
      fun k => (le_abs_self _).trans_lt (Under.lt (e := .pow a n) ((RExpr.under a).abs.pow n) (hs _ h) k)⟩
  | scale a c ih => exact ⟨ih fun s hs => h s (by simp [RExpr.parts, hs]), fun k => (RExpr.under (.scale a c)).lt (hs _ h) k⟩
  | shl a k ih => exact ih fun s hs => h s (by simp [RExpr.parts, hs])

/-! ## Concrete cases -/

/-- `(1.1 x - 2.5)^2 (x + 3.7) - 1.3 x^2` in binary64. -/
def exE : RExpr (Fl binary64) :=
  .sub (.mul (.pow (.lit [div (ofNat 11) (ofNat 10), -div (ofNat 5) (ofNat 2)]) 2) (.lit [1, div (ofNat 37) (ofNat 10)]))
    (.scale (.shl (.lit [1]) 2) (div (ofNat 13) (ofNat 10)))

theorem exE_numbers : exE.Numbers fun c => c.isFinite = true ∧ (c.toRat = 0 ∨ 1 ≤ |c.toRat|) := by
  simp only [exE, RExpr.Numbers]
  decide +kernel

theorem numbers_mono {N : Type} {p q : N → Prop} (h : ∀ c, p c → q c) (e : RExpr N) (he : e.Numbers p) : e.Numbers q := by
  induction e with
  | lit cs => exact fun c hc => h c (he c hc)
  | neg a ih => exact ih he
  | add a b iha ihb => exact ⟨iha he.1, ihb he.2⟩
  | sub a b iha ihb => exact ⟨iha he.1, ihb he.2⟩
  | mul a b iha ihb => exact ⟨iha he.1, ihb he.2⟩
  | pow a n ih => exact ih he
  | scale a c ih => exact ⟨ih he.1, h c he.2⟩
  | shl a k ih => exact ih he

theorem numbers_map {M N : Type} {p : N → Prop} (g : M → N) (e : RExpr M) (he : e.Numbers fun c => p (g c)) : (e.map g).Numbers p := by
  induction e with
  | lit cs =>
    intro c hc
    obtain ⟨d, hd, rfl⟩ := List.mem_map.1 hc
    exact he d hd
  | neg a ih => exact ih he
  | add a b iha ihb => exact ⟨iha he.1, ihb he.2⟩
  | sub a b iha ihb => exact ⟨iha he.1, ihb he.2⟩
  | mul a b iha ihb => exact ⟨iha he.1, ihb he.2⟩
  | pow a n ih => exact ih he
  | scale a c ih => exact ⟨ih he.1, he.2⟩
  | shl a k ih => exact ih he

theorem exE_normal : (exE.map toRat).Normal binary64 :=
  C120_normal (by decide +kernel) _ (numbers_map toRat exE (numbers_mono (fun _ h => h.2) exE exE_numbers))

theorem exE_values : exE.AllValues denseOps fun p => ∀ c ∈ p.terms, c.isFinite = true := by
  have h : (exE.parts.all fun s => match s.run denseOps with
    | .ok p => p.terms.all fun c => c.isFinite
    | _ => true) = true := by decide +kernel
  intro s hs r hr
  have := List.all_eq_true.1 h s hs
  rw [hr] at this
  exact fun c hc => List.all_eq_true.1 this c hc

theorem exE_values_sparse : exE.AllValues sparseOps Sparse.AllFinite := by
  have h : (exE.parts.all fun s => match s.run sparseOps with
    | .ok p => p.terms.entries.all fun e => e.2.isFinite
    | _ => true) = true := by decide +kernel
  intro s hs r hr
  have := List.all_eq_true.1 h s hs
  rw [hr] at this
  exact fun e he => List.all_eq_true.1 this e he

-- it runs; no coefficient is off by more than 13 roundings of the coefficients with absolute values
example : (exE.run denseOps >>= fun r => .ok r.terms.length) = .ok 4 ∧ exE.rounds = 13 ∧ exE.size = 4 := by decide +kernel

example (r : Poly (Fl binary64)) (h : exE.run denseOps = .ok r) (k : Nat) :=
  C120_dense_error exE r h exE_values (numbers_mono (fun _ h => h.1) exE exE_numbers) exE_normal k

example (r : Sparse (Fl binary64)) (h : exE.run sparseOps = .ok r) (k : Nat) :=
  C120_sparse_error exE r h exE_values_sparse (numbers_mono (fun _ h => h.1) exE exE_numbers) exE_normal k

-- the bound of `C120_dense_value` at 1.1
example (r : Poly (Fl binary64)) (h : exE.run denseOps = .ok r) :=
  C120_dense_value exE r h exE_values (numbers_mono (fun _ h => h.1) exE exE_numbers) exE_normal (div (ofNat 11) (ofNat 10))

example : (exE.run denseOps >>= fun r => .ok (r.eval (div (ofNat 11) (ofNat 10))).isFinite) = .ok true := by decide +kernel

/-- `(x + 2)^3 (x - 5) - 4 x^2` in binary64. -/
def exEW : RExpr (Fl binary64) :=
  .sub (.mul (.pow (.lit [1, ofNat 2]) 3) (.lit [1, -ofNat 5])) (.scale (.shl (.lit [1]) 2) (ofNat 4))

theorem exEW_whole : WholeExpr binary64 (exEW.map toRat) := C120_whole_of_total _ (by decide +kernel)

example : (exEW.run denseOps >>= fun r => .ok (r.terms.map toRat)) = .ok [1, 1, -22, -52, -40] := by decide +kernel

-- zero times zero panics for `Polynomial`; so does zero times the square of the smallest number, which underflows
example : (RExpr.mul (.lit [0]) (.lit [0]) : RExpr (Fl binary64)).run denseOps = .panic ∧
    (RExpr.mul (.pow (.lit [.fin false 1]) 2) (.lit []) : RExpr (Fl binary64)).run denseOps = .panic := by decide +kernel

end Fl
end Rustnomial
