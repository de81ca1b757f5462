import Verif.Props.FloatEval
import Verif.Props.DenseMul

/-!
# C67, C68, C69: floating point coefficients – arithmetic, product, calculus
-/

set_option linter.unusedSectionVars false

open Polynomial

namespace Rustnomial
namespace Fl
variable {f : FlFmt}

/-! ## Lists of coefficients with bounds -/

theorem map_zipMut {α β γ : Type} (g : α → γ) (F : α → β → α) (G : γ → β → γ)
    (h : ∀ x y, g (F x y) = G (g x) y) : ∀ (xs : List α) (ys : List β),
    (zipMut F xs ys).map g = zipMut G (xs.map g) ys
  | [], ys => by simp
  | x :: xs, [] => by simp
  | x :: xs, y :: ys => by simp [h, map_zipMut g F G h xs ys]

theorem forall_zipMut {α β : Type} {F : α → β → α} {P Q : α → Prop} (h1 : ∀ x, P x → Q x)
    (h2 : ∀ x y, P x → Q (F x y)) : ∀ (xs : List α) (ys : List β), (∀ x ∈ xs, P x) →
    ∀ x ∈ zipMut F xs ys, Q x
  | [], ys, _ => by simp
  | x :: xs, [], h => by
    intro z hz
    rw [zipMut_nil_right] at hz
    exact h1 z (h z hz)
  | x :: xs, y :: ys, h => by
    intro z hz
    rw [zipMut_cons] at hz
    rcases List.mem_cons.1 hz with rfl | hz
    · exact h2 x y (h x (by simp))
    · exact forall_zipMut h1 h2 xs ys (fun x hx => h x (by simp [hx])) z hz

theorem forall_zipMut_mem {α β : Type} {F : α → β → α} {P Q : α → Prop} {L : β → Prop} (h1 : ∀ x, P x → Q x)
    (h2 : ∀ x y, P x → L y → Q (F x y)) : ∀ (xs : List α) (ys : List β), (∀ x ∈ xs, P x) → (∀ y ∈ ys, L y) →
    ∀ x ∈ zipMut F xs ys, Q x
  | [], ys, _, _ => by simp
  | x :: xs, [], h, _ => by
    intro z hz
    rw [zipMut_nil_right] at hz
    exact h1 z (h z hz)
  | x :: xs, y :: ys, h, hl => by
    intro z hz
    rw [zipMut_cons] at hz
    rcases List.mem_cons.1 hz with rfl | hz
    · exact h2 x y (h x (by simp)) (hl y (by simp))
    · exact forall_zipMut_mem h1 h2 xs ys (fun x hx => h x (by simp [hx])) (fun y hy => hl y (by simp [hy])) z hz

/-- A coefficient of a list of data is one of the data, or there is none. -/
theorem coeff_cases {α : Type} (T : List α) (k : Nat) :
    (∃ x ∈ T, ∀ g : α → ℚ, (descPoly (T.map g)).coeff k = g x) ∨
      ∀ g : α → ℚ, (descPoly (T.map g)).coeff k = 0 := by
  by_cases hk : k < T.length
  · left
    refine ⟨T.reverse[k]'(by simpa using hk), ?_, ?_⟩
    · exact List.mem_reverse.1 (List.getElem_mem _)
    · intro g
      rw [coeff_descPoly, ← List.map_reverse, List.getD_eq_getElem _ _ (by simpa using hk)]
      simp
  · right
    intro g
    exact coeff_descPoly_of_le (by simpa using not_lt.1 hk)

/-- The exact polynomial that a float polynomial stands for. -/
theorem descPoly_dropWhile_toRat (g : Fl f → ℚ) (hg : ∀ s, g (fin s 0) = 0) (l : List (Fl f)) :
    descPoly ((l.dropWhile isZero).map g) = descPoly (l.map g) := by
  induction l with
  | nil => rfl
  | cons c l ih =>
    rw [List.dropWhile_cons]
    split
    · rename_i h
      obtain ⟨s, rfl⟩ := isZero_iff.1 h
      rw [ih, List.map_cons, descPoly_cons, hg]
      simp
    · rfl

theorem toRat_fin_zero (s : Bool) : (fin s 0 : Fl f).toRat = 0 := by simp [toRat]

theorem finite_of_dropWhile {l : List (Fl f)} (h : ∀ c ∈ l.dropWhile isZero, c.isFinite = true) :
    ∀ c ∈ l, c.isFinite = true := by
  induction l with
  | nil => simp
  | cons c l ih =>
    rw [List.dropWhile_cons] at h
    split at h
    · rename_i hz
      obtain ⟨s, rfl⟩ := isZero_iff.1 hz
      intro d hd
      rcases List.mem_cons.1 hd with rfl | hd
      · rfl
      · exact ih h d hd
    · exact h

theorem roundRat_scale {p num den c : Nat} (hc : 0 < c) :
    roundRat p (num * c) (den * c) = roundRat p num den := by
  unfold roundRat
  dsimp only
  rw [Nat.mul_div_mul_right _ _ hc]
  have e : den * c * 2 ^ ((num / den).size - p) = den * 2 ^ ((num / den).size - p) * c := by ring
  rw [e, Nat.mul_div_mul_right _ _ hc, Nat.mul_mod_mul_right]
  generalize den * 2 ^ ((num / den).size - p) = d at *
  have h1 : (2 * (num % d * c) > d * c) ↔ 2 * (num % d) > d := by
    rw [← mul_assoc]; exact Nat.mul_lt_mul_right hc
  have h2 : (2 * (num % d * c) = d * c) ↔ 2 * (num % d) = d := by
    rw [← mul_assoc]; exact Nat.mul_left_inj hc.ne'
  simp only [h1, h2]

/-- Multiplication by a whole number cannot underflow. -/
theorem mul_int_error {x y : Fl f} {n : Nat} (h : (x * y).isFinite = true) (hn : y.toRat = n) :
    |(x * y).toRat - x.toRat * y.toRat| ≤ uro f * |x.toRat * y.toRat| := by
  obtain ⟨hx, hy⟩ := finite_of_mul h
  obtain ⟨s, a, rfl⟩ := isFinite_iff.1 hx
  obtain ⟨t, b, rfl⟩ := isFinite_iff.1 hy
  have hb : b = n * 2 ^ f.q := by
    have hpos : (0 : ℚ) < 2 ^ f.q := by positivity
    have h1 : (b : ℚ) / 2 ^ f.q = n := by
      have h2 : |(fin t b : Fl f).toRat| = (n : ℚ) := by rw [hn]; exact abs_of_nonneg (by positivity)
      simp only [toRat, abs_mul, sign_abs, one_mul] at h2
      rw [abs_of_nonneg (by positivity)] at h2
      exact h2
    rw [div_eq_iff hpos.ne'] at h1
    exact_mod_cast h1
  rw [mul_def] at h ⊢
  simp only [mul] at h ⊢
  have hr : roundRat f.p (a * b) (2 ^ f.q) = roundRat f.p (a * n) 1 := by
    rw [hb, ← mul_assoc]
    have := roundRat_scale (p := f.p) (num := a * n) (den := 1) (c := 2 ^ f.q) (by positivity)
    rw [one_mul] at this
    exact this
  rw [hr] at h ⊢
  rw [toRat_pack h]
  have e : (fin s a : Fl f).toRat * (fin t b : Fl f).toRat =
      (if (s != t) then (-1 : ℚ) else 1) * (((a * n : Nat) : ℚ) / 2 ^ f.q) := by
    rw [hb]
    have h2 : ((2 : ℚ) ^ f.q) ≠ 0 := by positivity
    simp only [toRat]
    push_cast
    cases s <;> cases t <;> simp <;> field_simp
  rw [e]
  exact units_error (roundRat_one_error _ _)

/-! ## C67 – addition, subtraction, negation, scalars -/

/-- One rounding. -/
def R1 (x : Fl f × ℚ) : Prop := x.1.isFinite = true → |x.1.toRat - x.2| ≤ uro f * |x.2|

theorem coeff_R1 {T : List (Fl f × ℚ)} (hT : ∀ x ∈ T, R1 x) (hf : ∀ c ∈ T.map Prod.fst, c.isFinite = true)
    (k : Nat) : |(descPoly ((T.map Prod.fst).map toRat) - descPoly (T.map Prod.snd)).coeff k| ≤
      uro f * |(descPoly (T.map Prod.snd)).coeff k| := by
  rw [coeff_sub, List.map_map]
  rcases coeff_cases T k with ⟨x, hx, h⟩ | h
  · rw [h, h]
    exact hT x hx (hf _ (List.mem_map_of_mem hx))
  · rw [h, h]; simp

/-- The loop of sums and differences, with a predicate `Q` on every coefficient and its exact value, for operands
with coefficients in `L`. -/
theorem zip_state (Q : Fl f × ℚ → Prop) (L : Fl f → Prop) (hkeep : ∀ c, L c → Q (c, c.toRat))
    (op : Fl f → Fl f → Fl f) (g : Fl f → ℚ) (hop : ∀ x y, L x → L y → Q (op x y, x.toRat + g y))
    (a b : List (Fl f)) (h : b.length ≤ a.length) (ha : ∀ c ∈ a, L c) (hb : ∀ c ∈ b, L c) :
    ∃ T : List (Fl f × ℚ), (∀ x ∈ T, Q x) ∧
      T.map Prod.fst = a.take (a.length - b.length) ++ zipMut op (a.drop (a.length - b.length)) b ∧
      descPoly (T.map Prod.snd) = descPoly (a.map toRat) + descPoly (b.map g) := by
  refine ⟨(a.take (a.length - b.length)).map (fun c => (c, c.toRat)) ++
    zipMut (fun x y => (op x.1 y, x.2 + g y)) ((a.drop (a.length - b.length)).map fun c => (c, c.toRat)) b,
    ?_, ?_, ?_⟩
  · intro x hx
    rcases List.mem_append.1 hx with hx | hx
    · obtain ⟨c, hc, rfl⟩ := List.mem_map.1 hx
      exact hkeep c (ha c (List.mem_of_mem_take hc))
    · refine forall_zipMut_mem (P := fun x => L x.1 ∧ x.2 = x.1.toRat) (Q := Q) (L := L) ?_ ?_ _ _ ?_ hb x hx
      · intro x hx
        have := hkeep x.1 hx.1
        rwa [← hx.2] at this
      · intro x y hx hy
        simp only [hx.2]
        exact hop _ _ hx.1 hy
      · intro x hx
        obtain ⟨c, hc, rfl⟩ := List.mem_map.1 hx
        exact ⟨ha c (List.mem_of_mem_drop hc), rfl⟩
  · rw [List.map_append, map_zipMut Prod.fst _ (fun x y => op x y) (fun _ _ => rfl), List.map_map, List.map_map]
    simp [Function.comp_def]
  · rw [List.map_append, map_zipMut Prod.snd _ (fun x y => x + g y) (fun _ _ => rfl), List.map_map,
      List.map_map, descPoly_append,
      descPoly_zipMut_add g _ (fun _ _ => rfl) _ _ (by simp; omega)]
    have e : ∀ l : List (Fl f), l.map (Prod.snd ∘ fun c => (c, c.toRat)) = l.map toRat := by
      intro l; simp [Function.comp_def]
    rw [e, e]
    have h1 : (List.map toRat (List.drop (a.length - b.length) a)).length - b.length = 0 := by
      simp; omega
    have h2 : (zipMut (fun x y => x + g y) (List.map toRat (List.drop (a.length - b.length) a)) b).length =
        (a.map toRat).length - (a.length - b.length) := by simp
    rw [h1, h2, pow_zero, mul_one, ← add_assoc]
    congr 1
    rw [List.map_take, List.map_drop]
    exact (descPoly_take_drop (a.map toRat) (a.length - b.length)).symm

theorem add_comm' (x y : Fl f) : x + y = y + x := by
  rw [add_def, add_def]
  cases x <;> cases y <;> simp only [add]
  · rename_i s t
    cases s <;> cases t <;> rfl
  · rename_i s a t b
    by_cases hst : s = t
    · subst hst; simp [add_comm]
    · have hts : t ≠ s := fun h => hst h.symm
      rw [if_neg hst, if_neg hts]
      by_cases hab : a = b
      · subst hab; simp
      · have hba : b ≠ a := fun h => hab h.symm
        rw [if_neg hab, if_neg hba]
        by_cases hlt : b < a
        · rw [if_pos hlt, if_neg (by omega)]
        · rw [if_neg hlt, if_pos (by omega)]

theorem sub_rev (x y : Fl f) (h : (y - x).isFinite = true) :
    |(y - x).toRat - (-x.toRat + y.toRat)| ≤ uro f * |-x.toRat + y.toRat| := by
  have := sub_error h
  rw [show -x.toRat + y.toRat = y.toRat - x.toRat by ring]
  exact this

/-- `+` and `+=` with a predicate on every coefficient and its exact value. -/
theorem add_state (Q : Fl f × ℚ → Prop) (L : Fl f → Prop) (hkeep : ∀ c, L c → Q (c, c.toRat))
    (hop : ∀ x y, L x → L y → Q (x + y, x.toRat + y.toRat)) (p q : Poly (Fl f)) (hp : ∀ c ∈ p.terms, L c)
    (hq : ∀ c ∈ q.terms, L c) :
    (∃ r, p.add q = .ok r ∧ ∃ T : List (Fl f × ℚ), (∀ x ∈ T, Q x) ∧ r.terms = (T.map Prod.fst).dropWhile isZero ∧
      descPoly (T.map Prod.snd) = descPoly (p.terms.map toRat) + descPoly (q.terms.map toRat)) ∧
    (∃ r, p.addAssign q = .ok r ∧ ∃ T : List (Fl f × ℚ), (∀ x ∈ T, Q x) ∧ r.terms = T.map Prod.fst ∧
      descPoly (T.map Prod.snd) = descPoly (p.terms.map toRat) + descPoly (q.terms.map toRat)) := by
  have key : ∀ a b : List (Fl f), b.length ≤ a.length → (∀ c ∈ a, L c) → (∀ c ∈ b, L c) →
      ∃ T : List (Fl f × ℚ), (∀ x ∈ T, Q x) ∧
      T.map Prod.fst = a.take (a.length - b.length) ++ zipMut (fun x y => x + y) (a.drop (a.length - b.length)) b ∧
      descPoly (T.map Prod.snd) = descPoly (a.map toRat) + descPoly (b.map toRat) :=
    fun a b hab ha hb => zip_state Q L hkeep (fun x y => x + y) toRat hop a b hab ha hb
  constructor
  · unfold Poly.add
    by_cases hlt : q.terms.length > p.terms.length
    · simp only [if_pos hlt]
      refine ⟨_, by simp [sliceFrom]; rfl, ?_⟩
      obtain ⟨T, h1, h2, h3⟩ := key q.terms p.terms (by omega) hq hp
      rw [new_terms]
      exact ⟨T, h1, by rw [h2], by rw [h3, add_comm]⟩
    · simp only [if_neg hlt]
      refine ⟨_, by simp [sliceFrom]; rfl, ?_⟩
      obtain ⟨T, h1, h2, h3⟩ := key p.terms q.terms (by omega) hp hq
      rw [new_terms]
      exact ⟨T, h1, by rw [h2], h3⟩
  · unfold Poly.addAssign
    by_cases hlt : q.terms.length > p.terms.length
    · simp only [if_pos hlt]
      refine ⟨_, by simp [sliceFrom]; rfl, ?_⟩
      obtain ⟨T, h1, h2, h3⟩ := key q.terms p.terms (by omega) hq hp
      exact ⟨T, h1, by rw [h2], by rw [h3, add_comm]⟩
    · simp only [if_neg hlt]
      refine ⟨_, by simp [sliceFrom]; rfl, ?_⟩
      obtain ⟨T, h1, h2, h3⟩ := key p.terms q.terms (by omega) hp hq
      exact ⟨T, h1, by rw [h2], h3⟩

theorem R1_same (c : Fl f) : R1 (c, c.toRat) := by
  intro _
  have := uro_nonneg (f := f)
  simp only [sub_self, abs_zero]
  positivity

/-- C67: `+` and `+=` of float polynomials return normally, and if the result is finite every coefficient is
the exact sum of the coefficients up to one rounding. -/
theorem C67_add (p q : Poly (Fl f)) :
    (∃ r, p.add q = .ok r ∧ ((∀ c ∈ r.terms, c.isFinite = true) → ∀ k,
      |(descPoly (r.terms.map toRat) - (descPoly (p.terms.map toRat) + descPoly (q.terms.map toRat))).coeff k| ≤
        uro f * |(descPoly (p.terms.map toRat) + descPoly (q.terms.map toRat)).coeff k|)) ∧
    (∃ r, p.addAssign q = .ok r ∧ ((∀ c ∈ r.terms, c.isFinite = true) → ∀ k,
      |(descPoly (r.terms.map toRat) - (descPoly (p.terms.map toRat) + descPoly (q.terms.map toRat))).coeff k| ≤
        uro f * |(descPoly (p.terms.map toRat) + descPoly (q.terms.map toRat)).coeff k|)) := by
  obtain ⟨⟨r, h, T, h1, h2, h3⟩, ⟨r', h', T', h1', h2', h3'⟩⟩ := add_state R1 (fun _ => True)
    (fun c _ => R1_same c) (fun x y _ _ h => add_error h) p q (fun _ _ => trivial) (fun _ _ => trivial)
  refine ⟨⟨r, h, fun hf k => ?_⟩, ⟨r', h', fun hf k => ?_⟩⟩
  · rw [h2] at hf ⊢
    rw [descPoly_dropWhile_toRat _ toRat_fin_zero, ← h3]
    exact coeff_R1 h1 (finite_of_dropWhile hf) k
  · rw [h2'] at hf ⊢
    rw [← h3']
    exact coeff_R1 h1' hf k

/-- C67: addition of float polynomials does not depend on the order of the operands, to the last bit. -/
theorem C67_add_comm (p q : Poly (Fl f)) : p.add q = q.add p := by
  have hz : ∀ a b : List (Fl f), a.length = b.length →
      zipMut (fun x y => x + y) a b = zipMut (fun x y => x + y) b a := by
    intro a
    induction a with
    | nil => intro b h; rw [List.length_eq_zero_iff.1 h.symm]
    | cons x a ih =>
      intro b h
      cases b with
      | nil => simp at h
      | cons y b => rw [zipMut_cons, zipMut_cons, add_comm', ih b (by simpa using h)]
  unfold Poly.add
  rcases lt_trichotomy p.terms.length q.terms.length with h | h | h
  · have h' : ¬ p.terms.length > q.terms.length := by omega
    simp only [if_pos h, if_neg h']
  · have h1 : ¬ q.terms.length > p.terms.length := by omega
    have h2 : ¬ p.terms.length > q.terms.length := by omega
    simp only [if_neg h1, if_neg h2]
    simp only [h, Nat.sub_self, List.take_zero, List.nil_append]
    simp only [sliceFrom, Nat.zero_le, if_true, Res.ok_bind, List.drop_zero]
    rw [hz _ _ h]
  · have h' : ¬ q.terms.length > p.terms.length := by omega
    simp only [if_pos h, if_neg h']

/-- `-` by value and by reference with a predicate on every coefficient and its exact value. -/
theorem sub_state (Q : Fl f × ℚ → Prop) (L : Fl f → Prop) (hkeep : ∀ c, L c → Q (c, c.toRat)) (hneg : ∀ c, L c → L (-c))
    (hop : ∀ x y, L x → L y → Q (x - y, x.toRat - y.toRat)) (p q : Poly (Fl f)) (hp : ∀ c ∈ p.terms, L c)
    (hq : ∀ c ∈ q.terms, L c) :
    (∃ r, p.sub q = .ok r ∧ ∃ T : List (Fl f × ℚ), (∀ x ∈ T, Q x) ∧ r.terms = T.map Prod.fst ∧
      descPoly (T.map Prod.snd) = descPoly (p.terms.map toRat) - descPoly (q.terms.map toRat)) ∧
    (∃ r, p.subRef q = .ok r ∧ ∃ T : List (Fl f × ℚ), (∀ x ∈ T, Q x) ∧ r.terms = T.map Prod.fst ∧
      descPoly (T.map Prod.snd) = descPoly (p.terms.map toRat) - descPoly (q.terms.map toRat)) := by
  have hmap : ∀ l : List (Fl f), descPoly (l.map fun c => -c.toRat) = -descPoly (l.map toRat) := by
    intro l
    rw [← descPoly_map_neg, List.map_map]
    rfl
  -- the long operand is on the left
  have key1 : ∀ a b : List (Fl f), b.length ≤ a.length → (∀ c ∈ a, L c) → (∀ c ∈ b, L c) →
      ∃ T : List (Fl f × ℚ), (∀ x ∈ T, Q x) ∧
      a.take (a.length - b.length) ++ zipMut (fun x y => x - y) (a.drop (a.length - b.length)) b = T.map Prod.fst ∧
      descPoly (T.map Prod.snd) = descPoly (a.map toRat) - descPoly (b.map toRat) := by
    intro a b hab ha hb
    obtain ⟨T, h1, h2, h3⟩ := zip_state Q L hkeep (fun x y => x - y) (fun c => -c.toRat) (fun x y hx hy => by
      rw [← sub_eq_add_neg]; exact hop x y hx hy) a b hab ha hb
    rw [hmap, ← sub_eq_add_neg] at h3
    exact ⟨T, h1, h2.symm, h3⟩
  -- the long operand is on the right
  have key2 : ∀ a b : List (Fl f), b.length ≤ a.length → (∀ c ∈ a, L c) → (∀ c ∈ b, L c) →
      ∃ T : List (Fl f × ℚ), (∀ x ∈ T, Q x) ∧
      (a.take (a.length - b.length)).map (fun t => -t) ++
          zipMut (fun term val => val - term) (a.drop (a.length - b.length)) b = T.map Prod.fst ∧
      descPoly (T.map Prod.snd) = descPoly (b.map toRat) - descPoly (a.map toRat) := by
    intro a b hab ha hb
    obtain ⟨T, h1, h2, h3⟩ := zip_state Q L hkeep (fun x y => y - (-x)) toRat (fun x y hx hy => by
      have := hop y (-x) hy (hneg x hx)
      rw [toRat_neg] at this
      rw [show x.toRat + y.toRat = y.toRat - -x.toRat by ring]; exact this) (a.map fun t => -t) b (by simpa using hab)
      (fun c hc => by obtain ⟨d, hd, rfl⟩ := List.mem_map.1 hc; exact hneg d (ha d hd)) hb
    have e : (a.map fun t => -t).take ((a.map fun t => -t).length - b.length) ++
        zipMut (fun x y => y - (-x)) ((a.map fun t => -t).drop ((a.map fun t => -t).length - b.length)) b =
        (a.take (a.length - b.length)).map (fun t => -t) ++
          zipMut (fun term val => val - term) (a.drop (a.length - b.length)) b := by
      rw [List.length_map, List.map_take]
      congr 1
      have : ∀ l m : List (Fl f), m.length = l.length →
          zipMut (fun x y => y - (-x)) (l.map fun t => -t) m = zipMut (fun term val => val - term) l m := by
        intro l
        induction l with
        | nil => intro m _; simp
        | cons x l ih =>
          intro m hm
          cases m with
          | nil => simp at hm
          | cons y m =>
            rw [List.map_cons, zipMut_cons, zipMut_cons, ih m (by simpa using hm)]
            have : - -x = x := by rw [neg_def, neg_def]; cases x <;> simp [neg]
            rw [this]
      rw [← List.map_drop, this _ _ (by simp; omega)]
    rw [e] at h2
    have hng : descPoly ((a.map fun t => -t).map toRat) = -descPoly (a.map toRat) := by
      rw [← hmap, List.map_map]
      congr 1
      exact List.map_congr_left fun c _ => toRat_neg c
    rw [hng, neg_add_eq_sub] at h3
    exact ⟨T, h1, h2.symm, h3⟩
  have hsw : ∀ l m : List (Fl f), m.length = l.length →
      zipMut (fun l r => l - r) m l = zipMut (fun term val => val - term) l m := by
    intro l
    induction l with
    | nil => intro m h; rw [List.length_eq_zero_iff.1 h, zipMut_nil_left, zipMut_nil_left]
    | cons x l ih =>
      intro m hm
      cases m with
      | nil => simp at hm
      | cons y m => rw [zipMut_cons, zipMut_cons, ih m (by simpa using hm)]
  constructor
  · unfold Poly.sub
    by_cases hlt : q.terms.length > p.terms.length
    · simp only [if_pos hlt]
      exact ⟨_, rfl, key2 q.terms p.terms (by omega) hq hp⟩
    · simp only [if_neg hlt]
      exact ⟨_, by simp [sliceFrom], key1 p.terms q.terms (by omega) hp hq⟩
  · unfold Poly.subRef
    by_cases hlt : q.terms.length > p.terms.length
    · simp only [if_pos hlt]
      refine ⟨_, rfl, ?_⟩
      dsimp only
      rw [hsw _ _ (by simp; omega)]
      exact key2 q.terms p.terms (by omega) hq hp
    · simp only [if_neg hlt]
      exact ⟨_, by simp [sliceFrom], key1 p.terms q.terms (by omega) hp hq⟩

/-- C67: subtraction likewise, for owned and borrowed right-hand sides. -/
theorem C67_sub (p q : Poly (Fl f)) :
    (∃ r, p.sub q = .ok r ∧ ((∀ c ∈ r.terms, c.isFinite = true) → ∀ k,
      |(descPoly (r.terms.map toRat) - (descPoly (p.terms.map toRat) - descPoly (q.terms.map toRat))).coeff k| ≤
        uro f * |(descPoly (p.terms.map toRat) - descPoly (q.terms.map toRat)).coeff k|)) ∧
    (∃ r, p.subRef q = .ok r ∧ ((∀ c ∈ r.terms, c.isFinite = true) → ∀ k,
      |(descPoly (r.terms.map toRat) - (descPoly (p.terms.map toRat) - descPoly (q.terms.map toRat))).coeff k| ≤
        uro f * |(descPoly (p.terms.map toRat) - descPoly (q.terms.map toRat)).coeff k|)) := by
  obtain ⟨⟨r, h, T, h1, h2, h3⟩, ⟨r', h', T', h1', h2', h3'⟩⟩ := sub_state R1 (fun _ => True)
    (fun c _ => R1_same c) (fun _ _ => trivial) (fun x y _ _ h => sub_error h) p q (fun _ _ => trivial)
    (fun _ _ => trivial)
  refine ⟨⟨r, h, fun hf k => ?_⟩, ⟨r', h', fun hf k => ?_⟩⟩
  · rw [h2] at hf ⊢
    rw [← h3]
    exact coeff_R1 h1 hf k
  · rw [h2'] at hf ⊢
    rw [← h3']
    exact coeff_R1 h1' hf k

/-- C67: negation is exact. -/
theorem C67_neg (p : Poly (Fl f)) : descPoly (p.neg.terms.map toRat) = -descPoly (p.terms.map toRat) := by
  unfold Poly.neg
  rw [List.map_map, ← descPoly_map_neg, List.map_map]
  congr 1
  exact List.map_congr_left fun c _ => toRat_neg c

theorem coeff_scalar {g h : Fl f → ℚ} {B : ℚ → ℚ} (hB : 0 ≤ B 0) (l : List (Fl f))
    (hl : ∀ c ∈ l, |g c - h c| ≤ B (h c)) (k : Nat) :
    |(descPoly (l.map g) - descPoly (l.map h)).coeff k| ≤ B ((descPoly (l.map h)).coeff k) := by
  rw [coeff_sub]
  rcases coeff_cases l k with ⟨x, hx, e⟩ | e
  · rw [e, e]; exact hl x hx
  · rw [e, e]; simpa using hB

/-- C67: multiplication by a scalar (`*` and `*=`): one rounding per coefficient. -/
theorem C67_mul_scalar (p : Poly (Fl f)) (a : Fl f) :
    ((∀ c ∈ (p.mulScalar a).terms, c.isFinite = true) → ∀ k,
      |(descPoly ((p.mulScalar a).terms.map toRat) - descPoly (p.terms.map toRat) * C a.toRat).coeff k| ≤
        uro f * |(descPoly (p.terms.map toRat) * C a.toRat).coeff k| + eta f) ∧
    ((∀ c ∈ (p.mulAssignScalar a).terms, c.isFinite = true) → ∀ k,
      |(descPoly ((p.mulAssignScalar a).terms.map toRat) - descPoly (p.terms.map toRat) * C a.toRat).coeff k| ≤
        uro f * |(descPoly (p.terms.map toRat) * C a.toRat).coeff k| + eta f) := by
  have hη := eta_nonneg (f := f)
  have key : (∀ c ∈ p.terms.map (fun x => x * a), c.isFinite = true) → ∀ k,
      |(descPoly ((p.terms.map (fun x => x * a)).map toRat) - descPoly (p.terms.map toRat) * C a.toRat).coeff k| ≤
        uro f * |(descPoly (p.terms.map toRat) * C a.toRat).coeff k| + eta f := by
    intro hf k
    rw [List.map_map, ← descPoly_map_mul_right, List.map_map]
    refine coeff_scalar (B := fun y => uro f * |y| + eta f) (by simpa using hη) p.terms (fun c hc => ?_) k
    exact mul_error (hf _ (List.mem_map_of_mem hc))
  constructor
  · unfold Poly.mulScalar
    rw [new_terms]
    intro hf k
    rw [descPoly_dropWhile_toRat _ toRat_fin_zero]
    exact key (finite_of_dropWhile hf) k
  · exact key

theorem mapM_rdiv (l : List (Fl f)) (a : Fl f) :
    (l.mapM (fun x => rdiv x a) : Res (List (Fl f))) = .ok (l.map fun x => div x a) := by
  induction l with
  | nil => rfl
  | cons c l ih =>
    rw [List.mapM_cons, ih]
    rfl

/-- C67: division by a finite non-zero scalar (`/` and `/=`) never panics: one rounding per coefficient. -/
theorem C67_div_scalar (p : Poly (Fl f)) (a : Fl f) (ha : a.isFinite = true) (ha0 : a.toRat ≠ 0) :
    (∃ r, p.divScalar a = .ok r ∧ ((∀ c ∈ p.terms, c.isFinite = true) → (∀ c ∈ r.terms, c.isFinite = true) →
      ∀ k, |(descPoly (r.terms.map toRat) - descPoly (p.terms.map toRat) * C (a.toRat)⁻¹).coeff k| ≤
        uro f * |(descPoly (p.terms.map toRat) * C (a.toRat)⁻¹).coeff k| + eta f)) ∧
    (∃ r, p.divAssignScalar a = .ok r ∧ ((∀ c ∈ p.terms, c.isFinite = true) →
      (∀ c ∈ r.terms, c.isFinite = true) →
      ∀ k, |(descPoly (r.terms.map toRat) - descPoly (p.terms.map toRat) * C (a.toRat)⁻¹).coeff k| ≤
        uro f * |(descPoly (p.terms.map toRat) * C (a.toRat)⁻¹).coeff k| + eta f)) := by
  have hη := eta_nonneg (f := f)
  have key : (∀ c ∈ p.terms, c.isFinite = true) →
      (∀ c ∈ p.terms.map (fun x => div x a), c.isFinite = true) → ∀ k,
      |(descPoly ((p.terms.map (fun x => div x a)).map toRat) -
        descPoly (p.terms.map toRat) * C (a.toRat)⁻¹).coeff k| ≤
        uro f * |(descPoly (p.terms.map toRat) * C (a.toRat)⁻¹).coeff k| + eta f := by
    intro hp hf k
    rw [List.map_map, ← descPoly_map_mul_right, List.map_map]
    refine coeff_scalar (B := fun y => uro f * |y| + eta f) (by simpa using hη) p.terms (fun c hc => ?_) k
    simp only [Function.comp_apply, ← div_eq_mul_inv]
    exact div_error (hp c hc) ha ha0 (hf _ (List.mem_map_of_mem hc))
  constructor
  · unfold Poly.divScalar
    rw [mapM_rdiv]
    refine ⟨_, rfl, ?_⟩
    rw [new_terms]
    intro hp hf k
    rw [descPoly_dropWhile_toRat _ toRat_fin_zero]
    exact key hp (finite_of_dropWhile hf) k
  · unfold Poly.divAssignScalar
    rw [mapM_rdiv]
    exact ⟨_, rfl, key⟩

/-- C67: addition is not associative. -/
theorem C67_add_assoc_false :
    let a : Poly (Fl binary64) := ⟨[ofNat (2 ^ 53)]⟩
    let b : Poly (Fl binary64) := ⟨[1]⟩
    ((a.add b).bind fun r => r.add b) = .ok ⟨[ofNat (2 ^ 53)]⟩ ∧
    ((b.add b).bind fun r => a.add r) = .ok ⟨[ofNat (2 ^ 53 + 2)]⟩ := by
  decide +kernel

-- x^2 + 0.1 plus -x^2 + 0.2, and a quotient by 3
example : (⟨[1, 0, div 1 (ofNat 10)]⟩ : Poly (Fl binary64)).add ⟨[-1, 0, div 1 (ofNat 5)]⟩ =
    .ok ⟨[div 1 (ofNat 10) + div 1 (ofNat 5)]⟩ := by decide +kernel
example : ∃ r, (⟨[1, 0, ofNat 7]⟩ : Poly (Fl binary64)).divScalar (ofNat 3) = .ok r ∧
    (∀ c ∈ r.terms, c.isFinite = true) ∧ (ofNat 3 : Fl binary64).isFinite = true ∧
    isZero (ofNat 3 : Fl binary64) = false :=
  ⟨⟨[div 1 (ofNat 3), 0, div (ofNat 7) (ofNat 3)]⟩, by decide +kernel⟩

/-! ## C68 – the product -/

/-- State of one coefficient of the product after `c` summands: float, exact sum, sum of absolute values. -/
def Bnd (c : Nat) (x : Fl f × ℚ × ℚ) : Prop :=
  |x.2.1| ≤ x.2.2 ∧ (x.1.isFinite = true →
    |x.1.toRat - x.2.1| ≤ ((1 + uro f) ^ (c + 1) - 1) * x.2.2 + c * (1 + uro f) ^ c * eta f)

theorem Bnd_mono {c d : Nat} (h : c ≤ d) (x : Fl f × ℚ × ℚ) (hx : Bnd c x) : Bnd d x := by
  refine ⟨hx.1, fun hf => (hx.2 hf).trans ?_⟩
  have hu := uro_nonneg (f := f)
  have hη := eta_nonneg (f := f)
  have hA : 0 ≤ x.2.2 := (abs_nonneg _).trans hx.1
  have h1 : (1 : ℚ) ≤ 1 + uro f := by linarith
  have h2 : (c : ℚ) ≤ d := by exact_mod_cast h
  have h3 : (1 + uro f) ^ c ≤ (1 + uro f) ^ d := pow_le_pow_right₀ h1 h
  have h4 : (1 + uro f) ^ (c + 1) ≤ (1 + uro f) ^ (d + 1) := pow_le_pow_right₀ h1 (by omega)
  have h5 : (c : ℚ) * (1 + uro f) ^ c ≤ d * (1 + uro f) ^ d := by gcongr
  have h6 := mul_le_mul_of_nonneg_right h5 hη
  have h7 := mul_le_mul_of_nonneg_right h4 hA
  linarith

theorem Bnd_step {c : Nat} (x : Fl f × ℚ × ℚ) (hx : Bnd c x) (r l : Fl f) :
    Bnd (c + 1) (x.1 + r * l, x.2.1 + r.toRat * l.toRat, x.2.2 + |r.toRat| * |l.toRat|) := by
  obtain ⟨t, s, a⟩ := x
  obtain ⟨hsa, hE⟩ := hx
  simp only at hsa hE
  refine ⟨?_, fun hf => ?_⟩
  · simp only
    refine (abs_add_le _ _).trans ?_
    rw [abs_mul]; linarith
  · simp only at hf ⊢
    obtain ⟨hft, hfm⟩ := finite_of_add hf
    have hE := hE hft
    have h1 := add_error hf
    have h2 := mul_error hfm
    have hu := uro_nonneg (f := f)
    have hη := eta_nonneg (f := f)
    have hA : 0 ≤ a := (abs_nonneg _).trans hsa
    rw [← abs_mul]
    generalize (t + r * l).toRat = z at *
    generalize (r * l).toRat = m at *
    generalize r.toRat * l.toRat = w at *
    generalize t.toRat = t at *
    have hg : 1 ≤ (1 + uro f) ^ c := one_le_pow₀ (by linarith)
    push_cast
    rw [pow_succ] at hE
    rw [pow_succ, pow_succ]
    generalize (1 + uro f) ^ c = g at *
    generalize uro f = u at *
    generalize eta f = η at *
    have hw := abs_nonneg w
    have e1 : |z - (s + w)| ≤ |z - (t + m)| + |t - s| + |m - w| := by
      have : z - (s + w) = (z - (t + m)) + (t - s) + (m - w) := by ring
      rw [this]
      exact (abs_add_le _ _).trans (by have := abs_add_le (z - (t + m)) (t - s); linarith)
    have e2 : |t + m| ≤ a + |t - s| + |w| + |m - w| := by
      have : t + m = s + (t - s) + w + (m - w) := by ring
      rw [this]
      have i1 := abs_add_le (s + (t - s) + w) (m - w)
      have i2 := abs_add_le (s + (t - s)) w
      have i3 := abs_add_le s (t - s)
      linarith
    have e3 : u * |t + m| ≤ u * (a + |t - s| + |w| + |m - w|) := mul_le_mul_of_nonneg_left e2 hu
    have e4 : (1 + u) * |t - s| ≤ (1 + u) * ((g * (1 + u) - 1) * a + c * g * η) :=
      mul_le_mul_of_nonneg_left hE (by linarith)
    have e5 : (1 + u) * |m - w| ≤ (1 + u) * (u * |w| + η) := mul_le_mul_of_nonneg_left h2 (by linarith)
    have e6 : (1 + u) * (1 + u) * |w| ≤ g * ((1 + u) * (1 + u)) * |w| := by
      refine mul_le_mul_of_nonneg_right ?_ hw
      exact le_mul_of_one_le_left (by positivity) hg
    have e7 : (1 + u) * η ≤ g * ((1 + u) * η) := le_mul_of_one_le_left (by positivity) hg
    nlinarith

theorem Bnd_first {n : Nat} (r l : Fl f) : Bnd (n + 1) (r * l, r.toRat * l.toRat, |r.toRat| * |l.toRat|) := by
  refine Bnd_mono (c := 1) (by omega) _ ⟨by simp [abs_mul], fun hf => ?_⟩
  have h := mul_error hf
  have hu := uro_nonneg (f := f)
  have hη := eta_nonneg (f := f)
  simp only at hf ⊢
  rw [← abs_mul]
  have h1 := abs_nonneg (r.toRat * l.toRat)
  generalize |r.toRat * l.toRat| = w at *
  push_cast
  nlinarith [mul_nonneg hu h1, mul_nonneg hu hη, mul_nonneg (mul_nonneg hu hu) h1]

/-- The laws that the loops of the product need of a predicate on the coefficients after `c` summands, for factors
with coefficients in `L`. -/
structure MulInv (L : Fl f → Prop) (B : Nat → Fl f × ℚ × ℚ → Prop) : Prop where
  mono : ∀ {c d : Nat}, c ≤ d → ∀ x, B c x → B d x
  zero : B 0 (0, 0, 0)
  step : ∀ {c : Nat} (x : Fl f × ℚ × ℚ), B c x → ∀ r l, L r → L l →
    B (c + 1) (x.1 + r * l, x.2.1 + r.toRat * l.toRat, x.2.2 + |r.toRat| * |l.toRat|)
  first : ∀ {c : Nat} (r l : Fl f), L r → L l → B (c + 1) (r * l, r.toRat * l.toRat, |r.toRat| * |l.toRat|)

theorem mulInv_Bnd : MulInv (f := f) (fun _ => True) Bnd :=
  ⟨Bnd_mono, ⟨by simp, fun _ => by simp⟩, fun x hx r l _ _ => Bnd_step x hx r l, fun r l _ _ => Bnd_first r l⟩

theorem mulLoop_state {L : Fl f → Prop} {B : Nat → Fl f × ℚ × ℚ → Prop} (hB : MulInv L B) (lhs : List (Fl f))
    (hlhs : ∀ c ∈ lhs, L c) : ∀ (rest : List (Fl f)) (index : Nat) (T : List (Fl f × ℚ × ℚ))
    (c : Nat), (∀ x ∈ T, B c x) → (∀ c ∈ rest, L c) → T.length + 1 = index + rest.length + lhs.length →
    ∃ T' : List (Fl f × ℚ × ℚ), sliceMulLoop lhs rest index (T.map Prod.fst) = .ok (T'.map Prod.fst) ∧
      (∀ x ∈ T', B (c + rest.length) x) ∧
      descPoly (T'.map fun x => x.2.1) = descPoly (T.map fun x => x.2.1) +
        descPoly (rest.map toRat) * descPoly (lhs.map toRat) ∧
      descPoly (T'.map fun x => x.2.2) = descPoly (T.map fun x => x.2.2) +
        descPoly (rest.map fun x => |x.toRat|) * descPoly (lhs.map fun x => |x.toRat|)
  | [], index, T, c, hT, _, _ => ⟨T, rfl, hT, by simp, by simp⟩
  | r :: rest, index, T, c, hT, hrest, h => by
    simp only [List.length_cons] at h
    by_cases hr : isZero r = true
    · obtain ⟨T', h1, h2, h3, h4⟩ := mulLoop_state hB lhs hlhs rest (index + 1) T c hT
        (fun c hc => hrest c (by simp [hc])) (by omega)
      obtain ⟨s, rfl⟩ := isZero_iff.1 hr
      refine ⟨T', ?_, fun x hx => hB.mono (by simp) x (h2 x hx), ?_, ?_⟩
      · simp [sliceMulLoop, sliceMulStep, hr, h1]
      · rw [h3, List.map_cons, descPoly_cons, toRat_fin_zero]; simp
      · rw [h4, List.map_cons, descPoly_cons, toRat_fin_zero]; simp
    · have hidx : index ≤ T.length := by omega
      have hbnd : ∀ x ∈ T.take index ++ zipMut (fun x l => (x.1 + r * l, x.2.1 + r.toRat * l.toRat,
          x.2.2 + |r.toRat| * |l.toRat|)) (T.drop index) lhs, B (c + 1) x := by
        intro x hx
        rcases List.mem_append.1 hx with hx | hx
        · exact hB.mono (by omega) x (hT x (List.mem_of_mem_take hx))
        · exact forall_zipMut_mem (P := B c) (L := L) (fun x hx => hB.mono (by omega) x hx)
            (fun x y hx hy => hB.step x hx r y (hrest r (by simp)) hy) _ _
            (fun x hx => hT x (List.mem_of_mem_drop hx)) hlhs x hx
      obtain ⟨T', h1, h2, h3, h4⟩ := mulLoop_state hB lhs hlhs rest (index + 1) _ (c + 1) hbnd
        (fun c hc => hrest c (by simp [hc])) (by simp; omega)
      refine ⟨T', ?_, fun x hx => ?_, ?_, ?_⟩
      · rw [List.map_append, map_zipMut Prod.fst _ (fun t l => t + r * l) (fun _ _ => rfl)] at h1
        simp only [sliceMulLoop, sliceMulStep, hr, sliceFrom, List.length_map, hidx, if_true]
        rw [← h1, List.map_take, List.map_drop]
        rfl
      · have := h2 x hx
        rwa [List.length_cons, ← Nat.add_assoc, Nat.add_right_comm]
      · rw [h3, List.map_append, map_zipMut (fun x : Fl f × ℚ × ℚ => x.2.1) _
          (fun s l => s + r.toRat * l.toRat) (fun _ _ => rfl), List.map_take, List.map_drop, List.map_cons,
          descPoly_cons,
          descPoly_take_append (P := C r.toRat * X ^ rest.length * descPoly (lhs.map toRat)) (by simp)]
        · rw [List.length_map]; ring
        · rw [descPoly_zipMut_add (fun l : Fl f => r.toRat * l.toRat) (fun (s : ℚ) (l : Fl f) => s + r.toRat * l.toRat) (fun _ _ => rfl) _ _ (by simp; omega)]
          have e1 : lhs.map (fun l => r.toRat * l.toRat) = (lhs.map toRat).map (fun x => r.toRat * x) := by
            simp [Function.comp_def]
          have e2 : ((T.map fun x => x.2.1).drop index).length - lhs.length = rest.length := by simp; omega
          rw [e1, descPoly_map_mul_left, e2]
          ring
      · rw [h4, List.map_append, map_zipMut (fun x : Fl f × ℚ × ℚ => x.2.2) _
          (fun s l => s + |r.toRat| * |l.toRat|) (fun _ _ => rfl), List.map_take, List.map_drop, List.map_cons,
          descPoly_cons,
          descPoly_take_append (P := C |r.toRat| * X ^ rest.length * descPoly (lhs.map fun x => |x.toRat|))
            (by simp)]
        · rw [List.length_map]; ring
        · rw [descPoly_zipMut_add (fun l : Fl f => |r.toRat| * |l.toRat|) (fun (s : ℚ) (l : Fl f) => s + |r.toRat| * |l.toRat|) (fun _ _ => rfl) _ _ (by simp; omega)]
          have e1 : lhs.map (fun l => |r.toRat| * |l.toRat|) =
              (lhs.map fun x => |x.toRat|).map (fun x => |r.toRat| * x) := by
            simp [Function.comp_def]
          have e2 : ((T.map fun x => x.2.2).drop index).length - lhs.length = rest.length := by simp; omega
          rw [e1, descPoly_map_mul_left, e2]
          ring

theorem sliceMul_state {L : Fl f → Prop} {B : Nat → Fl f × ℚ × ℚ → Prop} (hB : MulInv L B) (a b : List (Fl f))
    (ha : ∀ c ∈ a, L c) (hb : ∀ c ∈ b, L c) (out : List (Fl f)) (h : sliceMul a b = .ok out) :
    ∃ T : List (Fl f × ℚ × ℚ), out = T.map Prod.fst ∧ (∀ x ∈ T, B b.length x) ∧
      descPoly (T.map fun x => x.2.1) = descPoly (a.map toRat) * descPoly (b.map toRat) ∧
      descPoly (T.map fun x => x.2.2) =
        descPoly (a.map fun x => |x.toRat|) * descPoly (b.map fun x => |x.toRat|) := by
  unfold sliceMul at h
  simp only [sliceFrom, firstNonzeroIndex_le, if_true, Res.ok_bind, drop_firstNonzeroIndex] at h
  obtain ⟨len, hlen, h⟩ := Res.bind_eq_ok.1 h
  unfold usub at hlen
  split at hlen
  · rename_i hl
    cases hlen
    obtain ⟨T', h1, h2, h3, h4⟩ := mulLoop_state hB (a.dropWhile isZero)
      (fun c hc => ha c ((List.dropWhile_suffix isZero).subset hc)) (b.dropWhile isZero) 0
      (List.replicate ((b.dropWhile isZero).length + (a.dropWhile isZero).length - 1) (0, 0, 0)) 0
      (by
        intro x hx
        rw [(List.mem_replicate.1 hx).2]
        exact hB.zero) (fun c hc => hb c ((List.dropWhile_suffix isZero).subset hc)) (by simp; omega)
    rw [List.map_replicate] at h1
    rw [h1] at h
    cases h
    have hz : ∀ n, descPoly (List.replicate n (0 : ℚ)) = 0 := fun n => by simp
    have hs : ∀ s : Bool, (fun x : Fl f => |x.toRat|) (fin s 0) = 0 := fun s => by
      simp [toRat_fin_zero]
    refine ⟨T', rfl, fun x hx => hB.mono ?_ x (h2 x hx), ?_, ?_⟩
    · rw [Nat.zero_add]
      exact (List.dropWhile_suffix isZero).length_le
    · rw [h3, List.map_replicate, hz, zero_add, descPoly_dropWhile_toRat _ toRat_fin_zero,
        descPoly_dropWhile_toRat _ toRat_fin_zero, mul_comm]
    · rw [h4, List.map_replicate, hz, zero_add, descPoly_dropWhile_toRat _ hs,
        descPoly_dropWhile_toRat _ hs, mul_comm]
  · cases hlen

/-- C68: every coefficient of a finite product is the exact coefficient up to the rounding of `n + 1` steps
(`n` is the number of coefficients of the right factor), relative to the product of the polynomials with
absolute coefficients; the last term counts underflows.  For `*` and `*=` with owned right-hand side. -/
theorem C68_mul_error (p q r : Poly (Fl f)) (h : p.mul q = .ok r ∨ p.mulRef q = .ok r)
    (hr : ∀ c ∈ r.terms, c.isFinite = true) (k : Nat) :
    |(descPoly (r.terms.map toRat) - descPoly (p.terms.map toRat) * descPoly (q.terms.map toRat)).coeff k| ≤
      ((1 + uro f) ^ (q.terms.length + 1) - 1) *
        (descPoly (p.terms.map fun c => |c.toRat|) * descPoly (q.terms.map fun c => |c.toRat|)).coeff k +
      q.terms.length * (1 + uro f) ^ q.terms.length * eta f := by
  have key : ∀ out : List (Fl f), sliceMul p.terms q.terms = .ok out → (∀ c ∈ out, c.isFinite = true) →
      |(descPoly (out.map toRat) - descPoly (p.terms.map toRat) * descPoly (q.terms.map toRat)).coeff k| ≤
      ((1 + uro f) ^ (q.terms.length + 1) - 1) *
        (descPoly (p.terms.map fun c => |c.toRat|) * descPoly (q.terms.map fun c => |c.toRat|)).coeff k +
      q.terms.length * (1 + uro f) ^ q.terms.length * eta f := by
    intro out ho hf
    obtain ⟨T, rfl, h2, h3, h4⟩ := sliceMul_state mulInv_Bnd _ _ (fun _ _ => trivial) (fun _ _ => trivial) _ ho
    rw [← h3, ← h4, coeff_sub, List.map_map]
    rcases coeff_cases T k with ⟨x, hx, e⟩ | e
    · rw [e, e, e]
      exact (h2 x hx).2 (hf _ (List.mem_map_of_mem hx))
    · rw [e, e, e]
      have hu := uro_nonneg (f := f)
      have hη := eta_nonneg (f := f)
      simp only [sub_self, abs_zero, mul_zero, zero_add]
      positivity
  rcases h with h | h
  · obtain ⟨out, h1, h2⟩ := Res.bind_eq_ok.1 h
    cases h2
    exact key out h1 hr
  · obtain ⟨out, h1, h2⟩ := Res.bind_eq_ok.1 h
    cases h2
    rw [new_terms] at hr ⊢
    rw [descPoly_dropWhile_toRat _ toRat_fin_zero]
    exact key out h1 (finite_of_dropWhile hr)

theorem dropWhile_nil_iff (l : List (Fl f)) : l.dropWhile isZero = [] ↔ ∀ c ∈ l, isZero c = true :=
  List.dropWhile_eq_nil_iff

/-- C68: the product panics exactly when both factors have only zero coefficients. -/
theorem C68_mul_panics_iff (p q : Poly (Fl f)) :
    (p.mul q = .panic ↔ (∀ c ∈ p.terms, isZero c = true) ∧ ∀ c ∈ q.terms, isZero c = true) ∧
    ((∃ r, p.mul q = .ok r) ↔ ¬ ((∀ c ∈ p.terms, isZero c = true) ∧ ∀ c ∈ q.terms, isZero c = true)) := by
  have key : (p.mul q = .panic ∧ ((∀ c ∈ p.terms, isZero c = true) ∧ ∀ c ∈ q.terms, isZero c = true)) ∨
      ((∃ r, p.mul q = .ok r) ∧ ¬ ((∀ c ∈ p.terms, isZero c = true) ∧ ∀ c ∈ q.terms, isZero c = true)) := by
    rw [← dropWhile_nil_iff, ← dropWhile_nil_iff]
    unfold Poly.mul sliceMul
    simp only [sliceFrom, firstNonzeroIndex_le, if_true, Res.ok_bind, drop_firstNonzeroIndex]
    by_cases hl : 1 ≤ (q.terms.dropWhile isZero).length + (p.terms.dropWhile isZero).length
    · right
      simp only [usub, hl, if_true, Res.ok_bind]
      refine ⟨?_, ?_⟩
      · obtain ⟨T', h1, _⟩ := mulLoop_state mulInv_Bnd (p.terms.dropWhile isZero) (fun _ _ => trivial)
          (q.terms.dropWhile isZero) 0
          (List.replicate ((q.terms.dropWhile isZero).length + (p.terms.dropWhile isZero).length - 1) (0, 0, 0))
          0 (by
            intro x hx
            rw [(List.mem_replicate.1 hx).2]
            exact mulInv_Bnd.zero) (fun _ _ => trivial) (by simp; omega)
        rw [List.map_replicate] at h1
        rw [h1]
        exact ⟨_, rfl⟩
      · rintro ⟨h1, h2⟩
        rw [h1, h2] at hl
        simp at hl
    · left
      simp only [usub, hl, if_false]
      refine ⟨rfl, ?_, ?_⟩ <;> rw [← List.length_eq_zero_iff] <;> omega
  rcases key with ⟨h1, h2⟩ | ⟨⟨r, h1⟩, h2⟩
  · rw [h1]
    exact ⟨⟨fun _ => h2, fun _ => rfl⟩, ⟨fun ⟨_, h⟩ => (by cases h), fun h => absurd h2 h⟩⟩
  · rw [h1]
    exact ⟨⟨fun h => (by cases h), fun h => absurd h h2⟩, ⟨fun _ => h2, fun _ => ⟨_, rfl⟩⟩⟩

/-- C68: the product depends on the order of the factors in the last bits. -/
theorem C68_mul_comm_false :
    let a : Poly (Fl binary64) := ⟨[1, 1, 1]⟩
    let b : Poly (Fl binary64) := ⟨[1, 1, ofNat (2 ^ 53)]⟩
    (∃ r s, a.mul b = .ok r ∧ b.mul a = .ok s ∧ r.eq s = false) := by
  refine ⟨⟨[1, ofNat 2, ofNat (2 ^ 53 + 2), ofNat (2 ^ 53), ofNat (2 ^ 53)]⟩,
    ⟨[1, ofNat 2, ofNat (2 ^ 53), ofNat (2 ^ 53), ofNat (2 ^ 53)]⟩, ?_⟩
  decide +kernel

-- (x + 0.1)(x - 0.1)
example : ∃ r, (⟨[1, div 1 (ofNat 10)]⟩ : Poly (Fl binary64)).mul ⟨[1, -div 1 (ofNat 10)]⟩ = .ok r ∧
    ∀ c ∈ r.terms, c.isFinite = true :=
  ⟨⟨[1, 0, -(div 1 (ofNat 10) * div 1 (ofNat 10))]⟩, by decide +kernel⟩

/-! ## C69 – derivative and integral -/

theorem toRat_one : (1 : Fl f).toRat = 1 := by
  show (fin false (2 ^ f.q) : Fl f).toRat = 1
  have : (2 : ℚ) ^ f.q ≠ 0 := by positivity
  simp [toRat, this]

theorem isFinite_one : (1 : Fl f).isFinite = true := rfl

/-- Counting down is exact. -/
theorem pred_exact (hp : 1 ≤ f.p) (hw : f.p + f.q ≤ f.w) {d : Fl f} {m : Nat} (hd : d.isFinite = true)
    (hm : d.toRat = ((m + 1 : Nat) : ℚ)) (hle : m < 2 ^ f.p) :
    (d - 1).isFinite = true ∧ (d - 1).toRat = (m : ℚ) := by
  have h := int_add hp hw (x := d) (y := -1) (a := (m + 1 : ℤ)) (b := -1) hd
    (by rw [isFinite_neg]; rfl) (by rw [hm]; push_cast; rfl) (by rw [toRat_neg, toRat_one]; simp)
    (by
      push_cast
      rw [show ((m : ℚ) + 1 + -1) = m by ring, abs_of_nonneg (by positivity)]
      exact_mod_cast hle)
  rw [sub_def]
  refine ⟨h.1, ?_⟩
  rw [h.2]
  push_cast
  ring

/-- The loop of the derivative, with a predicate `Q` on every coefficient and its exact value, for coefficients
in `L`. -/
theorem derivLoop_state (hp : 1 ≤ f.p) (hw : f.p + f.q ≤ f.w) (Q : Fl f × ℚ → Prop) (L : Fl f → Prop)
    (hop : ∀ (x y : Fl f) (n : Nat), L x → y.isFinite = true → y.toRat = n → Q (x * y, x.toRat * n)) :
    ∀ (xs : List (Fl f)) (d : Fl f), (∀ c ∈ xs, L c) →
    d.isFinite = true → d.toRat = ((xs.length + 1 : Nat) : ℚ) → xs.length < 2 ^ f.p →
    ∃ T : List (Fl f × ℚ), T.map Prod.fst = Poly.derivLoop xs d ∧ (∀ x ∈ T, Q x) ∧
      T.length = xs.length ∧
      descPoly (T.map Prod.snd) = derivative (descPoly (xs.map toRat) * X)
  | [], _, _, _, _, _ => ⟨[], rfl, by simp, rfl, by simp⟩
  | x :: xs, d, hL, hd, hm, hle => by
    rw [List.length_cons] at hm hle
    obtain ⟨g1, g2⟩ := pred_exact hp hw hd hm hle
    obtain ⟨T, h1, h2, h3, h4⟩ := derivLoop_state hp hw Q L hop xs (d - 1) (fun c hc => hL c (by simp [hc])) g1
      (by rw [g2]) (by omega)
    refine ⟨(x * (d - 1), x.toRat * ((xs.length + 1 : Nat) : ℚ)) :: T, ?_, ?_, ?_, ?_⟩
    · rw [List.map_cons, h1]; rfl
    · intro y hy
      rcases List.mem_cons.1 hy with rfl | hy
      · exact hop x (d - 1) (xs.length + 1) (hL x (by simp)) g1 g2
      · exact h2 y hy
    · simp [h3]
    · rw [List.map_cons, descPoly_cons, List.length_map, h3, h4, List.map_cons, descPoly_cons, List.length_map,
        add_mul, derivative_add, mul_assoc, ← pow_succ, derivative_C_mul_X_pow]
      simp

theorem R1_mul_nat (x y : Fl f) (n : Nat) (hn : y.toRat = n) : R1 (x * y, x.toRat * n) := by
  intro hf
  have := mul_int_error hf hn
  rwa [hn] at this

theorem derivLoop_error (hp : 1 ≤ f.p) (hw : f.p + f.q ≤ f.w) (xs : List (Fl f)) (d : Fl f)
    (hd : d.isFinite = true) (hm : d.toRat = ((xs.length + 1 : Nat) : ℚ)) (hle : xs.length < 2 ^ f.p) :
    ∃ T : List (Fl f × ℚ), T.map Prod.fst = Poly.derivLoop xs d ∧ (∀ x ∈ T, R1 x) ∧
      T.length = xs.length ∧
      descPoly (T.map Prod.snd) = derivative (descPoly (xs.map toRat) * X) :=
  derivLoop_state hp hw R1 (fun _ => True) (fun x y n _ _ hn => R1_mul_nat x y n hn) xs d (fun _ _ => trivial) hd hm hle

/-- What the conversion of a count gives: the exact number, at most `2^p`. -/
def CountLaw (f : FlFmt) [FromUsizeCont (Fl f)] : Prop :=
  ∀ (n : Nat) (d : Fl f), tryFromCont n = some d → d.isFinite = true ∧ d.toRat = n ∧ n ≤ 2 ^ f.p

theorem ofNat_exact (hw : f.p + f.q < f.w) {n : Nat} (hp : 2 ≤ f.p) (h : n ≤ 2 ^ f.p) :
    (pack false (roundNat f.p (roundNat f.p n) * 2 ^ f.q) : Fl f).isFinite = true ∧
      (pack false (roundNat f.p (roundNat f.p n) * 2 ^ f.q) : Fl f).toRat = n := by
  have hrep : Representable f.p n := by
    rcases h.lt_or_eq with h | rfl
    · exact ⟨n, 0, h, by simp⟩
    · exact ⟨1, f.p, Nat.one_lt_two_pow (by omega), by simp⟩
  rw [roundNat_of_representable hrep, roundNat_of_representable hrep]
  have hlt : n * 2 ^ f.q < 2 ^ f.w := by
    calc n * 2 ^ f.q ≤ 2 ^ f.p * 2 ^ f.q := Nat.mul_le_mul_right _ h
      _ = 2 ^ (f.p + f.q) := by rw [pow_add]
      _ < 2 ^ f.w := Nat.pow_lt_pow_right (by norm_num) hw
  have hf : (pack false (n * 2 ^ f.q) : Fl f).isFinite = true := pack_isFinite.2 hlt
  refine ⟨hf, ?_⟩
  rw [toRat_pack hf]
  have : (2 : ℚ) ^ f.q ≠ 0 := by positivity
  push_cast
  simp [this]

theorem countLaw64 : CountLaw binary64 := by
  intro n d h
  change (tryFromUsizeContF64 n).map ofNat = some d at h
  unfold tryFromUsizeContF64 at h
  split at h
  · simp at h
  · rename_i hn
    have hle : n ≤ 2 ^ 53 := by
      have : 2 <<< 51 = 2 ^ 52 := by decide
      omega
    simp only [Option.map_some, Option.some.injEq] at h
    subst h
    have := ofNat_exact (f := binary64) (by decide) (by decide) hle
    exact ⟨this.1, this.2, hle⟩

theorem countLaw32 : CountLaw binary32 := by
  intro n d h
  change (tryFromUsizeContF32 n).map ofNat = some d at h
  unfold tryFromUsizeContF32 at h
  split at h
  · simp at h
  · rename_i hn
    have hle : n ≤ 2 ^ 24 := by
      have : 2 <<< 23 = 2 ^ 24 := by decide
      omega
    simp only [Option.map_some, Option.some.injEq] at h
    subst h
    have := ofNat_exact (f := binary32) (by decide) (by decide) hle
    exact ⟨this.1, this.2, hle⟩

theorem derivative_state [FromUsizeCont (Fl f)] (hl : CountLaw f) (hp : 1 ≤ f.p) (hw : f.p + f.q ≤ f.w)
    (Q : Fl f × ℚ → Prop) (L : Fl f → Prop)
    (hop : ∀ (x y : Fl f) (n : Nat), L x → y.isFinite = true → y.toRat = n → Q (x * y, x.toRat * n))
    (p r : Poly (Fl f)) (h : p.derivative = .ok r) (hL : ∀ c ∈ p.terms, L c) :
    ∃ T : List (Fl f × ℚ), r.terms = T.map Prod.fst ∧ (∀ x ∈ T, Q x) ∧
      descPoly (T.map Prod.snd) = derivative (descPoly (p.terms.map toRat)) := by
  unfold Poly.derivative at h
  simp only [drop_firstNonzeroIndex] at h
  have hlen := firstNonzeroIndex_add p.terms
  have hlen' : p.terms.length - firstNonzeroIndex p.terms = (p.terms.dropWhile isZero).length := by omega
  rw [hlen'] at h
  rw [← descPoly_dropWhile_toRat _ toRat_fin_zero p.terms]
  have hL' : ∀ c ∈ p.terms.dropWhile isZero, L c := fun c hc => hL c ((List.dropWhile_suffix isZero).subset hc)
  generalize p.terms.dropWhile isZero = l at *
  split at h
  · cases h
  · rename_i d hd
    obtain ⟨d1, d2, d3⟩ := hl _ _ hd
    rcases List.eq_nil_or_concat l with rfl | ⟨l', c, rfl⟩
    · cases h
      exact ⟨[], rfl, by simp, by simp⟩
    · rw [List.concat_eq_append] at *
      have hne : l' ++ [c] ≠ [] := by simp
      obtain ⟨x, xs, hx⟩ := List.exists_cons_of_ne_nil hne
      rw [hx] at h
      simp only at h
      rw [← hx] at h
      rw [List.dropLast_concat] at h
      cases h
      simp only [List.length_append, List.length_cons, List.length_nil, Nat.zero_add] at d2 d3
      obtain ⟨T, t1, t2, t3, t4⟩ := derivLoop_state hp hw Q L hop l' d
        (fun c hc => hL' c (by simp [hc])) d1 d2 (by omega)
      have e : derivative (descPoly ((l' ++ [c]).map toRat)) = descPoly (T.map Prod.snd) := by
        rw [t4, List.map_append, descPoly_append]
        simp [descPoly_cons]
      exact ⟨T, t1.symm, t2, e.symm⟩

theorem derivative_error [FromUsizeCont (Fl f)] (hl : CountLaw f) (hp : 1 ≤ f.p) (hw : f.p + f.q ≤ f.w)
    (p r : Poly (Fl f)) (h : p.derivative = .ok r) (hr : ∀ c ∈ r.terms, c.isFinite = true) (k : Nat) :
    |(descPoly (r.terms.map toRat) - derivative (descPoly (p.terms.map toRat))).coeff k| ≤
      uro f * |(derivative (descPoly (p.terms.map toRat))).coeff k| := by
  obtain ⟨T, h1, h2, h3⟩ := derivative_state hl hp hw R1 (fun _ => True) (fun x y n _ _ hn => R1_mul_nat x y n hn) p r h
    (fun _ _ => trivial)
  rw [h1] at hr ⊢
  rw [← h3]
  exact coeff_R1 h2 hr k

/-- C69: every coefficient of the derivative of an `f64` or `f32` polynomial is rounded once. -/
theorem C69_derivative_f64 (p r : Poly (Fl binary64)) (h : p.derivative = .ok r)
    (hr : ∀ c ∈ r.terms, c.isFinite = true) (k : Nat) :
    |(descPoly (r.terms.map toRat) - derivative (descPoly (p.terms.map toRat))).coeff k| ≤
      uro binary64 * |(derivative (descPoly (p.terms.map toRat))).coeff k| :=
  derivative_error countLaw64 (by decide) (by decide) p r h hr k

/-- C69: the same for `f32`. -/
theorem C69_derivative_f32 (p r : Poly (Fl binary32)) (h : p.derivative = .ok r)
    (hr : ∀ c ∈ r.terms, c.isFinite = true) (k : Nat) :
    |(descPoly (r.terms.map toRat) - derivative (descPoly (p.terms.map toRat))).coeff k| ≤
      uro binary32 * |(derivative (descPoly (p.terms.map toRat))).coeff k| :=
  derivative_error countLaw32 (by decide) (by decide) p r h hr k

theorem integLoop_error (hp : 1 ≤ f.p) (hw : f.p + f.q ≤ f.w) : ∀ (xs : List (Fl f)) (d : Fl f),
    d.isFinite = true → d.toRat = (xs.length : ℚ) → xs.length ≤ 2 ^ f.p →
    ∃ T : List (Fl f × ℚ), Poly.integLoop xs d = .ok (T.map Prod.fst) ∧
      ((∀ c ∈ xs, c.isFinite = true) →
        ∀ x ∈ T, x.1.isFinite = true → |x.1.toRat - x.2| ≤ uro f * |x.2| + eta f) ∧
      T.length = xs.length ∧
      derivative (descPoly (T.map Prod.snd) * X) = descPoly (xs.map toRat)
  | [], _, _, _, _ => ⟨[], rfl, by simp, rfl, by simp⟩
  | x :: xs, d, hd, hm, hle => by
    rw [List.length_cons] at hm hle
    obtain ⟨g1, g2⟩ := pred_exact hp hw hd hm (by omega)
    obtain ⟨T, h1, h2, h3, h4⟩ := integLoop_error hp hw xs (d - 1) g1 g2 (by omega)
    have hd0 : d.toRat ≠ 0 := by rw [hm]; positivity
    refine ⟨(div x d, x.toRat / ((xs.length + 1 : Nat) : ℚ)) :: T, ?_, ?_, ?_, ?_⟩
    · rw [Poly.integLoop, h1]; rfl
    · intro hx y hy
      rcases List.mem_cons.1 hy with rfl | hy
      · intro hf
        have := div_error (hx x (by simp)) hd hd0 hf
        rwa [hm] at this
      · exact h2 (fun c hc => hx c (by simp [hc])) y hy
    · simp [h3]
    · rw [List.map_cons, descPoly_cons, List.length_map, h3, List.map_cons, descPoly_cons, List.length_map,
        add_mul, derivative_add, h4, mul_assoc, ← pow_succ, derivative_C_mul_X_pow]
      have : ((xs.length + 1 : Nat) : ℚ) ≠ 0 := by positivity
      rw [div_mul_cancel₀ _ this]
      simp

theorem integral_error [FromUsizeCont (Fl f)] (hl : CountLaw f) (hp : 1 ≤ f.p) (hw : f.p + f.q ≤ f.w)
    (p r : Poly (Fl f)) (h : p.integral = .ok r) (hpf : ∀ c ∈ p.terms, c.isFinite = true)
    (hr : ∀ c ∈ r.terms, c.isFinite = true) :
    (descPoly (r.terms.map toRat)).coeff 0 = 0 ∧ ∀ k,
    |(descPoly (r.terms.map toRat)).coeff (k + 1) - (descPoly (p.terms.map toRat)).coeff k / (k + 1)| ≤
      uro f * |(descPoly (p.terms.map toRat)).coeff k / (k + 1)| + eta f := by
  unfold Poly.integral at h
  simp only [drop_firstNonzeroIndex] at h
  have hlen := firstNonzeroIndex_add p.terms
  have hlen' : p.terms.length - firstNonzeroIndex p.terms = (p.terms.dropWhile isZero).length := by omega
  rw [hlen'] at h
  rw [← descPoly_dropWhile_toRat _ toRat_fin_zero p.terms]
  have hpf' : ∀ c ∈ p.terms.dropWhile isZero, c.isFinite = true :=
    fun c hc => hpf c ((List.dropWhile_suffix isZero).subset hc)
  generalize p.terms.dropWhile isZero = l at *
  split at h
  · cases h
  · rename_i d hd
    obtain ⟨d1, d2, d3⟩ := hl _ _ hd
    obtain ⟨T, t1, t2, t3, t4⟩ := integLoop_error hp hw l d d1 d2 d3
    rw [t1] at h
    cases h
    simp only [List.map_append, List.map_cons, List.map_nil, toRat_zero] at hr ⊢
    have e : descPoly (((T.map Prod.fst).map toRat) ++ [0]) = descPoly ((T.map Prod.fst).map toRat) * X := by
      rw [descPoly_append]; simp [descPoly_cons]
    rw [e]
    refine ⟨by simp, fun k => ?_⟩
    have hk : (descPoly (l.map toRat)).coeff k / (k + 1) = (descPoly (T.map Prod.snd)).coeff k := by
      rw [← t4, coeff_derivative, coeff_mul_X]
      have : (k : ℚ) + 1 ≠ 0 := by positivity
      field_simp
    rw [hk, coeff_mul_X, List.map_map]
    rcases coeff_cases T k with ⟨x, hx, e⟩ | e
    · rw [e, e]
      exact t2 hpf' x hx (hr _ (List.mem_append_left _ (List.mem_map_of_mem hx)))
    · rw [e, e]
      have hη := eta_nonneg (f := f)
      simpa using hη

/-- C69: every coefficient of the integral of an `f64` polynomial is rounded once, and the constant is 0. -/
theorem C69_integral_f64 (p r : Poly (Fl binary64)) (h : p.integral = .ok r)
    (hp : ∀ c ∈ p.terms, c.isFinite = true) (hr : ∀ c ∈ r.terms, c.isFinite = true) :
    (descPoly (r.terms.map toRat)).coeff 0 = 0 ∧ ∀ k,
    |(descPoly (r.terms.map toRat)).coeff (k + 1) - (descPoly (p.terms.map toRat)).coeff k / (k + 1)| ≤
      uro binary64 * |(descPoly (p.terms.map toRat)).coeff k / (k + 1)| + eta binary64 :=
  integral_error countLaw64 (by decide) (by decide) p r h hp hr

/-- C69: the same for `f32`. -/
theorem C69_integral_f32 (p r : Poly (Fl binary32)) (h : p.integral = .ok r)
    (hp : ∀ c ∈ p.terms, c.isFinite = true) (hr : ∀ c ∈ r.terms, c.isFinite = true) :
    (descPoly (r.terms.map toRat)).coeff 0 = 0 ∧ ∀ k,
    |(descPoly (r.terms.map toRat)).coeff (k + 1) - (descPoly (p.terms.map toRat)).coeff k / (k + 1)| ≤
      uro binary32 * |(descPoly (p.terms.map toRat)).coeff k / (k + 1)| + eta binary32 :=
  integral_error countLaw32 (by decide) (by decide) p r h hp hr

/-- C69: derivative and integral of an `f64` polynomial panic only beyond `2^52` coefficients, of an `f32`
polynomial beyond `2^24`. -/
theorem C69_returns (p : Poly (Fl binary64)) (q : Poly (Fl binary32))
    (hp : p.terms.length ≤ 2 ^ 52) (hq : q.terms.length ≤ 2 ^ 24) :
    (∃ r, p.derivative = .ok r) ∧ (∃ r, p.integral = .ok r) ∧
    (∃ r, q.derivative = .ok r) ∧ (∃ r, q.integral = .ok r) := by
  have hi : ∀ {g : FlFmt} (xs : List (Fl g)) (d : Fl g), ∃ ys, Poly.integLoop xs d = .ok ys := by
    intro g xs
    induction xs with
    | nil => intro d; exact ⟨[], rfl⟩
    | cons x xs ih =>
      intro d
      obtain ⟨ys, h⟩ := ih (d - 1)
      exact ⟨div x d :: ys, by rw [Poly.integLoop, h]; rfl⟩
  have h64 : ∀ n, n ≤ 2 ^ 52 → ∃ d, (tryFromCont n : Option (Fl binary64)) = some d := by
    intro n hn
    refine ⟨ofNat (roundNat 53 n), ?_⟩
    change (tryFromUsizeContF64 n).map ofNat = _
    unfold tryFromUsizeContF64
    have : 2 <<< 51 = 2 ^ 52 := by decide
    rw [if_neg (by omega)]
    rfl
  have h32 : ∀ n, n ≤ 2 ^ 24 → ∃ d, (tryFromCont n : Option (Fl binary32)) = some d := by
    intro n hn
    refine ⟨ofNat (roundNat 24 n), ?_⟩
    change (tryFromUsizeContF32 n).map ofNat = _
    unfold tryFromUsizeContF32
    have : 2 <<< 23 = 2 ^ 24 := by decide
    rw [if_neg (by omega)]
    rfl
  obtain ⟨d, hd⟩ := h64 (p.terms.length - firstNonzeroIndex p.terms) (by omega)
  obtain ⟨e, he⟩ := h32 (q.terms.length - firstNonzeroIndex q.terms) (by omega)
  refine ⟨?_, ?_, ?_, ?_⟩
  · unfold Poly.derivative
    dsimp only
    rw [hd]
    dsimp only
    split <;> exact ⟨_, rfl⟩
  · unfold Poly.integral
    dsimp only
    rw [hd]
    obtain ⟨ys, h⟩ := hi (p.terms.drop (firstNonzeroIndex p.terms)) d
    dsimp only
    rw [h]
    exact ⟨_, rfl⟩
  · unfold Poly.derivative
    dsimp only
    rw [he]
    dsimp only
    split <;> exact ⟨_, rfl⟩
  · unfold Poly.integral
    dsimp only
    rw [he]
    obtain ⟨ys, h⟩ := hi (q.terms.drop (firstNonzeroIndex q.terms)) e
    dsimp only
    rw [h]
    exact ⟨_, rfl⟩

-- 0.1 x^3 + x + 7: derivative 0.3 x^2 + 1 (with 0.1 * 3 rounded), integral with thirds rounded
example : (⟨[div 1 (ofNat 10), 0, 1, ofNat 7]⟩ : Poly (Fl binary64)).derivative =
    .ok ⟨[div 1 (ofNat 10) * ofNat 3, 0, 1]⟩ := by decide +kernel
example : (⟨[1, 0, ofNat 7]⟩ : Poly (Fl binary64)).integral =
    .ok ⟨[div 1 (ofNat 3), 0, ofNat 7, 0]⟩ := by decide +kernel

end Fl
end Rustnomial
