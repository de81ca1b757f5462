import Verif.Model.Checked
import Verif.Props.DenseMul
import Verif.Props.DenseShift
import Verif.Props.DenseCalc
import Verif.Props.Sqrt

/-!
# Lemmas about arithmetic on machine integers
-/

open Polynomial

namespace Rustnomial

/-- `m` returns `v` exactly under the condition `P`, and panics otherwise. -/
def Chk {α : Type} (P : Prop) (m : Res α) (v : α) : Prop := (P → m = .ok v) ∧ (¬ P → m = .panic)

namespace Chk
variable {α β : Type}

theorem ok (v : α) : Chk True (.ok v) v := ⟨fun _ => rfl, fun h => absurd trivial h⟩

theorem of_iff {P Q : Prop} {m : Res α} {v : α} (h : Chk P m v) (e : P ↔ Q) : Chk Q m v :=
  ⟨fun q => h.1 (e.2 q), fun q => h.2 (fun p => q (e.1 p))⟩

theorem bind {P Q : Prop} {m : Res α} {v : α} {f : α → Res β} {w : β} (h : Chk P m v)
    (hf : P → Chk Q (f v) w) : Chk (P ∧ Q) (m >>= f) w := by
  constructor
  · rintro ⟨p, q⟩; rw [h.1 p, Res.ok_bind]; exact (hf p).1 q
  · intro hn
    by_cases p : P
    · rw [h.1 p, Res.ok_bind]; exact (hf p).2 (fun q => hn ⟨p, q⟩)
    · rw [h.2 p, Res.panic_bind]

theorem map {P : Prop} {m : Res α} {v : α} (f : α → β) (h : Chk P m v) :
    Chk P (m >>= fun a => .ok (f a)) (f v) :=
  (h.bind (fun _ => ok (f v))).of_iff (by simp)

end Chk

theorem IntTy.zero_inRange (t : IntTy) : t.InRange 0 := by
  unfold IntTy.InRange IntTy.min IntTy.max
  have h1 : (0 : Int) < 2 ^ (t.bits - 1) := by positivity
  have h2 : (0 : Int) < 2 ^ t.bits := by positivity
  cases t.signed <;> simp <;> omega

theorem chk_result (t : IntTy) (v : Int) : Chk (t.InRange v) (t.result true v) v :=
  ⟨fun h => by simp [IntTy.result, IntTy.checked, h], fun h => by simp [IntTy.result, IntTy.checked, h]⟩

theorem chk_mapM {α β : Type} {f : α → Res β} {g : α → β} {P : α → Prop} :
    ∀ (l : List α), (∀ x ∈ l, Chk (P x) (f x) (g x)) → Chk (∀ x ∈ l, P x) (l.mapM f) (l.map g)
  | [], _ => (Chk.ok _).of_iff (by simp)
  | x :: l, h => by
    rw [List.mapM_cons]
    exact ((h x (by simp)).bind (fun _ => (chk_mapM l (fun y hy => h y (by simp [hy]))).map
      (fun ys => g x :: ys))).of_iff (by simp)

theorem chk_zipMutM {α β : Type} {f : α → β → Res α} {g : α → β → α} {P : α → β → Prop}
    (h : ∀ x y, Chk (P x y) (f x y) (g x y)) :
    ∀ (xs : List α) (ys : List β), Chk (∀ z ∈ xs.zip ys, P z.1 z.2) (zipMutM f xs ys) (zipMut g xs ys)
  | [], ys => by simpa [zipMutM] using Chk.ok ([] : List α) |>.of_iff (by simp)
  | x :: xs, [] => (Chk.ok _).of_iff (by simp)
  | x :: xs, y :: ys => by
    simp only [zipMutM, zipMut_cons]
    exact ((h x y).bind (fun _ => (chk_zipMutM h xs ys).map (fun zs => g x y :: zs))).of_iff (by simp)

/-- All the values of a `zipMut` in range: the untouched ones are. -/
theorem zipMut_all {α β : Type} {g : α → β → α} {R : α → Prop} :
    ∀ (xs : List α) (ys : List β), (∀ x ∈ xs, R x) →
      ((∀ z ∈ xs.zip ys, R (g z.1 z.2)) ↔ ∀ z ∈ zipMut g xs ys, R z)
  | [], ys, _ => by simp
  | x :: xs, [], h => by simpa using h
  | x :: xs, y :: ys, h => by
    have := zipMut_all (g := g) (R := R) xs ys (fun z hz => h z (by simp [hz]))
    simp [← this]

theorem chk_modifyM {α : Type} {f : α → Res α} {g : α → α} {P : α → Prop}
    (h : ∀ x, Chk (P x) (f x) (g x)) : ∀ (l : List α) (i : Nat) (hi : i < l.length),
      Chk (P l[i]) (modifyM f l i) (l.modify i g)
  | x :: l, 0, _ => by
    simpa [modifyM] using (h x).map (fun y => y :: l)
  | x :: l, i + 1, hi => by
    simpa [modifyM] using (chk_modifyM h l i (by simpa using hi)).map (fun y => x :: y)

/-- Every coefficient of a list in range, in terms of the represented polynomial. -/
theorem inRange_descPoly (t : IntTy) (l : List Int) :
    (∀ x ∈ l, t.InRange x) ↔ ∀ d, t.InRange ((descPoly l).coeff d) := by
  constructor
  · intro h d
    by_cases hd : d < l.length
    · rw [coeff_descPoly_of_lt hd, List.getD_eq_getElem _ _ (by omega)]
      exact h _ (List.getElem_mem _)
    · rw [coeff_descPoly_of_le (by omega)]; exact t.zero_inRange
  · intro h x hx
    obtain ⟨i, hi, rfl⟩ := List.getElem_of_mem hx
    have := h (l.length - i - 1)
    rw [coeff_descPoly_of_lt (by omega), List.getD_eq_getElem _ _ (by omega)] at this
    convert this using 2; omega

theorem inRange_drop {t : IntTy} {l : List Int} (h : ∀ x ∈ l, t.InRange x) (n : Nat) :
    ∀ x ∈ l.drop n, t.InRange x := fun x hx => h x (List.mem_of_mem_drop hx)

theorem inRange_take {t : IntTy} {l : List Int} (h : ∀ x ∈ l, t.InRange x) (n : Nat) :
    ∀ x ∈ l.take n, t.InRange x := fun x hx => h x (List.mem_of_mem_take hx)

/-! ## Wrapping -/

theorem IntTy.wrap_zero (t : IntTy) : t.wrap 0 = 0 := by
  unfold IntTy.wrap; cases t.signed <;> simp

theorem IntTy.wrap_modEq (t : IntTy) (v : Int) : t.wrap v ≡ v [ZMOD 2 ^ t.bits] := by
  unfold IntTy.wrap
  have e : ((2 ^ t.bits : Nat) : Int) = 2 ^ t.bits := by push_cast; rfl
  cases t.signed
  · simp only [Bool.false_eq_true, if_false]; rw [← e]; exact Int.mod_modEq _ _
  · simp only [if_true]; rw [← e]
    exact Int.bmod_emod

theorem IntTy.wrap_congr (t : IntTy) {a b : Int} (h : a ≡ b [ZMOD 2 ^ t.bits]) : t.wrap a = t.wrap b := by
  unfold IntTy.wrap
  have e : ((2 ^ t.bits : Nat) : Int) = 2 ^ t.bits := by push_cast; rfl
  have h' : a % ((2 ^ t.bits : Nat) : Int) = b % ((2 ^ t.bits : Nat) : Int) := by rw [e]; exact h
  cases t.signed
  · simpa using h'
  · simp only [if_true, Int.bmod, h']

theorem IntTy.wrap_inRange (t : IntTy) (hb : 1 ≤ t.bits) (v : Int) : t.InRange (t.wrap v) := by
  unfold IntTy.InRange IntTy.min IntTy.max IntTy.wrap
  obtain ⟨s, b⟩ := t
  obtain ⟨b, rfl⟩ : ∃ b', b = b' + 1 := ⟨b - 1, by simp at hb; omega⟩
  have h2 : (0 : Int) < 2 ^ b := by positivity
  have e : ((2 ^ (b + 1) : Nat) : Int) = 2 * 2 ^ b := by push_cast; ring
  cases s
  · simp only [Bool.false_eq_true, if_false]
    have h1 := Int.emod_nonneg v (b := ((2 ^ (b + 1) : Nat) : Int)) (by omega)
    have h3 := Int.emod_lt_of_pos v (b := ((2 ^ (b + 1) : Nat) : Int)) (by omega)
    refine ⟨h1, ?_⟩
    have : (2 : Int) ^ (b + 1) = 2 * 2 ^ b := by ring
    omega
  · simp only [if_true, Nat.add_sub_cancel]
    have hp : 0 < 2 ^ (b + 1) := by positivity
    have h1 := Int.le_bmod (x := v) hp
    have h3 := Int.bmod_lt (x := v) hp
    rw [e] at h1 h3
    omega

end Rustnomial
