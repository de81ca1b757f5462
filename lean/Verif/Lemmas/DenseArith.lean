import Verif.Lemmas.TermList
import Mathlib.Tactic.Abel
import Mathlib.Tactic.NoncommRing

open Polynomial

namespace Rustnomial

section Semiring
variable {R : Type} [Semiring R]

theorem descPoly_map_mul_left (r : R) (l : List R) :
    descPoly (l.map (fun x => r * x)) = C r * descPoly l := by
  induction l with
  | nil => simp
  | cons c cs ih => simp [descPoly_cons, ih, mul_add, mul_assoc]

theorem descPoly_zipMut_add {M : Type} (g : M → R) (f : R → M → R) (hf : ∀ x y, f x y = x + g y) :
    ∀ (xs : List R) (ys : List M), ys.length ≤ xs.length →
    descPoly (zipMut f xs ys)
      = descPoly xs + descPoly (ys.map g) * X ^ (xs.length - ys.length)
  | [], ys, h => by
    have : ys = [] := by simpa using h
    subst this; simp
  | x :: xs, [], h => by simp
  | x :: xs, y :: ys, h => by
    simp only [List.length_cons, Nat.add_le_add_iff_right] at h
    have ih := descPoly_zipMut_add g f hf xs ys h
    simp only [zipMut_cons, descPoly_cons, length_zipMut, List.map_cons, List.length_map,
      List.length_cons, Nat.add_sub_add_right, ih, hf, C_add, add_mul, mul_assoc, ← pow_add]
    rw [Nat.add_sub_cancel' h]
    abel

theorem foldl_horner (x : R) (l : List R) : ∀ s : R,
    l.foldl (fun sum val => (sum + val) * x) s = s * x ^ l.length + (descPoly l).eval x * x := by
  induction l with
  | nil => intro s; simp
  | cons c cs ih =>
    intro s
    simp only [List.foldl_cons, ih, descPoly_cons, eval_add, List.length_cons]
    rw [eval_mul_X_pow, eval_C, add_mul, add_mul, add_mul, pow_succ', mul_assoc, mul_assoc, mul_assoc,
      ← pow_succ', ← pow_succ, add_assoc]

theorem descPoly_take_drop (l : List R) (o : Nat) :
    descPoly l = descPoly (l.take o) * X ^ (l.length - o) + descPoly (l.drop o) := by
  conv_lhs => rw [← List.take_append_drop o l]
  rw [descPoly_append, List.length_drop]

theorem descPoly_take_append {l t : List R} {o : Nat} (ht : t.length = l.length - o) (P : R[X])
    (h : descPoly t = descPoly (l.drop o) + P) : descPoly (l.take o ++ t) = descPoly l + P := by
  rw [descPoly_append, ht, h, ← add_assoc, ← descPoly_take_drop]

theorem descPoly_modify_add (l : List R) (i : Nat) (c : R) (h : i < l.length) :
    descPoly (l.modify i (· + c)) = descPoly l + C c * X ^ (l.length - i - 1) := by
  induction l generalizing i with
  | nil => simp at h
  | cons a l ih =>
    cases i with
    | zero =>
      simp [descPoly_cons, add_mul]; abel
    | succ i =>
      simp only [List.length_cons, Nat.add_lt_add_iff_right] at h
      simp only [List.modify_succ_cons, descPoly_cons, List.length_modify, ih i h, List.length_cons,
        Nat.add_sub_add_right, add_assoc]

end Semiring

section Ring
variable {R : Type} [Ring R]

theorem descPoly_map_neg (l : List R) : descPoly (l.map (fun x => -x)) = - descPoly l := by
  induction l with
  | nil => simp
  | cons c cs ih => simp [descPoly_cons, ih]; abel

theorem descPoly_zipMut_rsub : ∀ (a b : List R), a.length = b.length →
    descPoly (zipMut (fun term val => val - term) a b) = descPoly b - descPoly a
  | [], [], _ => by simp
  | x :: xs, y :: ys, h => by
    simp only [List.length_cons, Nat.add_right_cancel_iff] at h
    simp only [zipMut_cons, descPoly_cons, length_zipMut, descPoly_zipMut_rsub xs ys h, C_sub, h, sub_mul]
    abel

theorem descPoly_zipMut_sub (xs ys : List R) (h : ys.length ≤ xs.length) :
    descPoly (zipMut (fun l r => l - r) xs ys)
      = descPoly xs - descPoly ys * X ^ (xs.length - ys.length) := by
  rw [descPoly_zipMut_add (fun y => -y) _ (fun x y => sub_eq_add_neg x y) xs ys h, descPoly_map_neg,
    neg_mul, sub_eq_add_neg]

end Ring

section CommRing
variable {R : Type} [CommRing R]

theorem descPoly_map_mul_right (r : R) (l : List R) :
    descPoly (l.map (fun x => x * r)) = descPoly l * C r := by
  rw [mul_comm, ← descPoly_map_mul_left]; simp [mul_comm]

end CommRing
end Rustnomial
