import Verif.Model.Dense
import Verif.Spec
import Mathlib.Algebra.Polynomial.Eval.Defs
import Mathlib.Algebra.Polynomial.Eval.Degree
import Mathlib.Algebra.Polynomial.Derivative
import Mathlib.Algebra.Polynomial.Degree.Operations
import Mathlib.Data.List.GetD
import Mathlib.Data.List.TakeWhile
import Mathlib.Data.List.DropRight
import Mathlib.Tactic.Ring
import Mathlib.Tactic.LinearCombination

open Polynomial

namespace Rustnomial

section Scan
variable {N : Type} [Zero N] [NumZero N]

theorem scan_index (l : List N) : ∀ d : Nat,
    (match scanChunks (chunks4 l).1 d with
      | some (_, i) => i
      | none => scanRemainder (chunks4 l).2 ((chunks4 l).1.length * 4 + d * 4))
    = d * 4 + l.findIdx (fun a => !isZero a) := by
  have hrem : ∀ (l : List N) (k : Nat), scanRemainder l k = k + l.findIdx (fun a => !isZero a) := by
    intro l
    induction l with
    | nil => intro k; simp [scanRemainder]
    | cons v vs ih =>
      intro k
      by_cases h : isZero v = true
      · simp [scanRemainder, h, ih, List.findIdx_cons]; omega
      · simp [scanRemainder, h, List.findIdx_cons]
  induction l using chunks4.induct with
  | case1 a b c d rest ih =>
    intro k
    have ih' := ih (k + 1)
    simp only [chunks4, scanChunks, scanChunk]
    by_cases ha : isZero a = true
    · by_cases hb : isZero b = true
      · by_cases hc : isZero c = true
        · by_cases hd : isZero d = true
          · simp only [ha, hb, hc, hd, List.findIdx_cons, List.length_cons] at ih' ⊢
            simp only [Bool.not_true, Bool.false_eq_true, if_false, cond_false] at ih' ⊢
            have e : ((chunks4 rest).1.length + 1) * 4 + k * 4
              = (chunks4 rest).1.length * 4 + (k + 1) * 4 := by omega
            rw [e, ih']; omega
          · simp [ha, hb, hc, hd, List.findIdx_cons]
        · simp [ha, hb, hc, List.findIdx_cons]
      · simp [ha, hb, List.findIdx_cons]
    · simp [ha, List.findIdx_cons]
  | case2 l h =>
    intro k
    have : chunks4 l = ([], l) := by
      unfold chunks4
      split
      · exact absurd rfl (h _ _ _ _ _)
      · rfl
    simp [this, scanChunks, hrem]

theorem firstNonzeroIndex_eq (l : List N) :
    firstNonzeroIndex l = l.findIdx (fun a => !isZero a) := by
  have := scan_index l 0
  unfold firstNonzeroIndex
  cases h : scanChunks (chunks4 l).1 0 <;> simpa [h] using this

theorem drop_firstNonzeroIndex (l : List N) :
    l.drop (firstNonzeroIndex l) = l.dropWhile isZero := by
  rw [firstNonzeroIndex_eq]
  induction l with
  | nil => simp
  | cons a l ih =>
    by_cases h : isZero a = true
    · simp [List.findIdx_cons, h, ih]
    · simp [List.findIdx_cons, h]

theorem firstNonzeroIndex_le (l : List N) : firstNonzeroIndex l ≤ l.length := by
  rw [firstNonzeroIndex_eq]; exact List.findIdx_le_length

theorem firstNonzeroIndex_add (l : List N) :
    firstNonzeroIndex l + (l.dropWhile isZero).length = l.length := by
  have h := congrArg List.length (drop_firstNonzeroIndex l)
  have := firstNonzeroIndex_le l
  simp at h; omega

theorem firstTerm_aux (len : Nat) (l : List N) : ∀ d : Nat, d * 4 + l.length = len →
    (match scanChunks (chunks4 l).1 d with
      | some (v, i) => Term.term v (len - i - 1)
      | none => firstTermRemainder len (chunks4 l).2 ((chunks4 l).1.length * 4 + d * 4))
    = match l.dropWhile isZero with
      | [] => .zeroTerm
      | v :: vs => .term v vs.length := by
  have hrem : ∀ (l : List N) (k : Nat), k + l.length = len → firstTermRemainder len l k =
      match l.dropWhile isZero with
      | [] => .zeroTerm
      | v :: vs => .term v vs.length := by
    intro l
    induction l with
    | nil => intro k _; simp [firstTermRemainder]
    | cons v vs ih =>
      intro k hk
      simp only [List.length_cons] at hk
      by_cases h : isZero v = true
      · simp only [firstTermRemainder, h, List.dropWhile_cons]
        simpa using ih (k + 1) (by omega)
      · simp [firstTermRemainder, h]; omega
  induction l using chunks4.induct with
  | case1 a b c d rest ih =>
    intro k hk
    simp only [List.length_cons] at hk
    have ih' := ih (k + 1) (by omega)
    simp only [chunks4, scanChunks, scanChunk]
    by_cases ha : isZero a = true
    · by_cases hb : isZero b = true
      · by_cases hc : isZero c = true
        · by_cases hd : isZero d = true
          · simp only [ha, hb, hc, hd, List.dropWhile_cons, List.length_cons] at ih' ⊢
            simp only [Bool.not_true, Bool.false_eq_true, if_false, if_true] at ih' ⊢
            have e : ((chunks4 rest).1.length + 1) * 4 + k * 4
              = (chunks4 rest).1.length * 4 + (k + 1) * 4 := by omega
            rw [e, ih']
          · simp [ha, hb, hc, hd]; omega
        · simp [ha, hb, hc]; omega
      · simp [ha, hb]; omega
    · simp [ha]; omega
  | case2 l h =>
    intro k hk
    have : chunks4 l = ([], l) := by
      unfold chunks4
      split
      · exact absurd rfl (h _ _ _ _ _)
      · rfl
    simp only [this, scanChunks, List.length_nil, Nat.zero_mul, Nat.zero_add]
    exact hrem l (k * 4) hk

theorem firstTerm_eq (l : List N) :
    firstTerm l = match l.dropWhile isZero with
      | [] => .zeroTerm
      | v :: vs => .term v vs.length := by
  have := firstTerm_aux l.length l 0 (by simp)
  unfold firstTerm
  cases h : scanChunks (chunks4 l).1 0 <;> cases h' : l.dropWhile isZero <;>
    simpa [h, h'] using this

theorem trim_terms (p : Poly N) : p.trim.terms = p.terms.dropWhile isZero := by
  rw [← drop_firstNonzeroIndex]
  unfold Poly.trim
  by_cases h : firstNonzeroIndex p.terms = 0 <;> simp [h]

theorem new_terms (l : List N) : (Poly.new l).terms = l.dropWhile isZero := trim_terms ⟨l⟩

theorem denseDegree_eq (l : List N) :
    denseDegree l = match l.dropWhile isZero with
      | [] => .negInf
      | _ :: vs => .num vs.length := by
  have h := firstNonzeroIndex_add l
  unfold denseDegree
  cases hd : l.dropWhile isZero with
  | nil => simp [hd] at h; simp [h]
  | cons v vs =>
    simp [hd] at h
    have : firstNonzeroIndex l ≠ l.length := by omega
    simp [this]; omega

theorem dropWhile_head_not {l : List N} {v : N} {vs : List N}
    (h : l.dropWhile isZero = v :: vs) : isZero v = false := by
  have := List.head?_dropWhile_not isZero l
  rw [h] at this; simpa using this

end Scan

section Sem
variable {R : Type} [Semiring R]

@[simp] theorem descPoly_nil : descPoly ([] : List R) = 0 := rfl
theorem descPoly_cons (c : R) (cs : List R) :
    descPoly (c :: cs) = C c * X ^ cs.length + descPoly cs := rfl

theorem descPoly_append (a b : List R) :
    descPoly (a ++ b) = descPoly a * X ^ b.length + descPoly b := by
  induction a with
  | nil => simp
  | cons c cs ih =>
    simp only [List.cons_append, descPoly_cons, ih, List.length_append, add_mul, pow_add, mul_assoc,
      add_assoc]

@[simp] theorem descPoly_replicate_zero (n : Nat) : descPoly (List.replicate n (0 : R)) = 0 := by
  induction n with
  | zero => simp
  | succ n ih => simp [List.replicate_succ, descPoly_cons, ih]

theorem coeff_descPoly (l : List R) (n : Nat) : (descPoly l).coeff n = l.reverse.getD n 0 := by
  induction l generalizing n with
  | nil => simp
  | cons c cs ih =>
    simp only [descPoly_cons, coeff_add, coeff_C_mul, coeff_X_pow, ih, List.reverse_cons]
    rcases lt_trichotomy n cs.length with h | h | h
    · rw [List.getD_append _ _ _ _ (by simpa using h)]
      simp [Nat.ne_of_lt h]
    · subst h
      rw [List.getD_append_right _ _ _ _ (by simp), List.getD_eq_default _ _ (by simp)]
      simp
    · rw [List.getD_append_right _ _ _ _ (by simpa using h.le), List.getD_eq_default _ _ (by simpa using h.le),
        List.getD_eq_default _ _ (by simp; omega)]
      simp [Nat.ne_of_gt h]

theorem coeff_descPoly_of_le {l : List R} {n : Nat} (h : l.length ≤ n) : (descPoly l).coeff n = 0 := by
  rw [coeff_descPoly, List.getD_eq_default _ _ (by simpa using h)]

theorem coeff_descPoly_of_lt {l : List R} {n : Nat} (h : n < l.length) :
    (descPoly l).coeff n = l.getD (l.length - n - 1) 0 := by
  rw [coeff_descPoly, List.getD_eq_getElem?_getD, List.getD_eq_getElem?_getD,
    List.getElem?_reverse h]
  congr 2; omega

theorem descPoly_degree_lt (l : List R) : (descPoly l).degree < l.length := by
  rw [degree_lt_iff_coeff_zero]
  intro m hm; exact coeff_descPoly_of_le hm

theorem descPoly_cons_degree {c : R} (cs : List R) (h : c ≠ 0) :
    (descPoly (c :: cs)).degree = cs.length := by
  rw [descPoly_cons, degree_add_eq_left_of_degree_lt]
  · exact degree_C_mul_X_pow _ h
  · rw [degree_C_mul_X_pow _ h]; exact descPoly_degree_lt cs

theorem descPoly_leadingCoeff {c : R} (cs : List R) (h : c ≠ 0) :
    (descPoly (c :: cs)).leadingCoeff = c := by
  rw [leadingCoeff, natDegree_eq_of_degree_eq_some (descPoly_cons_degree cs h),
    coeff_descPoly_of_lt (by simp)]
  simp

theorem descPoly_ext_of_length {a b : List R} (hl : a.length = b.length)
    (h : descPoly a = descPoly b) : a = b := by
  induction a generalizing b with
  | nil => cases b <;> simp_all
  | cons c cs ih =>
    cases b with
    | nil => simp at hl
    | cons d ds =>
      simp at hl
      have hc : c = d := by
        have := congrArg (fun P => P.coeff cs.length) h
        simp only [descPoly_cons, coeff_add, coeff_C_mul, coeff_X_pow, hl,
          coeff_descPoly_of_le (le_of_eq hl)] at this
        simpa [coeff_descPoly_of_le (le_refl ds.length)] using this
      subst hc
      have : descPoly cs = descPoly ds := by
        have hh := h
        rw [descPoly_cons, descPoly_cons, hl] at hh
        ext n
        have h2 := congrArg (fun P => P.coeff n) hh
        simp only [coeff_add, coeff_C_mul, coeff_X_pow] at h2
        by_cases hn : n = ds.length
        · subst hn; rw [coeff_descPoly_of_le (le_of_eq hl), coeff_descPoly_of_le le_rfl]
        · simpa [hn] using h2
      rw [ih hl this]

variable [NumZero R] [LawfulNumZero R]

theorem descPoly_dropWhile (l : List R) : descPoly (l.dropWhile isZero) = descPoly l := by
  induction l with
  | nil => simp
  | cons c cs ih =>
    by_cases h : c = 0
    · subst h
      have hz : isZero (0 : R) = true := by simp
      simp [hz, descPoly_cons, ih]
    · have : isZero c = false := by simpa using h
      simp [this]

theorem descPoly_eq_zero_iff (l : List R) : descPoly l = 0 ↔ l.dropWhile isZero = [] := by
  constructor
  · intro h
    rw [← descPoly_dropWhile] at h
    cases hd : l.dropWhile isZero with
    | nil => rfl
    | cons v vs =>
      have hv : v ≠ 0 := by simpa using dropWhile_head_not hd
      have := descPoly_cons_degree vs hv
      rw [← hd, h] at this
      simp at this
  · intro h; rw [← descPoly_dropWhile, h]; rfl

theorem dropWhile_eq_of_descPoly_eq {a b : List R} (h : descPoly a = descPoly b) :
    a.dropWhile isZero = b.dropWhile isZero := by
  apply descPoly_ext_of_length
  · cases ha : a.dropWhile isZero with
    | nil =>
      have h0 := (descPoly_eq_zero_iff a).2 ha
      rw [h] at h0
      rw [(descPoly_eq_zero_iff b).1 h0]
    | cons v vs =>
      cases hb : b.dropWhile isZero with
      | nil =>
        have h0 := (descPoly_eq_zero_iff b).2 hb
        rw [← h] at h0
        rw [(descPoly_eq_zero_iff a).1 h0] at ha; simp at ha
      | cons w ws =>
        have hv : v ≠ 0 := by simpa using dropWhile_head_not ha
        have hw : w ≠ 0 := by simpa using dropWhile_head_not hb
        have e1 := descPoly_cons_degree vs hv
        have e2 := descPoly_cons_degree ws hw
        rw [← ha, descPoly_dropWhile, h, ← descPoly_dropWhile, hb, e2] at e1
        have : ws.length = vs.length := by exact_mod_cast e1
        simp [this]
  · rw [descPoly_dropWhile, descPoly_dropWhile, h]

end Sem
end Rustnomial
