import Verif.Lemmas.Strings

/-!
# Reading and writing decimal numbers
-/

namespace Rustnomial

/-- One or more digits. -/
def IsDigits (ds : List Char) : Prop := ds ≠ [] ∧ ∀ c ∈ ds, isDigitChar c = true

theorem IsDigits.num {ds : List Char} (h : IsDigits ds) : ∀ c ∈ ds, IsNum c := fun c hc =>
  .inr (.inr (.inr (h.2 c hc)))

theorem decVal_append_one (ds : List Char) (c : Char) : decVal (ds ++ [c]) = 10 * decVal ds + digitVal c := by
  simp [decVal]

theorem digitChar_spec : ∀ n < 10, isDigitChar (digitChar n) = true ∧ digitVal (digitChar n) = n := by decide

theorem showNat_spec (n : Nat) : IsDigits (showNat n) ∧ decVal (showNat n) = n := by
  induction n using Nat.strong_induction_on with
  | _ n ih =>
    rw [showNat]
    by_cases h : n < 10
    · rw [if_pos h]
      obtain ⟨h1, h2⟩ := digitChar_spec n h
      refine ⟨⟨by simp, by simpa using h1⟩, ?_⟩
      simp [decVal, h2]
    · rw [if_neg h]
      obtain ⟨⟨h1, h2⟩, h3⟩ := ih (n / 10) (by omega)
      obtain ⟨h4, h5⟩ := digitChar_spec (n % 10) (Nat.mod_lt _ (by omega))
      refine ⟨⟨by simp, ?_⟩, ?_⟩
      · intro c hc
        rcases List.mem_append.1 hc with hc | hc
        · exact h2 c hc
        · simp at hc; rw [hc]; exact h4
      · rw [decVal_append_one, h3, h5]; omega

/-- No leading zeros. -/
theorem showNat_head (n : Nat) (h : n ≠ 0) : (showNat n).head? ≠ some '0' := by
  induction n using Nat.strong_induction_on with
  | _ n ih =>
    rw [showNat]
    by_cases h10 : n < 10
    · rw [if_pos h10]
      have : ∀ n < 10, n ≠ 0 → digitChar n ≠ '0' := by decide
      simpa using this n h10 h
    · rw [if_neg h10]
      have h1 := ih (n / 10) (by omega) (by omega)
      have hne := (showNat_spec (n / 10)).1.1
      cases hs : showNat (n / 10) with
      | nil => exact absurd hs hne
      | cons c r => rw [hs] at h1; simpa using h1

theorem isDigits_head {c : Char} {ds : List Char} (h : IsDigits (c :: ds)) : c ≠ '+' ∧ c ≠ '-' := by
  have := h.2 c (by simp)
  constructor <;> (rintro rfl; revert this; decide)

theorem parseDigits_digits {ds : List Char} (h : IsDigits ds) : parseDigits ds = some (decVal ds) := by
  unfold parseDigits
  rw [if_pos ⟨h.1, List.all_eq_true.2 h.2⟩]

theorem parseInt_digits (t : IntTy) {ds : List Char} (h : IsDigits ds) :
    parseInt t ds = fitsInt t (decVal ds) := by
  cases ds with
  | nil => exact absurd rfl h.1
  | cons c r =>
    obtain ⟨h1, h2⟩ := isDigits_head h
    unfold parseInt
    split
    · rename_i heq; simp at heq; exact absurd heq.1 h1
    · rename_i heq; simp at heq; exact absurd heq.1 h2
    · rw [parseDigits_digits h]; rfl

theorem parseInt_plus (t : IntTy) {ds : List Char} (h : IsDigits ds) :
    parseInt t ('+' :: ds) = fitsInt t (decVal ds) := by
  show (parseDigits ds).bind _ = _
  rw [parseDigits_digits h]; rfl

theorem parseInt_minus (t : IntTy) {ds : List Char} (h : IsDigits ds) :
    parseInt t ('-' :: ds) = if t.signed then fitsInt t (-(decVal ds : Int)) else none := by
  show (if t.signed then (parseDigits ds).bind _ else none) = _
  rw [parseDigits_digits h]; rfl

theorem parseInt_nondigits (t : IntTy) {num ds : List Char} (hnum : num = ds ∨ num = '+' :: ds ∨ num = '-' :: ds)
    (h : ds = []) : parseInt t num = none := by
  subst h
  rcases hnum with rfl | rfl | rfl
  · rfl
  · rfl
  · show (if t.signed then none else none) = none
    split <;> rfl

theorem parseUsize_digits (uw : Nat) {ds : List Char} (h : IsDigits ds) (hv : decVal ds < 2 ^ uw) :
    parseUsize uw ds = some (decVal ds) := by
  unfold parseUsize
  rw [parseInt_digits _ h]
  have : (⟨false, uw⟩ : IntTy).InRange (decVal ds) := by
    simp only [IntTy.InRange, IntTy.min, IntTy.max]
    refine ⟨by simp, ?_⟩
    have : ((decVal ds : Nat) : Int) < ((2 ^ uw : Nat) : Int) := by exact_mod_cast hv
    push_cast at this
    simp
    omega
  simp [fitsInt, this]

theorem parseUsize_showNat (uw n : Nat) (h : n < 2 ^ uw) : parseUsize uw (showNat n) = some n := by
  obtain ⟨h1, h2⟩ := showNat_spec n
  rw [parseUsize_digits uw h1 (by rw [h2]; exact h), h2]

theorem parseInt_showInt (t : IntTy) (v : Int) (h : t.InRange v) : parseInt t (showInt v) = some v := by
  obtain ⟨h1, h2⟩ := showNat_spec v.natAbs
  unfold showInt
  by_cases hv : v < 0
  · rw [if_pos hv, parseInt_minus t h1, h2]
    have hs : t.signed = true := by
      cases hs : t.signed with
      | true => rfl
      | false =>
        have := h.1
        simp [IntTy.min, hs] at this
        omega
    have : -((v.natAbs : Nat) : Int) = v := by omega
    rw [if_pos hs, this, fitsInt, if_pos h]
  · rw [if_neg hv, parseInt_digits t h1, h2]
    have : ((v.natAbs : Nat) : Int) = v := by omega
    rw [this, fitsInt, if_pos h]

theorem showInt_num (v : Int) : ∀ c ∈ showInt v, IsNum c := by
  obtain ⟨h1, _⟩ := showNat_spec v.natAbs
  unfold showInt
  split
  · intro c hc
    rcases List.mem_cons.1 hc with rfl | hc
    · exact .inr (.inl rfl)
    · exact h1.num c hc
  · exact h1.num

theorem digits_not_sign {ds : List Char} (h : IsDigits ds) : ∀ c ∈ ds, ¬ IsSign c := by
  intro c hc hs
  have := h.2 c hc
  rcases hs with rfl | rfl <;> revert this <;> decide

end Rustnomial
