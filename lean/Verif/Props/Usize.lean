import Verif.Model.Usize
import Verif.Props.SparseBasic
import Verif.Props.Fixed
import Verif.Props.DenseShift
import Verif.Props.Mutation
import Mathlib.Algebra.Polynomial.Div
import Mathlib.RingTheory.Polynomial.Basic

/-!
# Degrees as `usize`, shift counts as `i32` (C71 – C73)

`bits` is the width of `usize`.  In a build with overflow checks a degree that does not fit panics;
in a build without, the degrees are reduced modulo `2 ^ bits`, that is, the polynomials are
multiplied modulo `X ^ (2 ^ bits) - 1`.
-/

open Polynomial

set_option linter.unusedSectionVars false

namespace Rustnomial

/-! ## The integer operations -/

theorem USz.add_fits {u : USz} {a b : Nat} (h : a + b < 2 ^ u.bits) : u.add a b = .ok (a + b) := by
  simp [USz.add, USz.result, h]

theorem USz.add_checked (w a b : Nat) :
    USz.add ⟨w, true⟩ a b = if a + b < 2 ^ w then .ok (a + b) else .panic := by
  simp [USz.add, USz.result]

theorem USz.add_wrap (w a b : Nat) : USz.add ⟨w, false⟩ a b = .ok ((a + b) % 2 ^ w) := by
  unfold USz.add USz.result
  split
  · rename_i h
    rw [Nat.mod_eq_of_lt h]
  · rfl

theorem USz.mul_checked (w a b : Nat) :
    USz.mul ⟨w, true⟩ a b = if a * b < 2 ^ w then .ok (a * b) else .panic := by
  simp [USz.mul, USz.result]

theorem USz.mul_wrap (w a b : Nat) : USz.mul ⟨w, false⟩ a b = .ok ((a * b) % 2 ^ w) := by
  unfold USz.mul USz.result
  split
  · rename_i h
    rw [Nat.mod_eq_of_lt h]
  · rfl

/-! ## Folds -/

/-- A fold whose steps either panic or act like `step'`. -/
theorem foldlM_checked {α β : Type} (l : List α) (step : β → α → Res β) (step' : β → α → β)
    (bad : α → Prop) (h : ∀ e ∈ l, ∀ m, (bad e → step m e = .panic) ∧
      (¬ bad e → step m e = .ok (step' m e))) (m : β) :
    ((∃ e ∈ l, bad e) → l.foldlM step m = .panic) ∧
    ((∀ e ∈ l, ¬ bad e) → l.foldlM step m = .ok (l.foldl step' m)) := by
  classical
  refine ⟨fun hb => ?_, fun hb => foldlM_ok l step step' (fun e he m => (h e he m).2 (hb e he)) m⟩
  apply foldlM_panic
  · intro e he m
    by_cases hbe : bad e
    · exact .inl ((h e he m).1 hbe)
    · exact .inr ⟨_, (h e he m).2 hbe⟩
  · obtain ⟨e, he, hbe⟩ := hb
    exact ⟨e, he, fun m => (h e he m).1 hbe⟩

/-! ## C71: with overflow checks -/

section
variable {R : Type} [CommSemiring R]

/-- C71 (Monomial): with overflow checks `a * b`, `a.pow(n)` and `a << k` give the exact polynomial
if its degree fits in a `usize`, and panic otherwise. -/
theorem C71_monomial_checked [PowUsize R] [LawfulPowUsize R] (w : Nat) (a b : Monomial R) (n : Nat)
    (hn : n < LawfulPowUsize.bound R) :
    (a.deg + b.deg < 2 ^ w → ∃ r, a.mulU ⟨w, true⟩ b = .ok r ∧ r.poly = a.poly * b.poly) ∧
    (2 ^ w ≤ a.deg + b.deg → a.mulU ⟨w, true⟩ b = .panic) ∧
    (a.deg * n < 2 ^ w → ∃ r, a.powU ⟨w, true⟩ n = .ok r ∧ r.poly = a.poly ^ n) ∧
    (2 ^ w ≤ a.deg * n → a.powU ⟨w, true⟩ n = .panic) := by
  unfold Monomial.mulU Monomial.powU
  rw [USz.add_checked, USz.mul_checked]
  refine ⟨fun h => ?_, fun h => ?_, fun h => ?_, fun h => ?_⟩
  · rw [if_pos h]
    refine ⟨_, rfl, ?_⟩
    simp only [Monomial.poly, Monomial.new, C_mul, pow_add]; ring
  · rw [if_neg (by omega)]; rfl
  · rw [if_pos h]
    refine ⟨_, rfl, ?_⟩
    simp only [Monomial.poly, Monomial.new, LawfulPowUsize.upow_eq _ _ hn, C_pow, mul_pow, ← pow_mul]
  · rw [if_neg (by omega)]; rfl

example : (Monomial.new (3 : ℤ) 200).mulU ⟨8, true⟩ (Monomial.new 5 50) = .ok ⟨15, 250⟩ ∧
    (Monomial.new (3 : ℤ) 200).mulU ⟨8, true⟩ (Monomial.new 5 56) = .panic ∧
    (Monomial.new (3 : ℤ) 100).powU ⟨8, true⟩ 2 = .ok ⟨9, 200⟩ ∧
    (Monomial.new (3 : ℤ) 100).powU ⟨8, true⟩ 3 = .panic := by decide

variable [NumZero R] [LawfulNumZero R]

theorem mapMulInnerU_checked (w d : Nat) (c : R) (l : List (Nat × R)) (m : BMap R) :
    ((∃ e ∈ l, 2 ^ w ≤ d + e.1) → mapMulInnerU ⟨w, true⟩ d c l m = .panic) ∧
    ((∀ e ∈ l, ¬ 2 ^ w ≤ d + e.1) → mapMulInnerU ⟨w, true⟩ d c l m = .ok (mapMulInner d c l m)) := by
  unfold mapMulInnerU mapMulInner
  apply foldlM_checked
  intro e _ m
  rw [USz.add_checked]
  refine ⟨fun h => ?_, fun h => ?_⟩
  · rw [if_neg (by omega)]; rfl
  · rw [if_pos (by omega)]; rfl

/-- The two stored entries whose degrees do not fit together. -/
theorem mulU_checked (w : Nat) (p q : Sparse R) :
    ((∃ f ∈ q.terms.entries, f.2 ≠ 0 ∧ ∃ e ∈ p.terms.entries, 2 ^ w ≤ f.1 + e.1) →
      p.mulU ⟨w, true⟩ q = .panic) ∧
    ((∀ f ∈ q.terms.entries, f.2 ≠ 0 → ∀ e ∈ p.terms.entries, f.1 + e.1 < 2 ^ w) →
      p.mulU ⟨w, true⟩ q = .ok (p.mul q)) := by
  have key := foldlM_checked q.terms.entries
    (fun (terms : BMap R) e => if isZero e.2 then Res.ok terms
      else mapMulInnerU ⟨w, true⟩ e.1 e.2 p.terms.entries terms)
    (fun terms e => if isZero e.2 then terms else mapMulInner e.1 e.2 p.terms.entries terms)
    (fun f => f.2 ≠ 0 ∧ ∃ e ∈ p.terms.entries, 2 ^ w ≤ f.1 + e.1)
    (by
      intro f _ m
      refine ⟨fun h => ?_, fun h => ?_⟩
      · rw [if_neg (by simpa using h.1)]
        exact (mapMulInnerU_checked w _ _ _ _).1 h.2
      · by_cases hz : f.2 = 0
        · rw [if_pos (by simpa using hz), if_pos (by simpa using hz)]
        · rw [if_neg (by simpa using hz), if_neg (by simpa using hz)]
          exact (mapMulInnerU_checked w _ _ _ _).2 (fun e he hle => h ⟨hz, e, he, hle⟩))
    .empty
  unfold Sparse.mulU mapMulU
  refine ⟨fun h => ?_, fun h => ?_⟩
  · rw [key.1 h]; rfl
  · rw [key.2 (fun f hf hb => by
      obtain ⟨hz, e, he, hle⟩ := hb
      exact absurd (h f hf hz e he) (by omega))]
    rfl

/-- C71 (SparsePolynomial): with overflow checks `a * b` panics exactly when the degrees of some
stored term of `a` and some non-zero stored term of `b` do not fit together in a `usize`; otherwise it
is the product. -/
theorem C71_sparse_mul_checked (w : Nat) (p q : Sparse R) :
    ((∃ f ∈ q.terms.entries, f.2 ≠ 0 ∧ ∃ e ∈ p.terms.entries, 2 ^ w ≤ f.1 + e.1) →
      p.mulU ⟨w, true⟩ q = .panic) ∧
    ((∀ f ∈ q.terms.entries, f.2 ≠ 0 → ∀ e ∈ p.terms.entries, f.1 + e.1 < 2 ^ w) →
      ∃ r, p.mulU ⟨w, true⟩ q = .ok r ∧
        entriesPoly r.terms.entries = entriesPoly p.terms.entries * entriesPoly q.terms.entries) :=
  ⟨(mulU_checked w p q).1, fun h => ⟨_, (mulU_checked w p q).2 h, C26_sparse_mul p q⟩⟩

example : (do let r ← (Sparse.fromTerms [((2 : ℤ), 200), (1, 0)]).mulU ⟨8, true⟩ (Sparse.fromTerms [(3, 55)])
              Res.ok r.terms.entries) = .ok [(55, 3), (255, 6)] ∧
    (do let r ← (Sparse.fromTerms [((2 : ℤ), 200), (1, 0)]).mulU ⟨8, true⟩ (Sparse.fromTerms [(3, 56)])
        Res.ok r.terms.entries) = .panic := by decide

theorem mulU_checked_ok {w : Nat} {p q r : Sparse R} (h : p.mulU ⟨w, true⟩ q = .ok r) :
    r = p.mul q := by
  classical
  by_cases hb : ∀ f ∈ q.terms.entries, f.2 ≠ 0 → ∀ e ∈ p.terms.entries, f.1 + e.1 < 2 ^ w
  · rw [(mulU_checked w p q).2 hb] at h
    exact (Res.ok.inj h).symm
  · rw [(mulU_checked w p q).1 (by push Not at hb; exact hb)] at h
    cases h

theorem mulU_ne_fuel (u : USz) (p q : Sparse R) : p.mulU u q ≠ .fuel := by
  have inner : ∀ (d : Nat) (c : R) (l : List (Nat × R)) (m : BMap R), mapMulInnerU u d c l m ≠ .fuel := by
    intro d c l
    induction l with
    | nil => intro m h; cases h
    | cons e l ih =>
      intro m
      unfold mapMulInnerU
      rw [List.foldlM_cons]
      cases hk : u.add d e.1 with
      | ok k => exact ih _
      | panic => intro h; cases h
      | fuel =>
        unfold USz.add USz.result at hk
        split at hk
        · cases hk
        · split at hk <;> cases hk
  have outer : ∀ (l : List (Nat × R)) (m : BMap R), l.foldlM (fun (terms : BMap R) e =>
      if isZero e.2 then Res.ok terms else mapMulInnerU u e.1 e.2 p.terms.entries terms) m ≠ .fuel := by
    intro l
    induction l with
    | nil => intro m h; cases h
    | cons e l ih =>
      intro m
      rw [List.foldlM_cons]
      split
      · exact ih _
      · cases hk : mapMulInnerU u e.1 e.2 p.terms.entries m with
        | ok k => exact ih _
        | panic => intro h; cases h
        | fuel => exact absurd hk (inner _ _ _ _)
  unfold Sparse.mulU mapMulU
  cases hk : q.terms.entries.foldlM (fun (terms : BMap R) e =>
      if isZero e.2 then Res.ok terms else mapMulInnerU u e.1 e.2 p.terms.entries terms) BMap.empty with
  | ok k => intro h; cases h
  | panic => intro h; cases h
  | fuel => exact absurd hk (outer _ _)

end

/-- Keys of a product are sums of keys. -/
theorem mem_upsert {R : Type} {m : BMap R} {k : Nat} {v : R} {f : R → R} {j : Nat}
    (h : ((m.upsert k v f).get j).isSome) : j = k ∨ (m.get j).isSome := by
  rw [BMap.get_upsert] at h
  split at h
  · left; assumption
  · right; exact h

theorem isSome_of_mem {R : Type} {m : BMap R} {e : Nat × R} (h : e ∈ m.entries) : (m.get e.1).isSome := by
  have := (m.mem_entries e.1 e.2).1 h
  rw [this]; rfl

theorem mem_of_isSome {R : Type} {m : BMap R} {j : Nat} (h : (m.get j).isSome) :
    ∃ v, (j, v) ∈ m.entries := by
  obtain ⟨v, hv⟩ := Option.isSome_iff_exists.1 h
  exact ⟨v, (m.mem_entries j v).2 hv⟩

section
variable {R : Type} [CommSemiring R] [NumZero R] [LawfulNumZero R]

theorem mul_keys (p q : Sparse R) (B C : Nat) (hp : ∀ e ∈ p.terms.entries, e.1 ≤ B)
    (hq : ∀ e ∈ q.terms.entries, e.1 ≤ C) : ∀ e ∈ (p.mul q).terms.entries, e.1 ≤ B + C := by
  have inner : ∀ (d : Nat) (c : R), d ≤ C → ∀ (l : List (Nat × R)) (m : BMap R),
      (∀ e ∈ l, e.1 ≤ B) → (∀ j, (m.get j).isSome → j ≤ B + C) →
      ∀ j, ((mapMulInner d c l m).get j).isSome → j ≤ B + C := by
    intro d c hd l
    induction l with
    | nil => intro m _ hm; exact hm
    | cons e l ih =>
      intro m hl hm
      unfold mapMulInner
      rw [List.foldl_cons]
      apply ih _ (fun x hx => hl x (List.mem_cons_of_mem _ hx))
      intro j hj
      rcases mem_upsert hj with h | h
      · have := hl e List.mem_cons_self
        omega
      · exact hm j h
  have outer : ∀ (l : List (Nat × R)) (m : BMap R), (∀ e ∈ l, e.1 ≤ C) →
      (∀ j, (m.get j).isSome → j ≤ B + C) →
      ∀ j, ((l.foldl (fun (terms : BMap R) e => if isZero e.2 then terms
        else mapMulInner e.1 e.2 p.terms.entries terms) m).get j).isSome → j ≤ B + C := by
    intro l
    induction l with
    | nil => intro m _ hm; exact hm
    | cons e l ih =>
      intro m hl hm
      rw [List.foldl_cons]
      apply ih _ (fun x hx => hl x (List.mem_cons_of_mem _ hx))
      split
      · exact hm
      · exact inner _ _ (hl e List.mem_cons_self) _ _ hp hm
  intro e he
  exact outer _ _ hq (by simp) e.1 (isSome_of_mem he)

theorem mul_keys_lt {w : Nat} {p q r : Sparse R} {u : USz} (hu : u.bits = w)
    (h : p.mulU u q = .ok r) : ∀ e ∈ r.terms.entries, e.1 < 2 ^ w := by
  have addlt : ∀ {a b k}, u.add a b = .ok k → k < 2 ^ w := by
    intro a b k hk
    unfold USz.add USz.result at hk
    rw [hu] at hk
    split at hk
    · cases hk; assumption
    · split at hk
      · cases hk
      · cases hk; exact Nat.mod_lt _ (by positivity)
  have inner : ∀ (d : Nat) (c : R) (l : List (Nat × R)) (m m' : BMap R),
      mapMulInnerU u d c l m = .ok m' → (∀ j, (m.get j).isSome → j < 2 ^ w) →
      ∀ j, (m'.get j).isSome → j < 2 ^ w := by
    intro d c l
    induction l with
    | nil => intro m m' hm; cases hm; exact id
    | cons e l ih =>
      intro m m' hm hlt
      unfold mapMulInnerU at hm
      rw [List.foldlM_cons] at hm
      obtain ⟨m1, h1, h2⟩ := Res.bind_eq_ok.1 hm
      obtain ⟨k, hk, h3⟩ := Res.bind_eq_ok.1 h1
      cases h3
      apply ih _ _ h2
      intro j hj
      rcases mem_upsert hj with h | h
      · rw [h]; exact addlt hk
      · exact hlt j h
  have outer : ∀ (l : List (Nat × R)) (m m' : BMap R), l.foldlM (fun (terms : BMap R) e =>
      if isZero e.2 then Res.ok terms else mapMulInnerU u e.1 e.2 p.terms.entries terms) m = .ok m' →
      (∀ j, (m.get j).isSome → j < 2 ^ w) → ∀ j, (m'.get j).isSome → j < 2 ^ w := by
    intro l
    induction l with
    | nil => intro m m' hm; cases hm; exact id
    | cons e l ih =>
      intro m m' hm hlt
      rw [List.foldlM_cons] at hm
      obtain ⟨m1, h1, h2⟩ := Res.bind_eq_ok.1 hm
      apply ih _ _ h2
      split at h1
      · cases h1; exact hlt
      · exact inner _ _ _ _ _ h1 hlt
  unfold Sparse.mulU mapMulU at h
  obtain ⟨m, hm, h2⟩ := Res.bind_eq_ok.1 h
  cases h2
  intro e he
  exact outer _ _ _ hm (by simp) e.1 (isSome_of_mem he)

theorem powU_two (u : USz) (p : Sparse R) : p.powU u 2 = p.mulU u p := by
  rw [Sparse.powU]; simp

/-- The checked power is the ideal power whenever it returns. -/
theorem powU_checked_ok {w : Nat} (n : Nat) : ∀ {p r : Sparse R}, p.powU ⟨w, true⟩ n = .ok r →
    r = p.pow n := by
  induction n using Nat.strong_induction_on with
  | _ n ih =>
    intro p r h
    rw [Sparse.powU] at h
    rw [Sparse.pow]
    split at h
    · rename_i h0; rw [if_pos h0]; exact (Res.ok.inj h).symm
    · rename_i h0
      rw [if_neg h0]
      split at h
      · rename_i h1; rw [if_pos h1]; exact (Res.ok.inj h).symm
      · rename_i h1
        rw [if_neg h1]
        split at h
        · rename_i h2; rw [if_pos h2]; exact mulU_checked_ok h
        · rename_i h2
          rw [if_neg h2]
          split at h
          · rename_i h3
            rw [if_pos h3]
            obtain ⟨s, hs, h4⟩ := Res.bind_eq_ok.1 h
            rw [ih (n / 2) (by omega) hs] at h4
            exact ih 2 (by omega) h4
          · rename_i h3
            rw [if_neg h3]
            obtain ⟨s, hs, h4⟩ := Res.bind_eq_ok.1 h
            rw [ih (n - 1) (by omega) hs] at h4
            exact mulU_checked_ok h4

theorem pow_keys (n : Nat) : ∀ (p : Sparse R) (B : Nat), (∀ e ∈ p.terms.entries, e.1 ≤ B) →
    ∀ e ∈ (p.pow n).terms.entries, e.1 ≤ B * n := by
  induction n using Nat.strong_induction_on with
  | _ n ih =>
    intro p B hB
    rw [Sparse.pow]
    split
    · intro e he
      have := isSome_of_mem he
      rw [BMap.get_insert] at this
      split at this
      · omega
      · simp at this
    · split
      · rename_i h1; subst h1; simpa [Sparse.new] using hB
      · split
        · rename_i h2; subst h2
          rw [mul_two]
          exact mul_keys p p B B hB hB
        · split
          · have h1 := ih (n / 2) (by omega) p B hB
            have h2 := ih 2 (by omega) (p.pow (n / 2)) _ h1
            intro e he
            have := h2 e he
            have hn : n = n / 2 * 2 := by omega
            rw [hn, ← mul_assoc]; exact this
          · have h1 := ih (n - 1) (by omega) p B hB
            intro e he
            have := mul_keys p (p.pow (n - 1)) B _ hB h1 e he
            have hn : B * n = B + B * (n - 1) := by
              conv_lhs => rw [show n = 1 + (n - 1) by omega]
              ring
            rw [hn]; exact this

theorem powU_checked_fits {w : Nat} (n : Nat) : ∀ (p : Sparse R) (B : Nat),
    (∀ e ∈ p.terms.entries, e.1 ≤ B) → B * n < 2 ^ w → p.powU ⟨w, true⟩ n = .ok (p.pow n) := by
  induction n using Nat.strong_induction_on with
  | _ n ih =>
    intro p B hB hw
    rw [Sparse.powU, Sparse.pow]
    split
    · rfl
    · split
      · rfl
      · split
        · rename_i h2; subst h2
          apply (mulU_checked w p p).2
          intro f hf _ e he
          have := hB f hf; have := hB e he; omega
        · split
          · rename_i h0 h1 h2 h3
            have hle : B * (n / 2) ≤ B * n := Nat.mul_le_mul_left _ (Nat.div_le_self _ _)
            rw [ih (n / 2) (by omega) p B hB (by omega), Res.ok_bind]
            apply ih 2 (by omega) _ (B * (n / 2)) (pow_keys (n / 2) p B hB)
            rw [mul_assoc, Nat.div_mul_cancel (Nat.dvd_of_mod_eq_zero h3)]; exact hw
          · rename_i h0 h1 h2 h3
            have hn : B * n = B + B * (n - 1) := by
              conv_lhs => rw [show n = 1 + (n - 1) by omega]
              ring
            rw [ih (n - 1) (by omega) p B hB (by omega), Res.ok_bind]
            apply (mulU_checked w p _).2
            intro f hf _ e he
            have := pow_keys (n - 1) p B hB f hf
            have := hB e he
            omega

theorem powU_ne_fuel (u : USz) (n : Nat) : ∀ (p : Sparse R), p.powU u n ≠ .fuel := by
  induction n using Nat.strong_induction_on with
  | _ n ih =>
    intro p
    rw [Sparse.powU]
    split
    · intro h; cases h
    · split
      · intro h; cases h
      · split
        · exact mulU_ne_fuel _ _ _
        · split
          · cases hs : p.powU u (n / 2) with
            | ok s => exact ih 2 (by omega) s
            | panic => intro h; cases h
            | fuel => exact absurd hs (ih _ (by omega) p)
          · cases hs : p.powU u (n - 1) with
            | ok s => exact mulU_ne_fuel _ _ _
            | panic => intro h; cases h
            | fuel => exact absurd hs (ih _ (by omega) p)

theorem powU_keys_lt {w : Nat} {u : USz} (hu : u.bits = w) (n : Nat) : ∀ {p r : Sparse R},
    (∀ e ∈ p.terms.entries, e.1 < 2 ^ w) → p.powU u n = .ok r → ∀ e ∈ r.terms.entries, e.1 < 2 ^ w := by
  induction n using Nat.strong_induction_on with
  | _ n ih =>
    intro p r hp h
    rw [Sparse.powU] at h
    split at h
    · cases h
      intro e he
      have := isSome_of_mem he
      rw [BMap.get_insert] at this
      split at this
      · rename_i h0; rw [h0]; positivity
      · simp at this
    · split at h
      · cases h; exact hp
      · split at h
        · exact mul_keys_lt hu h
        · split at h
          · obtain ⟨s, hs, h4⟩ := Res.bind_eq_ok.1 h
            exact ih 2 (by omega) (ih _ (by omega) hp hs) h4
          · obtain ⟨s, hs, h4⟩ := Res.bind_eq_ok.1 h
            exact mul_keys_lt hu h4

/-- C71 (SparsePolynomial): with overflow checks `a.pow(n)` is the `n`-th power whenever it returns,
it always returns or panics, and it returns when `n` times every stored degree fits in a `usize`. -/
theorem C71_sparse_pow_checked (w : Nat) (p : Sparse R) (n : Nat) :
    (p.powU ⟨w, true⟩ n = .panic ∨ ∃ r, p.powU ⟨w, true⟩ n = .ok r ∧
      entriesPoly r.terms.entries = entriesPoly p.terms.entries ^ n) ∧
    ((∀ e ∈ p.terms.entries, e.1 * n < 2 ^ w) → ∃ r, p.powU ⟨w, true⟩ n = .ok r) := by
  constructor
  · cases h : p.powU ⟨w, true⟩ n with
    | ok r => right; exact ⟨r, rfl, by rw [powU_checked_ok n h]; exact C26_sparse_pow p n⟩
    | panic => left; rfl
    | fuel => exact absurd h (powU_ne_fuel _ n p)
  · intro h
    obtain ⟨B, hB, hBn⟩ : ∃ B, (∀ e ∈ p.terms.entries, e.1 ≤ B) ∧ B * n < 2 ^ w := by
      generalize p.terms.entries = l at h
      induction l with
      | nil => exact ⟨0, by simp, by simp⟩
      | cons a l ih =>
        obtain ⟨B, hB, hBn⟩ := ih (fun e he => h e (List.mem_cons_of_mem _ he))
        refine ⟨max a.1 B, ?_, ?_⟩
        · intro e he
          rcases List.mem_cons.1 he with h' | h'
          · rw [h']; exact le_max_left _ _
          · exact (hB e h').trans (le_max_right _ _)
        · rcases max_choice a.1 B with h' | h' <;> rw [h']
          · exact h a List.mem_cons_self
          · exact hBn
    exact ⟨_, powU_checked_fits n p B hB hBn⟩

/-- C71 (SparsePolynomial): and it panics when the degree of the power does not fit. -/
theorem C71_sparse_pow_overflow [NoZeroDivisors R] (w : Nat) (p : Sparse R) (n : Nat)
    (hp : ∀ e ∈ p.terms.entries, e.1 < 2 ^ w)
    (h0 : entriesPoly p.terms.entries ≠ 0)
    (h : 2 ^ w ≤ (entriesPoly p.terms.entries).natDegree * n) :
    p.powU ⟨w, true⟩ n = .panic := by
  cases hr : p.powU ⟨w, true⟩ n with
  | panic => rfl
  | fuel => exact absurd hr (powU_ne_fuel _ n p)
  | ok r =>
    exfalso
    have hlt := powU_keys_lt (u := ⟨w, true⟩) rfl n hp hr
    have heq : entriesPoly r.terms.entries = entriesPoly p.terms.entries ^ n := by
      rw [powU_checked_ok n hr]; exact C26_sparse_pow p n
    have hdeg : (entriesPoly r.terms.entries).natDegree = (entriesPoly p.terms.entries).natDegree * n := by
      rw [heq, natDegree_pow, mul_comm]
    have hne : entriesPoly r.terms.entries ≠ 0 := by rw [heq]; exact pow_ne_zero _ h0
    have hc : (entriesPoly r.terms.entries).coeff (entriesPoly r.terms.entries).natDegree ≠ 0 := by
      rw [coeff_natDegree]; exact leadingCoeff_ne_zero.2 hne
    rw [coeff_mapPoly] at hc
    cases hg : r.terms.get (entriesPoly r.terms.entries).natDegree with
    | none => rw [hg] at hc; exact hc rfl
    | some v =>
      have := hlt _ ((r.terms.mem_entries _ _).2 hg)
      dsimp only at this
      omega

example : (do let r ← (Sparse.fromTerms [((2 : ℤ), 60), (1, 0)]).powU ⟨8, true⟩ 3
              Res.ok r.terms.entries) = .ok [(0, 1), (60, 6), (120, 12), (180, 8)] ∧
    (do let r ← (Sparse.fromTerms [((2 : ℤ), 60), (1, 0)]).powU ⟨8, true⟩ 5
        Res.ok r.terms.entries) = .panic := by decide +kernel

end

section
variable {R : Type} [Semiring R]

theorem shiftPosU_checked (w : Nat) (p : Sparse R) (k : Nat) :
    ((∃ e ∈ p.terms.entries, 2 ^ w ≤ e.1 + k) → Sparse.shiftPosU ⟨w, true⟩ true p k = .panic) ∧
    ((∀ e ∈ p.terms.entries, ¬ 2 ^ w ≤ e.1 + k) →
      Sparse.shiftPosU ⟨w, true⟩ true p k = .ok (p.shlPos k)) := by
  have key := foldlM_checked p.terms.entries
    (fun (terms : BMap R) e => do
      let d ← USz.add ⟨w, true⟩ e.1 k
      Res.ok (terms.insert d e.2)) (fun terms e => terms.insert (e.1 + k) e.2)
    (fun e => 2 ^ w ≤ e.1 + k)
    (by
      intro e _ m
      rw [USz.add_checked]
      refine ⟨fun h => ?_, fun h => ?_⟩
      · rw [if_neg (by omega)]; rfl
      · rw [if_pos (by omega)]; rfl) .empty
  unfold Sparse.shiftPosU Sparse.shlPos
  rw [if_pos rfl]
  refine ⟨fun h => ?_, fun h => ?_⟩
  · rw [key.1 h]; rfl
  · rw [key.2 h]; rfl

end

section
variable {N : Type}

/-- What a shift does in a build with or without overflow checks (`chk`): for any count but
`i32::MIN`, the work of one of the two non-negative branches. -/
theorem shiftU_eq {P : Type} (chk : Bool) (pos : Bool → P → Nat → Res P) (fuel : Nat) (left : Bool) (p : P)
    (rhs : Int) (h : rhs ≠ -2 ^ 31) :
    shiftU chk pos (fuel + 2) left p rhs
      = if rhs < 0 then pos (!left) p (-rhs).toNat else pos left p rhs.toNat := by
  rw [shiftU]
  split
  · rename_i hn
    rw [negI32U, if_neg h, Res.ok_bind, shiftU, if_neg (by omega)]
  · rfl

theorem shiftU_min_checked {P : Type} (pos : Bool → P → Nat → Res P) (fuel : Nat) (left : Bool) (p : P) :
    shiftU true pos (fuel + 1) left p (-2 ^ 31) = .panic := by
  rw [shiftU, if_pos (by norm_num)]; rfl

theorem shiftU_min_wrap {P : Type} (pos : Bool → P → Nat → Res P) (fuel : Nat) (p : P) :
    ∀ left, shiftU false pos fuel left p (-2 ^ 31) = .fuel := by
  induction fuel with
  | zero => intro left; rfl
  | succ n ih =>
    intro left
    rw [shiftU, if_pos (by norm_num)]
    exact ih _

end

section
variable {R : Type} [CommSemiring R]

/-- C71 (Monomial): with overflow checks `a << k`, for a count that is not `i32::MIN`: exact if the
degree fits, panic otherwise.  A right shift (negative count) never overflows. -/
theorem C71_monomial_shl_checked (w fuel : Nat) (a : Monomial R) (k : Int) (hk : k ≠ -2 ^ 31) :
    (0 ≤ k → a.deg + k.toNat < 2 ^ w →
      ∃ r, a.shlU ⟨w, true⟩ (fuel + 2) k = .ok r ∧ r.poly = a.poly * X ^ k.toNat) ∧
    (0 ≤ k → 2 ^ w ≤ a.deg + k.toNat → a.shlU ⟨w, true⟩ (fuel + 2) k = .panic) ∧
    (k < 0 → a.shlU ⟨w, true⟩ (fuel + 2) k = a.shl k) := by
  unfold Monomial.shlU
  rw [shiftU_eq _ _ _ _ _ _ hk]
  refine ⟨fun h0 h => ?_, fun h0 h => ?_, fun h0 => ?_⟩
  · rw [if_neg (by omega), Monomial.shiftPosU, if_pos rfl, USz.add_checked, if_pos h]
    refine ⟨_, rfl, ?_⟩
    simp only [Monomial.poly, Monomial.new, pow_add]; ring
  · rw [if_neg (by omega), Monomial.shiftPosU, if_pos rfl, USz.add_checked, if_neg (by omega)]; rfl
  · rw [if_pos h0, Monomial.shl, if_pos h0, negI32_ok hk]; rfl

/-- C71 (SparsePolynomial): with overflow checks `a << k`. -/
theorem C71_sparse_shl_checked (w fuel : Nat) (p : Sparse R) (k : Int) (hk : k ≠ -2 ^ 31) :
    (0 ≤ k → (∀ e ∈ p.terms.entries, e.1 + k.toNat < 2 ^ w) →
      ∃ r, p.shlU ⟨w, true⟩ (fuel + 2) k = .ok r ∧
        entriesPoly r.terms.entries = entriesPoly p.terms.entries * X ^ k.toNat) ∧
    (0 ≤ k → (∃ e ∈ p.terms.entries, 2 ^ w ≤ e.1 + k.toNat) →
      p.shlU ⟨w, true⟩ (fuel + 2) k = .panic) ∧
    (k < 0 → p.shlU ⟨w, true⟩ (fuel + 2) k = p.shl k) := by
  unfold Sparse.shlU
  rw [shiftU_eq _ _ _ _ _ _ hk]
  refine ⟨fun h0 h => ?_, fun h0 h => ?_, fun h0 => ?_⟩
  · rw [if_neg (by omega), (shiftPosU_checked w p k.toNat).2 (fun e he => by have := h e he; omega)]
    refine ⟨_, rfl, ?_⟩
    unfold Sparse.shlPos Sparse.new
    rw [mapPoly_foldl_keyed' _ (fun e : Nat × R => e.1 + k.toNat) (fun e => e.2)
      (p.terms.sorted.imp (fun h => by omega))]
    unfold entriesPoly
    rw [← List.sum_map_mul_right]
    congr 2
    funext e
    rw [pow_add, mul_assoc]
  · rw [if_neg (by omega), (shiftPosU_checked w p k.toNat).1 h]
  · rw [if_pos h0, Sparse.shl, if_pos h0, negI32_ok hk]; rfl

example : (do let r ← (Sparse.fromTerms [((2 : ℤ), 60), (1, 0)]).shlU ⟨8, true⟩ 2 195
              Res.ok r.terms.entries) = .ok [(195, 1), (255, 2)] ∧
    (do let r ← (Sparse.fromTerms [((2 : ℤ), 60), (1, 0)]).shlU ⟨8, true⟩ 2 196
        Res.ok r.terms.entries) = .panic ∧
    (Monomial.new (3 : ℤ) 200).shlU ⟨8, true⟩ 2 56 = .panic := by decide

end

/-- C71: the integral with overflow checks panics when some stored degree is `usize::MAX`, and is the
ideal integral otherwise (`SparsePolynomial`, `Monomial`). -/
theorem C71_integral_checked {N : Type} [Zero N] [NumZero N] [Add N] [RDiv N] [FromUsizeExact N]
    (hdiv : ∀ a b : N, rdiv a b ≠ .fuel) (w : Nat) (p : Sparse N) (m : Monomial N) :
    ((∃ e ∈ p.terms.entries, 2 ^ w ≤ e.1 + 1) → p.integralU ⟨w, true⟩ = .panic) ∧
    ((∀ e ∈ p.terms.entries, e.1 + 1 < 2 ^ w) → p.integralU ⟨w, true⟩ = p.integral) ∧
    (isZero m.coefficient = false → 2 ^ w ≤ m.deg + 1 → m.integralU ⟨w, true⟩ = .panic) ∧
    (m.deg + 1 < 2 ^ w → m.integralU ⟨w, true⟩ = m.integral) := by
  refine ⟨fun h => ?_, fun h => ?_, fun hz h => ?_, fun h => ?_⟩
  · unfold Sparse.integralU
    rw [foldlM_panic]
    · rfl
    · intro e _ t
      rw [USz.add_checked]
      split
      · rw [Res.ok_bind]
        split
        · left; rfl
        · rename_i d _
          cases hd : rdiv e.2 d with
          | ok v => right; exact ⟨_, rfl⟩
          | panic => left; rfl
          | fuel => exact absurd hd (hdiv _ _)
      · left; rfl
    · obtain ⟨e, he, hle⟩ := h
      refine ⟨e, he, fun t => ?_⟩
      rw [USz.add_checked, if_neg (by omega)]; rfl
  · unfold Sparse.integralU Sparse.integral
    have : ∀ (l : List (Nat × N)), (∀ e ∈ l, e.1 + 1 < 2 ^ w) → ∀ t : BMap N,
        l.foldlM (fun (terms : BMap N) e => do
          let k ← USz.add ⟨w, true⟩ e.1 1
          match (tryFromExact k : Option N) with
          | none => Res.panic
          | some d => do
            let v ← rdiv e.2 d
            .ok (terms.insert k v)) t
        = l.foldlM (fun (terms : BMap N) e =>
          match (tryFromExact (e.1 + 1) : Option N) with
          | none => Res.panic
          | some d => do
            let v ← rdiv e.2 d
            .ok (terms.insert (e.1 + 1) v)) t := by
      intro l
      induction l with
      | nil => intros; rfl
      | cons e l ih =>
        intro hl t
        rw [List.foldlM_cons, List.foldlM_cons, USz.add_checked, if_pos (hl e List.mem_cons_self),
          Res.ok_bind]
        congr 1
        funext t'
        exact ih (fun x hx => hl x (List.mem_cons_of_mem _ hx)) t'
    exact congrArg (· >>= fun terms => Res.ok (Sparse.new terms)) (this _ h .empty)
  · unfold Monomial.integralU Monomial.degree
    rw [if_neg (by rw [hz]; simp), ]
    dsimp only
    rw [USz.add_checked, if_neg (by omega)]; rfl
  · unfold Monomial.integralU Monomial.integral Monomial.degree
    by_cases hz : isZero m.coefficient = true
    · simp only [if_pos hz]
    · simp only [if_neg hz, USz.add_checked, if_pos h, Res.ok_bind]
      rfl

example : (do let r ← (Sparse.fromTerms [((4 : ℤ), 254 - 253)]).integralU ⟨8, true⟩
              Res.ok r.terms.entries) = .ok [(2, 2)] ∧
    (do let r ← (Sparse.fromTerms [((4 : ℤ), 255)]).integralU ⟨8, true⟩
        Res.ok r.terms.entries) = .panic := by decide

/-- C71: `mul_poly_vec` with overflow checks: whenever it returns, its result is that with unbounded
degrees; and it returns when all the sums of degrees fit. -/
theorem C71_mul_poly_vec_checked {N S : Type} [MutPoly N S] [Mul N] (w : Nat) (rhs lhs : List (N × Nat))
    (sink : S) :
    (∀ r, mulPolyVecU ⟨w, true⟩ rhs lhs sink = .ok r → r = mulPolyVec rhs lhs sink) ∧
    ((∀ a ∈ rhs, ∀ b ∈ lhs, a.2 + b.2 < 2 ^ w) →
      mulPolyVecU ⟨w, true⟩ rhs lhs sink = .ok (mulPolyVec rhs lhs sink)) := by
  have inner : ∀ (c : N) (d : Nat) (l : List (N × Nat)) (s : S),
      (∀ r, mulPolyVecInnerU ⟨w, true⟩ c d l s = .ok r → r = mulPolyVecInner c d l s) ∧
      ((∀ b ∈ l, d + b.2 < 2 ^ w) →
        mulPolyVecInnerU ⟨w, true⟩ c d l s = .ok (mulPolyVecInner c d l s)) := by
    intro c d l
    induction l with
    | nil => intro s; exact ⟨fun r h => (Res.ok.inj h).symm, fun _ => rfl⟩
    | cons b l ih =>
      obtain ⟨lc, ld⟩ := b
      intro s
      unfold mulPolyVecInnerU mulPolyVecInner
      rw [USz.add_checked]
      constructor
      · intro r h
        split at h
        · rw [Res.ok_bind] at h
          generalize MutPoly.tryAddTerm s (c * lc) (d + ld) = t at h ⊢
          obtain ⟨s', _ | ⟨⟩⟩ := t
          · exact (Res.ok.inj h).symm
          · exact (ih s').1 r h
        · cases h
      · intro h
        rw [if_pos (h (lc, ld) List.mem_cons_self), Res.ok_bind]
        generalize MutPoly.tryAddTerm s (c * lc) (d + ld) = t
        obtain ⟨s', _ | ⟨⟩⟩ := t
        · rfl
        · exact (ih s').2 (fun b hb => h b (List.mem_cons_of_mem _ hb))
  induction rhs generalizing sink with
  | nil => exact ⟨fun r h => (Res.ok.inj h).symm, fun _ => rfl⟩
  | cons a rhs ih =>
    obtain ⟨c, d⟩ := a
    unfold mulPolyVecU mulPolyVec
    constructor
    · intro r h
      obtain ⟨t, ht, h⟩ := Res.bind_eq_ok.1 h
      rw [← (inner c d lhs sink).1 t ht]
      obtain ⟨s', _ | ⟨⟩⟩ := t
      · exact (Res.ok.inj h).symm
      · exact (ih s').1 r h
    · intro h
      rw [(inner c d lhs sink).2 (fun b hb => h (c, d) List.mem_cons_self b hb), Res.ok_bind]
      generalize mulPolyVecInner c d lhs sink = t
      obtain ⟨s', _ | ⟨⟩⟩ := t
      · rfl
      · exact (ih s').2 (fun a ha => h a (List.mem_cons_of_mem _ ha))

example : mulPolyVecU ⟨8, true⟩ [((2 : ℤ), 1)] [(3, 1), (1, 0)] (⟨[]⟩ : Poly ℤ)
      = .ok (⟨[6, 2, 0]⟩, .ok ()) ∧
    mulPolyVecU ⟨8, true⟩ [((2 : ℤ), 1)] [(3, 255), (1, 0)] (⟨[]⟩ : Poly ℤ) = .panic := by decide

/-! ## C72: without overflow checks -/

section
variable {R : Type} [CommRing R]

theorem X_pow_mod_dvd (M a : Nat) : (X ^ M - 1 : R[X]) ∣ X ^ a - X ^ (a % M) := by
  have h : (X ^ a - X ^ (a % M) : R[X]) = X ^ (a % M) * ((X ^ M) ^ (a / M) - 1 ^ (a / M)) := by
    rw [one_pow, mul_sub, mul_one, ← pow_mul, ← pow_add, Nat.mod_add_div]
  rw [h]
  exact Dvd.dvd.mul_left (sub_dvd_pow_sub_pow _ _ _) _

theorem dvd_mul_sub_mul {D a a' b b' : R[X]} (ha : D ∣ a - a') (hb : D ∣ b - b') :
    D ∣ a * b - a' * b' := by
  have : a * b - a' * b' = a * (b - b') + (a - a') * b' := by ring
  rw [this]
  exact dvd_add (hb.mul_left _) (ha.mul_right _)

theorem dvd_sum_sub {α : Type} {D : R[X]} (l : List α) (f g : α → R[X])
    (h : ∀ e ∈ l, D ∣ f e - g e) : D ∣ (l.map f).sum - (l.map g).sum := by
  induction l with
  | nil => simp
  | cons a l ih =>
    rw [List.map_cons, List.map_cons, List.sum_cons, List.sum_cons, add_sub_add_comm]
    exact dvd_add (h a List.mem_cons_self) (ih (fun e he => h e (List.mem_cons_of_mem _ he)))

theorem degree_entriesPoly_lt {M : Nat} (l : List (Nat × R)) (h : ∀ e ∈ l, e.1 < M) :
    (entriesPoly l).degree < M := by
  induction l with
  | nil => rw [entriesPoly_nil, degree_zero]; exact WithBot.bot_lt_coe _
  | cons a l ih =>
    rw [entriesPoly_cons]
    refine lt_of_le_of_lt (degree_add_le _ _) (max_lt ?_ (ih (fun e he => h e (List.mem_cons_of_mem _ he))))
    exact lt_of_le_of_lt (degree_C_mul_X_pow_le _ _) (by exact_mod_cast h a List.mem_cons_self)

/-- A polynomial of degree below `M` congruent to `P` modulo `X ^ M - 1` is the remainder. -/
theorem eq_modByMonic [Nontrivial R] {M : Nat} (hM : 0 < M) {P r : R[X]} (hr : r.degree < M)
    (h : (X ^ M - 1 : R[X]) ∣ P - r) : r = P %ₘ (X ^ M - 1) := by
  have hm : (X ^ M - 1 : R[X]).Monic := by
    have := monic_X_pow_sub_C (1 : R) (n := M) (by omega)
    simpa using this
  have hd : (X ^ M - 1 : R[X]).degree = M := by
    have := degree_X_pow_sub_C hM (1 : R)
    simpa using this
  calc r = r %ₘ (X ^ M - 1) := ((modByMonic_eq_self_iff hm).2 (by rw [hd]; exact hr)).symm
    _ = P %ₘ (X ^ M - 1) := by
      refine modByMonic_eq_of_dvd_sub hm ?_
      rw [← neg_sub P r]
      exact (dvd_neg).2 h

variable [Nontrivial R]

/-- C72 (Monomial): without overflow checks `a * b`, `a.pow(n)` and `a << k` always return, with the
degree reduced modulo `2 ^ bits`: the result is the remainder of the exact polynomial modulo
`X ^ (2 ^ bits) - 1`. -/
theorem C72_monomial_wrapping [PowUsize R] [LawfulPowUsize R] (w fuel : Nat) (a b : Monomial R) (n : Nat)
    (hn : n < LawfulPowUsize.bound R) (k : Int) (hk : 0 ≤ k) :
    (∃ r, a.mulU ⟨w, false⟩ b = .ok r ∧ r.poly = (a.poly * b.poly) %ₘ (X ^ 2 ^ w - 1)) ∧
    (∃ r, a.powU ⟨w, false⟩ n = .ok r ∧ r.poly = (a.poly ^ n) %ₘ (X ^ 2 ^ w - 1)) ∧
    (∃ r, a.shlU ⟨w, false⟩ (fuel + 2) k = .ok r ∧
      r.poly = (a.poly * X ^ k.toNat) %ₘ (X ^ 2 ^ w - 1)) := by
  have key : ∀ (c : R) (d : Nat),
      (C c * X ^ (d % 2 ^ w) : R[X]) = (C c * X ^ d) %ₘ (X ^ 2 ^ w - 1) := by
    intro c d
    apply eq_modByMonic (by positivity)
    · exact lt_of_le_of_lt (degree_C_mul_X_pow_le _ _)
        (by exact_mod_cast Nat.mod_lt _ (by positivity))
    · rw [← mul_sub]; exact (X_pow_mod_dvd _ _).mul_left _
  refine ⟨?_, ?_, ?_⟩
  · unfold Monomial.mulU
    rw [USz.add_wrap]
    refine ⟨_, rfl, ?_⟩
    simp only [Monomial.poly, Monomial.new]
    rw [key, C_mul, pow_add]
    congr 1; ring
  · unfold Monomial.powU
    rw [USz.mul_wrap]
    refine ⟨_, rfl, ?_⟩
    simp only [Monomial.poly, Monomial.new]
    rw [key, LawfulPowUsize.upow_eq _ _ hn, C_pow, mul_pow, ← pow_mul]
  · unfold Monomial.shlU
    rw [shiftU_eq _ _ _ _ _ _ (by omega), if_neg (by omega), Monomial.shiftPosU, if_pos rfl,
      USz.add_wrap]
    refine ⟨_, rfl, ?_⟩
    simp only [Monomial.poly, Monomial.new]
    rw [key, pow_add, mul_assoc]

example : (Monomial.new (3 : ℤ) 200).mulU ⟨8, false⟩ (Monomial.new 5 100) = .ok ⟨15, 44⟩ ∧
    (Monomial.new (3 : ℤ) 100).powU ⟨8, false⟩ 3 = .ok ⟨27, 44⟩ ∧
    (Monomial.new (3 : ℤ) 200).shlU ⟨8, false⟩ 2 60 = .ok ⟨3, 4⟩ := by decide

/-- C72 (SparsePolynomial): without overflow checks `a << k` always returns, with every degree
reduced modulo `2 ^ bits`. -/
theorem C72_sparse_shl_wrapping (w fuel : Nat) (p : Sparse R)
    (hp : ∀ e ∈ p.terms.entries, e.1 < 2 ^ w) (k : Int) (hk : 0 ≤ k) :
    ∃ r, p.shlU ⟨w, false⟩ (fuel + 2) k = .ok r ∧
      entriesPoly r.terms.entries = (entriesPoly p.terms.entries * X ^ k.toNat) %ₘ (X ^ 2 ^ w - 1) := by
  unfold Sparse.shlU
  rw [shiftU_eq _ _ _ _ _ _ (by omega), if_neg (by omega), Sparse.shiftPosU, if_pos rfl,
    foldlM_ok (step' := fun (terms : BMap R) (e : Nat × R) =>
      terms.insert ((fun e : Nat × R => (e.1 + k.toNat) % 2 ^ w) e) ((fun e : Nat × R => e.2) e))]
  · refine ⟨_, rfl, ?_⟩
    unfold Sparse.new
    rw [mapPoly_foldl_keyed']
    · apply eq_modByMonic (by positivity)
      · have := degree_entriesPoly_lt (M := 2 ^ w)
          (p.terms.entries.map fun e => ((e.1 + k.toNat) % 2 ^ w, e.2))
          (by
            intro e he
            obtain ⟨x, _, rfl⟩ := List.mem_map.1 he
            exact Nat.mod_lt _ (by positivity))
        rw [entriesPoly_map] at this
        exact_mod_cast this
      · unfold entriesPoly
        rw [← List.sum_map_mul_right]
        apply dvd_sum_sub
        intro e _
        rw [mul_assoc, ← pow_add, ← mul_sub]
        exact (X_pow_mod_dvd _ _).mul_left _
    · have hs := p.terms.sorted
      rw [List.pairwise_iff_getElem] at hs ⊢
      intro i j hi hj hij h
      have h1 := hs i j hi hj hij
      have h2 := hp _ (List.getElem_mem hi)
      have h3 := hp _ (List.getElem_mem hj)
      have h4 : (p.terms.entries[i]).1 ≡ (p.terms.entries[j]).1 [MOD 2 ^ w] :=
        Nat.ModEq.add_right_cancel' k.toNat h
      unfold Nat.ModEq at h4
      rw [Nat.mod_eq_of_lt h2, Nat.mod_eq_of_lt h3] at h4
      omega
  · intro e _ m
    rw [USz.add_wrap]; rfl

example : (do let r ← (Sparse.fromTerms [((2 : ℤ), 200), (1, 0)]).shlU ⟨8, false⟩ 2 60
              Res.ok r.terms.entries) = .ok [(4, 2), (60, 1)] := by decide

variable [NumZero R] [LawfulNumZero R]

omit [Nontrivial R] in
theorem mulU_wrap (w : Nat) (p q : Sparse R) :
    ∃ r, p.mulU ⟨w, false⟩ q = .ok r ∧
      (X ^ 2 ^ w - 1 : R[X]) ∣ entriesPoly p.terms.entries * entriesPoly q.terms.entries
        - entriesPoly r.terms.entries := by
  have inner : ∀ (d : Nat) (c : R) (m : BMap R), mapMulInnerU ⟨w, false⟩ d c p.terms.entries m
      = .ok (p.terms.entries.foldl (fun terms e =>
          terms.upsert ((d + e.1) % 2 ^ w) (c * e.2) (· + c * e.2)) m) := by
    intro d c m
    unfold mapMulInnerU
    apply foldlM_ok
    intro e _ m
    rw [USz.add_wrap]; rfl
  unfold Sparse.mulU mapMulU
  rw [foldlM_ok (step' := fun (terms : BMap R) (e : Nat × R) => if isZero e.2 then terms else
    p.terms.entries.foldl (fun terms e' =>
          terms.upsert ((e.1 + e'.1) % 2 ^ w) (e.2 * e'.2) (· + e.2 * e'.2)) terms)]
  · refine ⟨_, rfl, ?_⟩
    rw [mapPoly_foldl _ (fun e => (p.terms.entries.map fun e' : Nat × R =>
      C (e.2 * e'.2) * X ^ ((e.1 + e'.1) % 2 ^ w)).sum)]
    · rw [mapPoly_empty, zero_add, mul_comm]
      have : entriesPoly q.terms.entries * entriesPoly p.terms.entries
          = (q.terms.entries.map fun e => (p.terms.entries.map fun e' : Nat × R =>
            C (e.2 * e'.2) * X ^ (e.1 + e'.1)).sum).sum := by
        unfold entriesPoly
        rw [← List.sum_map_mul_right]
        congr 2
        funext e
        rw [← List.sum_map_mul_left]
        congr 2
        funext e'
        rw [C_mul, pow_add]; ring
      rw [this]
      apply dvd_sum_sub
      intro e _
      apply dvd_sum_sub
      intro e' _
      rw [← mul_sub]
      exact (X_pow_mod_dvd _ _).mul_left _
    · intro m e _
      split
      · rename_i h
        have : e.2 = 0 := by simpa using h
        simp [this]
      · rw [mapPoly_foldl _ (fun e' : Nat × R => C (e.2 * e'.2) * X ^ ((e.1 + e'.1) % 2 ^ w)) _
          (fun m e' _ => mapPoly_upsert_add m _ _ _ (fun _ => rfl))]
  · intro e _ m
    split
    · rfl
    · exact inner _ _ _

/-- C72 (SparsePolynomial): without overflow checks `a * b` always returns, and the result is the
product modulo `X ^ (2 ^ bits) - 1`. -/
theorem C72_sparse_mul_wrapping (w : Nat) (p q : Sparse R) :
    ∃ r, p.mulU ⟨w, false⟩ q = .ok r ∧ entriesPoly r.terms.entries
      = (entriesPoly p.terms.entries * entriesPoly q.terms.entries) %ₘ (X ^ 2 ^ w - 1) := by
  obtain ⟨r, hr, hd⟩ := mulU_wrap w p q
  exact ⟨r, hr, eq_modByMonic (by positivity)
    (degree_entriesPoly_lt _ (mul_keys_lt rfl hr)) hd⟩

example : (do let r ← (Sparse.fromTerms [((2 : ℤ), 200), (1, 0)]).mulU ⟨8, false⟩ (Sparse.fromTerms [(3, 100)])
              Res.ok r.terms.entries) = .ok [(44, 6), (100, 3)] := by decide

/-- C72 (SparsePolynomial): without overflow checks `a.pow(n)` always returns, and the result is the
power modulo `X ^ (2 ^ bits) - 1`. -/
theorem C72_sparse_pow_wrapping (w : Nat) (p : Sparse R) (n : Nat)
    (hp : ∀ e ∈ p.terms.entries, e.1 < 2 ^ w) :
    ∃ r, p.powU ⟨w, false⟩ n = .ok r ∧
      entriesPoly r.terms.entries = (entriesPoly p.terms.entries ^ n) %ₘ (X ^ 2 ^ w - 1) := by
  have key : ∀ n (p : Sparse R), ∃ r, p.powU ⟨w, false⟩ n = .ok r ∧
      (X ^ 2 ^ w - 1 : R[X]) ∣ entriesPoly p.terms.entries ^ n - entriesPoly r.terms.entries := by
    intro n
    induction n using Nat.strong_induction_on with
    | _ n ih =>
      intro p
      rw [Sparse.powU]
      split
      · rename_i h0
        refine ⟨_, rfl, ?_⟩
        rw [h0, mapPoly_insert_fresh _ _ _ rfl]; simp [mapPoly_empty]
      · split
        · rename_i h1
          refine ⟨_, rfl, ?_⟩
          simp [h1, Sparse.new]
        · split
          · rename_i h2
            rw [h2, pow_two]; exact mulU_wrap w p p
          · split
            · rename_i h0 h1 h2 h3
              obtain ⟨s, hs, hd⟩ := ih (n / 2) (by omega) p
              obtain ⟨r, hr, hd2⟩ := ih 2 (by omega) s
              refine ⟨r, by rw [hs]; exact hr, ?_⟩
              have h5 : (X ^ 2 ^ w - 1 : R[X]) ∣ entriesPoly p.terms.entries ^ n
                  - entriesPoly s.terms.entries ^ 2 := by
                have h6 : entriesPoly p.terms.entries ^ n
                    = (entriesPoly p.terms.entries ^ (n / 2)) ^ 2 := by
                  rw [← pow_mul]; congr 1; omega
                rw [h6]
                exact hd.trans (sub_dvd_pow_sub_pow _ _ _)
              have := dvd_add h5 hd2
              rwa [sub_add_sub_cancel] at this
            · rename_i h0 h1 h2 h3
              obtain ⟨s, hs, hd⟩ := ih (n - 1) (by omega) p
              obtain ⟨r, hr, hd2⟩ := mulU_wrap w p s
              refine ⟨r, by rw [hs]; exact hr, ?_⟩
              have h5 : (X ^ 2 ^ w - 1 : R[X]) ∣ entriesPoly p.terms.entries ^ n
                  - entriesPoly p.terms.entries * entriesPoly s.terms.entries := by
                have h6 : entriesPoly p.terms.entries ^ n
                    = entriesPoly p.terms.entries * entriesPoly p.terms.entries ^ (n - 1) := by
                  rw [← pow_succ']; congr 1; omega
                rw [h6, ← mul_sub]
                exact hd.mul_left _
              have := dvd_add h5 hd2
              rwa [sub_add_sub_cancel] at this
  obtain ⟨r, hr, hd⟩ := key n p
  exact ⟨r, hr, eq_modByMonic (by positivity)
    (degree_entriesPoly_lt _ (powU_keys_lt rfl n hp hr)) hd⟩

example : (do let r ← (Sparse.fromTerms [((2 : ℤ), 128), (1, 0)]).powU ⟨8, false⟩ 3
              Res.ok r.terms.entries) = .ok [(0, 13), (128, 14)] := by decide +kernel

end

/-- C72: so without overflow checks the product is wrong: on every platform the square of
`x ^ (2 ^ (bits - 1))` is `1`, for `Monomial` and for `SparsePolynomial`. -/
theorem C72_release_mul_false (w : Nat) :
    (∃ r, (Monomial.new (1 : ℤ) (2 ^ w)).mulU ⟨w + 1, false⟩ (Monomial.new 1 (2 ^ w)) = .ok r ∧
      r.poly = 1) ∧
    (∃ r, (Sparse.fromTerms [((1 : ℤ), 2 ^ w)]).mulU ⟨w + 1, false⟩ (Sparse.fromTerms [(1, 2 ^ w)])
      = .ok r ∧ entriesPoly r.terms.entries = 1) := by
  have h : (2 ^ w + 2 ^ w) % 2 ^ (w + 1) = 0 := by
    rw [← two_mul, ← pow_succ', Nat.mod_self]
  constructor
  · unfold Monomial.mulU
    rw [USz.add_wrap]
    refine ⟨_, rfl, ?_⟩
    simp [Monomial.new, Monomial.poly, h]
  · refine ⟨⟨BMap.empty.insert 0 1⟩, ?_, ?_⟩
    · have e : (Sparse.fromTerms [((1 : ℤ), 2 ^ w)]).terms = BMap.empty.insert (2 ^ w) 1 := rfl
      unfold Sparse.mulU mapMulU
      rw [e]
      have e2 : (BMap.empty.insert (2 ^ w) (1 : ℤ)).entries = [(2 ^ w, 1)] := rfl
      rw [e2]
      simp only [List.foldlM_cons, List.foldlM_nil, mapMulInnerU, USz.add_wrap, h, Res.ok_bind]
      rfl
    · rw [mapPoly_insert_fresh _ _ _ rfl]; simp [mapPoly_empty]

/-! ## C73: shifting by `i32::MIN` -/

/-- C73: a shift by `i32::MIN` panics in a build with overflow checks. -/
theorem C73_shift_min_checked {R : Type} [Semiring R] [NumZero R] (fuel : Nat) (u : USz) (hu : u.chk = true)
    (m : Monomial R) (s : Sparse R) (p : Poly R) :
    m.shlU u (fuel + 1) (-2 ^ 31) = .panic ∧ m.shrU u (fuel + 1) (-2 ^ 31) = .panic ∧
    s.shlU u (fuel + 1) (-2 ^ 31) = .panic ∧ s.shrU u (fuel + 1) (-2 ^ 31) = .panic ∧
    p.shlU true (fuel + 1) (-2 ^ 31) = .panic ∧ p.shrU true (fuel + 1) (-2 ^ 31) = .panic ∧
    p.shlAssignU true (fuel + 1) (-2 ^ 31) = .panic ∧
    p.shrAssignU true (fuel + 1) (-2 ^ 31) = .panic := by
  unfold Monomial.shlU Monomial.shrU Sparse.shlU Sparse.shrU
  rw [hu]
  exact ⟨shiftU_min_checked _ _ _ _, shiftU_min_checked _ _ _ _, shiftU_min_checked _ _ _ _,
    shiftU_min_checked _ _ _ _, shiftU_min_checked _ _ _ _, shiftU_min_checked _ _ _ _,
    shiftU_min_checked _ _ _ _, shiftU_min_checked _ _ _ _⟩

/-- C73: in a build without overflow checks `-i32::MIN` is `i32::MIN`, and the two shift operators
call each other for ever: no depth of recursion is enough, whatever the operand. -/
theorem C73_shift_min_diverges {R : Type} [Semiring R] [NumZero R] (fuel : Nat) (u : USz)
    (hu : u.chk = false) (m : Monomial R) (s : Sparse R) (p : Poly R) :
    m.shlU u fuel (-2 ^ 31) = .fuel ∧ m.shrU u fuel (-2 ^ 31) = .fuel ∧
    s.shlU u fuel (-2 ^ 31) = .fuel ∧ s.shrU u fuel (-2 ^ 31) = .fuel ∧
    p.shlU false fuel (-2 ^ 31) = .fuel ∧ p.shrU false fuel (-2 ^ 31) = .fuel ∧
    p.shlAssignU false fuel (-2 ^ 31) = .fuel ∧ p.shrAssignU false fuel (-2 ^ 31) = .fuel := by
  unfold Monomial.shlU Monomial.shrU Sparse.shlU Sparse.shrU
  rw [hu]
  exact ⟨shiftU_min_wrap _ _ _ _, shiftU_min_wrap _ _ _ _, shiftU_min_wrap _ _ _ _,
    shiftU_min_wrap _ _ _ _, shiftU_min_wrap _ _ _ _, shiftU_min_wrap _ _ _ _,
    shiftU_min_wrap _ _ _ _, shiftU_min_wrap _ _ _ _⟩

/-- C73: for every other count the recursion is at most one call deep, and the outcome in either
build is that of the model with unbounded integers (`Polynomial`: four operators; `SparsePolynomial`
and `Monomial`: right shifts, which cannot overflow a degree). -/
theorem C73_shift_other {R : Type} [Semiring R] [NumZero R] (chk : Bool) (u : USz) (fuel : Nat)
    (m : Monomial R) (s : Sparse R) (p : Poly R) (k : Int) (hk : k ≠ -2 ^ 31) :
    p.shlU chk (fuel + 2) k = p.shl k ∧ p.shrU chk (fuel + 2) k = p.shr k ∧
    p.shlAssignU chk (fuel + 2) k = p.shlAssign k ∧ p.shrAssignU chk (fuel + 2) k = p.shrAssign k ∧
    (0 ≤ k → m.shrU u (fuel + 2) k = m.shr k ∧ s.shrU u (fuel + 2) k = s.shr k) ∧
    (k < 0 → m.shlU u (fuel + 2) k = m.shl k ∧ s.shlU u (fuel + 2) k = s.shl k) := by
  unfold Poly.shlU Poly.shrU Poly.shlAssignU Poly.shrAssignU Monomial.shlU Monomial.shrU Sparse.shlU
    Sparse.shrU Poly.shl Poly.shr Poly.shlAssign Poly.shrAssign Monomial.shl Monomial.shr Sparse.shl
    Sparse.shr
  simp only [shiftU_eq _ _ _ _ _ _ hk]
  by_cases h : k < 0
  · simp only [if_pos h, negI32_ok hk]
    refine ⟨rfl, rfl, rfl, rfl, fun h' => absurd h (by omega), fun _ => ⟨rfl, rfl⟩⟩
  · simp only [if_neg h]
    refine ⟨rfl, rfl, rfl, rfl, fun _ => ⟨rfl, rfl⟩, fun h' => absurd h' h⟩

example : (⟨[1, 2, 3]⟩ : Poly ℤ).shlU false 2 (-1) = .ok ⟨[1, 2]⟩ ∧
    (⟨[1, 2, 3]⟩ : Poly ℤ).shrU true 2 (-1) = .ok ⟨[1, 2, 3, 0]⟩ ∧
    (⟨[1, 2, 3]⟩ : Poly ℤ).shlU false 1000 (-2 ^ 31) = .fuel ∧
    (⟨[1, 2, 3]⟩ : Poly ℤ).shlU true 1 (-2 ^ 31) = .panic := by decide +kernel

/-! ## C74: growing a dense polynomial -/

theorem USz.sub_le {u : USz} {a b : Nat} (h : b ≤ a) : u.sub a b = .ok (a - b) := if_pos h

/-- The index computed at degree `usize::MAX` is out of bounds in a build without checks. -/
theorem index_max_wrap {w len d : Nat} (hl : len < 2 ^ w) (hd : d + 1 = 2 ^ w) :
    ∃ i, USz.sub ⟨w, false⟩ len d = .ok i ∧ USz.sub ⟨w, false⟩ i 1 = .ok len := by
  by_cases h : d ≤ len
  · have : len = d := by omega
    subst this
    exact ⟨0, by rw [USz.sub_le le_rfl, Nat.sub_self], by simp [USz.sub]; omega⟩
  · refine ⟨len + 1, ?_, ?_⟩
    · simp only [USz.sub, if_neg h, Bool.false_eq_true, if_false]
      congr 1; omega
    · rw [USz.sub_le (by omega)]; rfl

theorem addTermU_fits {R : Type} [Zero R] [Add R] (u : USz) (p : Poly R) (c : R) (d : Nat)
    (h : d + 1 < 2 ^ u.bits) : p.addTermU u c d = .ok (p.addTerm c d) := by
  unfold Poly.addTermU Poly.addTerm
  rw [USz.add_fits h, Res.ok_bind]
  by_cases hl : p.terms.length < d + 1
  · simp only [if_pos hl, Res.ok_bind, USz.sub_le hl.le, List.length_append, List.length_replicate]
    rw [USz.sub_le (by omega), Res.ok_bind, USz.sub_le (by omega), Res.ok_bind, if_pos (by omega)]
  · simp only [if_neg hl, Res.ok_bind]
    rw [USz.sub_le (by omega), Res.ok_bind, USz.sub_le (by omega), Res.ok_bind, if_pos (by omega)]

theorem addTermU_max {R : Type} [Zero R] [Add R] (u : USz) (p : Poly R) (c : R) (d : Nat)
    (hp : p.terms.length < 2 ^ u.bits) (h : d + 1 = 2 ^ u.bits) : p.addTermU u c d = .panic := by
  obtain ⟨w, chk⟩ := u
  dsimp only at hp h
  unfold Poly.addTermU
  cases chk with
  | true => rw [USz.add_checked, if_neg (by omega)]; rfl
  | false =>
    rw [USz.add_wrap, h, Nat.mod_self, Res.ok_bind, if_neg (by omega), Res.ok_bind]
    obtain ⟨i, h1, h2⟩ := index_max_wrap hp h
    dsimp only
    rw [h1, Res.ok_bind, h2, Res.ok_bind, if_neg (by omega)]

/-- C74: `add_term` (and `try_add_term`) on a `Polynomial`, in either build: for a degree below
`usize::MAX` it adds the term; at `usize::MAX` it panics (with overflow checks because `degree + 1`
overflows, without them because the index wraps around to the length). -/
theorem C74_add_term {R : Type} [Semiring R] (u : USz) (p : Poly R) (c : R) (d : Nat)
    (hp : p.terms.length < 2 ^ u.bits) :
    (d + 1 < 2 ^ u.bits → ∃ r, p.addTermU u c d = .ok r ∧
      descPoly r.terms = descPoly p.terms + C c * X ^ d) ∧
    (d + 1 = 2 ^ u.bits → p.addTermU u c d = .panic) := by
  classical
  exact ⟨fun h => ⟨_, addTermU_fits u p c d h, C31_dense_add_term p c d⟩, addTermU_max u p c d hp⟩

example : (⟨[1, 2]⟩ : Poly ℤ).addTermU ⟨8, true⟩ 5 3 = .ok ⟨[5, 0, 1, 2]⟩ ∧
    (⟨[1, 2]⟩ : Poly ℤ).addTermU ⟨8, false⟩ 5 1 = .ok ⟨[6, 2]⟩ ∧
    (⟨[1, 2]⟩ : Poly ℤ).addTermU ⟨64, true⟩ 5 (2 ^ 64 - 1) = .panic ∧
    (⟨[1, 2]⟩ : Poly ℤ).addTermU ⟨64, false⟩ 5 (2 ^ 64 - 1) = .panic := by decide

/-- C74: `try_sub_term` on a `Polynomial`, in either build. -/
theorem C74_try_sub_term {R : Type} [Ring R] [CanNegate R] (u : USz) (p : Poly R) (c : R) (d : Nat)
    (hp : p.terms.length < 2 ^ u.bits) :
    (d + 1 < 2 ^ u.bits → CanNegate.canNegate R = true ∨ d < p.terms.length →
      ∃ r, p.trySubTermU u c d = .ok (r, .ok ()) ∧
        descPoly r.terms = descPoly p.terms - C c * X ^ d) ∧
    (d + 1 < 2 ^ u.bits → CanNegate.canNegate R = false → p.terms.length ≤ d →
      p.trySubTermU u c d = .ok (p, .error .canNotNegate)) ∧
    (d + 1 = 2 ^ u.bits → p.trySubTermU u c d = .panic) := by
  have hfit : d + 1 < 2 ^ u.bits → p.trySubTermU u c d = .ok (p.trySubTerm c d) := by
    intro h
    unfold Poly.trySubTermU Poly.trySubTerm
    rw [USz.add_fits h, Res.ok_bind]
    by_cases hl : p.terms.length < d + 1
    · simp only [if_pos hl, Res.ok_bind, USz.sub_le hl.le, List.length_append, List.length_replicate]
      split
      · rfl
      · rw [USz.sub_le (by omega), Res.ok_bind, USz.sub_le (by omega), Res.ok_bind, if_pos (by omega)]
    · simp only [if_neg hl]
      rw [USz.sub_le (by omega), Res.ok_bind, USz.sub_le (by omega), Res.ok_bind, if_pos (by omega)]
  refine ⟨fun h hc => ?_, fun h hc hl => ?_, fun h => ?_⟩
  · obtain ⟨r, hr, hd⟩ := (C29_dense p c d).2.1 hc
    exact ⟨r, by rw [hfit h, hr], hd⟩
  · rw [hfit h]
    unfold Poly.trySubTerm
    rw [if_pos (by omega), if_pos (by rw [hc]; rfl)]
  · obtain ⟨w, chk⟩ := u
    dsimp only at hp h
    unfold Poly.trySubTermU
    cases chk with
    | true => rw [USz.add_checked, if_neg (by omega)]; rfl
    | false =>
      rw [USz.add_wrap, h, Nat.mod_self, Res.ok_bind, if_neg (by omega)]
      obtain ⟨i, h1, h2⟩ := index_max_wrap hp h
      rw [h1, Res.ok_bind, h2, Res.ok_bind, if_neg (by omega)]

example : (⟨[1, 2]⟩ : Poly ℤ).trySubTermU ⟨8, false⟩ 5 2 = .ok (⟨[-5, 1, 2]⟩, .ok ()) ∧
    (⟨[1, 2]⟩ : Poly ℤ).trySubTermU ⟨8, false⟩ 5 255 = .panic ∧
    (⟨[1, 2]⟩ : Poly ℤ).trySubTermU ⟨8, true⟩ 5 255 = .panic := by decide

/-- C74: `from_terms` on `Polynomial`, in either build: the sum of the given terms when every degree
is below `usize::MAX`, a panic as soon as one is `usize::MAX`. -/
theorem C74_from_terms {R : Type} [Semiring R] (u : USz) (ts : List (R × Nat))
    (hd : ∀ t ∈ ts, t.2 < 2 ^ u.bits) :
    ((∀ t ∈ ts, t.2 + 1 < 2 ^ u.bits) → ∃ r, Poly.fromTermsU u ts = .ok r ∧
      descPoly r.terms = termsPoly ts) ∧
    ((∃ t ∈ ts, t.2 + 1 = 2 ^ u.bits) → Poly.fromTermsU u ts = .panic) := by
  have hlen : ∀ (p : Poly R) (c : R) (d : Nat), d + 1 < 2 ^ u.bits → p.terms.length < 2 ^ u.bits →
      (p.addTerm c d).terms.length < 2 ^ u.bits := by
    intro p c d h h'
    unfold Poly.addTerm
    dsimp only
    rw [List.length_modify]
    split
    · rw [List.length_append, List.length_replicate]; omega
    · exact h'
  classical
  constructor
  · intro h
    refine ⟨Poly.fromTerms ts, ?_, C31_dense_from_terms ts⟩
    unfold Poly.fromTermsU Poly.fromTerms
    exact foldlM_ok _ _ _ (fun e he m => addTermU_fits u m e.1 e.2 (h e he)) _
  · have key : ∀ (ts : List (R × Nat)), (∀ t ∈ ts, t.2 < 2 ^ u.bits) → (∃ t ∈ ts, t.2 + 1 = 2 ^ u.bits) →
        ∀ p : Poly R, p.terms.length < 2 ^ u.bits →
          ts.foldlM (fun a t => a.addTermU u t.1 t.2) p = .panic := by
      intro ts
      induction ts with
      | nil => intro _ h; obtain ⟨t, ht, _⟩ := h; cases ht
      | cons a ts ih =>
        intro hd h p hp
        rw [List.foldlM_cons]
        by_cases ha : a.2 + 1 = 2 ^ u.bits
        · rw [addTermU_max u p a.1 a.2 hp ha]; rfl
        · have hlt : a.2 + 1 < 2 ^ u.bits := by have := hd a List.mem_cons_self; omega
          rw [addTermU_fits u p a.1 a.2 hlt, Res.ok_bind]
          apply ih (fun t ht => hd t (List.mem_cons_of_mem _ ht)) ?_ _ (hlen p a.1 a.2 hlt hp)
          obtain ⟨t, ht, he⟩ := h
          rcases List.mem_cons.1 ht with h' | h'
          · exact absurd (h' ▸ he) ha
          · exact ⟨t, h', he⟩
    exact fun h => key ts hd h ⟨[]⟩ (by simp)

example : Poly.fromTermsU ⟨8, true⟩ [((1 : ℤ), 2), (3, 0), (4, 2)] = .ok ⟨[5, 0, 3]⟩ ∧
    Poly.fromTermsU ⟨8, false⟩ [((1 : ℤ), 2), (3, 255)] = .panic := by decide

end Rustnomial
