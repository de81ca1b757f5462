import Verif.Model.Upcast
import Verif.Props.Convert
import Verif.Props.Fixed
import Verif.Lemmas.Sparse

/-!
# C42: upcasts between coefficient types
-/

set_option linter.unusedVariables false

open Polynomial

namespace Rustnomial

/-- Specification: the rational numbers which are values of a primitive type.  For floats the
finite values of IEEE binary32 and binary64, `k * 2^e` with a `p`-bit integer significand and the
format's exponent range. -/
def NumTy.Val : NumTy → ℚ → Prop
  | .int t, x => ∃ v : ℤ, t.InRange v ∧ x = v
  | .f32, x => ∃ k e : ℤ, |k| < 2 ^ 24 ∧ -149 ≤ e ∧ e ≤ 104 ∧ x = k * 2 ^ e
  | .f64, x => ∃ k e : ℤ, |k| < 2 ^ 53 ∧ -1074 ≤ e ∧ e ≤ 971 ∧ x = k * 2 ^ e

/-- What has to be checked of a table entry. -/
def entryOk : NumTy × NumTy → Bool
  | (.int s, .int t) => decide (t.min ≤ s.min ∧ s.max ≤ t.max ∧ 1 ≤ t.bits)
  | (.int s, .f32) => decide (-2 ^ 24 < s.min ∧ s.max < 2 ^ 24)
  | (.int s, .f64) => decide (-2 ^ 53 < s.min ∧ s.max < 2 ^ 53)
  | (.f32, .f64) => true
  | _ => false

theorem upcastTable_ok : ∀ e ∈ upcastTable, entryOk e = true := by decide

theorem sign_mul_round (p : Nat) (v : ℤ) (h1 : -2 ^ p < v) (h2 : v < 2 ^ p) :
    ((v.sign : ℚ) * (roundNat p v.natAbs : ℚ)) = v := by
  have hlt : v.natAbs < 2 ^ p := by
    have : ((2 ^ p : Nat) : Int) = 2 ^ p := by push_cast; rfl
    omega
  rw [roundNat_of_representable (representable_of_lt hlt)]
  conv_rhs => rw [← Int.sign_mul_natAbs v]
  rw [Int.cast_mul, Int.cast_natCast]

/-- **C42**, coefficients: for every pair of the table and every value of the smaller type, the
cast is the same number and a value of the larger type. -/
theorem C42_cast_exact (A B : NumTy) (h : (A, B) ∈ upcastTable) (x : ℚ) (hx : A.Val x) :
    castAs A B x = x ∧ B.Val x := by
  have hok := upcastTable_ok _ h
  match A, B, hok, hx with
  | .int s, .int t, hok, ⟨v, hv, hxv⟩ =>
    simp only [entryOk, decide_eq_true_eq] at hok
    have hin : t.InRange v := ⟨le_trans hok.1 hv.1, le_trans hv.2 hok.2.1⟩
    refine ⟨?_, v, hin, hxv⟩
    subst hxv
    show ((t.wrap (v : ℚ).num : ℤ) : ℚ) = v
    rw [Rat.num_intCast, IntTy.wrap_of_inRange t hok.2.2 v hin]
  | .int s, .f32, hok, ⟨v, hv, hxv⟩ =>
    simp only [entryOk, decide_eq_true_eq] at hok
    have h1 : -2 ^ 24 < v := lt_of_lt_of_le hok.1 hv.1
    have h2 : v < 2 ^ 24 := lt_of_le_of_lt hv.2 hok.2
    subst hxv
    refine ⟨?_, v, 0, abs_lt.2 ⟨h1, h2⟩, by norm_num, by norm_num, by simp⟩
    show (((v : ℚ).num.sign : ℤ) : ℚ) * (roundNat 24 (v : ℚ).num.natAbs : ℚ) = v
    rw [Rat.num_intCast]
    exact sign_mul_round 24 v h1 h2
  | .int s, .f64, hok, ⟨v, hv, hxv⟩ =>
    simp only [entryOk, decide_eq_true_eq] at hok
    have h1 : -2 ^ 53 < v := lt_of_lt_of_le hok.1 hv.1
    have h2 : v < 2 ^ 53 := lt_of_le_of_lt hv.2 hok.2
    subst hxv
    refine ⟨?_, v, 0, abs_lt.2 ⟨h1, h2⟩, by norm_num, by norm_num, by simp⟩
    show (((v : ℚ).num.sign : ℤ) : ℚ) * (roundNat 53 (v : ℚ).num.natAbs : ℚ) = v
    rw [Rat.num_intCast]
    exact sign_mul_round 53 v h1 h2
  | .f32, .f64, hok, ⟨k, e, hk, he1, he2, hxe⟩ =>
    exact ⟨rfl, k, e, lt_trans hk (by norm_num), by omega, by omega, hxe⟩

/-- **C42**, conversions compose: the table is transitive and going through an intermediate type
gives the same number. -/
theorem C42_cast_compose (A B D : NumTy) (h1 : (A, B) ∈ upcastTable) (h2 : (B, D) ∈ upcastTable)
    (x : ℚ) (hx : A.Val x) :
    (A, D) ∈ upcastTable ∧ castAs B D (castAs A B x) = castAs A D x := by
  have htrans : ∀ e ∈ upcastTable, ∀ f ∈ upcastTable, e.2 = f.1 → (e.1, f.2) ∈ upcastTable := by
    decide
  have hAD := htrans _ h1 _ h2 rfl
  obtain ⟨e1, hB⟩ := C42_cast_exact A B h1 x hx
  rw [e1, (C42_cast_exact B D h2 x hB).1, (C42_cast_exact A D hAD x hx).1]
  exact ⟨hAD, rfl⟩

/-- The table has no narrowing entry hidden among the widening ones: it is exactly the lossless
pairs between distinct types of the ten integer types and two float types. -/
theorem C42_table_complete :
    ∀ A ∈ [NumTy.u8, .u16, .u32, .u64, .u128, .i8, .i16, .i32, .i64, .i128, .f32, .f64],
    ∀ B ∈ [NumTy.u8, .u16, .u32, .u64, .u128, .i8, .i16, .i32, .i64, .i128, .f32, .f64],
      (A, B) ∈ upcastTable ↔ A ≠ B ∧ entryOk (A, B) = true := by decide

theorem map_cast_eq {A B : NumTy} (h : (A, B) ∈ upcastTable) {l : List ℚ} (hl : ∀ x ∈ l, A.Val x) :
    l.map (castAs A B) = l := by
  rw [List.map_congr_left (g := id) (fun x hx => (C42_cast_exact A B h x (hl x hx)).1), List.map_id]

/-- **C42**, `Polynomial`: the converted value represents the same polynomial and its coefficients
are values of the target type. -/
theorem C42_dense (A B : NumTy) (h : (A, B) ∈ upcastTable) (p : Poly ℚ)
    (hp : ∀ x ∈ p.terms, A.Val x) :
    descPoly (p.upcast (castAs A B)).terms = descPoly p.terms ∧
    ∀ x ∈ (p.upcast (castAs A B)).terms, B.Val x := by
  have e : (p.upcast (castAs A B)).terms = (Poly.new p.terms).terms := by
    show (Poly.new (p.terms.map (castAs A B))).terms = _
    rw [map_cast_eq h hp]
  rw [e, new_terms]
  refine ⟨descPoly_dropWhile _, fun x hx => ?_⟩
  have hx' := List.dropWhile_subset _ hx
  exact (C42_cast_exact A B h x (hp x hx')).2

theorem insertList_last {N : Type} (k : Nat) (v : N) (l : List (Nat × N)) (h : ∀ e ∈ l, e.1 < k) :
    BMap.insertList k v l = l ++ [(k, v)] := by
  induction l with
  | nil => rfl
  | cons a t ih =>
    obtain ⟨k', v'⟩ := a
    have := h (k', v') (List.mem_cons_self ..)
    simp only at this
    rw [BMap.insertList, if_neg (by omega), if_neg (by omega),
      ih (fun e he => h e (List.mem_cons_of_mem _ he))]
    rfl

theorem ofList_entries_aux {N : Type} (l : List (Nat × N)) : ∀ m : BMap N,
    (m.entries ++ l).Pairwise (fun a b => a.1 < b.1) →
    (l.foldl (fun m e => m.insert e.1 e.2) m).entries = m.entries ++ l := by
  induction l with
  | nil => intro m _; simp
  | cons a t ih =>
    intro m hm
    have hlast : (m.insert a.1 a.2).entries = m.entries ++ [a] := by
      apply insertList_last
      intro e he
      exact (List.pairwise_append.1 hm).2.2 e he a (List.mem_cons_self ..)
    rw [List.foldl_cons, ih _ (by rw [hlast]; simpa using hm), hlast]
    simp

/-- Collecting already ordered entries gives the map with those entries. -/
theorem ofList_entries {N : Type} (l : List (Nat × N)) (h : l.Pairwise (fun a b => a.1 < b.1)) :
    (BMap.ofList l).entries = l := by
  have := ofList_entries_aux l BMap.empty (by simpa [BMap.empty] using h)
  rw [BMap.ofList, this]
  rfl

/-- **C42**, `SparsePolynomial`: the converted map has the same entries. -/
theorem C42_sparse (A B : NumTy) (h : (A, B) ∈ upcastTable) (p : Sparse ℚ)
    (hp : ∀ e ∈ p.terms.entries, A.Val e.2) :
    (p.upcast (castAs A B)).terms.entries = p.terms.entries ∧
    entriesPoly (p.upcast (castAs A B)).terms.entries = entriesPoly p.terms.entries ∧
    ∀ e ∈ (p.upcast (castAs A B)).terms.entries, B.Val e.2 := by
  have e : (p.upcast (castAs A B)).terms.entries = p.terms.entries := by
    show (BMap.ofList (p.terms.entries.map fun e => (e.1, castAs A B e.2))).entries = _
    have : (p.terms.entries.map fun e => (e.1, castAs A B e.2)) = p.terms.entries := by
      rw [List.map_congr_left (g := id), List.map_id]
      intro e he
      rw [(C42_cast_exact A B h e.2 (hp e he)).1]
      rfl
    rw [this, ofList_entries _ p.terms.sorted]
  rw [e]
  exact ⟨rfl, rfl, fun e he => (C42_cast_exact A B h e.2 (hp e he)).2⟩

/-- **C42**, `Monomial`, `LinearBinomial`, `QuadraticTrinomial`: conversion changes nothing. -/
theorem C42_fixed (A B : NumTy) (h : (A, B) ∈ upcastTable) :
    (∀ m : Monomial ℚ, A.Val m.coefficient → (m.upcast (castAs A B)).poly = m.poly) ∧
    (∀ b : LinearBinomial ℚ, A.Val b.c0 → A.Val b.c1 → (b.upcast (castAs A B)).poly = b.poly) ∧
    (∀ t : QuadraticTrinomial ℚ, A.Val t.c0 → A.Val t.c1 → A.Val t.c2 →
      (t.upcast (castAs A B)).poly = t.poly) := by
  refine ⟨fun m hm => ?_, fun b h0 h1 => ?_, fun t h0 h1 h2 => ?_⟩
  · show C (castAs A B m.coefficient) * X ^ m.deg = _
    rw [(C42_cast_exact A B h _ hm).1]; rfl
  · show C (castAs A B b.c0) * X + C (castAs A B b.c1) = _
    rw [(C42_cast_exact A B h _ h0).1, (C42_cast_exact A B h _ h1).1]; rfl
  · show C (castAs A B t.c0) * X ^ 2 + C (castAs A B t.c1) * X + C (castAs A B t.c2) = _
    rw [(C42_cast_exact A B h _ h0).1, (C42_cast_exact A B h _ h1).1, (C42_cast_exact A B h _ h2).1]
    rfl

-- Non-vacuity: `MIN` of `i32` is a value, its entry to `f64` is in the table, and `castAs` really
-- rounds and wraps outside the table.
example : NumTy.i32.Val (-2147483648) ∧ (NumTy.i32, NumTy.f64) ∈ upcastTable ∧
    castAs .i32 .f64 (-2147483648) = -2147483648 :=
  have hv : NumTy.i32.Val (-2147483648) := ⟨-2147483648, by decide, by norm_num⟩
  ⟨hv, by decide, (C42_cast_exact .i32 .f64 (by decide) _ hv).1⟩
example : castAs .i32 .f32 16777217 = 16777216 := by decide +kernel
example : castAs .u64 .i64 (2 ^ 63) = -2 ^ 63 := by decide +kernel
example : castAs .u8 .i8 200 = -56 := by decide +kernel
example : ((⟨[200, 0, 7]⟩ : Poly ℚ).upcast (castAs .u8 .i16)).terms = [200, 0, 7] := by decide +kernel

end Rustnomial
