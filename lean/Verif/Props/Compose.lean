import Verif.Model.Compose
import Verif.Props.DenseBasic
import Verif.Props.DenseMul
import Verif.Props.DenseCalc
import Verif.Props.SparseBasic
import Mathlib.LinearAlgebra.Lagrange

/-!
# C125: composing and interpolating with the operators
-/

open Polynomial

set_option linter.unusedSectionVars false

namespace Rustnomial

section
variable {R : Type} [CommRing R] [NumZero R] [LawfulNumZero R]

/-! ## Composition by Horner's rule -/

theorem composeLoop_ok {q : Poly R} (hq : descPoly q.terms ≠ 0) : ∀ (l : List R) (acc : Poly R),
    ∃ r, l.foldlM (fun acc c => do
        let m ← Poly.mulRef acc q
        m.add (Poly.new [c])) acc = Res.ok r ∧
      descPoly r.terms = descPoly acc.terms * descPoly q.terms ^ l.length + (descPoly l).comp (descPoly q.terms) := by
  intro l
  induction l with
  | nil => intro acc; exact ⟨acc, rfl, by simp⟩
  | cons c l ih =>
    intro acc
    obtain ⟨m, h1, h2⟩ := (C11_dense_mul_partial acc q (Or.inr hq)).2
    obtain ⟨s, h3, h4⟩ := C08_dense_add m (Poly.new [c])
    obtain ⟨r, h5, h6⟩ := ih s
    refine ⟨r, ?_, ?_⟩
    · rw [List.foldlM_cons, h1, Res.ok_bind, h3, Res.ok_bind, h5]
    · rw [h6, h4, h2, C01_new_same_polynomial, descPoly_cons, descPoly_cons]
      simp only [descPoly_nil, List.length_nil, List.length_cons, pow_zero, mul_one, add_zero, add_comp, mul_comp, C_comp, pow_comp,
        X_comp]
      ring

/-- C125: composing by Horner's rule with a non-zero polynomial. -/
theorem C125_compose (p q : Poly R) (hq : descPoly q.terms ≠ 0) :
    ∃ r, p.compose q = .ok r ∧ descPoly r.terms = (descPoly p.terms).comp (descPoly q.terms) ∧
      ∀ x, r.eval x = p.eval (q.eval x) := by
  obtain ⟨r, h1, h2⟩ := composeLoop_ok hq p.terms Poly.zero
  have h2' : descPoly r.terms = (descPoly p.terms).comp (descPoly q.terms) := by
    rw [h2]; simp [Poly.zero]
  exact ⟨r, h1, h2', fun x => by rw [C06_dense_eval, C06_dense_eval, C06_dense_eval, h2', eval_comp]⟩

/-- C125: with the zero polynomial the program panics, unless there is no coefficient at all to go through. -/
theorem C125_compose_panics_iff (p q : Poly R) :
    p.compose q = .panic ↔ descPoly q.terms = 0 ∧ p.terms ≠ [] := by
  by_cases hq : descPoly q.terms = 0
  · cases hp : p.terms with
    | nil => simp [Poly.compose, hp]
    | cons c l =>
      have h0 : (Poly.zero : Poly R).mulRef q = .panic := ((C11_dense_mul_panics_iff Poly.zero q).2).2 ⟨rfl, hq⟩
      refine ⟨fun _ => ⟨hq, by simp⟩, fun _ => ?_⟩
      unfold Poly.compose
      rw [hp, List.foldlM_cons, h0]
      rfl
  · obtain ⟨r, h1, _⟩ := C125_compose p q hq
    rw [h1]
    constructor
    · intro h; cases h
    · intro h; exact absurd h.1 hq

/-- C125: shifting the argument (Taylor), and shifting it back. -/
theorem C125_shift [Nontrivial R] [BEq R] [LawfulBEq R] (p : Poly R) (a : R) :
    ∃ r s, p.compose (Poly.new [1, a]) = .ok r ∧ (∀ x, r.eval x = p.eval (x + a)) ∧ r.compose (Poly.new [1, -a]) = .ok s ∧
      s.eq p = true := by
  have hd : ∀ b : R, descPoly (Poly.new [1, b]).terms = X + C b := by
    intro b; rw [C01_new_same_polynomial]; simp [descPoly_cons]
  have hn : ∀ b : R, descPoly (Poly.new [1, b]).terms ≠ 0 := by
    intro b; rw [hd]; exact X_add_C_ne_zero b
  obtain ⟨r, h1, h2, h3⟩ := C125_compose p _ (hn a)
  obtain ⟨s, h4, h5, _⟩ := C125_compose r _ (hn (-a))
  refine ⟨r, s, h1, fun x => ?_, h4, ?_⟩
  · rw [h3, C06_dense_eval (Poly.new [1, a]), hd]; simp
  · rw [C05_dense_eq, h5, h2, hd, hd, comp_assoc]; simp

/-! ## Composition term by term -/

theorem composeTermsLoop_ok {q : Poly R} : ∀ (l : List (R × Nat)) (acc : Poly R),
    (∀ t ∈ l, ∃ m, q.pow t.2 = .ok m) →
    ∃ r, l.foldlM (fun acc t => do
        let m ← Poly.pow q t.2
        Poly.addAssign acc (m.mulScalar t.1)) acc = Res.ok r ∧
      descPoly r.terms = descPoly acc.terms + (termsPoly l).comp (descPoly q.terms) := by
  intro l
  induction l with
  | nil => intro acc _; exact ⟨acc, rfl, by simp [termsPoly]⟩
  | cons t l ih =>
    intro acc h
    obtain ⟨m, h1⟩ := h t (by simp)
    obtain ⟨s, h3, h4⟩ := C08_dense_add_assign acc (m.mulScalar t.1)
    obtain ⟨r, h5, h6⟩ := ih s (fun t ht => h t (by simp [ht]))
    refine ⟨r, ?_, ?_⟩
    · rw [List.foldlM_cons, h1, Res.ok_bind, h3, Res.ok_bind, h5]
    · rw [h6, h4, C13_dense_mul_scalar, C12_dense_pow_sound q _ m h1]
      simp only [termsPoly, List.map_cons, List.sum_cons, add_comp, mul_comp, C_comp, pow_comp, X_comp]
      ring

/-- C125: composing term by term with a non-zero polynomial, over numbers without zero divisors. -/
theorem C125_compose_terms [NoZeroDivisors R] (p q : Poly R) (hq : descPoly q.terms ≠ 0) :
    ∃ r, p.composeTerms q = .ok r ∧ descPoly r.terms = (descPoly p.terms).comp (descPoly q.terms) := by
  obtain ⟨r, h1, h2⟩ := composeTermsLoop_ok (q := q) p.orderedTermIter Poly.zero
    (fun t _ => by obtain ⟨m, h, _⟩ := C12_dense_pow_partial q t.2 hq; exact ⟨m, h⟩)
  exact ⟨r, h1, by rw [h2, C03_dense_terms_sum]; simp [Poly.zero]⟩

/-- C125: composing term by term with the zero polynomial works for the degrees up to one and panics above. -/
theorem C125_compose_terms_zero (p q : Poly R) (hq : descPoly q.terms = 0) :
    ((descPoly p.terms).degree ≤ 1 →
      ∃ r, p.composeTerms q = .ok r ∧ descPoly r.terms = C ((descPoly p.terms).coeff 0)) ∧
    (1 < (descPoly p.terms).degree → p.composeTerms q = .panic) := by
  have hl := (C03_dense_terms p).1
  constructor
  · intro hd
    obtain ⟨r, h1, h2⟩ := composeTermsLoop_ok (q := q) p.orderedTermIter Poly.zero (fun t ht => by
      have h1 : t.2 ≤ 1 := by
        have := (hl.2 t.1 t.2).1 ht
        have h2 := le_degree_of_ne_zero (p := descPoly p.terms) (n := t.2) (by rw [this.2]; exact this.1)
        exact_mod_cast h2.trans hd
      rcases Nat.le_one_iff_eq_zero_or_eq_one.1 h1 with h | h
      · exact ⟨_, (C12_dense_pow_zero_false q hq t.2).1 h⟩
      · exact ⟨_, (C12_dense_pow_zero_false q hq t.2).2.1 h⟩)
    refine ⟨r, h1, ?_⟩
    rw [h2, C03_dense_terms_sum, hq]
    simp [Poly.zero, comp_zero, coeff_zero_eq_eval_zero]
  · intro hd
    unfold Poly.composeTerms
    have hp0 : descPoly p.terms ≠ 0 := by rintro h; rw [h] at hd; simp at hd
    cases ht : p.orderedTermIter with
    | nil =>
      have := C03_dense_terms_sum p
      rw [ht] at this
      exact absurd this.symm hp0
    | cons t l =>
      have hlead : 2 ≤ t.2 := by
        rw [ht] at hl
        have hnd : (descPoly p.terms).natDegree ∈ (t :: l).map Prod.snd := by
          have := (hl.2 (descPoly p.terms).leadingCoeff (descPoly p.terms).natDegree).2 ⟨leadingCoeff_ne_zero.2 hp0, rfl⟩
          exact List.mem_map.2 ⟨_, this, rfl⟩
        have h1 : 2 ≤ (descPoly p.terms).natDegree := by
          rw [degree_eq_natDegree hp0] at hd
          exact_mod_cast hd
        rw [List.map_cons, List.mem_cons] at hnd
        rcases hnd with h | h
        · omega
        · obtain ⟨u, hu, hu'⟩ := List.mem_map.1 h
          have := List.rel_of_pairwise_cons hl.1 hu
          omega
      rw [List.foldlM_cons, (C12_dense_pow_zero_false q hq t.2).2.2 hlead]
      rfl

/-- C125: with `SparsePolynomial` nothing panics. -/
theorem C125_sparse_compose (p q : Sparse R) :
    entriesPoly (p.compose q).terms.entries = (entriesPoly p.terms.entries).comp (entriesPoly q.terms.entries) := by
  have key : ∀ (l : List (R × Nat)) (acc : Sparse R),
      entriesPoly (l.foldl (fun acc t => acc.add ((q.pow t.2).mulScalar t.1)) acc).terms.entries =
        entriesPoly acc.terms.entries + (termsPoly l).comp (entriesPoly q.terms.entries) := by
    intro l
    induction l with
    | nil => intro acc; simp [termsPoly]
    | cons t l ih =>
      intro acc
      rw [List.foldl_cons, ih, (C25_sparse_add _ _).1, (C13_sparse_mul_scalar _ _).1, C26_sparse_pow]
      simp only [termsPoly, List.map_cons, List.sum_cons, add_comp, mul_comp, C_comp, pow_comp, X_comp]
      ring
  unfold Sparse.compose
  rw [key, C03_sparse_terms_sum]
  simp [(C02_sparse_zero (Sparse.zero : Sparse R)).2.2.1]

/-- C125: the three programs agree wherever the two on `Polynomial` return. -/
theorem C125_compose_agree (p q r : Poly R) (h : p.compose q = .ok r) :
    (∀ s, p.composeTerms q = .ok s → descPoly s.terms = descPoly r.terms) ∧
    ∀ p' q' : Sparse R, entriesPoly p'.terms.entries = descPoly p.terms → entriesPoly q'.terms.entries = descPoly q.terms →
      entriesPoly (p'.compose q').terms.entries = descPoly r.terms := by
  have hr : descPoly r.terms = (descPoly p.terms).comp (descPoly q.terms) := by
    by_cases hq : descPoly q.terms = 0
    · by_cases hp : p.terms = []
      · unfold Poly.compose at h; rw [hp] at h; injection h with h
        rw [← h, hp]; simp [Poly.zero]
      · rw [(C125_compose_panics_iff p q).2 ⟨hq, hp⟩] at h; cases h
    · obtain ⟨r', h1, h2, _⟩ := C125_compose p q hq
      rw [h1] at h; injection h with h; rw [← h, h2]
  constructor
  · intro s hs
    have hpow : ∀ (l : List (R × Nat)) (acc s : Poly R), l.foldlM (fun acc t => do
        let m ← Poly.pow q t.2
        Poly.addAssign acc (m.mulScalar t.1)) acc = Res.ok s → ∀ t ∈ l, ∃ m, q.pow t.2 = .ok m := by
      intro l
      induction l with
      | nil => simp
      | cons t l ih =>
        intro acc s h u hu
        rw [List.foldlM_cons] at h
        obtain ⟨a, ha, h⟩ := Res.bind_eq_ok.1 h
        obtain ⟨m, hm, _⟩ := Res.bind_eq_ok.1 ha
        rcases List.mem_cons.1 hu with rfl | hu
        · exact ⟨m, hm⟩
        · exact ih a s h u hu
    obtain ⟨s', h1, h2⟩ := composeTermsLoop_ok (q := q) p.orderedTermIter Poly.zero (hpow _ _ _ hs)
    have : s' = s := by
      have := h1.symm.trans hs; injection this
    rw [← this, h2, C03_dense_terms_sum, hr]; simp [Poly.zero]
  · intro p' q' hp hq
    rw [C125_sparse_compose, hp, hq, hr]

end

/-! ## Interpolation -/

section
variable {K : Type} [Field K] [NumZero K] [LawfulNumZero K] [RDiv K] [LawfulRDiv K]

theorem newtonLoop_ok : ∀ (points done : List (K × K)) (p w : Poly K),
    ((done ++ points).map Prod.fst).Nodup →
    (∀ x, (descPoly w.terms).eval x = 0 ↔ x ∈ done.map Prod.fst) →
    (descPoly w.terms).degree = (done.length : WithBot ℕ) →
    (∀ t ∈ done, (descPoly p.terms).eval t.1 = t.2) →
    (descPoly p.terms).degree < (done.length : WithBot ℕ) →
    ∃ r, Poly.newtonLoop points p w = .ok r ∧ (∀ t ∈ done ++ points, (descPoly r.terms).eval t.1 = t.2) ∧
      (descPoly r.terms).degree < ((done ++ points).length : WithBot ℕ) := by
  intro points
  induction points with
  | nil => intro done p w _ _ _ hp hd; exact ⟨p, rfl, by simpa using hp, by simpa using hd⟩
  | cons t points ih =>
    obtain ⟨x, y⟩ := t
    intro done p w hnd hw hwd hp hd
    have hx : x ∉ done.map Prod.fst := by
      rw [List.map_append, List.nodup_append] at hnd
      intro hmem
      exact hnd.2.2 x hmem x (by simp) rfl
    have hwx : (descPoly w.terms).eval x ≠ 0 := fun h => hx ((hw x).1 h)
    have hw0 : descPoly w.terms ≠ 0 := by rintro h; rw [h] at hwx; simp at hwx
    have hc := LawfulRDiv.rdiv_eq (y - (descPoly p.terms).eval x) ((descPoly w.terms).eval x) hwx
    set c := (y - (descPoly p.terms).eval x) / (descPoly w.terms).eval x with hcdef
    obtain ⟨p', h1, h2⟩ := C08_dense_add_assign p (w.mulScalar c)
    rw [C13_dense_mul_scalar] at h2
    obtain ⟨w', h3, h4⟩ := (C11_dense_mul_partial w (Poly.new [1, -x]) (Or.inl hw0)).2
    have h5 : descPoly (Poly.new [1, -x]).terms = X - C x := by
      rw [C01_new_same_polynomial]; simp [descPoly_cons, sub_eq_add_neg]
    rw [h5] at h4
    obtain ⟨r, h6, h7, h8⟩ := ih (done ++ [(x, y)]) p' w' (by simpa using hnd)
      (fun z => by
        rw [h4, eval_mul, mul_eq_zero, hw z]
        simp only [eval_sub, eval_X, eval_C, sub_eq_zero, List.map_append, List.map_cons, List.map_nil, List.mem_append,
          List.mem_singleton])
      (by rw [h4, degree_mul, hwd, degree_X_sub_C]; simp)
      (fun t ht => by
        rw [h2, eval_add, eval_mul, eval_C]
        rcases List.mem_append.1 ht with h | h
        · rw [(hw t.1).2 (List.mem_map.2 ⟨t, h, rfl⟩), mul_zero, add_zero, hp t h]
        · rw [List.mem_singleton] at h
          rw [h, hcdef, div_mul_cancel₀ _ hwx]; ring)
      (by
        rw [h2]
        refine lt_of_le_of_lt (degree_add_le _ _) (max_lt ?_ ?_)
        · refine hd.trans_le ?_
          simp only [List.length_append, List.length_cons, List.length_nil]
          exact_mod_cast Nat.le_succ _
        · refine lt_of_le_of_lt ((degree_mul_le _ _).trans (add_le_add_left degree_C_le _)) ?_
          rw [zero_add]
          rw [hwd]
          simp only [List.length_append, List.length_cons, List.length_nil]
          exact_mod_cast Nat.lt_succ_self _)
    refine ⟨r, ?_, by simpa using h7, by simpa using h8⟩
    unfold Poly.newtonLoop
    rw [C06_dense_eval, C06_dense_eval, hc, Res.ok_bind, h1, Res.ok_bind, h3, Res.ok_bind, h6]

/-- C125: through points with different abscissas, the program gives the polynomial of least degree. -/
theorem C125_newton (points : List (K × K)) (hnd : (points.map Prod.fst).Nodup) :
    ∃ r, Poly.newton points = .ok r ∧ (∀ t ∈ points, r.eval t.1 = t.2) ∧
      r.degree.toWithBot < (points.length : WithBot ℕ) ∧
      ∀ Q : K[X], Q.degree < (points.length : WithBot ℕ) → (∀ t ∈ points, Q.eval t.1 = t.2) → descPoly r.terms = Q := by
  have h1 : descPoly (Poly.new [(1 : K)]).terms = 1 := by rw [C01_new_same_polynomial]; simp [descPoly_cons]
  obtain ⟨r, h2, h3, h4⟩ := newtonLoop_ok points [] Poly.zero (Poly.new [1]) (by simpa using hnd) (by simp [h1]) (by simp [h1])
    (by simp) (by simp [Poly.zero])
  refine ⟨r, h2, fun t ht => by rw [C06_dense_eval]; exact h3 t (by simpa using ht), by rw [C02_dense_degree]; simpa using h4, ?_⟩
  intro Q hQ hQ'
  classical
  have hinj : Set.InjOn id ((points.map Prod.fst).toFinset : Set K) := Function.injective_id.injOn
  have hcard : (points.map Prod.fst).toFinset.card = points.length := by
    rw [List.toFinset_card_of_nodup hnd, List.length_map]
  refine eq_of_degrees_lt_of_eval_index_eq _ hinj (by rw [hcard]; simpa using h4) (by rw [hcard]; exact hQ) ?_
  intro i hi
  rw [List.mem_toFinset, List.mem_map] at hi
  obtain ⟨t, ht, rfl⟩ := hi
  rw [id, h3 t (by simpa using ht), hQ' t ht]

/-- C125: the values of a polynomial at more points than its degree give it back. -/
theorem C125_newton_samples [BEq K] [LawfulBEq K] (p : Poly K) (xs : List K) (hnd : xs.Nodup)
    (hl : p.degree.toWithBot < (xs.length : WithBot ℕ)) :
    ∃ r, Poly.newton (xs.map fun x => (x, p.eval x)) = .ok r ∧ r.eq p = true := by
  obtain ⟨r, h1, _, _, h4⟩ := C125_newton (xs.map fun x => (x, p.eval x)) (by simpa [Function.comp_def] using hnd)
  refine ⟨r, h1, ?_⟩
  rw [C05_dense_eq]
  refine h4 _ (by rw [← C02_dense_degree]; simpa using hl) ?_
  intro t ht
  obtain ⟨x, _, rfl⟩ := List.mem_map.1 ht
  exact (C06_dense_eval p x).symm

/-- C125: two points with the same abscissa are a division by zero. -/
theorem C125_newton_repeated (hz : ∀ a : K, rdiv a 0 = .panic) (points : List (K × K)) (hnd : ¬ (points.map Prod.fst).Nodup) :
    Poly.newton points = .panic := by
  have key : ∀ (points : List (K × K)) (done : List K) (p w : Poly K), done.Nodup → ¬ (done ++ points.map Prod.fst).Nodup →
      (∀ x, (descPoly w.terms).eval x = 0 ↔ x ∈ done) → descPoly w.terms ≠ 0 → Poly.newtonLoop points p w = .panic := by
    intro points
    induction points with
    | nil => intro done p w h1 h2; simp at h2; exact absurd h1 h2
    | cons t points ih =>
      obtain ⟨x, y⟩ := t
      intro done p w h1 h2 hw hw0
      unfold Poly.newtonLoop
      rw [C06_dense_eval, C06_dense_eval]
      by_cases hx : x ∈ done
      · rw [(hw x).2 hx, hz]; rfl
      · obtain ⟨p', h3, _⟩ := C08_dense_add_assign p
          (w.mulScalar ((y - (descPoly p.terms).eval x) / (descPoly w.terms).eval x))
        obtain ⟨w', h4, h5⟩ := (C11_dense_mul_partial w (Poly.new [1, -x]) (Or.inl hw0)).2
        have h6 : descPoly (Poly.new [1, -x]).terms = X - C x := by
          rw [C01_new_same_polynomial]; simp [descPoly_cons, sub_eq_add_neg]
        rw [LawfulRDiv.rdiv_eq _ _ (fun h => hx ((hw x).1 h)), Res.ok_bind, h3, Res.ok_bind, h4, Res.ok_bind]
        refine ih (done ++ [x]) p' w' ?_ (by simpa using h2) ?_ ?_
        · rw [List.nodup_append]
          exact ⟨h1, by simp, fun a ha b hb => by rw [List.mem_singleton] at hb; rintro rfl; exact hx (hb ▸ ha)⟩
        · intro z
          rw [h5, h6, eval_mul, mul_eq_zero, hw z]
          simp [sub_eq_zero]
        · rw [h5, h6]; exact mul_ne_zero hw0 (X_sub_C_ne_zero x)
  have h1 : descPoly (Poly.new [(1 : K)]).terms = 1 := by rw [C01_new_same_polynomial]; simp [descPoly_cons]
  exact key points [] Poly.zero (Poly.new [1]) (by simp) (by simpa using hnd) (by simp [h1]) (by simp [h1])

end

/-! ## Cases -/

/-- `(2x² - 3x + 1) ∘ (x - 2)` and the same term by term; `x² ∘ 0`. -/
example : (⟨[2, -3, 1]⟩ : Poly ℤ).compose ⟨[1, -2]⟩ = .ok ⟨[2, -11, 15]⟩ ∧
    (⟨[2, -3, 1]⟩ : Poly ℤ).composeTerms ⟨[1, -2]⟩ = .ok ⟨[2, -11, 15]⟩ ∧
    (⟨[1, 0, 0]⟩ : Poly ℤ).compose ⟨[]⟩ = .panic ∧ (⟨[1, 0, 0]⟩ : Poly ℤ).composeTerms ⟨[0]⟩ = .panic ∧
    (⟨[1, 7]⟩ : Poly ℤ).compose ⟨[]⟩ = .panic ∧ (⟨[1, 7]⟩ : Poly ℤ).composeTerms ⟨[]⟩ = .ok ⟨[7]⟩ := by decide +kernel

example : ((·.terms.entries) <$> some ((Sparse.fromVec [(2 : ℤ), -3, 1]).compose (Sparse.fromVec [1, -2])))
    = some [(0, 15), (1, -11), (2, 2)] := by decide +kernel

/-- Through `(0, 1)`, `(1, 3)`, `(2, 7)`: `x² + x + 1`; a repeated abscissa panics even with the same ordinate. -/
example : Poly.newton [((0 : ℚ), 1), (1, 3), (2, 7)] = .ok ⟨[1, 1, 1]⟩ ∧ Poly.newton [((0 : ℚ), 1), (1, 3), (0, 1)] = .panic := by
  decide +kernel

example : ∀ a : ℚ, rdiv a 0 = .panic := fun _ => rfl

end Rustnomial
