import Verif.Props.MachineSparse

/-!
# C78: scalar division and integration over machine integers
-/

open Polynomial

namespace Rustnomial

section
variable (t : IntTy)

/-- The only quotient of two values of a type which is not a value of the type is `MIN / -1`. -/
theorem tdiv_inRange {t : IntTy} {x c : Int} (hx : t.InRange x) (hc : c ≠ 0) :
    t.InRange (x.tdiv c) ∨ (t.signed = true ∧ c = -1 ∧ x = t.min) ∨ (t.signed = false ∧ c < 0) := by
  have h1 : (x.tdiv c).natAbs ≤ x.natAbs := by rw [Int.natAbs_tdiv]; exact Nat.div_le_self _ _
  obtain ⟨sg, w⟩ := t
  have hpos : (0 : Int) < 2 ^ (w - 1) := by positivity
  unfold IntTy.InRange IntTy.min IntTy.max at *
  cases sg
  · simp only [Bool.false_eq_true, if_false] at *
    by_cases hc' : c < 0
    · exact .inr (.inr ⟨trivial, hc'⟩)
    · left
      have := Int.tdiv_nonneg hx.1 (not_lt.1 hc')
      omega
  · simp only [if_true] at *
    by_cases h : x.tdiv c = 2 ^ (w - 1)
    · right; left
      have h2 : x.natAbs = (2 ^ (w - 1) : Int).natAbs := by rw [h] at h1; omega
      have h3 : x = -2 ^ (w - 1) := by omega
      refine ⟨trivial, ?_, h3⟩
      have h4 := Int.natAbs_tdiv x c
      rw [h, h2] at h4
      have h5 : c.natAbs = 1 := by
        by_contra h5
        have h6 : 2 ≤ c.natAbs := by omega
        have h7 : (2 ^ (w - 1) : Int).natAbs / c.natAbs < (2 ^ (w - 1) : Int).natAbs := Nat.div_lt_self (by omega) h6
        have h8 : (2 ^ (w - 1) : Int).natAbs = (2 ^ (w - 1) : Int).natAbs / c.natAbs := h4
        omega
      rcases Int.natAbs_eq c with h6 | h6
      · rw [h5] at h6
        rw [h6, h3] at h
        simp at h
        omega
      · rw [h5] at h6; exact h6
    · left; omega

theorem min_div_neg_one (hs : t.signed = true) : ¬ t.InRange (t.min.tdiv (-1)) := by
  obtain ⟨sg, w⟩ := t
  simp only at hs
  subst hs
  have hpos : (0 : Int) < 2 ^ (w - 1) := by positivity
  simp [IntTy.InRange, IntTy.min, IntTy.max]

theorem chk_div (chk : Bool) (t : IntTy) (x c : Int) :
    Chk (c ≠ 0 ∧ t.InRange (x.tdiv c)) ((Arith2.machine chk t).div x c) (x.tdiv c) := by
  show Chk _ (if c = 0 then Res.panic else t.checked (x.tdiv c)) _
  by_cases h : c = 0
  · rw [if_pos h]; exact ⟨fun H => absurd h H.1, fun _ => rfl⟩
  · rw [if_neg h]; exact (chk_result t (x.tdiv c)).of_iff (by simp [h])

theorem div_cond {t : IntTy} {x c : Int} (hx : t.InRange x) (hc : t.InRange c) :
    (c ≠ 0 ∧ t.InRange (x.tdiv c)) ↔ (c ≠ 0 ∧ ¬ (t.signed = true ∧ c = -1 ∧ x = t.min)) := by
  refine and_congr_right fun h0 => ⟨?_, fun hn => ?_⟩
  · rintro h ⟨h1, h2, h3⟩
    rw [h2, h3] at h
    exact min_div_neg_one t h1 h
  · rcases tdiv_inRange hx h0 with h | h | ⟨h3, h4⟩
    · exact h
    · exact absurd h hn
    · have := hc.1
      rw [IntTy.min, h3] at this
      simp at this; omega

/-- C78, `Polynomial / N` and `/= N`, with or without overflow checks: by zero they panic, unless no coefficient
is stored; by another number they return the quotients of the coefficients, rounded towards zero, unless the
divisor is `-1` and a coefficient is `MIN` of a signed type, which panics. -/
theorem C78_dense_div_scalar (chk : Bool) (p : Poly Int) (c : Int) (hp : ∀ x ∈ p.terms, t.InRange x) (hc : t.InRange c) :
    (c = 0 → p.terms ≠ [] → p.divScalarM (.machine chk t) c = .panic ∧ p.divAssignScalarM (.machine chk t) c = .panic) ∧
    (t.signed = true → c = -1 → (∃ d, (descPoly p.terms).coeff d = t.min) →
      p.divScalarM (.machine chk t) c = .panic ∧ p.divAssignScalarM (.machine chk t) c = .panic) ∧
    (c ≠ 0 → ¬ (t.signed = true ∧ c = -1 ∧ ∃ d, (descPoly p.terms).coeff d = t.min) →
      ∃ r r', p.divScalarM (.machine chk t) c = .ok r ∧ p.divAssignScalarM (.machine chk t) c = .ok r' ∧
        (∀ d, (descPoly r.terms).coeff d = ((descPoly p.terms).coeff d).tdiv c) ∧
        ∀ d, (descPoly r'.terms).coeff d = ((descPoly p.terms).coeff d).tdiv c) := by
  have h := chk_mapM p.terms (fun x _ => chk_div chk t x c)
  have h1 : Chk _ (p.divScalarM (.machine chk t) c) _ := h.map Poly.new
  have h2 : Chk _ (p.divAssignScalarM (.machine chk t) c) _ := h.map Poly.mk
  have hco : ∀ d, (descPoly (p.terms.map (fun x => x.tdiv c))).coeff d = ((descPoly p.terms).coeff d).tdiv c := by
    intro d
    by_cases hd : d < p.terms.length
    · rw [coeff_descPoly_of_lt hd, coeff_descPoly_of_lt (by simpa using hd), List.getD_eq_getElem _ _ (by simp; omega),
        List.getD_eq_getElem _ _ (by omega)]
      simp
    · rw [coeff_descPoly_of_le (l := p.terms) (by omega), coeff_descPoly_of_le (by rw [List.length_map]; omega)]; simp
  refine ⟨fun h0 hne => ?_, fun hs h0 ⟨d, hd⟩ => ?_, fun h0 hn => ?_⟩
  · have : ¬ ∀ x ∈ p.terms, c ≠ 0 ∧ t.InRange (x.tdiv c) := by
      obtain ⟨x, hx⟩ := List.exists_mem_of_ne_nil _ hne
      exact fun H => (H x hx).1 h0
    exact ⟨h1.2 this, h2.2 this⟩
  · have : ¬ ∀ x ∈ p.terms, c ≠ 0 ∧ t.InRange (x.tdiv c) := by
      intro H
      have hmin : t.min ≠ 0 := by
        have : (0 : Int) < 2 ^ (t.bits - 1) := by positivity
        simp only [IntTy.min, hs, if_true]; omega
      have hlt : d < p.terms.length := by
        by_contra hge
        rw [coeff_descPoly_of_le (by omega)] at hd
        exact hmin hd.symm
      rw [coeff_descPoly_of_lt hlt, List.getD_eq_getElem _ _ (by omega)] at hd
      have := (H _ (List.getElem_mem (by omega : p.terms.length - d - 1 < p.terms.length))).2
      rw [hd, h0] at this
      exact min_div_neg_one t hs this
    exact ⟨h1.2 this, h2.2 this⟩
  · have : ∀ x ∈ p.terms, c ≠ 0 ∧ t.InRange (x.tdiv c) := by
      intro x hx
      refine ⟨h0, ?_⟩
      rcases tdiv_inRange (hp x hx) h0 with h | ⟨h3, h4, h5⟩ | ⟨h3, h4⟩
      · exact h
      · refine absurd ⟨h3, h4, ?_⟩ hn
        obtain ⟨i, hi, rfl⟩ := List.getElem_of_mem hx
        refine ⟨p.terms.length - i - 1, ?_⟩
        rw [coeff_descPoly_of_lt (by omega), List.getD_eq_getElem _ _ (by omega), ← h5]
        congr 1; omega
      · have := hc.1
        rw [IntTy.min, h3] at this
        simp at this; omega
    exact ⟨_, _, h1.1 this, h2.1 this, fun d => by rw [C01_new_same_polynomial]; exact hco d, hco⟩

/-- C78, `SparsePolynomial / N` and `/= N`, as for dense polynomials. -/
theorem C78_sparse_div_scalar (chk : Bool) (p : Sparse Int) (c : Int) (hp : ∀ e ∈ p.terms.entries, t.InRange e.2)
    (hc : t.InRange c) :
    (c = 0 → p.terms.entries ≠ [] →
      p.divScalarM (.machine chk t) c = .panic ∧ p.divAssignScalarM (.machine chk t) c = .panic) ∧
    (t.signed = true → c = -1 → (∃ d, (entriesPoly p.terms.entries).coeff d = t.min) →
      p.divScalarM (.machine chk t) c = .panic ∧ p.divAssignScalarM (.machine chk t) c = .panic) ∧
    (c ≠ 0 → ¬ (t.signed = true ∧ c = -1 ∧ ∃ d, (entriesPoly p.terms.entries).coeff d = t.min) →
      ∃ r r', p.divScalarM (.machine chk t) c = .ok r ∧ p.divAssignScalarM (.machine chk t) c = .ok r' ∧
        (∀ d, (entriesPoly r.terms.entries).coeff d = ((entriesPoly p.terms.entries).coeff d).tdiv c) ∧
        ∀ d, (entriesPoly r'.terms.entries).coeff d = ((entriesPoly p.terms.entries).coeff d).tdiv c) := by
  refine ⟨fun h0 hne => ?_, fun hs h0 ⟨d, hd⟩ => ?_, fun h0 hn => ?_⟩
  · have gen : ∀ m0 : BMap Int, p.terms.entries.foldlM (fun m e => (Arith2.machine chk t).div e.2 c >>= fun x =>
        Res.ok (m.insert e.1 x)) m0 = .panic := by
      intro m0
      cases hl : p.terms.entries with
      | nil => exact absurd hl hne
      | cons e l =>
        rw [List.foldlM_cons]
        have : (Arith2.machine chk t).div e.2 c = .panic := (chk_div chk t e.2 c).2 (fun H => H.1 h0)
        rw [this]; rfl
    exact ⟨by unfold Sparse.divScalarM; rw [gen]; rfl, by unfold Sparse.divAssignScalarM; rw [gen]; rfl⟩
  all_goals
    have hc0 : c ≠ 0 := by first | exact h0 | omega
    have gen := chk_vals (v := fun x => (Arith2.machine chk t).div x c) (w := fun x => x.tdiv c)
      (P := fun x => c ≠ 0 ∧ t.InRange (x.tdiv c)) (fun x => chk_div chk t x c) (by simp)
      ⟨hc0, by simpa using t.zero_inRange⟩ p.terms
    obtain ⟨m, h1, e1⟩ := gen .empty (.inl rfl)
    obtain ⟨m', h2, e2⟩ := gen p.terms (.inr rfl)
    have h1' : Chk _ (p.divScalarM (.machine chk t) c) _ := h1.map Sparse.new
    have h2' : Chk _ (p.divAssignScalarM (.machine chk t) c) _ := h2.map Sparse.mk
  · have : ¬ ∀ d, c ≠ 0 ∧ t.InRange (((entriesPoly p.terms.entries).coeff d).tdiv c) := by
      intro H
      have := (H d).2
      rw [hd, h0] at this
      exact min_div_neg_one t hs this
    exact ⟨h1'.2 this, h2'.2 this⟩
  · have : ∀ d, c ≠ 0 ∧ t.InRange (((entriesPoly p.terms.entries).coeff d).tdiv c) := by
      intro d
      refine ⟨h0, ?_⟩
      rcases tdiv_inRange ((inRange_mapPoly t _).1 hp d) h0 with h | ⟨h3, h4, h5⟩ | ⟨h3, h4⟩
      · exact h
      · exact absurd ⟨h3, h4, d, h5⟩ hn
      · have := hc.1
        rw [IntTy.min, h3] at this
        simp at this; omega
    exact ⟨_, _, h1'.1 this, h2'.1 this, e1, e2⟩

/-! ## Integrals -/

theorem div_nat_ok (chk : Bool) {t : IntTy} {x : Int} (hx : t.InRange x) (n : Nat) :
    (Arith2.machine chk t).div x ((n + 1 : Nat) : Int) = .ok (x.tdiv ((n + 1 : Nat) : Int)) := by
  have hne : ((n + 1 : Nat) : Int) ≠ 0 := by omega
  refine (chk_div chk t _ _).1 ⟨hne, ?_⟩
  rcases tdiv_inRange hx hne with h | ⟨_, h, _⟩ | ⟨_, h⟩
  · exact h
  · omega
  · omega

theorem inRange_pred {t : IntTy} {n : Nat} (h : t.InRange ((n + 1 : Nat) : Int)) : t.InRange (n : Int) := by
  have h0 := t.zero_inRange
  unfold IntTy.InRange at *
  push_cast at h
  omega

theorem result_ok (chk : Bool) {t : IntTy} (hb : 1 ≤ t.bits) {v : Int} (h : t.InRange v) : t.result chk v = .ok v := by
  cases chk
  · show Res.ok (t.wrap v) = _
    rw [t.wrap_of_inRange hb v h]
  · exact (chk_result t v).1 h

theorem integLoopM_machine (chk : Bool) {t : IntTy} (hb : 1 ≤ t.bits) : ∀ l : List Int, (∀ x ∈ l, t.InRange x) →
    t.InRange (l.length : Int) → Poly.integLoopM (.machine chk t) l l.length = Poly.integLoopM .exact l l.length
  | [], _, _ => rfl
  | x :: l, h, hl => by
    unfold Poly.integLoopM
    rw [List.length_cons] at hl ⊢
    have e : (((l.length + 1 : Nat) : Int) - 1) = (l.length : Int) := by push_cast; ring
    have h1 : (Arith2.machine chk t).sub ((l.length + 1 : Nat) : Int) 1 = .ok (l.length : Int) := by
      show t.result chk (((l.length + 1 : Nat) : Int) - 1) = _
      rw [e]; exact result_ok chk hb (inRange_pred hl)
    have h2 : Arith2.exact.sub ((l.length + 1 : Nat) : Int) 1 = .ok (l.length : Int) := by
      show Res.ok (((l.length + 1 : Nat) : Int) - 1) = _
      rw [e]
    have h3 : Arith2.exact.div x ((l.length + 1 : Nat) : Int) = .ok (x.tdiv ((l.length + 1 : Nat) : Int)) := by
      have hne : ((l.length + 1 : Nat) : Int) ≠ 0 := by omega
      exact (if_neg hne : (if ((l.length + 1 : Nat) : Int) = 0 then Res.panic else
        Res.ok (x.tdiv ((l.length + 1 : Nat) : Int))) = _)
    rw [div_nat_ok chk (h x (by simp)), h1, h2, h3, Res.ok_bind, Res.ok_bind, Res.ok_bind, Res.ok_bind,
      integLoopM_machine chk hb l (fun y hy => h y (by simp [hy])) (inRange_pred hl)]

/-- C78, `Polynomial::integral`, with or without overflow checks, on a machine with `uw`-bit `usize`: it returns
exactly when the type represents the degree of the integral, and then the coefficients are the quotients rounded
towards zero; no other operation overflows. -/
theorem C78_dense_integral (chk : Bool) (uw : Nat) (hb : 1 ≤ t.bits) (p : Poly Int) (hp : ∀ x ∈ p.terms, t.InRange x)
    (hlen : p.terms.length < 2 ^ uw) :
    (descPoly p.terms = 0 ∨ t.InRange ((descPoly p.terms).natDegree + 1) →
      ∃ r, p.integralM (.machine chk t) (tryFromUsizeContInt uw t) = .ok r ∧ (descPoly r.terms).coeff 0 = 0 ∧
        ∀ d, (descPoly r.terms).coeff (d + 1) = ((descPoly p.terms).coeff d).tdiv (d + 1)) ∧
    (¬ (descPoly p.terms = 0 ∨ t.InRange ((descPoly p.terms).natDegree + 1)) →
      p.integralM (.machine chk t) (tryFromUsizeContInt uw t) = .panic) := by
  have hdrop : p.terms.drop (firstNonzeroIndex p.terms) = (Poly.new p.terms).terms := by
    rw [new_terms, drop_firstNonzeroIndex]
  have hl : p.terms.length - firstNonzeroIndex p.terms = (Poly.new p.terms).terms.length := by
    rw [← hdrop, List.length_drop]
  have hsub : ∀ x ∈ (Poly.new p.terms).terms, x ∈ p.terms := by
    rw [← hdrop]; exact fun x hx => List.mem_of_mem_drop hx
  have hcond : t.InRange ((Poly.new p.terms).terms.length : Int) ↔
      (descPoly p.terms = 0 ∨ t.InRange ((descPoly p.terms).natDegree + 1)) := by
    rw [← C01_new_same_polynomial]
    cases hd : (Poly.new p.terms).terms with
    | nil => simp [t.zero_inRange]
    | cons a l =>
      have hne : a ≠ 0 := by
        rw [new_terms] at hd
        simpa using dropWhile_head_not hd
      have h0 : descPoly (a :: l) ≠ 0 := by
        intro h
        have := descPoly_cons_degree l hne
        rw [h] at this; simp at this
      rw [natDegree_eq_of_degree_eq_some (descPoly_cons_degree l hne)]
      simp [h0]
  unfold Poly.integralM
  simp only [hl, hdrop]
  rw [tryFromUsizeContInt_eq uw t hb _ (by rw [← hl]; omega), ← hcond]
  refine ⟨fun h => ?_, fun h => by rw [if_neg h]⟩
  rw [if_pos h]
  dsimp only
  rw [integLoopM_machine chk hb _ (fun x hx => hp x (hsub x hx)) h]
  obtain ⟨r, h1, h2⟩ := C18_dense_integral_int p
  refine ⟨r, ?_, h2⟩
  rw [← h1, ← p.integralM_exact]
  unfold Poly.integralM
  simp only [hl, hdrop]

/-- C78, `SparsePolynomial::integral`, with or without overflow checks, on a machine with `uw`-bit `usize`: it
returns exactly when the type represents the degree of every stored term (stored zeros included) plus one. -/
theorem C78_sparse_integral (chk : Bool) (uw : Nat) (hb : 1 ≤ t.bits) (p : Sparse Int)
    (hp : ∀ e ∈ p.terms.entries, t.InRange e.2) (hd : ∀ e ∈ p.terms.entries, e.1 + 1 < 2 ^ uw) :
    ((∀ e ∈ p.terms.entries, t.InRange (e.1 + 1)) →
      ∃ r, p.integralM (.machine chk t) (tryFromUsizeExactInt uw t) = .ok r ∧ (entriesPoly r.terms.entries).coeff 0 = 0 ∧
        ∀ d, (entriesPoly r.terms.entries).coeff (d + 1) = ((entriesPoly p.terms.entries).coeff d).tdiv (d + 1)) ∧
    ((¬ ∀ e ∈ p.terms.entries, t.InRange (e.1 + 1)) →
      p.integralM (.machine chk t) (tryFromUsizeExactInt uw t) = .panic) := by
  have h := (chk_foldlM' (g := fun (terms : BMap Int) e => terms.insert (e.1 + 1) (e.2.tdiv ((e.1 + 1 : Nat) : Int)))
    (f := fun (terms : BMap Int) (e : Nat × Int) =>
      match tryFromUsizeExactInt uw t (e.1 + 1) with
      | none => Res.panic
      | some d => do
        let v ← (Arith2.machine chk t).div e.2 d
        .ok (terms.insert (e.1 + 1) v)) p.terms.entries
    (fun e => t.InRange (e.1 + 1)) .empty (fun l1 e l2 he => by
      have hu : tryFromUsizeExactInt uw t (e.1 + 1) =
          if t.InRange ((e.1 + 1 : Nat) : Int) then some ((e.1 + 1 : Nat) : Int) else none :=
        tryFromUsizeContInt_eq uw t hb _ (hd e (by rw [he]; simp))
      rw [hu]
      by_cases hr : t.InRange (e.1 + 1 : Int)
      · rw [if_pos (by exact_mod_cast hr)]
        dsimp only
        rw [div_nat_ok chk (hp e (by rw [he]; simp)), Res.ok_bind]
        exact ⟨fun _ => rfl, fun H => absurd hr H⟩
      · rw [if_neg (by exact_mod_cast hr)]
        exact ⟨fun H => absurd H hr, fun _ => rfl⟩)).map Sparse.new
  have h1 : Chk _ (p.integralM (.machine chk t) (tryFromUsizeExactInt uw t)) _ := h
  have e : p.integral = .ok (Sparse.new (p.terms.entries.foldl
      (fun (terms : BMap Int) e => terms.insert (e.1 + 1) (e.2.tdiv ((e.1 + 1 : Nat) : Int))) .empty)) := by
    rw [← Sparse.integralM_exact]
    unfold Sparse.integralM
    rw [foldlM_ok (step' := fun (terms : BMap Int) (e : Nat × Int) =>
      terms.insert (e.1 + 1) (e.2.tdiv ((e.1 + 1 : Nat) : Int)))]
    · rfl
    · intro e _ m
      dsimp only
      show ((if ((e.1 + 1 : Nat) : Int) = 0 then Res.panic else _) >>= _) = _
      rw [if_neg (by omega)]; rfl
  obtain ⟨r, hr, hr'⟩ := C18_sparse_integral_int p
  obtain rfl := Res.ok.inj (hr.symm.trans e)
  exact ⟨fun H => ⟨_, h1.1 H, hr'⟩, h1.2⟩

end

example : (⟨[-128, 7]⟩ : Poly Int).divScalarM (.machine false ⟨true, 8⟩) (-1) = .panic ∧
    (⟨[-128, 7]⟩ : Poly Int).divAssignScalarM (.machine false ⟨true, 8⟩) 2 = .ok ⟨[-64, 3]⟩ ∧
    (⟨[-127, 7]⟩ : Poly Int).divScalarM (.machine true ⟨true, 8⟩) (-1) = .ok ⟨[127, -7]⟩ ∧
    (⟨[5, 7]⟩ : Poly Int).divScalarM (.machine true ⟨false, 8⟩) 0 = .panic ∧
    (⟨[]⟩ : Poly Int).divScalarM (.machine true ⟨false, 8⟩) 0 = .ok ⟨[]⟩ := by
  decide
example : ((Sparse.fromVec [-128, 7]).divScalarM (.machine false ⟨true, 8⟩) (-1)).bind
      (fun r => .ok r.terms.entries) = .panic ∧
    ((Sparse.fromVec [-128, 7]).divAssignScalarM (.machine true ⟨true, 8⟩) 2).bind
      (fun r => .ok r.terms.entries) = .ok [(0, 3), (1, -64)] := by
  decide
-- A type of three bits represents degrees up to 3.
example : (⟨[0, 3, 2, 1]⟩ : Poly Int).integralM (.machine true ⟨true, 3⟩) (tryFromUsizeContInt 64 ⟨true, 3⟩) =
      .ok ⟨[1, 1, 1, 0]⟩ ∧
    (⟨[1, 3, 2, 1]⟩ : Poly Int).integralM (.machine true ⟨true, 3⟩) (tryFromUsizeContInt 64 ⟨true, 3⟩) = .panic ∧
    ((Sparse.fromVec [3, 2, 1]).integralM (.machine true ⟨true, 3⟩) (tryFromUsizeExactInt 64 ⟨true, 3⟩)).bind
      (fun r => .ok r.terms.entries) = .ok [(1, 1), (2, 1), (3, 1)] ∧
    ((Sparse.fromVec [1, 0, 0, 0]).integralM (.machine true ⟨true, 3⟩) (tryFromUsizeExactInt 64 ⟨true, 3⟩)).bind
      (fun r => .ok r.terms.entries) = .panic := by
  decide +kernel

end Rustnomial
