import Verif.Lemmas.Machine

/-!
# C75: machine integers, continued

`Arith2.machine true t` is the integer type `t` in a build with overflow checks.
-/

open Polynomial

namespace Rustnomial

/-! ## C75: with overflow checks a result is exact -/

section
variable (t : IntTy)

/-- C75: with exact arithmetic in place of machine arithmetic, the division and power functions of
`Model/Machine.lean` are those of the ideal model. -/
theorem C75_exact_dense (p b : Poly Int) (n fuel : Nat) :
    p.powM .exact n = p.pow n ∧ p.divModM .exact fuel b = p.divMod fuel b ∧
    p.floorDivM .exact fuel b = p.floorDiv fuel b ∧ p.remM .exact fuel b = p.rem fuel b ∧
    p.remAssignM .exact fuel b = p.remAssign fuel b ∧
    p.integralM .exact (fun n => some n) = p.integral :=
  ⟨p.powM_exact n, p.divModM_exact fuel b, p.floorDivM_exact fuel b, p.remM_exact fuel b,
    p.remAssignM_exact fuel b, p.integralM_exact⟩

/-- C75: the same for sparse polynomials. -/
theorem C75_exact_sparse (p q : Sparse Int) (r : Poly Int) (c x : Int) (n fuel : Nat) :
    p.addTermM .exact c n = .ok (p.addTerm c n) ∧ p.mulM .exact q = .ok (p.mul q) ∧
    p.powM .exact n = .ok (p.pow n) ∧ p.evalM .exact x = .ok (p.eval x) ∧
    p.derivativeM .exact (fun n => some n) = p.derivative ∧
    p.integralM .exact (fun n => some n) = p.integral ∧ p.negM .exact = .ok p.neg ∧
    p.subM .exact q = .ok (p.sub q) ∧ p.subDenseM .exact r = .ok (p.subDense r) ∧
    p.addM .exact q = .ok (p.add q) ∧ p.addAssignM .exact q = .ok (p.addAssign q) ∧
    p.mulScalarM .exact c = .ok (p.mulScalar c) ∧ p.divScalarM .exact c = p.divScalar c ∧
    p.divAssignScalarM .exact c = p.divAssignScalar c ∧
    p.divModM .exact fuel q = p.divMod fuel q ∧ p.remM .exact fuel q = p.rem fuel q :=
  ⟨p.addTermM_exact c n, p.mulM_exact q, p.powM_exact n, p.evalM_exact x, p.derivativeM_exact, p.integralM_exact,
    p.negM_exact, p.subM_exact q, p.subDenseM_exact r, p.addM_exact q, p.addAssignM_exact q, p.mulScalarM_exact c,
    rfl, rfl, p.divModM_exact fuel q, p.remM_exact fuel q⟩

/-- C75, `Polynomial::pow`: a returned power is the exact power. -/
theorem C75_dense_pow (p : Poly Int) (n : Nat) :
    p.powM (.machine true t) n = .panic ∨
    ∃ r, p.powM (.machine true t) n = .ok r ∧ descPoly r.terms = descPoly p.terms ^ n := by
  rcases Poly.powM_mono (machine_le_exact t).toLe p n with h | h
  · exact .inl h
  · have h' : p.powM (.machine true t) n = p.pow n := h.trans (p.powM_exact n)
    by_cases hz : descPoly p.terms = 0 ∧ 2 ≤ n
    · exact .inl (h'.trans ((C58_dense_pow_outcome p n).1 hz))
    · obtain ⟨r, h1, h2⟩ := (C58_dense_pow_outcome p n).2 hz
      exact .inr ⟨r, h'.trans h1, h2⟩

/-- C75, `Polynomial::div_mod` and `%=`: whatever is returned is an exact division with remainder. -/
theorem C75_dense_division (p b : Poly Int) (fuel : Nat) :
    (∀ q r, p.divModM (.machine true t) fuel b = .ok (q, r) →
      descPoly p.terms = descPoly q.terms * descPoly b.terms + descPoly r.terms ∧
      (descPoly r.terms).degree < (descPoly b.terms).degree) ∧
    (∀ q, p.floorDivM (.machine true t) fuel b = .ok q →
      (descPoly p.terms - descPoly q.terms * descPoly b.terms).degree < (descPoly b.terms).degree) ∧
    (∀ r, p.remAssignM (.machine true t) fuel b = .ok r →
      ∃ Q : ℤ[X], descPoly p.terms = Q * descPoly b.terms + descPoly r.terms ∧
      (descPoly r.terms).degree < (descPoly b.terms).degree) := by
  have h0 : ∀ q r, p.divMod fuel b = .ok (q, r) →
      descPoly p.terms = descPoly q.terms * descPoly b.terms + descPoly r.terms ∧
      (descPoly r.terms).degree < (descPoly b.terms).degree := by
    intro q r h
    by_cases hb : descPoly b.terms = 0
    · rw [(C24_dense_zero_divisor p b hb fuel).1] at h; cases h
    · rcases C21_dense_div_mod_int_outcome p b hb fuel with h' | ⟨q', r', h', e⟩
      · rw [h'] at h; cases h
      · rw [h'] at h; cases h; exact e
  have h1 : ∀ q r, p.divModM (.machine true t) fuel b = .ok (q, r) →
      descPoly p.terms = descPoly q.terms * descPoly b.terms + descPoly r.terms ∧
      (descPoly r.terms).degree < (descPoly b.terms).degree := by
    intro q r h
    rcases Poly.divModM_mono (machine_le_exact t) fuel p b with h' | h'
    · rw [h'] at h; cases h
    · rw [h', p.divModM_exact] at h; exact h0 q r h
  refine ⟨h1, fun q h => ?_, ?_⟩
  · unfold Poly.floorDivM at h
    cases hd : p.divModM (.machine true t) fuel b with
    | ok x =>
      obtain ⟨q', r⟩ := x
      rw [hd, Res.ok_bind] at h
      cases h
      obtain ⟨e1, e2⟩ := h1 q r hd
      rwa [e1, add_sub_cancel_left]
    | panic => rw [hd] at h; cases h
    | fuel => rw [hd] at h; cases h
  · intro r h
    rcases Poly.remAssignM_mono (machine_le_exact t) fuel p b with h' | h'
    · rw [h'] at h; cases h
    · rw [h', p.remAssignM_exact] at h
      rcases C23_dense_rem_assign_agrees (fun x y h => ⟨_, int_rdiv h⟩) p b fuel with
        ⟨_, h2⟩ | ⟨_, h2⟩ | ⟨q', r', r'', h1, h2, e⟩
      · rw [h2] at h; cases h
      · rw [h2] at h; cases h
      · rw [h2] at h; cases h
        obtain ⟨e1, e2⟩ := h0 q' r' h1
        exact ⟨_, e ▸ e1, e ▸ e2⟩

/-- C75, `Polynomial % Polynomial`: it returns only for a dividend of smaller degree than the divisor, and then
returns the dividend. -/
theorem C75_dense_rem (p b : Poly Int) (fuel : Nat) (r : Poly Int)
    (h : p.remM (.machine true t) fuel b = .ok r) :
    (descPoly p.terms).degree < (descPoly b.terms).degree ∧ r = p := by
  rcases Poly.remM_mono (machine_le_exact t) fuel p b with h' | h'
  · rw [h'] at h; cases h
  · rw [h', p.remM_exact] at h
    by_cases hb : descPoly b.terms = 0
    · rw [(C24_dense_zero_divisor p b hb fuel).2.2.1] at h; cases h
    · by_cases hd : (descPoly b.terms).degree ≤ (descPoly p.terms).degree
      · rw [C22_dense_rem_diverges (fun x y h => ⟨_, int_rdiv h⟩) p b hb hd] at h; cases h
      · rw [C22_dense_rem_partial p b (not_le.1 hd)] at h; cases h
        exact ⟨not_le.1 hd, rfl⟩

/-- C75, `SparsePolynomial` products and powers: exact or a panic. -/
theorem C75_sparse_mul_pow (p q : Sparse Int) (n : Nat) :
    (p.mulM (.machine true t) q = .panic ∨ ∃ r, p.mulM (.machine true t) q = .ok r ∧
      entriesPoly r.terms.entries = entriesPoly p.terms.entries * entriesPoly q.terms.entries) ∧
    (p.powM (.machine true t) n = .panic ∨ ∃ r, p.powM (.machine true t) n = .ok r ∧
      entriesPoly r.terms.entries = entriesPoly p.terms.entries ^ n) := by
  constructor
  · rcases Sparse.mulM_mono (machine_le_exact t).toLe p q with h | h
    · exact .inl h
    · exact .inr ⟨_, h.trans (p.mulM_exact q), C26_sparse_mul p q⟩
  · rcases Sparse.powM_mono (machine_le_exact t).toLe p n with h | h
    · exact .inl h
    · exact .inr ⟨_, h.trans (p.powM_exact n), C26_sparse_pow p n⟩

theorem sparseDivModLoop_sound {b : BMap Int} {rf : Int} {rd : Nat}
    (hb : (entriesPoly b.entries).degree = rd) :
    ∀ (fuel : Nat) (s : Int) (sd : Nat) (rem : BMap Int) (div : Sparse Int) (q : Sparse Int) (r : BMap Int),
    (entriesPoly rem.entries).degree = sd →
    Sparse.divModLoop b rf rd 0 fuel s sd rem div = .ok (q, r) →
      entriesPoly r.entries + entriesPoly q.terms.entries * entriesPoly b.entries
        = entriesPoly rem.entries + entriesPoly div.terms.entries * entriesPoly b.entries ∧
      (entriesPoly r.entries).degree < (entriesPoly b.entries).degree := by
  intro fuel
  induction fuel with
  | zero => intro s sd rem div q r _ h; simp [Sparse.divModLoop] at h
  | succ fuel ih =>
    intro s sd rem div q r hsd h
    unfold Sparse.divModLoop at h
    have key : entriesPoly (mapSubWScale rem b s).entries
        + entriesPoly (div.addTerm s 0).terms.entries * entriesPoly b.entries
        = entriesPoly rem.entries + entriesPoly div.terms.entries * entriesPoly b.entries := by
      rw [mapSubWScale_poly, C31_sparse_add_term]; ring
    by_cases hle : sd ≥ rd
    · rw [if_pos hle] at h
      dsimp only at h
      cases hf : sparseFirstTerm (mapSubWScale rem b s) with
      | zeroTerm =>
        rw [hf] at h
        cases h
        refine ⟨key, ?_⟩
        rw [sparseFirstTerm_zero.1 hf, hb]; exact WithBot.bot_lt_coe _
      | term c d =>
        rw [hf] at h
        dsimp only at h
        obtain ⟨s', _, h'⟩ := Res.bind_eq_ok.1 h
        obtain ⟨h1, h2⟩ := ih _ _ _ _ _ _ (sparseFirstTerm_term hf).2.1 h'
        exact ⟨h1.trans key, h2⟩
    · rw [if_neg hle] at h
      cases h
      refine ⟨rfl, ?_⟩
      rw [hsd, hb]; exact_mod_cast not_le.1 hle

theorem sparseRemLoop_sound {b : BMap Int} {rf : Int} {rd : Nat}
    (hb : (entriesPoly b.entries).degree = rd) :
    ∀ (fuel : Nat) (s : Int) (sd : Nat) (rem r : BMap Int),
    (entriesPoly rem.entries).degree = sd →
    Sparse.remLoop b rf rd fuel s sd rem = .ok r →
      (∃ Q : ℤ[X], entriesPoly rem.entries = Q * entriesPoly b.entries + entriesPoly r.entries) ∧
      (entriesPoly r.entries).degree < (entriesPoly b.entries).degree := by
  intro fuel
  induction fuel with
  | zero => intro s sd rem r _ h; simp [Sparse.remLoop] at h
  | succ fuel ih =>
    intro s sd rem r hsd h
    unfold Sparse.remLoop at h
    by_cases hle : sd ≥ rd
    · rw [if_pos hle] at h
      dsimp only at h
      have key := mapSubWScale_poly rem b s
      cases hf : sparseFirstTerm (mapSubWScale rem b s) with
      | zeroTerm =>
        rw [hf] at h
        cases h
        refine ⟨⟨C s, by rw [key]; ring⟩, ?_⟩
        rw [sparseFirstTerm_zero.1 hf, hb]; exact WithBot.bot_lt_coe _
      | term c d =>
        rw [hf] at h
        dsimp only at h
        obtain ⟨s', _, h'⟩ := Res.bind_eq_ok.1 h
        obtain ⟨⟨Q, h1⟩, h2⟩ := ih _ _ _ _ (sparseFirstTerm_term hf).2.1 h'
        refine ⟨⟨C s + Q, ?_⟩, h2⟩
        rw [key] at h1
        linear_combination h1
    · rw [if_neg hle] at h
      cases h
      refine ⟨⟨0, by ring⟩, ?_⟩
      rw [hsd, hb]; exact_mod_cast not_le.1 hle

/-- Sparse division of integers: whatever is returned is an exact division with remainder. -/
theorem sparse_division_int_sound (p b : Sparse Int) (fuel : Nat) :
    (∀ q r, p.divMod fuel b = .ok (q, r) →
      entriesPoly p.terms.entries
        = entriesPoly q.terms.entries * entriesPoly b.terms.entries + entriesPoly r.terms.entries ∧
      (entriesPoly r.terms.entries).degree < (entriesPoly b.terms.entries).degree) ∧
    (∀ r, p.rem fuel b = .ok r →
      (∃ Q : ℤ[X], entriesPoly p.terms.entries
        = Q * entriesPoly b.terms.entries + entriesPoly r.terms.entries) ∧
      (entriesPoly r.terms.entries).degree < (entriesPoly b.terms.entries).degree) := by
  by_cases hb : entriesPoly b.terms.entries = 0
  · obtain ⟨h1, h2⟩ := C24_sparse_zero_divisor p b hb fuel
    constructor
    · intro q r h; rw [h1] at h; cases h
    · intro r h; rw [h2] at h; cases h
  rcases lt_trichotomy (entriesPoly p.terms.entries).degree (entriesPoly b.terms.entries).degree with hd | hd | hd
  · obtain ⟨h1, h2⟩ := C27_sparse_div_mod_small_partial p b hd fuel
    constructor
    · intro q r h; rw [h1] at h; cases h
      exact ⟨by simp [Sparse.zero, mapPoly_empty], hd⟩
    · intro r h; rw [h2] at h; cases h
      exact ⟨⟨0, by ring⟩, hd⟩
  · cases hbf : sparseFirstTerm b.terms with
    | zeroTerm => exact absurd (sparseFirstTerm_zero.1 hbf) hb
    | term rf rd =>
      obtain ⟨hrf, hbd, hbl⟩ := sparseFirstTerm_term hbf
      cases hpf : sparseFirstTerm p.terms with
      | zeroTerm => rw [sparseFirstTerm_zero.1 hpf, hbd] at hd; simp at hd
      | term c d =>
        obtain ⟨hc, hpd, hpl⟩ := sparseFirstTerm_term hpf
        have hd' : d = rd := by rw [hbd, hpd] at hd; exact_mod_cast hd
        subst hd'
        constructor
        · intro q r h
          simp only [Sparse.divMod, hbf, hpf, lt_irrefl, if_false, Nat.sub_self] at h
          obtain ⟨s, _, h⟩ := Res.bind_eq_ok.1 h
          obtain ⟨⟨q', r'⟩, h', h''⟩ := Res.bind_eq_ok.1 h
          cases h''
          obtain ⟨h1, h2⟩ := sparseDivModLoop_sound hbd _ _ _ _ _ _ _ hpd h'
          refine ⟨?_, h2⟩
          rw [C28_sparse_from_vec] at h1
          simp only [descPoly_nil, zero_mul, add_zero] at h1
          rw [← h1]; simp only [Sparse.new]; ring
        · intro r h
          simp only [Sparse.rem, hbf, hpf, lt_irrefl, if_false] at h
          obtain ⟨s, _, h⟩ := Res.bind_eq_ok.1 h
          obtain ⟨r', h', h''⟩ := Res.bind_eq_ok.1 h
          cases h''
          exact sparseRemLoop_sound hbd _ _ _ _ _ hpd h'
  · obtain ⟨h1, h2⟩ := C27_sparse_div_mod_diverges (fun x y h => ⟨_, int_rdiv h⟩) p b hb hd fuel
    constructor
    · intro q r h; rw [h1] at h; cases h
    · intro r h; rw [h2] at h; cases h

/-- C75, `SparsePolynomial` division: whatever `div_mod` and `%`, `%=` return is an exact division with
remainder; they return only for a dividend of at most the degree of the divisor. -/
theorem C75_sparse_division (p b : Sparse Int) (fuel : Nat) :
    (∀ q r, p.divModM (.machine true t) fuel b = .ok (q, r) →
      entriesPoly p.terms.entries
        = entriesPoly q.terms.entries * entriesPoly b.terms.entries + entriesPoly r.terms.entries ∧
      (entriesPoly r.terms.entries).degree < (entriesPoly b.terms.entries).degree ∧
      (entriesPoly p.terms.entries).degree ≤ (entriesPoly b.terms.entries).degree) ∧
    (∀ r, p.remM (.machine true t) fuel b = .ok r →
      (∃ Q : ℤ[X], entriesPoly p.terms.entries
        = Q * entriesPoly b.terms.entries + entriesPoly r.terms.entries) ∧
      (entriesPoly r.terms.entries).degree < (entriesPoly b.terms.entries).degree ∧
      (entriesPoly p.terms.entries).degree ≤ (entriesPoly b.terms.entries).degree) := by
  obtain ⟨s1, s2⟩ := sparse_division_int_sound p b fuel
  have hdiv : (∃ x, p.divMod fuel b = .ok x) ∨ (∃ x, p.rem fuel b = .ok x) →
      (entriesPoly p.terms.entries).degree ≤ (entriesPoly b.terms.entries).degree := by
    intro h
    by_contra hd
    have hb : entriesPoly b.terms.entries ≠ 0 := by
      intro hb
      obtain ⟨h1, h2⟩ := C24_sparse_zero_divisor p b hb fuel
      rcases h with ⟨x, h⟩ | ⟨x, h⟩
      · rw [h1] at h; cases h
      · rw [h2] at h; cases h
    obtain ⟨h1, h2⟩ := C27_sparse_div_mod_diverges (fun x y h => ⟨_, int_rdiv h⟩) p b hb (not_le.1 hd) fuel
    rcases h with ⟨x, h⟩ | ⟨x, h⟩
    · rw [h1] at h; cases h
    · rw [h2] at h; cases h
  constructor
  · intro q r h
    rcases Sparse.divModM_mono (machine_le_exact t) fuel p b with h' | h'
    · rw [h'] at h; cases h
    · rw [h', p.divModM_exact] at h
      exact ⟨(s1 q r h).1, (s1 q r h).2, hdiv (.inl ⟨_, h⟩)⟩
  · intro r h
    rcases Sparse.remM_mono (machine_le_exact t) fuel p b with h' | h'
    · rw [h'] at h; cases h
    · rw [h', p.remM_exact] at h
      exact ⟨(s2 r h).1, (s2 r h).2, hdiv (.inr ⟨_, h⟩)⟩

end

example : (⟨[1, 3]⟩ : Poly Int).powM (.machine true ⟨true, 8⟩) 4 = .ok ⟨[1, 12, 54, 108, 81]⟩ ∧
    (⟨[1, 3]⟩ : Poly Int).powM (.machine true ⟨true, 8⟩) 5 = .panic := by
  decide +kernel
example : (⟨[1, 0, 0, -1]⟩ : Poly Int).divModM (.machine true ⟨true, 8⟩) 5 ⟨[1, -1]⟩ = .ok (⟨[1, 1, 1]⟩, ⟨[]⟩) ∧
    (⟨[1, 0, 0, 5]⟩ : Poly Int).divModM (.machine true ⟨true, 8⟩) 5 ⟨[1, 7]⟩ = .panic ∧
    (⟨[1, 0, 0, -1]⟩ : Poly Int).remAssignM (.machine true ⟨true, 8⟩) 5 ⟨[1, 0, -1]⟩ = .ok ⟨[0, 0, 1, -1]⟩ ∧
    (⟨[5, 7]⟩ : Poly Int).remM (.machine true ⟨true, 8⟩) 0 ⟨[1, 0, -1]⟩ = .ok ⟨[5, 7]⟩ := by
  decide +kernel
example : ((Sparse.fromVec [1, 2]).powM (.machine true ⟨true, 8⟩) 3).bind (fun r => .ok r.terms.entries)
      = .ok [(0, 8), (1, 12), (2, 6), (3, 1)] ∧
    ((Sparse.fromVec [1, 2]).powM (.machine true ⟨true, 8⟩) 7).bind (fun r => .ok r.terms.entries) = .panic ∧
    ((Sparse.fromVec [6, 5]).divModM (.machine true ⟨true, 8⟩) 3 (Sparse.fromVec [3, 1])).bind
      (fun r => .ok (r.1.terms.entries, r.2.terms.entries)) = .ok ([(0, 2)], [(0, 3), (1, 0)]) := by
  decide +kernel

end Rustnomial
