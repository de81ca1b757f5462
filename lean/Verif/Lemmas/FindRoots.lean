import Verif.Props.Cubic
import Verif.SpecRoots
import Verif.Props.SparseBasic
import Verif.Lemmas.DenseDiv

/-!
# Lemmas about the high-degree root finder
-/

set_option linter.unusedSectionVars false
set_option linter.unusedVariables false

open Polynomial

namespace Rustnomial

theorem rdiv_real (x y : ℝ) : rdiv x y = Res.ok (x / y) := rfl

theorem mapM_rdiv_real (y : ℝ) (l : List ℝ) :
    l.mapM (fun v => rdiv v y) = Res.ok (l.map (· / y)) := by
  induction l with
  | nil => rfl
  | cons a l ih => rw [List.mapM_cons, rdiv_real, Res.ok_bind, ih, Res.ok_bind]; rfl

/-- The division loop by `X - C r` computes the quotient, whatever `r` is. -/
theorem divLoop_spec (r : ℝ) (offset : Nat) : ∀ (fuel : Nat) (values div : List ℝ) (coeff : ℝ) (sd : Nat),
    firstTerm values = .term coeff sd → div.length = offset → sd ≤ offset →
    (∀ i, offset - sd ≤ i → div.getD i 0 = 0) → sd < fuel →
    ∃ q e, divLoop r offset fuel values div coeff sd = .ok q ∧ q.length = offset ∧
      descPoly values = (X - C r) * (descPoly q - descPoly div) + C e := by
  intro fuel
  induction fuel with
  | zero => intro _ _ _ sd _ _ _ _ h; omega
  | succ f ih =>
    intro values div coeff sd hft hdl hsd hz hf
    obtain ⟨hc, hdeg, hlead⟩ := firstTerm_poly hft
    unfold divLoop
    by_cases h1 : sd ≥ 1
    · rw [if_pos h1, rdiv_real, Res.ok_bind, div_one]
      obtain ⟨vs, _, _, hlen, _, _⟩ := firstTerm_term hft
      rw [usub, if_pos (by omega), Res.ok_bind, usub, if_pos (by omega), Res.ok_bind,
        if_pos (by omega), usub, if_pos hsd, Res.ok_bind, if_pos (by omega)]
      set loc := values.length - sd - 1 with hloc
      set values' := (values.modify loc (· - 1 * coeff)).modify (loc + 1) (· + r * coeff) with hv'
      have hP : descPoly values' = descPoly values - C coeff * X ^ (sd - 1) * (X - C r) := by
        rw [hv', descPoly_modify_add _ _ _ (by simp; omega),
          show (fun x : ℝ => x - 1 * coeff) = (fun x => x + -coeff) by funext x; ring,
          descPoly_modify_add _ _ _ (by omega)]
        simp only [List.length_modify]
        rw [show values.length - (loc + 1) - 1 = sd - 1 by omega,
          show values.length - loc - 1 = sd - 1 + 1 by omega]
        simp only [C_neg, C_mul]
        ring
      have hlt : (descPoly values').degree < (sd : WithBot ℕ) := by
        rw [hP]
        exact degree_step hdeg hlead (degree_X_sub_C r) (leadingCoeff_X_sub_C r) h1 (by ring)
      have hD : descPoly (div.set (offset - sd) coeff) = descPoly div + C coeff * X ^ (sd - 1) := by
        rw [descPoly_set _ _ _ (by omega) (hz _ le_rfl)]
        rw [show div.length - (offset - sd) - 1 = sd - 1 by omega]
      cases hft' : firstTerm values' with
      | zeroTerm =>
        refine ⟨_, 0, rfl, by simpa using hdl, ?_⟩
        rw [firstTerm_zero_poly, hP] at hft'
        rw [hD, C_0]
        linear_combination hft'
      | term c' d' =>
        have hd' : d' < sd := by
          have := (firstTerm_poly hft').2.1
          rw [this] at hlt
          exact_mod_cast hlt
        obtain ⟨q, e, h2, h3, h4⟩ := ih values' (div.set (offset - sd) coeff) c' d' hft'
          (by simpa using hdl) (by omega) (by
            intro i hi
            rw [List.getD_eq_getElem?_getD, List.getElem?_set_ne (by omega),
              ← List.getD_eq_getElem?_getD]
            exact hz i (by omega)) (by omega)
        refine ⟨q, e, h2, h3, ?_⟩
        rw [hP, hD] at h4
        linear_combination h4
    · rw [if_neg h1]
      have h0 : sd = 0 := by omega
      subst h0
      refine ⟨div, coeff, rfl, hdl, ?_⟩
      have := eq_C_of_degree_eq_zero hdeg
      rw [this] at hlead ⊢
      rw [leadingCoeff_C] at hlead
      rw [hlead]; ring

/-- `div` of the root finder: the quotient by `X - C r`. -/
theorem divRoot_spec (r : ℝ) (fuel : Nat) (values : List ℝ) (c : ℝ) (d : Nat)
    (hft : firstTerm values = .term c d) (hd : d ≠ 1) (hf : d < fuel) :
    ∃ q e, divRoot fuel values r = .ok q ∧ q.length = d ∧
      descPoly values = (X - C r) * descPoly q + C e := by
  obtain ⟨q, e, h1, h2, h3⟩ := divLoop_spec r d fuel values (List.replicate d 0) c d hft (by simp) le_rfl
    (by
      intro i _
      rw [List.getD_eq_getElem?_getD, List.getElem?_replicate]
      split <;> rfl) hf
  refine ⟨q, e, ?_, h2, by simpa using h3⟩
  unfold divRoot
  rw [hft]
  split
  · rename_i h; cases h
  · rename_i h; injection h with _ h; exact absurd h hd
  · rename_i h; injection h with e1 e2; subst e1 e2; exact h1

theorem divRoot_one (r : ℝ) (fuel : Nat) (values : List ℝ) (c : ℝ)
    (hft : firstTerm values = .term c 1) : divRoot fuel values r = .ok [] := by
  unfold divRoot; rw [hft]; rfl

theorem divRoot_nil (r : ℝ) (fuel : Nat) : divRoot fuel ([] : List ℝ) r = .ok [] := rfl

/-- A list without leading zero: its length is one more than the degree. -/
theorem firstTerm_of_degree {l : List ℝ} {d : Nat} (h : (descPoly l).degree = d) :
    firstTerm l = .term (descPoly l).leadingCoeff d := by
  cases hf : firstTerm l with
  | zeroTerm => rw [firstTerm_zero_poly] at hf; rw [hf] at h; simp at h
  | term c d' =>
    obtain ⟨_, h2, h3⟩ := firstTerm_poly hf
    rw [h2] at h
    have : d' = d := by exact_mod_cast h
    rw [h3, this]

theorem firstTerm_cons {c : ℝ} (h : c ≠ 0) (l : List ℝ) : firstTerm (c :: l) = .term c l.length := by
  have := firstTerm_of_degree (descPoly_cons_degree l h)
  rwa [descPoly_leadingCoeff l h] at this

/-- Dividing exactly by a root. -/
theorem divRoot_exact (r : ℝ) (fuel : Nat) (values : List ℝ) (Q : ℝ[X]) (hQ : Q ≠ 0)
    (h : descPoly values = (X - C r) * Q) (hf : Q.natDegree + 1 < fuel) :
    (Q.natDegree = 0 ∧ divRoot fuel values r = .ok []) ∨
    (1 ≤ Q.natDegree ∧ ∃ q, divRoot fuel values r = .ok q ∧ q.length = Q.natDegree + 1 ∧ descPoly q = Q) := by
  have hdeg : (descPoly values).degree = ((Q.natDegree + 1 : ℕ) : WithBot ℕ) := by
    rw [h, degree_mul, degree_X_sub_C, degree_eq_natDegree hQ]
    push_cast; ring
  have hft := firstTerm_of_degree hdeg
  rcases Nat.eq_zero_or_pos Q.natDegree with h0 | h0
  · left
    rw [h0] at hft
    exact ⟨h0, divRoot_one r fuel values _ hft⟩
  · right
    obtain ⟨q, e, h1, h2, h3⟩ := divRoot_spec r fuel values _ _ hft (by omega) hf
    refine ⟨h0, q, h1, h2, ?_⟩
    have hlt : (C e : ℝ[X]).degree < (X - C r).degree := by
      rw [degree_X_sub_C]; exact lt_of_le_of_lt degree_C_le (by norm_num)
    refine (divmod_unique (A := descPoly values) (B := X - C r) (T := C e) (T' := 0) ?_ hlt ?_ ?_).1
    · rw [h3]; ring
    · rw [h]; ring
    · rw [degree_zero, degree_X_sub_C]; exact WithBot.bot_lt_coe 1

theorem head_ne_of_length {l : List ℝ} (h : l.length = (descPoly l).natDegree + 1) :
    ∃ c cs, l = c :: cs ∧ (c ≠ 0 ∨ cs = []) := by
  cases l with
  | nil => simp at h
  | cons c cs =>
    refine ⟨c, cs, rfl, ?_⟩
    by_contra hc
    rw [not_or, not_ne_iff] at hc
    rw [hc.1] at h
    rw [descPoly_cons, C_0, zero_mul, zero_add, List.length_cons] at h
    have hlt := descPoly_degree_lt cs
    have hne : descPoly cs ≠ 0 := by
      intro h0; rw [h0] at h; simp at h; exact hc.2 h
    rw [degree_eq_natDegree hne] at hlt
    have : (descPoly cs).natDegree < cs.length := by exact_mod_cast hlt
    omega

noncomputable def rootsProd (l : List ℝ) : ℝ[X] := (l.map fun r => X - C r).prod

theorem rootsProd_ne (l : List ℝ) : rootsProd l ≠ 0 := by
  unfold rootsProd
  rw [Ne, List.prod_eq_zero_iff]
  simp [X_sub_C_ne_zero]

theorem rootsProd_cons (r : ℝ) (l : List ℝ) : rootsProd (r :: l) = (X - C r) * rootsProd l := rfl

theorem rootsProd_append (l m : List ℝ) : rootsProd (l ++ m) = rootsProd l * rootsProd m := by
  unfold rootsProd; simp

theorem rootsProd_natDegree (l : List ℝ) : (rootsProd l).natDegree = l.length := by
  induction l with
  | nil => simp [rootsProd]
  | cons r l ih =>
    rw [rootsProd_cons, natDegree_mul (X_sub_C_ne_zero r) (rootsProd_ne l), ih, natDegree_X_sub_C]
    simp; ring

theorem rootsProd_roots (l : List ℝ) : (rootsProd l).roots = (l : Multiset ℝ) := by
  have : rootsProd l = ((l : Multiset ℝ).map fun a => X - C a).prod := by simp [rootsProd]
  rw [this, roots_multiset_prod_X_sub_C]

theorem pickRoot_exact (rnd eval : ℝ → ℝ) (r : ℝ) (h : eval r = 0) : pickRoot rnd eval r = r := by
  unfold pickRoot absLess instAbsLessReal
  simp only [decide_eq_true_eq]
  rw [h, abs_zero, if_neg (not_lt.2 (abs_nonneg _))]

/-- The deflation by a list of exact roots. -/
theorem deflate_exact (rnd eval : ℝ → ℝ) (fuel : Nat) (N : ℝ[X]) (hN : N ≠ 0) :
    ∀ (temp roots nvalues : List ℝ), (∀ r ∈ temp, eval r = 0) →
    descPoly nvalues = rootsProd temp * N → nvalues.length = (descPoly nvalues).natDegree + 1 →
    nvalues.length ≤ fuel → temp ≠ [] →
    ∃ nv, deflate rnd eval fuel temp roots nvalues = .ok (roots ++ temp, nv) ∧
      ((N.natDegree = 0 ∧ nv = []) ∨
        (1 ≤ N.natDegree ∧ descPoly nv = N ∧ nv.length = N.natDegree + 1)) := by
  intro temp
  induction temp with
  | nil => intro _ _ _ _ _ _ h; exact absurd rfl h
  | cons r rest ih =>
    intro roots nvalues hev hP hl hf _
    rw [rootsProd_cons, mul_assoc] at hP
    have hQ : rootsProd rest * N ≠ 0 := mul_ne_zero (rootsProd_ne _) hN
    have hdeg : (descPoly nvalues).natDegree = (rootsProd rest * N).natDegree + 1 := by
      rw [hP, natDegree_mul (X_sub_C_ne_zero r) hQ, natDegree_X_sub_C, add_comm]
    unfold deflate
    rw [pickRoot_exact rnd eval r (hev r (by simp))]
    have hdm : (rootsProd rest * N).natDegree = rest.length + N.natDegree := by
      rw [natDegree_mul (rootsProd_ne _) hN, rootsProd_natDegree]
    rcases divRoot_exact r fuel nvalues _ hQ hP (by omega) with ⟨h0, h1⟩ | ⟨h0, q, h1, h2, h3⟩
    · show ∃ nv, (divRoot fuel nvalues r >>= fun nv => deflate rnd eval fuel rest (roots ++ [r]) nv) = _ ∧ _
      rw [h1, Res.ok_bind]
      have hr : rest = [] := List.length_eq_zero_iff.1 (by omega)
      subst hr
      exact ⟨[], rfl, .inl ⟨by omega, rfl⟩⟩
    · show ∃ nv, (divRoot fuel nvalues r >>= fun nv => deflate rnd eval fuel rest (roots ++ [r]) nv) = _ ∧ _
      rw [h1, Res.ok_bind]
      by_cases hr : rest = []
      · subst hr
        have h3' : descPoly q = N := by rw [h3]; simp [rootsProd]
        refine ⟨q, rfl, .inr ⟨by simpa [hdm] using h0, h3', by rw [h2, hdm]; simp⟩⟩
      · obtain ⟨nv, h4, h5⟩ := ih (roots ++ [r]) q (fun x hx => hev x (by simp [hx])) h3
          (by rw [h3, h2]) (by omega) hr
        refine ⟨nv, ?_, h5⟩
        rw [h4]; simp

theorem normalize_cons {c : ℝ} (h : c ≠ 0) (cs : List ℝ) :
    normalize (c :: cs) = .ok ((c :: cs).map (· / c)) := by
  have h0 : firstNonzeroIndex (c :: cs) = 0 := by
    have := firstNonzeroIndex_add (c :: cs)
    rw [List.dropWhile_cons_of_neg (by simp [not_isZero h])] at this
    simpa using this
  unfold normalize
  rw [h0]
  show (List.mapM (fun val => rdiv val c) (c :: cs) >>= fun t => Res.ok (List.take 0 (c :: cs) ++ t)) = _
  rw [mapM_rdiv_real, Res.ok_bind]; rfl

theorem descPoly_map_div (c : ℝ) (l : List ℝ) : descPoly (l.map (· / c)) = C c⁻¹ * descPoly l := by
  rw [show (fun x : ℝ => x / c) = (fun x => c⁻¹ * x) by funext x; rw [div_eq_inv_mul],
    descPoly_map_mul_left]

/-- Such a solver exists. -/
theorem exactOracle_exists : ∃ oracle, ExactOracle oracle := by
  refine ⟨fun as => (X ^ as.length + descPoly as).roots.toFinset.toList, fun as => ⟨Finset.nodup_toList _, ?_⟩⟩
  intro r
  have hne : X ^ as.length + descPoly as ≠ 0 := by
    have : X ^ as.length + descPoly as = descPoly (1 :: as) := by rw [descPoly_cons]; simp
    rw [this]
    intro h
    have := descPoly_cons_degree (R := ℝ) as one_ne_zero
    rw [h] at this; simp at this
  simp [hne]

theorem rootsProd_dvd {N : ℝ[X]} (hN : N ≠ 0) {l : List ℝ} (hnd : l.Nodup) (h : ∀ r ∈ l, N.IsRoot r) :
    ∃ M, N = rootsProd l * M := by
  have h1 : (l : Multiset ℝ) ≤ N.roots := by
    rw [Multiset.le_iff_subset (by simpa using hnd)]
    intro r hr
    rw [mem_roots hN]
    exact h r (by simpa using hr)
  have := (Multiset.prod_X_sub_C_dvd_iff_le_roots hN (l : Multiset ℝ)).2 h1
  obtain ⟨M, hM⟩ := this
  exact ⟨M, by rw [hM]; simp [rootsProd]⟩

theorem findRootsLoop_exact {oracle : List ℝ → List ℝ} (ho : ExactOracle oracle) (rnd eval : ℝ → ℝ)
    (P : ℝ[X]) (hP0 : 1 ≤ P.natDegree) (hev : ∀ r, P.IsRoot r → eval r = 0) (fuel0 : Nat)
    (hf0 : P.natDegree + 1 ≤ fuel0) :
    ∀ (fuel : Nat) (values nvalues roots : List ℝ) (k lead : ℝ) (tl : List ℝ),
    nvalues = lead :: tl → lead ≠ 0 → k ≠ 0 → 1 ≤ tl.length → values ≠ [] → values.tail = tl.map (· / lead) →
    P = C k * rootsProd roots * descPoly nvalues → tl.length < fuel →
    ∃ l, findRootsLoop oracle rnd eval (.num P.natDegree) fuel0 fuel values nvalues roots =
        .ok (rootsAnswer P.natDegree l) ∧ (l : Multiset ℝ) = P.roots := by
  intro fuel
  induction fuel with
  | zero => intro _ _ _ _ _ _ _ _ _ _ _ _ _ h; omega
  | succ f ih =>
    intro values nvalues roots k lead tl hnv hlead hk htl hvne hvt hP hf
    have hNdeg : (descPoly nvalues).natDegree = tl.length := by
      rw [hnv]; exact natDegree_eq_of_degree_eq_some (descPoly_cons_degree tl hlead)
    have hN0 : descPoly nvalues ≠ 0 := by
      intro h; rw [h] at hNdeg; simp at hNdeg; omega
    have hPne : P ≠ 0 := by intro h; rw [h] at hP0; simp at hP0
    have hCk : (C k : ℝ[X]) ≠ 0 := by simpa using hk
    have hPdeg : P.natDegree = roots.length + tl.length := by
      rw [hP, natDegree_mul (mul_ne_zero hCk (rootsProd_ne _)) hN0, natDegree_C_mul hk,
        rootsProd_natDegree, hNdeg]
    have hmon : X ^ (values.tail).length + descPoly values.tail = C lead⁻¹ * descPoly nvalues := by
      rw [hvt, descPoly_map_div, hnv, descPoly_cons, mul_add, ← mul_assoc, ← C_mul, inv_mul_cancel₀ hlead]
      simp
    have hor := ho values.tail
    rw [hmon] at hor
    have hroot : ∀ r, r ∈ oracle values.tail ↔ (descPoly nvalues).IsRoot r := by
      intro r
      rw [hor.2 r]
      simp [IsRoot.def, hlead]
    unfold findRootsLoop
    have hs : sliceFrom values 1 = .ok values.tail := by
      unfold sliceFrom
      rw [if_pos (by have := List.length_pos_of_ne_nil hvne; omega), List.drop_one]
    rw [hs, Res.ok_bind]
    by_cases he : oracle values.tail = []
    · -- no further root
      have hno : (descPoly nvalues).roots = 0 := by
        rw [Multiset.eq_zero_iff_forall_notMem]
        intro r hr
        rw [mem_roots hN0, ← hroot, he] at hr
        simp at hr
      refine ⟨roots, ?_, ?_⟩
      · simp only [he, List.isEmpty_nil, if_true, List.length_nil]
        rw [if_neg (by omega)]
        unfold rootsAnswer
        by_cases hr : roots = []
        · simp [hr]
        · have : roots.isEmpty = false := by simpa using hr
          have hlt : roots.length ≠ P.natDegree := by omega
          rw [this, if_neg hr, if_neg hlt]; rfl
      · rw [hP, mul_assoc, roots_C_mul _ hk, roots_mul (mul_ne_zero (rootsProd_ne _) hN0),
          rootsProd_roots, hno, add_zero]
    · have he' : (oracle values.tail).isEmpty = false := by simpa using he
      simp only [he']
      rw [if_neg (by simp)]
      obtain ⟨M, hM⟩ := rootsProd_dvd hN0 hor.1 (fun r hr => (hroot r).1 hr)
      have hM0 : M ≠ 0 := by rintro rfl; rw [mul_zero] at hM; exact hN0 hM
      have hMdeg : tl.length = (oracle values.tail).length + M.natDegree := by
        rw [← hNdeg, hM, natDegree_mul (rootsProd_ne _) hM0, rootsProd_natDegree]
      obtain ⟨nv, h1, h2⟩ := deflate_exact rnd eval fuel0 M hM0 (oracle values.tail) roots nvalues
        (by
          intro r hr
          apply hev
          rw [hP, IsRoot.def, eval_mul, (hroot r).1 hr, mul_zero]) hM
        (by rw [hNdeg, hnv]; rfl) (by rw [hnv, List.length_cons]; omega) he
      rw [h1, Res.ok_bind]
      have hP' : P = C k * rootsProd (roots ++ oracle values.tail) * M := by
        rw [rootsProd_append, hP, hM]; ring
      have hne : roots ++ oracle values.tail ≠ [] := by simp [he]
      rcases h2 with ⟨hm, rfl⟩ | ⟨hm, hnvM, hnvl⟩
      · refine ⟨roots ++ oracle values.tail, ?_, ?_⟩
        · have : (roots ++ oracle values.tail).isEmpty = false := by simpa using fun _ => he
          have hlen : (roots ++ oracle values.tail).length = P.natDegree := by
            rw [List.length_append]; omega
          simp only [List.isEmpty_nil, if_true, this]
          unfold rootsAnswer
          rw [if_neg hne, if_pos hlen]; rfl
        · rw [hP', eq_C_of_natDegree_eq_zero hm]
          have hM1 : M.coeff 0 ≠ 0 := by
            intro h0; rw [eq_C_of_natDegree_eq_zero hm, h0] at hM0; simp at hM0
          rw [mul_comm, ← mul_assoc, ← C_mul, roots_C_mul _ (mul_ne_zero hM1 hk), rootsProd_roots]
      · obtain ⟨lead', tl', rfl, hl'⟩ := head_ne_of_length (l := nv) (by rw [hnvM, hnvl])
        have htl' : tl'.length = M.natDegree := by simpa using hnvl
        have hlead' : lead' ≠ 0 := by
          rcases hl' with h | h
          · exact h
          · rw [h] at htl'; simp at htl'; omega
        have h11 : lead' / lead' = 1 := div_self hlead'
        show ∃ l, (if (lead' :: tl').isEmpty = true then _ else _) = _ ∧ _
        rw [if_neg (by simp), normalize_cons hlead', Res.ok_bind]
        show ∃ l, (List.mapM (fun val => rdiv val (lead' / lead')) ((lead' :: tl').map (· / lead')) >>= fun values => _) = _ ∧ _
        rw [mapM_rdiv_real, Res.ok_bind]
        have hlen := List.length_pos_of_ne_nil he
        apply ih (k := k * lead') (lead := lead' / lead') (tl := tl'.map (· / lead'))
        · rfl
        · rw [h11]; exact one_ne_zero
        · exact mul_ne_zero hk hlead'
        · simp; omega
        · simp
        · simp
        · rw [hP', ← hnvM, descPoly_map_div, C_mul]
          have : (C lead' : ℝ[X]) * C lead'⁻¹ = 1 := by rw [← C_mul, mul_inv_cancel₀ hlead', C_1]
          linear_combination -(C k * rootsProd (roots ++ oracle values.tail) * descPoly (lead' :: tl')) * this
        · simp; omega

theorem fillValues_spec (leading : ℝ) (deg : Nat) : ∀ (rest : List (ℝ × Nat)) (values nvalues : List ℝ),
    values.length = deg + 1 → nvalues.length = deg + 1 → (∀ t ∈ rest, t.2 < deg) →
    rest.Pairwise (fun s t => s.2 > t.2) → (∀ t ∈ rest, nvalues.getD (deg - t.2) 0 = 0) →
    values.tail = nvalues.tail.map (· / leading) →
    ∃ v n, fillValues leading deg rest values nvalues = .ok (v, n) ∧ v.length = deg + 1 ∧ n.length = deg + 1 ∧
      v.tail = n.tail.map (· / leading) ∧ n.head? = nvalues.head? ∧
      descPoly n = descPoly nvalues + termsPoly rest := by
  intro rest
  induction rest with
  | nil =>
    intro values nvalues h1 h2 _ _ _ h3
    exact ⟨values, nvalues, rfl, h1, h2, h3, rfl, by simp⟩
  | cons t rest ih =>
    intro values nvalues h1 h2 h3 h4 h5 h6
    obtain ⟨val, d⟩ := t
    have hd : d < deg := h3 (val, d) (by simp)
    rw [List.pairwise_cons] at h4
    unfold fillValues
    rw [usub, if_pos (by omega), Res.ok_bind, if_pos (by omega), rdiv_real, Res.ok_bind]
    obtain ⟨j, hj⟩ : ∃ j, deg - d = j + 1 := ⟨deg - d - 1, by omega⟩
    obtain ⟨v0, vs, rfl⟩ := List.exists_cons_of_length_eq_add_one h1
    obtain ⟨n0, ns, rfl⟩ := List.exists_cons_of_length_eq_add_one h2
    have hset := descPoly_set (n0 :: ns) (deg - d) val (by omega) (h5 (val, d) (by simp))
    obtain ⟨v, n, e1, e2, e3, e4, e5, e6⟩ := ih ((v0 :: vs).set (deg - d) (val / leading))
      ((n0 :: ns).set (deg - d) val) (by simpa using h1) (by simpa using h2)
      (fun t ht => h3 t (by simp [ht])) h4.2 (by
        intro t ht
        have := h4.1 t ht
        have hlt := h3 t (by simp [ht])
        rw [List.getD_eq_getElem?_getD, List.getElem?_set_ne (by simp only at this; omega),
          ← List.getD_eq_getElem?_getD]
        exact h5 t (by simp [ht]))
      (by
        rw [hj, List.set_cons_succ, List.set_cons_succ]
        simp only [List.tail_cons] at h6 ⊢
        rw [h6, List.map_set])
    refine ⟨v, n, e1, e2, e3, e4, ?_, ?_⟩
    · rw [e5, hj]; rfl
    · rw [e6, hset, termsPoly_cons, h2]
      rw [show deg + 1 - (deg - d) - 1 = d by omega]
      ring

/-- The general case of `find_roots_special`. -/
theorem findRootsSpecial_none (lead : ℝ) (deg : Nat) (t : ℝ × Nat) (ts : List (ℝ × Nat)) (h : 4 ≤ deg) :
    findRootsSpecial ((lead, deg) :: t :: ts) = .ok none := by
  obtain ⟨d, rfl⟩ : ∃ d, deg = d + 4 := ⟨deg - 4, by omega⟩
  rfl

/-- The shape of the term list of a polynomial that is not a monomial. -/
theorem termList_shape {vals : List (ℝ × Nat)} {P : ℝ[X]} (h : IsTermListOf vals P) (hP : P ≠ 0) :
    ∃ rest, vals = (P.leadingCoeff, P.natDegree) :: rest ∧
      (rest = [] → P = C P.leadingCoeff * X ^ P.natDegree) := by
  have hmem : (P.leadingCoeff, P.natDegree) ∈ vals := (h.2 _ _).2 ⟨by simpa using hP, rfl⟩
  cases vals with
  | nil => simp at hmem
  | cons t rest =>
    have ht : t = (P.leadingCoeff, P.natDegree) := by
      rcases List.mem_cons.1 hmem with h1 | h1
      · exact h1.symm
      · have hgt := (List.pairwise_cons.1 h.1).1 _ h1
        obtain ⟨c, d⟩ := t
        have := (h.2 c d).1 (by simp)
        simp only at hgt
        have h0 := coeff_eq_zero_of_natDegree_lt hgt
        rw [this.2] at h0
        exact absurd h0 this.1
    subst ht
    refine ⟨rest, rfl, ?_⟩
    intro hr
    have := h.termsPoly_eq
    rw [hr, termsPoly_cons, termsPoly_nil, add_zero] at this
    exact this.symm

/-- The preparation of the high-degree case. -/
theorem findRoots_reduce (oracle : List ℝ → List ℝ) (rnd eval : ℝ → ℝ)
    (vals : List (ℝ × Nat)) (P : ℝ[X]) (hv : IsTermListOf vals P) (degree : Degree)
    (hdeg : degree.toWithBot = P.degree) (h4 : 4 ≤ P.natDegree)
    (hmono : P ≠ C P.leadingCoeff * X ^ P.natDegree) (fuel : Nat) :
    ∃ v n0 ns, findRoots oracle rnd fuel vals degree eval =
        findRootsLoop oracle rnd eval (.num P.natDegree) fuel fuel v (n0 :: ns) [] ∧ v ≠ [] ∧ n0 ≠ 0 ∧
      v.tail = ns.map (· / n0) ∧ descPoly (n0 :: ns) = P ∧ ns.length = P.natDegree := by
  have hP : P ≠ 0 := by rintro rfl; simp at h4
  obtain ⟨rest, rfl, hr⟩ := termList_shape hv hP
  have hd : degree = .num P.natDegree := by
    rw [degree_eq_natDegree hP] at hdeg
    cases degree with
    | negInf => cases hdeg
    | num n =>
      have hdeg' : (n : WithBot ℕ) = P.natDegree := hdeg
      have : n = P.natDegree := by exact_mod_cast hdeg'
      rw [this]
  cases rest with
  | nil => exact absurd (hr rfl) hmono
  | cons t ts =>
    unfold findRoots
    rw [findRootsSpecial_none _ _ _ _ h4, Res.ok_bind]
    have hpw := List.pairwise_cons.1 hv.1
    obtain ⟨m, hm⟩ : ∃ m, P.natDegree = m + 1 := ⟨P.natDegree - 1, by omega⟩
    obtain ⟨v, n, e1, e2, e3, e4, e5, e6⟩ := fillValues_spec P.leadingCoeff P.natDegree (t :: ts)
      (List.replicate (P.natDegree + 1) 0) ((List.replicate (P.natDegree + 1) 0).set 0 P.leadingCoeff)
      (by simp) (by simp) (fun s hs => hpw.1 s hs) hpw.2
      (by
        intro s hs
        have := hpw.1 s hs
        simp only at this
        rw [List.getD_eq_getElem?_getD, List.getElem?_set_ne (by omega), List.getElem?_replicate]
        split <;> rfl)
      (by simp [List.replicate_succ])
    simp only
    rw [e1, Res.ok_bind]
    obtain ⟨n0, ns, rfl⟩ := List.exists_cons_of_length_eq_add_one e3
    have hn0 : n0 = P.leadingCoeff := by
      simpa [List.replicate_succ] using e5
    have hl0 : P.leadingCoeff ≠ 0 := by simpa using hP
    have hPn : descPoly (n0 :: ns) = P := by
      rw [e6]
      have := hv.termsPoly_eq
      rw [termsPoly_cons] at this
      rw [List.replicate_succ, List.set_cons_zero, descPoly_cons, descPoly_replicate_zero, add_zero,
        List.length_replicate, ← this]
      simp only [this]
    rw [hd]
    exact ⟨v, n0, ns, rfl, by intro h; rw [h] at e2; simp at e2, by rw [hn0]; exact hl0,
      by rw [e4, hn0]; rfl, hPn, by simpa using e3⟩

theorem findRoots_exact {oracle : List ℝ → List ℝ} (ho : ExactOracle oracle) (rnd eval : ℝ → ℝ)
    (vals : List (ℝ × Nat)) (P : ℝ[X]) (hv : IsTermListOf vals P) (degree : Degree)
    (hdeg : degree.toWithBot = P.degree) (h4 : 4 ≤ P.natDegree)
    (hmono : P ≠ C P.leadingCoeff * X ^ P.natDegree) (hev : ∀ r, P.IsRoot r → eval r = 0)
    (fuel : Nat) (hf : P.natDegree + 1 ≤ fuel) :
    ∃ l, findRoots oracle rnd fuel vals degree eval = .ok (rootsAnswer P.natDegree l) ∧
      (l : Multiset ℝ) = P.roots := by
  obtain ⟨v, n0, ns, h1, h2, h3, h5, h6, h7⟩ := findRoots_reduce oracle rnd eval vals P hv degree hdeg h4 hmono fuel
  rw [h1]
  exact findRootsLoop_exact ho rnd eval P (by omega) hev fuel hf fuel v (n0 :: ns) [] 1 n0 ns rfl
    h3 one_ne_zero (by omega) h2 h5 (by rw [h6]; simp [rootsProd]) (by omega)

/-- The loop never answers "infinitely many roots". -/
theorem findRootsLoop_ne_infinite (oracle : List ℝ → List ℝ) (rnd eval : ℝ → ℝ) (degree : Degree) (fuel0 : Nat) :
    ∀ (fuel : Nat) (values nvalues roots : List ℝ),
    findRootsLoop oracle rnd eval degree fuel0 fuel values nvalues roots ≠ .ok .infiniteRoots := by
  intro fuel
  induction fuel with
  | zero => intro _ _ _ h; cases h
  | succ f ih =>
    intro values nvalues roots h
    unfold findRootsLoop at h
    obtain ⟨tail, _, h⟩ := Res.bind_eq_ok.1 h
    simp only at h
    split at h
    · split at h
      · split at h
        · cases h
        · split at h <;> cases h
      · cases h
    · obtain ⟨⟨roots', nv⟩, _, h⟩ := Res.bind_eq_ok.1 h
      simp only at h
      split at h
      · split at h <;> cases h
      · obtain ⟨nv', _, h⟩ := Res.bind_eq_ok.1 h
        split at h
        · cases h
        · obtain ⟨v', _, h⟩ := Res.bind_eq_ok.1 h
          exact ih _ _ _ h

/-! ### Termination and absence of panics for every answer of the external solver -/

/-- No leading zero. -/
def HeadNe (l : List ℝ) : Prop := ∃ c cs, l = c :: cs ∧ c ≠ 0

theorem divRoot_total (r : ℝ) (fuel : Nat) (values : List ℝ) (h : values = [] ∨ HeadNe values)
    (hf : values.length ≤ fuel) :
    ∃ q, divRoot fuel values r = .ok q ∧ (q = [] ∨ HeadNe q ∧ q.length + 1 ≤ values.length) := by
  rcases h with rfl | ⟨c, cs, rfl, hc⟩
  · exact ⟨[], rfl, .inl rfl⟩
  · have hft := firstTerm_cons hc cs
    by_cases h1 : cs.length = 1
    · rw [h1] at hft
      exact ⟨[], divRoot_one r fuel _ _ hft, .inl rfl⟩
    · obtain ⟨q, e, h2, h3, h4⟩ := divRoot_spec r fuel _ c _ hft h1 (by simpa using hf)
      refine ⟨q, h2, ?_⟩
      rcases Nat.eq_zero_or_pos cs.length with h0 | h0
      · left; exact List.length_eq_zero_iff.1 (by omega)
      · right
        have hq : descPoly q ≠ 0 := by
          intro hq
          have := descPoly_cons_degree cs hc
          rw [h4, hq, mul_zero, zero_add] at this
          have h5 := degree_C_le (a := e) (R := ℝ)
          rw [this] at h5
          have : cs.length ≤ 0 := by exact_mod_cast h5
          omega
        have hnd : (descPoly q).natDegree + 1 = cs.length := by
          have := natDegree_eq_of_degree_eq_some (descPoly_cons_degree cs hc)
          rw [h4, natDegree_add_C, natDegree_mul (X_sub_C_ne_zero r) hq, natDegree_X_sub_C] at this
          omega
        obtain ⟨a, as, rfl, ha⟩ := head_ne_of_length (l := q) (by omega)
        refine ⟨⟨a, as, rfl, ?_⟩, by rw [h3]; simp⟩
        rcases ha with ha | ha
        · exact ha
        · rw [ha] at h3; simp at h3; omega

theorem deflate_total (rnd eval : ℝ → ℝ) (fuel : Nat) : ∀ (temp roots nvalues : List ℝ),
    (nvalues = [] ∨ HeadNe nvalues) → nvalues.length ≤ fuel →
    ∃ nv, deflate rnd eval fuel temp roots nvalues = .ok (roots ++ temp.map (pickRoot rnd eval), nv) ∧
      (nv = [] ∨ HeadNe nv ∧ nv.length + temp.length ≤ nvalues.length) := by
  intro temp
  induction temp with
  | nil =>
    intro roots nvalues h _
    exact ⟨nvalues, by simp [deflate], h.imp id (fun h => ⟨h, by simp⟩)⟩
  | cons t temp ih =>
    intro roots nvalues h hf
    obtain ⟨q, h1, h2⟩ := divRoot_total (pickRoot rnd eval t) fuel nvalues h hf
    have hq : q.length ≤ nvalues.length := by
      rcases h2 with rfl | h2
      · simp
      · omega
    obtain ⟨nv, h3, h4⟩ := ih (roots ++ [pickRoot rnd eval t]) q (h2.imp id And.left) (by omega)
    refine ⟨nv, ?_, ?_⟩
    · show (divRoot fuel nvalues (pickRoot rnd eval t) >>= fun nv =>
        deflate rnd eval fuel temp (roots ++ [pickRoot rnd eval t]) nv) = _
      rw [h1, Res.ok_bind, h3]; simp
    · rcases h4 with h4 | ⟨h4, h5⟩
      · exact .inl h4
      · right
        refine ⟨h4, ?_⟩
        rcases h2 with rfl | h2
        · obtain ⟨_, _, rfl, _⟩ := h4
          simp at h5
        · rw [List.length_cons]; omega

theorem findRootsLoop_total (oracle : List ℝ → List ℝ) (rnd eval : ℝ → ℝ) (n : Nat) (fuel0 : Nat) :
    ∀ (fuel : Nat) (values nvalues roots : List ℝ), values ≠ [] → HeadNe nvalues →
    nvalues.length ≤ fuel0 → nvalues.length < fuel →
    ∃ l, findRootsLoop oracle rnd eval (.num n) fuel0 fuel values nvalues roots = .ok (.manyRealRoots l) ∨
      findRootsLoop oracle rnd eval (.num n) fuel0 fuel values nvalues roots = .ok (.onlyRealRoots l) ∨
      findRootsLoop oracle rnd eval (.num n) fuel0 fuel values nvalues roots = .ok .noRoots := by
  intro fuel
  induction fuel with
  | zero => intro _ _ _ _ _ _ h; omega
  | succ f ih =>
    intro values nvalues roots hv hn hf0 hf
    unfold findRootsLoop
    have hs : sliceFrom values 1 = .ok values.tail := by
      unfold sliceFrom
      rw [if_pos (by have := List.length_pos_of_ne_nil hv; omega), List.drop_one]
    rw [hs, Res.ok_bind]
    by_cases he : oracle values.tail = []
    · simp only [he, List.isEmpty_nil, if_true]
      refine ⟨roots, ?_⟩
      split
      · simp
      · split <;> simp
    · have he' : (oracle values.tail).isEmpty = false := by simpa using he
      simp only [he']
      rw [if_neg (by simp)]
      obtain ⟨nv, h1, h2⟩ := deflate_total rnd eval fuel0 (oracle values.tail) roots nvalues (.inr hn) hf0
      rw [h1, Res.ok_bind]
      rcases h2 with rfl | ⟨⟨c, cs, rfl, hc⟩, h3⟩
      · simp only [List.isEmpty_nil, if_true]
        split
        · exact ⟨[], by simp⟩
        · exact ⟨_, .inl rfl⟩
      · have hlen := List.length_pos_of_ne_nil he
        show ∃ l, (if (c :: cs).isEmpty = true then _ else _) = _ ∨
          (if (c :: cs).isEmpty = true then _ else _) = _ ∨ (if (c :: cs).isEmpty = true then _ else _) = _
        rw [if_neg (by simp), normalize_cons hc, Res.ok_bind]
        show ∃ l, (List.mapM (fun val => rdiv val (c / c)) ((c :: cs).map (· / c)) >>= fun values =>
            findRootsLoop oracle rnd eval (.num n) fuel0 f values _ _) = _ ∨
          (List.mapM (fun val => rdiv val (c / c)) ((c :: cs).map (· / c)) >>= fun values =>
            findRootsLoop oracle rnd eval (.num n) fuel0 f values _ _) = _ ∨
          (List.mapM (fun val => rdiv val (c / c)) ((c :: cs).map (· / c)) >>= fun values =>
            findRootsLoop oracle rnd eval (.num n) fuel0 f values _ _) = _
        rw [mapM_rdiv_real, Res.ok_bind]
        apply ih
        · simp
        · exact ⟨c / c, cs.map (· / c), rfl, by rw [div_self hc]; exact one_ne_zero⟩
        · simp at h3 ⊢; omega
        · simp at h3 ⊢; omega

end Rustnomial
