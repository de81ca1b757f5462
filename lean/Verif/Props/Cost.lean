import Verif.Model.Cost
import Verif.Props.DenseDiv
import Mathlib.Algebra.Polynomial.EraseLead
import Mathlib.Data.Nat.Digits.Defs

/-!
# C97: the number of operations
-/

set_option linter.unusedSectionVars false

open Polynomial

namespace Rustnomial

/-- The number of ones in the binary digits of `n`. -/
def ones (n : Nat) : Nat := (Nat.digits 2 n).sum

theorem ones_two_mul {n : Nat} (h : n ≠ 0) : ones (2 * n) = ones n := by
  unfold ones
  rw [Nat.digits_def' (by norm_num) (by omega)]
  simp

theorem ones_odd (n : Nat) : ones (2 * n + 1) = ones n + 1 := by
  unfold ones
  rw [Nat.digits_def' (by norm_num) (by omega)]
  have h1 : (2 * n + 1) % 2 = 1 := by omega
  have h2 : (2 * n + 1) / 2 = n := by omega
  rw [h1, h2, List.sum_cons, Nat.add_comm]

theorem log_two_mul {n : Nat} (h : n ≠ 0) : Nat.log 2 (2 * n) = Nat.log 2 n + 1 := by
  rw [Nat.mul_comm, Nat.log_mul_base (by norm_num) h]

theorem log_odd {n : Nat} (h : n ≠ 0) : Nat.log 2 (2 * n + 1) = Nat.log 2 n + 1 := by
  rw [Nat.log_of_one_lt_of_le (by norm_num) (by omega)]
  have : (2 * n + 1) / 2 = n := by omega
  rw [this]

theorem ones_le {n k : Nat} (h : n < 2 ^ k) : ones n ≤ k := by
  induction k generalizing n with
  | zero => have : n = 0 := by omega
            subst this; simp [ones]
  | succ k ih =>
    rcases Nat.even_or_odd' n with ⟨m, rfl | rfl⟩
    · rcases Nat.eq_zero_or_pos m with rfl | hm
      · simp [ones]
      · rw [ones_two_mul (by omega)]
        have := ih (n := m) (by rw [pow_succ] at h; omega)
        omega
    · rw [ones_odd]
      have := ih (n := m) (by rw [pow_succ] at h; omega)
      omega

theorem ones_pos {m : Nat} (hm : m ≠ 0) : 1 ≤ ones m := by
  induction m using Nat.strong_induction_on with
  | _ m ih =>
    rcases Nat.even_or_odd' m with ⟨k, rfl | rfl⟩
    · rw [ones_two_mul (by omega)]; exact ih k (by omega) (by omega)
    · rw [ones_odd]; omega

/-- Products that square-and-multiply needs for the `n`-th power. -/
def squareMultiply (n : Nat) : Nat := Nat.log 2 n + ones n - 1

theorem squareMultiply_even {n : Nat} (h : 2 ≤ n) (he : n % 2 = 0) : squareMultiply n = squareMultiply (n / 2) + 1 := by
  obtain ⟨m, rfl⟩ : ∃ m, n = 2 * m := ⟨n / 2, by omega⟩
  have hm : m ≠ 0 := by omega
  have h1 : 2 * m / 2 = m := by omega
  rw [h1]
  unfold squareMultiply
  rw [log_two_mul hm, ones_two_mul hm]
  have := ones_pos hm
  omega

theorem squareMultiply_odd {n : Nat} (h : 3 ≤ n) (ho : n % 2 = 1) :
    squareMultiply n = squareMultiply (n - 1) + 1 := by
  obtain ⟨m, rfl⟩ : ∃ m, n = 2 * m + 1 := ⟨n / 2, by omega⟩
  have hm : m ≠ 0 := by omega
  unfold squareMultiply
  rw [Nat.add_sub_cancel, log_two_mul hm, ones_two_mul hm, log_odd hm, ones_odd]
  have := ones_pos hm
  omega

theorem squareMultiply_pos {n : Nat} (h : 2 ≤ n) : 1 ≤ squareMultiply n := by
  have h1 := Nat.log_pos (b := 2) (by norm_num) h
  have h2 := ones_pos (m := n) (by omega)
  unfold squareMultiply
  omega

section
variable {N : Type} [Zero N] [NumZero N] [Add N] [Mul N] [One N]

theorem powC_eq (p : Poly N) (n : Nat) :
    p.powC n = (p.pow n).bind fun r => .ok (r, squareMultiply n, max 1 (squareMultiply n)) := by
  induction n using Nat.strong_induction_on generalizing p with
  | _ n ih =>
    rw [Poly.powC, Poly.pow]
    by_cases h0 : n = 0
    · subst h0; simp [squareMultiply, ones, Res.bind]
    by_cases h1 : n = 1
    · subst h1; simp [squareMultiply, ones, Res.bind]
    have s2 : squareMultiply 2 = 1 := by decide
    by_cases h2 : n = 2
    · subst h2
      simp only [OfNat.ofNat_ne_zero, OfNat.ofNat_ne_one, if_false, if_true, s2]
      cases p.mulRef p <;> rfl
    rw [if_neg h0, if_neg h1, if_neg h2, if_neg h0, if_neg h1, if_neg h2]
    by_cases he : n % 2 = 0
    · rw [if_pos he, if_pos he, ih _ (by omega), squareMultiply_even (by omega) he]
      cases hp : p.pow (n / 2) with
      | ok h =>
        simp only [Res.bind, Res.ok_bind]
        rw [ih 2 (by omega), s2]
        cases h.pow 2 with
        | ok r =>
          simp only [Res.bind, Res.ok_bind, Res.ok.injEq, Prod.mk.injEq, true_and]
          have := squareMultiply_pos (n := n / 2) (by omega)
          omega
        | _ => rfl
      | _ => rfl
    · rw [if_neg he, if_neg he, ih _ (by omega), squareMultiply_odd (n := n) (by omega) (by omega)]
      cases hp : p.pow (n - 1) with
      | ok h =>
        simp only [Res.bind, Res.ok_bind]
        cases p.mulRef h with
        | ok r =>
          simp only [Res.ok_bind, Res.ok.injEq, Prod.mk.injEq, true_and]
          have := squareMultiply_pos (n := n - 1) (by omega)
          omega
        | _ => rfl
      | _ => rfl

theorem sparse_powC_eq (p : Sparse N) (n : Nat) :
    p.powC n = (p.pow n, squareMultiply n, max 1 (squareMultiply n)) := by
  induction n using Nat.strong_induction_on generalizing p with
  | _ n ih =>
    rw [Sparse.powC, Sparse.pow]
    by_cases h0 : n = 0
    · subst h0; simp [squareMultiply, ones]
    by_cases h1 : n = 1
    · subst h1; simp [squareMultiply, ones]
    have s2 : squareMultiply 2 = 1 := by decide
    by_cases h2 : n = 2
    · subst h2
      simp [s2]
    rw [if_neg h0, if_neg h1, if_neg h2, if_neg h0, if_neg h1, if_neg h2]
    by_cases he : n % 2 = 0
    · rw [if_pos he, if_pos he, ih _ (by omega), squareMultiply_even (by omega) he]
      simp only
      rw [ih 2 (by omega), s2]
      simp only [Prod.mk.injEq, true_and]
      have := squareMultiply_pos (n := n / 2) (by omega)
      omega
    · rw [if_neg he, if_neg he, ih _ (by omega), squareMultiply_odd (n := n) (by omega) (by omega)]
      simp only [Prod.mk.injEq, true_and]
      have := squareMultiply_pos (n := n - 1) (by omega)
      omega

/-- C97: `pow` of `Polynomial` and `SparsePolynomial` forms `⌊log₂ n⌋ + (ones of n) - 1` products of polynomials, with
that many calls active at most; for any `usize` exponent at most 126 of either. -/
theorem C97_pow (p : Poly N) (s : Sparse N) (n : Nat) :
    (∀ r, p.pow n = .ok r → ∃ m d, p.powC n = .ok (r, m, d) ∧ m = Nat.log 2 n + (Nat.digits 2 n).sum - 1 ∧
      d = max 1 m ∧ (n < 2 ^ 64 → m ≤ 126 ∧ d ≤ 126)) ∧
    (p.pow n = .panic ↔ p.powC n = .panic) ∧
    ∃ m d, s.powC n = (s.pow n, m, d) ∧ m = Nat.log 2 n + (Nat.digits 2 n).sum - 1 ∧
      d = max 1 m ∧ (n < 2 ^ 64 → m ≤ 126 ∧ d ≤ 126) := by
  have hb : n < 2 ^ 64 → squareMultiply n ≤ 126 ∧ max 1 (squareMultiply n) ≤ 126 := by
    intro h
    have h1 := ones_le h
    have h2 : Nat.log 2 n < 64 := by
      rcases Nat.eq_zero_or_pos n with rfl | hn
      · simp
      · exact (Nat.log_lt_iff_lt_pow (by norm_num) (by omega)).2 h
    unfold squareMultiply
    omega
  refine ⟨fun r hr => ⟨_, _, by rw [powC_eq, hr]; rfl, rfl, rfl, hb⟩, ?_, ⟨_, _, sparse_powC_eq s n, rfl, rfl, hb⟩⟩
  rw [powC_eq]
  cases p.pow n <;> simp [Res.bind]

omit [One N] in
theorem sliceMulLoopC_eq (lhs : List N) : ∀ (rest : List N) (index : Nat) (terms : List N) (n : Nat),
    index + rest.length + lhs.length ≤ terms.length + 1 →
    sliceMulLoopC lhs rest index terms n = (sliceMulLoop lhs rest index terms).bind fun t =>
      .ok (t, n + (rest.filter fun c => !isZero c).length * lhs.length)
  | [], index, terms, n, _ => by simp [sliceMulLoopC, sliceMulLoop, Res.bind]
  | r :: rest, index, terms, n, h => by
    simp only [List.length_cons] at h
    unfold sliceMulLoopC sliceMulLoop sliceMulStep
    by_cases hr : isZero r = true
    · rw [if_pos hr, if_pos hr, Res.ok_bind, sliceMulLoopC_eq lhs rest _ _ _ (by omega), List.filter_cons_of_neg (by simpa using hr)]
    · have hi : index ≤ terms.length := by
        rcases lhs with _ | ⟨a, l⟩
        · simp at h; omega
        · simp at h; omega
      have hs : sliceFrom terms index = .ok (terms.drop index) := by simp [sliceFrom, hi]
      rw [if_neg hr, if_neg hr, hs, Res.ok_bind, Res.ok_bind, Res.ok_bind,
        sliceMulLoopC_eq lhs rest _ _ _ (by simp; omega), List.filter_cons_of_pos (by simpa using hr)]
      have : min (terms.drop index).length lhs.length = lhs.length := by simp; omega
      rw [this, List.length_cons]
      congr 1
      funext t
      rw [Nat.add_assoc, Nat.add_mul, Nat.one_mul, Nat.add_comm lhs.length]

omit [One N] in
/-- C97: the product of dense polynomials multiplies (and adds) coefficients once for every non-zero coefficient of the
right factor and every coefficient of the left one, leading zeros not counted. -/
theorem C97_dense_mul (l r : List N) :
    sliceMulC l r = (sliceMul l r).bind fun t =>
      .ok (t, (r.filter fun c => !isZero c).length * (l.dropWhile isZero).length) := by
  unfold sliceMulC sliceMul
  have hs : ∀ x : List N, sliceFrom x (firstNonzeroIndex x) = .ok (x.dropWhile isZero) := by
    intro x
    have := firstNonzeroIndex_add x
    rw [← drop_firstNonzeroIndex]
    unfold sliceFrom
    rw [if_pos (by omega)]
  rw [hs, hs]
  simp only [Res.ok_bind]
  unfold usub
  split
  · simp only [Res.ok_bind]
    rw [sliceMulLoopC_eq _ _ _ _ _ (by simp; omega)]
    have hf : ∀ x : List N, (x.dropWhile isZero).filter (fun c => !isZero c) = x.filter fun c => !isZero c := by
      intro x
      induction x with
      | nil => rfl
      | cons a x ih =>
        by_cases ha : isZero a = true
        · rw [List.dropWhile_cons_of_pos ha, ih, List.filter_cons_of_neg (by simpa using ha)]
        · rw [List.dropWhile_cons_of_neg ha]
    rw [hf, Nat.zero_add]
  · rfl

omit [One N] in
theorem mapMulInnerC_eq (d : Nat) (c : N) : ∀ (l : List (Nat × N)) (s : BMap N × Nat),
    mapMulInnerC d c l s = (mapMulInner d c l s.1, s.2 + l.length)
  | [], s => rfl
  | e :: l, s => by
    have := mapMulInnerC_eq d c l (s.1.upsert (d + e.1) (c * e.2) (· + c * e.2), s.2 + 1)
    unfold mapMulInnerC mapMulInner at *
    rw [List.foldl_cons, this, List.foldl_cons, List.length_cons]
    simp only [Prod.mk.injEq, true_and]
    omega

omit [One N] in
/-- C97: the product of sparse polynomials multiplies coefficients once for every non-zero entry of the right factor and
every entry of the left one. -/
theorem C97_sparse_mul (l r : BMap N) :
    mapMulC l r = (mapMul l r, (r.entries.filter fun e => !isZero e.2).length * l.entries.length) := by
  have : ∀ (es : List (Nat × N)) (s : BMap N × Nat),
      es.foldl (fun s e => if isZero e.2 then s else mapMulInnerC e.1 e.2 l.entries s) s =
        (es.foldl (fun terms e => if isZero e.2 then terms else mapMulInner e.1 e.2 l.entries terms) s.1,
          s.2 + (es.filter fun e => !isZero e.2).length * l.entries.length) := by
    intro es
    induction es with
    | nil => intro s; simp
    | cons e es ih =>
      intro s
      rw [List.foldl_cons, ih, List.foldl_cons]
      by_cases he : isZero e.2 = true
      · rw [if_pos he, if_pos he, List.filter_cons_of_neg (by simpa using he)]
      · rw [if_neg he, if_neg he, List.filter_cons_of_pos (by simpa using he), mapMulInnerC_eq, List.length_cons]
        simp only [Prod.mk.injEq, true_and]
        rw [Nat.add_mul]
        omega
  exact (this r.entries (.empty, 0)).trans (by rw [Nat.zero_add]; rfl)

omit [One N] in
/-- C97: `eval` of a polynomial with `n` stored coefficients multiplies `n - 1` times (as its comment says), or not at
all at the point zero. -/
theorem C97_eval (p : Poly N) (x : N) :
    p.evalC x = (p.eval x, if isZero x then 0 else p.terms.length - 1) := by
  have : ∀ (l : List N) (s : N × Nat), l.foldl (fun s val => ((s.1 + val) * x, s.2 + 1)) s =
      (l.foldl (fun sum val => (sum + val) * x) s.1, s.2 + l.length) := by
    intro l
    induction l with
    | nil => intro s; rfl
    | cons a l ih =>
      intro s
      rw [List.foldl_cons, ih, List.foldl_cons, List.length_cons]
      simp only [Prod.mk.injEq, true_and]
      omega
  unfold Poly.evalC Poly.eval
  cases h : p.terms.getLast? with
  | none => rw [List.getLast?_eq_none_iff] at h; simp [h]
  | some last =>
    by_cases hx : isZero x = true
    · simp [hx]
    · simp [hx, this]

end

section
variable {R : Type} [CommRing R] [NumZero R] [LawfulNumZero R] [RDiv R]

theorem vecSubWScaleC_ok {rem b : List R} {c rf : R} {sd rd : Nat} (s : R)
    (hr : firstTerm rem = .term c sd) (hb : firstTerm b = .term rf rd) (h : rd ≤ sd) :
    vecSubWScaleC rem sd b rd s = (vecSubWScale rem sd b rd s).bind fun r => .ok (r, rd + 1) := by
  obtain ⟨vs, r1, r2, r3, r4, _⟩ := firstTerm_term hr
  obtain ⟨ws, b1, b2, b3, b4, _⟩ := firstTerm_term hb
  rw [vecSubWScale_ok s r3 b3]
  have e1 : sd ≤ rem.length := by omega
  have e2 : 1 ≤ rem.length - sd := by omega
  have e3 : rem.length - sd - 1 ≤ rem.length := by omega
  have e4 : rd ≤ b.length := by omega
  have e5 : 1 ≤ b.length - rd := by omega
  have e6 : b.length - rd - 1 ≤ b.length := by omega
  simp [vecSubWScaleC, usub, sliceFrom, e1, e2, e3, e4, e5, e6, Res.bind]
  omega

theorem divModLoopC_ok [IsDomain R] {b : List R} {rf : R} {rd offset : Nat}
    (hb : firstTerm b = .term rf rd) (hdiv : ∀ x, rdiv (rf * x) rf = .ok x) :
    ∀ (fuel : Nat) (c : R) (sd : Nat) (rem div : List R) (nd nm : Nat) (Q T : R[X]),
    firstTerm rem = .term c sd → sd ≤ offset → sd + 2 ≤ fuel + rd →
    (rd ≤ sd → div.length = offset - rd + 1) →
    descPoly rem = Q * descPoly b + T → T.degree < (descPoly b).degree →
    1 ≤ fuel →
    Poly.divModLoopC b rf rd offset fuel c sd rem div nd nm =
      (Poly.divModLoop b rf rd offset fuel c sd rem div).bind fun x =>
        .ok (x.1, x.2, nd + Q.support.card, nm + Q.support.card * (rd + 1)) := by
  obtain ⟨hrf, hbd, hbl⟩ := firstTerm_poly hb
  intro fuel
  induction fuel with
  | zero => intros; omega
  | succ fuel ih =>
    intro c sd rem div nd nm Q T hr hoff hfuel hlen hQ hT _
    obtain ⟨hc, hrd, hrl⟩ := firstTerm_poly hr
    unfold Poly.divModLoopC Poly.divModLoop
    by_cases hle : rd ≤ sd
    · rw [if_pos hle, if_pos hle]
      have hlead := leading_dvd hrd hrl hbd hbl hle hQ hT
      obtain ⟨rem', hv, hvl, hvp⟩ := vecSubWScale_poly Q.leadingCoeff hr hb hle
      have hu : usub offset sd = .ok (offset - sd) := by simp [usub, hoff]
      have hi : offset - sd < div.length := by rw [hlen hle]; omega
      have hQ0 : Q ≠ 0 := by
        rintro rfl
        rw [leadingCoeff_zero, mul_zero] at hlead
        exact hc hlead
      have hnat : Q.natDegree = sd - rd := by
        have hb0 : descPoly b ≠ 0 := by intro h; rw [h] at hbd; simp at hbd
        have h1 : T.degree < (Q * descPoly b).degree := by
          refine lt_of_lt_of_le hT ?_
          rw [degree_mul]
          calc (descPoly b).degree = 0 + (descPoly b).degree := (zero_add _).symm
            _ ≤ _ := by gcongr; exact zero_le_degree_iff.2 hQ0
        have h2 : (descPoly rem).degree = (Q * descPoly b).degree := by rw [hQ, degree_add_eq_left_of_degree_lt h1]
        rw [hrd, degree_mul, hbd, degree_eq_natDegree hQ0] at h2
        have h3 : sd = Q.natDegree + rd := by exact_mod_cast h2
        omega
      have herase : Q - C Q.leadingCoeff * X ^ (sd - rd) = Q.eraseLead := by
        rw [← hnat, self_sub_C_mul_X_pow]
      have hcard : Q.support.card = Q.eraseLead.support.card + 1 := (card_support_eraseLead_add_one hQ0).symm
      rw [show rdiv c rf = .ok Q.leadingCoeff by rw [hlead, hdiv], Res.ok_bind, Res.ok_bind, vecSubWScaleC_ok _ hr hb hle,
        hv]
      simp only [Res.ok_bind, hu, hi, if_true, Res.bind]
      have hQ' : descPoly rem' = Q.eraseLead * descPoly b + T := by
        rw [hvp, hQ, ← herase]; ring
      have hdeg := degree_step hrd hrl hbd hbl hle hlead
      rw [← hvp] at hdeg
      cases hf : firstTerm rem' with
      | zeroTerm =>
        have h0 := firstTerm_zero_poly.1 hf
        have hu := divmod_unique hQ' hT (Q' := 0) (T' := 0) (by rw [h0]; simp)
          (by rw [hbd]; exact WithBot.bot_lt_coe _)
        rw [hu.1] at hcard
        simp at hcard
        simp [hcard]
      | term c' sd' =>
        obtain ⟨hc', hrd', _⟩ := firstTerm_poly hf
        rw [hrd'] at hdeg
        have hlt : sd' < sd := by exact_mod_cast hdeg
        simp only
        rw [ih c' sd' rem' (div.set (offset - sd) Q.leadingCoeff) _ _ Q.eraseLead T hf (by omega) (by omega)
          (fun _ => by rw [List.length_set]; exact hlen hle) hQ' hT (by omega), hcard]
        cases Poly.divModLoop b rf rd offset fuel c' sd' rem' (div.set (offset - sd) Q.leadingCoeff) with
        | ok x =>
          simp only [Res.bind, Res.ok.injEq, Prod.mk.injEq, true_and]
          constructor
          · omega
          · ring
        | _ => rfl
    · rw [if_neg hle, if_neg hle]
      have hlt : (descPoly rem).degree < (descPoly b).degree := by
        rw [hrd, hbd]; exact_mod_cast Nat.lt_of_not_le hle
      have hu := divmod_unique hQ hT (Q' := 0) (T' := descPoly rem) (by simp) hlt
      rw [hu.1]
      simp [Res.bind]

end

section
variable {K : Type} [Field K] [NumZero K] [LawfulNumZero K] [RDiv K] [LawfulRDiv K]

/-- C97: over a field `div_mod` divides coefficients as often as the quotient has terms, which is at most
`deg p - deg b + 1` times, and for each of them it multiplies `deg b + 1` times. -/
theorem C97_div_mod (p b : Poly K) (hb : descPoly b.terms ≠ 0) (fuel : Nat) (hf : p.terms.length + 1 ≤ fuel) :
    ∃ q r nd nm, p.divMod fuel b = .ok (q, r) ∧ p.divModC fuel b = .ok ((q, r), nd, nm) ∧
      nd = (descPoly q.terms).support.card ∧ nm = nd * ((descPoly b.terms).natDegree + 1) ∧
      nd ≤ (descPoly p.terms).natDegree + 1 - (descPoly b.terms).natDegree := by
  obtain ⟨q, r, h1, h2, h3, h4, h5⟩ := C20_dense_div_mod p b hb fuel hf
  have hle : (descPoly q.terms).support.card ≤ (descPoly p.terms).natDegree + 1 - (descPoly b.terms).natDegree := by
    by_cases hq : descPoly q.terms = 0
    · simp [hq]
    have hdeg : (descPoly b.terms).degree ≤ (descPoly p.terms).degree := by
      by_contra hlt
      exact hq (h4.trans ((Polynomial.div_eq_zero_iff hb).2 (not_le.1 hlt)))
    have h6 := degree_add_div hb hdeg
    have hp0 : descPoly p.terms ≠ 0 := by
      intro h0
      rw [h0, degree_zero, le_bot_iff, degree_eq_bot] at hdeg
      exact hb hdeg
    rw [← h4, degree_eq_natDegree hb, degree_eq_natDegree hq, degree_eq_natDegree hp0] at h6
    have h7 : (descPoly b.terms).natDegree + (descPoly q.terms).natDegree = (descPoly p.terms).natDegree := by
      exact_mod_cast h6
    have := card_supp_le_succ_natDegree (descPoly q.terms)
    omega
  refine ⟨q, r, _, _, h1, ?_, rfl, rfl, hle⟩
  have hQ := h2
  unfold Poly.divMod at h1
  unfold Poly.divModC
  cases hbf : firstTerm b.terms with
  | zeroTerm => exact absurd (firstTerm_zero_poly.1 hbf) hb
  | term rf rd =>
    obtain ⟨_, hbd, _⟩ := firstTerm_poly hbf
    rw [hbf] at h1
    cases hpf : firstTerm p.terms with
    | zeroTerm =>
      simp only [hpf] at h1 ⊢
      cases h1
      simp [Poly.zero]
    | term c d =>
      simp only [hpf] at h1 ⊢
      by_cases hlt : d < rd
      · rw [if_pos hlt] at h1 ⊢
        cases h1
        simp [Poly.zero]
      · rw [if_neg hlt] at h1 ⊢
        have hd1 := (firstTerm_term hpf).choose_spec.2.2.1
        rw [divModLoopC_ok hbf (field_rdiv_mul b rf rd hbf) fuel c d p.terms _ 0 0 _ _ hpf le_rfl (by omega)
          (fun _ => by simp) hQ h3 (by omega)]
        cases hl : Poly.divModLoop b.terms rf rd d fuel c d p.terms (List.replicate (d - rd + 1) 0) with
        | ok x =>
          rw [hl] at h1
          simp only [Res.ok_bind, Res.ok.injEq, Prod.mk.injEq] at h1
          obtain ⟨rfl, rfl⟩ := h1
          simp [Res.bind, natDegree_eq_of_degree_eq_some hbd]
        | _ => rw [hl] at h1; cases h1

example : (⟨[2, 0, 1]⟩ : Poly ℚ).powC 13 = ((⟨[2, 0, 1]⟩ : Poly ℚ).pow 13).bind fun r => .ok (r, 5, 5) := by decide +kernel
example : sliceMulC ([0, 1, 2] : List ℤ) [0, 3, 0, 5] = .ok ([3, 6, 5, 10], 4) := by decide
example : (mapMulC (Sparse.fromVec ([1, 2] : List ℤ)).terms (Sparse.fromVec [3, 0, 0, 5]).terms).2 = 4 := by decide
example : (⟨[1, 2, 3]⟩ : Poly ℤ).evalC 2 = (11, 2) := by decide
example : (⟨[1, 0, 0, 1]⟩ : Poly ℚ).divModC 5 ⟨[1, 1]⟩ = .ok ((⟨[1, -1, 1]⟩, ⟨[]⟩), 3, 6) := by decide +kernel

end

end Rustnomial
