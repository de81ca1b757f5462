import Verif.Props.MachineBuild
import Verif.Props.CheckedAgree

/-!
# C102: what is printed can be parsed back on a machine
-/

open Polynomial

namespace Rustnomial

theorem joinToks_terms {t : IntTy} (uw : Nat) : ∀ (ts : List (Int × Nat)) (cur : List Char) (v : Int) (d : Nat),
    (∀ u ∈ ts, u.1 ≠ 0) → (∀ u ∈ ts, t.InRange u.1) → (∀ u ∈ ts, u.2 < 2 ^ uw) →
    (∀ ws, (∀ c ∈ ws, IsSep c) → Term.fromStr (parseInt t) uw (cur ++ ws) = .ok (.term v d)) →
    (joinToks cur (ts.map fun u => trailText u.1 u.2)).map (Term.fromStr (parseInt t) uw) =
      (Term.term v d :: ts.map fun u => Term.term u.1 u.2).map .ok
  | [], cur, v, d, _, _, _, hcur => by
    have := hcur [] (by simp)
    rw [List.append_nil] at this
    simp [joinToks, this]
  | u :: ts, cur, v, d, h0, hr, hd, hcur => by
    rw [List.map_cons, joinToks, List.map_cons, hcur [' '] (by simp [IsSep]),
      joinToks_terms uw ts _ u.1 u.2 (fun u hu => h0 u (by simp [hu])) (fun u hu => hr u (by simp [hu]))
        (fun u hu => hd u (by simp [hu]))
        (fun ws hws => trail_parse uw (hr u (by simp)) (h0 u (by simp)) (hd u (by simp)) ws hws)]
    rfl

/-- The text of a list of terms is made of tokens which are these terms, or the zero term if there are none. -/
theorem termsText_tokens {t : IntTy} (uw : Nat) (hb : 1 ≤ t.bits) {ts : List (Int × Nat)} (h : PrintableTerms t ts)
    (hd : ∀ u ∈ ts, u.2 < 2 ^ uw) : ∃ tks terms, IsTokenization (termsText ts) tks ∧
      tks.map (Term.fromStr (parseInt t) uw) = terms.map .ok ∧ pairsOf terms = ts := by
  cases ts with
  | nil =>
    have htok : IsTokenization ['0'] [['0']] :=
      ⟨rfl, .inl ⟨⟨[], '0', [], rfl, by simp, by decide, by simp⟩, by simp⟩⟩
    have h0 : t.InRange 0 := t.zero_inRange
    have hz := (C35_canonical (uw := uw) t 0 0 h0 (by positivity)).1
    have hsh : showInt 0 = ['0'] := by
      unfold showInt; rw [if_neg (by decide)]
      show showNat 0 = _
      rw [showNat]; rfl
    rw [hsh] at hz
    refine ⟨_, [.zeroTerm], htok, ?_, rfl⟩
    simp only [List.map_cons, List.map_nil, hz]
    rfl
  | cons u ts =>
    have hlead := fun ws hws => lead_parse uw (h.inRange u (by simp)) (h.nonzero u (by simp)) (hd u (by simp)) ws hws
    have htok := joinToks_tokenization (us := ts.map fun u => trailText u.1 u.2)
      (by have := lead_firstToken u.1 u.2 [] (by simp); rwa [List.append_nil] at this)
      (lead_firstToken u.1 u.2 [' '] (by rintro c hc; simp at hc; subst hc; rintro (h | h) <;> revert h <;> decide))
      (by intro v hv; obtain ⟨w, _, rfl⟩ := List.mem_map.1 hv; exact trail_signToken _ _)
    refine ⟨_, Term.term u.1 u.2 :: ts.map fun u => Term.term u.1 u.2, htok,
      joinToks_terms uw ts _ u.1 u.2 (fun u hu => h.nonzero u (by simp [hu])) (fun u hu => h.inRange u (by simp [hu]))
        (fun u hu => hd u (by simp [hu])) hlead, ?_⟩
    have : ∀ l : List (Int × Nat), pairsOf (l.map fun u => Term.term u.1 u.2) = l := by
      intro l
      induction l with
      | nil => rfl
      | cons x l ih => simp [pairsOf, ih]
    simp [pairsOf, this]

theorem pairsOf_prefix : ∀ {a b : List (Term Int)}, a <+: b → pairsOf a <+: pairsOf b
  | [], b, _ => by simp [pairsOf]
  | x :: a, [], h => by simp at h
  | x :: a, y :: b, h => by
    obtain ⟨rfl, h'⟩ := List.cons_prefix_cons.1 h
    have := pairsOf_prefix h'
    cases x with
    | zeroTerm => exact this
    | term c d => simpa [pairsOf] using this

/-- Of terms of distinct degrees, any sum of some has coefficients in range. -/
theorem prefix_inRange {t : IntTy} (h0 : t.InRange 0) {ts pre : List (Int × Nat)} (hd : ts.Pairwise fun u v => v.2 < u.2)
    (hr : ∀ u ∈ ts, t.InRange u.1) (hpre : pre <+: ts) (n : Nat) : t.InRange ((termsPoly pre).coeff n) := by
  have hd' : pre.Pairwise fun u v => v.2 < u.2 := hd.sublist hpre.sublist
  have hr' : ∀ u ∈ pre, t.InRange u.1 := fun u hu => hr u (hpre.subset hu)
  clear hd hr hpre
  induction pre with
  | nil => simpa using h0
  | cons u pre ih =>
    rw [termsPoly_cons, coeff_add, coeff_C_mul_X_pow]
    obtain ⟨h1, h2⟩ := List.pairwise_cons.1 hd'
    by_cases hn : n = u.2
    · have hz : (termsPoly pre).coeff n = 0 := by
        have : ∀ l : List (Int × Nat), (∀ v ∈ l, v.2 ≠ n) → (termsPoly l).coeff n = 0 := by
          intro l
          induction l with
          | nil => simp
          | cons v l ih =>
            intro hl
            rw [termsPoly_cons, coeff_add, coeff_C_mul_X_pow, if_neg (fun e => hl v (by simp) e.symm),
              ih (fun v hv => hl v (by simp [hv])), add_zero]
        exact this pre (fun v hv => by have := h1 v hv; omega)
      rw [if_pos hn, hz, add_zero]
      exact hr' u (by simp)
    · rw [if_neg hn, zero_add]
      exact ih h2 (fun u hu => hr' u (by simp [hu]))

theorem textFits_of_terms {t : IntTy} {uw : Nat} (h0 : t.InRange 0) {accepted : List (Term ℤ) → Prop} {room : Nat → Prop}
    {tks : List (List Char)} {terms : List (Term Int)} {ts : List (Int × Nat)}
    (hmap : tks.map (Term.fromStr (parseInt t) uw) = terms.map .ok) (hts : pairsOf terms = ts)
    (hd : ts.Pairwise fun u v => v.2 < u.2) (hr : ∀ u ∈ ts, t.InRange u.1) (hroom : ∀ u ∈ ts, room u.2) :
    TextFits t uw accepted room tks := by
  intro pre hpre terms' hterms' _
  have hpre' : terms' <+: terms := by
    have h1 := hpre.map (Term.fromStr (parseInt t) uw)
    rw [hterms', hmap] at h1
    obtain ⟨l, hl⟩ := h1
    have hlen := congrArg (List.take (terms'.length)) hl
    refine ⟨terms.drop terms'.length, ?_⟩
    have : terms' = terms.take terms'.length := by
      apply List.map_injective_iff.2 (fun a b h => by injection h : Function.Injective (Except.ok : Term Int → Except TermFromStringError (Term Int)))
      rw [List.map_take, ← hl]
      simp
    nth_rewrite 1 [this]
    exact List.take_append_drop _ _
  have hpp := pairsOf_prefix hpre'
  rw [hts] at hpp
  refine ⟨fun c d hm => hroom (c, d) (hpp.subset (mem_pairsOf.2 hm)), fun n => ?_⟩
  rw [← termsPoly_pairsOf]
  exact prefix_inRange h0 hd hr hpp n

section
variable (chk : Bool) (t : IntTy) (w cap : Nat) (hb : 1 ≤ t.bits) (h1 : t.InRange 1)
include hb h1

/-- What is parsed with overflow checks is parsed without them. -/
theorem parse_either {S : Type} [MutPolyM S] [MonoMutPoly S] {zero : S} {s : List Char} {v : Except PolynomialFromStringError S}
    (h : polyFromStrM (.machine true t w cap) zero (parseInt t) s = .ok v) :
    polyFromStrM (.machine chk t w cap) zero (parseInt t) s = .ok v := by
  cases chk with
  | true => exact h
  | false =>
    rw [(C103_build t hb w cap [] [] [] zero s).2.2.2.2.2 (by rw [h]; simp)]
    exact h

/-- C102 (Polynomial): printing a polynomial and parsing the text gives it back, whether the build checks for overflow or
not. -/
theorem C102_round_dense (hcap : cap < 2 ^ w) (p : Poly ℤ) (hP : Printable t (descPoly p.terms))
    (hd : (descPoly p.terms).degree < (cap : WithBot ℕ)) :
    ∃ str q, p.display (intFmt chk t) = .ok str ∧ Poly.fromStrM (.machine chk t w cap) t str = .ok (.ok q) ∧
      descPoly q.terms = descPoly p.terms := by
  have hl := (C03_dense_terms p).1
  have hp := printableTerms hl hP
  have hroom := terms_degree_lt hl hd
  have hw : ∀ u ∈ p.orderedTermIter, u.2 < 2 ^ w := fun u hu => (hroom u hu).trans hcap
  obtain ⟨tks, terms, htok, hmap, hpairs⟩ := termsText_tokens w hb hp hw
  obtain ⟨q, hq, hqp⟩ := (C32_dense_sink p.orderedTermIter [] Poly.zero).1
  have hideal := parse_termsText w Poly.zero q hp hb hw hq
  obtain ⟨r, hr, hfit, -⟩ := C102_parse_dense t w cap hcap h1 _ tks htok
  have hrq : r = .ok q := by
    have : Poly.fromStr (parseInt t) w (termsText p.orderedTermIter) = .ok (.ok q) := hideal
    rw [this] at hr; cases hr; rfl
  have hM := hfit (textFits_of_terms t.zero_inRange hmap hpairs hl.1 hp.inRange hroom)
  rw [hrq] at hM
  refine ⟨_, q, displayTerms_eq chk hb hp, parse_either chk t w cap hb h1 hM, ?_⟩
  rw [hqp, hl.termsPoly_eq]; simp [Poly.zero]

/-- C102 (SparsePolynomial). -/
theorem C102_round_sparse (p : Sparse ℤ) (hP : Printable t (entriesPoly p.terms.entries))
    (hd : (entriesPoly p.terms.entries).degree < ((2 ^ w : ℕ) : WithBot ℕ)) :
    ∃ str q, p.display (intFmt chk t) = .ok str ∧ Sparse.fromStrM (.machine chk t w cap) t str = .ok (.ok q) ∧
      entriesPoly q.terms.entries = entriesPoly p.terms.entries := by
  have hl := (C03_sparse_terms p).1
  have hp := printableTerms hl hP
  have hw := terms_degree_lt hl hd
  obtain ⟨tks, terms, htok, hmap, hpairs⟩ := termsText_tokens w hb hp hw
  obtain ⟨q, hq, hqp⟩ := (C32_sparse_sink p.orderedTermIter [] Sparse.zero).1
  have hideal := parse_termsText w Sparse.zero q hp hb hw hq
  obtain ⟨r, hr, hfit, -⟩ := C102_parse_sparse t w cap h1 _ tks htok
  have hrq : r = .ok q := by
    have : Sparse.fromStr (parseInt t) w (termsText p.orderedTermIter) = .ok (.ok q) := hideal
    rw [this] at hr; cases hr; rfl
  have hM := hfit (textFits_of_terms t.zero_inRange hmap hpairs hl.1 hp.inRange (fun _ _ => trivial))
  rw [hrq] at hM
  refine ⟨_, q, displayTerms_eq chk hb hp, parse_either chk t w cap hb h1 hM, ?_⟩
  have h0 : entriesPoly (Sparse.zero : Sparse ℤ).terms.entries = 0 := by show entriesPoly [] = 0; simp [entriesPoly]
  rw [hqp, hl.termsPoly_eq, h0, zero_add]

/-- C102 (Monomial). -/
theorem C102_round_monomial (p : Monomial ℤ) (hr : t.InRange p.coefficient) (hd : p.deg < 2 ^ w) :
    ∃ str q, p.display (intFmt chk t) = .ok str ∧ Monomial.fromStrM (.machine chk t w cap) t str = .ok (.ok q) ∧
      q.poly = p.poly := by
  obtain ⟨str, q, hstr, hq, hqp, -⟩ := C37_monomial chk t hb w p hr hd
  refine ⟨str, q, hstr, ?_, hqp⟩
  obtain ⟨ts, hp, hw, hdisp, hpw⟩ : ∃ ts : List (Int × Nat), PrintableTerms t ts ∧ (∀ u ∈ ts, u.2 < 2 ^ w) ∧
      p.display (intFmt chk t) = .ok (termsText ts) ∧ ts.Pairwise fun u v => v.2 < u.2 := by
    by_cases hc : p.coefficient = 0
    · refine ⟨[], ⟨by simp, by simp, by simp⟩, by simp, ?_, by simp⟩
      unfold Monomial.display Monomial.asTerm Term.new
      rw [if_pos (by simpa using hc)]; rfl
    · have hp : PrintableTerms t [(p.coefficient, p.deg)] := ⟨by simpa using hc, by simpa using hr, by simp⟩
      refine ⟨_, hp, by simpa using hd, ?_, by simp⟩
      rw [← displayTerms_eq chk hb hp]
      unfold Monomial.display Monomial.asTerm Term.new
      rw [if_neg (by simpa using hc)]
      simp [displayTerms, writeTrailingTerms]
  rw [hdisp] at hstr
  obtain rfl : termsText ts = str := by cases hstr; rfl
  obtain ⟨tks, terms, htok, hmap, hpairs⟩ := termsText_tokens w hb hp hw
  obtain ⟨r, hr', hfit, -⟩ := C102_parse_monomial t w cap h1 _ tks htok
  have hrq : r = .ok q := by
    rw [hq] at hr'; cases hr'; rfl
  have hM := hfit (textFits_of_terms t.zero_inRange hmap hpairs hpw hp.inRange (fun _ _ => trivial))
  rw [hrq] at hM
  exact parse_either chk t w cap hb h1 hM

/-- C102 (LinearBinomial). -/
theorem C102_round_linear (hw1 : 1 ≤ w) (p : LinearBinomial ℤ) (hP : Printable t p.poly) :
    ∃ str q, p.display (intFmt chk t) = .ok str ∧ LinearBinomial.fromStrM (.machine chk t w cap) t str = .ok (.ok q) ∧
      q.poly = p.poly := by
  obtain ⟨str, q, hstr, hq, hqp, -⟩ := C37_binomial_partial chk t hb w p hP hw1
  have hl := (C03_binomial_terms p).1
  have hp := printableTerms hl hP
  have hdeg : p.poly.degree < ((2 : ℕ) : WithBot ℕ) := by
    unfold LinearBinomial.poly
    exact lt_of_le_of_lt degree_linear_le (by decide)
  have hw : ∀ u ∈ p.orderedTermIter, u.2 < 2 ^ w := fun u hu =>
    lt_of_lt_of_le (terms_degree_lt hl hdeg u hu) (by
      calc 2 = 2 ^ 1 := rfl
        _ ≤ 2 ^ w := Nat.pow_le_pow_right (by norm_num) hw1)
  have hdisp : p.display (intFmt chk t) = .ok (termsText p.orderedTermIter) := displayTerms_eq chk hb hp
  refine ⟨str, q, hstr, ?_, hqp⟩
  rw [hdisp] at hstr
  obtain rfl : termsText p.orderedTermIter = str := by cases hstr; rfl
  obtain ⟨tks, terms, htok, hmap, hpairs⟩ := termsText_tokens w hb hp hw
  obtain ⟨r, hr', hfit, -⟩ := C102_parse_linear t w cap h1 _ tks htok
  have hrq : r = .ok q := by
    rw [hq] at hr'; cases hr'; rfl
  have hM := hfit (textFits_of_terms t.zero_inRange hmap hpairs hl.1 hp.inRange (fun _ _ => trivial))
  rw [hrq] at hM
  exact parse_either chk t w cap hb h1 hM

/-- C102 (QuadraticTrinomial). -/
theorem C102_round_quadratic (hw1 : 2 ≤ w) (p : QuadraticTrinomial ℤ) (hP : Printable t p.poly) :
    ∃ str q, p.display (intFmt chk t) = .ok str ∧ QuadraticTrinomial.fromStrM (.machine chk t w cap) t str = .ok (.ok q) ∧
      q.poly = p.poly := by
  obtain ⟨str, q, hstr, hq, hqp, -⟩ := C37_trinomial_partial chk t hb w p hP hw1
  have hl := (C03_trinomial_terms p).1
  have hp := printableTerms hl hP
  have hdeg : p.poly.degree < ((3 : ℕ) : WithBot ℕ) := by
    unfold QuadraticTrinomial.poly
    exact lt_of_le_of_lt degree_quadratic_le (by decide)
  have hw : ∀ u ∈ p.orderedTermIter, u.2 < 2 ^ w := fun u hu =>
    lt_of_lt_of_le (terms_degree_lt hl hdeg u hu) (by
      calc 3 ≤ 2 ^ 2 := by norm_num
        _ ≤ 2 ^ w := Nat.pow_le_pow_right (by norm_num) hw1)
  have hdisp : p.display (intFmt chk t) = .ok (termsText p.orderedTermIter) := displayTerms_eq chk hb hp
  refine ⟨str, q, hstr, ?_, hqp⟩
  rw [hdisp] at hstr
  obtain rfl : termsText p.orderedTermIter = str := by cases hstr; rfl
  obtain ⟨tks, terms, htok, hmap, hpairs⟩ := termsText_tokens w hb hp hw
  obtain ⟨r, hr', hfit, -⟩ := C102_parse_quadratic t w cap h1 _ tks htok
  have hrq : r = .ok q := by
    rw [hq] at hr'; cases hr'; rfl
  have hM := hfit (textFits_of_terms t.zero_inRange hmap hpairs hl.1 hp.inRange (fun _ _ => trivial))
  rw [hrq] at hM
  exact parse_either chk t w cap hb h1 hM

end

/-! ## The order of the terms -/

theorem termsPoly_nonneg {ts : List (Int × Nat)} (h : ∀ x ∈ ts, 0 ≤ x.1) (n : Nat) : 0 ≤ (termsPoly ts).coeff n := by
  induction ts with
  | nil => simp
  | cons u ts ih =>
    rw [termsPoly_cons, coeff_add, coeff_C_mul_X_pow]
    have h1 := ih (fun x hx => h x (by simp [hx]))
    have h2 := h u (by simp)
    split <;> omega

/-- C102: for an unsigned type only the sum of all terms has to fit, so their order does not matter. -/
theorem C102_unsigned_order (t : IntTy) (hs : t.signed = false) (P : ℤ[X]) (hP : ∀ n, t.InRange (P.coeff n))
    (ts ts' : List (ℤ × Nat)) (hts : ∀ x ∈ ts, t.InRange x.1) (hperm : ts.Perm ts') :
    (RunFits t P ts ↔ ∀ n, t.InRange ((P + termsPoly ts).coeff n)) ∧ (RunFits t P ts ↔ RunFits t P ts') := by
  have hr : ∀ v, t.InRange v ↔ 0 ≤ v ∧ v ≤ t.max := by
    intro v; simp [IntTy.InRange, IntTy.min, hs]
  have key : ∀ us : List (ℤ × Nat), (∀ x ∈ us, t.InRange x.1) → (RunFits t P us ↔ ∀ n, t.InRange ((P + termsPoly us).coeff n)) := by
    intro us hus
    refine ⟨fun h => h us (List.prefix_refl _), fun h pre hpre n => ?_⟩
    obtain ⟨suf, rfl⟩ := hpre
    have h1 := h n
    rw [termsPoly_append, ← add_assoc, coeff_add, hr] at h1
    have h2 := termsPoly_nonneg (ts := suf) (fun x hx => ((hr _).1 (hus x (by simp [hx]))).1) n
    have h3 := termsPoly_nonneg (ts := pre) (fun x hx => ((hr _).1 (hus x (by simp [hx]))).1) n
    have h4 := ((hr _).1 (hP n)).1
    rw [hr]
    refine ⟨by rw [coeff_add]; omega, by omega⟩
  have h1 := key ts hts
  have h2 := key ts' (fun x hx => hts x (hperm.mem_iff.2 hx))
  rw [← termsPoly_perm hperm] at h2
  exact ⟨h1, h1.trans h2.symm⟩

local instance : DecidableEq (BMap Int) := fun a b => decidable_of_iff (a.entries = b.entries) (by
  cases a; cases b; simp)

local instance : DecidableEq (Sparse Int) := fun a b => decidable_of_iff (a.terms = b.terms) (by cases a; cases b; simp)

local instance : DecidablePred IsSign := fun c => inferInstanceAs (Decidable (c = '+' ∨ c = '-'))

local instance (t : IntTy) (l : List Int) : Decidable (AllIn t l) := inferInstanceAs (Decidable (∀ x ∈ l, t.InRange x))

/-- C102: for a signed type the order matters, with checks: the sum fits in `i8` either way. -/
theorem C102_order_matters :
    Poly.fromStrM (.machine true ⟨true, 8⟩ 64 1000) ⟨true, 8⟩ "100x - 90x + 100x".toList = .ok (.ok ⟨[110, 0]⟩) ∧
    Poly.fromStrM (.machine true ⟨true, 8⟩ 64 1000) ⟨true, 8⟩ "100x + 100x - 90x".toList = .panic ∧
    Poly.fromStrM (.machine false ⟨true, 8⟩ 64 1000) ⟨true, 8⟩ "100x + 100x - 90x".toList = .ok (.ok ⟨[110, 0]⟩) := by
  decide +kernel

/-- C102: the text `x^n` of a huge degree is parsed by every type but the dense one, which panics in every build. -/
theorem C102_huge_degree (chk : Bool) :
    Poly.fromStrM (.machine chk ⟨true, 32⟩ 64 (2 ^ 61 - 1)) ⟨true, 32⟩ "x^18446744073709551615".toList = .panic ∧
    Poly.fromStrM (.machine chk ⟨true, 32⟩ 64 (2 ^ 61 - 1)) ⟨true, 32⟩ "x^2305843009213693951".toList = .panic ∧
    Sparse.fromStrM (.machine chk ⟨true, 32⟩ 64 (2 ^ 61 - 1)) ⟨true, 32⟩ "x^18446744073709551615".toList =
      .ok (.ok ⟨BMap.empty.insert 18446744073709551615 1⟩) ∧
    Monomial.fromStrM (.machine chk ⟨true, 32⟩ 64 (2 ^ 61 - 1)) ⟨true, 32⟩ "x^18446744073709551615".toList =
      .ok (.ok ⟨1, 18446744073709551615⟩) ∧
    Poly.fromStr (parseInt ⟨true, 32⟩) 64 "x^9".toList = .ok (.ok ⟨[1, 0, 0, 0, 0, 0, 0, 0, 0, 0]⟩) := by
  cases chk <;> refine ⟨?_, ?_, ?_, ?_, ?_⟩ <;> decide +kernel

/-! ## Cases -/

example : RunFits ⟨true, 8⟩ (descPoly [1, 0]) [(100, 1), (-30, 1), (50, 1)] :=
  (by_contra fun h => absurd ((C102_add_poly_dense ⟨true, 8⟩ 64 1000 (by norm_num) ⟨[1, 0]⟩ [(100, 1), (-30, 1), (50, 1)]
    (by decide) (by decide) (by decide)).2 fun h' => h h'.2) (by decide +kernel))

example : addPolyM (.machine true ⟨true, 8⟩ 64 1000) [(100, 1), (-30, 1), (50, 1)] (⟨[1, 0]⟩ : Poly Int) =
      .ok (⟨[121, 0]⟩, .ok ()) ∧
    addPolyM (.machine true ⟨true, 8⟩ 64 1000) [(100, 1), (50, 1), (-30, 1)] (⟨[1, 0]⟩ : Poly Int) = .panic ∧
    addPolyM (.machine true ⟨true, 8⟩ 64 1000) [(1, 1000)] (⟨[1, 0]⟩ : Poly Int) = .panic := by decide +kernel

example : addPolyM (.machine true ⟨true, 8⟩ 64 3) [(100, 9), (-30, 9), (50, 9)] (⟨BMap.empty.insert 9 1⟩ : Sparse Int) =
      .ok (⟨BMap.empty.insert 9 121⟩, .ok ()) ∧
    addPolyM (.machine true ⟨true, 8⟩ 64 3) [(100, 9), (50, 9), (-30, 9)] (⟨BMap.empty.insert 9 1⟩ : Sparse Int) = .panic := by
  decide +kernel

example : subPolyM (.machine true ⟨true, 8⟩ 64 1000) [(100, 2), (-128, 0)] (⟨[-28, 5, -1]⟩ : Poly Int) =
      .ok (⟨[-128, 5, 127]⟩, .ok ()) ∧
    subPolyM (.machine true ⟨true, 8⟩ 64 1000) [(100, 2), (-128, 0)] (⟨[-28, 5, 0]⟩ : Poly Int) = .panic ∧
    subPolyM (.machine true ⟨true, 8⟩ 64 1000) [(-128, 3)] (⟨.empty⟩ : Sparse Int) = .panic := by decide +kernel

example : Poly.fromTermsE (.machine true ⟨true, 8⟩ 64 1000) [(100, 1), (7, 0), (-100, 1), (90, 1)] = .ok ⟨[90, 7]⟩ ∧
    Poly.fromTermsE (.machine true ⟨true, 8⟩ 64 1000) [(100, 1), (7, 0), (90, 1), (-100, 1)] = .panic ∧
    Sparse.fromTermsM (.machine true ⟨true, 8⟩) [(100, 1), (7, 0), (90, 1), (-100, 1)] = .panic := by decide +kernel

example : mulPolyVecM (.machine true ⟨true, 8⟩ 64 4) [(3, 1), (-2, 0)] [(10, 2), (1, 0)] (Poly.zero : Poly Int) =
      .ok (⟨[30, -20, 3, -2]⟩, .ok ()) ∧
    mulPolyVecM (.machine true ⟨true, 8⟩ 64 3) [(3, 1), (-2, 0)] [(10, 2), (1, 0)] (Poly.zero : Poly Int) = .panic ∧
    mulPolyVecM (.machine true ⟨true, 8⟩ 64 3) [(3, 1), (-2, 0)] [(64, 2), (1, 0)] (Sparse.zero : Sparse Int) = .panic := by
  decide +kernel

example : polyAddM (.machine true ⟨true, 8⟩ 64 9) [[(100, 1)], [(-50, 1), (4, 0)], [(70, 1)]] = .ok ⟨[120, 4]⟩ ∧
    polyAddM (.machine true ⟨true, 8⟩ 64 9) [[(100, 1)], [(70, 1)], [(-50, 1), (4, 0)]] = .panic ∧
    polySubM (.machine true ⟨true, 8⟩ 64 9) [(100, 1)] [[(50, 1), (4, 0)], [(-70, 1)]] = .ok ⟨[120, -4]⟩ ∧
    polySubM (.machine true ⟨true, 8⟩ 64 9) [(100, 1)] [[(-70, 1)], [(50, 1), (4, 0)]] = .panic := by decide +kernel

example : LinearBinomial.fromStrM (.machine true ⟨true, 8⟩ 64 9) ⟨true, 8⟩ "100x - 9 + 27x".toList = .ok (.ok ⟨127, -9⟩) ∧
    LinearBinomial.fromStrM (.machine true ⟨true, 8⟩ 64 9) ⟨true, 8⟩ "100x - 9 + 28x".toList = .panic ∧
    LinearBinomial.fromStrM (.machine true ⟨true, 8⟩ 64 9) ⟨true, 8⟩ "100x - 9x^2 + 28x".toList =
      .ok (.error (.addingTerm .degreeOutOfBounds)) := by decide +kernel

example : QuadraticTrinomial.fromStrM (.machine true ⟨false, 8⟩ 64 9) ⟨false, 8⟩ "255x^2 + x".toList = .ok (.ok ⟨255, 1, 0⟩) ∧
    QuadraticTrinomial.fromStrM (.machine true ⟨false, 8⟩ 64 9) ⟨false, 8⟩ "255x^2 + x + x^2".toList = .panic ∧
    Monomial.fromStrM (.machine true ⟨true, 8⟩ 64 9) ⟨true, 8⟩ "100x^7 - x^7".toList = .ok (.ok ⟨99, 7⟩) ∧
    Monomial.fromStrM (.machine true ⟨true, 8⟩ 64 9) ⟨true, 8⟩ "100x^7 + 30x^7".toList = .panic := by decide +kernel

/-- The tokens of a text, and the text fits. -/
example : IsTokenization "100x - 9x".toList ["100x ".toList, "- 9x".toList] ∧
    TextFits ⟨true, 8⟩ 64 (fun _ => True) (· < 1000) ["100x ".toList, "- 9x".toList] := by
  have htok : IsTokenization "100x - 9x".toList ["100x ".toList, "- 9x".toList] := by
    refine ⟨by decide, .inl ⟨⟨[], '1', "00x ".toList, by decide, by simp, by decide, by decide⟩, ?_⟩⟩
    intro u hu
    obtain rfl : u = "- 9x".toList := by simpa using hu
    exact ⟨'-', " 9x".toList, by decide, by decide, by decide⟩
  refine ⟨htok, by_contra fun h => ?_⟩
  obtain ⟨r, hr, -, h2⟩ := C102_parse_dense ⟨true, 8⟩ 64 1000 (by norm_num) (by decide) _ _ htok
  exact absurd (h2 h) (by decide +kernel)

example : addPolyM (.machine false ⟨true, 8⟩ 64 1000) [(100, 1), (50, 1)] (⟨[1, 0]⟩ : Poly Int) = .ok (⟨[-105, 0]⟩, .ok ()) ∧
    addPolyM (.machine false ⟨true, 8⟩ 64 1000) [(1, 2 ^ 64 - 1)] (⟨[1, 0]⟩ : Poly Int) = .panic ∧
    addPolyM (.machine false ⟨true, 8⟩ 64 1000) [(100, 2 ^ 64 - 1), (100, 2 ^ 64 - 1)] (⟨.empty⟩ : Sparse Int) =
      .ok (⟨BMap.empty.insert (2 ^ 64 - 1) (-56)⟩, .ok ()) := by decide +kernel

example : (⟨[3, 0, -5]⟩ : Poly Int).display (intFmt true ⟨true, 8⟩) = .ok "3x^2 - 5".toList ∧
    Poly.fromStrM (.machine true ⟨true, 8⟩ 64 1000) ⟨true, 8⟩ "3x^2 - 5".toList = .ok (.ok ⟨[3, 0, -5]⟩) ∧
    Poly.fromStrM (.machine false ⟨true, 8⟩ 64 1000) ⟨true, 8⟩ "3x^2 - 5".toList = .ok (.ok ⟨[3, 0, -5]⟩) := by decide +kernel

example : Sparse.fromStrM (.machine true ⟨true, 8⟩ 64 1000) ⟨true, 8⟩ "3x^2 - 5".toList =
      .ok (.ok ⟨(BMap.empty.insert 2 3).insert 0 (-5)⟩) ∧
    LinearBinomial.fromStrM (.machine true ⟨true, 8⟩ 64 1000) ⟨true, 8⟩ "-128x - 5".toList = .ok (.ok ⟨-128, -5⟩) ∧
    QuadraticTrinomial.fromStrM (.machine true ⟨true, 8⟩ 64 1000) ⟨true, 8⟩ "3x^2 - 5".toList = .ok (.ok ⟨3, 0, -5⟩) ∧
    Monomial.fromStrM (.machine true ⟨true, 8⟩ 64 1000) ⟨true, 8⟩ "-128x^2".toList = .ok (.ok ⟨-128, 2⟩) := by decide +kernel

end Rustnomial
