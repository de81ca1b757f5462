import Verif.Props.Display

/-!
# C37: polynomials that cannot be printed and read back

With a coefficient equal to `MIN` below the leading one, printing panics with overflow checks; without them it prints a
text that no longer parses.  With `C37_*_partial` this is the complete outcome of printing and reading back.
-/

open Polynomial

namespace Rustnomial

/-- A term of `MIN` prints as ` - -MIN`: the pieces between the blanks that start a token. -/
def minPieces (t : IntTy) (u : Int × Nat) : List (List Char) :=
  if u.1 = t.min then [['-'], '-' :: (showNat u.1.natAbs ++ degPart u.2)] else [trailText u.1 u.2]

theorem min_neg {t : IntTy} (hs : t.signed = true) : t.min < 0 := by
  simp only [IntTy.min, hs, if_true, Left.neg_neg_iff]; positivity

theorem absInt_min (chk : Bool) {t : IntTy} (hb : 1 ≤ t.bits) (hs : t.signed = true) :
    absInt chk t t.min = if chk then .panic else .ok t.min := by
  have hn : ¬ t.InRange |t.min| := by
    rintro ⟨_, h⟩
    simp only [IntTy.min, IntTy.max, hs, if_true, abs_neg] at h
    rw [abs_of_nonneg (by positivity)] at h
    omega
  unfold absInt
  rw [if_pos hs]
  cases chk with
  | true => simp [IntTy.checked, hn]
  | false =>
    simp only [Bool.false_eq_true, if_false]
    have hmin : t.InRange t.min := by
      have := min_neg hs
      refine ⟨le_rfl, ?_⟩
      simp only [IntTy.min, IntTy.max, hs, if_true] at *
      omega
    have h2 : |t.min| = t.min + 2 ^ t.bits := by
      rw [abs_of_neg (min_neg hs)]
      simp only [IntTy.min, hs, if_true]
      obtain ⟨b, hb'⟩ : ∃ b, t.bits = b + 1 := ⟨t.bits - 1, by omega⟩
      rw [hb', Nat.add_sub_cancel, pow_succ]
      ring
    have h3 : t.wrap (t.min + 2 ^ t.bits) = t.wrap t.min := by
      unfold IntTy.wrap
      simp only [hs, if_true]
      have : (2 ^ t.bits : Int) = ((2 ^ t.bits : ℕ) : Int) := by push_cast; rfl
      rw [this]
      exact Int.add_bmod_right ..
    rw [h2, h3, t.wrap_of_inRange hb _ hmin]

theorem writeTrailing_min {t : IntTy} (hb : 1 ≤ t.bits) (hs : t.signed = true) (d : Nat) :
    writeTrailingTerm (intFmt true t) t.min d = .panic ∧
    writeTrailingTerm (intFmt false t) t.min d =
      .ok ([' ', '-', ' ', '-'] ++ (showNat t.min.natAbs ++ degPart d)) := by
  have hneg := min_neg hs
  constructor
  · unfold writeTrailingTerm
    have : (intFmt true t).abs t.min = .panic := absInt_min true hb hs
    simp only [this]
    rfl
  · unfold writeTrailingTerm
    have h1 : (intFmt false t).abs t.min = .ok t.min := absInt_min false hb hs
    have h2 : (intFmt false t).isPositive t.min = false := by
      show isPositiveInt t.min = false
      unfold isPositiveInt; simp; omega
    have h3 : (intFmt false t).isOne t.min = false := by
      show decide (t.min = 1) = false
      simp; omega
    have h4 : (intFmt false t).shw t.min = '-' :: showNat t.min.natAbs := by
      show showInt t.min = _
      unfold showInt; rw [if_pos hneg]
    simp only [h1, h2, h3, h4, Res.ok_bind]
    unfold degPart
    by_cases hd : d = 0
    · simp [hd]
    · simp [hd]

theorem writeTrailingTerms_min {t : IntTy} (hb : 1 ≤ t.bits) (hs : t.signed = true) (ts : List (Int × Nat))
    (hr : ∀ u ∈ ts, t.InRange u.1) :
    ((∃ u ∈ ts, u.1 = t.min) → writeTrailingTerms (intFmt true t) ts = .panic) ∧
    writeTrailingTerms (intFmt false t) ts = .ok (((ts.flatMap (minPieces t)).map (' ' :: ·)).flatten) := by
  induction ts with
  | nil => exact ⟨by rintro ⟨u, hu, _⟩; simp at hu, rfl⟩
  | cons u ts ih =>
    obtain ⟨ih1, ih2⟩ := ih (fun u hu => hr u (by simp [hu]))
    by_cases hm : u.1 = t.min
    · constructor
      · intro _
        rw [writeTrailingTerms, hm, (writeTrailing_min hb hs u.2).1]; rfl
      · rw [writeTrailingTerms, hm, (writeTrailing_min hb hs u.2).2, Res.ok_bind, ih2, Res.ok_bind, List.flatMap_cons]
        simp [minPieces, hm]
    · constructor
      · rintro ⟨w, hw, hwm⟩
        rcases List.mem_cons.1 hw with rfl | hw
        · exact absurd hwm hm
        · rw [writeTrailingTerms, writeTrailing_eq true hb (hr u (by simp)) (fun _ => hm), Res.ok_bind, ih1 ⟨w, hw, hwm⟩]
          rfl
      · rw [writeTrailingTerms, writeTrailing_eq false hb (hr u (by simp)) (fun _ => hm), Res.ok_bind, ih2, Res.ok_bind,
          List.flatMap_cons]
        simp [minPieces, hm]

theorem minPieces_sign (t : IntTy) (u : Int × Nat) : ∀ p ∈ minPieces t u, SignToken p := by
  unfold minPieces
  split
  · intro p hp
    simp only [List.mem_cons, List.not_mem_nil, or_false] at hp
    rcases hp with rfl | rfl
    · exact ⟨'-', [], rfl, .inr rfl, by simp⟩
    · refine ⟨'-', _, rfl, .inr rfl, ?_⟩
      intro c hc
      have hch : isDigitChar c = true ∨ c = 'x' ∨ c = '^' := by
        rcases List.mem_append.1 hc with hc | hc
        exacts [.inl ((showNat_spec _).1.2 c hc), degPart_char _ c hc]
      rintro (rfl | rfl) <;> revert hch <;> decide
  · intro p hp
    simp only [List.mem_cons, List.not_mem_nil, or_false] at hp
    rw [hp]
    exact trail_signToken _ _

theorem parse_lone_minus (t : IntTy) (uw : Nat) :
    Term.fromStr (parseInt t) uw (['-'] ++ [' ']) = .error .coeffCouldNotBeParsed := by
  have h : parseInt t ['-'] = none := by
    cases h : parseInt t ['-'] with
    | none => rfl
    | some v => revert h; unfold parseInt; cases t.signed <;> simp [parseDigits]
  have h1 : termLoop (parseInt t) (['-'] ++ [' ']) ⟨[], 1, false, false⟩ = .ok ⟨['-'], 1, false, false⟩ := by
    simp [termLoop, termStep]
  unfold Term.fromStr
  rw [h1]
  simp [termFinish, h]

section
variable {S : Type} [MutPoly Int S]

theorem parseList_minPieces {t : IntTy} (uw : Nat) : ∀ (ts : List (Int × Nat)) (cur : List Char) (v : Int) (d : Nat)
    (p q : S) (b : Bool), (∀ u ∈ ts, u.1 ≠ 0) → (∀ u ∈ ts, t.InRange u.1) → (∀ u ∈ ts, u.2 < 2 ^ uw) →
    (∃ u ∈ ts, u.1 = t.min) →
    (∀ ws, (∀ c ∈ ws, IsSep c) → Term.fromStr (parseInt t) uw (cur ++ ws) = .ok (.term v d)) →
    addPoly ((v, d) :: ts) p = (q, .ok ()) →
    parseList (parseInt t) uw (joinToks cur (ts.flatMap (minPieces t))) p b =
      .error (.termFromString .coeffCouldNotBeParsed) := by
  intro ts
  induction ts with
  | nil => intro cur v d p q b _ _ _ h; simp at h
  | cons u ts ih =>
    intro cur v d p q b h0 hr hd hex hcur hq
    rw [addPoly] at hq
    cases hA : MutPoly.tryAddTerm p v d with
    | mk p' r =>
    rw [hA] at hq
    cases r with
    | error e => simp at hq
    | ok _ =>
    have hp' : ∀ us, parseList (parseInt t) uw ((cur ++ [' ']) :: us) p b = parseList (parseInt t) uw us p' true := by
      intro us
      rw [parseList, hcur [' '] (by simp [IsSep])]
      simp only [hA]
    by_cases hm : u.1 = t.min
    · have hpc : (u :: ts).flatMap (minPieces t) =
          ['-'] :: ('-' :: (showNat u.1.natAbs ++ degPart u.2)) :: ts.flatMap (minPieces t) := by
        rw [List.flatMap_cons]; simp [minPieces, hm]
      rw [hpc, joinToks, hp', joinToks, parseList, parse_lone_minus]
    · have hpc : (u :: ts).flatMap (minPieces t) = trailText u.1 u.2 :: ts.flatMap (minPieces t) := by
        rw [List.flatMap_cons]; simp [minPieces, hm]
      rw [hpc, joinToks, hp']
      refine ih _ u.1 u.2 p' q true (fun u hu => h0 u (by simp [hu])) (fun u hu => hr u (by simp [hu]))
        (fun u hu => hd u (by simp [hu])) ?_
        (fun ws hws => trail_parse uw (hr u (by simp)) (h0 u (by simp)) (hd u (by simp)) ws hws) hq
      obtain ⟨w, hw, hwm⟩ := hex
      rcases List.mem_cons.1 hw with rfl | hw
      · exact absurd hwm hm
      · exact ⟨w, hw, hwm⟩

/-- Printing the terms of a polynomial that is not `Printable`, and reading the text. -/
theorem display_unprintable {t : IntTy} (hb : 1 ≤ t.bits) (uw : Nat) {P : ℤ[X]} {ts : List (Int × Nat)}
    (hl : IsTermListOf ts P) (hr : ∀ i, t.InRange (P.coeff i)) (hd : P.degree < ((2 ^ uw : ℕ) : WithBot ℕ))
    (hP : ¬ Printable t P) {zero q : S} (hq : addPoly ts zero = (q, .ok ())) :
    displayTerms (intFmt true t) ts = .panic ∧ ∃ str, displayTerms (intFmt false t) ts = .ok str ∧
      polyFromStr zero (parseInt t) uw str = .ok (.error (.termFromString .coeffCouldNotBeParsed)) := by
  obtain ⟨i, hi⟩ := not_forall.1 hP
  rw [not_and_or] at hi
  rcases hi with hi | hi
  · exact absurd (hr i) hi
  · simp only [Classical.not_imp, not_not] at hi
    obtain ⟨hs, hlt, hmin⟩ := hi
    have h0 : ∀ u ∈ ts, u.1 ≠ 0 := fun u hu => ((hl.2 u.1 u.2).1 hu).1
    have hin : ∀ u ∈ ts, t.InRange u.1 := fun u hu => ((hl.2 u.1 u.2).1 hu).2 ▸ hr u.2
    have hdeg := terms_degree_lt hl hd
    have hmem : (t.min, i) ∈ ts := (hl.2 _ _).2 ⟨(min_neg hs).ne, hmin⟩
    cases ts with
    | nil => simp at hmem
    | cons u ts =>
      have htail : (t.min, i) ∈ ts := by
        rcases List.mem_cons.1 hmem with h | h
        · exfalso
          have hP0 : P ≠ 0 := by rintro rfl; simp at hlt
          have hlead := (hl.2 P.leadingCoeff P.natDegree).2 ⟨leadingCoeff_ne_zero.2 hP0, rfl⟩
          have hlt' : i < P.natDegree := by
            rw [degree_eq_natDegree hP0] at hlt; exact_mod_cast hlt
          rcases List.mem_cons.1 hlead with h' | h'
          · rw [← h] at h'
            have := (Prod.mk.inj h').2
            omega
          · have := (List.pairwise_cons.1 hl.1).1 _ h'
            rw [← h] at this
            simp at this
            omega
        · exact h
      obtain ⟨h1, h2⟩ := writeTrailingTerms_min hb hs ts (fun u hu => hin u (by simp [hu]))
      refine ⟨?_, leadSign u.1 ++ coefPart u.1.natAbs u.2 ++ degPart u.2 ++
        ((ts.flatMap (minPieces t)).map (' ' :: ·)).flatten, ?_, ?_⟩
      · rw [displayTerms, h1 ⟨_, htail, rfl⟩]; rfl
      · rw [displayTerms, h2, Res.ok_bind, writeLeading_eq false (hin u (by simp))]
      · have hlead := fun ws hws => lead_parse uw (hin u (by simp)) (h0 u (by simp)) (hdeg u (by simp)) ws hws
        have htok := joinToks_tokenization (us := ts.flatMap (minPieces t))
          (by have := lead_firstToken u.1 u.2 [] (by simp); rwa [List.append_nil] at this)
          (lead_firstToken u.1 u.2 [' '] (by rintro c hc; simp at hc; subst hc; rintro (h | h) <;> revert h <;> decide))
          (by intro v hv; obtain ⟨w, _, hw⟩ := List.mem_flatMap.1 hv; exact minPieces_sign t w v hw)
        rw [polyFromStr_eq zero _ _ _ _ htok]
        rw [parseList_minPieces uw ts _ u.1 u.2 zero q false (fun u hu => h0 u (by simp [hu]))
          (fun u hu => hin u (by simp [hu])) (fun u hu => hdeg u (by simp [hu])) ⟨_, htail, rfl⟩ hlead hq]

end

variable (t : IntTy) (hb : 1 ≤ t.bits) (uw : Nat)
include hb

/-- C37 (Polynomial): what happens to the polynomials `C37_dense_partial` leaves out. -/
theorem C37_dense_unprintable (p : Poly ℤ) (hr : ∀ i, t.InRange ((descPoly p.terms).coeff i))
    (hd : (descPoly p.terms).degree < ((2 ^ uw : ℕ) : WithBot ℕ)) (hP : ¬ Printable t (descPoly p.terms)) :
    p.display (intFmt true t) = .panic ∧ ∃ str, p.display (intFmt false t) = .ok str ∧
      Poly.fromStr (parseInt t) uw str = .ok (.error (.termFromString .coeffCouldNotBeParsed)) := by
  obtain ⟨q, hq, _⟩ := (C32_dense_sink p.orderedTermIter [] Poly.zero).1
  exact display_unprintable hb uw (C03_dense_terms p).1 hr hd hP hq

/-- C37 (SparsePolynomial), likewise. -/
theorem C37_sparse_unprintable (p : Sparse ℤ) (hr : ∀ i, t.InRange ((entriesPoly p.terms.entries).coeff i))
    (hd : (entriesPoly p.terms.entries).degree < ((2 ^ uw : ℕ) : WithBot ℕ))
    (hP : ¬ Printable t (entriesPoly p.terms.entries)) :
    p.display (intFmt true t) = .panic ∧ ∃ str, p.display (intFmt false t) = .ok str ∧
      Sparse.fromStr (parseInt t) uw str = .ok (.error (.termFromString .coeffCouldNotBeParsed)) := by
  obtain ⟨q, hq, _⟩ := (C32_sparse_sink p.orderedTermIter [] Sparse.zero).1
  exact display_unprintable hb uw (C03_sparse_terms p).1 hr hd hP hq

/-- C37 (LinearBinomial), likewise. -/
theorem C37_binomial_unprintable (p : LinearBinomial ℤ) (hr : ∀ i, t.InRange (p.poly.coeff i)) (hu : 1 ≤ uw)
    (hP : ¬ Printable t p.poly) :
    p.display (intFmt true t) = .panic ∧ ∃ str, p.display (intFmt false t) = .ok str ∧
      LinearBinomial.fromStr (parseInt t) uw str = .ok (.error (.termFromString .coeffCouldNotBeParsed)) := by
  have hl := (C03_binomial_terms p).1
  have hdeg : p.poly.degree < ((2 : ℕ) : WithBot ℕ) := by
    unfold LinearBinomial.poly
    exact lt_of_le_of_lt degree_linear_le (by decide)
  have hd := terms_degree_lt hl hdeg
  obtain ⟨q, hq⟩ := addPoly_bounded (S := LinearBinomial ℤ) 1
    (fun s c d hd => ⟨_, (((C29_binomial s c d).1 hd).1).choose_spec.1⟩) p.orderedTermIter LinearBinomial.zero
    (fun u hu => by have := hd u hu; omega)
  have h2 : 2 ≤ 2 ^ uw := by
    calc 2 = 2 ^ 1 := rfl
      _ ≤ 2 ^ uw := Nat.pow_le_pow_right (by norm_num) hu
  exact display_unprintable hb uw hl hr (lt_of_lt_of_le hdeg (by exact_mod_cast h2)) hP hq

/-- C37 (QuadraticTrinomial), likewise. -/
theorem C37_trinomial_unprintable (p : QuadraticTrinomial ℤ) (hr : ∀ i, t.InRange (p.poly.coeff i)) (hu : 2 ≤ uw)
    (hP : ¬ Printable t p.poly) :
    p.display (intFmt true t) = .panic ∧ ∃ str, p.display (intFmt false t) = .ok str ∧
      QuadraticTrinomial.fromStr (parseInt t) uw str = .ok (.error (.termFromString .coeffCouldNotBeParsed)) := by
  have hl := (C03_trinomial_terms p).1
  have hdeg : p.poly.degree < ((3 : ℕ) : WithBot ℕ) := by
    unfold QuadraticTrinomial.poly
    exact lt_of_le_of_lt degree_quadratic_le (by decide)
  have hd := terms_degree_lt hl hdeg
  obtain ⟨q, hq⟩ := addPoly_bounded (S := QuadraticTrinomial ℤ) 2
    (fun s c d hd => ⟨_, (((C29_trinomial s c d).1 hd).1).choose_spec.1⟩) p.orderedTermIter QuadraticTrinomial.zero
    (fun u hu => by have := hd u hu; omega)
  have h2 : 4 ≤ 2 ^ uw := by
    calc 4 = 2 ^ 2 := rfl
      _ ≤ 2 ^ uw := Nat.pow_le_pow_right (by norm_num) hu
  have h3 : 3 ≤ 2 ^ uw := by omega
  exact display_unprintable hb uw hl hr (lt_of_lt_of_le hdeg (by exact_mod_cast h3)) hP hq

omit hb in
/-- The `i8` polynomial `x - 128` meets the hypotheses: in range, not `Printable`. -/
example : (∀ i, (⟨true, 8⟩ : IntTy).InRange ((descPoly ([1, -128] : List ℤ)).coeff i)) ∧
    ¬ Printable ⟨true, 8⟩ (descPoly [1, -128]) := by
  have hcf : ∀ i, (descPoly ([1, -128] : List ℤ)).coeff i = if i = 0 then -128 else if i = 1 then 1 else 0 := by
    intro i
    rw [coeff_descPoly]
    rcases i with _ | _ | i <;> simp
  refine ⟨fun i => ?_, fun h => (h 0).2 rfl ?_ ?_⟩
  · rw [hcf]; split
    · decide
    · split <;> decide
  · refine lt_of_lt_of_le (by decide) (le_degree_of_ne_zero (n := 1) ?_)
    rw [hcf]; decide
  · rw [hcf]; decide

end Rustnomial
