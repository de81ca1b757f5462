import Verif.Props.Parse

/-!
# Laws of parsing (C111)
-/

open Polynomial

set_option linter.unusedSectionVars false

namespace Rustnomial

/-! ## Tokens of related texts -/

theorem sign_not_white {c : Char} (h : IsSign c) : isWhitespaceChar c = false := by
  rcases h with rfl | rfl <;> decide

theorem sign_not_sep {c : Char} (h : IsSign c) : ¬ IsSep c := by
  rcases h with rfl | rfl <;> decide

theorem IsTokenization.append {s t : List Char} {ts us : List (List Char)} (hs : IsTokenization s ts)
    (ht : IsTokenization t us) (h1 : ∃ c ∈ s, isWhitespaceChar c = false) (h2 : ∃ c r, t = c :: r ∧ IsSign c) :
    IsTokenization (s ++ t) (ts ++ us) := by
  obtain ⟨e1, hs⟩ := hs
  obtain ⟨e2, ht⟩ := ht
  obtain ⟨c, r, rfl, hc⟩ := h2
  obtain ⟨d, hd, hdw⟩ := h1
  refine ⟨by rw [List.flatten_append, e1, e2], ?_⟩
  cases ts with
  | nil => rw [← e1] at hd; simp at hd
  | cons a ts =>
    rcases hs with ⟨ha, hts⟩ | ⟨_, hw, rfl⟩
    · left
      refine ⟨ha, fun u hu => ?_⟩
      rcases List.mem_append.1 hu with hu | hu
      · exact hts u hu
      cases us with
      | nil => cases hu
      | cons b us =>
        rcases ht with ⟨⟨ws, k, body, rfl, hws, hk, hb⟩, hus⟩ | ⟨hne, hw, rfl⟩
        · rcases List.mem_cons.1 hu with rfl | hu
          · cases ws with
            | nil =>
              simp only [List.nil_append, List.flatten_cons, List.cons_append, List.cons.injEq] at e2
              exact ⟨k, body, rfl, e2.1 ▸ hc, hb⟩
            | cons w ws =>
              simp only [List.flatten_cons, List.cons_append, List.cons.injEq] at e2
              have := hws w (by simp)
              rw [e2.1, sign_not_white hc] at this
              cases this
          · exact hus u hu
        · cases b with
          | nil => exact absurd rfl hne
          | cons w b =>
            simp only [List.flatten_cons, List.cons_append, List.cons.injEq] at e2
            have := hw w (by simp)
            rw [e2.1, sign_not_white hc] at this
            cases this
    · rw [← e1] at hd
      have := hw d (by simpa using hd)
      rw [hdw] at this
      cases this

section
variable {N S : Type} [Zero N] [NumZero N] [One N] [MutPoly N S]

theorem parseList_append (parse : List Char → Option N) (uw : Nat) : ∀ (ts us : List (List Char)) (p : S),
    us ≠ [] → parseList parse uw (ts ++ us) p true = match parseList parse uw ts p true with
      | .error e => .error e
      | .ok q => parseList parse uw us q true := by
  intro ts us p hu
  induction ts generalizing p with
  | nil => rfl
  | cons t ts ih =>
    rw [List.cons_append, parseList, parseList]
    cases Term.fromStr parse uw t with
    | error e => rfl
    | ok T =>
      cases T with
      | zeroTerm => exact ih p
      | term c d =>
        simp only
        cases MutPoly.tryAddTerm p c d with
        | mk p' r =>
          cases r with
          | error e => rfl
          | ok u => exact ih p'

theorem parseList_flag (parse : List Char → Option N) (uw : Nat) {ts : List (List Char)} (h : ts ≠ []) (p : S)
    (b : Bool) : parseList parse uw ts p b = parseList parse uw ts p true := by
  cases ts with
  | nil => exact absurd rfl h
  | cons t ts => rfl

theorem parseList_congr (parse : List Char → Option N) (uw : Nat) : ∀ (ts us : List (List Char)) (p : S) (b : Bool),
    ts.map (Term.fromStr parse uw) = us.map (Term.fromStr parse uw) →
    parseList parse uw ts p b = parseList parse uw us p b := by
  intro ts
  induction ts with
  | nil => intro us p b h; cases us with
    | nil => rfl
    | cons u us => cases h
  | cons t ts ih =>
    intro us p b h
    cases us with
    | nil => cases h
    | cons u us =>
      simp only [List.map_cons, List.cons.injEq] at h
      rw [parseList, parseList, h.1]
      cases Term.fromStr parse uw u with
      | error e => rfl
      | ok T =>
        cases T with
        | zeroTerm => exact ih us p true h.2
        | term c d =>
          simp only
          cases MutPoly.tryAddTerm p c d with
          | mk p' r =>
            cases r with
            | error e => rfl
            | ok v => exact ih us p' true h.2

theorem IsTokenization.ne {s : List Char} {ts : List (List Char)} (h : IsTokenization s ts) (hs : s ≠ []) : ts ≠ [] := by
  rintro rfl; exact hs h.1.symm

/-- C111 (every polynomial type, every coefficient type): reading `s` followed by a text that begins with
a sign is reading `s` and, if that succeeds, going on from its value with the second text; an error in
`s` is the error of the whole. -/
theorem C111_append (zero : S) (parse : List Char → Option N) (uw : Nat) (s t : List Char)
    (hs : ∃ c ∈ s, isWhitespaceChar c = false) (ht : ∃ c r, t = c :: r ∧ IsSign c) :
    (∀ e, polyFromStr zero parse uw s = .ok (.error e) → polyFromStr zero parse uw (s ++ t) = .ok (.error e)) ∧
    (∀ p, polyFromStr zero parse uw s = .ok (.ok p) →
      polyFromStr zero parse uw (s ++ t) = polyFromStr p parse uw t) := by
  obtain ⟨ts, h1⟩ := exists_tokenization s
  obtain ⟨us, h2⟩ := exists_tokenization t
  have hsn : s ≠ [] := by rintro rfl; obtain ⟨c, hc, _⟩ := hs; cases hc
  have htn : t ≠ [] := by rintro rfl; obtain ⟨c, r, hc, _⟩ := ht; cases hc
  have n1 := h1.ne hsn
  have n2 := h2.ne htn
  rw [polyFromStr_eq _ _ _ _ _ (h1.append h2 hs ht), polyFromStr_eq _ _ _ _ _ h1,
    parseList_flag _ _ (ts := ts ++ us) (by simp [n1]), parseList_append _ _ _ _ _ n2, parseList_flag _ _ n1]
  constructor
  · intro e he
    rw [Res.ok.inj he]
  · intro p hp
    rw [Res.ok.inj hp, polyFromStr_eq _ _ _ _ _ h2, parseList_flag _ _ n2 p false]

end

/-! ## Sums of texts -/

section
variable {R : Type} [CommRing R] [NumZero R] [LawfulNumZero R] [CanNegate R] [BEq R] [LawfulBEq R]
  (parse : List Char → Option R) (uw : Nat)

theorem parseList_error_first {S : Type} [MutPoly R S]
    (hfree : ∀ (p : S) (c : R) (d : Nat), ∃ p', MutPoly.tryAddTerm p c d = (p', .ok ())) :
    ∀ (ts : List (List Char)) (p p' : S) (e : PolynomialFromStringError),
      parseList parse uw ts p true = .error e → parseList parse uw ts p' true = .error e := by
  intro ts
  induction ts with
  | nil => intro p p' e h; cases h
  | cons t ts ih =>
    intro p p' e h
    rw [parseList] at h ⊢
    cases hT : Term.fromStr parse uw t with
    | error e' => rw [hT] at h; exact h
    | ok T =>
      rw [hT] at h
      cases T with
      | zeroTerm => exact ih p p' e h
      | term c d =>
        obtain ⟨p1, h1⟩ := hfree p c d
        obtain ⟨p2, h2⟩ := hfree p' c d
        simp only [h1] at h
        simp only [h2]
        exact ih p1 p2 e h

theorem polyFromStr_error_free {S : Type} [MutPoly R S]
    (hfree : ∀ (p : S) (c : R) (d : Nat), ∃ p', MutPoly.tryAddTerm p c d = (p', .ok ()))
    (t : List Char) (ht : t ≠ []) (p p' : S) (e : PolynomialFromStringError)
    (h : polyFromStr p parse uw t = .ok (.error e)) : polyFromStr p' parse uw t = .ok (.error e) := by
  obtain ⟨us, hu⟩ := exists_tokenization t
  rw [polyFromStr_eq _ _ _ _ _ hu, parseList_flag _ _ (hu.ne ht)] at h ⊢
  rw [parseList_error_first parse uw hfree us p p' e (Res.ok.inj h)]

theorem polyFromStr_repr {S : Type} [MutPoly R S] [LawfulMutPoly R S]
    (hfree : ∀ (p : S) (c : R) (d : Nat), ∃ p', MutPoly.tryAddTerm p c d = (p', .ok ()))
    (t : List Char) (ht : t ≠ []) (z p q : S) (hz : LawfulMutPoly.repr (N := R) z = 0)
    (h : polyFromStr z parse uw t = .ok (.ok q)) :
    ∃ r, polyFromStr p parse uw t = .ok (.ok r) ∧
      LawfulMutPoly.repr (N := R) r = LawfulMutPoly.repr (N := R) p + LawfulMutPoly.repr (N := R) q := by
  obtain ⟨us, hu⟩ := exists_tokenization t
  have hn := hu.ne ht
  rw [polyFromStr_eq _ _ _ _ _ hu] at h ⊢
  obtain ⟨terms, h1, h2⟩ := parseList_ok parse uw us z q false (Res.ok.inj h)
  obtain ⟨p', b', h3, h4, h5⟩ := parseList_free parse uw hfree us terms h1 [] p false
  rw [List.append_nil, h3.2 (.inr hn)] at h4
  exact ⟨p', by rw [h4]; rfl, by rw [h5, h2, hz, zero_add]⟩

theorem poly_free (p : Poly R) (c : R) (d : Nat) : ∃ p', MutPoly.tryAddTerm p c d = (p', .ok ()) := ⟨_, rfl⟩
theorem sparse_free (p : Sparse R) (c : R) (d : Nat) : ∃ p', MutPoly.tryAddTerm p c d = (p', .ok ()) := ⟨_, rfl⟩
theorem poly_repr_zero : LawfulMutPoly.repr (N := R) (Poly.zero : Poly R) = 0 := by
  show descPoly (Poly.zero : Poly R).terms = 0; simp [Poly.zero]
theorem sparse_repr_zero : LawfulMutPoly.repr (N := R) (Sparse.zero : Sparse R) = 0 := by
  show entriesPoly [] = 0; simp [entriesPoly]

/-- C111: the text of a sum.  If `t` begins with a sign, reading `s` and `t` one after the other as one
text gives the sum of what `s` and `t` give on their own; if `s` is refused the whole is refused with
the same error, and if only `t` is, with the error of `t`. -/
theorem C111_concat (s t : List Char) (hs : ∃ c ∈ s, isWhitespaceChar c = false)
    (ht : ∃ c r, t = c :: r ∧ IsSign c) :
    (∀ p q, Poly.fromStr parse uw s = .ok (.ok p) → Poly.fromStr parse uw t = .ok (.ok q) →
      ∃ r u, Poly.fromStr parse uw (s ++ t) = .ok (.ok r) ∧ p.add q = .ok u ∧ r.eq u = true) ∧
    (∀ e, Poly.fromStr parse uw s = .ok (.error e) → Poly.fromStr parse uw (s ++ t) = .ok (.error e)) ∧
    (∀ p e, Poly.fromStr parse uw s = .ok (.ok p) → Poly.fromStr parse uw t = .ok (.error e) →
      Poly.fromStr parse uw (s ++ t) = .ok (.error e)) ∧
    (∀ p q, Sparse.fromStr parse uw s = .ok (.ok p) → Sparse.fromStr parse uw t = .ok (.ok q) →
      ∃ r, Sparse.fromStr parse uw (s ++ t) = .ok (.ok r) ∧ r.eq (p.add q) = true) ∧
    (∀ e, Sparse.fromStr parse uw s = .ok (.error e) → Sparse.fromStr parse uw (s ++ t) = .ok (.error e)) ∧
    (∀ p e, Sparse.fromStr parse uw s = .ok (.ok p) → Sparse.fromStr parse uw t = .ok (.error e) →
      Sparse.fromStr parse uw (s ++ t) = .ok (.error e)) := by
  have htn : t ≠ [] := by rintro rfl; obtain ⟨c, r, hc, _⟩ := ht; cases hc
  have hd := C111_append (Poly.zero : Poly R) parse uw s t hs ht
  have hsp := C111_append (Sparse.zero : Sparse R) parse uw s t hs ht
  refine ⟨?_, hd.1, ?_, ?_, hsp.1, ?_⟩
  · intro p q h1 h2
    obtain ⟨r, h3, h4⟩ := polyFromStr_repr parse uw poly_free t htn Poly.zero p q poly_repr_zero h2
    obtain ⟨u, h5, h6⟩ := C08_dense_add p q
    exact ⟨r, u, by rw [Poly.fromStr, hd.2 p h1, h3], h5, (C05_dense_eq _ _).2 (by rw [h6]; exact h4)⟩
  · intro p e h1 h2
    rw [Poly.fromStr, hd.2 p h1]
    exact polyFromStr_error_free parse uw poly_free t htn Poly.zero p e h2
  · intro p q h1 h2
    obtain ⟨r, h3, h4⟩ := polyFromStr_repr parse uw sparse_free t htn Sparse.zero p q sparse_repr_zero h2
    exact ⟨r, by rw [Sparse.fromStr, hsp.2 p h1, h3], (C05_sparse_eq _ _).2 (by rw [(C25_sparse_add p q).1]; exact h4)⟩
  · intro p e h1 h2
    rw [Sparse.fromStr, hsp.2 p h1]
    exact polyFromStr_error_free parse uw sparse_free t htn Sparse.zero p e h2

/-- C111: pieces that begin with a sign may be exchanged. -/
theorem C111_swap (s t : List Char) (hs : ∃ c r, s = c :: r ∧ IsSign c) (ht : ∃ c r, t = c :: r ∧ IsSign c) :
    (∀ p, Poly.fromStr parse uw (s ++ t) = .ok (.ok p) →
      ∃ q, Poly.fromStr parse uw (t ++ s) = .ok (.ok q) ∧ q.eq p = true) ∧
    (∀ p, Sparse.fromStr parse uw (s ++ t) = .ok (.ok p) →
      ∃ q, Sparse.fromStr parse uw (t ++ s) = .ok (.ok q) ∧ q.eq p = true) := by
  have htn : t ≠ [] := by rintro rfl; obtain ⟨c, r, hc, _⟩ := ht; cases hc
  have hsn : s ≠ [] := by rintro rfl; obtain ⟨c, r, hc, _⟩ := hs; cases hc
  have hs' : ∃ c ∈ s, isWhitespaceChar c = false := by
    obtain ⟨c, r, rfl, h⟩ := hs; exact ⟨c, by simp, sign_not_white h⟩
  have ht' : ∃ c ∈ t, isWhitespaceChar c = false := by
    obtain ⟨c, r, rfl, h⟩ := ht; exact ⟨c, by simp, sign_not_white h⟩
  have key : ∀ {S : Type} [MutPoly R S] [LawfulMutPoly R S] (z : S) (_ : LawfulMutPoly.repr (N := R) z = 0)
      (_ : ∀ (p : S) (c : R) (d : Nat), ∃ p', MutPoly.tryAddTerm p c d = (p', .ok ())) (p : S),
      polyFromStr z parse uw (s ++ t) = .ok (.ok p) → ∃ q, polyFromStr z parse uw (t ++ s) = .ok (.ok q) ∧
        LawfulMutPoly.repr (N := R) q = LawfulMutPoly.repr (N := R) p := by
    intro S _ _ z hz hfree p h
    obtain ⟨a, b⟩ := C111_append z parse uw s t hs' ht
    obtain ⟨a', b'⟩ := C111_append z parse uw t s ht' hs
    obtain ⟨x, hx⟩ := C39_total z parse uw s
    obtain ⟨y, hy⟩ := C39_total z parse uw t
    cases x with
    | error e => rw [a e hx] at h; cases h
    | ok p1 =>
      cases y with
      | error e =>
        rw [b p1 hx, polyFromStr_error_free parse uw hfree t htn z p1 e hy] at h
        cases h
      | ok p2 =>
        obtain ⟨r, h3, h4⟩ := polyFromStr_repr parse uw hfree t htn z p1 p2 hz hy
        obtain ⟨r', h3', h4'⟩ := polyFromStr_repr parse uw hfree s hsn z p2 p1 hz hx
        rw [b p1 hx, h3] at h
        obtain rfl : r = p := by simpa using h
        exact ⟨r', by rw [b' p2 hy, h3'], by rw [h4, h4', add_comm]⟩
  constructor
  · intro p h
    obtain ⟨q, h1, h2⟩ := key (Poly.zero : Poly R) poly_repr_zero poly_free p h
    exact ⟨q, h1, (C05_dense_eq _ _).2 h2⟩
  · intro p h
    obtain ⟨q, h1, h2⟩ := key (Sparse.zero : Sparse R) sparse_repr_zero sparse_free p h
    exact ⟨q, h1, (C05_sparse_eq _ _).2 h2⟩

end

/-! ## Spaces, commas and underscores -/

theorem clean_flatten (ts : List (List Char)) : clean ts.flatten = (ts.map clean).flatten := by
  induction ts with
  | nil => rfl
  | cons t ts ih => rw [List.flatten_cons, clean_append, ih, List.map_cons, List.flatten_cons]

theorem clean_cons_not {c : Char} (h : ¬ IsSep c) (s : List Char) : clean (c :: s) = c :: clean s := by
  simp [clean, h]

theorem clean_seps {s : List Char} (h : ∀ c ∈ s, IsSep c) : clean s = [] := by
  unfold clean
  rw [List.filter_eq_nil_iff]
  intro c hc
  simpa using h c hc

theorem clean_clean (s : List Char) : clean (clean s) = clean s := by unfold clean; simp

theorem SignToken.clean {t : List Char} (h : SignToken t) : SignToken (Rustnomial.clean t) := by
  obtain ⟨c, body, rfl, hc, hb⟩ := h
  exact ⟨c, Rustnomial.clean body, clean_cons_not (sign_not_sep hc) _, hc, fun d hd => hb d (mem_clean.1 hd).1⟩

theorem IsTokenization.clean {lead body : List Char} {c : Char} {ts : List (List Char)}
    (h : IsTokenization (lead ++ c :: body) ts) (hl : ∀ d ∈ lead, IsSep d) (hc : ¬ IsSep c)
    (hw : ∀ d ∈ lead ++ c :: body, isWhitespaceChar d = true → d = ' ')
    (hsign : IsSign c → ∀ d ∈ lead, d = ' ') :
    IsTokenization (Rustnomial.clean (lead ++ c :: body)) (ts.map Rustnomial.clean) := by
  obtain ⟨e, h⟩ := h
  refine ⟨by rw [← e, clean_flatten], ?_⟩
  cases ts with
  | nil => trivial
  | cons t rest =>
    rcases h with ⟨⟨ws, k, tb, rfl, hws, hk, hb⟩, hr⟩ | ⟨_, hwt, rfl⟩
    · left
      have hr' : ∀ u ∈ rest.map Rustnomial.clean, SignToken u := by
        intro u hu
        obtain ⟨v, hv, rfl⟩ := List.mem_map.1 hu
        exact (hr v hv).clean
      refine ⟨?_, hr'⟩
      have hwsep : ∀ d ∈ ws, IsSep d := fun d hd =>
        .inl (hw d (by rw [← e]; simp [hd]) (hws d hd))
      rw [clean_append, clean_seps hwsep, List.nil_append]
      by_cases hks : IsSep k
      · -- the first token starts with a comma or underscore
        have hcl : Rustnomial.clean (k :: tb) = Rustnomial.clean tb := by simp [Rustnomial.clean, hks]
        rw [hcl]
        cases hct : Rustnomial.clean tb with
        | cons a as =>
          have ha : a ∈ tb ∧ ¬ IsSep a := mem_clean.1 (by rw [hct]; simp)
          refine ⟨[], a, as, rfl, by simp, ?_, ?_⟩
          · by_contra hne
            rw [Bool.not_eq_false] at hne
            exact ha.2 (.inl (hw a (by rw [← e]; simp [ha.1]) hne))
          · intro d hd
            exact hb d (mem_clean.1 (by rw [hct]; simp [hd])).1
        | nil =>
          exfalso
          have htok : ∀ d ∈ ws ++ k :: tb, IsSep d := by
            intro d hd
            rcases List.mem_append.1 hd with hd | hd
            · exact hwsep d hd
            · rcases List.mem_cons.1 hd with rfl | hd
              · exact hks
              · by_contra hn
                have : d ∈ Rustnomial.clean tb := mem_clean.2 ⟨hd, hn⟩
                rw [hct] at this; cases this
          rw [List.flatten_cons] at e
          rcases List.append_eq_append_iff.1 e with ⟨u, h1, h2⟩ | ⟨u, h1, h2⟩
          · -- the token ends inside `lead`
            cases rest with
            | nil =>
              rw [List.flatten_nil] at h2
              simp at h2
            | cons v rest =>
              obtain ⟨g, gb, rfl, hg, hgb⟩ := hr v (by simp)
              cases u with
              | nil =>
                simp only [List.flatten_cons, List.cons_append, List.nil_append, List.cons.injEq] at h2
                rw [List.append_nil] at h1
                have hk' := hsign (h2.1 ▸ hg) k (by rw [h1]; simp)
                rw [hk'] at hk
                exact absurd hk (by decide)
              | cons w u =>
                simp only [List.flatten_cons, List.cons_append, List.cons.injEq] at h2
                exact sign_not_sep hg (h2.1 ▸ hl w (by rw [h1]; simp))
          · cases u with
            | nil =>
              rw [List.append_nil] at h1
              rw [List.nil_append] at h2
              cases rest with
              | nil => simp at h2
              | cons v rest =>
                obtain ⟨g, gb, rfl, hg, hgb⟩ := hr v (by simp)
                simp only [List.flatten_cons, List.cons_append, List.cons.injEq] at h2
                have hk' := hsign (h2.1 ▸ hg) k (by rw [← h1]; simp)
                rw [hk'] at hk
                exact absurd hk (by decide)
            | cons w u =>
              simp only [List.cons_append, List.cons.injEq] at h2
              exact hc (h2.1 ▸ htok w (by rw [h1]; simp))
      · rw [clean_cons_not hks]
        exact ⟨[], k, Rustnomial.clean tb, rfl, by simp, hk, fun d hd => hb d (mem_clean.1 hd).1⟩
    · exfalso
      have hcm : c ∈ t := by
        have : c ∈ (t :: ([] : List (List Char))).flatten := by rw [e]; simp
        simpa using this
      exact hc (.inl (hw c (by simp) (hwt c hcm)))

section
variable {N S : Type} [Zero N] [NumZero N] [One N] [MutPoly N S]

/-- C111 (every polynomial and coefficient type): spaces, commas and underscores may be put anywhere,
except that a sign that is the first character of the text may be preceded by spaces only.  `lead` are
the separators in front, `c` is the first other character. -/
theorem C111_separators (zero : S) (parse : List Char → Option N) (uw : Nat) (lead body : List Char) (c : Char)
    (hl : ∀ d ∈ lead, IsSep d) (hc : ¬ IsSep c)
    (hw : ∀ d ∈ lead ++ c :: body, isWhitespaceChar d = true → d = ' ')
    (hsign : IsSign c → ∀ d ∈ lead, d = ' ') :
    polyFromStr zero parse uw (lead ++ c :: body) = polyFromStr zero parse uw (clean (lead ++ c :: body)) := by
  obtain ⟨ts, h⟩ := exists_tokenization (lead ++ c :: body)
  rw [polyFromStr_eq _ _ _ _ _ h, polyFromStr_eq _ _ _ _ _ (h.clean hl hc hw hsign)]
  congr 1
  apply parseList_congr
  rw [List.map_map]
  apply List.map_congr_left
  intro t _
  exact C35_separators parse uw t (clean t) (clean_clean t).symm

/-- C111: two texts that differ in separators only are read alike. -/
theorem C111_same_clean (zero : S) (parse : List Char → Option N) (uw : Nat) (lead lead' body body' : List Char)
    (c c' : Char) (hl : ∀ d ∈ lead, IsSep d) (hl' : ∀ d ∈ lead', IsSep d) (hc : ¬ IsSep c) (hc' : ¬ IsSep c')
    (hw : ∀ d ∈ lead ++ c :: body, isWhitespaceChar d = true → d = ' ')
    (hsign : IsSign c → (∀ d ∈ lead, d = ' ') ∧ ∀ d ∈ lead', d = ' ')
    (h : clean (lead ++ c :: body) = clean (lead' ++ c' :: body')) :
    polyFromStr zero parse uw (lead ++ c :: body) = polyFromStr zero parse uw (lead' ++ c' :: body') := by
  have hcc : c = c' := by
    rw [clean_append, clean_append, clean_seps hl, clean_seps hl', List.nil_append, List.nil_append,
      clean_cons_not hc, clean_cons_not hc', List.cons.injEq] at h
    exact h.1
  have hw' : ∀ d ∈ lead' ++ c' :: body', isWhitespaceChar d = true → d = ' ' := by
    intro d hd hdw
    by_cases hs : IsSep d
    · rcases hs with h | h | h
      · exact h
      · rw [h] at hdw; exact absurd hdw (by decide)
      · rw [h] at hdw; exact absurd hdw (by decide)
    · have : d ∈ clean (lead ++ c :: body) := by rw [h]; exact mem_clean.2 ⟨hd, hs⟩
      exact hw d (mem_clean.1 this).1 hdw
  rw [C111_separators zero parse uw lead body c hl hc hw (fun hs => (hsign hs).1),
    C111_separators zero parse uw lead' body' c' hl' hc' hw' (fun hs => (hsign (hcc ▸ hs)).2), h]

/-- C111: the exception.  A comma or underscore in front of the first sign makes the whole text unreadable (for
a coefficient type that does not read the empty text as a number), whatever follows. -/
theorem C111_separators_false (zero : S) (parse : List Char → Option N) (uw : Nat) (lead body : List Char) (c : Char)
    (hl : ∀ d ∈ lead, IsSep d) (hne : ∃ d ∈ lead, d ≠ ' ') (hc : IsSign c) (hp : parse [] = none) :
    polyFromStr zero parse uw (lead ++ c :: body) = .ok (.error (.termFromString .coeffCouldNotBeParsed)) := by
  obtain ⟨ts, h⟩ := exists_tokenization (c :: body)
  have hlw : ∃ d ∈ lead, isWhitespaceChar d = false := by
    obtain ⟨d, hd, hn⟩ := hne
    refine ⟨d, hd, ?_⟩
    rcases hl d hd with h | h | h
    · exact absurd h hn
    · rw [h]; decide
    · rw [h]; decide
  obtain ⟨us, hu⟩ := exists_tokenization lead
  have := hu.append h hlw ⟨c, body, rfl, hc⟩
  rw [polyFromStr_eq _ _ _ _ _ this]
  congr 1
  cases us with
  | nil => obtain ⟨d, hd, _⟩ := hne; rw [← hu.1] at hd; simp at hd
  | cons t us =>
    have hts : ∀ d ∈ t, IsSep d := fun d hd => hl d (by rw [← hu.1]; simp [hd])
    have hT : Term.fromStr parse uw t = .error .coeffCouldNotBeParsed := by
      rw [C35_separators parse uw t [] (by rw [clean_seps hts]; rfl)]
      rw [fromStr_const parse uw (by simp), hp]
    rw [List.cons_append, parseList, hT]

/-- C111: a text of separators alone is refused in the same way. -/
theorem C111_only_separators (zero : S) (parse : List Char → Option N) (uw : Nat) (s : List Char) (hs : s ≠ [])
    (hl : ∀ d ∈ s, IsSep d) (hp : parse [] = none) :
    polyFromStr zero parse uw s = .ok (.error (.termFromString .coeffCouldNotBeParsed)) := by
  obtain ⟨us, hu⟩ := exists_tokenization s
  rw [polyFromStr_eq _ _ _ _ _ hu]
  congr 1
  cases us with
  | nil => exact absurd hu.1.symm hs
  | cons t us =>
    have hts : ∀ d ∈ t, IsSep d := fun d hd => hl d (by rw [← hu.1]; simp [hd])
    have hT : Term.fromStr parse uw t = .error .coeffCouldNotBeParsed := by
      rw [C35_separators parse uw t [] (by rw [clean_seps hts]; rfl)]
      rw [fromStr_const parse uw (by simp), hp]
    rw [parseList, hT]

end

/-! ## Changing signs -/

/-- `+` for `-` and `-` for `+`. -/
def flipSign (c : Char) : Char := if c = '+' then '-' else if c = '-' then '+' else c

theorem flipSign_of_not {c : Char} (h : ¬ IsSign c) : flipSign c = c := by
  unfold flipSign
  rw [if_neg (fun h' => h (.inl h')), if_neg (fun h' => h (.inr h'))]

theorem flipSign_sign {c : Char} (h : IsSign c) : IsSign (flipSign c) := by
  rcases h with rfl | rfl
  · exact .inr (by decide)
  · exact .inl (by decide)

theorem map_flip_of_not {s : List Char} (h : ∀ c ∈ s, ¬ IsSign c) : s.map flipSign = s := by
  conv_rhs => rw [← List.map_id s]
  exact List.map_congr_left (fun c hc => flipSign_of_not (h c hc))

theorem isSep_flip (c : Char) : IsSep (flipSign c) ↔ IsSep c := by
  by_cases h : IsSign c
  · exact ⟨fun h' => absurd h' (sign_not_sep (flipSign_sign h)), fun h' => absurd h' (sign_not_sep h)⟩
  · rw [flipSign_of_not h]

theorem white_not_sign {c : Char} (h : isWhitespaceChar c = true) : ¬ IsSign c := fun hs => by
  rw [sign_not_white hs] at h; cases h

theorem IsTokenization.flip {s : List Char} {ts : List (List Char)} (h : IsTokenization s ts)
    (hs : ∃ ws c body, s = ws ++ c :: body ∧ (∀ d ∈ ws, isWhitespaceChar d = true) ∧ IsSign c) :
    IsTokenization (s.map flipSign) (ts.map (List.map flipSign)) ∧
    ∀ t ∈ ts, ∃ ws c body, t = ws ++ c :: body ∧ (∀ d ∈ ws, isWhitespaceChar d = true) ∧ IsSign c ∧
      ∀ d ∈ body, ¬ IsSign d := by
  obtain ⟨e, h⟩ := h
  have hfl : (ts.map (List.map flipSign)).flatten = s.map flipSign := by
    rw [← e, List.map_flatten]
  have hst : ∀ t, SignToken t → SignToken (t.map flipSign) := by
    rintro t ⟨c, body, rfl, hc, hb⟩
    exact ⟨flipSign c, body, by rw [List.map_cons, map_flip_of_not hb], flipSign_sign hc, hb⟩
  cases ts with
  | nil => exact ⟨⟨hfl, trivial⟩, by simp⟩
  | cons t rest =>
    rcases h with ⟨⟨ws, k, tb, rfl, hws, hk, hb⟩, hr⟩ | ⟨hne, hwt, rfl⟩
    · have hks : IsSign k := by
        obtain ⟨ws', c, body, rfl, hws', hc⟩ := hs
        rw [List.flatten_cons, List.append_assoc] at e
        rcases List.append_eq_append_iff.1 e with ⟨u, h1, h2⟩ | ⟨u, h1, h2⟩
        · cases u with
          | nil =>
            simp only [List.cons_append, List.nil_append, List.cons.injEq] at h2
            exact h2.1 ▸ hc
          | cons w u =>
            simp only [List.cons_append, List.cons.injEq] at h2
            have := hws' w (by rw [h1]; simp)
            rw [← h2.1, hk] at this
            cases this
        · cases u with
          | nil =>
            simp only [List.cons_append, List.nil_append, List.cons.injEq] at h2
            exact h2.1 ▸ hc
          | cons w u =>
            simp only [List.cons_append, List.cons.injEq] at h2
            have := hws w (by rw [h1]; simp)
            rw [← h2.1, sign_not_white hc] at this
            cases this
      refine ⟨⟨hfl, .inl ⟨⟨ws, flipSign k, tb, ?_, hws, sign_not_white (flipSign_sign hks), hb⟩, ?_⟩⟩, ?_⟩
      · rw [List.map_append, List.map_cons, map_flip_of_not hb,
          map_flip_of_not (fun c hc => white_not_sign (hws c hc))]
      · intro u hu
        obtain ⟨v, hv, rfl⟩ := List.mem_map.1 hu
        exact hst v (hr v hv)
      · intro u hu
        rcases List.mem_cons.1 hu with rfl | hu
        · exact ⟨ws, k, tb, rfl, hws, hks, hb⟩
        · obtain ⟨c, body, rfl, hc, hb⟩ := hr u hu
          exact ⟨[], c, body, rfl, by simp, hc, hb⟩
    · exfalso
      obtain ⟨ws', c, body, rfl, hws', hc⟩ := hs
      have : c ∈ t := by
        have : c ∈ (t :: ([] : List (List Char))).flatten := by rw [e]; simp
        simpa using this
      have := hwt c this
      rw [sign_not_white hc] at this
      cases this

theorem digit_not_white {c : Char} (h : isDigitChar c = true) : isWhitespaceChar c = false := by
  unfold isDigitChar at h
  have h := of_decide_eq_true h
  have h1 : 48 ≤ c.toNat := h.1
  have h2 : c.toNat ≤ 57 := h.2
  unfold isWhitespaceChar
  simp only [Bool.or_eq_false_iff, Bool.and_eq_false_iff, decide_eq_false_iff_not]
  omega

theorem split_first_x {a b r r' : List Char} (h : a ++ 'x' :: r = b ++ 'x' :: r') (ha : 'x' ∉ a) (hb : 'x' ∉ b) :
    a = b ∧ r = r' := by
  induction a generalizing b with
  | nil =>
    cases b with
    | nil => simpa using h
    | cons c b => simp only [List.nil_append, List.cons_append, List.cons.injEq] at h; rw [← h.1] at hb; simp at hb
  | cons c a ih =>
    cases b with
    | nil => simp only [List.nil_append, List.cons_append, List.cons.injEq] at h; simp [h.1] at ha
    | cons d b =>
      simp only [List.cons_append, List.cons.injEq] at h
      simp only [List.mem_cons, not_or] at ha hb
      obtain ⟨h1, h2⟩ := ih h.2 ha.2 hb.2
      exact ⟨by rw [h.1, h1], h2⟩

section
variable {R : Type} [CommRing R] [NumZero R] [LawfulNumZero R] (parse : List Char → Option R) (uw : Nat)

theorem Term.new_poly (v : R) (d : Nat) : (Term.new v d).poly = C v * X ^ d := by
  unfold Term.new
  by_cases h : isZero v = true
  · rw [if_pos h, (isZero_eq_true v).1 h]; simp [Term.poly]
  · rw [if_neg h]; rfl

theorem coeffText_sign_cons {c : Char} (hc : IsSign c) (num : List Char) :
    coeffText parse (c :: num) = parse (c :: (if num = [] then ['1'] else num)) := by
  unfold coeffText
  rw [if_neg (by simp)]
  by_cases h : num = []
  · subst h
    rw [if_pos (by rcases hc with rfl | rfl <;> simp)]; rfl
  · rw [if_neg (by simp [h]), if_neg h]

theorem term_flip (hneg : ∀ ds a b, parse ('+' :: ds) = some a → parse ('-' :: ds) = some b → b = -a)
    (bs : List Char) (hcl : clean bs = bs) (T T' : Term R) (h : Term.fromStr parse uw ('+' :: bs) = .ok T)
    (h' : Term.fromStr parse uw ('-' :: bs) = .ok T') : T'.poly = -T.poly := by
  have hp : clean ('+' :: bs) = '+' :: bs := by rw [clean_cons_not (by decide), hcl]
  have hm : clean ('-' :: bs) = '-' :: bs := by rw [clean_cons_not (by decide), hcl]
  have A := (C36_accept_iff parse uw _ T).1 h
  have A' := (C36_accept_iff parse uw _ T').1 h'
  rw [hp] at A
  rw [hm] at A'
  have hx' : ∀ num v, (∀ c ∈ num, IsNum c) → coeffText parse num = some v →
      ((('-' :: bs) = num ++ ['x'] ∧ T' = Term.new v 1) ∨
         (∃ a b e, (∀ c ∈ a, IsNum c) ∧ (∀ c ∈ b, IsNum c) ∧ parseUsize uw (a ++ b) = some e ∧
            (('-' :: bs) = num ++ 'x' :: (a ++ '^' :: b) ∨ ('-' :: bs) = num ++ 'x' :: (a ++ b)) ∧
            T' = Term.new v e)) → ∃ n0 r, num = '-' :: n0 ∧ bs = n0 ++ 'x' :: r := by
    intro num v hnum _ hc
    have : ∃ r, '-' :: bs = num ++ 'x' :: r := by
      rcases hc with ⟨h, _⟩ | ⟨a, b, e, _, _, _, h | h, _⟩
      exacts [⟨_, h⟩, ⟨_, h⟩, ⟨_, h⟩]
    obtain ⟨r, hr⟩ := this
    cases num with
    | nil => simp at hr
    | cons c n0 =>
      simp only [List.cons_append, List.cons.injEq] at hr
      exact ⟨n0, r, by rw [hr.1], hr.2⟩
  rcases A with ⟨v, h1, h2, rfl⟩ | ⟨num, v, h1, h2, h3⟩
  · rcases A' with ⟨v', h1', h2', rfl⟩ | ⟨num', v', h1', h2', h3'⟩
    · rw [Term.new_poly, Term.new_poly, hneg bs v v' h2 h2']; simp
    · obtain ⟨n0, r, _, hbs⟩ := hx' num' v' h1' h2' h3'
      exact absurd (h1 'x' (by rw [hbs]; simp)) not_num_x
  · -- the `+` text has an `x`
    have : ∃ n0 r, num = '+' :: n0 ∧ bs = n0 ++ 'x' :: r := by
      have : ∃ r, '+' :: bs = num ++ 'x' :: r := by
        rcases h3 with ⟨h, _⟩ | ⟨a, b, e, _, _, _, h | h, _⟩
        exacts [⟨_, h⟩, ⟨_, h⟩, ⟨_, h⟩]
      obtain ⟨r, hr⟩ := this
      cases num with
      | nil => simp at hr
      | cons c n0 =>
        simp only [List.cons_append, List.cons.injEq] at hr
        exact ⟨n0, r, by rw [hr.1], hr.2⟩
    obtain ⟨n0, r, rfl, hbs⟩ := this
    have hn0 : ∀ c ∈ n0, IsNum c := fun c hc => h1 c (by simp [hc])
    rcases A' with ⟨v', h1', h2', rfl⟩ | ⟨num', v', h1', h2', h3'⟩
    · exact absurd (h1' 'x' (by rw [hbs]; simp)) not_num_x
    · obtain ⟨n0', r', rfl, hbs'⟩ := hx' num' v' h1' h2' h3'
      have hn0' : ∀ c ∈ n0', IsNum c := fun c hc => h1' c (by simp [hc])
      obtain ⟨rfl, rfl⟩ := split_first_x (hbs.symm.trans hbs') (fun h => not_num_x (hn0 _ h))
        (fun h => not_num_x (hn0' _ h))
      have hv : v' = -v := by
        rw [coeffText_sign_cons parse (.inl rfl)] at h2
        rw [coeffText_sign_cons parse (.inr rfl)] at h2'
        exact hneg _ _ _ h2 h2'
      rcases h3 with ⟨h3, rfl⟩ | ⟨a, b, e, ha, hb, he, h3, rfl⟩
      · have hb' : '-' :: bs = ('-' :: n0) ++ ['x'] := by simpa using h3
        rw [hb', fromStr_lin parse uw h1' h2'] at h'
        cases h'
        rw [Term.new_poly, Term.new_poly, hv]; simp
      · have hT' : T' = Term.new v' e := by
          obtain ⟨k1, k2⟩ := fromStr_deg parse uw h1' h2' ha hb he
          rcases h3 with h3 | h3
          · have hb' : '-' :: bs = ('-' :: n0) ++ 'x' :: (a ++ '^' :: b) := by simpa using h3
            rw [hb', k1] at h'; cases h'; rfl
          · have hb' : '-' :: bs = ('-' :: n0) ++ 'x' :: (a ++ b) := by simpa using h3
            rw [hb', k2] at h'; cases h'; rfl
        rw [hT', Term.new_poly, Term.new_poly, hv]; simp

theorem polyFromStr_flip {S : Type} [MutPoly R S] [LawfulMutPoly R S] (z p q : S)
    (hz : LawfulMutPoly.repr (N := R) z = 0)
    (hneg : ∀ ds a b, parse ('+' :: ds) = some a → parse ('-' :: ds) = some b → b = -a) (s : List Char)
    (hs : ∃ ws c body, s = ws ++ c :: body ∧ (∀ d ∈ ws, isWhitespaceChar d = true) ∧ IsSign c)
    (h : polyFromStr z parse uw s = .ok (.ok p)) (h' : polyFromStr z parse uw (s.map flipSign) = .ok (.ok q)) :
    LawfulMutPoly.repr (N := R) q = -LawfulMutPoly.repr (N := R) p := by
  obtain ⟨ts, ht⟩ := exists_tokenization s
  obtain ⟨ht', hsg⟩ := ht.flip hs
  have hleg := C39_legal_chars z p parse uw s h
  rw [polyFromStr_eq _ _ _ _ _ ht] at h
  rw [polyFromStr_eq _ _ _ _ _ ht'] at h'
  obtain ⟨terms, h1, h2⟩ := parseList_ok parse uw _ z p false (Res.ok.inj h)
  obtain ⟨terms', h1', h2'⟩ := parseList_ok parse uw _ z q false (Res.ok.inj h')
  rw [h2, h2', hz, zero_add, zero_add]
  have hsub : ∀ t ∈ ts, ∀ c ∈ t, c ∈ s := fun t ht' c hc => by
    rw [← ht.1]; exact List.mem_flatten.2 ⟨t, ht', hc⟩
  clear h h' h2 h2' ht ht' hs
  induction ts generalizing terms terms' with
  | nil =>
    obtain rfl : terms = [] := by simpa using h1.symm
    obtain rfl : terms' = [] := by simpa using h1'.symm
    simp
  | cons t ts ih =>
    cases terms with
    | nil => cases h1
    | cons T terms =>
      cases terms' with
      | nil => cases h1'
      | cons T' terms' =>
        simp only [List.map_cons, List.cons.injEq] at h1 h1'
        rw [List.map_cons, List.map_cons, List.sum_cons, List.sum_cons,
          ih (fun u hu => hsg u (by simp [hu])) terms h1.2 terms' h1'.2
            (fun u hu => hsub u (by simp [hu]))]
        obtain ⟨ws, c, body, rfl, hws, hc, hb⟩ := hsg t (by simp)
        have hwsep : ∀ d ∈ ws, IsSep d := by
          intro d hd
          have hdw := hws d hd
          rcases hleg d (hsub (ws ++ c :: body) (by simp) d (by simp [hd])) with hm | hm
          · simp only [List.mem_cons, List.not_mem_nil, or_false] at hm
            rcases hm with rfl | rfl | rfl | rfl | rfl | rfl | rfl | rfl
            all_goals first | exact .inl rfl | exact absurd hdw (by decide)
          · exfalso
            rw [digit_not_white hm] at hdw
            cases hdw
        have c1 : clean (ws ++ c :: body) = c :: clean body := by
          rw [clean_append, clean_seps hwsep, List.nil_append, clean_cons_not (sign_not_sep hc)]
        have c2 : clean ((ws ++ c :: body).map flipSign) = flipSign c :: clean body := by
          rw [List.map_append, List.map_cons, map_flip_of_not hb,
            map_flip_of_not (fun c hc => white_not_sign (hws c hc)), clean_append, clean_seps hwsep,
            List.nil_append, clean_cons_not (sign_not_sep (flipSign_sign hc))]
        have e1 := h1.1
        have e2 := h1'.1
        rw [C35_separators parse uw _ (c :: clean body)
          (by rw [c1, clean_cons_not (sign_not_sep hc), clean_clean])] at e1
        rw [C35_separators parse uw _ (flipSign c :: clean body)
          (by rw [c2, clean_cons_not (sign_not_sep (flipSign_sign hc)), clean_clean])] at e2
        have hT : T'.poly = -T.poly := by
          rcases hc with rfl | rfl
          · exact term_flip parse uw hneg _ (clean_clean _) T T' e1 e2
          · have := term_flip parse uw hneg _ (clean_clean _) T' T e2 e1
            rw [this, neg_neg]
        rw [hT]; ring

/-- C111: exchanging `+` and `-` throughout a text whose first non-blank character is a sign negates what is
read, if both texts can be read (`-128` is an `i8`, `+128` is not). -/
theorem C111_flip [CanNegate R] [BEq R] [LawfulBEq R]
    (hneg : ∀ ds a b, parse ('+' :: ds) = some a → parse ('-' :: ds) = some b → b = -a) (s : List Char)
    (hs : ∃ ws c body, s = ws ++ c :: body ∧ (∀ d ∈ ws, isWhitespaceChar d = true) ∧ IsSign c) :
    (∀ p q, Poly.fromStr parse uw s = .ok (.ok p) → Poly.fromStr parse uw (s.map flipSign) = .ok (.ok q) →
      q.eq p.neg = true) ∧
    (∀ p q, Sparse.fromStr parse uw s = .ok (.ok p) → Sparse.fromStr parse uw (s.map flipSign) = .ok (.ok q) →
      q.eq p.neg = true) ∧
    (∀ p q, Monomial.fromStr parse uw s = .ok (.ok p) → Monomial.fromStr parse uw (s.map flipSign) = .ok (.ok q) →
      q.poly = p.neg.poly) ∧
    (∀ p q, LinearBinomial.fromStr parse uw s = .ok (.ok p) →
      LinearBinomial.fromStr parse uw (s.map flipSign) = .ok (.ok q) → q.poly = p.neg.poly) ∧
    (∀ p q, QuadraticTrinomial.fromStr parse uw s = .ok (.ok p) →
      QuadraticTrinomial.fromStr parse uw (s.map flipSign) = .ok (.ok q) → q.poly = p.neg.poly) := by
  refine ⟨?_, ?_, ?_, ?_, ?_⟩
  · intro p q h1 h2
    rw [C05_dense_eq, (C10_dense_neg p).1]
    exact polyFromStr_flip parse uw Poly.zero p q poly_repr_zero hneg s hs h1 h2
  · intro p q h1 h2
    rw [C05_sparse_eq, C10_sparse_neg p]
    exact polyFromStr_flip parse uw Sparse.zero p q sparse_repr_zero hneg s hs h1 h2
  · intro p q h1 h2
    rw [(C10_monomial_neg p).1]
    exact polyFromStr_flip parse uw Monomial.zero p q (by show C (0 : R) * X ^ 0 = 0; simp) hneg s hs h1 h2
  · intro p q h1 h2
    rw [(C10_binomial_neg p).1]
    exact polyFromStr_flip parse uw LinearBinomial.zero p q (by show C (0 : R) * X + C 0 = 0; simp) hneg s hs h1 h2
  · intro p q h1 h2
    rw [(C10_trinomial_neg p).1]
    exact polyFromStr_flip parse uw QuadraticTrinomial.zero p q
      (by show C (0 : R) * X ^ 2 + C 0 * X + C 0 = 0; simp) hneg s hs h1 h2

end

theorem parseInt_flip (t : IntTy) (ds : List Char) (a b : Int) (ha : parseInt t ('+' :: ds) = some a)
    (hb : parseInt t ('-' :: ds) = some b) : b = -a := by
  simp only [parseInt] at ha hb
  cases hd : parseDigits ds with
  | none => rw [hd] at ha; cases ha
  | some n =>
    rw [hd] at ha hb
    simp only [Option.bind_some, fitsInt] at ha hb
    split at ha
    · split at hb
      · split at hb
        · cases ha; cases hb; rfl
        · cases hb
      · cases hb
    · cases ha

/-- C111: the primitive integer types. -/
theorem C111_flip_int (t : IntTy) (uw : Nat) (s : List Char)
    (hs : ∃ ws c body, s = ws ++ c :: body ∧ (∀ d ∈ ws, isWhitespaceChar d = true) ∧ IsSign c) :
    (∀ p q : Poly Int, Poly.fromStr (parseInt t) uw s = .ok (.ok p) →
      Poly.fromStr (parseInt t) uw (s.map flipSign) = .ok (.ok q) → q.eq p.neg = true) ∧
    (∀ p q : Sparse Int, Sparse.fromStr (parseInt t) uw s = .ok (.ok p) →
      Sparse.fromStr (parseInt t) uw (s.map flipSign) = .ok (.ok q) → q.eq p.neg = true) :=
  ⟨(C111_flip (parseInt t) uw (parseInt_flip t) s hs).1, (C111_flip (parseInt t) uw (parseInt_flip t) s hs).2.1⟩

/-! ## A leading plus -/

section
variable {N S : Type} [Zero N] [NumZero N] [One N] [MutPoly N S]

theorem termLoop_plus (parse : List Char → Option N) (uw : Nat)
    (hplus : ∀ ds, (∀ c ∈ ds, ¬ IsSign c) → parse ('+' :: ds) = parse ds) (hone : parse ['+', '1'] = some 1) :
    ∀ (cs n : List Char), (∀ c ∈ cs, ¬ IsSign c) → (∀ c ∈ n, ¬ IsSign c) →
      (match termLoop parse cs ⟨'+' :: n, 1, false, false⟩ with
        | .ok st => termFinish parse uw st | .error e => .error e) =
      (match termLoop parse cs ⟨n, 1, false, false⟩ with
        | .ok st => termFinish parse uw st | .error e => .error e) := by
  intro cs
  induction cs with
  | nil =>
    intro n _ hn
    simp only [termLoop, termFinish, hplus n hn]
    rfl
  | cons c cs ih =>
    intro n hcs hn
    have hc : ¬ IsSign c := hcs c (by simp)
    have hcs' : ∀ c ∈ cs, ¬ IsSign c := fun d hd => hcs d (by simp [hd])
    by_cases h0 : IsSep c
    · rw [termLoop_cons_ok parse (termStep_sep parse _ h0), termLoop_cons_ok parse (termStep_sep parse _ h0)]
      exact ih n hcs' hn
    by_cases h1 : IsNum c
    · rw [termLoop_cons_ok parse (termStep_num parse _ h1), termLoop_cons_ok parse (termStep_num parse _ h1)]
      refine ih (n ++ [c]) hcs' (fun d hd => ?_)
      rcases List.mem_append.1 hd with hd | hd
      · exact hn d hd
      · rw [List.mem_singleton.1 hd]; exact hc
    rcases legal_cases h0 h1 with rfl | rfl | hill
    · have key : coeffText parse ('+' :: n) = coeffText parse n := by
        by_cases hn0 : n = []
        · subst hn0
          show (if _ then _ else if _ then _ else _) = _
          rw [if_neg (by simp), if_pos (.inr rfl)]
          exact hone
        · have e1 : coeffText parse ('+' :: n) = parse ('+' :: n) := by
            unfold coeffText
            rw [if_neg (by simp), if_neg (by simp [hn0])]
          have e2 : coeffText parse n = parse n := by
            unfold coeffText
            rw [if_neg hn0, if_neg]
            rintro (rfl | rfl)
            · exact hn '-' (by simp) (.inr rfl)
            · exact hn '+' (by simp) (.inl rfl)
          rw [e1, e2, hplus n hn]
      have t1 := termStep_x parse ('+' :: n)
      have t2 := termStep_x parse n
      rw [key] at t1
      cases hv : coeffText parse n with
      | none =>
        rw [hv] at t1 t2
        rw [termLoop_cons_error parse t1, termLoop_cons_error parse t2]
      | some v =>
        rw [hv] at t1 t2
        rw [termLoop_cons_ok parse t1, termLoop_cons_ok parse t2]
    · rw [termLoop_cons_error parse (termStep_caret_early parse _ _),
        termLoop_cons_error parse (termStep_caret_early parse _ _)]
    · rw [termLoop_cons_error parse (termStep_illegal parse _ hill),
        termLoop_cons_error parse (termStep_illegal parse _ hill)]

/-- C111: a `+` in front of a text whose first non-blank character is not a sign changes nothing, for every
coefficient type that itself ignores a leading `+` and reads `+1` as one. -/
theorem C111_leading_plus (zero : S) (parse : List Char → Option N) (uw : Nat)
    (hplus : ∀ ds, (∀ c ∈ ds, ¬ IsSign c) → parse ('+' :: ds) = parse ds) (hone : parse ['+', '1'] = some 1)
    (ws body : List Char) (c : Char) (hws : ∀ d ∈ ws, isWhitespaceChar d = true)
    (hc : isWhitespaceChar c = false) (hcs : ¬ IsSign c) :
    polyFromStr zero parse uw ('+' :: (ws ++ c :: body)) = polyFromStr zero parse uw (ws ++ c :: body) := by
  obtain ⟨ts, h⟩ := exists_tokenization (ws ++ c :: body)
  cases ts with
  | nil => have := h.1; simp at this
  | cons t rest =>
    obtain ⟨e, h0⟩ := h
    have hcm : c ∈ (t :: rest).flatten := by rw [e]; simp
    rcases h0 with ⟨⟨ws', k, tb, rfl, hws', hk, hb⟩, hr⟩ | ⟨_, hwt, rfl⟩
    · have hks : ¬ IsSign k := by
        rw [List.flatten_cons, List.append_assoc] at e
        rcases List.append_eq_append_iff.1 e with ⟨u, h1, h2⟩ | ⟨u, h1, h2⟩
        · cases u with
          | nil =>
            simp only [List.cons_append, List.nil_append, List.cons.injEq] at h2
            exact h2.1 ▸ hcs
          | cons w u =>
            simp only [List.cons_append, List.cons.injEq] at h2
            have := hws w (by rw [h1]; simp)
            rw [← h2.1, hk] at this
            cases this
        · cases u with
          | nil =>
            simp only [List.cons_append, List.nil_append, List.cons.injEq] at h2
            exact h2.1 ▸ hcs
          | cons w u =>
            simp only [List.cons_append, List.cons.injEq] at h2
            have := hws' w (by rw [h1]; simp)
            rw [← h2.1, hc] at this
            cases this
      have hns : ∀ d ∈ ws' ++ k :: tb, ¬ IsSign d := by
        intro d hd
        rcases List.mem_append.1 hd with hd | hd
        · exact white_not_sign (hws' d hd)
        · rcases List.mem_cons.1 hd with rfl | hd
          exacts [hks, hb d hd]
      have ht1 : IsTokenization (ws ++ c :: body) ((ws' ++ k :: tb) :: rest) :=
        ⟨e, .inl ⟨⟨ws', k, tb, rfl, hws', hk, hb⟩, hr⟩⟩
      have ht2 : IsTokenization ('+' :: (ws ++ c :: body)) (('+' :: (ws' ++ k :: tb)) :: rest) :=
        ⟨by rw [List.flatten_cons, List.cons_append, ← List.flatten_cons, e],
          .inl ⟨⟨[], '+', ws' ++ k :: tb, rfl, by simp, by decide, hns⟩, hr⟩⟩
      rw [polyFromStr_eq _ _ _ _ _ ht1, polyFromStr_eq _ _ _ _ _ ht2]
      congr 1
      apply parseList_congr
      rw [List.map_cons, List.map_cons]
      congr 1
      unfold Term.fromStr
      rw [termLoop_cons_ok parse (termStep_num parse _ (by decide))]
      exact termLoop_plus parse uw hplus hone _ [] hns (by simp)
    · exfalso
      have := hwt c (by simpa using hcm)
      rw [hc] at this
      cases this

end

theorem parseInt_plus_none (t : IntTy) (ds : List Char) (h : ∀ c ∈ ds, ¬ IsSign c) :
    parseInt t ('+' :: ds) = parseInt t ds := by
  cases ds with
  | nil => rfl
  | cons c ds =>
    have hc := h c (by simp)
    have h1 : c ≠ '+' := fun h => hc (.inl h)
    have h2 : c ≠ '-' := fun h => hc (.inr h)
    rw [parseInt, parseInt.eq_3 t (c :: ds) (by simp [h1]) (by simp [h2])]

/-- C111: the primitive integer types. -/
theorem C111_leading_plus_int {S : Type} [MutPoly Int S] (zero : S) (t : IntTy) (h1 : t.InRange 1) (uw : Nat)
    (ws body : List Char) (c : Char) (hws : ∀ d ∈ ws, isWhitespaceChar d = true)
    (hc : isWhitespaceChar c = false) (hcs : ¬ IsSign c) :
    polyFromStr zero (parseInt t) uw ('+' :: (ws ++ c :: body)) =
      polyFromStr zero (parseInt t) uw (ws ++ c :: body) := by
  refine C111_leading_plus zero (parseInt t) uw (parseInt_plus_none t) ?_ ws body c hws hc hcs
  have : parseDigits ['1'] = some 1 := by decide
  simp only [parseInt, this, Option.bind_some, fitsInt]
  exact if_pos h1

-- `3x^2 - x` and `+4 +x^2` read together give the sum; a second piece that does not begin with a sign
-- joins the last term of the first instead
example : Poly.fromStr (parseInt ⟨true, 32⟩) 64 "3x^2 - x".toList = .ok (.ok ⟨[3, -1, 0]⟩) ∧
    Poly.fromStr (parseInt ⟨true, 32⟩) 64 "+4 +x^2".toList = .ok (.ok ⟨[1, 0, 4]⟩) ∧
    Poly.fromStr (parseInt ⟨true, 32⟩) 64 "3x^2 - x+4 +x^2".toList = .ok (.ok ⟨[4, -1, 4]⟩) ∧
    Poly.fromStr (parseInt ⟨true, 32⟩) 64 ("+3x".toList ++ "2".toList) = .ok (.ok ⟨[3, 0, 0]⟩) ∧
    Poly.fromStr (parseInt ⟨true, 32⟩) 64 ("+3y".toList ++ "-2".toList) =
      .ok (.error (.termFromString (.unexpectedChar 'y'))) := by decide +kernel

-- exchanged pieces: `+3x^2-x` and `-x+3x^2`
example : Poly.fromStr (parseInt ⟨true, 32⟩) 64 ("+3x^2".toList ++ "-x".toList) = .ok (.ok ⟨[3, -1, 0]⟩) ∧
    Poly.fromStr (parseInt ⟨true, 32⟩) 64 ("-x".toList ++ "+3x^2".toList) = .ok (.ok ⟨[3, -1, 0]⟩) := by decide +kernel

-- separators: `_1,000 x ^ 2 - _ 5` and `1000x^2-5` are read alike; ` +3` is read, `_+3` and `, -3x` are not
example : Poly.fromStr (parseInt ⟨true, 32⟩) 64 ("_".toList ++ '1' :: ",000 x ^ 2 - _ 5".toList) = .ok (.ok ⟨[1000, 0, -5]⟩) ∧
    clean ("_".toList ++ '1' :: ",000 x ^ 2 - _ 5".toList) = "1000x^2-5".toList ∧
    Poly.fromStr (parseInt ⟨true, 32⟩) 64 "1000x^2-5".toList = .ok (.ok ⟨[1000, 0, -5]⟩) ∧
    Poly.fromStr (parseInt ⟨true, 32⟩) 64 (" ".toList ++ '+' :: "3".toList) = .ok (.ok ⟨[3]⟩) ∧
    Poly.fromStr (parseInt ⟨true, 32⟩) 64 ("_".toList ++ '+' :: "3".toList) =
      .ok (.error (.termFromString .coeffCouldNotBeParsed)) ∧
    Poly.fromStr (parseInt ⟨true, 32⟩) 64 (", ".toList ++ '-' :: "3x".toList) =
      .ok (.error (.termFromString .coeffCouldNotBeParsed)) ∧
    parseInt ⟨true, 32⟩ [] = none := by decide +kernel

-- `-3x^2 + x - 4` with the signs exchanged; `-128x` is an `i8` polynomial, `+128x` is not
example : ("-3x^2 + x - 4".toList).map flipSign = "+3x^2 - x + 4".toList ∧
    Poly.fromStr (parseInt ⟨true, 32⟩) 64 "-3x^2 + x - 4".toList = .ok (.ok ⟨[-3, 1, -4]⟩) ∧
    Poly.fromStr (parseInt ⟨true, 32⟩) 64 "+3x^2 - x + 4".toList = .ok (.ok ⟨[3, -1, 4]⟩) ∧
    Poly.fromStr (parseInt ⟨true, 8⟩) 64 "-128x".toList = .ok (.ok ⟨[-128, 0]⟩) ∧
    Poly.fromStr (parseInt ⟨true, 8⟩) 64 "+128x".toList =
      .ok (.error (.termFromString .coeffCouldNotBeParsed)) := by decide +kernel

-- a leading plus
example : Poly.fromStr (parseInt ⟨false, 8⟩) 64 " x^2+7".toList = .ok (.ok ⟨[1, 0, 7]⟩) ∧
    Poly.fromStr (parseInt ⟨false, 8⟩) 64 ('+' :: " x^2+7".toList) = .ok (.ok ⟨[1, 0, 7]⟩) := by decide +kernel

end Rustnomial
