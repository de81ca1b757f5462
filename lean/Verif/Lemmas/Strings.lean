import Verif.SpecStrings
import Mathlib.Tactic.Ring

/-!
# Lemmas about strings, the tokenizer and term parsing
-/

set_option linter.unusedSectionVars false

namespace Rustnomial

/-! ## Bytes -/

@[simp] theorem byteLen_nil : byteLen [] = 0 := rfl
theorem byteLen_cons (c : Char) (s : List Char) : byteLen (c :: s) = c.utf8Size + byteLen s := by
  simp [byteLen]
theorem byteLen_append (a b : List Char) : byteLen (a ++ b) = byteLen a + byteLen b := by
  simp [byteLen]
theorem byteLen_pos {s : List Char} (h : s ≠ []) : 0 < byteLen s := by
  cases s with
  | nil => exact absurd rfl h
  | cons c s => rw [byteLen_cons]; have := c.utf8Size_pos; omega

theorem splitByte_append (a b : List Char) : splitByte (a ++ b) (byteLen a) = some (a, b) := by
  induction a with
  | nil => simp [splitByte]
  | cons c a ih =>
    have hp := c.utf8Size_pos
    rw [byteLen_cons]
    obtain ⟨n, hn⟩ : ∃ n, c.utf8Size + byteLen a = n + 1 := ⟨c.utf8Size + byteLen a - 1, by omega⟩
    rw [hn, List.cons_append, splitByte, if_pos (by omega), ← hn, Nat.add_sub_cancel_left, ih]

theorem sliceStr_mid (a b c : List Char) :
    sliceStr (a ++ (b ++ c)) (byteLen a) (byteLen a + byteLen b) = .ok b := by
  unfold sliceStr
  rw [if_pos (by omega), ← List.append_assoc, ← byteLen_append, splitByte_append]
  simp only
  rw [splitByte_append]

theorem charIndices_append (a b : List Char) (off : Nat) :
    charIndices off (a ++ b) = charIndices off a ++ charIndices (off + byteLen a) b := by
  induction a generalizing off with
  | nil => simp [charIndices]
  | cons c a ih => simp [charIndices, ih, byteLen_cons, Nat.add_assoc]

/-! ## The tokenizer -/

theorem isSign_bool (c : Char) : ((c = '+' || c = '-') = true) ↔ IsSign c := by simp [IsSign]

theorem nextLoop_body (len start : Nat) (body : List Char) (h : ∀ d ∈ body, ¬ IsSign d) :
    ∀ (off : Nat) (r : List Char),
      Tokenizer.nextLoop len start (charIndices off (body ++ r)) true =
        Tokenizer.nextLoop len start (charIndices (off + byteLen body) r) true := by
  induction body with
  | nil => intro off r; simp
  | cons c body ih =>
    intro off r
    rw [List.cons_append, charIndices, Tokenizer.nextLoop, if_neg (by rw [isSign_bool]; exact h c (by simp)),
      if_neg (by simp), ih (fun d hd => h d (by simp [hd])), byteLen_cons, Nat.add_assoc]

theorem whitespace_not_sign {c : Char} (h : isWhitespaceChar c = true) : ¬ IsSign c := by
  rintro (rfl | rfl) <;> revert h <;> decide

theorem nextLoop_blank (len start : Nat) (ws : List Char) (h : ∀ d ∈ ws, isWhitespaceChar d = true) :
    ∀ (off : Nat) (r : List Char),
      Tokenizer.nextLoop len start (charIndices off (ws ++ r)) false =
        Tokenizer.nextLoop len start (charIndices (off + byteLen ws) r) false := by
  induction ws with
  | nil => intro off r; simp
  | cons c ws ih =>
    intro off r
    have hc := h c (by simp)
    rw [List.cons_append, charIndices, Tokenizer.nextLoop,
      if_neg (by rw [isSign_bool]; exact whitespace_not_sign hc),
      if_neg (by simp [hc]), ih (fun d hd => h d (by simp [hd])), byteLen_cons, Nat.add_assoc]

/-- The tokenizer yields the given ranges, which select the given pieces of `s`. -/
inductive Yields (s : List Char) : Tokenizer → List (Nat × Nat) → List (List Char) → Prop
  | nil (tok tok' : Tokenizer) (h : tok.next = (none, tok')) : Yields s tok [] []
  | cons (tok tok' : Tokenizer) (a b : Nat) (t : List Char) (rs : List (Nat × Nat)) (ts : List (List Char))
      (h : tok.next = (some (a, b), tok')) (hs : sliceStr s a b = .ok t) (hr : Yields s tok' rs ts) :
      Yields s tok ((a, b) :: rs) (t :: ts)

theorem yields_seen (s : List Char) : ∀ (ts : List (List Char)) (done t0 body : List Char),
    (∀ t ∈ ts, SignToken t) → (∀ d ∈ body, ¬ IsSign d) → t0 ≠ [] →
    s = done ++ ((t0 ++ body) ++ ts.flatten) →
    Yields s ⟨charIndices (byteLen done + byteLen t0) (body ++ ts.flatten), true, byteLen done, byteLen s⟩
      (rangesOf (byteLen done) ((t0 ++ body) :: ts)) ((t0 ++ body) :: ts) := by
  intro ts
  induction ts with
  | nil =>
    intro done t0 body _ hb ht0 hs
    have hlen : byteLen s = byteLen done + byteLen (t0 ++ body) := by
      rw [hs]; simp [byteLen_append]
    have h0 := byteLen_pos ht0
    have hnext : Tokenizer.next ⟨charIndices (byteLen done + byteLen t0) (body ++ [].flatten), true,
        byteLen done, byteLen s⟩ = (some (byteLen done, byteLen s), ⟨[], true, byteLen s, byteLen s⟩) := by
      unfold Tokenizer.next
      rw [nextLoop_body _ _ body hb]
      simp only [List.flatten_nil, charIndices, Tokenizer.nextLoop]
      rw [if_pos (by rw [hlen, byteLen_append]; omega)]
    rw [hlen] at hnext ⊢
    refine .cons _ _ _ _ _ _ _ hnext ?_ ?_
    · have := sliceStr_mid done (t0 ++ body) []
      rw [List.append_nil] at this
      rw [hs]; simpa using this
    · exact .nil _ ⟨[], true, byteLen done + byteLen (t0 ++ body), byteLen done + byteLen (t0 ++ body)⟩
        (by simp [Tokenizer.next, Tokenizer.nextLoop])
  | cons t ts ih =>
    intro done t0 body hts hb ht0 hs
    obtain ⟨c, b2, rfl, hc, hb2⟩ := hts t (by simp)
    have hrec := ih (done ++ (t0 ++ body)) [c] b2 (fun t ht => hts t (by simp [ht])) hb2 (by simp)
      (by rw [hs]; simp)
    have hd : byteLen (done ++ (t0 ++ body)) = byteLen done + byteLen (t0 ++ body) := byteLen_append _ _
    have hnext : Tokenizer.next ⟨charIndices (byteLen done + byteLen t0) (body ++ ((c :: b2) :: ts).flatten),
        true, byteLen done, byteLen s⟩ = (some (byteLen done, byteLen done + byteLen (t0 ++ body)),
        ⟨charIndices (byteLen (done ++ (t0 ++ body)) + byteLen [c]) (b2 ++ ts.flatten), true,
          byteLen (done ++ (t0 ++ body)), byteLen s⟩) := by
      unfold Tokenizer.next
      rw [nextLoop_body _ _ body hb]
      rw [show ((c :: b2) :: ts).flatten = c :: (b2 ++ ts.flatten) by simp, charIndices, Tokenizer.nextLoop,
        if_pos ((isSign_bool c).2 hc), if_pos rfl]
      simp [byteLen_append, byteLen_cons, Nat.add_assoc]
    refine .cons _ _ _ _ _ _ _ hnext ?_ ?_
    · rw [hs]; exact sliceStr_mid done (t0 ++ body) _
    · rw [← hd]; exact hrec

theorem yields_new (s : List Char) (ts : List (List Char)) (h : IsTokenization s ts) :
    Yields s (Tokenizer.new s) (rangesOf 0 ts) ts := by
  obtain ⟨hs, h⟩ := h
  cases ts with
  | nil =>
    subst hs
    exact .nil _ ⟨[], false, 0, 0⟩ rfl
  | cons t rest =>
    rcases h with ⟨⟨ws, c, body, rfl, hws, hc, hb⟩, hrest⟩ | ⟨ht, hws, rfl⟩
    · have := yields_seen s rest [] (ws ++ [c]) body hrest hb (by simp) (by rw [← hs]; simp)
      have hn : (Tokenizer.new s).next = Tokenizer.next
          ⟨charIndices (byteLen [] + byteLen (ws ++ [c])) (body ++ rest.flatten), true, byteLen [], byteLen s⟩ := by
        unfold Tokenizer.next Tokenizer.new
        simp only
        rw [← hs, show ((ws ++ c :: body) :: rest).flatten = ws ++ (c :: (body ++ rest.flatten)) by simp,
          nextLoop_blank _ _ ws hws, charIndices, Tokenizer.nextLoop]
        split
        · simp [byteLen_append, byteLen_cons]
        · rw [if_pos (by simp [hc])]
          simp [byteLen_append, byteLen_cons]
      have e : ws ++ [c] ++ body = ws ++ c :: body := by simp
      rw [e] at this
      cases this with
      | cons _ tok' _ _ _ _ _ h1 h2 h3 => exact .cons _ tok' _ _ _ _ _ (hn.trans h1) h2 h3
    · have ht' : t = s := by rw [← hs]; simp
      subst ht'
      have hp := byteLen_pos ht
      refine .cons _ ⟨[], false, byteLen t, byteLen t⟩ _ _ _ _ _ ?_ ?_ ?_
      · unfold Tokenizer.next Tokenizer.new
        have := nextLoop_blank (byteLen t) 0 t hws 0 []
        rw [List.append_nil] at this
        simp only
        rw [this, charIndices, Tokenizer.nextLoop, if_pos (by omega)]
        simp
      · have := sliceStr_mid [] t []
        simpa using this
      · exact .nil _ ⟨[], false, byteLen t, byteLen t⟩ (by simp [Tokenizer.next, Tokenizer.nextLoop])

theorem Yields.collect {s : List Char} {tok : Tokenizer} {rs : List (Nat × Nat)} {ts : List (List Char)}
    (h : Yields s tok rs ts) : ∀ f, rs.length < f → tok.collect f = .ok rs := by
  induction h with
  | nil tok tok' h =>
    intro f hf
    obtain ⟨f, rfl⟩ : ∃ g, f = g + 1 := ⟨f - 1, by omega⟩
    rw [Tokenizer.collect, h]
  | cons tok tok' a b t rs ts h hs hr ih =>
    intro f hf
    obtain ⟨f, rfl⟩ : ∃ g, f = g + 1 := ⟨f - 1, by omega⟩
    rw [Tokenizer.collect, h]
    simp only
    rw [ih f (by simpa using hf), Res.ok_bind]

/-- A string cut at its signs. -/
theorem split_signs (s : List Char) : ∃ (body : List Char) (ts : List (List Char)), s = body ++ ts.flatten ∧ (∀ d ∈ body, ¬ IsSign d) ∧
    ∀ t ∈ ts, SignToken t := by
  induction s with
  | nil => exact ⟨[], [], rfl, by simp, by simp⟩
  | cons c s ih =>
    obtain ⟨body, ts, h1, h2, h3⟩ := ih
    by_cases hc : IsSign c
    · refine ⟨[], (c :: body) :: ts, by simp [h1], by simp, ?_⟩
      intro t ht
      rcases List.mem_cons.1 ht with rfl | ht
      · exact ⟨c, body, rfl, hc, h2⟩
      · exact h3 t ht
    · refine ⟨c :: body, ts, by simp [h1], ?_, h3⟩
      intro d hd
      rcases List.mem_cons.1 hd with rfl | hd
      · exact hc
      · exact h2 d hd

/-- Every string has a tokenization. -/
theorem exists_tokenization (s : List Char) : ∃ ts, IsTokenization s ts := by
  by_cases h0 : s = []
  · exact ⟨[], by rw [h0]; rfl, trivial⟩
  · have hsplit : s.takeWhile isWhitespaceChar ++ s.dropWhile isWhitespaceChar = s :=
      List.takeWhile_append_dropWhile
    have hws : ∀ d ∈ s.takeWhile isWhitespaceChar, isWhitespaceChar d = true := fun d hd => by
      have := List.all_takeWhile (p := isWhitespaceChar) (l := s)
      exact List.all_eq_true.1 this d hd
    cases hd : s.dropWhile isWhitespaceChar with
    | nil =>
      rw [hd, List.append_nil] at hsplit
      rw [hsplit] at hws
      exact ⟨[s], by simp, .inr ⟨h0, hws, rfl⟩⟩
    | cons c r =>
      have hc : isWhitespaceChar c = false := by
        have := List.head?_dropWhile_not isWhitespaceChar s
        rw [hd] at this
        simpa using this
      obtain ⟨body, ts, h1, h2, h3⟩ := split_signs r
      refine ⟨(s.takeWhile isWhitespaceChar ++ c :: body) :: ts, ?_, .inl ⟨⟨_, c, body, rfl, hws, hc, h2⟩, h3⟩⟩
      conv_rhs => rw [← hsplit, hd, h1]
      simp

theorem IsTokenization.ne_nil {s : List Char} {ts : List (List Char)} (h : IsTokenization s ts) :
    ∀ t ∈ ts, t ≠ [] := by
  obtain ⟨_, h⟩ := h
  cases ts with
  | nil => simp
  | cons t rest =>
    intro u hu
    rcases h with ⟨⟨ws, c, body, rfl, _⟩, hr⟩ | ⟨h1, _, rfl⟩
    · rcases List.mem_cons.1 hu with rfl | hu
      · simp
      · obtain ⟨c, b, rfl, _⟩ := hr u hu; simp
    · simp at hu; rw [hu]; exact h1

theorem length_le_of_ne_nil {ts : List (List Char)} (h : ∀ t ∈ ts, t ≠ []) : ts.length ≤ ts.flatten.length := by
  induction ts with
  | nil => simp
  | cons t ts ih =>
    have h1 := List.length_pos_of_ne_nil (h t (by simp))
    have := ih (fun t ht => h t (by simp [ht]))
    simp only [List.length_cons, List.flatten_cons, List.length_append]
    omega

theorem rangesOf_length (off : Nat) (ts : List (List Char)) : (rangesOf off ts).length = ts.length := by
  induction ts generalizing off with
  | nil => rfl
  | cons t ts ih => simp [rangesOf, ih]

/-! ## Terms -/

theorem isNum_not_sep {c : Char} (h : IsNum c) : ¬ IsSep c := by
  rintro (rfl | rfl | rfl) <;> revert h <;> decide

section
variable {N : Type} (parse : List Char → Option N)

theorem termStep_sep (st : TermState N) {c : Char} (h : IsSep c) : termStep parse st c = .ok st := by
  unfold termStep
  rw [if_pos (by simpa [IsSep, or_assoc] using h)]

theorem sep_bool (c : Char) : ((c = ' ' || c = ',' || c = '_') = true) ↔ IsSep c := by
  simp [IsSep, or_assoc]
theorem num_bool (c : Char) : ((c = '+' || c = '-' || c = '.' || isDigitChar c) = true) ↔ IsNum c := by
  simp [IsNum, or_assoc]

theorem termStep_num (st : TermState N) {c : Char} (h : IsNum c) :
    termStep parse st c = .ok { st with numVec := st.numVec ++ [c] } := by
  unfold termStep
  rw [if_neg (by rw [sep_bool]; exact isNum_not_sep h), if_pos ((num_bool c).2 h)]

theorem termLoop_clean (s : List Char) : ∀ st : TermState N,
    termLoop parse s st = termLoop parse (clean s) st := by
  induction s with
  | nil => intro st; rfl
  | cons c s ih =>
    intro st
    by_cases h : IsSep c
    · rw [termLoop, termStep_sep parse st h]
      simp only
      rw [ih]; simp [clean, h]
    · have : clean (c :: s) = c :: clean s := by simp [clean, h]
      rw [this, termLoop, termLoop]
      cases termStep parse st c with
      | ok st' => exact ih st'
      | error e => rfl

theorem termLoop_num (ds : List Char) (h : ∀ c ∈ ds, IsNum c) : ∀ (r : List Char) (st : TermState N),
    termLoop parse (ds ++ r) st = termLoop parse r { st with numVec := st.numVec ++ ds } := by
  induction ds with
  | nil => intro r st; simp
  | cons c ds ih =>
    intro r st
    rw [List.cons_append, termLoop, termStep_num parse st (h c (by simp))]
    simp only
    rw [ih (fun c hc => h c (by simp [hc]))]
    simp

/-- Splitting off the longest prefix of number characters. -/
theorem split_num (l : List Char) : ∃ num r, l = num ++ r ∧ (∀ c ∈ num, IsNum c) ∧
    (r = [] ∨ ∃ c r', r = c :: r' ∧ ¬ IsNum c) := by
  induction l with
  | nil => exact ⟨[], [], rfl, by simp, .inl rfl⟩
  | cons c l ih =>
    by_cases h : IsNum c
    · obtain ⟨num, r, h1, h2, h3⟩ := ih
      refine ⟨c :: num, r, by simp [h1], ?_, h3⟩
      intro d hd
      rcases List.mem_cons.1 hd with rfl | hd
      exacts [h, h2 d hd]
    · exact ⟨[], c :: l, rfl, by simp, .inr ⟨c, l, rfl, h⟩⟩

/-- A character with no meaning in a term. -/
def Illegal (c : Char) : Prop := ¬ IsSep c ∧ ¬ IsNum c ∧ c ≠ 'x' ∧ c ≠ '^'

theorem termStep_illegal (st : TermState N) {c : Char} (h : Illegal c) :
    termStep parse st c = .error (.unexpectedChar c) := by
  unfold termStep
  rw [if_neg (by rw [sep_bool]; exact h.1), if_neg (by rw [num_bool]; exact h.2.1), if_neg h.2.2.1,
    if_neg h.2.2.2]

variable [One N]

theorem termStep_x (num : List Char) :
    termStep parse ⟨num, 1, false, false⟩ 'x' = match coeffText parse num with
      | some v => .ok ⟨[], v, true, false⟩
      | none => .error .coeffCouldNotBeParsed := by
  unfold termStep coeffText
  rw [if_neg (by decide), if_neg (by decide), if_pos rfl, if_neg (by simp)]
  by_cases h : num = []
  · subst h; simp
  · have he : num.isEmpty = false := by simpa using h
    simp only [he]
    rw [if_neg (by simp), if_neg h]
    by_cases h1 : num = ['-'] ∨ num = ['+']
    · have hl : num.length = 1 := by rcases h1 with rfl | rfl <;> rfl
      rw [if_pos h1, if_pos ⟨hl, h1⟩]; cases parse (num ++ ['1']) <;> rfl
    · rw [if_neg h1, if_neg (fun h => h1 h.2)]; cases parse num <;> rfl

theorem termStep_x_again (num : List Char) (c : N) (k : Bool) :
    termStep parse ⟨num, c, true, k⟩ 'x' = .error .moreThanOneX := by
  unfold termStep
  rw [if_neg (by decide), if_neg (by decide), if_pos rfl, if_pos rfl]

theorem termStep_caret (num : List Char) (c : N) :
    termStep parse ⟨num, c, true, false⟩ '^' = .ok ⟨num, c, true, true⟩ := by
  unfold termStep
  rw [if_neg (by decide), if_neg (by decide), if_neg (by decide), if_pos rfl, if_neg (by simp), if_neg (by simp)]

theorem termStep_caret_early (num : List Char) (c : N) :
    termStep parse ⟨num, c, false, false⟩ '^' = .error .caretWithoutXInFront := by
  unfold termStep
  rw [if_neg (by decide), if_neg (by decide), if_neg (by decide), if_pos rfl, if_neg (by simp), if_pos (by simp)]

theorem termStep_caret_again (num : List Char) (c : N) :
    termStep parse ⟨num, c, true, true⟩ '^' = .error .multipleCarets := by
  unfold termStep
  rw [if_neg (by decide), if_neg (by decide), if_neg (by decide), if_pos rfl, if_pos rfl]

theorem termLoop_cons_error {st : TermState N} {c : Char} {cs : List Char} {e : TermFromStringError}
    (h : termStep parse st c = .error e) : termLoop parse (c :: cs) st = .error e := by
  rw [termLoop, h]

theorem termLoop_cons_ok {st st' : TermState N} {c : Char} {cs : List Char}
    (h : termStep parse st c = .ok st') : termLoop parse (c :: cs) st = termLoop parse cs st' := by
  rw [termLoop, h]

theorem legal_cases {c : Char} (h0 : ¬ IsSep c) (h1 : ¬ IsNum c) : c = 'x' ∨ c = '^' ∨ Illegal c := by
  by_cases hx : c = 'x'
  · exact .inl hx
  · by_cases hc : c = '^'
    · exact .inr (.inl hc)
    · exact .inr (.inr ⟨h0, h1, hx, hc⟩)

variable [Zero N] [NumZero N] (uw : Nat)

/-- All ways a text can be processed. -/
theorem term_cases (s : List Char) :
    (∃ num, clean s = num ∧ (∀ c ∈ num, IsNum c) ∧
      Term.fromStr parse uw s = match parse num with
        | some v => .ok (Term.new v 0)
        | none => .error .coeffCouldNotBeParsed) ∨
    (∃ num r, clean s = num ++ '^' :: r ∧ (∀ c ∈ num, IsNum c) ∧
      Term.fromStr parse uw s = .error .caretWithoutXInFront) ∨
    (∃ l c r, clean s = l ++ c :: r ∧ Illegal c ∧ Term.fromStr parse uw s = .error (.unexpectedChar c)) ∨
    (∃ num r, clean s = num ++ 'x' :: r ∧ (∀ c ∈ num, IsNum c) ∧ coeffText parse num = none ∧
      Term.fromStr parse uw s = .error .coeffCouldNotBeParsed) ∨
    (∃ l r, clean s = l ++ 'x' :: r ∧ 'x' ∈ l ∧ Term.fromStr parse uw s = .error .moreThanOneX) ∨
    (∃ l r, clean s = l ++ '^' :: r ∧ '^' ∈ l ∧ Term.fromStr parse uw s = .error .multipleCarets) ∨
    (∃ num v a, clean s = num ++ 'x' :: a ∧ (∀ c ∈ num, IsNum c) ∧ (∀ c ∈ a, IsNum c) ∧
      coeffText parse num = some v ∧
      Term.fromStr parse uw s = if a = [] then .ok (Term.new v 1) else match parseUsize uw a with
        | some e => .ok (Term.new v e)
        | none => .error .coeffCouldNotBeParsed) ∨
    (∃ num v a b, clean s = num ++ 'x' :: a ++ '^' :: b ∧ (∀ c ∈ num, IsNum c) ∧ (∀ c ∈ a, IsNum c) ∧
      (∀ c ∈ b, IsNum c) ∧ coeffText parse num = some v ∧
      Term.fromStr parse uw s = if a ++ b = [] then .error .caretWithoutDegree
        else match parseUsize uw (a ++ b) with
        | some e => .ok (Term.new v e)
        | none => .error .coeffCouldNotBeParsed) := by
  have hclean : ∀ c ∈ clean s, ¬ IsSep c := by
    intro c hc; simpa [clean] using (List.mem_filter.1 hc).2
  have hF : Term.fromStr parse uw s = match termLoop parse (clean s) ⟨[], 1, false, false⟩ with
      | .ok st => termFinish parse uw st
      | .error e => .error e := by
    unfold Term.fromStr
    rw [termLoop_clean]
    cases termLoop parse (clean s) ⟨[], 1, false, false⟩ <;> rfl
  generalize clean s = l at *
  obtain ⟨num, r, rfl, hnum, hr⟩ := split_num l
  rw [termLoop_num parse num hnum] at hF
  simp only [List.nil_append] at hF
  rcases hr with rfl | ⟨c, r, rfl, hc⟩
  · left
    refine ⟨num, by simp, hnum, ?_⟩
    rw [hF]
    simp [termLoop, termFinish]
    rfl
  · rcases legal_cases (hclean c (by simp)) hc with rfl | rfl | hill
    · -- x
      cases hv : coeffText parse num with
      | none =>
        iterate 3 right
        left
        refine ⟨num, r, rfl, hnum, hv, ?_⟩
        rw [hF, termLoop_cons_error parse (e := .coeffCouldNotBeParsed) (by rw [termStep_x, hv])]
      | some v =>
        rw [termLoop_cons_ok parse (st' := ⟨[], v, true, false⟩) (by rw [termStep_x, hv])] at hF
        obtain ⟨a, r2, rfl, ha, hr2⟩ := split_num r
        rw [termLoop_num parse a ha] at hF
        simp only [List.nil_append] at hF
        rcases hr2 with rfl | ⟨c, r2, rfl, hc2⟩
        · iterate 6 right
          left
          refine ⟨num, v, a, by simp, hnum, ha, hv, ?_⟩
          rw [hF]
          simp only [termLoop, termFinish, if_true]
          by_cases h : a = []
          · subst h; rfl
          · have : a.isEmpty = false := by simpa using h
            rw [this, if_neg h]
            rfl
        · rcases legal_cases (hclean c (by simp)) hc2 with rfl | rfl | hill
          · iterate 4 right
            left
            refine ⟨num ++ 'x' :: a, r2, by simp, by simp, ?_⟩
            rw [hF, termLoop_cons_error parse (termStep_x_again parse a v false)]
          · rw [termLoop_cons_ok parse (termStep_caret parse a v)] at hF
            obtain ⟨b, r3, rfl, hb, hr3⟩ := split_num r2
            rw [termLoop_num parse b hb] at hF
            simp only at hF
            rcases hr3 with rfl | ⟨c, r3, rfl, hc3⟩
            · iterate 7 right
              refine ⟨num, v, a, b, by simp, hnum, ha, hb, hv, ?_⟩
              rw [hF]
              simp only [termLoop, termFinish, if_true]
              by_cases h : a ++ b = []
              · rw [h]; rfl
              · have : (a ++ b).isEmpty = false := by rw [List.isEmpty_eq_false_iff]; exact h
                rw [this, if_neg h]
                rfl
            · rcases legal_cases (hclean c (by simp)) hc3 with rfl | rfl | hill
              · iterate 4 right
                left
                refine ⟨num ++ 'x' :: (a ++ '^' :: b), r3, by simp, by simp, ?_⟩
                rw [hF, termLoop_cons_error parse (termStep_x_again parse (a ++ b) v true)]
              · iterate 5 right
                left
                refine ⟨num ++ 'x' :: (a ++ '^' :: b), r3, by simp, by simp, ?_⟩
                rw [hF, termLoop_cons_error parse (termStep_caret_again parse (a ++ b) v)]
              · iterate 2 right
                left
                refine ⟨num ++ 'x' :: (a ++ '^' :: b), c, r3, by simp, hill, ?_⟩
                rw [hF, termLoop_cons_error parse (termStep_illegal parse _ hill)]
          · iterate 2 right
            left
            refine ⟨num ++ 'x' :: a, c, r2, by simp, hill, ?_⟩
            rw [hF, termLoop_cons_error parse (termStep_illegal parse _ hill)]
    · right; left
      refine ⟨num, r, rfl, hnum, ?_⟩
      rw [hF, termLoop_cons_error parse (termStep_caret_early parse num 1)]
    · right; right; left
      refine ⟨num, c, r, rfl, hill, ?_⟩
      rw [hF, termLoop_cons_error parse (termStep_illegal parse _ hill)]

end

end Rustnomial
