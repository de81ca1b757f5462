import Verif.Lemmas.Decimal
import Verif.Props.Mutation

/-!
# Tokenizing and parsing (C34, C35, C36, C39)
-/

open Polynomial

set_option linter.unusedSectionVars false

namespace Rustnomial

/-! ## C34: the tokenizer -/

/-- C34: for every string the tokenizer produces the ranges of a partition of the string at its
signs: the pieces are consecutive from byte 0 to the byte length, not empty, every range is a valid
slice and selects its piece, and every piece after the first starts with a sign.  The ranges are
produced within `s.length + 2` calls. -/
theorem C34_tokenizer (s : List Char) :
    ∃ ts : List (List Char), IsTokenization s ts ∧ (∀ t ∈ ts, t ≠ []) ∧ ts.flatten = s ∧
      (∀ t ∈ ts.tail, ∃ c body, t = c :: body ∧ (c = '+' ∨ c = '-')) ∧
      (Tokenizer.new s).collect (s.length + 2) = .ok (rangesOf 0 ts) ∧
      List.Forall₂ (fun r t => sliceStr s r.1 r.2 = .ok t) (rangesOf 0 ts) ts := by
  obtain ⟨ts, h⟩ := exists_tokenization s
  have hy := yields_new s ts h
  refine ⟨ts, h, h.ne_nil, h.1, ?_, ?_, ?_⟩
  · obtain ⟨_, h⟩ := h
    cases ts with
    | nil => simp
    | cons t rest =>
      rcases h with ⟨_, h⟩ | ⟨_, _, rfl⟩
      · intro u hu
        obtain ⟨c, b, h1, h2, _⟩ := h u hu
        exact ⟨c, b, h1, h2⟩
      · simp
  · have hl := length_le_of_ne_nil h.ne_nil
    rw [h.1] at hl
    exact hy.collect _ (by rw [rangesOf_length]; omega)
  · clear h
    generalize rangesOf 0 ts = rs at hy
    generalize Tokenizer.new s = tok at hy
    induction hy with
    | nil => exact .nil
    | cons _ _ _ _ _ _ _ _ hs _ ih => exact .cons hs ih

/-- C34: what a range of bytes selects.  `&s[i..j]` is the part of the string that begins `i` bytes and ends `j` bytes from
its start, and panics when there is none (an offset beyond the end or inside a character, or `j < i`). -/
theorem C34_slice (s : List Char) (i j : Nat) :
    (∀ t, sliceStr s i j = .ok t ↔ ∃ a c, s = a ++ t ++ c ∧ byteLen a = i ∧ byteLen (a ++ t) = j) ∧
    ((∀ a t c, s = a ++ t ++ c → byteLen a = i → byteLen (a ++ t) ≠ j) → sliceStr s i j = .panic) := by
  have key : ∀ (s : List Char) n a b, splitByte s n = some (a, b) → s = a ++ b ∧ byteLen a = n := by
    intro s
    induction s with
    | nil => intro n a b h; cases n <;> simp_all [splitByte]
    | cons c s ih =>
      intro n a b h
      cases n with
      | zero => simp only [splitByte, Option.some.injEq, Prod.mk.injEq] at h; simp [← h.1, ← h.2]
      | succ n =>
        rw [splitByte] at h
        split at h
        · split at h
          · rename_i hle x y hxy
            obtain ⟨h1, h2⟩ := ih _ _ _ hxy
            simp only [Option.some.injEq, Prod.mk.injEq] at h
            obtain ⟨rfl, rfl⟩ := h
            refine ⟨by rw [h1]; rfl, ?_⟩
            rw [byteLen_cons, h2]; omega
          · simp at h
        · simp at h
  have h1 : ∀ t, sliceStr s i j = .ok t → ∃ a c, s = a ++ t ++ c ∧ byteLen a = i ∧ byteLen (a ++ t) = j := by
    intro t h
    unfold sliceStr at h
    split at h
    · split at h
      · cases h
      · rename_i pre c hpc
        split at h
        · cases h
        · rename_i a r har
          obtain rfl : r = t := by simpa using h
          obtain ⟨e1, e2⟩ := key _ _ _ _ hpc
          obtain ⟨e3, e4⟩ := key _ _ _ _ har
          exact ⟨a, c, by rw [e1, e3], e4, by rw [← e3]; exact e2⟩
    · cases h
  have h2 : (∃ t, sliceStr s i j = .ok t) ∨ sliceStr s i j = .panic := by
    unfold sliceStr
    split
    · split
      · exact .inr rfl
      · split
        · exact .inr rfl
        · exact .inl ⟨_, rfl⟩
    · exact .inr rfl
  refine ⟨fun t => ⟨h1 t, ?_⟩, fun h => ?_⟩
  · rintro ⟨a, c, rfl, rfl, rfl⟩
    rw [List.append_assoc, byteLen_append]
    exact sliceStr_mid a t c
  · rcases h2 with ⟨t, ht⟩ | h2
    · obtain ⟨a, c, e1, e2, e3⟩ := h1 t ht
      exact absurd e3 (h a t c e1 e2)
    · exact h2

/-- Offset 2 of `é+x` is a boundary, offset 1 is not. -/
example : sliceStr "é+x".toList 2 4 = .ok "+x".toList ∧ sliceStr "é+x".toList 1 4 = .panic ∧
    sliceStr "é+x".toList 2 5 = .panic ∧ sliceStr "é+x".toList 3 2 = .panic := by decide

/-- C34: contiguity of the ranges, read off directly: the first starts at 0, each starts where the
previous one ends, every one is non-empty, and the last one ends at the byte length. -/
theorem C34_contiguous (s : List Char) (rs : List (Nat × Nat))
    (h : (Tokenizer.new s).collect (s.length + 2) = .ok rs) :
    (∀ r ∈ rs, r.1 < r.2) ∧ rs.IsChain (fun a b => a.2 = b.1) ∧
      (rs.head?.map Prod.fst = if s = [] then none else some 0) ∧
      (rs.getLast?.map Prod.snd = if s = [] then none else some (byteLen s)) := by
  obtain ⟨ts, htok, hne, hfl, _, hc, _⟩ := C34_tokenizer s
  rw [hc] at h
  obtain rfl : rangesOf 0 ts = rs := by simpa using h
  have key : ∀ (ts : List (List Char)) (off : Nat), (∀ t ∈ ts, t ≠ []) →
      (∀ r ∈ rangesOf off ts, r.1 < r.2) ∧ (rangesOf off ts).IsChain (fun a b => a.2 = b.1) ∧
      ((rangesOf off ts).head?.map Prod.fst = if ts = [] then none else some off) ∧
      ((rangesOf off ts).getLast?.map Prod.snd = if ts = [] then none else some (off + byteLen ts.flatten)) := by
    intro ts
    induction ts with
    | nil => intro off _; simp [rangesOf]
    | cons t ts ih =>
      intro off hne
      obtain ⟨h1, h2, h3, h4⟩ := ih (off + byteLen t) (fun u hu => hne u (by simp [hu]))
      have hp := byteLen_pos (hne t (by simp))
      refine ⟨?_, ?_, by simp [rangesOf], ?_⟩
      · intro r hr
        rcases List.mem_cons.1 hr with rfl | hr
        · simp; omega
        · exact h1 r hr
      · cases ts with
        | nil => simp [rangesOf]
        | cons u us => simpa [rangesOf] using h2
      · cases ts with
        | nil => simp [rangesOf]
        | cons u us =>
          simp only [rangesOf, List.getLast?_cons_cons] at h4 ⊢
          rw [h4]
          simp [byteLen_append, Nat.add_assoc]
  obtain ⟨h1, h2, h3, h4⟩ := key ts 0 hne
  have hnil : ts = [] ↔ s = [] := by
    constructor
    · rintro rfl; exact hfl.symm
    · intro hs
      cases ts with
      | nil => rfl
      | cons t ts =>
        rw [hs] at hfl
        simp at hfl
        exact absurd hfl.1 (hne t (by simp))
  refine ⟨h1, h2, ?_, ?_⟩
  · rw [h3]; simp [hnil]
  · rw [h4, hfl]; simp [hnil]

/-- C34: a tokenization of a string is unique, so the pieces of `C34_tokenizer` are *the* pieces. -/
theorem C34_unique (s : List Char) (ts ts' : List (List Char)) (h : IsTokenization s ts)
    (h' : IsTokenization s ts') : ts = ts' := by
  have hy := yields_new s ts h
  have hy' := yields_new s ts' h'
  generalize rangesOf 0 ts = rs at hy
  generalize rangesOf 0 ts' = rs' at hy'
  generalize Tokenizer.new s = tok at hy hy'
  clear h h'
  induction hy generalizing rs' ts' with
  | nil tok tok' h =>
    cases hy' with
    | nil => rfl
    | cons _ _ _ _ _ _ _ h' => rw [h] at h'; simp at h'
  | cons tok tok' a b t rs ts h hs _ ih =>
    cases hy' with
    | nil _ _ h' => rw [h] at h'; simp at h'
    | cons _ _ _ _ _ _ _ h' hs' hr' =>
      rw [h] at h'
      simp only [Prod.mk.injEq, Option.some.injEq] at h'
      obtain ⟨⟨rfl, rfl⟩, rfl⟩ := h'
      rw [hs] at hs'
      rw [ih _ _ hr', Res.ok.inj hs']

/-- Three tokens; the leading sign belongs to the first one; `é` is two bytes. -/
example : (Tokenizer.new " -x +é+ 3".toList).collect 11 = .ok [(0, 4), (4, 7), (7, 10)] ∧
    IsTokenization " -x +é+ 3".toList [" -x ".toList, "+é".toList, "+ 3".toList] := by
  refine ⟨by decide +kernel, by decide, .inl ⟨⟨[' '], '-', "x ".toList, rfl, by decide, by decide, ?_⟩, ?_⟩⟩
  · simp [IsSign]
  · intro u hu
    simp only [List.mem_cons, List.not_mem_nil, or_false] at hu
    rcases hu with rfl | rfl
    · exact ⟨'+', ['é'], rfl, .inl rfl, by simp [IsSign]⟩
    · exact ⟨'+', [' ', '3'], rfl, .inl rfl, by simp [IsSign]⟩

/-! ## C35, C36: terms -/

section
variable {N : Type} [Zero N] [NumZero N] [One N] (parse : List Char → Option N) (uw : Nat)

/-- C35: spaces, commas and underscores anywhere in a term are ignored. -/
theorem C35_separators (s s' : List Char) (h : clean s = clean s') :
    Term.fromStr parse uw s = Term.fromStr parse uw s' := by
  unfold Term.fromStr
  rw [termLoop_clean, h, ← termLoop_clean]

theorem clean_num {num : List Char} (h : ∀ c ∈ num, IsNum c) : clean num = num := by
  unfold clean
  rw [List.filter_eq_self]
  intro c hc
  simpa using isNum_not_sep (h c hc)

theorem clean_append (a b : List Char) : clean (a ++ b) = clean a ++ clean b := by simp [clean]

theorem fromStr_const {num : List Char} (h : ∀ c ∈ num, IsNum c) :
    Term.fromStr parse uw num = match parse num with
      | some v => .ok (Term.new v 0)
      | none => .error .coeffCouldNotBeParsed := by
  unfold Term.fromStr
  have := termLoop_num parse num h [] ⟨[], 1, false, false⟩
  rw [List.append_nil] at this
  rw [this]
  simp only [termLoop, termFinish, List.nil_append]
  rfl

theorem fromStr_x {num : List Char} {v : N} (h : ∀ c ∈ num, IsNum c) (hv : coeffText parse num = some v)
    (r : List Char) :
    Term.fromStr parse uw (num ++ 'x' :: r) = match termLoop parse r ⟨[], v, true, false⟩ with
      | .ok st => termFinish parse uw st
      | .error e => .error e := by
  unfold Term.fromStr
  rw [termLoop_num parse num h, List.nil_append, termLoop_cons_ok parse (st' := ⟨[], v, true, false⟩)
    (by rw [termStep_x, hv])]
  cases termLoop parse r ⟨[], v, true, false⟩ <;> rfl

theorem fromStr_lin {num : List Char} {v : N} (h : ∀ c ∈ num, IsNum c) (hv : coeffText parse num = some v) :
    Term.fromStr parse uw (num ++ ['x']) = .ok (Term.new v 1) := by
  rw [fromStr_x parse uw h hv]
  simp [termLoop, termFinish]

theorem fromStr_deg {num a b : List Char} {v : N} {e : Nat} (h : ∀ c ∈ num, IsNum c)
    (hv : coeffText parse num = some v) (ha : ∀ c ∈ a, IsNum c) (hb : ∀ c ∈ b, IsNum c)
    (he : parseUsize uw (a ++ b) = some e) :
    Term.fromStr parse uw (num ++ 'x' :: (a ++ '^' :: b)) = .ok (Term.new v e) ∧
    Term.fromStr parse uw (num ++ 'x' :: (a ++ b)) = .ok (Term.new v e) := by
  have hne : a ++ b ≠ [] := by
    intro h0
    rw [h0] at he
    simp [parseUsize, parseInt, parseDigits] at he
  have hemp : (a ++ b).isEmpty = false := by rw [List.isEmpty_eq_false_iff]; exact hne
  constructor
  · rw [fromStr_x parse uw h hv, termLoop_num parse a ha, termLoop_cons_ok parse (termStep_caret parse _ v)]
    have := termLoop_num parse b hb [] ⟨[] ++ a, v, true, true⟩
    rw [List.append_nil] at this
    rw [this]
    simp only [termLoop, termFinish, List.nil_append, hemp, he]
    rfl
  · have hab : ∀ c ∈ a ++ b, IsNum c := by
      intro c hc
      rcases List.mem_append.1 hc with hc | hc
      exacts [ha c hc, hb c hc]
    rw [fromStr_x parse uw h hv]
    have := termLoop_num parse (a ++ b) hab [] ⟨[], v, true, false⟩
    rw [List.append_nil] at this
    rw [this]
    simp only [termLoop, termFinish, List.nil_append, hemp, he]
    rfl

/-- C36: exactly the accepted texts and their values.  Without separators the text is a number, or an
optional number, `x`, and possibly a degree; the `^` may stand anywhere between `x` and the end of
the degree but not at the very end of a text without a degree, or be missing. -/
theorem C36_accept_iff (s : List Char) (T : Term N) :
    Term.fromStr parse uw s = .ok T ↔
      (∃ v, (∀ c ∈ clean s, IsNum c) ∧ parse (clean s) = some v ∧ T = Term.new v 0) ∨
      (∃ num v, (∀ c ∈ num, IsNum c) ∧ coeffText parse num = some v ∧
        ((clean s = num ++ ['x'] ∧ T = Term.new v 1) ∨
         (∃ a b e, (∀ c ∈ a, IsNum c) ∧ (∀ c ∈ b, IsNum c) ∧ parseUsize uw (a ++ b) = some e ∧
            (clean s = num ++ 'x' :: (a ++ '^' :: b) ∨ clean s = num ++ 'x' :: (a ++ b)) ∧
            T = Term.new v e))) := by
  constructor
  · intro h
    rcases term_cases parse uw s with ⟨num, h1, h2, h3⟩ | ⟨num, r, h1, h2, h3⟩ | ⟨l, c, r, h1, h2, h3⟩ |
      ⟨num, r, h1, h2, h3, h4⟩ | ⟨l, r, h1, h2, h3⟩ | ⟨l, r, h1, h2, h3⟩ | ⟨num, v, a, h1, h2, h3, h4, h5⟩ |
      ⟨num, v, a, b, h1, h2, h3, h4, h5, h6⟩
    · left
      rw [h3] at h
      cases hv : parse num with
      | none => rw [hv] at h; simp at h
      | some v =>
        rw [hv] at h
        exact ⟨v, h1 ▸ h2, h1 ▸ hv, by simpa using h.symm⟩
    · rw [h3] at h; simp at h
    · rw [h3] at h; simp at h
    · rw [h4] at h; simp at h
    · rw [h3] at h; simp at h
    · rw [h3] at h; simp at h
    · right
      refine ⟨num, v, h2, h4, ?_⟩
      rw [h5] at h
      by_cases ha : a = []
      · subst ha
        exact .inl ⟨h1, by simpa using h.symm⟩
      · rw [if_neg ha] at h
        cases he : parseUsize uw a with
        | none => rw [he] at h; simp at h
        | some e =>
          rw [he] at h
          exact .inr ⟨a, [], e, h3, by simp, by simpa using he, .inr (by simpa using h1), by simpa using h.symm⟩
    · right
      refine ⟨num, v, h2, h5, .inr ?_⟩
      rw [h6] at h
      by_cases ha : a ++ b = []
      · rw [if_pos ha] at h; simp at h
      · rw [if_neg ha] at h
        cases he : parseUsize uw (a ++ b) with
        | none => rw [he] at h; simp at h
        | some e =>
          rw [he] at h
          exact ⟨a, b, e, h3, h4, he, .inl (by simpa using h1), by simpa using h.symm⟩
  · have hcc : clean (clean s) = clean s := by unfold clean; simp
    rw [C35_separators parse uw s (clean s) hcc.symm]
    rintro (⟨v, h1, h2, rfl⟩ | ⟨num, v, h1, h2, ⟨h3, rfl⟩ | ⟨a, b, e, h3, h4, h5, h6, rfl⟩⟩)
    · rw [fromStr_const parse uw h1, h2]
    · rw [h3, fromStr_lin parse uw h1 h2]
    · have := fromStr_deg parse uw h1 h2 h3 h4 h5
      rcases h6 with h6 | h6 <;> rw [h6]
      exacts [this.1, this.2]

theorem mem_clean {s : List Char} {c : Char} : c ∈ clean s ↔ c ∈ s ∧ ¬ IsSep c := by
  simp [clean]

theorem count_clean (s : List Char) {c : Char} (h : ¬ IsSep c) : (clean s).count c = s.count c := by
  unfold clean
  rw [List.count_filter]
  simpa using h

theorem num_count {num : List Char} (h : ∀ c ∈ num, IsNum c) {c : Char} (hc : ¬ IsNum c) : num.count c = 0 :=
  List.count_eq_zero.2 (fun hm => hc (h c hm))

theorem not_num_x : ¬ IsNum 'x' := by decide
theorem not_num_caret : ¬ IsNum '^' := by decide
theorem not_sep_x : ¬ IsSep 'x' := by decide
theorem not_sep_caret : ¬ IsSep '^' := by decide

/-- C36: every malformed text is rejected (with some error, never a value): two `x`, two `^`, a `^`
with no `x` before it, a `^` directly after which the text ends without a degree, or a character
that has no meaning. -/
theorem C36_rejects (s : List Char)
    (h : 2 ≤ s.count 'x' ∨ 2 ≤ s.count '^' ∨ (∃ p q, s = p ++ '^' :: q ∧ 'x' ∉ p) ∨
      (∃ p, clean s = p ++ ['x', '^']) ∨ (∃ c ∈ s, Illegal c)) :
    ∃ e, Term.fromStr parse uw s = .error e := by
  cases hT : Term.fromStr parse uw s with
  | error e => exact ⟨e, rfl⟩
  | ok T =>
    exfalso
    rw [← count_clean s not_sep_x, ← count_clean s not_sep_caret] at h
    have hill : ∀ c, Illegal c → c ∈ s → c ∈ clean s := fun c hc hm => mem_clean.2 ⟨hm, hc.1⟩
    have hpre : (∃ p q, s = p ++ '^' :: q ∧ 'x' ∉ p) → ∃ p q, clean s = p ++ '^' :: q ∧ 'x' ∉ p := by
      rintro ⟨p, q, rfl, hx⟩
      refine ⟨clean p, clean q, ?_, fun h => hx (mem_clean.1 h).1⟩
      rw [clean_append]
      congr 1
    have key : ∀ (num a : List Char) (r : List Char), (∀ c ∈ num, IsNum c) → clean s = num ++ 'x' :: r →
        (r = a ∨ ∃ b, r = a ++ '^' :: b ∧ (∀ c ∈ b, IsNum c) ∧ a ++ b ≠ []) → (∀ c ∈ a, IsNum c) → False := by
      intro num a r hnum hs hr ha
      have hmem : ∀ c ∈ clean s, IsNum c ∨ c = 'x' ∨ c = '^' := by
        intro c hc
        rw [hs] at hc
        rcases List.mem_append.1 hc with hc | hc
        · exact .inl (hnum c hc)
        · rcases List.mem_cons.1 hc with rfl | hc
          · exact .inr (.inl rfl)
          · rcases hr with rfl | ⟨b, rfl, hb, _⟩
            · exact .inl (ha c hc)
            · rcases List.mem_append.1 hc with hc | hc
              · exact .inl (ha c hc)
              · rcases List.mem_cons.1 hc with rfl | hc
                exacts [.inr (.inr rfl), .inl (hb c hc)]
      have hcx : (clean s).count 'x' = 1 := by
        rw [hs, List.count_append, num_count hnum not_num_x, List.count_cons_self]
        rcases hr with rfl | ⟨b, rfl, hb, _⟩
        · rw [num_count ha not_num_x]
        · rw [List.count_append, num_count ha not_num_x, List.count_cons_of_ne (by decide),
            num_count hb not_num_x]
      have hcc : (clean s).count '^' ≤ 1 := by
        rw [hs, List.count_append, num_count hnum not_num_caret, List.count_cons_of_ne (by decide)]
        rcases hr with rfl | ⟨b, rfl, hb, _⟩
        · rw [num_count ha not_num_caret]; omega
        · rw [List.count_append, num_count ha not_num_caret, List.count_cons_self,
            num_count hb not_num_caret]
      rcases h with h | h | h | ⟨p, h⟩ | ⟨c, hc, hi⟩
      · omega
      · omega
      · obtain ⟨p, q, hp, hx⟩ := hpre h
        rw [hp] at hs
        rcases List.append_eq_append_iff.1 hs with ⟨u, h1, h2⟩ | ⟨u, h1, h2⟩
        · cases u with
          | nil => simp at h2
          | cons c u =>
            simp only [List.cons_append, List.cons.injEq] at h2
            rw [h1, ← h2.1] at hnum
            exact not_num_caret (hnum '^' (by simp))
        · cases u with
          | nil => simp at h2
          | cons c u =>
            simp only [List.cons_append, List.cons.injEq] at h2
            rw [h1, ← h2.1] at hx
            exact hx (by simp)
      · rw [hs] at h
        rcases hr with rfl | ⟨b, rfl, hb, hne⟩
        · have : '^' ∈ num ++ 'x' :: r := by rw [h]; simp
          rcases List.mem_append.1 this with hc | hc
          · exact not_num_caret (hnum _ hc)
          · rcases List.mem_cons.1 hc with hc | hc
            · exact absurd hc (by decide)
            · exact not_num_caret (ha _ hc)
        · rcases List.eq_nil_or_concat b with rfl | ⟨b', c, rfl⟩
          · rcases List.eq_nil_or_concat a with rfl | ⟨a', c, rfl⟩
            · exact hne rfl
            · have h' : (num ++ 'x' :: a' ++ [c]) ++ ['^'] = (p ++ ['x']) ++ ['^'] := by simpa using h
              have h2 := List.append_cancel_right h'
              have h3 := (List.append_inj' h2 rfl).2
              simp only [List.cons.injEq, and_true] at h3
              rw [h3] at ha
              exact not_num_x (ha 'x' (by simp))
          · have h' : (num ++ 'x' :: (a ++ '^' :: b')) ++ [c] = (p ++ ['x']) ++ ['^'] := by simpa using h
            have h3 := (List.append_inj' h' rfl).2
            simp only [List.cons.injEq, and_true] at h3
            rw [h3] at hb
            exact not_num_caret (hb '^' (by simp))
      · rcases hmem c (hill c hi hc) with h1 | h1 | h1
        exacts [hi.2.1 h1, hi.2.2.1 h1, hi.2.2.2 h1]
    rcases (C36_accept_iff parse uw s T).1 hT with ⟨v, h1, _⟩ | ⟨num, v, h1, _, ⟨h3, _⟩ |
        ⟨a, b, e, h3, h4, h5, h6, _⟩⟩
    · rcases h with h | h | h | ⟨p, h⟩ | ⟨c, hc, hi⟩
      · rw [num_count h1 not_num_x] at h; omega
      · rw [num_count h1 not_num_caret] at h; omega
      · obtain ⟨p, q, hp, _⟩ := hpre h
        exact not_num_caret (h1 '^' (by rw [hp]; simp))
      · exact not_num_caret (h1 '^' (by rw [h]; simp))
      · exact hi.2.1 (h1 c (hill c hi hc))
    · exact key num [] [] h1 h3 (.inl rfl) (by simp)
    · have hne : a ++ b ≠ [] := by
        intro h0
        rw [h0] at h5
        simp [parseUsize, parseInt, parseDigits] at h5
      rcases h6 with h6 | h6
      · exact key num a _ h1 h6 (.inr ⟨b, rfl, h4, hne⟩) h3
      · refine key num (a ++ b) _ h1 h6 (.inl rfl) ?_
        intro c hc
        rcases List.mem_append.1 hc with hc | hc
        exacts [h3 c hc, h4 c hc]

/-- C36: a reported error is always justified by the text, and `DegreeCouldNotBeParsed` is never
reported (a bad degree is reported as `CoeffCouldNotBeParsed`, see `C36_false`). -/
theorem C36_errors_sound (s : List Char) (e : TermFromStringError) (h : Term.fromStr parse uw s = .error e) :
    match e with
    | .moreThanOneX => 2 ≤ s.count 'x'
    | .multipleCarets => 2 ≤ s.count '^'
    | .caretWithoutXInFront => ∃ p q, clean s = p ++ '^' :: q ∧ 'x' ∉ p
    | .caretWithoutDegree => ∃ p, clean s = p ++ ['x', '^']
    | .unexpectedChar c => c ∈ s ∧ Illegal c
    | .coeffCouldNotBeParsed =>
      (parse (clean s) = none ∧ ∀ c ∈ clean s, IsNum c) ∨
      (∃ num r, clean s = num ++ 'x' :: r ∧ (∀ c ∈ num, IsNum c) ∧ coeffText parse num = none) ∨
      (∃ num r, clean s = num ++ 'x' :: r ∧ r ≠ [] ∧ r ≠ ['^'] ∧ (∀ c ∈ num, IsNum c) ∧
        parseUsize uw (r.filter (· ≠ '^')) = none)
    | .degreeCouldNotBeParsed => False := by
  have filt : ∀ l : List Char, (∀ c ∈ l, IsNum c) → l.filter (· ≠ '^') = l := by
    intro l hl
    rw [List.filter_eq_self]
    intro c hc
    have : c ≠ '^' := fun h => not_num_caret (h ▸ hl c hc)
    simpa using this
  rcases term_cases parse uw s with ⟨num, h1, h2, h3⟩ | ⟨num, r, h1, h2, h3⟩ | ⟨l, c, r, h1, h2, h3⟩ |
      ⟨num, r, h1, h2, h3, h4⟩ | ⟨l, r, h1, h2, h3⟩ | ⟨l, r, h1, h2, h3⟩ | ⟨num, v, a, h1, h2, h3, h4, h5⟩ |
      ⟨num, v, a, b, h1, h2, h3, h4, h5, h6⟩
  · rw [h3] at h
    cases hv : parse num with
    | some v => rw [hv] at h; simp at h
    | none =>
      rw [hv] at h
      obtain rfl : _ = e := by simpa using h
      exact .inl ⟨h1 ▸ hv, h1 ▸ h2⟩
  · rw [h3] at h
    obtain rfl : _ = e := by simpa using h
    exact ⟨num, r, h1, fun hx => not_num_x (h2 _ hx)⟩
  · rw [h3] at h
    obtain rfl : _ = e := by simpa using h
    exact ⟨(mem_clean.1 (by rw [h1]; simp)).1, h2⟩
  · rw [h4] at h
    obtain rfl : _ = e := by simpa using h
    exact .inr (.inl ⟨num, r, h1, h2, h3⟩)
  · rw [h3] at h
    obtain rfl : _ = e := by simpa using h
    show 2 ≤ s.count 'x'
    rw [← count_clean s not_sep_x, h1, List.count_append, List.count_cons_self]
    have := List.count_pos_iff.2 h2
    omega
  · rw [h3] at h
    obtain rfl : _ = e := by simpa using h
    show 2 ≤ s.count '^'
    rw [← count_clean s not_sep_caret, h1, List.count_append, List.count_cons_self]
    have := List.count_pos_iff.2 h2
    omega
  · rw [h5] at h
    by_cases ha : a = []
    · rw [if_pos ha] at h; simp at h
    · rw [if_neg ha] at h
      cases he : parseUsize uw a with
      | some v => rw [he] at h; simp at h
      | none =>
        rw [he] at h
        obtain rfl : _ = e := by simpa using h
        exact .inr (.inr ⟨num, a, h1, ha, fun h' => not_num_caret (h3 '^' (by rw [h']; simp)), h2,
          by rw [filt a h3]; exact he⟩)
  · rw [h6] at h
    by_cases ha : a ++ b = []
    · rw [if_pos ha] at h
      obtain rfl : _ = e := by simpa using h
      simp only [List.append_eq_nil_iff] at ha
      exact ⟨num, by rw [h1, ha.1, ha.2]; simp⟩
    · rw [if_neg ha] at h
      cases he : parseUsize uw (a ++ b) with
      | some v => rw [he] at h; simp at h
      | none =>
        rw [he] at h
        obtain rfl : _ = e := by simpa using h
        refine .inr (.inr ⟨num, a ++ '^' :: b, by simpa using h1, by simp, ?_, h2, ?_⟩)
        · intro h'
          apply ha
          cases a with
          | nil => simpa using h'
          | cons c a => simp at h'
        · rw [List.filter_append, filt a h3, List.filter_cons_of_neg (by simp), filt b h4]; exact he

/-! ### Integer coefficients -/

/-- The sign a (possibly empty) sign text stands for. -/
def signOf (sg : List Char) : Int := if sg = ['-'] then -1 else 1

/-- A sign text the type can read: nothing, `+`, or (signed types) `-`. -/
def SignText (t : IntTy) (sg : List Char) : Prop := sg = [] ∨ sg = ['+'] ∨ (sg = ['-'] ∧ t.signed = true)

theorem parseInt_signed (t : IntTy) {sg ds : List Char} (hsg : SignText t sg) (hd : IsDigits ds) :
    parseInt t (sg ++ ds) = fitsInt t (signOf sg * decVal ds) := by
  rcases hsg with rfl | rfl | ⟨rfl, hs⟩
  · simpa [signOf] using parseInt_digits t hd
  · simpa [signOf] using parseInt_plus t hd
  · have := parseInt_minus t hd
    rw [if_pos hs] at this
    simpa [signOf] using this

theorem sign_num {t : IntTy} {sg : List Char} (h : SignText t sg) : ∀ c ∈ sg, IsNum c := by
  rcases h with rfl | rfl | ⟨rfl, _⟩ <;> decide

theorem sign_digits_num {t : IntTy} {sg ds : List Char} (hsg : SignText t sg) (hd : IsDigits ds) :
    ∀ c ∈ sg ++ ds, IsNum c := by
  intro c hc
  rcases List.mem_append.1 hc with hc | hc
  exacts [sign_num hsg c hc, hd.num c hc]

theorem coeffText_signed (t : IntTy) {sg ds : List Char} (hsg : SignText t sg) (hd : IsDigits ds) :
    coeffText (parseInt t) (sg ++ ds) = fitsInt t (signOf sg * decVal ds) := by
  unfold coeffText
  have h1 : sg ++ ds ≠ [] := by simp [hd.1]
  have h2 : ¬ (sg ++ ds = ['-'] ∨ sg ++ ds = ['+']) := by
    cases ds with
    | nil => exact absurd rfl hd.1
    | cons c ds =>
      rcases hsg with rfl | rfl | ⟨rfl, _⟩
      · rintro (h | h)
        · exact (isDigits_head hd).2 (List.cons.inj h).1
        · exact (isDigits_head hd).1 (List.cons.inj h).1
      · simp
      · simp
  rw [if_neg h1, if_neg h2, parseInt_signed t hsg hd]

theorem coeffText_sign (t : IntTy) {sg : List Char} (hsg : SignText t sg) (h1 : t.InRange (signOf sg)) :
    coeffText (parseInt t) sg = some (signOf sg) := by
  unfold coeffText
  have hd : IsDigits ['1'] := ⟨by simp, by decide⟩
  have h := parseInt_signed t hsg hd
  have hv : decVal ['1'] = 1 := rfl
  rw [hv] at h
  simp only [fitsInt] at h
  rw [show signOf sg * ((1 : Nat) : Int) = signOf sg by simp, if_pos h1] at h
  rcases hsg with rfl | rfl | ⟨rfl, _⟩
  · rfl
  · rw [if_neg (by simp), if_pos (by simp), h]
  · rw [if_neg (by simp), if_pos (by simp), h]

/-- C35: each of the five kinds of texts, with separators interspersed anywhere, parses to the term it
denotes, for every integer type, every numeral with a value in range and every degree numeral with a
value that fits `usize` (leading zeros allowed). -/
theorem C35_texts (t : IntTy) (sg ds es s : List Char) (hsg : SignText t sg) (hd : IsDigits ds)
    (he : IsDigits es) (hev : decVal es < 2 ^ uw) :
    (t.InRange (signOf sg * decVal ds) →
      (clean s = sg ++ ds → Term.fromStr (parseInt t) uw s = .ok (Term.new (signOf sg * decVal ds) 0)) ∧
      (clean s = sg ++ ds ++ ['x'] →
        Term.fromStr (parseInt t) uw s = .ok (Term.new (signOf sg * decVal ds) 1)) ∧
      (clean s = sg ++ ds ++ ['x', '^'] ++ es →
        Term.fromStr (parseInt t) uw s = .ok (Term.new (signOf sg * decVal ds) (decVal es)))) ∧
    (t.InRange (signOf sg) →
      (clean s = sg ++ ['x'] → Term.fromStr (parseInt t) uw s = .ok (Term.new (signOf sg) 1)) ∧
      (clean s = sg ++ ['x', '^'] ++ es →
        Term.fromStr (parseInt t) uw s = .ok (Term.new (signOf sg) (decVal es)))) := by
  have hcc : Term.fromStr (parseInt t) uw s = Term.fromStr (parseInt t) uw (clean s) :=
    C35_separators _ _ _ _ (by unfold clean; simp)
  have hu : parseUsize uw ([] ++ es) = some (decVal es) := parseUsize_digits uw he hev
  refine ⟨fun hr => ⟨fun h => ?_, fun h => ?_, fun h => ?_⟩, fun hr => ⟨fun h => ?_, fun h => ?_⟩⟩
  · rw [hcc, h, fromStr_const _ _ (sign_digits_num hsg hd), parseInt_signed t hsg hd, fitsInt, if_pos hr]
  · rw [hcc, h]
    exact fromStr_lin _ _ (sign_digits_num hsg hd) (by rw [coeffText_signed t hsg hd, fitsInt, if_pos hr])
  · rw [hcc, h]
    have := (fromStr_deg (parseInt t) uw (sign_digits_num hsg hd)
      (by rw [coeffText_signed t hsg hd, fitsInt, if_pos hr]) (a := []) (by simp) he.num hu).1
    simpa using this
  · rw [hcc, h]
    exact fromStr_lin _ _ (sign_num hsg) (coeffText_sign t hsg hr)
  · rw [hcc, h]
    have := (fromStr_deg (parseInt t) uw (sign_num hsg) (coeffText_sign t hsg hr) (a := []) (by simp) he.num hu).1
    simpa using this

/-- C35: in particular the decimal texts of every coefficient and every degree. -/
theorem C35_canonical (t : IntTy) (v : Int) (d : Nat) (hv : t.InRange v) (hd : d < 2 ^ uw) :
    Term.fromStr (parseInt t) uw (showInt v) = .ok (Term.new v 0) ∧
    Term.fromStr (parseInt t) uw (showInt v ++ ['x']) = .ok (Term.new v 1) ∧
    Term.fromStr (parseInt t) uw (showInt v ++ ['x', '^'] ++ showNat d) = .ok (Term.new v d) := by
  have hc : coeffText (parseInt t) (showInt v) = some v := by
    have hn := (showNat_spec v.natAbs).1
    have hp := parseInt_showInt t v hv
    unfold coeffText
    have h1 : showInt v ≠ [] := by unfold showInt; split <;> simp [hn.1]
    have h2 : ¬ (showInt v = ['-'] ∨ showInt v = ['+']) := by
      unfold showInt
      cases hs : showNat v.natAbs with
      | nil => exact absurd hs hn.1
      | cons c r =>
        rw [hs] at hn
        obtain ⟨ha, hb⟩ := isDigits_head hn
        split <;> simp [ha, hb]
    rw [if_neg h1, if_neg h2, hp]
  have hu : parseUsize uw ([] ++ showNat d) = some d := parseUsize_showNat uw d hd
  refine ⟨?_, ?_, ?_⟩
  · rw [fromStr_const _ _ (showInt_num v), parseInt_showInt t v hv]
  · exact fromStr_lin _ _ (showInt_num v) hc
  · have := (fromStr_deg (parseInt t) uw (showInt_num v) hc (a := []) (by simp) (showNat_spec d).1.num hu).1
    simpa using this

/-- `- 1_2,5 x ^ 0 3` as `i8`: the hypotheses of `C35_texts` hold and the term is `-125 x^3`. -/
example : clean "- 1_2,5 x ^ 0 3".toList = ['-'] ++ "125".toList ++ ['x', '^'] ++ "03".toList ∧
    SignText ⟨true, 8⟩ ['-'] ∧ IsDigits "125".toList ∧ IsDigits "03".toList ∧ decVal "03".toList < 2 ^ 64 ∧
    (⟨true, 8⟩ : IntTy).InRange (signOf ['-'] * decVal "125".toList) ∧
    Term.fromStr (parseInt ⟨true, 8⟩) 64 "- 1_2,5 x ^ 0 3".toList = .ok (.term (-125) 3) :=
  ⟨by decide, .inr (.inr ⟨rfl, rfl⟩), ⟨by decide, by decide⟩, ⟨by decide, by decide⟩, by decide, by decide, rfl⟩

/-- C36: the message of an error tells which error it is, with the offending character. -/
theorem C36_messages (e e' : TermFromStringError) (h : e.display = e'.display) : e = e' := by
  have hd : ∀ e : TermFromStringError, (∀ c, e ≠ .unexpectedChar c) → e.display.head? ≠ some 'U' := by
    intro e he
    cases e with
    | unexpectedChar c => exact absurd rfl (he c)
    | _ => decide
  have hu : ∀ c, (TermFromStringError.unexpectedChar c).display.head? = some 'U' := fun c => rfl
  by_cases h1 : ∃ c, e = .unexpectedChar c
  · obtain ⟨c, rfl⟩ := h1
    by_cases h2 : ∃ c, e' = .unexpectedChar c
    · obtain ⟨c', rfl⟩ := h2
      have := congrArg (fun l : List Char => l[17]?) h
      rw [show c = c' from Option.some.inj this]
    · exact absurd (h ▸ hu c) (hd e' fun c h => h2 ⟨c, h⟩)
  · by_cases h2 : ∃ c, e' = .unexpectedChar c
    · obtain ⟨c', rfl⟩ := h2
      exact absurd (h ▸ hu c') (hd e fun c h => h1 ⟨c, h⟩)
    · have h3 := congrArg (fun l : List Char => (l.head?, l.tail.tail.head?)) h
      cases e with
      | unexpectedChar c => exact absurd ⟨c, rfl⟩ h1
      | _ => cases e' with
        | unexpectedChar c => exact absurd ⟨c, rfl⟩ h2
        | _ => first | rfl | exact absurd h3 (by decide)

-- the messages for `3y`, `x^` and `x^2^3`
example : (match Term.fromStr (parseInt ⟨true, 32⟩) 64 "3y".toList with | .ok _ => [] | .error e => e.display)
      = "Unexpected char (y) (legal characters include +, -, ., x, ^, 0..9).".toList ∧
    (match Term.fromStr (parseInt ⟨true, 32⟩) 64 "x^".toList with | .ok _ => [] | .error e => e.display)
      = "^ without ensuing degree!".toList ∧
    (match Term.fromStr (parseInt ⟨true, 32⟩) 64 "x^2^3".toList with | .ok _ => [] | .error e => e.display)
      = "^ appears more than once.".toList := by decide +kernel

/-- C36 (integers): empty and sign-only texts, and numbers out of range, are rejected. -/
theorem C36_int_rejects (t : IntTy) (s : List Char) :
    ((clean s = [] ∨ clean s = ['+'] ∨ clean s = ['-']) →
      Term.fromStr (parseInt t) uw s = .error .coeffCouldNotBeParsed) ∧
    (∀ sg ds r, SignText t sg → IsDigits ds → ¬ t.InRange (signOf sg * decVal ds) →
      (clean s = sg ++ ds ∨ clean s = sg ++ ds ++ 'x' :: r) →
      Term.fromStr (parseInt t) uw s = .error .coeffCouldNotBeParsed) ∧
    (∀ ds r, t.signed = false → IsDigits ds → (clean s = '-' :: ds ∨ clean s = '-' :: ds ++ 'x' :: r) →
      Term.fromStr (parseInt t) uw s = .error .coeffCouldNotBeParsed) ∧
    (∀ num v ds, (∀ c ∈ num, IsNum c) → coeffText (parseInt t) num = some v → IsDigits ds → 2 ^ uw ≤ decVal ds →
      clean s = num ++ ['x', '^'] ++ ds → Term.fromStr (parseInt t) uw s = .error .coeffCouldNotBeParsed) := by
  have hcc : Term.fromStr (parseInt t) uw s = Term.fromStr (parseInt t) uw (clean s) :=
    C35_separators _ _ _ _ (by unfold clean; simp)
  have hx : ∀ num r, (∀ c ∈ num, IsNum c) → coeffText (parseInt t) num = none →
      Term.fromStr (parseInt t) uw (num ++ 'x' :: r) = .error .coeffCouldNotBeParsed := by
    intro num r hnum hv
    unfold Term.fromStr
    rw [termLoop_num _ num hnum, List.nil_append,
      termLoop_cons_error _ (e := .coeffCouldNotBeParsed) (by rw [termStep_x, hv])]
  refine ⟨?_, ?_, ?_, ?_⟩
  · intro h
    rw [hcc]
    rcases h with h | h | h <;> rw [h]
    · rfl
    · rfl
    · rw [fromStr_const _ _ (by decide), parseInt_nondigits t (ds := []) (by simp) rfl]
  · intro sg ds r hsg hd hr h
    rw [hcc]
    rcases h with h | h <;> rw [h]
    · rw [fromStr_const _ _ (sign_digits_num hsg hd), parseInt_signed t hsg hd, fitsInt, if_neg hr]
    · exact hx _ r (sign_digits_num hsg hd) (by rw [coeffText_signed t hsg hd, fitsInt, if_neg hr])
  · intro ds r hs hd h
    have hp : parseInt t ('-' :: ds) = none := by rw [parseInt_minus t hd]; simp [hs]
    have hn : ∀ c ∈ '-' :: ds, IsNum c := by
      intro c hc
      rcases List.mem_cons.1 hc with rfl | hc
      exacts [.inr (.inl rfl), hd.num c hc]
    rw [hcc]
    rcases h with h | h <;> rw [h]
    · rw [fromStr_const _ _ hn, hp]
    · refine hx _ r hn ?_
      unfold coeffText
      rw [if_neg (by simp), if_neg (by simp [hd.1]), hp]
  · intro num v ds hnum hv hd hbig h
    have hp : parseUsize uw ds = none := by
      unfold parseUsize
      rw [parseInt_digits _ hd, fitsInt, if_neg]
      · rfl
      · rintro ⟨_, h2⟩
        simp only [IntTy.max] at h2
        have : ((2 ^ uw : Nat) : Int) ≤ ((decVal ds : Nat) : Int) := by exact_mod_cast hbig
        push_cast at this
        simp at h2
        omega
    have hne : ds.isEmpty = false := by rw [List.isEmpty_eq_false_iff]; exact hd.1
    rw [hcc, h, show num ++ ['x', '^'] ++ ds = num ++ 'x' :: ('^' :: ds) by simp, fromStr_x _ _ hnum hv,
      termLoop_cons_ok _ (termStep_caret _ _ v)]
    have := termLoop_num (parseInt t) ds hd.num [] ⟨[], v, true, true⟩
    rw [List.append_nil] at this
    rw [this]
    simp only [termLoop, termFinish, List.nil_append, hne, hp]
    rfl

/-- C36 is false as stated: malformed degrees are reported as `CoeffCouldNotBeParsed`, never as the
documented `DegreeCouldNotBeParsed`; and malformed texts such as `x3`, `x2^`, `x2^3`, `x+2` are
accepted. -/
theorem C36_false :
    (∀ s, Term.fromStr parse uw s ≠ .error .degreeCouldNotBeParsed) ∧
    Term.fromStr (parseInt ⟨true, 32⟩) 64 "x^-1".toList = .error .coeffCouldNotBeParsed ∧
    Term.fromStr (parseInt ⟨true, 32⟩) 64 "5x3".toList = .ok (.term 5 3) ∧
    Term.fromStr (parseInt ⟨true, 32⟩) 64 "5x2^".toList = .ok (.term 5 2) ∧
    Term.fromStr (parseInt ⟨true, 32⟩) 64 "5x2^3".toList = .ok (.term 5 23) ∧
    Term.fromStr (parseInt ⟨true, 32⟩) 64 "x+2".toList = .ok (.term 1 2) :=
  ⟨fun s h => C36_errors_sound parse uw s _ h, rfl, rfl, rfl, rfl, rfl⟩

/-- The hypotheses of the rejection theorems are met by `3xx`, `x^2^3`, `2^x`, `4x ^ ` and `3y`, with the
errors one expects. -/
example : 2 ≤ "3xx".toList.count 'x' ∧
    Term.fromStr (parseInt ⟨true, 32⟩) 64 "3xx".toList = .error .moreThanOneX ∧
    2 ≤ "x^2^3".toList.count '^' ∧
    Term.fromStr (parseInt ⟨true, 32⟩) 64 "x^2^3".toList = .error .multipleCarets ∧
    "2^x".toList = ['2'] ++ '^' :: ['x'] ∧
    Term.fromStr (parseInt ⟨true, 32⟩) 64 "2^x".toList = .error .caretWithoutXInFront ∧
    clean "4x ^ ".toList = ['4'] ++ ['x', '^'] ∧
    Term.fromStr (parseInt ⟨true, 32⟩) 64 "4x ^ ".toList = .error .caretWithoutDegree ∧
    Illegal 'y' ∧ Term.fromStr (parseInt ⟨true, 32⟩) 64 "3y".toList = .error (.unexpectedChar 'y') :=
  ⟨by decide, rfl, by decide, rfl, rfl, rfl, by decide, rfl,
    ⟨by decide, by decide, by decide, by decide⟩, rfl⟩

end

/-! ## C39: polynomials -/

section
variable {N S : Type} [Zero N] [NumZero N] [One N] [MutPoly N S]

/-- Processing the tokens one after the other. -/
def parseList (parse : List Char → Option N) (uw : Nat) :
    List (List Char) → S → Bool → Except PolynomialFromStringError S
  | [], p, b => if b then .ok p else .error .noTermsFound
  | t :: ts, p, _ =>
    match Term.fromStr parse uw t with
    | .error e => .error (.termFromString e)
    | .ok .zeroTerm => parseList parse uw ts p true
    | .ok (.term c d) =>
      match MutPoly.tryAddTerm p c d with
      | (_, .error e) => .error (.addingTerm e)
      | (p, .ok ()) => parseList parse uw ts p true

theorem fromStrLoop_yields (parse : List Char → Option N) (uw : Nat) {s : List Char} {tok : Tokenizer}
    {rs : List (Nat × Nat)} {ts : List (List Char)} (h : Yields s tok rs ts) :
    ∀ (f : Nat) (p : S) (b : Bool), rs.length < f →
      fromStrLoop parse uw s f tok p b = .ok (parseList parse uw ts p b) := by
  induction h with
  | nil tok tok' h =>
    intro f p b hf
    obtain ⟨f, rfl⟩ : ∃ g, f = g + 1 := ⟨f - 1, by omega⟩
    rw [fromStrLoop, h]
    simp only [parseList]
    cases b <;> rfl
  | cons tok tok' a b t rs ts h hs hr ih =>
    intro f p bb hf
    obtain ⟨f, rfl⟩ : ∃ g, f = g + 1 := ⟨f - 1, by omega⟩
    rw [fromStrLoop, h]
    simp only
    rw [hs, Res.ok_bind, parseList]
    cases hT : Term.fromStr parse uw t with
    | error e => rfl
    | ok T =>
      cases T with
      | zeroTerm => exact ih f p true (by simpa using hf)
      | term c d =>
        simp only
        cases hA : MutPoly.tryAddTerm p c d with
        | mk p' r =>
          cases r with
          | error e => rfl
          | ok u => exact ih f p' true (by simpa using hf)

theorem polyFromStr_eq (zero : S) (parse : List Char → Option N) (uw : Nat) (s : List Char)
    (ts : List (List Char)) (h : IsTokenization s ts) :
    polyFromStr zero parse uw s = .ok (parseList parse uw ts zero false) := by
  have hl := length_le_of_ne_nil h.ne_nil
  rw [h.1] at hl
  exact fromStrLoop_yields parse uw (yields_new s ts h) _ _ _ (by rw [rangesOf_length]; omega)

/-- C39: parsing any string into any of the types terminates without panicking. -/
theorem C39_total (zero : S) (parse : List Char → Option N) (uw : Nat) (s : List Char) :
    ∃ r, polyFromStr zero parse uw s = .ok r := by
  obtain ⟨ts, h⟩ := exists_tokenization s
  exact ⟨_, polyFromStr_eq zero parse uw s ts h⟩

/-- C39: the empty string contains no terms, and that error is reported for no other string. -/
theorem C39_empty (zero : S) (parse : List Char → Option N) (uw : Nat) (s : List Char) :
    polyFromStr zero parse uw s = .ok (.error .noTermsFound) ↔ s = [] := by
  obtain ⟨ts, h⟩ := exists_tokenization s
  rw [polyFromStr_eq zero parse uw s ts h]
  constructor
  · intro he
    have hne : ∀ (ts : List (List Char)) (p : S), parseList parse uw ts p true ≠ .error .noTermsFound := by
      intro ts
      induction ts with
      | nil => intro p; simp [parseList]
      | cons t ts ih =>
        intro p
        rw [parseList]
        cases Term.fromStr parse uw t with
        | error e => simp
        | ok T =>
          cases T with
          | zeroTerm => exact ih p
          | term c d =>
            simp only
            cases MutPoly.tryAddTerm p c d with
            | mk p' r => cases r with
              | error e => simp
              | ok u => exact ih p'
    cases ts with
    | nil => exact h.1.symm
    | cons t ts =>
      exfalso
      have he' : parseList parse uw (t :: ts) zero false = .error .noTermsFound := by simpa using he
      have : parseList parse uw (t :: ts) zero false = parseList parse uw (t :: ts) zero true := rfl
      rw [this] at he'
      exact hne _ _ he'
  · rintro rfl
    obtain rfl : ts = [] := by
      cases ts with
      | nil => rfl
      | cons t ts => exact absurd (by simpa using h.1) (fun hh : t = [] ∧ _ => h.ne_nil t (by simp) hh.1)
    rfl

end

section
variable {R S : Type} [Ring R] [NumZero R] [LawfulNumZero R] [MutPoly R S] [LawfulMutPoly R S]

theorem parseList_ok (parse : List Char → Option R) (uw : Nat) : ∀ (ts : List (List Char)) (p q : S) (b : Bool),
    parseList parse uw ts p b = .ok q →
    ∃ terms : List (Term R), ts.map (Term.fromStr parse uw) = terms.map .ok ∧
      LawfulMutPoly.repr (N := R) q = LawfulMutPoly.repr (N := R) p + (terms.map Term.poly).sum := by
  intro ts
  induction ts with
  | nil =>
    intro p q b h
    refine ⟨[], rfl, ?_⟩
    cases b with
    | false => simp [parseList] at h
    | true => simp [parseList] at h; simp [h]
  | cons t ts ih =>
    intro p q b h
    rw [parseList] at h
    cases hT : Term.fromStr parse uw t with
    | error e => rw [hT] at h; simp at h
    | ok T =>
      rw [hT] at h
      cases T with
      | zeroTerm =>
        obtain ⟨terms, h1, h2⟩ := ih p q true h
        exact ⟨.zeroTerm :: terms, by simp [hT, h1], by simp [h2, Term.poly]⟩
      | term c d =>
        simp only at h
        cases hA : MutPoly.tryAddTerm p c d with
        | mk p' r =>
          rw [hA] at h
          cases r with
          | error e => simp at h
          | ok u =>
            obtain ⟨terms, h1, h2⟩ := ih p' q true h
            refine ⟨.term c d :: terms, by simp [hT, h1], ?_⟩
            rw [h2, LawfulMutPoly.add_ok p p' c d hA]
            simp [Term.poly, add_assoc]

theorem parseList_free (parse : List Char → Option R) (uw : Nat)
    (hfree : ∀ (p : S) (c : R) (d : Nat), ∃ p', MutPoly.tryAddTerm p c d = (p', .ok ())) :
    ∀ (ts : List (List Char)) (terms : List (Term R)), ts.map (Term.fromStr parse uw) = terms.map .ok →
    ∀ (post : List (List Char)) (p : S) (b : Bool), ∃ p' b', (b' = true ↔ b = true ∨ ts ≠ []) ∧
      parseList parse uw (ts ++ post) p b = parseList parse uw post p' b' ∧
      LawfulMutPoly.repr (N := R) p' = LawfulMutPoly.repr (N := R) p + (terms.map Term.poly).sum := by
  intro ts
  induction ts with
  | nil =>
    intro terms h post p b
    obtain rfl : terms = [] := by simpa using h.symm
    exact ⟨p, b, by simp, rfl, by simp⟩
  | cons t ts ih =>
    intro terms h post p b
    cases terms with
    | nil => simp at h
    | cons T terms =>
      simp only [List.map_cons, List.cons.injEq] at h
      cases T with
      | zeroTerm =>
        obtain ⟨p', b', h1, h2, h3⟩ := ih terms h.2 post p true
        refine ⟨p', b', by simp [h1], ?_, by simp [h3, Term.poly]⟩
        rw [List.cons_append, parseList, h.1]
        exact h2
      | term c d =>
        obtain ⟨p1, hp1⟩ := hfree p c d
        obtain ⟨p', b', h1, h2, h3⟩ := ih terms h.2 post p1 true
        refine ⟨p', b', by simp [h1], ?_, ?_⟩
        · rw [List.cons_append, parseList, h.1]
          simp only [hp1]
          exact h2
        · rw [h3, LawfulMutPoly.add_ok p p1 c d hp1]
          simp [Term.poly, add_assoc]

end

section
variable {R : Type} [Ring R] [NumZero R] [LawfulNumZero R] (parse : List Char → Option R) (uw : Nat)

/-- C39 (all five types): whenever parsing succeeds, every token is a term and the value represents the
sum of the terms. -/
theorem C39_sound (s : List Char) (ts : List (List Char)) (h : IsTokenization s ts) [CanNegate R] :
    (∀ q, Poly.fromStr parse uw s = .ok (.ok q) → ∃ terms : List (Term R),
      ts.map (Term.fromStr parse uw) = terms.map .ok ∧ descPoly q.terms = (terms.map Term.poly).sum) ∧
    (∀ q, Sparse.fromStr parse uw s = .ok (.ok q) → ∃ terms : List (Term R),
      ts.map (Term.fromStr parse uw) = terms.map .ok ∧
        entriesPoly q.terms.entries = (terms.map Term.poly).sum) ∧
    (∀ q, Monomial.fromStr parse uw s = .ok (.ok q) → ∃ terms : List (Term R),
      ts.map (Term.fromStr parse uw) = terms.map .ok ∧ q.poly = (terms.map Term.poly).sum) ∧
    (∀ q, LinearBinomial.fromStr parse uw s = .ok (.ok q) → ∃ terms : List (Term R),
      ts.map (Term.fromStr parse uw) = terms.map .ok ∧ q.poly = (terms.map Term.poly).sum) ∧
    (∀ q, QuadraticTrinomial.fromStr parse uw s = .ok (.ok q) → ∃ terms : List (Term R),
      ts.map (Term.fromStr parse uw) = terms.map .ok ∧ q.poly = (terms.map Term.poly).sum) := by
  refine ⟨?_, ?_, ?_, ?_, ?_⟩
  · intro q hq
    rw [Poly.fromStr, polyFromStr_eq _ _ _ _ _ h] at hq
    obtain ⟨terms, h1, h2⟩ := parseList_ok parse uw ts Poly.zero q false (by simpa using hq)
    refine ⟨terms, h1, ?_⟩
    have h0 : LawfulMutPoly.repr (N := R) (Poly.zero : Poly R) = 0 := by
      show descPoly (Poly.zero : Poly R).terms = 0; simp [Poly.zero]
    rw [h0, zero_add] at h2; exact h2
  · intro q hq
    rw [Sparse.fromStr, polyFromStr_eq _ _ _ _ _ h] at hq
    obtain ⟨terms, h1, h2⟩ := parseList_ok parse uw ts Sparse.zero q false (by simpa using hq)
    refine ⟨terms, h1, ?_⟩
    have h0 : LawfulMutPoly.repr (N := R) (Sparse.zero : Sparse R) = 0 := by
      show entriesPoly [] = 0; simp [entriesPoly]
    rw [h0, zero_add] at h2; exact h2
  · intro q hq
    rw [Monomial.fromStr, polyFromStr_eq _ _ _ _ _ h] at hq
    obtain ⟨terms, h1, h2⟩ := parseList_ok parse uw ts Monomial.zero q false (by simpa using hq)
    refine ⟨terms, h1, ?_⟩
    have h0 : LawfulMutPoly.repr (N := R) (Monomial.zero : Monomial R) = 0 := by
      show C (0 : R) * X ^ 0 = 0; simp
    rw [h0, zero_add] at h2; exact h2
  · intro q hq
    rw [LinearBinomial.fromStr, polyFromStr_eq _ _ _ _ _ h] at hq
    obtain ⟨terms, h1, h2⟩ := parseList_ok parse uw ts LinearBinomial.zero q false (by simpa using hq)
    refine ⟨terms, h1, ?_⟩
    have h0 : LawfulMutPoly.repr (N := R) (LinearBinomial.zero : LinearBinomial R) = 0 := by
      show C (0 : R) * X + C 0 = 0; simp
    rw [h0, zero_add] at h2; exact h2
  · intro q hq
    rw [QuadraticTrinomial.fromStr, polyFromStr_eq _ _ _ _ _ h] at hq
    obtain ⟨terms, h1, h2⟩ := parseList_ok parse uw ts QuadraticTrinomial.zero q false (by simpa using hq)
    refine ⟨terms, h1, ?_⟩
    have h0 : LawfulMutPoly.repr (N := R) (QuadraticTrinomial.zero : QuadraticTrinomial R) = 0 := by
      show C (0 : R) * X ^ 2 + C 0 * X + C 0 = 0; simp
    rw [h0, zero_add] at h2; exact h2

/-- C39: if every token parses, `from_str` of Polynomial and SparsePolynomial returns the sum of the
terms. -/
theorem C39_sum [CanNegate R] (s : List Char) (ts : List (List Char)) (terms : List (Term R))
    (h : IsTokenization s ts) (hs : s ≠ []) (hp : ts.map (Term.fromStr parse uw) = terms.map .ok) :
    (∃ q, Poly.fromStr parse uw s = .ok (.ok q) ∧ descPoly q.terms = (terms.map Term.poly).sum) ∧
    (∃ q, Sparse.fromStr parse uw s = .ok (.ok q) ∧
      entriesPoly q.terms.entries = (terms.map Term.poly).sum) := by
  have hts : ts ≠ [] := by rintro rfl; exact hs h.1.symm
  constructor
  · obtain ⟨p', b', h1, h2, h3⟩ := parseList_free parse uw (S := Poly R)
      (fun p c d => ⟨_, rfl⟩) ts terms hp [] Poly.zero false
    rw [List.append_nil] at h2
    refine ⟨p', ?_, ?_⟩
    · rw [Poly.fromStr, polyFromStr_eq _ _ _ _ _ h, h2, h1.2 (.inr hts)]; rfl
    · have h0 : LawfulMutPoly.repr (N := R) (Poly.zero : Poly R) = 0 := by
        show descPoly (Poly.zero : Poly R).terms = 0; simp [Poly.zero]
      rw [h0, zero_add] at h3; exact h3
  · obtain ⟨p', b', h1, h2, h3⟩ := parseList_free parse uw (S := Sparse R)
      (fun p c d => ⟨_, rfl⟩) ts terms hp [] Sparse.zero false
    rw [List.append_nil] at h2
    refine ⟨p', ?_, ?_⟩
    · rw [Sparse.fromStr, polyFromStr_eq _ _ _ _ _ h, h2, h1.2 (.inr hts)]; rfl
    · have h0 : LawfulMutPoly.repr (N := R) (Sparse.zero : Sparse R) = 0 := by
        show entriesPoly [] = 0; simp [entriesPoly]
      rw [h0, zero_add] at h3; exact h3

/-- C39: if some token does not parse, the error of the first such token is returned. -/
theorem C39_first_error [CanNegate R] (s : List Char) (pre : List (List Char)) (bad : List Char)
    (post : List (List Char)) (terms : List (Term R)) (e : TermFromStringError)
    (h : IsTokenization s (pre ++ bad :: post)) (hp : pre.map (Term.fromStr parse uw) = terms.map .ok)
    (hb : Term.fromStr parse uw bad = .error e) :
    Poly.fromStr parse uw s = .ok (.error (.termFromString e)) ∧
    Sparse.fromStr parse uw s = .ok (.error (.termFromString e)) := by
  constructor
  · obtain ⟨p', b', h1, h2, h3⟩ := parseList_free parse uw (S := Poly R)
      (fun p c d => ⟨_, rfl⟩) pre terms hp (bad :: post) Poly.zero false
    rw [Poly.fromStr, polyFromStr_eq _ _ _ _ _ h, h2, parseList, hb]
  · obtain ⟨p', b', h1, h2, h3⟩ := parseList_free parse uw (S := Sparse R)
      (fun p c d => ⟨_, rfl⟩) pre terms hp (bad :: post) Sparse.zero false
    rw [Sparse.fromStr, polyFromStr_eq _ _ _ _ _ h, h2, parseList, hb]

/-- C39: the order of the terms does not matter. -/
theorem C39_order [CanNegate R] (s s' : List Char) (ts ts' : List (List Char)) (terms terms' : List (Term R))
    (h : IsTokenization s ts) (h' : IsTokenization s' ts') (hs : s ≠ []) (hs' : s' ≠ [])
    (hp : ts.map (Term.fromStr parse uw) = terms.map .ok)
    (hp' : ts'.map (Term.fromStr parse uw) = terms'.map .ok) (hperm : terms.Perm terms') :
    ∃ q q', Poly.fromStr parse uw s = .ok (.ok q) ∧ Poly.fromStr parse uw s' = .ok (.ok q') ∧
      descPoly q.terms = descPoly q'.terms ∧
      ∃ r r', Sparse.fromStr parse uw s = .ok (.ok r) ∧ Sparse.fromStr parse uw s' = .ok (.ok r') ∧
      entriesPoly r.terms.entries = entriesPoly r'.terms.entries ∧
      descPoly q.terms = entriesPoly r.terms.entries := by
  obtain ⟨⟨q, h1, h2⟩, r, h3, h4⟩ := C39_sum parse uw s ts terms h hs hp
  obtain ⟨⟨q', h1', h2'⟩, r', h3', h4'⟩ := C39_sum parse uw s' ts' terms' h' hs' hp'
  have : (terms.map Term.poly).sum = (terms'.map Term.poly).sum := (hperm.map Term.poly).sum_eq
  exact ⟨q, q', h1, h1', by rw [h2, h2', this], r, r', h3, h3', by rw [h4, h4', this], by rw [h2, h4]⟩

end

/-- `3x^2 - x + 4 +x^2`: the tokens parse and the repeated degree is combined. -/
example : IsTokenization "3x^2 - x + 4 +x^2".toList
      ["3x^2 ".toList, "- x ".toList, "+ 4 ".toList, "+x^2".toList] ∧
    ["3x^2 ".toList, "- x ".toList, "+ 4 ".toList, "+x^2".toList].map (Term.fromStr (parseInt ⟨true, 32⟩) 64) =
      [Term.term 3 2, .term (-1) 1, .term 4 0, .term 1 2].map .ok ∧
    Poly.fromStr (parseInt ⟨true, 32⟩) 64 "3x^2 - x + 4 +x^2".toList = .ok (.ok ⟨[4, -1, 4]⟩) := by
  refine ⟨⟨by decide, .inl ⟨⟨[], '3', "x^2 ".toList, rfl, by decide, by decide, by simp [IsSign]⟩, ?_⟩⟩, rfl, rfl⟩
  intro u hu
  simp only [List.mem_cons, List.not_mem_nil, or_false] at hu
  rcases hu with rfl | rfl | rfl
  · exact ⟨'-', " x ".toList, rfl, .inr rfl, by simp [IsSign]⟩
  · exact ⟨'+', " 4 ".toList, rfl, .inl rfl, by simp [IsSign]⟩
  · exact ⟨'+', "x^2".toList, rfl, .inl rfl, by simp [IsSign]⟩

/-! ## Characters no text of a polynomial contains -/

/-- The characters of terms. -/
def LegalChar (c : Char) : Prop := IsSep c ∨ IsNum c ∨ c = 'x' ∨ c = '^'

theorem parseList_ok_terms {N S : Type} [Zero N] [NumZero N] [One N] [MutPoly N S] (parse : List Char → Option N)
    (uw : Nat) : ∀ (ts : List (List Char)) (p q : S) (b : Bool), parseList parse uw ts p b = .ok q →
      ∀ t ∈ ts, ∃ T, Term.fromStr parse uw t = .ok T := by
  intro ts
  induction ts with
  | nil => intro p q b _ t ht; cases ht
  | cons a ts ih =>
    intro p q b h t ht
    rw [parseList] at h
    cases hT : Term.fromStr parse uw a with
    | error e => rw [hT] at h; cases h
    | ok T =>
      rw [hT] at h
      rcases List.mem_cons.1 ht with rfl | ht
      · exact ⟨T, hT⟩
      · cases T with
        | zeroTerm => exact ih _ _ _ h t ht
        | term c d =>
          simp only at h
          cases hA : MutPoly.tryAddTerm p c d with
          | mk p' r =>
            rw [hA] at h
            cases r with
            | error e => cases h
            | ok u => exact ih _ _ _ h t ht

/-- C39: a text with any other character is rejected, whatever the type of the polynomial and of its
coefficients. -/
theorem C39_legal_chars {N S : Type} [Zero N] [NumZero N] [One N] [MutPoly N S] (zero q : S)
    (parse : List Char → Option N) (uw : Nat) (s : List Char) (h : polyFromStr zero parse uw s = .ok (.ok q)) :
    ∀ c ∈ s, c ∈ [' ', ',', '_', '+', '-', '.', 'x', '^'] ∨ isDigitChar c = true := by
  obtain ⟨ts, ht⟩ := exists_tokenization s
  rw [polyFromStr_eq zero parse uw s ts ht] at h
  have hok := parseList_ok_terms parse uw ts zero q false (Res.ok.inj h)
  intro c hc
  rw [← ht.1] at hc
  obtain ⟨t, hts, hct⟩ := List.mem_flatten.1 hc
  obtain ⟨T, hT⟩ := hok t hts
  have hleg : LegalChar c := by
    by_cases hsep : IsSep c
    · exact .inl hsep
    right
    have hcc : c ∈ clean t := mem_clean.2 ⟨hct, hsep⟩
    rcases (C36_accept_iff parse uw t T).1 hT with ⟨v, h1, _, _⟩ | ⟨num, v, h1, _, ⟨h2, _⟩ | ⟨a, b, e, h2, h3, _, h4, _⟩⟩
    · exact .inl (h1 c hcc)
    · rw [h2] at hcc
      rcases List.mem_append.1 hcc with hcc | hcc
      · exact .inl (h1 c hcc)
      · exact .inr (.inl (by simpa using hcc))
    · rcases h4 with h4 | h4
      · rw [h4] at hcc
        simp only [List.mem_append, List.mem_cons] at hcc
        rcases hcc with h | h | h | h | h
        exacts [.inl (h1 c h), .inr (.inl h), .inl (h2 c h), .inr (.inr h), .inl (h3 c h)]
      · rw [h4] at hcc
        simp only [List.mem_append, List.mem_cons] at hcc
        rcases hcc with h | h | h | h
        exacts [.inl (h1 c h), .inr (.inl h), .inl (h2 c h), .inl (h3 c h)]
  rcases hleg with (h | h | h) | (h | h | h | h) | h | h
  all_goals first
    | exact .inr h
    | (rw [h]; exact .inl (by decide))

-- `3y` and `2e5` are rejected, `3 x ^ 2 - 1_0` is not
example : (polyFromStr (Poly.zero : Poly Int) (parseInt ⟨true, 32⟩) 64 "3y".toList).bind
      (fun r => .ok (r.toOption.map (·.terms))) = .ok none ∧
    (polyFromStr (Poly.zero : Poly Int) (parseInt ⟨true, 32⟩) 64 "2e5".toList).bind
      (fun r => .ok (r.toOption.map (·.terms))) = .ok none ∧
    (polyFromStr (Poly.zero : Poly Int) (parseInt ⟨true, 32⟩) 64 "3 x ^ 2 - 1_0".toList).bind
      (fun r => .ok (r.toOption.map (·.terms))) = .ok (some [3, 0, -10]) := by decide +kernel

end Rustnomial
