import Verif.SpecParseErrors
import Verif.Props.Parse
import Verif.Model.FloatText

/-!
# Exactly which error a text is refused with (C113)
-/

open Polynomial

namespace Rustnomial

section
variable {N : Type} [Zero N] [NumZero N] [One N] (parse : List Char → Option N) (uw : Nat)

theorem num_ne_x {c : Char} (h : IsNum c) : c ≠ 'x' ∧ c ≠ '^' := by
  constructor <;> (rintro rfl; revert h; decide)

theorem x_notin_num {l : List Char} (h : ∀ c ∈ l, IsNum c) : 'x' ∉ l ∧ '^' ∉ l :=
  ⟨fun hx => (num_ne_x (h _ hx)).1 rfl, fun hx => (num_ne_x (h _ hx)).2 rfl⟩

/-- The part after `x`: no caret, or one. -/
theorem split_caret {r : List Char} (h : ∀ c ∈ r, IsNum c ∨ c = '^') (hc : r.count '^' ≤ 1) :
    (∀ c ∈ r, IsNum c) ∨ ∃ a b, r = a ++ '^' :: b ∧ (∀ c ∈ a, IsNum c) ∧ ∀ c ∈ b, IsNum c := by
  by_cases hm : '^' ∈ r
  · right
    obtain ⟨a, b, rfl⟩ := List.append_of_mem hm
    have h2 : a.count '^' + b.count '^' = 0 := by
      simp only [List.count_append, List.count_cons_self] at hc; omega
    have ha : '^' ∉ a := by rw [← List.count_eq_zero]; omega
    have hb : '^' ∉ b := by rw [← List.count_eq_zero]; omega
    exact ⟨a, b, rfl, fun c hc => (h c (by simp [hc])).resolve_right fun e => ha (e ▸ hc),
      fun c hc => (h c (by simp [hc])).resolve_right fun e => hb (e ▸ hc)⟩
  · exact .inl fun c hc => (h c hc).resolve_right fun e => hm (e ▸ hc)

omit [Zero N] [NumZero N] in
/-- The state of the parser after a faultless beginning. -/
theorem good_state {g : List Char} (hg : GoodStart parse g) :
    (('x' ∉ g ∧ '^' ∉ g ∧ (∀ c ∈ g, IsNum c) ∧
      ∀ r, termLoop parse (g ++ r) ⟨[], 1, false, false⟩ = termLoop parse r ⟨g, 1, false, false⟩) ∨
    ∃ num r v, g = num ++ 'x' :: r ∧ (∀ c ∈ num, IsNum c) ∧ 'x' ∉ num ∧ 'x' ∉ r ∧ '^' ∉ num ∧
      (∀ c ∈ r, IsNum c ∨ c = '^') ∧ r.count '^' ≤ 1 ∧ coeffText parse num = some v ∧
      ∀ s, termLoop parse (g ++ s) ⟨[], 1, false, false⟩ =
        termLoop parse s ⟨r.filter (· ≠ '^'), v, true, decide ('^' ∈ r)⟩) := by
  rcases hg with h | ⟨num, r, h1, h2, rfl, h3, h4⟩
  · exact .inl ⟨(x_notin_num h).1, (x_notin_num h).2, h, fun r => by rw [termLoop_num parse g h]; simp⟩
  · right
    obtain ⟨v, hv⟩ := Option.isSome_iff_exists.1 h2
    have hxr : 'x' ∉ r := fun hx => (h3 _ hx).elim (fun h => (num_ne_x h).1 rfl) (by decide)
    refine ⟨num, r, v, rfl, h1, (x_notin_num h1).1, hxr, (x_notin_num h1).2, h3, h4, hv, fun s => ?_⟩
    rw [List.append_assoc, termLoop_num parse num h1, List.cons_append, List.nil_append,
      termLoop_cons_ok parse (st' := ⟨[], v, true, false⟩) (by rw [termStep_x, hv])]
    have filt : ∀ l : List Char, (∀ c ∈ l, IsNum c) → l.filter (· ≠ '^') = l := fun l hl => by
      rw [List.filter_eq_self]; intro c hc; simpa using (num_ne_x (hl c hc)).2
    rcases split_caret h3 h4 with hr | ⟨a, b, rfl, ha, hb⟩
    · rw [termLoop_num parse r hr, filt r hr, List.nil_append, decide_eq_false (x_notin_num hr).2]
    · rw [List.append_assoc, termLoop_num parse a ha, List.cons_append, List.nil_append,
        termLoop_cons_ok parse (termStep_caret parse a v), termLoop_num parse b hb]
      rw [List.filter_append, List.filter_cons_of_neg (by simp), filt a ha, filt b hb]
      simp

omit [Zero N] [NumZero N] in
/-- A text without ignored characters is a faultless beginning, or has a first faulty character. -/
theorem first_fault_exists (l : List Char) (hl : ∀ c ∈ l, ¬ IsSep c) :
    GoodStart parse l ∨ ∃ g c r e, l = g ++ c :: r ∧ GoodStart parse g ∧ FaultAt parse g c e := by
  induction l using List.reverseRecOn with
  | nil => exact .inl (.inl (by simp))
  | append_singleton g c ih =>
    rcases ih (fun d hd => hl d (by simp [hd])) with hg | ⟨g', c', r, e, rfl, h1, h2⟩
    · by_cases hgood : GoodStart parse (g ++ [c])
      · exact .inl hgood
      · right
        refine ⟨g, c, [], ?_⟩
        have hn : ¬ IsNum c := by
          intro hc
          apply hgood
          rcases hg with h | ⟨num, r, h1, h2, rfl, h3, h4⟩
          · left; intro d hd
            rcases List.mem_append.1 hd with h' | h'
            · exact h d h'
            · rw [List.mem_singleton.1 h']; exact hc
          · right
            refine ⟨num, r ++ [c], h1, h2, by simp, fun d hd => ?_, ?_⟩
            · rcases List.mem_append.1 hd with h' | h'
              · exact h3 d h'
              · rw [List.mem_singleton.1 h']; exact .inl hc
            · rw [List.count_append, List.count_singleton, if_neg (by simpa using (num_ne_x hc).2)]; exact h4
        by_cases hx : c = 'x'
        · subst hx
          by_cases hxg : 'x' ∈ g
          · exact ⟨.moreThanOneX, rfl, hg, rfl, hxg⟩
          · refine ⟨.coeffCouldNotBeParsed, rfl, hg, rfl, hxg, ?_⟩
            rcases hg with h | ⟨num, r, h1, h2, rfl, h3, h4⟩
            · by_contra h0
              exact hgood (.inr ⟨g, [], h, Option.isSome_iff_ne_none.2 h0, rfl, by simp, by simp⟩)
            · exact absurd (by simp) hxg
        · by_cases hc : c = '^'
          · subst hc
            by_cases hxg : 'x' ∈ g
            · refine ⟨.multipleCarets, rfl, hg, rfl, ?_⟩
              rcases hg with h | ⟨num, r, h1, h2, rfl, h3, h4⟩
              · exact absurd hxg (x_notin_num h).1
              · by_contra hno
                apply hgood
                refine .inr ⟨num, r ++ ['^'], h1, h2, by simp, fun d hd => ?_, ?_⟩
                · rcases List.mem_append.1 hd with h' | h'
                  · exact h3 d h'
                  · exact .inr (List.mem_singleton.1 h')
                · have : '^' ∉ r := fun h => hno (by simp [h])
                  rw [List.count_append, List.count_eq_zero.2 this]; simp
            · exact ⟨.caretWithoutXInFront, rfl, hg, rfl, hxg⟩
          · exact ⟨.unexpectedChar c, rfl, hg, rfl, hn, hx, hc⟩
    · exact .inr ⟨g', c', r ++ [c], e, by simp, h1, h2⟩

omit [Zero N] [NumZero N] in
theorem fault_at_error {g r : List Char} {c : Char} {e : TermFromStringError} (hg : GoodStart parse g)
    (hs : ¬ IsSep c) (h : FaultAt parse g c e) :
    termLoop parse (g ++ c :: r) ⟨[], 1, false, false⟩ = .error e := by
  rcases good_state parse hg with ⟨h1, h2, h3, h4⟩ | ⟨num, q, v, rfl, h1, h2, h3, h4, h5, h6, h7, h8⟩
  · rw [h4]
    apply termLoop_cons_error
    cases e with
    | unexpectedChar d => obtain ⟨rfl, h⟩ := h; exact termStep_illegal parse _ ⟨hs, h⟩
    | moreThanOneX => exact absurd h.2 h1
    | coeffCouldNotBeParsed => obtain ⟨rfl, _, h⟩ := h; rw [termStep_x, h]
    | multipleCarets => exact absurd h.2 h2
    | caretWithoutXInFront => obtain ⟨rfl, _⟩ := h; exact termStep_caret_early parse g 1
    | caretWithoutDegree => exact h.elim
    | degreeCouldNotBeParsed => exact h.elim
  · rw [h8]
    apply termLoop_cons_error
    cases e with
    | unexpectedChar d => obtain ⟨rfl, h⟩ := h; exact termStep_illegal parse _ ⟨hs, h⟩
    | moreThanOneX => obtain ⟨rfl, _⟩ := h; exact termStep_x_again parse _ v _
    | coeffCouldNotBeParsed => exact absurd (by simp) h.2.1
    | multipleCarets =>
      obtain ⟨rfl, h⟩ := h
      have : '^' ∈ q := by simpa [h4] using h
      rw [decide_eq_true this]
      exact termStep_caret_again parse _ v
    | caretWithoutXInFront => exact absurd (by simp) h.2
    | caretWithoutDegree => exact h.elim
    | degreeCouldNotBeParsed => exact h.elim

theorem filter_caret_nil {q : List Char} (h : ∀ c ∈ q, IsNum c ∨ c = '^') (hc : q.count '^' ≤ 1) :
    q.filter (· ≠ '^') = [] ↔ q = [] ∨ q = ['^'] := by
  constructor
  · intro h0
    rcases split_caret h hc with hr | ⟨a, b, rfl, ha, hb⟩
    · left
      rw [List.filter_eq_nil_iff] at h0
      cases q with
      | nil => rfl
      | cons c q => exact absurd (by simpa using (num_ne_x (hr c (by simp))).2) (h0 c (by simp))
    · right
      rw [List.filter_eq_nil_iff] at h0
      have : ∀ l : List Char, (∀ c ∈ l, IsNum c) → (∀ c ∈ l, c ∈ a ++ '^' :: b) → l = [] := by
        intro l hl hm
        cases l with
        | nil => rfl
        | cons c l => exact absurd (by simpa using (num_ne_x (hl c (by simp))).2) (h0 c (hm c (by simp)))
      rw [this a ha (by simp +contextual), this b hb (by simp +contextual)]; rfl
  · rintro (rfl | rfl) <;> rfl

theorem end_error {t : List Char} (hg : GoodStart parse t) (e : TermFromStringError) :
    (match termLoop parse t ⟨[], 1, false, false⟩ with
      | .ok st => termFinish parse uw st
      | .error e => .error e) = .error e ↔ FaultAtEnd parse uw t e := by
  rcases good_state parse hg with ⟨h1, h2, h3, h4⟩ | ⟨num, q, v, rfl, h1, h2, h3, h4, h5, h6, h7, h8⟩
  · have := h4 []
    rw [List.append_nil] at this
    rw [this]
    simp only [termLoop, termFinish]
    cases hp : parse t with
    | some v =>
      simp only [Bool.false_eq_true, if_false, reduceCtorEq, false_iff]
      intro h
      cases e with
      | coeffCouldNotBeParsed =>
        rcases h with h | ⟨a, r, rfl, _⟩
        · rw [hp] at h; exact absurd h.2 (by simp)
        · simp at h1
      | caretWithoutDegree => obtain ⟨a, rfl⟩ := h; simp at h1
      | _ => exact h.elim
    | none =>
      simp only [Bool.false_eq_true, if_false, Except.error.injEq]
      constructor
      · rintro rfl; exact .inl ⟨h1, hp⟩
      · intro h
        cases e with
        | coeffCouldNotBeParsed => rfl
        | caretWithoutDegree => obtain ⟨a, rfl⟩ := h; simp at h1
        | _ => exact h.elim
  · have := h8 []
    rw [List.append_nil] at this
    rw [this]
    simp only [termLoop, termFinish, if_true]
    have hsplit : ∀ n r, num ++ 'x' :: q = n ++ 'x' :: r → n = num ∧ r = q := by
      intro n r h
      have hx : 'x' ∉ n := by
        have hc := congrArg (List.count 'x') h
        simp only [List.count_append, List.count_cons_self, List.count_eq_zero.2 h2, List.count_eq_zero.2 h3] at hc
        exact List.count_eq_zero.1 (by omega)
      have := List.append_eq_append_iff.1 h
      rcases this with ⟨a, e1, e2⟩ | ⟨a, e1, e2⟩
      · cases a with
        | nil => simp at e1 e2; exact ⟨e1, e2.symm⟩
        | cons d a => simp at e2; rw [e1, ← e2.1] at hx; simp at hx
      · cases a with
        | nil => simp at e1 e2; exact ⟨e1.symm, e2⟩
        | cons d a => simp at e2; rw [e1, ← e2.1] at h2; simp at h2
    by_cases hq : q.filter (· ≠ '^') = []
    · rw [hq]
      simp only [List.isEmpty_nil, if_true]
      rcases (filter_caret_nil h5 h6).1 hq with rfl | rfl
      · simp only [List.not_mem_nil, decide_false, Bool.false_eq_true, if_false, reduceCtorEq, false_iff]
        intro h
        cases e with
        | coeffCouldNotBeParsed =>
          rcases h with h | ⟨n, r, h, hr, _⟩
          · simp at h
          · exact hr (hsplit n r h).2
        | caretWithoutDegree =>
          obtain ⟨n, h⟩ := h
          exact absurd (hsplit n ['^'] h).2 (by simp)
        | _ => exact h.elim
      · simp only [List.mem_singleton, decide_true, if_true, Except.error.injEq]
        constructor
        · rintro rfl; exact ⟨num, rfl⟩
        · intro h
          cases e with
          | coeffCouldNotBeParsed =>
            rcases h with h | ⟨n, r, h, _, hr, _⟩
            · simp at h
            · exact absurd (hsplit n r h).2 hr
          | caretWithoutDegree => rfl
          | _ => exact h.elim
    · have hne : (q.filter (· ≠ '^')).isEmpty = false := by simpa using hq
      rw [hne]
      have hq1 : q ≠ [] ∧ q ≠ ['^'] := ⟨fun h => hq ((filter_caret_nil h5 h6).2 (.inl h)),
        fun h => hq ((filter_caret_nil h5 h6).2 (.inr h))⟩
      simp only [Bool.false_eq_true, if_false]
      cases hp : parseUsize uw (q.filter (· ≠ '^')) with
      | some d =>
        simp only [reduceCtorEq, false_iff]
        intro h
        cases e with
        | coeffCouldNotBeParsed =>
          rcases h with h | ⟨n, r, h, _, _, hr⟩
          · simp at h
          · rw [(hsplit n r h).2, hp] at hr; simp at hr
        | caretWithoutDegree => obtain ⟨n, h⟩ := h; exact hq1.2 (hsplit n ['^'] h).2.symm
        | _ => exact h.elim
      | none =>
        simp only [Except.error.injEq]
        constructor
        · rintro rfl; exact .inr ⟨num, q, rfl, hq1.1, hq1.2, hp⟩
        · intro h
          cases e with
          | coeffCouldNotBeParsed => rfl
          | caretWithoutDegree => obtain ⟨n, h⟩ := h; exact absurd (hsplit n ['^'] h).2.symm hq1.2
          | _ => exact h.elim

/-- C113: a term is refused with the error of its first fault, and with no other. -/
theorem C113_term (s : List Char) (e : TermFromStringError) :
    Term.fromStr parse uw s = .error e ↔ FirstFault parse uw (clean s) e := by
  have hclean : ∀ c ∈ clean s, ¬ IsSep c := by
    intro c hc; simpa [clean] using (List.mem_filter.1 hc).2
  have hF : Term.fromStr parse uw s = match termLoop parse (clean s) ⟨[], 1, false, false⟩ with
      | .ok st => termFinish parse uw st
      | .error e => .error e := by
    unfold Term.fromStr
    rw [termLoop_clean]
    cases termLoop parse (clean s) ⟨[], 1, false, false⟩ <;> rfl
  have hbad : ∀ g c r e, clean s = g ++ c :: r → GoodStart parse g → FaultAt parse g c e →
      Term.fromStr parse uw s = .error e := by
    intro g c r e h1 h2 h3
    rw [hF, h1, fault_at_error parse h2 (hclean c (by rw [h1]; simp)) h3]
  constructor
  · intro h
    rcases first_fault_exists parse (clean s) hclean with hg | ⟨g, c, r, e', h1, h2, h3⟩
    · exact .inr ⟨hg, (end_error parse uw hg e).1 (hF ▸ h)⟩
    · rw [hbad g c r e' h1 h2 h3] at h
      cases h
      exact .inl ⟨g, c, r, h1, h2, h3⟩
  · rintro (⟨g, c, r, h1, h2, h3⟩ | ⟨hg, he⟩)
    · exact hbad g c r e h1 h2 h3
    · rw [hF]; exact (end_error parse uw hg e).2 he

end

section
variable {N S : Type} [Zero N] [NumZero N] [One N] [MutPoly N S] (parse : List Char → Option N) (uw : Nat)

/-- A type whose values refuse terms as `refuse` says; `Rep p terms`: `p` is the sum of the terms. -/
structure RefusesAs (refuse : Refusal N) (Rep : S → List (Term N) → Prop) : Prop where
  zero : ∀ p terms, Rep p terms → Rep p (terms ++ [.zeroTerm])
  none : ∀ p terms (c : N) d, Rep p terms → refuse terms d = none →
    ∃ p', MutPoly.tryAddTerm p c d = (p', .ok ()) ∧ Rep p' (terms ++ [.term c d])
  some : ∀ p terms (c : N) d e, Rep p terms → refuse terms d = some e → (MutPoly.tryAddTerm p c d).2 = .error e

/-- The terms are taken after the terms `acc`. -/
def TakenFrom (refuse : Refusal N) (acc terms : List (Term N)) : Prop :=
  ∀ pre c d post, terms = pre ++ .term c d :: post → refuse (acc ++ pre) d = none

omit [Zero N] [NumZero N] [One N] in
theorem takenFrom_zero_cons {refuse : Refusal N} {acc terms : List (Term N)} :
    TakenFrom refuse acc (.zeroTerm :: terms) ↔ TakenFrom refuse (acc ++ [.zeroTerm]) terms := by
  constructor
  · intro h pre c d post e
    simpa using h (.zeroTerm :: pre) c d post (by rw [e]; rfl)
  · intro h pre c d post e
    cases pre with
    | nil => simp at e
    | cons T pre =>
      simp only [List.cons_append, List.cons.injEq] at e
      obtain ⟨rfl, e⟩ := e
      simpa using h pre c d post e

omit [Zero N] [NumZero N] [One N] in
theorem takenFrom_term_cons {refuse : Refusal N} {acc : List (Term N)} {c : N} {d : Nat} {terms : List (Term N)} :
    TakenFrom refuse acc (.term c d :: terms) ↔ refuse acc d = none ∧ TakenFrom refuse (acc ++ [.term c d]) terms := by
  constructor
  · intro h
    refine ⟨by simpa using h [] c d terms rfl, fun pre c' d' post e => ?_⟩
    simpa using h (.term c d :: pre) c' d' post (by rw [e]; rfl)
  · rintro ⟨h1, h2⟩ pre c' d' post e
    cases pre with
    | nil =>
      simp only [List.nil_append, List.cons.injEq, Term.term.injEq] at e
      obtain ⟨⟨rfl, rfl⟩, _⟩ := e
      simpa using h1
    | cons T pre =>
      simp only [List.cons_append, List.cons.injEq] at e
      obtain ⟨rfl, e⟩ := e
      simpa using h2 pre c' d' post e

/-- The loop over the tokens: it fails at the first fault. -/
theorem parseList_fault {refuse : Refusal N} {Rep : S → List (Term N) → Prop} (hS : RefusesAs refuse Rep)
    (e : PolynomialFromStringError) :
    ∀ (ts : List (List Char)) (p : S) (acc : List (Term N)) (b : Bool), Rep p acc → ts ≠ [] ∨ b = true →
      (parseList parse uw ts p b = .error e ↔
        ∃ pre bad post terms, ts = pre ++ bad :: post ∧ pre.map (Term.fromStr parse uw) = terms.map .ok ∧
          TakenFrom refuse acc terms ∧
          ((∃ e', Term.fromStr parse uw bad = .error e' ∧ e = .termFromString e') ∨
           ∃ c d e', Term.fromStr parse uw bad = .ok (.term c d) ∧
             refuse (acc ++ terms) d = some e' ∧ e = .addingTerm e')) := by
  intro ts
  induction ts with
  | nil =>
    intro p acc b _ hb
    have hb : b = true := by simpa using hb
    subst hb
    simp [parseList]
  | cons t ts ih =>
    intro p acc b hrep _
    rw [parseList]
    cases hT : Term.fromStr parse uw t with
    | error e' =>
      simp only [Except.error.injEq]
      constructor
      · rintro rfl
        exact ⟨[], t, ts, [], rfl, rfl, by intro pre c d post h; simp at h, .inl ⟨e', hT, rfl⟩⟩
      · rintro ⟨pre, bad, post, terms, h1, h2, h3, h4⟩
        cases pre with
        | nil =>
          simp only [List.nil_append, List.cons.injEq] at h1
          obtain ⟨rfl, rfl⟩ := h1
          rw [hT] at h4
          rcases h4 with ⟨e2, h4, rfl⟩ | ⟨c, d, e2, h4, _⟩
          · cases h4; rfl
          · simp at h4
        | cons a pre =>
          simp only [List.cons_append, List.cons.injEq] at h1
          obtain ⟨rfl, rfl⟩ := h1
          cases terms with
          | nil => simp at h2
          | cons T terms => simp only [List.map_cons, List.cons.injEq, hT] at h2; simp at h2
    | ok T =>
      cases T with
      | zeroTerm =>
        simp only
        rw [ih p _ true (hS.zero p acc hrep) (.inr rfl)]
        constructor
        · rintro ⟨pre, bad, post, terms, rfl, h2, h3, h4⟩
          exact ⟨t :: pre, bad, post, .zeroTerm :: terms, rfl, by simp [hT, h2], takenFrom_zero_cons.2 h3, by
            simpa using h4⟩
        · rintro ⟨pre, bad, post, terms, h1, h2, h3, h4⟩
          cases pre with
          | nil =>
            simp only [List.nil_append, List.cons.injEq] at h1
            obtain ⟨rfl, rfl⟩ := h1
            rw [hT] at h4
            simp at h4
          | cons a pre =>
            simp only [List.cons_append, List.cons.injEq] at h1
            obtain ⟨rfl, rfl⟩ := h1
            cases terms with
            | nil => simp at h2
            | cons T terms =>
              simp only [List.map_cons, List.cons.injEq, hT, Except.ok.injEq] at h2
              obtain ⟨rfl, h2⟩ := h2
              exact ⟨pre, bad, post, terms, rfl, h2, takenFrom_zero_cons.1 h3, by simpa using h4⟩
      | term c d =>
        simp only
        cases href : refuse acc d with
        | some e' =>
          have hadd := hS.some p acc c d e' hrep href
          rcases hA : MutPoly.tryAddTerm p c d with ⟨p', r⟩
          rw [hA] at hadd
          simp only at hadd
          subst hadd
          simp only [Except.error.injEq]
          constructor
          · rintro rfl
            exact ⟨[], t, ts, [], rfl, rfl, by intro pre c d post h; simp at h, .inr ⟨c, d, e', hT, by simpa using href, rfl⟩⟩
          · rintro ⟨pre, bad, post, terms, h1, h2, h3, h4⟩
            cases pre with
            | nil =>
              have ht : terms = [] := by simpa using h2.symm
              subst ht
              simp only [List.nil_append, List.cons.injEq] at h1
              obtain ⟨rfl, rfl⟩ := h1
              rw [hT] at h4
              rcases h4 with ⟨e2, h4, rfl⟩ | ⟨c', d', e2, h4, h5, rfl⟩
              · simp at h4
              · simp only [Except.ok.injEq, Term.term.injEq] at h4
                obtain ⟨rfl, rfl⟩ := h4
                simp only [List.append_nil, href, Option.some.injEq] at h5
                rw [h5]
            | cons a pre =>
              simp only [List.cons_append, List.cons.injEq] at h1
              obtain ⟨rfl, rfl⟩ := h1
              cases terms with
              | nil => simp at h2
              | cons T terms =>
                simp only [List.map_cons, List.cons.injEq, hT, Except.ok.injEq] at h2
                obtain ⟨rfl, h2⟩ := h2
                rw [takenFrom_term_cons, href] at h3
                simp at h3
        | none =>
          obtain ⟨p', hA, hrep'⟩ := hS.none p acc c d hrep href
          rw [hA]
          simp only
          rw [ih p' _ true hrep' (.inr rfl)]
          constructor
          · rintro ⟨pre, bad, post, terms, rfl, h2, h3, h4⟩
            exact ⟨t :: pre, bad, post, .term c d :: terms, rfl, by simp [hT, h2], takenFrom_term_cons.2 ⟨href, h3⟩, by
              simpa using h4⟩
          · rintro ⟨pre, bad, post, terms, h1, h2, h3, h4⟩
            cases pre with
            | nil =>
              have ht : terms = [] := by simpa using h2.symm
              subst ht
              simp only [List.nil_append, List.cons.injEq] at h1
              obtain ⟨rfl, rfl⟩ := h1
              rw [hT] at h4
              rcases h4 with ⟨e2, h4, rfl⟩ | ⟨c', d', e2, h4, h5, rfl⟩
              · simp at h4
              · simp only [Except.ok.injEq, Term.term.injEq] at h4
                obtain ⟨rfl, rfl⟩ := h4
                simp [href] at h5
            | cons a pre =>
              simp only [List.cons_append, List.cons.injEq] at h1
              obtain ⟨rfl, rfl⟩ := h1
              cases terms with
              | nil => simp at h2
              | cons T terms =>
                simp only [List.map_cons, List.cons.injEq, hT, Except.ok.injEq] at h2
                obtain ⟨rfl, h2⟩ := h2
                exact ⟨pre, bad, post, terms, rfl, h2, (takenFrom_term_cons.1 h3).2, by simpa using h4⟩

theorem parse_fault_iff {refuse : Refusal N} {Rep : S → List (Term N) → Prop} (hS : RefusesAs refuse Rep) (zero : S)
    (h0 : Rep zero []) (s : List Char) (e : PolynomialFromStringError) :
    polyFromStr zero parse uw s = .ok (.error e) ↔ ParseFault refuse parse uw s e := by
  by_cases hs : s = []
  · subst hs
    rw [show polyFromStr zero parse uw [] = .ok (.error .noTermsFound) from (C39_empty zero parse uw []).2 rfl]
    constructor
    · intro h; cases h; exact .inl ⟨rfl, rfl⟩
    · rintro (⟨_, rfl⟩ | ⟨pre, bad, post, terms, h, _⟩)
      · rfl
      · have := h.1
        have hb := h.ne_nil bad (by simp)
        simp at this
        exact absurd this.2.1 hb
  · obtain ⟨ts, hts⟩ := exists_tokenization s
    have hne : ts ≠ [] := by rintro rfl; exact hs hts.1.symm
    rw [polyFromStr_eq zero parse uw s ts hts, Res.ok.injEq, parseList_fault parse uw hS e ts zero [] false h0 (.inl hne)]
    constructor
    · rintro ⟨pre, bad, post, terms, rfl, h2, h3, h4⟩
      refine .inr ⟨pre, bad, post, terms, hts, h2, fun a c d b hab => by simpa using h3 a c d b hab, ?_⟩
      simpa only [C113_term, List.nil_append] using h4
    · rintro (⟨h, _⟩ | ⟨pre, bad, post, terms, h1, h2, h3, h4⟩)
      · exact absurd h hs
      · rw [C34_unique s ts _ hts h1]
        refine ⟨pre, bad, post, terms, rfl, h2, fun a c d b hab => by simpa using h3 a c d b hab, ?_⟩
        simpa only [C113_term, List.nil_append] using h4

theorem parseList_terms : ∀ (ts : List (List Char)) (p q : S) (b : Bool), parseList parse uw ts p b = .ok q →
    ∃ terms : List (Term N), ts.map (Term.fromStr parse uw) = terms.map .ok := by
  intro ts
  induction ts with
  | nil => intro p q b _; exact ⟨[], rfl⟩
  | cons t ts ih =>
    intro p q b h
    rw [parseList] at h
    cases hT : Term.fromStr parse uw t with
    | error e => rw [hT] at h; cases h
    | ok T =>
      rw [hT] at h
      cases T with
      | zeroTerm =>
        obtain ⟨terms, h'⟩ := ih _ _ _ h
        exact ⟨.zeroTerm :: terms, by simp [hT, h']⟩
      | term c d =>
        simp only at h
        split at h
        · cases h
        · obtain ⟨terms, h'⟩ := ih _ _ _ h
          exact ⟨.term c d :: terms, by simp [hT, h']⟩

theorem parse_ok_iff {refuse : Refusal N} {Rep : S → List (Term N) → Prop} (hS : RefusesAs refuse Rep) (zero : S)
    (h0 : Rep zero []) (s : List Char) :
    (∃ q, polyFromStr zero parse uw s = .ok (.ok q)) ↔ NoParseFault refuse parse uw s := by
  obtain ⟨ts, hts⟩ := exists_tokenization s
  constructor
  · rintro ⟨q, hq⟩
    have hnf : ∀ e, ¬ ParseFault refuse parse uw s e := fun e he => by
      rw [(parse_fault_iff parse uw hS zero h0 s e).2 he] at hq; cases hq
    have hq' := hq
    rw [polyFromStr_eq zero parse uw s ts hts, Res.ok.injEq] at hq'
    obtain ⟨terms, h1⟩ := parseList_terms parse uw ts zero q false hq'
    refine ⟨?_, ts, terms, hts, h1, ?_⟩
    · rintro rfl
      exact hnf .noTermsFound (.inl ⟨rfl, rfl⟩)
    · have key : ∀ pre post, terms = pre ++ post → Taken refuse pre := by
        intro pre
        induction pre using List.reverseRecOn with
        | nil => intro post _ a c d b h; simp at h
        | append_singleton pre T ih =>
          intro post hp a c d b hab
          have ih' := ih (T :: post) (by rw [hp]; simp)
          cases b using List.reverseRecOn with
          | append_singleton b T' =>
            rw [← List.cons_append, ← List.append_assoc] at hab
            exact ih' a c d b (List.append_inj' hab rfl).1
          | nil =>
            obtain ⟨rfl, hT⟩ := List.append_inj' hab rfl
            simp only [List.cons.injEq, and_true] at hT
            subst hT
            cases hr : refuse pre d with
            | none => rfl
            | some e =>
              exfalso
              subst hp
              simp only [List.append_assoc, List.map_append, List.map_cons, List.map_nil] at h1
              obtain ⟨l1, l2, rfl, e1, e2⟩ := List.map_eq_append_iff.1 h1
              obtain ⟨bad, l3, rfl, e3, e4⟩ := List.map_eq_cons_iff.1 (e2.trans (List.singleton_append ..))
              exact hnf (.addingTerm e) (.inr ⟨l1, bad, l3, pre, hts, e1, ih', .inr ⟨c, d, e, e3, hr, rfl⟩⟩)
      exact key terms [] (by simp)
  · rintro ⟨hs, ts', terms, hts', h1, h2⟩
    obtain ⟨r, hr⟩ := C39_total zero parse uw s
    cases r with
    | ok q => exact ⟨q, hr⟩
    | error e =>
      exfalso
      rcases (parse_fault_iff parse uw hS zero h0 s e).1 hr with ⟨h, _⟩ | ⟨pre, bad, post, terms', h3, h4, h5, h6⟩
      · exact hs h
      · obtain rfl := C34_unique s _ _ hts' h3
        rw [List.map_append, List.map_cons] at h1
        obtain ⟨t1, t2, rfl, e1, e2⟩ := List.map_eq_append_iff.1 h1.symm
        obtain ⟨T, t3, rfl, e3, e4⟩ := List.map_eq_cons_iff.1 e2
        have : t1 = terms' := List.map_injective_iff.2 (fun a b h => Except.ok.inj h) (e1.trans h4)
        subst this
        rcases h6 with ⟨e', h6, _⟩ | ⟨c, d, e', h6, h7, _⟩
        · rw [← C113_term, ← e3] at h6; cases h6
        · rw [← e3] at h6
          cases h6
          rw [h2 t1 c d t3 rfl] at h7
          cases h7

end

section
variable {N : Type} [Zero N] [NumZero N] [One N] [Add N] [Sub N] [CanNegate N] (parse : List Char → Option N) (uw : Nat)

omit [NumZero N] [One N] in
theorem poly_refuses : RefusesAs (S := Poly N) (refusesNothing : Refusal N) (fun _ _ => True) :=
  ⟨fun _ _ _ => trivial, fun _ _ _ _ _ _ => ⟨_, rfl, trivial⟩, fun _ _ _ _ _ _ h => by simp [refusesNothing] at h⟩

omit [One N] in
theorem sparse_refuses : RefusesAs (S := Sparse N) (refusesNothing : Refusal N) (fun _ _ => True) :=
  ⟨fun _ _ _ => trivial, fun _ _ _ _ _ _ => ⟨_, rfl, trivial⟩, fun _ _ _ _ _ _ h => by simp [refusesNothing] at h⟩

omit [Zero N] [NumZero N] [One N] [CanNegate N] in
theorem linear_refuses : RefusesAs (S := LinearBinomial N) (refusesAbove 1 : Refusal N) (fun _ _ => True) := by
  refine ⟨fun _ _ _ => trivial, fun p _ c d _ h => ?_, fun p _ c d e _ h => ?_⟩
  · have hd : d ≤ 1 := by by_contra h'; simp [refusesAbove, Nat.lt_of_not_le h'] at h
    exact ⟨_, if_pos hd, trivial⟩
  · have hd : ¬ d ≤ 1 := by intro h'; simp [refusesAbove, Nat.not_lt.2 h'] at h
    rw [refusesAbove, if_pos (by omega), Option.some.injEq] at h
    subst h
    show (LinearBinomial.tryAddTerm p c d).2 = _
    rw [LinearBinomial.tryAddTerm, if_neg hd]

omit [Zero N] [NumZero N] [One N] [CanNegate N] in
theorem quadratic_refuses : RefusesAs (S := QuadraticTrinomial N) (refusesAbove 2 : Refusal N) (fun _ _ => True) := by
  refine ⟨fun _ _ _ => trivial, fun p _ c d _ h => ?_, fun p _ c d e _ h => ?_⟩
  · have hd : d ≤ 2 := by by_contra h'; simp [refusesAbove, Nat.lt_of_not_le h'] at h
    exact ⟨_, if_pos hd, trivial⟩
  · have hd : ¬ d ≤ 2 := by intro h'; simp [refusesAbove, Nat.not_lt.2 h'] at h
    rw [refusesAbove, if_pos (by omega), Option.some.injEq] at h
    subst h
    show (QuadraticTrinomial.tryAddTerm p c d).2 = _
    rw [QuadraticTrinomial.tryAddTerm, if_neg hd]

omit [One N] [Add N] [Sub N] [CanNegate N] in
theorem monomial_isZeroPoly_eq (p : Monomial N) : p.isZeroPoly = isZero p.coefficient := by
  unfold Monomial.isZeroPoly Monomial.degree
  cases isZero p.coefficient <;> rfl

omit [Zero N] [NumZero N] [One N] [Add N] [Sub N] [CanNegate N] in
theorem nonzeroTerms_append (a b : List (Term N)) : nonzeroTerms (a ++ b) = nonzeroTerms a ++ nonzeroTerms b :=
  List.filterMap_append

omit [One N] [CanNegate N] in
theorem monomial_refuses_sum (hz : isZero (0 : N) = true) : RefusesAs (S := Monomial N) (refusesOtherSum : Refusal N)
    (fun p terms => p.coefficient = (nonzeroTerms terms).foldl (fun v t => v + t.1) (0 : N) ∧
      ∀ d, (nonzeroTerms terms).getLast?.map (·.2) = some d → p.deg = d) := by
  have hzero : nonzeroTerms [(Term.zeroTerm : Term N)] = [] := rfl
  have hterm : ∀ (c : N) d, nonzeroTerms [Term.term c d] = [(c, d)] := fun _ _ => rfl
  refine ⟨fun p terms h => ?_, fun p terms c d h hr => ?_, fun p terms c d e h hr => ?_⟩
  · rw [nonzeroTerms_append, hzero, List.append_nil]; exact h
  · show ∃ p', Monomial.tryAddTerm p c d = (p', .ok ()) ∧ _
    rw [Monomial.tryAddTerm, monomial_isZeroPoly_eq, nonzeroTerms_append, hterm, List.foldl_append, ← h.1]
    rw [refusesOtherSum, ← h.1] at hr
    cases h0 : isZero p.coefficient with
    | true => exact ⟨_, rfl, rfl, by simp⟩
    | false =>
      have hd : (nonzeroTerms terms).getLast?.map (·.2) = some d := by
        by_contra hd
        rw [if_pos ⟨h0, hd⟩] at hr
        cases hr
      obtain rfl := h.2 d hd
      simp only [Bool.false_eq_true, if_false, if_true]
      exact ⟨_, rfl, rfl, by simp⟩
  · rw [refusesOtherSum, ← h.1] at hr
    split at hr
    · rename_i hc
      cases hr
      show (Monomial.tryAddTerm p c d).2 = _
      have hd : d ≠ p.deg := by
        rintro rfl
        cases hl : (nonzeroTerms terms).getLast? with
        | none =>
          rw [List.getLast?_eq_none_iff] at hl
          rw [h.1, hl, List.foldl_nil, hz] at hc
          simp at hc
        | some x =>
          have := h.2 x.2 (by rw [hl]; rfl)
          rw [hl, this] at hc
          exact hc.2 rfl
      rw [Monomial.tryAddTerm, monomial_isZeroPoly_eq, hc.1, if_neg (by simp), if_neg hd]
    · cases hr

/-- C113, for coefficients of any kind (floating point numbers among them), which need not obey the laws of a ring. -/
theorem C113_any_error (hz : isZero (0 : N) = true) (s : List Char) (e : PolynomialFromStringError) :
    (Poly.fromStr parse uw s = .ok (.error e) ↔ ParseFault refusesNothing parse uw s e) ∧
    (Sparse.fromStr parse uw s = .ok (.error e) ↔ ParseFault refusesNothing parse uw s e) ∧
    (Monomial.fromStr parse uw s = .ok (.error e) ↔ ParseFault refusesOtherSum parse uw s e) ∧
    (LinearBinomial.fromStr parse uw s = .ok (.error e) ↔ ParseFault (refusesAbove 1) parse uw s e) ∧
    (QuadraticTrinomial.fromStr parse uw s = .ok (.error e) ↔ ParseFault (refusesAbove 2) parse uw s e) :=
  ⟨parse_fault_iff parse uw poly_refuses _ trivial s e, parse_fault_iff parse uw sparse_refuses _ trivial s e,
    parse_fault_iff parse uw (monomial_refuses_sum hz) _ ⟨rfl, by simp [nonzeroTerms]⟩ s e, parse_fault_iff parse uw linear_refuses _ trivial s e,
    parse_fault_iff parse uw quadratic_refuses _ trivial s e⟩

/-- C113, for coefficients of any kind: a text is accepted exactly if it has no fault. -/
theorem C113_any_accept (hz : isZero (0 : N) = true) (s : List Char) :
    ((∃ q, Poly.fromStr parse uw s = .ok (.ok q)) ↔ NoParseFault refusesNothing parse uw s) ∧
    ((∃ q, Sparse.fromStr parse uw s = .ok (.ok q)) ↔ NoParseFault refusesNothing parse uw s) ∧
    ((∃ q, Monomial.fromStr parse uw s = .ok (.ok q)) ↔ NoParseFault refusesOtherSum parse uw s) ∧
    ((∃ q, LinearBinomial.fromStr parse uw s = .ok (.ok q)) ↔ NoParseFault (refusesAbove 1) parse uw s) ∧
    ((∃ q, QuadraticTrinomial.fromStr parse uw s = .ok (.ok q)) ↔ NoParseFault (refusesAbove 2) parse uw s) :=
  ⟨parse_ok_iff parse uw poly_refuses _ trivial s, parse_ok_iff parse uw sparse_refuses _ trivial s,
    parse_ok_iff parse uw (monomial_refuses_sum hz) _ ⟨rfl, by simp [nonzeroTerms]⟩ s, parse_ok_iff parse uw linear_refuses _ trivial s,
    parse_ok_iff parse uw quadratic_refuses _ trivial s⟩

/-- C113: two of the errors are never reported by `from_str`: that the degree could not be parsed (a degree that can not be
read is reported as a coefficient), and that a term can not be negated. -/
theorem C113_never (hz : isZero (0 : N) = true) (s : List Char) :
    Term.fromStr parse uw s ≠ .error .degreeCouldNotBeParsed ∧
    ∀ e, e = .termFromString .degreeCouldNotBeParsed ∨ e = .addingTerm .canNotNegate →
      Poly.fromStr parse uw s ≠ .ok (.error e) ∧ Sparse.fromStr parse uw s ≠ .ok (.error e) ∧
      Monomial.fromStr parse uw s ≠ .ok (.error e) ∧ LinearBinomial.fromStr parse uw s ≠ .ok (.error e) ∧
      QuadraticTrinomial.fromStr parse uw s ≠ .ok (.error e) := by
  have h1 : ∀ t, ¬ FirstFault parse uw t .degreeCouldNotBeParsed := by
    rintro t (⟨g, c, r, _, _, h⟩ | ⟨_, h⟩) <;> exact h
  refine ⟨fun h => h1 _ ((C113_term parse uw s _).1 h), fun e he => ?_⟩
  have h2 : ∀ refuse : Refusal N, (∀ P d, refuse P d ≠ some .canNotNegate) → ¬ ParseFault refuse parse uw s e := by
    rintro refuse hr (⟨_, rfl⟩ | ⟨pre, bad, post, terms, _, _, _, ⟨e', h, rfl⟩ | ⟨c, d, e', _, h, rfl⟩⟩)
    · simp at he
    · simp at he; subst he; exact h1 _ h
    · simp at he; subst he; exact hr _ _ h
  obtain ⟨a1, a2, a3, a4, a5⟩ := C113_any_error parse uw hz s e
  have n0 : ∀ P d, (refusesNothing : Refusal N) P d ≠ some .canNotNegate := by intro P d; simp [refusesNothing]
  have n1 : ∀ n P d, (refusesAbove n : Refusal N) P d ≠ some .canNotNegate := by
    intro n P d; unfold refusesAbove; split <;> simp
  have n2 : ∀ P d, (refusesOtherSum : Refusal N) P d ≠ some .canNotNegate := by
    intro P d; unfold refusesOtherSum; split <;> simp
  exact ⟨fun h => h2 _ n0 (a1.1 h), fun h => h2 _ n0 (a2.1 h), fun h => h2 _ n2 (a3.1 h), fun h => h2 _ (n1 1) (a4.1 h),
    fun h => h2 _ (n1 2) (a5.1 h)⟩

end


section
variable {R : Type} [Ring R] [NumZero R] [LawfulNumZero R] [CanNegate R] (parse : List Char → Option R) (uw : Nat)

omit [CanNegate R] in
theorem monomial_refuses : RefusesAs (S := Monomial R) (refusesOther : Refusal R)
    (fun p terms => C p.coefficient * X ^ p.deg = (terms.map Term.poly).sum) := by
  refine ⟨fun p terms h => by simpa [Term.poly] using h, fun p terms c d h hr => ?_, fun p terms c d e h hr => ?_⟩
  · rw [refusesOther, ← h] at hr
    show ∃ p', Monomial.tryAddTerm p c d = (p', .ok ()) ∧ _
    have key : isZero p.coefficient = true ∨ d = p.deg := by
      by_cases h0 : p.coefficient = 0
      · exact .inl ((isZero_eq_true _).2 h0)
      · right
        by_contra hd
        rw [if_pos ⟨by rw [C_mul_X_pow_eq_monomial]; simpa using h0, by
          rw [natDegree_C_mul_X_pow _ _ h0]; exact fun h => hd h.symm⟩] at hr
        cases hr
    rw [Monomial.tryAddTerm, monomial_isZeroPoly_eq]
    by_cases h0 : p.coefficient = 0
    · rw [if_pos ((isZero_eq_true _).2 h0)]
      refine ⟨_, rfl, ?_⟩
      simp [h0, ← h, Term.poly]
    · have h1 : ¬ isZero p.coefficient = true := fun h => h0 ((isZero_eq_true _).1 h)
      obtain rfl := key.resolve_left h1
      rw [if_neg h1, if_pos rfl]
      refine ⟨_, rfl, ?_⟩
      simp [← h, Term.poly, add_mul]
  · rw [refusesOther, ← h] at hr
    split at hr
    · rename_i hc
      cases hr
      have h0 : p.coefficient ≠ 0 := by rintro h0; simp [h0] at hc
      rw [natDegree_C_mul_X_pow _ _ h0] at hc
      show (Monomial.tryAddTerm p c d).2 = _
      rw [Monomial.tryAddTerm, monomial_isZeroPoly_eq, if_neg (fun h => h0 ((isZero_eq_true _).1 h)), if_neg (fun h => hc.2 h.symm)]
    · cases hr

/-- C113: a text is refused by `from_str` of each of the five types with the error of its first fault, and with no
other error. -/
theorem C113_error (s : List Char) (e : PolynomialFromStringError) :
    (Poly.fromStr parse uw s = .ok (.error e) ↔ ParseFault refusesNothing parse uw s e) ∧
    (Sparse.fromStr parse uw s = .ok (.error e) ↔ ParseFault refusesNothing parse uw s e) ∧
    (Monomial.fromStr parse uw s = .ok (.error e) ↔ ParseFault refusesOther parse uw s e) ∧
    (LinearBinomial.fromStr parse uw s = .ok (.error e) ↔ ParseFault (refusesAbove 1) parse uw s e) ∧
    (QuadraticTrinomial.fromStr parse uw s = .ok (.error e) ↔ ParseFault (refusesAbove 2) parse uw s e) :=
  ⟨parse_fault_iff parse uw poly_refuses _ trivial s e, parse_fault_iff parse uw sparse_refuses _ trivial s e,
    parse_fault_iff parse uw monomial_refuses _ (by simp [Monomial.zero, Monomial.new]) s e, parse_fault_iff parse uw linear_refuses _ trivial s e,
    parse_fault_iff parse uw quadratic_refuses _ trivial s e⟩

/-- C113: a text is accepted by `from_str` of each of the five types exactly if it has no fault. -/
theorem C113_accept (s : List Char) :
    ((∃ q, Poly.fromStr parse uw s = .ok (.ok q)) ↔ NoParseFault refusesNothing parse uw s) ∧
    ((∃ q, Sparse.fromStr parse uw s = .ok (.ok q)) ↔ NoParseFault refusesNothing parse uw s) ∧
    ((∃ q, Monomial.fromStr parse uw s = .ok (.ok q)) ↔ NoParseFault refusesOther parse uw s) ∧
    ((∃ q, LinearBinomial.fromStr parse uw s = .ok (.ok q)) ↔ NoParseFault (refusesAbove 1) parse uw s) ∧
    ((∃ q, QuadraticTrinomial.fromStr parse uw s = .ok (.ok q)) ↔ NoParseFault (refusesAbove 2) parse uw s) :=
  ⟨parse_ok_iff parse uw poly_refuses _ trivial s, parse_ok_iff parse uw sparse_refuses _ trivial s,
    parse_ok_iff parse uw monomial_refuses _ (by simp [Monomial.zero, Monomial.new]) s, parse_ok_iff parse uw linear_refuses _ trivial s,
    parse_ok_iff parse uw quadratic_refuses _ trivial s⟩

end

-- each error of a term, for its first fault although other faults follow
example : Term.fromStr (parseInt ⟨true, 32⟩) 64 "2x3x^^y".toList = .error .moreThanOneX ∧
    Term.fromStr (parseInt ⟨true, 32⟩) 64 "2x^3^x".toList = .error .multipleCarets ∧
    Term.fromStr (parseInt ⟨true, 32⟩) 64 "2 3^x^".toList = .error .caretWithoutXInFront ∧
    Term.fromStr (parseInt ⟨true, 32⟩) 64 "1.5xx".toList = .error .coeffCouldNotBeParsed ∧
    Term.fromStr (parseInt ⟨true, 32⟩) 64 "1.5yxx".toList = .error (.unexpectedChar 'y') ∧
    Term.fromStr (parseInt ⟨true, 32⟩) 64 "-5x^ ".toList = .error .caretWithoutDegree ∧
    Term.fromStr (parseInt ⟨true, 32⟩) 8 "5x^256".toList = .error .coeffCouldNotBeParsed := by decide +kernel

example : FirstFault (parseInt ⟨true, 32⟩) 64 "2x3x^^y".toList .moreThanOneX ∧
    FirstFault (parseInt ⟨true, 32⟩) 64 "-5x^".toList .caretWithoutDegree :=
  ⟨.inl ⟨['2', 'x', '3'], 'x', ['^', '^', 'y'], by decide, .inr ⟨['2'], ['3'], by decide, by decide, rfl, by decide, by decide⟩,
      rfl, by decide⟩,
    .inr ⟨.inr ⟨['-', '5'], ['^'], by decide, by decide, rfl, by decide, by decide⟩, ['-', '5'], rfl⟩⟩

-- the first fault of a polynomial: a term of too high a degree before a text that is no term
example : LinearBinomial.fromStr (parseInt ⟨true, 32⟩) 64 "3x + 0x^5 - 2x^2 + y".toList =
      .ok (.error (.addingTerm .degreeOutOfBounds)) ∧
    QuadraticTrinomial.fromStr (parseInt ⟨true, 32⟩) 64 "3x + 0x^5 - 2x^2 + y".toList =
      .ok (.error (.termFromString (.unexpectedChar 'y'))) ∧
    Monomial.fromStr (parseInt ⟨true, 32⟩) 64 "3x - 3x + 4x^2 + x^2".toList = .ok (.ok ⟨5, 2⟩) ∧
    Monomial.fromStr (parseInt ⟨true, 32⟩) 64 "3x + 4x^2 - 3x".toList = .ok (.error (.addingTerm .tooManyTerms)) := by
  decide +kernel

example : ParseFault (refusesAbove 1) (parseInt ⟨true, 32⟩) 64 "3x-2x^2+y".toList (.addingTerm .degreeOutOfBounds) :=
  .inr ⟨["3x".toList], "-2x^2".toList, ["+y".toList], [.term 3 1],
    ⟨by decide +kernel, .inl ⟨⟨[], '3', ['x'], rfl, by decide, by decide, by simp [IsSign]⟩, fun u hu => by
      have hu : u = "-2x^2".toList ∨ u = "+y".toList := by simpa using hu
      rcases hu with rfl | rfl
      · exact ⟨'-', ['2', 'x', '^', '2'], rfl, .inr rfl, by simp [IsSign]⟩
      · exact ⟨'+', ['y'], rfl, .inl rfl, by simp [IsSign]⟩⟩⟩, by decide +kernel, by
    intro pre c d post h
    rcases pre with _ | ⟨a, pre⟩
    · simp only [List.nil_append, List.cons.injEq, Term.term.injEq] at h
      rw [← h.1.2]; simp [refusesAbove]
    · simp at h, .inr ⟨-2, 2, .degreeOutOfBounds, by decide +kernel, by simp [refusesAbove], rfl⟩⟩

-- floating point: `0.5x - 0.5x` cancels, so a monomial may go on with another degree; `0.1x + 0.2x - 0.3x` leaves a rounding error
example : ((Monomial.fromStr (parseFl binary64) 64 "0.5x - 0.5x + 2x^2".toList).bind fun r => .ok (r.toOption.map (·.deg))) =
      .ok (some 2) ∧
    ((Monomial.fromStr (parseFl binary64) 64 "0.1x + 0.2x - 0.3x + 2x^2".toList).bind fun r =>
      .ok (match r with | .ok _ => none | .error e => some e)) = .ok (some (.addingTerm .tooManyTerms)) ∧
    isZero (0 : Fl binary64) = true := by decide +kernel

end Rustnomial
