import Verif.SpecFloatText
import Verif.Props.Display
import Verif.Props.FloatFixed

/-!
# Printing and parsing with floating point coefficients (C88)
-/

open Polynomial

set_option linter.unusedSectionVars false

namespace Rustnomial

/-! ## Any coefficient type -/

/-- Digits and points. -/
def IsBody (s : List Char) : Prop := s ≠ [] ∧ ∀ c ∈ s, isDigitChar c = true ∨ c = '.'

theorem IsBody.num {s : List Char} (h : IsBody s) : ∀ c ∈ s, IsNum c := by
  intro c hc
  rcases h.2 c hc with h | h
  exacts [.inr (.inr (.inr h)), .inr (.inr (.inl h))]

theorem body_sign {c : Char} (h : isDigitChar c = true ∨ c = '.') : ¬ IsSign c := by
  rintro (rfl | rfl) <;> revert h <;> decide

theorem body_white {c : Char} (h : isDigitChar c = true ∨ c = '.') : isWhitespaceChar c = false := by
  rcases h with h | rfl
  exacts [digit_not_white h, by decide]

section
variable {N : Type} [Zero N] [NumZero N] [One N] (F : NumFmt N) (parse : List Char → Option N)

/-- The texts written for the coefficient `v` read back as `v`. -/
structure CoefText (v : N) : Prop where
  nonzero : isZero v = false
  lead : ∃ sg body, F.shw v = sg ++ body ∧ (sg = [] ∨ sg = ['-']) ∧ IsBody body
  reads : parse (F.shw v) = some v
  one : F.isOne v = true → v = 1
  negOne : F.isNegativeOne v = true → parse ['-', '1'] = some v
  trail : ∃ a, F.abs v = .ok a ∧ IsBody (F.shw a) ∧
    parse ((if F.isPositive v then '+' else '-') :: F.shw a) = some v ∧
    (F.isOne a = true → parse [if F.isPositive v then '+' else '-', '1'] = some v)

/-- The text in front of the power of `x` in the leading term. -/
def leadNum (v : N) (d : Nat) : List Char :=
  if d = 0 then F.shw v else if F.isNegativeOne v then ['-'] else if !F.isOne v then F.shw v else []

theorem writeLeading_gen (v : N) (d : Nat) : writeLeadingTerm F v d = leadNum F v d ++ degPart d := by
  unfold writeLeadingTerm leadNum degPart
  by_cases h : d = 0 <;> simp [h]

/-- A number text followed by a power of `x`. -/
theorem parse_num_deg {uw : Nat} {num s : List Char} {v : N} {d : Nat} (hz : isZero v = false)
    (hn : ∀ c ∈ num, IsNum c) (h0 : d = 0 → parse num = some v) (h1 : d ≠ 0 → coeffText parse num = some v)
    (hd : d < 2 ^ uw) (hs : clean s = num ++ degPart d) : Term.fromStr parse uw s = .ok (.term v d) := by
  have hnew : ∀ e, Term.new v e = Term.term v e := by
    intro e; unfold Term.new; rw [if_neg (by simp [hz])]
  rw [C35_separators parse uw s (clean s) (by unfold clean; simp), hs]
  unfold degPart
  by_cases hd0 : d = 0
  · subst hd0
    simp only [if_true, List.append_nil]
    rw [fromStr_const parse uw hn, h0 rfl]
    simp [hnew]
  · rw [if_neg hd0]
    by_cases hd1 : d > 1
    · rw [if_pos hd1]
      have hu : parseUsize uw ([] ++ showNat d) = some d := parseUsize_showNat uw d hd
      have := (fromStr_deg parse uw hn (h1 hd0) (a := []) (by simp) (showNat_spec d).1.num hu).1
      simpa [hnew] using this
    · obtain rfl : d = 1 := by omega
      rw [if_neg hd1, fromStr_lin parse uw hn (h1 hd0), hnew]

variable {F parse}

theorem CoefText.lead_num {v : N} (h : CoefText F parse v) (d : Nat) :
    (∀ c ∈ leadNum F v d, IsNum c) ∧ (d = 0 → parse (leadNum F v d) = some v) ∧
      (d ≠ 0 → coeffText parse (leadNum F v d) = some v) ∧
      (∀ ws, (∀ c ∈ ws, ¬ IsSign c) → FirstToken (leadNum F v d ++ degPart d ++ ws)) := by
  obtain ⟨sg, body, hshw, hsg, hbody⟩ := h.lead
  have hdeg : ∀ c ∈ degPart d, ¬ IsSign c ∧ isWhitespaceChar c = false := by
    intro c hc
    rcases degPart_char d c hc with h | rfl | rfl
    · exact ⟨body_sign (.inl h), digit_not_white h⟩
    · exact ⟨by rintro (h | h) <;> revert h <;> decide, by decide⟩
    · exact ⟨by rintro (h | h) <;> revert h <;> decide, by decide⟩
  have hfirst : ∀ sg b ws : List Char, (sg = [] ∨ sg = ['-']) → (∀ c ∈ b, ¬ IsSign c ∧ isWhitespaceChar c = false) →
      b ≠ [] ∨ sg ≠ [] → (∀ c ∈ ws, ¬ IsSign c) → FirstToken (sg ++ b ++ ws) := by
    intro sg b ws hsg hb hne hws
    rcases hsg with rfl | rfl
    · cases b with
      | nil => simp at hne
      | cons c b =>
        refine ⟨[], c, b ++ ws, by simp, by simp, (hb c (by simp)).2, ?_⟩
        intro e he
        rcases List.mem_append.1 he with he | he
        exacts [(hb e (by simp [he])).1, hws e he]
    · refine ⟨[], '-', b ++ ws, by simp, by simp, by decide, ?_⟩
      intro e he
      rcases List.mem_append.1 he with he | he
      exacts [(hb e he).1, hws e he]
  have hb' : ∀ c ∈ body ++ degPart d, ¬ IsSign c ∧ isWhitespaceChar c = false := by
    intro c hc
    rcases List.mem_append.1 hc with hc | hc
    exacts [⟨body_sign (hbody.2 c hc), body_white (hbody.2 c hc)⟩, hdeg c hc]
  have hnum : ∀ c ∈ F.shw v, IsNum c := by
    rw [hshw]
    intro c hc
    rcases List.mem_append.1 hc with hc | hc
    · rcases hsg with rfl | rfl
      · simp at hc
      · simp at hc; subst hc; decide
    · exact hbody.num c hc
  have hct : coeffText parse (F.shw v) = some v := by
    unfold coeffText
    rw [if_neg, if_neg, h.reads]
    · rw [hshw]
      rcases hsg with rfl | rfl
      · rintro (h | h)
        · exact body_sign (hbody.2 '-' (by rw [List.nil_append] at h; rw [h]; simp)) (.inr rfl)
        · exact body_sign (hbody.2 '+' (by rw [List.nil_append] at h; rw [h]; simp)) (.inl rfl)
      · have := hbody.1
        simpa using this
    · rw [hshw]; simp [hbody.1]
  have hdne : d ≠ 0 → degPart d ≠ [] := by
    intro hd; unfold degPart; rw [if_neg hd]; split <;> simp
  unfold leadNum
  by_cases hd : d = 0
  · rw [if_pos hd]
    refine ⟨hnum, fun _ => h.reads, fun h => absurd hd h, fun ws hws => ?_⟩
    rw [hshw, List.append_assoc sg]
    exact hfirst _ _ _ hsg hb' (.inl (by simp [hbody.1])) hws
  · rw [if_neg hd]
    by_cases hm : F.isNegativeOne v = true
    · rw [if_pos hm]
      refine ⟨by decide, fun h => absurd h hd, fun _ => ?_, fun ws hws => ?_⟩
      · unfold coeffText
        rw [if_neg (by simp), if_pos (by simp)]
        exact h.negOne hm
      · exact hfirst ['-'] _ _ (.inr rfl) hdeg (.inr (by simp)) hws
    · rw [if_neg hm]
      by_cases ho : F.isOne v = true
      · rw [if_neg (by simp [ho])]
        refine ⟨by simp, fun h => absurd h hd, fun _ => ?_, fun ws hws => ?_⟩
        · unfold coeffText
          rw [if_pos rfl, h.one ho]
        · exact hfirst [] _ _ (.inl rfl) hdeg (.inl (hdne hd)) hws
      · rw [if_pos (by simp [ho])]
        refine ⟨hnum, fun h => absurd h hd, fun _ => hct, fun ws hws => ?_⟩
        rw [hshw, List.append_assoc sg]
        exact hfirst _ _ _ hsg hb' (.inl (by simp [hbody.1])) hws

theorem clean_sep {ws : List Char} (h : ∀ c ∈ ws, IsSep c) : clean ws = [] := by
  unfold clean; rw [List.filter_eq_nil_iff]; intro c hc; simpa using h c hc

theorem clean_degPart (d : Nat) : clean (degPart d) = degPart d := by
  unfold clean
  rw [List.filter_eq_self]
  intro c hc
  rcases degPart_char d c hc with h | rfl | rfl
  · simpa using isNum_not_sep (.inr (.inr (.inr h)))
  · decide
  · decide

theorem CoefText.lead_parse {v : N} (h : CoefText F parse v) {uw d : Nat} (hd : d < 2 ^ uw) (ws : List Char)
    (hws : ∀ c ∈ ws, IsSep c) : Term.fromStr parse uw (leadNum F v d ++ degPart d ++ ws) = .ok (.term v d) := by
  obtain ⟨h1, h2, h3, _⟩ := h.lead_num d
  refine parse_num_deg parse h.nonzero h1 h2 h3 hd ?_
  rw [clean_append, clean_append, clean_num h1, clean_degPart, clean_sep hws, List.append_nil]

/-- A trailing term: its text, what it reads as, and that it is one token. -/
theorem CoefText.trail_text {v : N} (h : CoefText F parse v) {uw d : Nat} (hd : d < 2 ^ uw) :
    ∃ tok, writeTrailingTerm F v d = .ok (' ' :: tok) ∧ SignToken tok ∧
      ∀ ws, (∀ c ∈ ws, IsSep c) → Term.fromStr parse uw (tok ++ ws) = .ok (.term v d) := by
  obtain ⟨a, ha, hb, hr, h1⟩ := h.trail
  set sg := if F.isPositive v then '+' else '-' with hsg
  have hsign : IsSign sg := by rw [hsg]; split; exacts [.inl rfl, .inr rfl]
  have hsnum : IsNum sg := by rcases hsign with h | h <;> rw [h] <;> decide
  let num : List Char := if d ≠ 0 ∧ F.isOne a = true then [] else F.shw a
  have hnum : ∀ c ∈ num, isDigitChar c = true ∨ c = '.' := by
    dsimp only [num]; split
    · simp
    · exact hb.2
  have hnum' : ∀ c ∈ sg :: num, IsNum c := by
    intro c hc
    rcases List.mem_cons.1 hc with rfl | hc
    · exact hsnum
    · rcases hnum c hc with h | h
      exacts [.inr (.inr (.inr h)), .inr (.inr (.inl h))]
  refine ⟨sg :: ' ' :: (num ++ degPart d), ?_, ⟨sg, _, rfl, hsign, ?_⟩, fun ws hws => ?_⟩
  · unfold writeTrailingTerm
    simp only [ha, Res.ok_bind, ← hsg, degPart, num]
    by_cases hd0 : d = 0
    · simp [hd0]
    · by_cases ho : F.isOne a = true <;> simp [hd0, ho]
  · intro c hc
    rcases List.mem_cons.1 hc with rfl | hc
    · rintro (h | h) <;> revert h <;> decide
    · rcases List.mem_append.1 hc with hc | hc
      · exact body_sign (hnum c hc)
      · rcases degPart_char d c hc with h | rfl | rfl
        · exact body_sign (.inl h)
        · rintro (h | h) <;> revert h <;> decide
        · rintro (h | h) <;> revert h <;> decide
  · refine parse_num_deg (num := sg :: num) parse h.nonzero hnum' ?_ ?_ hd ?_
    · intro hd0
      have : num = F.shw a := by dsimp only [num]; rw [if_neg (by simp [hd0])]
      rw [this]; exact hr
    · intro hd0
      unfold coeffText
      by_cases ho : F.isOne a = true
      · have : num = [] := by dsimp only [num]; rw [if_pos ⟨hd0, ho⟩]
        rw [this, if_neg (by simp), if_pos]
        · exact h1 ho
        · rcases hsign with h | h <;> rw [h] <;> simp
      · have : num = F.shw a := by dsimp only [num]; rw [if_neg (by simp [ho])]
        rw [this, if_neg (by simp), if_neg (by simp [hb.1])]
        exact hr
    · have hc1 : clean [sg] = [sg] := clean_num (by simpa using hsnum)
      have hc2 : clean num = num := clean_num fun c hc => hnum' c (by simp [hc])
      have hc3 : clean [' '] = [] := clean_sep (by simp [IsSep])
      rw [show sg :: ' ' :: (num ++ degPart d) ++ ws = [sg] ++ ([' '] ++ (num ++ degPart d)) ++ ws by simp]
      simp only [clean_append, hc1, hc2, hc3, clean_degPart, clean_sep hws, List.nil_append, List.append_nil]
      simp

theorem displayTerms_gen {S : Type} [MutPoly N S] {uw : Nat} (zero q : S) (ts : List (N × Nat))
    (h : ∀ u ∈ ts, CoefText F parse u.1) (hd : ∀ u ∈ ts, u.2 < 2 ^ uw)
    (h0 : ∃ z, parse ['0'] = some z ∧ isZero z = true) (hq : addPoly ts zero = (q, .ok ())) :
    ∃ str, displayTerms F ts = .ok str ∧ polyFromStr zero parse uw str = .ok (.ok q) := by
  have htrail : ∀ ts : List (N × Nat), (∀ u ∈ ts, CoefText F parse u.1) → (∀ u ∈ ts, u.2 < 2 ^ uw) →
      ∃ toks : List (List Char), writeTrailingTerms F ts = .ok ((toks.map (' ' :: ·)).flatten) ∧
        (∀ t ∈ toks, SignToken t) ∧
        ∀ (cur : List Char) (v : N) (d : Nat) (p q : S) (b : Bool),
          (∀ ws, (∀ c ∈ ws, IsSep c) → Term.fromStr parse uw (cur ++ ws) = .ok (.term v d)) →
          addPoly ((v, d) :: ts) p = (q, .ok ()) → parseList parse uw (joinToks cur toks) p b = .ok q := by
    intro ts
    induction ts with
    | nil =>
      intro _ _
      refine ⟨[], rfl, by simp, fun cur v d p q b hcur hq => ?_⟩
      simp only [joinToks, parseList]
      have := hcur [] (by simp)
      rw [List.append_nil] at this
      rw [this]
      simp only [addPoly] at hq
      simp only
      cases hA : MutPoly.tryAddTerm p v d with
      | mk p' r =>
        rw [hA] at hq
        cases r with
        | error e => simp at hq
        | ok u => simp at hq; simp [hq]
    | cons u ts ih =>
      intro h hd
      obtain ⟨toks, hw, hs, hp⟩ := ih (fun u hu => h u (by simp [hu])) (fun u hu => hd u (by simp [hu]))
      obtain ⟨tok, ht, hst, hpt⟩ := (h u (by simp)).trail_text (hd u (by simp))
      refine ⟨tok :: toks, ?_, ?_, fun cur v d p q b hcur hq => ?_⟩
      · rw [writeTrailingTerms, ht, Res.ok_bind, hw, Res.ok_bind]; rfl
      · intro t hm
        rcases List.mem_cons.1 hm with rfl | hm
        exacts [hst, hs t hm]
      · rw [joinToks, parseList, hcur [' '] (by simp [IsSep])]
        rw [addPoly] at hq
        simp only
        cases hA : MutPoly.tryAddTerm p v d with
        | mk p' r =>
          rw [hA] at hq
          cases r with
          | error e => simp at hq
          | ok _ => exact hp tok u.1 u.2 p' q true hpt hq
  cases ts with
  | nil =>
    refine ⟨['0'], rfl, ?_⟩
    have htok : IsTokenization ['0'] [['0']] :=
      ⟨rfl, .inl ⟨⟨[], '0', [], rfl, by simp, by decide, by simp⟩, by simp⟩⟩
    rw [polyFromStr_eq zero _ _ _ _ htok]
    obtain ⟨z, hz, hzz⟩ := h0
    have : Term.fromStr parse uw ['0'] = .ok .zeroTerm := by
      rw [fromStr_const parse uw (num := ['0']) (by decide), hz]
      simp [Term.new, hzz]
    simp only [parseList, this]
    simp only [addPoly] at hq
    obtain ⟨rfl, _⟩ := Prod.mk.inj hq
    rfl
  | cons u ts =>
    obtain ⟨toks, hw, hs, hp⟩ := htrail ts (fun u hu => h u (by simp [hu])) (fun u hu => hd u (by simp [hu]))
    refine ⟨leadNum F u.1 u.2 ++ degPart u.2 ++ (toks.map (' ' :: ·)).flatten, ?_, ?_⟩
    · rw [displayTerms, hw, Res.ok_bind, writeLeading_gen]
    · have hl := h u (by simp)
      have hf := (hl.lead_num u.2).2.2.2
      have htok := joinToks_tokenization (us := toks)
        (by have := hf [] (by simp); rwa [List.append_nil] at this)
        (hf [' '] (by rintro c hc; simp at hc; subst hc; rintro (h | h) <;> revert h <;> decide)) hs
      rw [polyFromStr_eq zero _ _ _ _ htok]
      exact congrArg _ (hp _ u.1 u.2 zero q false (fun ws hws => hl.lead_parse (hd u (by simp)) ws hws) hq)

end

/-! ## Adding the terms of a polynomial to the zero polynomial -/

theorem addPoly_get {N S : Type} [Zero N] [NumZero N] [Add N] [MutPoly N S] (get : S → Nat → N) (D : Nat → Prop)
    (step : ∀ (s : S) (c : N) (d : Nat), D d → get s d = 0 → isZero c = false → 0 + c = c →
      ∃ s', MutPoly.tryAddTerm s c d = (s', .ok ()) ∧ ∀ k, get s' k = if k = d then c else get s k) :
    ∀ (ts : List (N × Nat)) (s : S), ts.Pairwise (fun a b => a.2 > b.2) →
      (∀ u ∈ ts, D u.2 ∧ get s u.2 = 0 ∧ isZero u.1 = false ∧ 0 + u.1 = u.1) →
      ∃ s', addPoly ts s = (s', .ok ()) ∧ (∀ u ∈ ts, get s' u.2 = u.1) ∧
        ∀ k, (∀ u ∈ ts, u.2 ≠ k) → get s' k = get s k := by
  intro ts
  induction ts with
  | nil => intro s _ _; exact ⟨s, rfl, by simp, fun _ _ => rfl⟩
  | cons u ts ih =>
    intro s hp h
    obtain ⟨hp1, hp2⟩ := List.pairwise_cons.1 hp
    obtain ⟨hD, hg, hz, ha⟩ := h u (by simp)
    obtain ⟨s1, h1, hg1⟩ := step s u.1 u.2 hD hg hz ha
    obtain ⟨s2, h2, h3, h4⟩ := ih s1 hp2 (fun w hw => by
      obtain ⟨a, b, c, d⟩ := h w (by simp [hw])
      refine ⟨a, ?_, c, d⟩
      rw [hg1, if_neg (by have := hp1 w hw; omega), b])
    refine ⟨s2, by rw [addPoly, h1]; exact h2, ?_, ?_⟩
    · intro w hw
      rcases List.mem_cons.1 hw with rfl | hw
      · rw [h4 _ (fun v hv => by have := hp1 v hv; omega), hg1, if_pos rfl]
      · exact h3 w hw
    · intro k hk
      rw [h4 k (fun v hv => hk v (by simp [hv])), hg1, if_neg (fun h => hk u (by simp) h.symm)]

/-- The coefficient of degree `k` of a vector. -/
def coefAt {N : Type} [Zero N] (l : List N) (k : Nat) : N := l.reverse.getD k 0

theorem coefAt_addTerm {N : Type} [Zero N] [Add N] (p : Poly N) (c : N) (d k : Nat) :
    coefAt (p.addTerm c d).terms k = if k = d then coefAt p.terms d + c else coefAt p.terms k := by
  unfold Poly.addTerm coefAt
  dsimp only
  have key : ∀ (l : List N), d < l.length →
      (l.modify (l.length - d - 1) (· + c)).reverse.getD k 0 =
        if k = d then l.reverse.getD d 0 + c else l.reverse.getD k 0 := by
    intro l hl
    simp only [List.getD_eq_getElem?_getD]
    by_cases hk : k < l.length
    · rw [List.getElem?_reverse (by simpa using hk), List.getElem?_reverse hl, List.getElem?_reverse hk,
        List.getElem?_modify, List.length_modify]
      rw [List.getElem?_eq_getElem (show l.length - 1 - k < l.length by omega),
        List.getElem?_eq_getElem (show l.length - 1 - d < l.length by omega)]
      by_cases hkd : k = d
      · subst hkd
        simp [show l.length - k - 1 = l.length - 1 - k by omega]
      · simp [show l.length - d - 1 ≠ l.length - 1 - k by omega, hkd]
    · rw [if_neg (by omega), List.getElem?_eq_none (by simpa using hk), List.getElem?_eq_none (by simpa using hk)]
  by_cases hlt : p.terms.length < d + 1
  · rw [if_pos hlt, key _ (by simp; omega)]
    have hz : ∀ j, (List.replicate (d + 1 - p.terms.length) 0 ++ p.terms).reverse.getD j 0 =
        p.terms.reverse.getD j 0 := by
      intro j
      rw [List.reverse_append, List.reverse_replicate]
      simp only [List.getD_eq_getElem?_getD]
      by_cases hj : j < p.terms.length
      · rw [List.getElem?_append_left (by simpa using hj)]
      · rw [List.getElem?_append_right (by simpa using hj), List.getElem?_replicate,
          List.getElem?_eq_none (l := p.terms.reverse) (by simpa using hj)]
        split <;> rfl
    rw [hz, hz]
  · rw [if_neg hlt, key _ (by omega)]

/-! ## Reading decimal numbers -/

namespace Fl
variable {f : FlFmt}

theorem takeWhile_digits {ip r : List Char} (h : ∀ c ∈ ip, isDigitChar c = true)
    (hr : ∀ c, r.head? = some c → isDigitChar c = false) :
    (ip ++ r).takeWhile isDigitChar = ip ∧ (ip ++ r).dropWhile isDigitChar = r := by
  induction ip with
  | nil =>
    cases r with
    | nil => simp
    | cons c r => simp [hr c rfl]
  | cons c ip ih =>
    have := ih fun c hc => h c (by simp [hc])
    simp [h c (by simp), this]

theorem parseMag_iff (s : List Char) (m : Nat) : parseMag f s = some m ↔
    ∃ ip fp : List Char, (∀ c ∈ ip ++ fp, isDigitChar c = true) ∧ ip ++ fp ≠ [] ∧
      ((s = ip ∧ fp = []) ∨ s = ip ++ '.' :: fp) ∧
      m = roundRat f.p (decVal (ip ++ fp) * 2 ^ f.q) (10 ^ fp.length) := by
  constructor
  · intro h
    unfold parseMag at h
    have hip : ∀ c ∈ s.takeWhile isDigitChar, isDigitChar c = true := fun c hc => (List.mem_takeWhile_imp hc)
    have hs := List.takeWhile_append_dropWhile (p := isDigitChar) (l := s)
    dsimp only at h
    cases hr : s.dropWhile isDigitChar with
    | nil =>
      rw [hr] at h hs
      rw [List.append_nil] at hs
      simp only at h
      by_cases h0 : s.takeWhile isDigitChar = []
      · rw [if_pos h0] at h; cases h
      · rw [if_neg h0] at h
        refine ⟨s.takeWhile isDigitChar, [], by simpa using hip, by simpa using h0, .inl ⟨hs.symm, rfl⟩, ?_⟩
        simpa using h.symm
    | cons c fp =>
      rw [hr] at h hs
      simp only at h
      split at h
      · rename_i hc
        obtain ⟨rfl, hfp, hne⟩ := hc
        refine ⟨_, fp, ?_, hne, .inr hs.symm, by simpa using h.symm⟩
        intro c hc
        rcases List.mem_append.1 hc with hc | hc
        · exact hip c hc
        · exact List.all_eq_true.1 hfp c hc
      · cases h
  · rintro ⟨ip, fp, hd, hne, (⟨rfl, rfl⟩ | rfl), rfl⟩
    · have h1 := takeWhile_digits (ip := s) (r := []) (fun c hc => hd c (by simp [hc])) (by simp)
      rw [List.append_nil] at h1
      unfold parseMag
      dsimp only
      rw [h1.1, h1.2]
      simp only
      rw [if_neg (by simpa using hne)]
      simp
    · have h1 := takeWhile_digits (ip := ip) (r := '.' :: fp) (fun c hc => hd c (by simp [hc]))
        (by intro c hc; simp at hc; subst hc; decide)
      unfold parseMag
      dsimp only
      rw [h1.1, h1.2]
      simp only
      rw [if_pos ⟨trivial, List.all_eq_true.2 fun c hc => hd c (by simp [hc]), hne⟩]

theorem decimal_body {s : List Char} {x : ℚ} (h : IsDecimal s x) : IsBody s := by
  obtain ⟨ip, fp, hd, hne, (⟨rfl, rfl⟩ | rfl), _⟩ := h
  · exact ⟨by simpa using hne, fun c hc => .inl (hd c (by simp [hc]))⟩
  · refine ⟨by simp, fun c hc => ?_⟩
    rcases List.mem_append.1 hc with hc | hc
    · exact .inl (hd c (by simp [hc]))
    · rcases List.mem_cons.1 hc with rfl | hc
      · exact .inr rfl
      · exact .inl (hd c (by simp [hc]))

theorem parseFl_body {s : List Char} (h : IsBody s) : parseFl f s = (parseMag f s).map (pack false) := by
  cases s with
  | nil => exact absurd rfl h.1
  | cons c s =>
    have := body_sign (h.2 c (by simp))
    unfold parseFl
    split
    · rename_i heq; exact absurd (.inl (List.cons.inj heq).1) this
    · rename_i heq; exact absurd (.inr (List.cons.inj heq).1) this
    · rfl

theorem parseFl_signed {sg s : List Char} (hsg : sg = [] ∨ sg = ['+'] ∨ sg = ['-']) (h : IsBody s) :
    parseFl f (sg ++ s) = (parseMag f s).map (pack (decide (sg = ['-']))) := by
  rcases hsg with rfl | rfl | rfl
  · rw [List.nil_append, parseFl_body h]; rfl
  · rfl
  · rfl

/-- C88: exactly the texts accepted for a coefficient: an optional sign and a decimal number. -/
theorem C88_parse_iff (s : List Char) : (∃ z, parseFl f s = some z) ↔
    ∃ sg body x, s = sg ++ body ∧ (sg = [] ∨ sg = ['+'] ∨ sg = ['-']) ∧ IsDecimal body x := by
  have hdec : ∀ s, (∃ m, parseMag f s = some m) → ∃ x, IsDecimal s x := by
    rintro s ⟨m, hm⟩
    obtain ⟨ip, fp, h1, h2, h3, _⟩ := (parseMag_iff s m).1 hm
    exact ⟨_, ip, fp, h1, h2, h3, rfl⟩
  constructor
  · rintro ⟨z, hz⟩
    unfold parseFl at hz
    split at hz
    · rename_i ds
      obtain ⟨m, hm, _⟩ := Option.map_eq_some_iff.1 hz
      obtain ⟨x, hx⟩ := hdec ds ⟨m, hm⟩
      exact ⟨['+'], ds, x, rfl, .inr (.inl rfl), hx⟩
    · rename_i ds
      obtain ⟨m, hm, _⟩ := Option.map_eq_some_iff.1 hz
      obtain ⟨x, hx⟩ := hdec ds ⟨m, hm⟩
      exact ⟨['-'], ds, x, rfl, .inr (.inr rfl), hx⟩
    · obtain ⟨m, hm, _⟩ := Option.map_eq_some_iff.1 hz
      obtain ⟨x, hx⟩ := hdec _ ⟨m, hm⟩
      exact ⟨[], s, x, rfl, .inl rfl, hx⟩
  · rintro ⟨sg, body, x, rfl, hsg, hx⟩
    rw [parseFl_signed hsg (decimal_body hx)]
    obtain ⟨ip, fp, h1, h2, h3, _⟩ := hx
    exact ⟨_, by rw [(parseMag_iff body _).2 ⟨ip, fp, h1, h2, h3, rfl⟩]; rfl⟩

/-- C88: the value read is a number of the format nearest to the decimal number, with the even significand in
case of a tie; numbers up to the largest finite one do not overflow. -/
theorem C88_parse (hp : 1 ≤ f.p) (hw : f.p ≤ f.w) (sg body : List Char) (x : ℚ)
    (hsg : sg = [] ∨ sg = ['+'] ∨ sg = ['-']) (hx : IsDecimal body x) :
    ∃ z, parseFl f (sg ++ body) = some z ∧ z.Valid ∧ z ≠ .nan ∧ (x ≤ maxFinite f → z.isFinite = true) ∧
      (z.isFinite = true → ∀ y : Fl f, y.Valid → y.isFinite = true →
        |z.toRat - (if sg = ['-'] then -1 else 1) * x| ≤ |y.toRat - (if sg = ['-'] then -1 else 1) * x| ∧
        (y.toRat ≠ z.toRat →
          |y.toRat - (if sg = ['-'] then -1 else 1) * x| = |z.toRat - (if sg = ['-'] then -1 else 1) * x| →
          ∀ t, 2 ^ t ∣ y.units → 2 ^ (t + 1) ∣ z.units)) := by
  have hb := decimal_body hx
  obtain ⟨ip, fp, h1, h2, h3, rfl⟩ := hx
  have hden : 0 < 10 ^ fp.length := by positivity
  refine ⟨pack (decide (sg = ['-'])) (roundRat f.p (decVal (ip ++ fp) * 2 ^ f.q) (10 ^ fp.length)), ?_, ?_, ?_, ?_, ?_⟩
  · rw [parseFl_signed hsg hb, (parseMag_iff body _).2 ⟨ip, fp, h1, h2, h3, rfl⟩]; rfl
  · exact valid_pack (fits_roundRat hp hden)
  · unfold pack; split <;> simp
  · intro hle
    rw [pack_isFinite]
    refine roundRat_lt hp hw hden ?_
    refine le_trans (le_of_eq ?_) hle
    push_cast
    field_simp
  · intro hf y hy hyf
    have hr : Rounded (pack (decide (sg = ['-'])) (roundRat f.p (decVal (ip ++ fp) * 2 ^ f.q) (10 ^ fp.length)) : Fl f)
        ((if sg = ['-'] then -1 else 1) * ((decVal (ip ++ fp) : ℚ) / 10 ^ fp.length)) := by
      refine ⟨_, _, _, hden, pack_eq_fin hf, ?_⟩
      push_cast
      have h2 : ((2 : ℚ) ^ f.q) ≠ 0 := by positivity
      by_cases h : sg = ['-'] <;> simp [h] <;> field_simp
    exact ⟨hr.nearest hp y hy hyf, fun hne heq t ht => hr.tie hp y hy hyf hne heq t ht⟩

/-! ## A display with the required properties -/

theorem decVal_append (a b : List Char) : decVal (a ++ b) = decVal a * 10 ^ b.length + decVal b := by
  induction b using List.reverseRecOn with
  | nil => simp [decVal]
  | append_singleton b c ih =>
    rw [← List.append_assoc, decVal_append_one, ih, decVal_append_one, List.length_append, List.length_singleton,
      pow_succ]
    ring

theorem showPad_spec (k n : Nat) : (∀ c ∈ showPad k n, isDigitChar c = true) ∧ (showPad k n).length = k ∧
    decVal (showPad k n) = n % 10 ^ k := by
  induction k generalizing n with
  | zero => simp [showPad, decVal, Nat.mod_one]
  | succ k ih =>
    obtain ⟨h1, h2, h3⟩ := ih (n / 10)
    obtain ⟨h4, h5⟩ := digitChar_spec (n % 10) (Nat.mod_lt _ (by omega))
    refine ⟨?_, by simp [showPad, h2], ?_⟩
    · intro c hc
      rcases List.mem_append.1 hc with hc | hc
      · exact h1 c hc
      · simp at hc; rw [hc]; exact h4
    · rw [showPad, decVal_append_one, h3, h5, pow_succ, mul_comm (10 ^ k) 10, Nat.mod_mul]
      ring

theorem stripZeros_spec (n k : Nat) : n * 10 ^ (stripZeros n k).2 = (stripZeros n k).1 * 10 ^ k := by
  induction k generalizing n with
  | zero => simp [stripZeros]
  | succ k ih =>
    rw [stripZeros]
    split
    · rename_i h
      have h1 := ih (n / 10)
      have h2 : n = n / 10 * 10 := by omega
      generalize stripZeros (n / 10) k = r at h1 ⊢
      calc n * 10 ^ r.2 = (n / 10 * 10 ^ r.2) * 10 := by
            conv_lhs => rw [h2]
            ring
        _ = _ := by rw [h1]; ring
    · rfl

theorem showDecimal_spec (n k : Nat) : ∃ ip fp : List Char, (∀ c ∈ ip ++ fp, isDigitChar c = true) ∧ ip ++ fp ≠ [] ∧
    ((showDecimal n k = ip ∧ fp = []) ∨ showDecimal n k = ip ++ '.' :: fp) ∧
    n * 10 ^ fp.length = decVal (ip ++ fp) * 10 ^ k := by
  have hs := stripZeros_spec n k
  unfold showDecimal
  dsimp only
  set r := stripZeros n k with hr
  obtain ⟨⟨hn1, hn2⟩, hn3⟩ := showNat_spec (r.1 / 10 ^ r.2)
  obtain ⟨hp1, hp2, hp3⟩ := showPad_spec r.2 r.1
  refine ⟨showNat (r.1 / 10 ^ r.2), showPad r.2 r.1, ?_, by simp [hn1], ?_, ?_⟩
  · intro c hc
    rcases List.mem_append.1 hc with hc | hc
    exacts [hn2 c hc, hp1 c hc]
  · by_cases h0 : r.2 = 0
    · left
      rw [if_pos h0, List.append_nil]
      exact ⟨rfl, List.length_eq_zero_iff.1 (by rw [hp2, h0])⟩
    · right; rw [if_neg h0]
  · rw [decVal_append, hp2, hn3, hp3, hs, mul_comm (r.1 / _), Nat.div_add_mod]

theorem roundRat_exact (hp : 1 ≤ f.p) {num den m : Nat} (hden : 0 < den) (hm : FitsIn f.p m) (h : num = m * den) :
    roundRat f.p num den = m := by
  have h1 := roundRat_nearest (num := num) hp hden hm
  have h2 : (num / den : ℚ) = m := by
    have : (den : ℚ) ≠ 0 := by exact_mod_cast hden.ne'
    rw [h]; push_cast; field_simp
  rw [h2, sub_self, abs_zero] at h1
  have h3 := abs_eq_zero.1 (le_antisymm h1 (abs_nonneg _))
  have h4 : (roundRat f.p num den : ℚ) = m := by linarith
  exact_mod_cast h4

/-- The hypothesis of the theorems below about `Display` of floats is satisfied, by the complete decimal
expansions. -/
theorem showExact_displays (hp : 1 ≤ f.p) : DisplaysFloats f showExact := by
  refine ⟨?_, ?_, rfl, fun s => rfl⟩
  · intro s m _
    obtain ⟨ip, fp, h1, h2, h3, _⟩ := showDecimal_spec (m * 5 ^ f.q) f.q
    exact ⟨_, _, rfl, ip, fp, h1, h2, h3, rfl⟩
  · intro s m hv
    obtain ⟨ip, fp, h1, h2, h3, h4⟩ := showDecimal_spec (m * 5 ^ f.q) f.q
    have hmag : parseMag f (showDecimal (m * 5 ^ f.q) f.q) = some m := by
      rw [(parseMag_iff _ _).2 ⟨ip, fp, h1, h2, h3, rfl⟩]
      congr 1
      refine roundRat_exact hp (by positivity) hv.1 ?_
      have h10 : (10 : Nat) ^ f.q = 2 ^ f.q * 5 ^ f.q := by rw [← mul_pow]; norm_num
      rw [h10] at h4
      have h5 : 0 < 5 ^ f.q := by positivity
      refine Nat.eq_of_mul_eq_mul_right h5 ?_
      calc decVal (ip ++ fp) * 2 ^ f.q * 5 ^ f.q = decVal (ip ++ fp) * (2 ^ f.q * 5 ^ f.q) := by ring
        _ = m * 5 ^ f.q * 10 ^ fp.length := h4.symm
        _ = _ := by ring
    have hpk : ∀ s, (pack s m : Fl f) = .fin s m := fun s => by rw [pack, if_pos hv.2]
    have hb : IsBody (showDecimal (m * 5 ^ f.q) f.q) := decimal_body ⟨ip, fp, h1, h2, h3, rfl⟩
    unfold showExact
    cases s
    · have := parseFl_signed (f := f) (sg := []) (.inl rfl) hb
      simpa [hmag, hpk] using this
    · have := parseFl_signed (f := f) (sg := ['-']) (.inr (.inr rfl)) hb
      simpa [hmag, hpk] using this

/-! ## Coefficients -/

theorem zero_add_fin (hp : 1 ≤ f.p) {c : Fl f} (hv : c.Valid) (hf : c.isFinite = true) (hz : isZero c = false) :
    0 + c = c := by
  obtain ⟨s, m, rfl⟩ := isFinite_iff.1 hf
  have hm : m ≠ 0 := by
    rintro rfl
    cases s <;> cases hz
  have hr : roundRat f.p m 1 = m := roundRat_exact hp one_pos hv.1 (by simp)
  show add (.fin false 0) (.fin s m) = _
  unfold add
  cases s
  · simp [hr, pack, hv.2]
  · simp [hr, pack, hv.2, hm.symm]

theorem coefText (hp : 1 ≤ f.p) (hq : f.q < f.w) {shw : Fl f → List Char} (hd : DisplaysFloats f shw) {c : Fl f}
    (hv : c.Valid) (hf : c.isFinite = true) (hz : isZero c = false) : CoefText (flFmt shw) (parseFl f) c := by
  obtain ⟨s, m, rfl⟩ := isFinite_iff.1 hf
  have hm : m ≠ 0 := by
    rintro rfl
    cases s <;> cases hz
  have hone : ∀ t, parseMag f ['1'] = some (2 ^ f.q) ∧ (pack t (2 ^ f.q) : Fl f) = .fin t (2 ^ f.q) := by
    intro t
    refine ⟨?_, by rw [pack, if_pos (Nat.pow_lt_pow_right (by norm_num) hq)]⟩
    rw [(parseMag_iff ['1'] _).2 ⟨['1'], [], by decide, by simp, .inl ⟨rfl, rfl⟩, rfl⟩]
    congr 1
    refine roundRat_exact hp (by positivity) ⟨1, f.q, Nat.one_lt_two_pow (by omega), by simp⟩ ?_
    simp [decVal, digitVal]
  obtain ⟨body, x, hshow, hdec⟩ := hd.shape s m hv
  obtain ⟨body', x', hshow', hdec'⟩ := hd.shape false m hv
  have hreads' := hd.reads false m hv
  rw [hshow'] at hreads'
  have hb' := decimal_body hdec'
  have hmag : parseMag f body' = some m := by
    have : parseFl f body' = some (.fin false m) := by simpa using hreads'
    rw [parseFl_body hb'] at this
    obtain ⟨m', hm', he⟩ := Option.map_eq_some_iff.1 this
    unfold pack at he
    split at he
    · injection he with _ he; rw [hm', he]
    · cases he
  have hpk : ∀ s, (pack s m : Fl f) = .fin s m := fun s => by rw [pack, if_pos hv.2]
  refine ⟨hz, ⟨if s then ['-'] else [], body, hshow, ?_, decimal_body hdec⟩, hd.reads s m hv, ?_, ?_, ?_⟩
  · cases s <;> simp
  · intro h
    have h' : Fl.beq (.fin s m : Fl f) (.fin false (2 ^ f.q)) = true := h
    simp only [beq, Bool.and_eq_true, Bool.or_eq_true, beq_iff_eq] at h'
    obtain ⟨rfl, h' | h'⟩ := h'
    · subst h'; rfl
    · exact absurd h' hm
  · intro h
    have h' : Fl.beq (.fin s m : Fl f) (.fin true (2 ^ f.q)) = true := h
    simp only [beq, Bool.and_eq_true, Bool.or_eq_true, beq_iff_eq] at h'
    obtain ⟨rfl, h' | h'⟩ := h'
    · subst h'
      show (parseMag f ['1']).map (pack true) = _
      rw [(hone true).1, Option.map_some, (hone true).2]
    · exact absurd h' hm
  · have hsh : shw (.fin false m) = body' := by simpa using hshow'
    refine ⟨.fin false m, rfl, ?_, ?_, ?_⟩
    · show IsBody (shw (.fin false m))
      rw [hsh]; exact hb'
    · show parseFl f ((if isPositiveFl (.fin s m : Fl f) then '+' else '-') :: shw (.fin false m)) = _
      rw [hsh]
      cases s
      · have : isPositiveFl (.fin false m : Fl f) = true := by simp [isPositiveFl, hm]
        rw [this]
        show (parseMag f body').map (pack false) = _
        rw [hmag, Option.map_some, hpk]
      · have : isPositiveFl (.fin true m : Fl f) = false := by simp [isPositiveFl]
        rw [this]
        show (parseMag f body').map (pack true) = _
        rw [hmag, Option.map_some, hpk]
    · intro h
      have h' : Fl.beq (.fin false m : Fl f) (.fin false (2 ^ f.q)) = true := h
      simp only [beq, Bool.and_eq_true, beq_iff_eq] at h'
      obtain ⟨rfl, _⟩ := h'
      show parseFl f [if isPositiveFl (.fin s (2 ^ f.q) : Fl f) then '+' else '-', '1'] = _
      cases s
      · have : isPositiveFl (.fin false (2 ^ f.q) : Fl f) = true := by simp [isPositiveFl]
        rw [this]
        show (parseMag f ['1']).map (pack false) = _
        rw [(hone false).1, Option.map_some, (hone false).2]
      · have : isPositiveFl (.fin true (2 ^ f.q) : Fl f) = false := by simp [isPositiveFl]
        rw [this]
        show (parseMag f ['1']).map (pack true) = _
        rw [(hone true).1, Option.map_some, (hone true).2]

/-! ## Polynomials with finite coefficients -/

/-- The coefficients of a polynomial, by degree: those with a term, and zero for the others. -/
theorem coeff_of_terms {ts : List (Fl f × Nat)} {P Q : ℚ[X]} (h : IsTermListOf (ts.map fun t => (t.1.toRat, t.2)) P)
    (h1 : ∀ u ∈ ts, Q.coeff u.2 = u.1.toRat) (h2 : ∀ k, (∀ u ∈ ts, u.2 ≠ k) → Q.coeff k = 0) : Q = P := by
  ext k
  by_cases hk : ∃ u ∈ ts, u.2 = k
  · obtain ⟨u, hu, rfl⟩ := hk
    rw [h1 u hu]
    exact (((h.2 u.1.toRat u.2).1 (List.mem_map.2 ⟨u, hu, rfl⟩)).2).symm
  · push Not at hk
    rw [h2 k hk]
    by_contra hne
    have := (h.2 (P.coeff k) k).2 ⟨fun h => hne h.symm, rfl⟩
    obtain ⟨u, hu, he⟩ := List.mem_map.1 this
    exact hk u hu (Prod.mk.inj he).2

theorem parse_zero : ∃ z : Fl f, parseFl f ['0'] = some z ∧ isZero z = true := by
  refine ⟨.fin false 0, ?_, rfl⟩
  have : parseMag f ['0'] = some 0 := by
    rw [(parseMag_iff ['0'] _).2 ⟨['0'], [], by decide, by simp, .inl ⟨rfl, rfl⟩, rfl⟩]
    simp [decVal, digitVal, roundRat]
  show (parseMag f ['0']).map (pack false) = _
  rw [this, Option.map_some, pack, if_pos (by positivity)]

theorem terms_lt {ts : List (Fl f × Nat)} {P : ℚ[X]} {n : Nat}
    (h : IsTermListOf (ts.map fun t => (t.1.toRat, t.2)) P) (hn : P.degree < (n : WithBot ℕ)) : ∀ u ∈ ts, u.2 < n := by
  intro u hu
  have h1 := (h.2 u.1.toRat u.2).1 (List.mem_map.2 ⟨u, hu, rfl⟩)
  have h2 : (u.2 : WithBot ℕ) ≤ P.degree := le_degree_of_ne_zero (by rw [h1.2]; exact h1.1)
  exact_mod_cast lt_of_le_of_lt h2 hn

theorem coeff_coefAt (l : List (Fl f)) (k : Nat) : (descPoly (l.map toRat)).coeff k = (coefAt l k).toRat := by
  rw [coeff_descPoly, coefAt, ← List.map_reverse]
  simp only [List.getD_eq_getElem?_getD, List.getElem?_map]
  cases l.reverse[k]? with
  | none => exact toRat_zero.symm
  | some c => rfl

/-- What `parse` after `display` of a polynomial with the terms `ts` returns. -/
theorem roundtrip_terms {S : Type} [MutPoly (Fl f) S] (hp : 1 ≤ f.p) (hq : f.q < f.w) {shw : Fl f → List Char}
    (hd : DisplaysFloats f shw) (uw : Nat) (zero : S) (get : S → Nat → Fl f) (D : Nat → Prop)
    (step : ∀ (s : S) (c : Fl f) (d : Nat), D d → get s d = 0 → isZero c = false → 0 + c = c →
      ∃ s', MutPoly.tryAddTerm s c d = (s', .ok ()) ∧ ∀ k, get s' k = if k = d then c else get s k)
    (hzero : ∀ k, get zero k = 0) (ts : List (Fl f × Nat)) (P : ℚ[X])
    (h : IsTermListOf (ts.map fun t => (t.1.toRat, t.2)) P)
    (ht : ∀ u ∈ ts, u.1.Valid ∧ u.1.isFinite = true ∧ isZero u.1 = false) (hD : ∀ u ∈ ts, D u.2 ∧ u.2 < 2 ^ uw) :
    ∃ str q, displayTerms (flFmt shw) ts = .ok str ∧ polyFromStr zero (parseFl f) uw str = .ok (.ok q) ∧
      (∀ k, get q k = 0 ∨ ∃ u ∈ ts, get q k = u.1) ∧ ∀ Q : ℚ[X], (∀ k, Q.coeff k = (get q k).toRat) → Q = P := by
  have hpw : ts.Pairwise (fun a b => a.2 > b.2) := by
    have := h.1
    rw [List.pairwise_map] at this
    exact this
  obtain ⟨q, h1, h2, h3⟩ := addPoly_get get D step ts zero hpw
    (fun u hu => ⟨(hD u hu).1, hzero _, (ht u hu).2.2, zero_add_fin hp (ht u hu).1 (ht u hu).2.1 (ht u hu).2.2⟩)
  obtain ⟨str, h4, h5⟩ := displayTerms_gen (F := flFmt shw) (parse := parseFl f) (uw := uw) zero q ts
    (fun u hu => coefText hp hq hd (ht u hu).1 (ht u hu).2.1 (ht u hu).2.2) (fun u hu => (hD u hu).2) parse_zero h1
  refine ⟨str, q, h4, h5, fun k => ?_, fun Q hQ => coeff_of_terms h (fun u hu => by rw [hQ, h2 u hu]) fun k hk => ?_⟩
  · by_cases hk : ∃ u ∈ ts, u.2 = k
    · obtain ⟨u, hu, rfl⟩ := hk
      exact .inr ⟨u, hu, h2 u hu⟩
    · push Not at hk
      exact .inl (by rw [h3 k hk, hzero])
  · rw [hQ, h3 k hk, hzero]
    exact toRat_zero

theorem zero_finite : (0 : Fl f).isFinite = true := rfl

section
variable (hp : 1 ≤ f.p) (hq : f.q < f.w) {shw : Fl f → List Char} (hd : DisplaysFloats f shw) (uw : Nat)
include hp hq hd

/-- C88 (Polynomial): parsing the text printed for a polynomial with finite coefficients gives an equal
polynomial. -/
theorem C88_dense (p : Poly (Fl f)) (hf : ∀ c ∈ p.terms, c.Valid ∧ c.isFinite = true)
    (hdeg : (descPoly (p.terms.map toRat)).degree < ((2 ^ uw : ℕ) : WithBot ℕ)) :
    ∃ str q, p.display (flFmt shw) = .ok str ∧ Poly.fromStr (parseFl f) uw str = .ok (.ok q) ∧
      descPoly (q.terms.map toRat) = descPoly (p.terms.map toRat) ∧ (∀ c ∈ q.terms, c.isFinite = true) ∧
      q.eq p = true := by
  have hpf : ∀ c ∈ p.terms, c.isFinite = true := fun c hc => (hf c hc).2
  have hT := (C86_dense p p hpf).2.2.1
  have hmem : ∀ u ∈ p.orderedTermIter, u.1 ∈ p.terms ∧ isZero u.1 = false := by
    intro u hu
    rw [orderedTermIter_eq] at hu
    exact mem_descTerms hu
  obtain ⟨str, q, h1, h2, h3, h4⟩ := roundtrip_terms hp hq hd uw (Poly.zero : Poly (Fl f))
    (fun s k => coefAt s.terms k) (fun _ => True)
    (fun s c d _ hs _ hc => ⟨s.addTerm c d, rfl, fun k => by
      rw [coefAt_addTerm]
      by_cases hk : k = d
      · rw [if_pos hk, if_pos hk, hs, hc]
      · rw [if_neg hk, if_neg hk]⟩)
    (fun k => by simp [coefAt, Poly.zero]) p.orderedTermIter _ hT
    (fun u hu => ⟨(hf _ (hmem u hu).1).1, (hf _ (hmem u hu).1).2, (hmem u hu).2⟩)
    (fun u hu => ⟨trivial, terms_lt hT hdeg u hu⟩)
  have heq := h4 (descPoly (q.terms.map toRat)) (coeff_coefAt q.terms)
  have hqf : ∀ c ∈ q.terms, c.isFinite = true := by
    intro c hc
    obtain ⟨i, hi, rfl⟩ := List.mem_iff_getElem.1 (List.mem_reverse.2 hc)
    have : coefAt q.terms i = q.terms.reverse[i] := by
      rw [coefAt, List.getD_eq_getElem?_getD, List.getElem?_eq_getElem hi]; rfl
    rw [← this]
    rcases h3 i with h | ⟨u, hu, h⟩
    · rw [h]; rfl
    · rw [h]; exact hpf _ (hmem u hu).1
  exact ⟨str, q, h1, h2, heq, hqf, ((C86_dense q p hqf).2.2.2 hpf).2 heq⟩

/-- C88 (SparsePolynomial). -/
theorem C88_sparse (p : Sparse (Fl f)) (hf : ∀ e ∈ p.terms.entries, e.2.Valid ∧ e.2.isFinite = true)
    (hdeg : p.ratPoly.degree < ((2 ^ uw : ℕ) : WithBot ℕ)) :
    ∃ str q, p.display (flFmt shw) = .ok str ∧ Sparse.fromStr (parseFl f) uw str = .ok (.ok q) ∧
      q.ratPoly = p.ratPoly ∧ q.AllFinite ∧ q.eq p = true := by
  have hpf : p.AllFinite := fun c hc => (hf c hc).2
  have hT := C85_terms p hpf
  have hmem : ∀ u ∈ p.orderedTermIter, (u.2, u.1) ∈ p.terms.entries ∧ isZero u.1 = false := by
    intro u hu
    unfold Sparse.orderedTermIter at hu
    obtain ⟨e, he, hx⟩ := List.mem_filterMap.1 hu
    split at hx
    · cases hx
    · rename_i hz
      cases hx
      exact ⟨List.mem_reverse.1 he, by simpa using hz⟩
  obtain ⟨str, q, h1, h2, h3, h4⟩ := roundtrip_terms hp hq hd uw (Sparse.zero : Sparse (Fl f))
    (fun s k => (s.terms.get k).getD 0) (fun _ => True)
    (fun s c d _ hs hz hc => ⟨s.addTerm c d, rfl, fun k => by
      unfold Sparse.addTerm
      rw [if_neg (by simp [hz])]
      dsimp only
      rw [BMap.get_upsert]
      by_cases hk : k = d
      · rw [if_pos hk, if_pos hk]
        cases hg : s.terms.get d with
        | none => rfl
        | some c' =>
          rw [hg] at hs
          have : c' = 0 := hs
          subst this
          exact hc
      · rw [if_neg hk, if_neg hk]⟩)
    (fun k => rfl) p.orderedTermIter _ hT
    (fun u hu => ⟨(hf _ (hmem u hu).1).1, (hf _ (hmem u hu).1).2, (hmem u hu).2⟩)
    (fun u hu => ⟨trivial, terms_lt hT hdeg u hu⟩)
  have heq := h4 q.ratPoly (fun k => by
    rw [coeff_rat]
    cases q.terms.get k with
    | none => exact toRat_zero.symm
    | some c => rfl)
  have hqf : q.AllFinite := by
    intro e he
    have hg : q.terms.get e.1 = some e.2 := (BMap.mem_entries ..).1 he
    rcases h3 e.1 with h | ⟨u, hu, h⟩
    · rw [hg] at h
      have : e.2 = 0 := h
      rw [this]; rfl
    · rw [hg] at h
      have : e.2 = u.1 := h
      rw [this]; exact hpf _ (hmem u hu).1
  exact ⟨str, q, h1, h2, heq, hqf, ((C85_eq q p).1 hqf hpf).2 heq⟩

/-- C88 (Monomial). -/
theorem C88_monomial (p : Monomial (Fl f)) (hf : p.coefficient.Valid ∧ p.coefficient.isFinite = true)
    (hdeg : p.deg < 2 ^ uw) :
    ∃ str q, p.display (flFmt shw) = .ok str ∧ Monomial.fromStr (parseFl f) uw str = .ok (.ok q) ∧
      q.ratPoly = p.ratPoly ∧ q.coefficient.isFinite = true ∧ q.eq p = true := by
  have hT := (C86_monomial p p hf.2 hf.2).2.2.1
  have hmem : ∀ u ∈ p.orderedTermIter, u = (p.coefficient, p.deg) ∧ isZero p.coefficient = false := by
    intro u hu
    unfold Monomial.orderedTermIter at hu
    split at hu
    · cases hu
    · rename_i hz; exact ⟨by simpa using hu, by simpa using hz⟩
  have hdisp : p.display (flFmt shw) = displayTerms (flFmt shw) p.orderedTermIter := by
    unfold Monomial.display Monomial.asTerm Monomial.orderedTermIter Term.new
    by_cases h : isZero p.coefficient = true
    · simp [h, displayTerms]
    · simp [h, displayTerms, writeTrailingTerms]
  have hz0 : ∀ u : Fl f, (0 : Fl f) + u = u → isZero u = false →
      MutPoly.tryAddTerm (Monomial.zero : Monomial (Fl f)) u p.deg = (⟨u, p.deg⟩, .ok ()) := by
    intro u hu _
    show Monomial.tryAddTerm _ _ _ = _
    unfold Monomial.tryAddTerm
    rw [if_pos (by rfl)]
    show ((⟨0 + u, p.deg⟩ : Monomial (Fl f)), _) = _
    rw [hu]
  by_cases hz : isZero p.coefficient = true
  · have hts : p.orderedTermIter = [] := by unfold Monomial.orderedTermIter; rw [if_pos hz]
    obtain ⟨str, h1, h2⟩ := displayTerms_gen (F := flFmt shw) (parse := parseFl f) (uw := uw)
      (Monomial.zero : Monomial (Fl f)) Monomial.zero [] (by simp) (by simp) parse_zero rfl
    have heq : (Monomial.zero : Monomial (Fl f)).ratPoly = p.ratPoly := by
      have h0 : p.coefficient.toRat = 0 := (isZero_iff_toRat hf.2).1 hz
      simp [Monomial.ratPoly, Monomial.zero, Monomial.new, h0]
    exact ⟨str, Monomial.zero, by rw [hdisp, hts]; exact h1, h2, heq, rfl, (C86_monomial _ p rfl hf.2).2.2.2.2 heq⟩
  · have hz' : isZero p.coefficient = false := by simpa using hz
    have hts : p.orderedTermIter = [(p.coefficient, p.deg)] := by unfold Monomial.orderedTermIter; rw [if_neg hz]
    have hadd : addPoly [(p.coefficient, p.deg)] (Monomial.zero : Monomial (Fl f)) = (p, .ok ()) := by
      simp [addPoly, hz0 _ (zero_add_fin hp hf.1 hf.2 hz') hz']
    obtain ⟨str, h1, h2⟩ := displayTerms_gen (F := flFmt shw) (parse := parseFl f) (uw := uw)
      (Monomial.zero : Monomial (Fl f)) p [(p.coefficient, p.deg)]
      (by simpa using coefText hp hq hd hf.1 hf.2 hz') (by simpa using hdeg) parse_zero hadd
    exact ⟨str, p, by rw [hdisp, hts]; exact h1, h2, rfl, hf.2, (C86_monomial p p hf.2 hf.2).2.2.2.2 rfl⟩

/-- C88 (LinearBinomial). -/
theorem C88_binomial (p : LinearBinomial (Fl f)) (hv : p.c0.Valid ∧ p.c1.Valid) (hf : p.AllFinite) (hu : 1 ≤ uw) :
    ∃ str q, p.display (flFmt shw) = .ok str ∧ LinearBinomial.fromStr (parseFl f) uw str = .ok (.ok q) ∧
      q.ratPoly = p.ratPoly ∧ q.AllFinite ∧ q.eq p = true := by
  have hT := (C86_binomial p p hf hf).2.2.1
  have hmem : ∀ u ∈ p.orderedTermIter, (u.1 = p.c0 ∨ u.1 = p.c1) ∧ isZero u.1 = false := by
    intro u hu
    unfold LinearBinomial.orderedTermIter at hu
    obtain ⟨⟨c, i⟩, he, hx⟩ := List.mem_filterMap.1 hu
    simp only at hx
    split at hx
    · cases hx
    · rename_i hz
      cases hx
      have := List.fst_mem_of_mem_zipIdx he
      exact ⟨by simpa [LinearBinomial.coefficients] using this, by simpa using hz⟩
  have hvu : ∀ u ∈ p.orderedTermIter, u.1.Valid ∧ u.1.isFinite = true ∧ isZero u.1 = false := by
    intro u hu
    obtain ⟨h | h, hz⟩ := hmem u hu
    · rw [h] at hz ⊢; exact ⟨hv.1, hf.1, hz⟩
    · rw [h] at hz ⊢; exact ⟨hv.2, hf.2, hz⟩
  have hdeg : p.ratPoly.degree < ((2 : ℕ) : WithBot ℕ) := lt_of_le_of_lt degree_linear_le (by decide)
  have h2 : 2 ≤ 2 ^ uw := by
    calc 2 = 2 ^ 1 := rfl
      _ ≤ 2 ^ uw := Nat.pow_le_pow_right (by norm_num) hu
  obtain ⟨str, q, h1, h2, h3, h4⟩ := roundtrip_terms hp hq hd uw (LinearBinomial.zero : LinearBinomial (Fl f))
    (fun s k => if k = 1 then s.c0 else if k = 0 then s.c1 else 0) (fun d => d < 2)
    (fun s c d hd2 hs _ hc => ⟨s.modify (1 - d) (· + c), by
        show LinearBinomial.tryAddTerm s c d = _
        unfold LinearBinomial.tryAddTerm; rw [if_pos (by omega)], fun k => by
      obtain rfl | rfl : d = 0 ∨ d = 1 := by omega
      · have hs' : s.c1 = 0 := by simpa using hs
        unfold LinearBinomial.modify
        by_cases hk1 : k = 1
        · simp [hk1]
        · by_cases hk0 : k = 0
          · simp [hk0, hs', hc]
          · simp [hk1, hk0]
      · have hs' : s.c0 = 0 := by simpa using hs
        unfold LinearBinomial.modify
        by_cases hk1 : k = 1
        · simp [hk1, hs', hc]
        · by_cases hk0 : k = 0
          · simp [hk0]
          · simp [hk1, hk0]⟩)
    (fun k => by simp [LinearBinomial.zero, LinearBinomial.new]) p.orderedTermIter _ hT hvu
    (fun u hu => ⟨terms_lt hT hdeg u hu, by have := terms_lt hT hdeg u hu; omega⟩)
  have heq := h4 q.ratPoly (fun k => by
    unfold LinearBinomial.ratPoly
    rw [coeff_add, coeff_C_mul, coeff_X, coeff_C]
    by_cases hk1 : k = 1
    · simp [hk1]
    · by_cases hk0 : k = 0
      · simp [hk0]
      · simp [hk1, hk0, Ne.symm hk1])
  have hfin : ∀ k, (if k = 1 then q.c0 else if k = 0 then q.c1 else 0 : Fl f).isFinite = true := by
    intro k
    rcases h3 k with h | ⟨u, hu, h⟩
    · rw [h]; rfl
    · rw [h]; exact (hvu u hu).2.1
  have hqf : q.AllFinite := ⟨by simpa using hfin 1, by simpa using hfin 0⟩
  exact ⟨str, q, h1, h2, heq, hqf, (C86_binomial q p hqf hf).2.2.2.2 heq⟩

/-- C88 (QuadraticTrinomial). -/
theorem C88_trinomial (p : QuadraticTrinomial (Fl f)) (hv : p.c0.Valid ∧ p.c1.Valid ∧ p.c2.Valid) (hf : p.AllFinite)
    (hu : 2 ≤ uw) :
    ∃ str q, p.display (flFmt shw) = .ok str ∧ QuadraticTrinomial.fromStr (parseFl f) uw str = .ok (.ok q) ∧
      q.ratPoly = p.ratPoly ∧ q.AllFinite ∧ q.eq p = true := by
  have hT := (C86_trinomial p p hf hf).2.2.1
  have hmem : ∀ u ∈ p.orderedTermIter, (u.1 = p.c0 ∨ u.1 = p.c1 ∨ u.1 = p.c2) ∧ isZero u.1 = false := by
    intro u hu
    unfold QuadraticTrinomial.orderedTermIter at hu
    obtain ⟨⟨c, i⟩, he, hx⟩ := List.mem_filterMap.1 hu
    simp only at hx
    split at hx
    · cases hx
    · rename_i hz
      cases hx
      have := List.fst_mem_of_mem_zipIdx he
      exact ⟨by simpa [QuadraticTrinomial.coefficients] using this, by simpa using hz⟩
  have hvu : ∀ u ∈ p.orderedTermIter, u.1.Valid ∧ u.1.isFinite = true ∧ isZero u.1 = false := by
    intro u hu
    obtain ⟨h | h | h, hz⟩ := hmem u hu
    · rw [h] at hz ⊢; exact ⟨hv.1, hf.1, hz⟩
    · rw [h] at hz ⊢; exact ⟨hv.2.1, hf.2.1, hz⟩
    · rw [h] at hz ⊢; exact ⟨hv.2.2, hf.2.2, hz⟩
  have hdeg : p.ratPoly.degree < ((3 : ℕ) : WithBot ℕ) := lt_of_le_of_lt degree_quadratic_le (by decide)
  have h2 : 4 ≤ 2 ^ uw := by
    calc 4 = 2 ^ 2 := rfl
      _ ≤ 2 ^ uw := Nat.pow_le_pow_right (by norm_num) hu
  obtain ⟨str, q, h1, h2, h3, h4⟩ := roundtrip_terms hp hq hd uw (QuadraticTrinomial.zero : QuadraticTrinomial (Fl f))
    (fun s k => if k = 2 then s.c0 else if k = 1 then s.c1 else if k = 0 then s.c2 else 0) (fun d => d < 3)
    (fun s c d hd2 hs _ hc => ⟨s.modify (2 - d) (· + c), by
        show QuadraticTrinomial.tryAddTerm s c d = _
        unfold QuadraticTrinomial.tryAddTerm; rw [if_pos (by omega)], fun k => by
      obtain rfl | rfl | rfl : d = 0 ∨ d = 1 ∨ d = 2 := by omega
      all_goals
        simp at hs
        unfold QuadraticTrinomial.modify
        by_cases hk2 : k = 2
        · simp [hk2, hs, hc]
        · by_cases hk1 : k = 1
          · simp [hk1, hs, hc]
          · by_cases hk0 : k = 0
            · simp [hk0, hs, hc]
            · simp [hk2, hk1, hk0]⟩)
    (fun k => by simp [QuadraticTrinomial.zero, QuadraticTrinomial.new]) p.orderedTermIter _ hT hvu
    (fun u hu => ⟨terms_lt hT hdeg u hu, by have := terms_lt hT hdeg u hu; omega⟩)
  have heq := h4 q.ratPoly (fun k => by
    unfold QuadraticTrinomial.ratPoly
    rw [coeff_add, coeff_add, coeff_C_mul, coeff_C_mul, coeff_X_pow, coeff_X, coeff_C]
    by_cases hk2 : k = 2
    · simp [hk2]
    · by_cases hk1 : k = 1
      · simp [hk1]
      · by_cases hk0 : k = 0
        · simp [hk0]
        · simp [hk2, hk1, hk0, Ne.symm hk1])
  have hfin : ∀ k, (if k = 2 then q.c0 else if k = 1 then q.c1 else if k = 0 then q.c2 else 0 : Fl f).isFinite = true := by
    intro k
    rcases h3 k with h | ⟨u, hu, h⟩
    · rw [h]; rfl
    · rw [h]; exact (hvu u hu).2.1
  have hqf : q.AllFinite := ⟨by simpa using hfin 2, by simpa using hfin 1, by simpa using hfin 0⟩
  exact ⟨str, q, h1, h2, heq, hqf, (C86_trinomial q p hqf hf).2.2.2.2 heq⟩

end

/-! ## Examples -/

-- `-2.5 x^3 + x - 0.125` prints and reads back; `0.1` is read as the nearest number
example : (⟨[.fin true (5 * 2 ^ 1073), 0, 1, .fin true (2 ^ 1071)]⟩ : Poly (Fl binary64)).display (flFmt showExact) =
    .ok "-2.5x^3 + x - 0.125".toList := by decide +kernel
example : (Poly.fromStr (parseFl binary64) 64 "-2.5x^3 + x - 0.125".toList).bind (fun r => .ok (r.toOption.map (·.terms))) =
    .ok (some [.fin true (5 * 2 ^ 1073), 0, 1, .fin true (2 ^ 1071)]) := by decide +kernel
example : parseFl binary64 ".1".toList = some (div 1 (ofNat 10)) ∧ parseFl binary64 "1.".toList = some 1 ∧
    parseFl binary64 "-0".toList = some (.fin true 0) ∧ parseFl binary64 ".".toList = none ∧
    parseFl binary64 "1.2.3".toList = none ∧
    parseFl binary32 "340282366920938463463374607431768211456".toList = some (.inf false) := by decide +kernel

/-- C88: texts of terms with floating-point coefficients, separators interspersed anywhere: the coefficient is the
float the number stands for (`C88_parse`), or one with the sign when there is no number. -/
theorem C88_texts (sg body es s : List Char) (x : ℚ) (z : Fl f) (hsg : sg = [] ∨ sg = ['+'] ∨ sg = ['-'])
    (hx : IsDecimal body x) (hz : parseFl f (sg ++ body) = some z) (he : IsDigits es) (uw : Nat)
    (hev : decVal es < 2 ^ uw) :
    (clean s = sg ++ body → Term.fromStr (parseFl f) uw s = .ok (Term.new z 0)) ∧
    (clean s = sg ++ body ++ ['x'] → Term.fromStr (parseFl f) uw s = .ok (Term.new z 1)) ∧
    (clean s = sg ++ body ++ ['x', '^'] ++ es → Term.fromStr (parseFl f) uw s = .ok (Term.new z (decVal es))) := by
  have hb := decimal_body hx
  have hnum : ∀ c ∈ sg ++ body, IsNum c := by
    intro c hc
    rcases List.mem_append.1 hc with hc | hc
    · rcases hsg with rfl | rfl | rfl
      · cases hc
      · exact .inl (by simpa using hc)
      · exact .inr (.inl (by simpa using hc))
    · rcases hb.2 c hc with h | h
      · exact .inr (.inr (.inr h))
      · exact .inr (.inr (.inl h))
  have hc : coeffText (parseFl f) (sg ++ body) = some z := by
    unfold coeffText
    rw [if_neg (by simp [hb.1]), if_neg ?_, hz]
    cases body with
    | nil => exact absurd rfl hb.1
    | cons c r =>
      have := body_sign (hb.2 c (by simp))
      have h1 : c ≠ '-' := fun h => this (.inr h)
      have h2 : c ≠ '+' := fun h => this (.inl h)
      rcases hsg with rfl | rfl | rfl <;> simp [h1, h2]
  have hcc : Term.fromStr (parseFl f) uw s = Term.fromStr (parseFl f) uw (clean s) :=
    C35_separators _ _ _ _ (by unfold clean; simp)
  have hu : parseUsize uw ([] ++ es) = some (decVal es) := parseUsize_digits uw he hev
  refine ⟨fun h => ?_, fun h => ?_, fun h => ?_⟩
  · rw [hcc, h, fromStr_const _ _ hnum, hz]
  · rw [hcc, h]
    exact fromStr_lin _ _ hnum hc
  · rw [hcc, h]
    have := (fromStr_deg (parseFl f) uw hnum hc (a := []) (by simp) he.num hu).1
    simpa using this

-- `- .5 x^3`, where `.5` is the number 1/2
example : IsDecimal ".5".toList (1 / 2) ∧ parseFl binary64 (['-'] ++ ".5".toList) = some (.fin true (2 ^ 1073)) ∧
    Term.fromStr (parseFl binary64) 64 "- .5 x^3".toList = .ok (.term (.fin true (2 ^ 1073)) 3) :=
  ⟨⟨[], ['5'], by decide, by decide, .inr rfl, by
      rw [show decVal ([] ++ ['5']) = 5 by decide]; norm_num⟩, by decide +kernel, by decide +kernel⟩

/-! ## Coefficients that are not finite -/

theorem nonfinite_char {shw : Fl f → List Char} (hd : DisplaysFloats f shw) {c : Fl f} (hc : c.isFinite = false) :
    ('N' ∈ shw c ∧ 'N' ∈ shw (absFl c)) ∨ ('i' ∈ shw c ∧ 'i' ∈ shw (absFl c)) := by
  cases c with
  | nan => left; simp only [absFl, hd.nan]; decide
  | inf s => right; simp only [absFl, hd.inf]; cases s <;> decide
  | fin s m => cases hc

theorem nonfinite_display {shw : Fl f → List Char} (hd : DisplaysFloats f shw) (ts : List (Fl f × Nat))
    (h : ∃ u ∈ ts, u.1.isFinite = false) :
    ∃ str, displayTerms (flFmt shw) ts = .ok str ∧ ('N' ∈ str ∨ 'i' ∈ str) := by
  have hone : ∀ c : Fl f, c.isFinite = false → (flFmt shw).isOne c = false ∧ (flFmt shw).isNegativeOne c = false ∧
      (flFmt shw).isOne (absFl c) = false := by
    intro c hc
    cases c with
    | nan => exact ⟨rfl, rfl, rfl⟩
    | inf s => exact ⟨rfl, rfl, rfl⟩
    | fin s m => cases hc
  have htrail : ∀ ts : List (Fl f × Nat), ∃ str, writeTrailingTerms (flFmt shw) ts = .ok str ∧
      ((∃ u ∈ ts, u.1.isFinite = false) → 'N' ∈ str ∨ 'i' ∈ str) := by
    intro ts
    induction ts with
    | nil => exact ⟨[], rfl, by simp⟩
    | cons u ts ih =>
      obtain ⟨str, h1, h2⟩ := ih
      have ht : ∃ t, writeTrailingTerm (flFmt shw) u.1 u.2 = .ok t ∧ (u.1.isFinite = false → 'N' ∈ t ∨ 'i' ∈ t) := by
        have habs : (flFmt shw).abs u.1 = .ok (absFl u.1) := rfl
        unfold writeTrailingTerm
        simp only [habs, Res.ok_bind]
        have hin : u.1.isFinite = false → 'N' ∈ (flFmt shw).shw (absFl u.1) ∨ 'i' ∈ (flFmt shw).shw (absFl u.1) :=
          fun hu => (nonfinite_char hd hu).imp (·.2) (·.2)
        split
        · refine ⟨_, rfl, fun hu => ?_⟩
          simp only [List.mem_append]
          exact (hin hu).imp .inr .inr
        · refine ⟨_, rfl, fun hu => ?_⟩
          rw [(hone _ hu).2.2]
          simp only [List.mem_append]
          exact (hin hu).imp (fun h => .inl (.inr h)) (fun h => .inl (.inr h))
      obtain ⟨t, h3, h4⟩ := ht
      refine ⟨t ++ str, by rw [writeTrailingTerms, h3, Res.ok_bind, h1, Res.ok_bind], ?_⟩
      rintro ⟨w, hw, hwf⟩
      simp only [List.mem_append]
      rcases List.mem_cons.1 hw with rfl | hw
      · exact (h4 hwf).imp .inl .inl
      · exact (h2 ⟨w, hw, hwf⟩).imp .inr .inr
  cases ts with
  | nil => simp at h
  | cons u ts =>
    obtain ⟨str, h1, h2⟩ := htrail ts
    refine ⟨writeLeadingTerm (flFmt shw) u.1 u.2 ++ str, by rw [displayTerms, h1, Res.ok_bind], ?_⟩
    simp only [List.mem_append]
    obtain ⟨w, hw, hwf⟩ := h
    rcases List.mem_cons.1 hw with rfl | hw
    · have : (flFmt shw).shw w.1 = leadNum (flFmt shw) w.1 w.2 := by
        unfold leadNum
        rw [(hone _ hwf).1, (hone _ hwf).2.1]
        simp
      rw [writeLeading_gen, ← this]
      simp only [List.mem_append]
      exact (nonfinite_char hd hwf).imp (fun h => .inl (.inl h.1)) (fun h => .inl (.inl h.1))
    · exact (h2 ⟨w, hw, hwf⟩).imp .inr .inr

theorem isZero_nonfinite {c : Fl f} (h : c.isFinite = false) : isZero c = false := by
  cases c with
  | nan => rfl
  | inf s => rfl
  | fin s m => cases h

theorem rejects {S : Type} [MutPoly (Fl f) S] (zero : S) (uw : Nat) {str : List Char} (h : 'N' ∈ str ∨ 'i' ∈ str) :
    ∃ e, polyFromStr zero (parseFl f) uw str = .ok (.error e) := by
  obtain ⟨r, hr⟩ := C39_total zero (parseFl f) uw str
  cases r with
  | error e => exact ⟨e, hr⟩
  | ok q =>
    have := C39_legal_chars zero q (parseFl f) uw str hr
    rcases h with h | h
    · exact absurd (this _ h) (by decide)
    · exact absurd (this _ h) (by decide)

/-- C88: the text printed for a polynomial with an infinite or NaN coefficient is rejected. -/
theorem C88_nonfinite {shw : Fl f → List Char} (hd : DisplaysFloats f shw) (uw : Nat) :
    (∀ p : Poly (Fl f), (∃ c ∈ p.terms, c.isFinite = false) →
      ∃ str e, p.display (flFmt shw) = .ok str ∧ Poly.fromStr (parseFl f) uw str = .ok (.error e)) ∧
    (∀ p : Sparse (Fl f), ¬ p.AllFinite →
      ∃ str e, p.display (flFmt shw) = .ok str ∧ Sparse.fromStr (parseFl f) uw str = .ok (.error e)) ∧
    (∀ p : Monomial (Fl f), p.coefficient.isFinite = false →
      ∃ str e, p.display (flFmt shw) = .ok str ∧ Monomial.fromStr (parseFl f) uw str = .ok (.error e)) ∧
    (∀ p : LinearBinomial (Fl f), ¬ p.AllFinite →
      ∃ str e, p.display (flFmt shw) = .ok str ∧ LinearBinomial.fromStr (parseFl f) uw str = .ok (.error e)) ∧
    (∀ p : QuadraticTrinomial (Fl f), ¬ p.AllFinite →
      ∃ str e, p.display (flFmt shw) = .ok str ∧ QuadraticTrinomial.fromStr (parseFl f) uw str = .ok (.error e)) := by
  refine ⟨fun p h => ?_, fun p h => ?_, fun p h => ?_, fun p h => ?_, fun p h => ?_⟩
  · obtain ⟨c, hc, hcf⟩ := h
    have : ∃ u ∈ p.orderedTermIter, u.1.isFinite = false := by
      rw [orderedTermIter_eq]
      generalize p.terms = l at hc
      induction l with
      | nil => cases hc
      | cons a l ih =>
        rw [descTerms]
        rcases List.mem_cons.1 hc with rfl | hc
        · rw [if_neg (by simp [isZero_nonfinite hcf])]
          exact ⟨_, List.mem_cons_self .., hcf⟩
        · obtain ⟨u, hu, hf⟩ := ih hc
          split
          · exact ⟨u, hu, hf⟩
          · exact ⟨u, List.mem_cons_of_mem _ hu, hf⟩
    obtain ⟨str, h1, h2⟩ := nonfinite_display hd _ this
    obtain ⟨e, he⟩ := rejects (f := f) (Poly.zero : Poly (Fl f)) uw h2
    exact ⟨str, e, h1, he⟩
  · have : ∃ u ∈ p.orderedTermIter, u.1.isFinite = false := by
      unfold Sparse.AllFinite at h
      push Not at h
      obtain ⟨e, he, hef⟩ := h
      have hef : e.2.isFinite = false := by simpa using hef
      refine ⟨(e.2, e.1), ?_, hef⟩
      unfold Sparse.orderedTermIter
      exact List.mem_filterMap.2 ⟨e, List.mem_reverse.2 he, by rw [if_neg (by simp [isZero_nonfinite hef])]⟩
    obtain ⟨str, h1, h2⟩ := nonfinite_display hd _ this
    obtain ⟨e, he⟩ := rejects (f := f) (Sparse.zero : Sparse (Fl f)) uw h2
    exact ⟨str, e, h1, he⟩
  · obtain ⟨str, h1, h2⟩ := nonfinite_display hd [(p.coefficient, p.deg)]
      ⟨(p.coefficient, p.deg), by simp, h⟩
    obtain ⟨e, he⟩ := rejects (f := f) (Monomial.zero : Monomial (Fl f)) uw h2
    refine ⟨str, e, ?_, he⟩
    rw [← h1]
    unfold Monomial.display Monomial.asTerm Term.new
    rw [if_neg (by simp [isZero_nonfinite h])]
    simp [displayTerms, writeTrailingTerms]
  · have : ∃ u ∈ p.orderedTermIter, u.1.isFinite = false := by
      have hc : ∃ c i, (c, i) ∈ p.coefficients.zipIdx ∧ c.isFinite = false := by
        unfold LinearBinomial.AllFinite at h
        by_cases h0 : p.c0.isFinite = true
        · exact ⟨p.c1, 1, by simp [LinearBinomial.coefficients], by simpa [h0] using h⟩
        · exact ⟨p.c0, 0, by simp [LinearBinomial.coefficients], by simpa using h0⟩
      obtain ⟨c, i, hc, hcf⟩ := hc
      exact ⟨(c, 1 - i), List.mem_filterMap.2 ⟨(c, i), hc, by simp [isZero_nonfinite hcf]⟩, hcf⟩
    obtain ⟨str, h1, h2⟩ := nonfinite_display hd _ this
    obtain ⟨e, he⟩ := rejects (f := f) (LinearBinomial.zero : LinearBinomial (Fl f)) uw h2
    exact ⟨str, e, h1, he⟩
  · have : ∃ u ∈ p.orderedTermIter, u.1.isFinite = false := by
      have hc : ∃ c i, (c, i) ∈ p.coefficients.zipIdx ∧ c.isFinite = false := by
        unfold QuadraticTrinomial.AllFinite at h
        by_cases h0 : p.c0.isFinite = true
        · by_cases h1 : p.c1.isFinite = true
          · exact ⟨p.c2, 2, by simp [QuadraticTrinomial.coefficients], by simpa [h0, h1] using h⟩
          · exact ⟨p.c1, 1, by simp [QuadraticTrinomial.coefficients], by simpa using h1⟩
        · exact ⟨p.c0, 0, by simp [QuadraticTrinomial.coefficients], by simpa using h0⟩
      obtain ⟨c, i, hc, hcf⟩ := hc
      exact ⟨(c, 2 - i), List.mem_filterMap.2 ⟨(c, i), hc, by simp [isZero_nonfinite hcf]⟩, hcf⟩
    obtain ⟨str, h1, h2⟩ := nonfinite_display hd _ this
    obtain ⟨e, he⟩ := rejects (f := f) (QuadraticTrinomial.zero : QuadraticTrinomial (Fl f)) uw h2
    exact ⟨str, e, h1, he⟩

-- `2e5` and `x + NaN` are rejected, `3 x ^ 2 - 1.5` is not
example : (polyFromStr (Poly.zero : Poly (Fl binary64)) (parseFl binary64) 64 "2e5".toList).bind
      (fun r => .ok (r.toOption.map (·.terms))) = .ok none ∧
    (polyFromStr (Poly.zero : Poly (Fl binary64)) (parseFl binary64) 64 "x + NaN".toList).bind
      (fun r => .ok (r.toOption.map (·.terms))) = .ok none ∧
    (polyFromStr (Poly.zero : Poly (Fl binary64)) (parseFl binary64) 64 "3 x ^ 2 - 1.5".toList).bind
      (fun r => .ok (r.toOption.map (·.terms))) = .ok (some [Fl.ofNat 3, 0, .fin true (3 * 2 ^ 1073)]) := by
  decide +kernel

-- `x + inf` and `NaN`
example : (⟨[1, .inf false]⟩ : Poly (Fl binary64)).display (flFmt showExact) = .ok "x + inf".toList ∧
    (⟨.nan, 0⟩ : Monomial (Fl binary64)).display (flFmt showExact) = .ok "NaN".toList ∧
    (⟨[1, .nan]⟩ : Poly (Fl binary64)).display (flFmt showExact) = .ok "x - NaN".toList := by decide +kernel

end Fl

end Rustnomial
