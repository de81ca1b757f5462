import Verif.Props.Parse
import Verif.Props.Sqrt

/-!
# Printing (C37, C38)
-/

open Polynomial

set_option linter.unusedSectionVars false

namespace Rustnomial

/-! ## Texts of single terms -/

/-- The text of the absolute value of a coefficient in front of a power of `x`. -/
def coefPart (n d : Nat) : List Char := if d ≠ 0 ∧ n = 1 then [] else showNat n

/-- The text of a power of `x`. -/
def degPart (d : Nat) : List Char :=
  if d = 0 then [] else if d > 1 then ['x', '^'] ++ showNat d else ['x']

theorem parse_text (t : IntTy) (uw : Nat) {sg s : List Char} {n d : Nat} (hsg : SignText t sg) (hn : n ≠ 0)
    (hr : t.InRange (signOf sg * n)) (hd : d < 2 ^ uw) (hs : clean s = sg ++ coefPart n d ++ degPart d) :
    Term.fromStr (parseInt t) uw s = .ok (.term (signOf sg * n) d) := by
  obtain ⟨hnd, hnv⟩ := showNat_spec n
  obtain ⟨hdd, hdv⟩ := showNat_spec d
  have hnew : ∀ e, Term.new (signOf sg * n) e = Term.term (signOf sg * (n : Int)) e := by
    intro e
    have h0 : signOf sg * (n : Int) ≠ 0 := by
      have : signOf sg ≠ 0 := by unfold signOf; split <;> decide
      exact mul_ne_zero this (by exact_mod_cast hn)
    unfold Term.new
    rw [if_neg (by simpa using h0)]
  have key := C35_texts (uw := uw) t sg (showNat n) (showNat d) s hsg hnd hdd (by rw [hdv]; exact hd)
  rw [hnv, hdv] at key
  unfold coefPart degPart at hs
  by_cases h0 : d = 0
  · subst h0
    rw [(key.1 hr).1 (by simpa using hs), hnew]
  · by_cases h1 : n = 1
    · subst h1
      have hr' : t.InRange (signOf sg) := by simpa using hr
      by_cases hd1 : d > 1
      · rw [(key.2 hr').2 (by simpa [h0, hd1] using hs)]
        have := hnew d
        simpa using this
      · obtain rfl : d = 1 := by omega
        rw [(key.2 hr').1 (by simpa using hs)]
        have := hnew 1
        simpa using this
    · by_cases hd1 : d > 1
      · rw [(key.1 hr).2.2 (by simpa [h0, h1, hd1] using hs), hnew]
      · obtain rfl : d = 1 := by omega
        rw [(key.1 hr).2.1 (by simpa [h1] using hs), hnew]

theorem coefPart_digit (n d : Nat) : ∀ c ∈ coefPart n d, isDigitChar c = true := by
  unfold coefPart
  split
  · simp
  · exact (showNat_spec n).1.2

theorem degPart_char (d : Nat) : ∀ c ∈ degPart d, isDigitChar c = true ∨ c = 'x' ∨ c = '^' := by
  unfold degPart
  split
  · simp
  · split
    · intro c hc
      simp only [List.cons_append, List.nil_append, List.mem_cons] at hc
      rcases hc with rfl | rfl | hc
      exacts [.inr (.inl rfl), .inr (.inr rfl), .inl ((showNat_spec d).1.2 c hc)]
    · simp

theorem body_char (n d : Nat) : ∀ c ∈ coefPart n d ++ degPart d, isDigitChar c = true ∨ c = 'x' ∨ c = '^' := by
  intro c hc
  rcases List.mem_append.1 hc with hc | hc
  exacts [.inl (coefPart_digit n d c hc), degPart_char d c hc]

theorem body_not_sign (n d : Nat) : ∀ c ∈ coefPart n d ++ degPart d, ¬ IsSign c := by
  intro c hc hs
  rcases body_char n d c hc with h | rfl | rfl
  · rcases hs with rfl | rfl <;> revert h <;> decide
  · rcases hs with h | h <;> revert h <;> decide
  · rcases hs with h | h <;> revert h <;> decide

theorem body_clean (n d : Nat) : clean (coefPart n d ++ degPart d) = coefPart n d ++ degPart d := by
  unfold clean
  rw [List.filter_eq_self]
  intro c hc
  have : ¬ IsSep c := by
    intro hs
    rcases body_char n d c hc with h | rfl | rfl
    · rcases hs with rfl | rfl | rfl <;> revert h <;> decide
    · rcases hs with h | h | h <;> revert h <;> decide
    · rcases hs with h | h | h <;> revert h <;> decide
  simpa using this

theorem body_ne_nil (n d : Nat) : coefPart n d ++ degPart d ≠ [] := by
  unfold coefPart degPart
  have := (showNat_spec n).1.1
  by_cases h : d = 0
  · simp [h, this]
  · by_cases hd : d > 1 <;> simp [h, hd]

theorem digit_not_white {c : Char} (h : isDigitChar c = true) : isWhitespaceChar c = false := by
  have h' : '0' ≤ c ∧ c ≤ '9' := by simpa [isDigitChar] using h
  have h1 : 48 ≤ c.toNat := h'.1
  have h2 : c.toNat ≤ 57 := h'.2
  unfold isWhitespaceChar
  have : ∀ n : Nat, 48 ≤ n → n ≤ 57 → ((0x9 ≤ n && n ≤ 0xd) || n = 0x20 || n = 0x85 || n = 0xa0 || n = 0x1680 ||
    (0x2000 ≤ n && n ≤ 0x200a) || n = 0x2028 || n = 0x2029 || n = 0x202f || n = 0x205f || n = 0x3000) = false := by
    intro n h1 h2
    simp
    omega
  exact this _ h1 h2

theorem body_not_white (n d : Nat) : ∀ c ∈ coefPart n d ++ degPart d, isWhitespaceChar c = false := by
  intro c hc
  rcases body_char n d c hc with h | rfl | rfl
  exacts [digit_not_white h, by decide, by decide]

/-- The sign in front of the leading term. -/
def leadSign (v : Int) : List Char := if v < 0 then ['-'] else []

theorem leadSign_signOf (v : Int) : signOf (leadSign v) * (v.natAbs : Int) = v := by
  unfold leadSign signOf
  by_cases h : v < 0
  · rw [if_pos h, if_pos rfl]; omega
  · rw [if_neg h, if_neg (by simp)]; omega

theorem signed_of_neg {t : IntTy} {v : Int} (h : t.InRange v) (hv : v < 0) : t.signed = true := by
  cases hs : t.signed with
  | true => rfl
  | false =>
    have := h.1
    simp [IntTy.min, hs] at this
    omega

theorem leadSign_text {t : IntTy} {v : Int} (h : t.InRange v) : SignText t (leadSign v) := by
  unfold leadSign
  split
  · rename_i hv; exact .inr (.inr ⟨rfl, signed_of_neg h hv⟩)
  · exact .inl rfl

theorem writeLeading_eq (chk : Bool) {t : IntTy} {v : Int} (h : t.InRange v) (d : Nat) :
    writeLeadingTerm (intFmt chk t) v d = leadSign v ++ coefPart v.natAbs d ++ degPart d := by
  unfold writeLeadingTerm coefPart degPart leadSign
  by_cases h0 : d = 0
  · simp only [h0, if_true, intFmt, showInt]
    by_cases hv : v < 0 <;> simp [hv]
  · rw [if_neg h0, if_neg h0]
    have hm : (intFmt chk t).isNegativeOne v = decide (v = -1) := by
      show isNegativeOne t v = _
      unfold isNegativeOne
      by_cases hv : v = -1
      · rw [if_pos (signed_of_neg h (by omega))]
      · simp [hv]
    have hone : (intFmt chk t).isOne v = decide (v = 1) := rfl
    have hshw : (intFmt chk t).shw v = showInt v := rfl
    rw [hm, hone, hshw]
    by_cases h1 : v = -1
    · subst h1; simp [h0]
    · by_cases h2 : v = 1
      · subst h2; simp [h0]
      · have h3 : v.natAbs ≠ 1 := by omega
        by_cases hv : v < 0 <;> simp [h1, h2, h3, hv, showInt]

/-- The sign in front of a trailing term. -/
def trailSign (v : Int) : Char := if v > 0 then '+' else '-'

/-- The text of a trailing term, without the blank in front. -/
def trailText (v : Int) (d : Nat) : List Char :=
  trailSign v :: ' ' :: (coefPart v.natAbs d ++ degPart d)

theorem absInt_ok (chk : Bool) {t : IntTy} {v : Int} (hb : 1 ≤ t.bits) (h : t.InRange v)
    (hmin : t.signed = true → v ≠ t.min) : absInt chk t v = .ok |v| := by
  unfold absInt
  cases hs : t.signed with
  | false =>
    have : 0 ≤ v := by have := h.1; simpa [IntTy.min, hs] using this
    simp [abs_of_nonneg this]
  | true =>
    have hr : t.InRange |v| := by
      have h1 := hmin hs
      obtain ⟨h2, h3⟩ := h
      simp only [IntTy.InRange, IntTy.min, IntTy.max, hs, if_true] at *
      rcases abs_cases v with ⟨ha, _⟩ | ⟨ha, _⟩ <;> rw [ha] <;> constructor <;> omega
    rw [if_pos rfl]
    cases chk with
    | true => simp [IntTy.checked, hr]
    | false => simp [IntTy.wrap_of_inRange t hb _ hr]

theorem writeTrailing_eq (chk : Bool) {t : IntTy} {v : Int} (hb : 1 ≤ t.bits) (h : t.InRange v)
    (hmin : t.signed = true → v ≠ t.min) (d : Nat) :
    writeTrailingTerm (intFmt chk t) v d = .ok (' ' :: trailText v d) := by
  unfold writeTrailingTerm trailText
  have habs : (intFmt chk t).abs v = .ok |v| := absInt_ok chk hb h hmin
  have hsh : (intFmt chk t).shw |v| = showNat v.natAbs := by
    show showInt |v| = _
    unfold showInt
    rw [if_neg (by have := abs_nonneg v; omega), Int.natAbs_abs]
  have hone : (intFmt chk t).isOne |v| = decide (v.natAbs = 1) := by
    show decide (|v| = 1) = _
    congr 1
    simp only [eq_iff_iff]
    rw [Int.abs_eq_natAbs]
    exact_mod_cast Iff.rfl
  simp only [habs, Res.ok_bind, hsh, hone]
  have hsg : (if (intFmt chk t).isPositive v then '+' else '-') = trailSign v := by
    show (if isPositiveInt v then '+' else '-') = _
    unfold isPositiveInt trailSign
    simp
  rw [hsg]
  by_cases hd : d = 0
  · simp [hd, coefPart, degPart]
  · by_cases h1 : v.natAbs = 1 <;> simp [hd, h1, coefPart, degPart]

/-! ## The tokens of a printed polynomial -/

/-- The tokens of `cur` followed by the given texts, each with a blank in front. -/
def joinToks : List Char → List (List Char) → List (List Char)
  | cur, [] => [cur]
  | cur, u :: us => (cur ++ [' ']) :: joinToks u us

theorem joinToks_flatten (us : List (List Char)) : ∀ cur,
    (joinToks cur us).flatten = cur ++ (us.map (' ' :: ·)).flatten := by
  induction us with
  | nil => intro cur; simp [joinToks]
  | cons u us ih => intro cur; simp [joinToks, ih]

theorem signToken_blank {u : List Char} (h : SignToken u) : SignToken (u ++ [' ']) := by
  obtain ⟨c, b, rfl, h1, h2⟩ := h
  refine ⟨c, b ++ [' '], by simp, h1, ?_⟩
  intro d hd
  rcases List.mem_append.1 hd with hd | hd
  · exact h2 d hd
  · simp at hd; subst hd; rintro (h | h) <;> revert h <;> decide

theorem joinToks_sign (us : List (List Char)) (h : ∀ u ∈ us, SignToken u) : ∀ cur, SignToken cur →
    ∀ v ∈ joinToks cur us, SignToken v := by
  induction us with
  | nil => intro cur hc v hv; simp [joinToks] at hv; rw [hv]; exact hc
  | cons u us ih =>
    intro cur hc v hv
    rcases List.mem_cons.1 hv with rfl | hv
    · exact signToken_blank hc
    · exact ih (fun u hu => h u (by simp [hu])) u (h u (by simp)) v hv

theorem joinToks_tokenization {cur : List Char} {us : List (List Char)} (hc : FirstToken cur)
    (hc' : FirstToken (cur ++ [' '])) (h : ∀ u ∈ us, SignToken u) :
    IsTokenization (cur ++ (us.map (' ' :: ·)).flatten) (joinToks cur us) := by
  refine ⟨joinToks_flatten us cur, ?_⟩
  cases us with
  | nil => exact .inl ⟨hc, by simp⟩
  | cons u us =>
    exact .inl ⟨hc', joinToks_sign us (fun u hu => h u (by simp [hu])) u (h u (by simp))⟩

theorem lead_firstToken (v : Int) (d : Nat) (ws : List Char) (hws : ∀ c ∈ ws, ¬ IsSign c) :
    FirstToken (leadSign v ++ coefPart v.natAbs d ++ degPart d ++ ws) := by
  unfold leadSign
  have hb := body_not_sign v.natAbs d
  split
  · refine ⟨[], '-', coefPart v.natAbs d ++ degPart d ++ ws, by simp, by simp, by decide, ?_⟩
    intro c hc
    rcases List.mem_append.1 hc with hc | hc
    exacts [hb c hc, hws c hc]
  · cases hbd : coefPart v.natAbs d ++ degPart d with
    | nil => exact absurd hbd (body_ne_nil _ _)
    | cons c r =>
      have hw := body_not_white v.natAbs d c (by rw [hbd]; simp)
      refine ⟨[], c, r ++ ws, by rw [List.nil_append, hbd]; simp, by simp, hw, ?_⟩
      intro e he
      rcases List.mem_append.1 he with he | he
      exacts [hb e (by rw [hbd]; simp [he]), hws e he]

theorem trail_signToken (v : Int) (d : Nat) : SignToken (trailText v d) := by
  refine ⟨trailSign v, _, rfl, ?_, ?_⟩
  · unfold trailSign; split
    exacts [.inl rfl, .inr rfl]
  · intro c hc
    rcases List.mem_cons.1 hc with rfl | hc
    · rintro (h | h) <;> revert h <;> decide
    · exact body_not_sign _ _ c hc

theorem trail_clean (v : Int) (d : Nat) (ws : List Char) (hws : ∀ c ∈ ws, IsSep c) :
    clean (trailText v d ++ ws) = [trailSign v] ++ coefPart v.natAbs d ++ degPart d := by
  have hw : clean ws = [] := by
    unfold clean; rw [List.filter_eq_nil_iff]; intro c hc; simpa using hws c hc
  have hs : clean [trailSign v, ' '] = [trailSign v] := by
    unfold trailSign; split <;> decide
  rw [show trailText v d ++ ws = [trailSign v, ' '] ++ ((coefPart v.natAbs d ++ degPart d) ++ ws) by simp [trailText],
    clean_append, clean_append, body_clean, hs, hw]
  simp

theorem lead_clean (v : Int) (d : Nat) (ws : List Char) (hws : ∀ c ∈ ws, IsSep c) :
    clean (leadSign v ++ coefPart v.natAbs d ++ degPart d ++ ws) = leadSign v ++ coefPart v.natAbs d ++ degPart d := by
  have hw : clean ws = [] := by
    unfold clean; rw [List.filter_eq_nil_iff]; intro c hc; simpa using hws c hc
  have hs : clean (leadSign v) = leadSign v := by
    unfold leadSign; split <;> decide
  rw [List.append_assoc (leadSign v), clean_append, clean_append, body_clean, hs, hw]
  simp

theorem lead_parse {t : IntTy} (uw : Nat) {v : Int} (h : t.InRange v) (h0 : v ≠ 0) {d : Nat} (hd : d < 2 ^ uw)
    (ws : List Char) (hws : ∀ c ∈ ws, IsSep c) :
    Term.fromStr (parseInt t) uw (leadSign v ++ coefPart v.natAbs d ++ degPart d ++ ws) = .ok (.term v d) := by
  have := parse_text t uw (leadSign_text h) (n := v.natAbs) (d := d) (by omega)
    (by rw [leadSign_signOf]; exact h) hd (lead_clean v d ws hws)
  rwa [leadSign_signOf] at this

theorem trail_parse {t : IntTy} (uw : Nat) {v : Int} (h : t.InRange v) (h0 : v ≠ 0) {d : Nat} (hd : d < 2 ^ uw)
    (ws : List Char) (hws : ∀ c ∈ ws, IsSep c) :
    Term.fromStr (parseInt t) uw (trailText v d ++ ws) = .ok (.term v d) := by
  have hsg : SignText t [trailSign v] := by
    unfold trailSign
    split
    · exact .inr (.inl rfl)
    · exact .inr (.inr ⟨rfl, signed_of_neg h (by omega)⟩)
  have hv : signOf [trailSign v] * (v.natAbs : Int) = v := by
    unfold trailSign signOf
    by_cases h : v > 0
    · rw [if_pos h, if_neg (by simp)]; omega
    · rw [if_neg h, if_pos rfl]; omega
  have := parse_text t uw hsg (n := v.natAbs) (d := d) (by omega) (by rw [hv]; exact h) hd (trail_clean v d ws hws)
  rwa [hv] at this

/-! ## Printing and reading back a list of terms -/

/-- The terms that can be printed: non-zero, in range, no trailing one equal to `MIN`. -/
structure PrintableTerms (t : IntTy) (ts : List (Int × Nat)) : Prop where
  nonzero : ∀ u ∈ ts, u.1 ≠ 0
  inRange : ∀ u ∈ ts, t.InRange u.1
  notMin : ∀ u ∈ ts.tail, t.signed = true → u.1 ≠ t.min

theorem writeTrailingTerms_eq (chk : Bool) {t : IntTy} (hb : 1 ≤ t.bits) (ts : List (Int × Nat))
    (hr : ∀ u ∈ ts, t.InRange u.1) (hm : ∀ u ∈ ts, t.signed = true → u.1 ≠ t.min) :
    writeTrailingTerms (intFmt chk t) ts =
      .ok ((ts.map fun u => ' ' :: trailText u.1 u.2).flatten) := by
  induction ts with
  | nil => rfl
  | cons u ts ih =>
    rw [writeTrailingTerms, writeTrailing_eq chk hb (hr u (by simp)) (hm u (by simp)),
      Res.ok_bind, ih (fun u hu => hr u (by simp [hu]))
        (fun u hu => hm u (by simp [hu])), Res.ok_bind]
    rfl

/-- The text of a list of terms. -/
def termsText : List (Int × Nat) → List Char
  | [] => ['0']
  | u :: ts => leadSign u.1 ++ coefPart u.1.natAbs u.2 ++ degPart u.2 ++
      ((ts.map fun u => trailText u.1 u.2).map (' ' :: ·)).flatten

theorem displayTerms_eq (chk : Bool) {t : IntTy} (hb : 1 ≤ t.bits) {ts : List (Int × Nat)}
    (h : PrintableTerms t ts) : displayTerms (intFmt chk t) ts = .ok (termsText ts) := by
  cases ts with
  | nil => rfl
  | cons u ts =>
    rw [displayTerms, writeTrailingTerms_eq chk hb ts
      (fun u hu => h.inRange u (by simp [hu])) (fun u hu => h.notMin u (by simpa using hu)), Res.ok_bind,
      writeLeading_eq chk (h.inRange u (by simp))]
    simp [termsText, Function.comp_def]

section
variable {S : Type} [MutPoly Int S]

theorem parseList_joinToks {t : IntTy} (uw : Nat) : ∀ (ts : List (Int × Nat)) (cur : List Char) (v : Int) (d : Nat)
    (p q : S) (b : Bool), (∀ u ∈ ts, u.1 ≠ 0) → (∀ u ∈ ts, t.InRange u.1) → (∀ u ∈ ts, u.2 < 2 ^ uw) →
    (∀ ws, (∀ c ∈ ws, IsSep c) → Term.fromStr (parseInt t) uw (cur ++ ws) = .ok (.term v d)) →
    addPoly ((v, d) :: ts) p = (q, .ok ()) →
    parseList (parseInt t) uw (joinToks cur (ts.map fun u => trailText u.1 u.2)) p b = .ok q := by
  intro ts
  induction ts with
  | nil =>
    intro cur v d p q b _ _ _ hcur hq
    simp only [List.map_nil, joinToks, parseList]
    have := hcur [] (by simp)
    rw [List.append_nil] at this
    rw [this]
    simp only [addPoly] at hq
    simp only
    cases hA : MutPoly.tryAddTerm p v d with
    | mk p' r =>
      rw [hA] at hq
      cases r with
      | error e => simp at hq
      | ok u => simp at hq; simp [hq]
  | cons u ts ih =>
    intro cur v d p q b h0 hr hd hcur hq
    rw [List.map_cons, joinToks, parseList, hcur [' '] (by simp [IsSep])]
    rw [addPoly] at hq
    simp only
    cases hA : MutPoly.tryAddTerm p v d with
    | mk p' r =>
      rw [hA] at hq
      cases r with
      | error e => simp at hq
      | ok _ =>
        exact ih _ u.1 u.2 p' q true (fun u hu => h0 u (by simp [hu])) (fun u hu => hr u (by simp [hu]))
          (fun u hu => hd u (by simp [hu]))
          (fun ws hws => trail_parse uw (hr u (by simp)) (h0 u (by simp)) (hd u (by simp)) ws hws) hq

theorem parse_termsText {t : IntTy} (uw : Nat) (zero q : S) {ts : List (Int × Nat)} (h : PrintableTerms t ts)
    (hb : 1 ≤ t.bits) (hd : ∀ u ∈ ts, u.2 < 2 ^ uw) (hq : addPoly ts zero = (q, .ok ())) :
    polyFromStr zero (parseInt t) uw (termsText ts) = .ok (.ok q) := by
  cases ts with
  | nil =>
    have htok : IsTokenization ['0'] [['0']] :=
      ⟨rfl, .inl ⟨⟨[], '0', [], rfl, by simp, by decide, by simp⟩, by simp⟩⟩
    rw [termsText, polyFromStr_eq zero _ _ _ _ htok]
    have h0 : t.InRange 0 := by
      simp only [IntTy.InRange, IntTy.min, IntTy.max]
      cases t.signed
      · simp
        have : (1 : Int) ≤ 2 ^ t.bits := one_le_pow₀ (by norm_num)
        omega
      · simp
        have : (1 : Int) ≤ 2 ^ (t.bits - 1) := one_le_pow₀ (by norm_num)
        omega
    have hz := (C35_canonical (uw := uw) t 0 0 h0 (by positivity)).1
    have hsh : showInt 0 = ['0'] := by
      unfold showInt; rw [if_neg (by decide)]
      show showNat 0 = _
      rw [showNat]; rfl
    rw [hsh] at hz
    simp only [parseList, hz]
    simp only [addPoly] at hq
    obtain ⟨rfl, _⟩ := Prod.mk.inj hq
    have : Term.new (0 : Int) 0 = .zeroTerm := rfl
    rw [this]
    rfl
  | cons u ts =>
    have hlead := fun ws hws => lead_parse uw (h.inRange u (by simp)) (h.nonzero u (by simp)) (hd u (by simp)) ws hws
    have htok := joinToks_tokenization (us := ts.map fun u => trailText u.1 u.2)
      (by have := lead_firstToken u.1 u.2 [] (by simp); rwa [List.append_nil] at this)
      (lead_firstToken u.1 u.2 [' '] (by rintro c hc; simp at hc; subst hc; rintro (h | h) <;> revert h <;> decide))
      (by intro v hv; obtain ⟨w, _, rfl⟩ := List.mem_map.1 hv; exact trail_signToken _ _)
    rw [termsText, polyFromStr_eq zero _ _ _ _ htok]
    rw [parseList_joinToks (t := t) uw ts _ u.1 u.2 zero q false (fun u hu => h.nonzero u (by simp [hu]))
      (fun u hu => h.inRange u (by simp [hu])) (fun u hu => hd u (by simp [hu])) hlead hq]

end

/-! ## C37 -/

/-- The integer polynomials whose coefficients fit the type `t`, with no coefficient below the leading
one equal to `MIN` of a signed type. -/
def Printable (t : IntTy) (P : ℤ[X]) : Prop :=
  ∀ i, t.InRange (P.coeff i) ∧ (t.signed = true → (i : WithBot ℕ) < P.degree → P.coeff i ≠ t.min)

theorem printableTerms {t : IntTy} {P : ℤ[X]} {ts : List (Int × Nat)} (h : IsTermListOf ts P)
    (hP : Printable t P) : PrintableTerms t ts := by
  have hc : ∀ u ∈ ts, P.coeff u.2 = u.1 ∧ u.1 ≠ 0 := fun u hu =>
    ⟨((h.2 u.1 u.2).1 hu).2, ((h.2 u.1 u.2).1 hu).1⟩
  refine ⟨fun u hu => (hc u hu).2, fun u hu => (hc u hu).1 ▸ (hP u.2).1, ?_⟩
  intro u hu hs
  cases ts with
  | nil => simp at hu
  | cons w ts =>
    have hu' : u ∈ ts := by simpa using hu
    have hlt : u.2 < w.2 := by
      have := (List.pairwise_cons.1 h.1).1 u hu'
      exact this
    rw [← (hc u (by simp [hu'])).1]
    refine (hP u.2).2 hs ?_
    have hw : (w.2 : WithBot ℕ) ≤ P.degree := le_degree_of_ne_zero (by
      rw [(hc w (by simp)).1]; exact (hc w (by simp)).2)
    exact lt_of_lt_of_le (by exact_mod_cast hlt) hw

theorem terms_degree_lt {P : ℤ[X]} {ts : List (Int × Nat)} {n : Nat} (h : IsTermListOf ts P)
    (hn : P.degree < (n : WithBot ℕ)) : ∀ u ∈ ts, u.2 < n := by
  intro u hu
  have h1 := (h.2 u.1 u.2).1 hu
  have h2 : (u.2 : WithBot ℕ) ≤ P.degree := le_degree_of_ne_zero (by rw [h1.2]; exact h1.1)
  exact_mod_cast lt_of_le_of_lt h2 hn

section
variable (chk : Bool) (t : IntTy) (hb : 1 ≤ t.bits) (uw : Nat)
include hb

/-- C37 (Polynomial), proved except for coefficients equal to `MIN` below the leading one: printing
succeeds and parsing the text gives an equal polynomial.  All sums made while parsing are `0 + c`. -/
theorem C37_dense_partial (p : Poly ℤ) (hP : Printable t (descPoly p.terms))
    (hd : (descPoly p.terms).degree < ((2 ^ uw : ℕ) : WithBot ℕ)) :
    ∃ str q, p.display (intFmt chk t) = .ok str ∧ Poly.fromStr (parseInt t) uw str = .ok (.ok q) ∧
      descPoly q.terms = descPoly p.terms ∧ q.eq p = true := by
  have hl := (C03_dense_terms p).1
  have hp := printableTerms hl hP
  obtain ⟨q, hq, hqp⟩ := (C32_dense_sink p.orderedTermIter [] Poly.zero).1
  have heq : descPoly q.terms = descPoly p.terms := by
    rw [hqp, hl.termsPoly_eq]; simp [Poly.zero]
  exact ⟨_, q, displayTerms_eq chk hb hp, parse_termsText uw _ q hp hb (terms_degree_lt hl hd) hq, heq,
    (C05_dense_eq q p).2 heq⟩

/-- C37 (SparsePolynomial), with the same exception. -/
theorem C37_sparse_partial (p : Sparse ℤ) (hP : Printable t (entriesPoly p.terms.entries))
    (hd : (entriesPoly p.terms.entries).degree < ((2 ^ uw : ℕ) : WithBot ℕ)) :
    ∃ str q, p.display (intFmt chk t) = .ok str ∧ Sparse.fromStr (parseInt t) uw str = .ok (.ok q) ∧
      entriesPoly q.terms.entries = entriesPoly p.terms.entries ∧ q.eq p = true := by
  have hl := (C03_sparse_terms p).1
  have hp := printableTerms hl hP
  obtain ⟨q, hq, hqp⟩ := (C32_sparse_sink p.orderedTermIter [] Sparse.zero).1
  have heq : entriesPoly q.terms.entries = entriesPoly p.terms.entries := by
    rw [hqp, hl.termsPoly_eq]
    have : entriesPoly (Sparse.zero : Sparse ℤ).terms.entries = 0 := by show entriesPoly [] = 0; simp [entriesPoly]
    rw [this, zero_add]
  exact ⟨_, q, displayTerms_eq chk hb hp, parse_termsText uw _ q hp hb (terms_degree_lt hl hd) hq, heq,
    (C05_sparse_eq q p).2 heq⟩

/-- C37 (Monomial): no exception is needed, the single term is the leading one. -/
theorem C37_monomial (p : Monomial ℤ) (hr : t.InRange p.coefficient)
    (hd : p.deg < 2 ^ uw) :
    ∃ str q, p.display (intFmt chk t) = .ok str ∧ Monomial.fromStr (parseInt t) uw str = .ok (.ok q) ∧
      q.poly = p.poly ∧ q.eq p = true := by
  by_cases hc : p.coefficient = 0
  · have hdisp : p.display (intFmt chk t) = .ok (termsText []) := by
      unfold Monomial.display Monomial.asTerm Term.new
      rw [if_pos (by simpa using hc)]; rfl
    have hp : PrintableTerms t [] := ⟨by simp, by simp, by simp⟩
    have hpoly : (Monomial.zero : Monomial ℤ).poly = p.poly := by
      simp [Monomial.poly, Monomial.zero, Monomial.new, hc]
    exact ⟨_, Monomial.zero, hdisp, parse_termsText uw _ _ hp hb (by simp) rfl, hpoly,
      (C05_monomial_eq _ p).2 hpoly⟩
  · have hp : PrintableTerms t [(p.coefficient, p.deg)] := ⟨by simpa using hc, by simpa using hr, by simp⟩
    have hdisp : p.display (intFmt chk t) = .ok (termsText [(p.coefficient, p.deg)]) := by
      rw [← displayTerms_eq chk hb hp]
      unfold Monomial.display Monomial.asTerm Term.new
      rw [if_neg (by simpa using hc)]
      simp [displayTerms, writeTrailingTerms]
    have hz : (Monomial.zero : Monomial ℤ).poly = 0 := by simp [Monomial.poly, Monomial.zero, Monomial.new]
    obtain ⟨q, hq, hqp⟩ := ((C29_monomial (Monomial.zero : Monomial ℤ) p.coefficient p.deg).1 (.inl hz)).1
    have hpoly : q.poly = p.poly := by rw [hqp, hz, zero_add]; rfl
    have hadd : addPoly [(p.coefficient, p.deg)] (Monomial.zero : Monomial ℤ) = (q, .ok ()) := by
      have : MutPoly.tryAddTerm (Monomial.zero : Monomial ℤ) p.coefficient p.deg = (q, .ok ()) := hq
      simp [addPoly, this]
    exact ⟨_, q, hdisp, parse_termsText uw _ q hp hb (by simpa using hd) hadd, hpoly, (C05_monomial_eq q p).2 hpoly⟩

omit hb in
theorem addPoly_bounded {S : Type} [MutPoly ℤ S] (n : Nat)
    (h : ∀ (s : S) (c : ℤ) d, d ≤ n → ∃ s', MutPoly.tryAddTerm s c d = (s', .ok ())) :
    ∀ (ts : List (ℤ × Nat)) (s : S), (∀ u ∈ ts, u.2 ≤ n) → ∃ s', addPoly ts s = (s', .ok ()) := by
  intro ts
  induction ts with
  | nil => intro s _; exact ⟨s, rfl⟩
  | cons u ts ih =>
    intro s hu
    obtain ⟨s1, h1⟩ := h s u.1 u.2 (hu u (by simp))
    obtain ⟨s2, h2⟩ := ih s1 (fun u hu' => hu u (by simp [hu']))
    exact ⟨s2, by rw [addPoly, h1]; exact h2⟩

/-- C37 (LinearBinomial), with the same exception. -/
theorem C37_binomial_partial (p : LinearBinomial ℤ) (hP : Printable t p.poly) (hu : 1 ≤ uw) :
    ∃ str q, p.display (intFmt chk t) = .ok str ∧ LinearBinomial.fromStr (parseInt t) uw str = .ok (.ok q) ∧
      q.poly = p.poly ∧ q.eq p = true := by
  have hl := (C03_binomial_terms p).1
  have hp := printableTerms hl hP
  have hdeg : p.poly.degree < ((2 : ℕ) : WithBot ℕ) := by
    unfold LinearBinomial.poly
    exact lt_of_le_of_lt degree_linear_le (by decide)
  have hd := terms_degree_lt hl hdeg
  obtain ⟨q, hq⟩ := addPoly_bounded (S := LinearBinomial ℤ) 1
    (fun s c d hd => ⟨_, (((C29_binomial s c d).1 hd).1).choose_spec.1⟩) p.orderedTermIter LinearBinomial.zero
    (fun u hu => by have := hd u hu; omega)
  have heq : q.poly = p.poly := by
    have h2 := (C32_add_poly p.orderedTermIter LinearBinomial.zero q).1 hq
    have h3 : q.poly = (LinearBinomial.zero : LinearBinomial ℤ).poly + termsPoly p.orderedTermIter := h2
    rw [h3, hl.termsPoly_eq]; simp [LinearBinomial.poly, LinearBinomial.zero, LinearBinomial.new]
  have h2 : 2 ≤ 2 ^ uw := by
    calc 2 = 2 ^ 1 := rfl
      _ ≤ 2 ^ uw := Nat.pow_le_pow_right (by norm_num) hu
  exact ⟨_, q, displayTerms_eq chk hb hp, parse_termsText uw _ q hp hb (fun u hu => by have := hd u hu; omega) hq, heq,
    (C05_binomial_eq q p).2 heq⟩

/-- C37 (QuadraticTrinomial), with the same exception. -/
theorem C37_trinomial_partial (p : QuadraticTrinomial ℤ) (hP : Printable t p.poly) (hu : 2 ≤ uw) :
    ∃ str q, p.display (intFmt chk t) = .ok str ∧
      QuadraticTrinomial.fromStr (parseInt t) uw str = .ok (.ok q) ∧ q.poly = p.poly ∧ q.eq p = true := by
  have hl := (C03_trinomial_terms p).1
  have hp := printableTerms hl hP
  have hdeg : p.poly.degree < ((3 : ℕ) : WithBot ℕ) := by
    unfold QuadraticTrinomial.poly
    exact lt_of_le_of_lt degree_quadratic_le (by decide)
  have hd := terms_degree_lt hl hdeg
  obtain ⟨q, hq⟩ := addPoly_bounded (S := QuadraticTrinomial ℤ) 2
    (fun s c d hd => ⟨_, (((C29_trinomial s c d).1 hd).1).choose_spec.1⟩) p.orderedTermIter QuadraticTrinomial.zero
    (fun u hu => by have := hd u hu; omega)
  have heq : q.poly = p.poly := by
    have h2 := (C32_add_poly p.orderedTermIter QuadraticTrinomial.zero q).1 hq
    have h3 : q.poly = (QuadraticTrinomial.zero : QuadraticTrinomial ℤ).poly + termsPoly p.orderedTermIter := h2
    rw [h3, hl.termsPoly_eq]; simp [QuadraticTrinomial.poly, QuadraticTrinomial.zero, QuadraticTrinomial.new]
  have h2 : 4 ≤ 2 ^ uw := by
    calc 4 = 2 ^ 2 := rfl
      _ ≤ 2 ^ uw := Nat.pow_le_pow_right (by norm_num) hu
  exact ⟨_, q, displayTerms_eq chk hb hp, parse_termsText uw _ q hp hb (fun u hu => by have := hd u hu; omega) hq, heq,
    (C05_trinomial_eq q p).2 heq⟩

end

/-- C37 is false as stated: a coefficient equal to `MIN` below the leading one makes `to_string` panic
in a build with overflow checks (`MIN.abs()`), and without them prints a text that `from_str` rejects. -/
theorem C37_false :
    (⟨[1, -128]⟩ : Poly ℤ).display (intFmt true ⟨true, 8⟩) = .panic ∧
    (⟨[1, -128]⟩ : Poly ℤ).display (intFmt false ⟨true, 8⟩) = .ok "x - -128".toList ∧
    Poly.fromStr (parseInt ⟨true, 8⟩) 64 "x - -128".toList = .ok (.error (.termFromString .coeffCouldNotBeParsed)) := by
  have h1 : showNat 128 = ['1', '2', '8'] := by
    rw [showNat, if_neg (by decide), showNat, if_neg (by decide), showNat, if_pos (by decide)]; rfl
  refine ⟨by decide +kernel, ?_, by decide +kernel⟩
  have h2 : showInt (-128) = ['-', '1', '2', '8'] := by
    unfold showInt; rw [if_pos (by decide)]; exact congrArg _ h1
  have h3 : (⟨[1, -128]⟩ : Poly ℤ).orderedTermIter = [(1, 1), (-128, 0)] := by decide
  unfold Poly.display
  rw [h3]
  have h4 : (intFmt false ⟨true, 8⟩).abs (-128) = .ok (-128) := by decide
  have h5 : (intFmt false ⟨true, 8⟩).shw (-128) = ['-', '1', '2', '8'] := h2
  simp only [displayTerms, writeTrailingTerms, writeTrailingTerm, h4, Res.ok_bind, h5]
  decide

/-- C37: the exception is exactly this: with overflow checks, printing any dense polynomial with an
in-range coefficient equal to `MIN` below the leading one panics. -/
theorem C37_min_panics (t : IntTy) (hs : t.signed = true) (p : Poly ℤ) (i : Nat)
    (hi : (i : WithBot ℕ) < (descPoly p.terms).degree) (hmin : (descPoly p.terms).coeff i = t.min) :
    p.display (intFmt true t) = .panic := by
  have hl := (C03_dense_terms p).1
  have hne : t.min ≠ 0 := by
    simp only [IntTy.min, hs, if_true, ne_eq, neg_eq_zero]
    positivity
  have habs : absInt true t t.min = .panic := by
    unfold absInt
    rw [if_pos hs, if_pos rfl, IntTy.checked, if_neg]
    rintro ⟨_, h⟩
    simp only [IntTy.min, IntTy.max, hs, if_true, abs_neg] at h
    rw [abs_of_nonneg (by positivity)] at h
    omega
  have htrail : ∀ d, writeTrailingTerm (intFmt true t) t.min d = .panic := by
    intro d
    unfold writeTrailingTerm
    have : (intFmt true t).abs t.min = .panic := habs
    simp only [this]
    rfl
  have hall : ∀ ts : List (Int × Nat), (t.min, i) ∈ ts → (∀ u ∈ ts, ∀ d, writeTrailingTerm (intFmt true t) u.1 d = .panic ∨
      ∃ s, writeTrailingTerm (intFmt true t) u.1 d = .ok s) → writeTrailingTerms (intFmt true t) ts = .panic := by
    intro ts
    induction ts with
    | nil => intro h; simp at h
    | cons u ts ih =>
      intro h hok
      rw [writeTrailingTerms]
      rcases hok u (by simp) u.2 with h1 | ⟨s, h1⟩
      · rw [h1]; rfl
      · rw [h1, Res.ok_bind]
        rcases List.mem_cons.1 h with rfl | h
        · rw [htrail] at h1; simp at h1
        · rw [ih h (fun u hu => hok u (by simp [hu]))]; rfl
  have htot : ∀ (v : Int) d, writeTrailingTerm (intFmt true t) v d = .panic ∨
      ∃ s, writeTrailingTerm (intFmt true t) v d = .ok s := by
    intro v d
    unfold writeTrailingTerm
    have : (intFmt true t).abs v = .panic ∨ ∃ a, (intFmt true t).abs v = .ok a := by
      show absInt true t v = .panic ∨ ∃ a, absInt true t v = .ok a
      unfold absInt IntTy.checked
      rw [if_pos hs, if_pos rfl]
      by_cases hv : t.InRange |v|
      · rw [if_pos hv]; exact .inr ⟨_, rfl⟩
      · rw [if_neg hv]; exact .inl rfl
    rcases this with h | ⟨a, h⟩
    · left; simp only [h]; rfl
    · right; simp only [h, Res.ok_bind]; split
      exacts [⟨_, rfl⟩, ⟨_, rfl⟩]
  unfold Poly.display
  have hmem : (t.min, i) ∈ p.orderedTermIter := (hl.2 _ _).2 ⟨hne, hmin⟩
  cases hts : p.orderedTermIter with
  | nil => rw [hts] at hmem; simp at hmem
  | cons u ts =>
    rw [hts] at hmem hl
    rw [displayTerms]
    have : (t.min, i) ∈ ts := by
      rcases List.mem_cons.1 hmem with h | h
      · exfalso
        have hP : descPoly p.terms ≠ 0 := by
          intro h0; rw [h0] at hi; simp at hi
        have hlead := (hl.2 ((descPoly p.terms).leadingCoeff) ((descPoly p.terms).natDegree)).2
          ⟨leadingCoeff_ne_zero.2 hP, rfl⟩
        have hlt : i < (descPoly p.terms).natDegree := by
          rw [degree_eq_natDegree hP] at hi; exact_mod_cast hi
        rcases List.mem_cons.1 hlead with h' | h'
        · rw [← h] at h'
          have := (Prod.mk.inj h').2
          omega
        · have := (List.pairwise_cons.1 hl.1).1 _ h'
          rw [← h] at this
          simp at this
          omega
      · exact h
    rw [hall ts this (fun u _ d => htot u.1 d)]
    rfl

/-- The `i8` value `-128x + 1` is `Printable` (`MIN` may lead). -/
example : Printable ⟨true, 8⟩ (descPoly [-128, 1]) ∧
    (⟨[-128, 1]⟩ : Poly ℤ).display (intFmt true ⟨true, 8⟩) = .ok "-128x + 1".toList := by
  refine ⟨?_, by decide +kernel⟩
  intro i
  have hcf : (descPoly ([-128, 1] : List ℤ)).coeff i = if i = 0 then 1 else if i = 1 then -128 else 0 := by
    rw [coeff_descPoly]
    rcases i with _ | _ | i
    · simp
    · simp
    · simp
  rw [hcf]
  refine ⟨?_, ?_⟩
  · split
    · decide
    · split <;> decide
  · intro _ hi
    have hdeg : (descPoly ([-128, 1] : List ℤ)).degree ≤ ((1 : ℕ) : WithBot ℕ) := by
      simp only [descPoly]
      simpa using degree_linear_le (a := (-128 : ℤ)) (b := 1)
    have : i < 1 := by exact_mod_cast lt_of_lt_of_le hi hdeg
    obtain rfl : i = 0 := by omega
    decide

/-! ## C38 -/

section
variable {R : Type} [CommRing R] [NumZero R] [LawfulNumZero R] (F : NumFmt R)

theorem monomial_display_eq (m : Monomial R) : m.display F = displayTerms F m.orderedTermIter := by
  unfold Monomial.display Monomial.asTerm Monomial.orderedTermIter Term.new
  by_cases h : isZero m.coefficient = true
  · simp [h, displayTerms]
  · simp [h, displayTerms, writeTrailingTerms]

/-- C38: the printed text is a function of the polynomial alone: values of any of the five types that
represent the same polynomial (trimmed or not, with stored zeros or not) print identically. -/
theorem C38_canonical (P : R[X]) :
    ∃ text : Res (List Char),
      (∀ p : Poly R, descPoly p.terms = P → p.display F = text) ∧
      (∀ p : Sparse R, entriesPoly p.terms.entries = P → p.display F = text) ∧
      (∀ p : Monomial R, p.poly = P → p.display F = text) ∧
      (∀ p : LinearBinomial R, p.poly = P → p.display F = text) ∧
      (∀ p : QuadraticTrinomial R, p.poly = P → p.display F = text) := by
  classical
  by_cases hex : ∃ ts, IsTermListOf ts P
  · obtain ⟨ts, hts⟩ := hex
    refine ⟨displayTerms F ts, ?_, ?_, ?_, ?_, ?_⟩
    · rintro p rfl
      exact congrArg _ ((C03_dense_terms p).1.unique hts)
    · rintro p rfl
      exact congrArg _ ((C03_sparse_terms p).1.unique hts)
    · rintro p rfl
      rw [monomial_display_eq]
      exact congrArg _ ((C03_monomial_terms p).1.unique hts)
    · rintro p rfl
      exact congrArg _ ((C03_binomial_terms p).1.unique hts)
    · rintro p rfl
      exact congrArg _ ((C03_trinomial_terms p).1.unique hts)
  · refine ⟨.panic, ?_, ?_, ?_, ?_, ?_⟩
    · rintro p rfl; exact absurd ⟨_, (C03_dense_terms p).1⟩ hex
    · rintro p rfl; exact absurd ⟨_, (C03_sparse_terms p).1⟩ hex
    · rintro p rfl; exact absurd ⟨_, (C03_monomial_terms p).1⟩ hex
    · rintro p rfl; exact absurd ⟨_, (C03_binomial_terms p).1⟩ hex
    · rintro p rfl; exact absurd ⟨_, (C03_trinomial_terms p).1⟩ hex

/-- C38: zero prints as `0`. -/
theorem C38_zero :
    (∀ p : Poly R, descPoly p.terms = 0 → p.display F = .ok ['0']) ∧
    (∀ p : Sparse R, entriesPoly p.terms.entries = 0 → p.display F = .ok ['0']) ∧
    (∀ p : Monomial R, p.poly = 0 → p.display F = .ok ['0']) ∧
    (∀ p : LinearBinomial R, p.poly = 0 → p.display F = .ok ['0']) ∧
    (∀ p : QuadraticTrinomial R, p.poly = 0 → p.display F = .ok ['0']) := by
  obtain ⟨text, h1, h2, h3, h4, h5⟩ := C38_canonical F (0 : R[X])
  have : text = .ok ['0'] := by rw [← h1 Poly.zero (by simp [Poly.zero])]; rfl
  subst this
  exact ⟨h1, h2, h3, h4, h5⟩

open Classical in
/-- The display of an integral: the display of its polynomial followed by ` + C`, or `C` when that is
zero (src/polynomial/integral.rs). -/
theorem C38_integral (i : Integral (Poly R)) :
    i.display (fun p => p.degree.isZeroPoly) (Poly.display F) =
      if descPoly i.polynomial.terms = 0 then .ok ['C']
      else (i.polynomial.display F >>= fun s => .ok (s ++ " + C".toList)) := by
  classical
  unfold Integral.display
  have hz : (i.polynomial.degree.isZeroPoly = true) ↔ descPoly i.polynomial.terms = 0 := by
    unfold Degree.isZeroPoly
    rw [decide_eq_true_iff]
    have := C02_dense_degree i.polynomial
    constructor
    · intro h
      rw [h] at this
      have h' : (descPoly i.polynomial.terms).degree = ⊥ := this.symm
      exact degree_eq_bot.1 h'
    · intro h
      rw [h, degree_zero] at this
      cases hd : i.polynomial.degree with
      | negInf => rfl
      | num n => rw [hd] at this; exact absurd this (by simp [Degree.toWithBot])
  by_cases h : descPoly i.polynomial.terms = 0
  · rw [if_pos (hz.2 h), if_pos h]
  · rw [if_neg (fun h' => h (hz.1 h')), if_neg h]
    rfl

end

theorem termsText_injective (t : IntTy) (hb : 1 ≤ t.bits) (P Q : ℤ[X]) (hP : Printable t P)
    (hQ : Printable t Q) (ts us : List (ℤ × Nat)) (hts : IsTermListOf ts P) (hus : IsTermListOf us Q)
    (h' : termsText ts = termsText us) : P = Q := by
  have hp := printableTerms hts hP
  have hq := printableTerms hus hQ
  obtain ⟨p, hp1, hp2⟩ := (C32_dense_sink ts [] (Poly.zero : Poly ℤ)).1
  obtain ⟨q, hq1, hq2⟩ := (C32_dense_sink us [] (Poly.zero : Poly ℤ)).1
  have mono : ∀ (P : ℤ[X]) (n : Nat), P.natDegree < n → P.degree < ((2 ^ n : ℕ) : WithBot ℕ) := by
    intro P n hn
    refine lt_of_le_of_lt degree_le_natDegree ?_
    exact_mod_cast lt_of_lt_of_le hn (Nat.lt_two_pow_self).le
  have e1 := parse_termsText (P.natDegree + Q.natDegree + 1) Poly.zero p hp hb
    (terms_degree_lt hts (mono P _ (by omega))) hp1
  have e2 := parse_termsText (P.natDegree + Q.natDegree + 1) Poly.zero q hq hb
    (terms_degree_lt hus (mono Q _ (by omega))) hq1
  rw [h', e2] at e1
  have hpq : q = p := by simpa using e1
  rw [← hts.termsPoly_eq, ← hus.termsPoly_eq]
  rw [hpq] at hq2
  exact add_left_cancel (hp2.symm.trans hq2)

/-- The text with every `- -` replaced by `- `. -/
def squash : List Char → List Char
  | '-' :: ' ' :: '-' :: r => '-' :: ' ' :: squash r
  | c :: r => c :: squash r
  | [] => []

theorem squash_cons {c : Char} {r : List Char} (h : c ≠ '-' ∨ r.head? ≠ some ' ' ∨ r.tail.head? ≠ some '-') :
    squash (c :: r) = c :: squash r := by
  rw [squash]
  rintro r' rfl rfl
  simp at h

theorem squash_body (b : List Char) (h : ∀ c ∈ b, c ≠ '-') (r : List Char) : squash (b ++ r) = b ++ squash r := by
  induction b with
  | nil => rfl
  | cons c b ih =>
    rw [List.cons_append, squash_cons (.inl (h c (by simp))), ih (fun c hc => h c (by simp [hc])), List.cons_append]

theorem body_not_minus (n d : Nat) : ∀ c ∈ coefPart n d ++ degPart d, c ≠ '-' := fun c hc h =>
  body_not_sign n d c hc (.inr h)

theorem body_not_blank (n d : Nat) : ∀ c ∈ coefPart n d ++ degPart d, c ≠ ' ' := by
  rintro c hc rfl
  have := body_not_white n d ' ' hc
  revert this; decide

theorem squash_trail (v : Int) (d : Nat) (r : List Char) :
    squash (' ' :: trailText v d ++ r) = ' ' :: trailText v d ++ squash r := by
  unfold trailText
  rw [List.cons_append, squash_cons (.inl (by decide)), List.cons_append, squash_cons, List.cons_append,
    squash_cons (.inl (by decide)), squash_body _ (body_not_minus _ _)]
  · rfl
  · cases hb : coefPart v.natAbs d ++ degPart d with
    | nil => exact absurd hb (body_ne_nil _ _)
    | cons c b =>
      have := body_not_minus v.natAbs d c (by rw [hb]; simp)
      simp [this]

theorem squash_lead (v : Int) (d : Nat) (r : List Char) :
    squash (leadSign v ++ coefPart v.natAbs d ++ degPart d ++ r) =
      leadSign v ++ coefPart v.natAbs d ++ degPart d ++ squash r := by
  unfold leadSign
  split
  · rw [List.append_assoc ['-'], List.append_assoc, List.singleton_append, squash_cons,
      squash_body _ (body_not_minus _ _)]
    · simp
    · cases hb : coefPart v.natAbs d ++ degPart d with
      | nil => exact absurd hb (body_ne_nil _ _)
      | cons c b =>
        have := body_not_blank v.natAbs d c (by rw [hb]; simp)
        simp [this]
  · rw [List.nil_append, squash_body _ (body_not_minus _ _)]

/-- Whatever the build mode, a trailing term is printed as it should be except that `MIN` is printed
with a second sign (or not at all, when printing panics). -/
theorem squash_writeTrailing (chk : Bool) {t : IntTy} (hb : 2 ≤ t.bits) {v : Int} (h : t.InRange v) (d : Nat)
    (s : List Char) (hs : writeTrailingTerm (intFmt chk t) v d = .ok s) (r : List Char) :
    squash (s ++ r) = ' ' :: trailText v d ++ squash r := by
  by_cases hm : t.signed = true ∧ v = t.min
  · obtain ⟨hsg, rfl⟩ := hm
    have h2 : (2 : Int) ≤ 2 ^ (t.bits - 1) := by
      calc (2 : Int) = 2 ^ 1 := by norm_num
        _ ≤ 2 ^ (t.bits - 1) := pow_le_pow_right₀ (by norm_num) (by omega)
    have hmin : t.min = -2 ^ (t.bits - 1) := by simp [IntTy.min, hsg]
    have habsv : |t.min| = 2 ^ (t.bits - 1) := by rw [hmin, abs_neg, abs_of_nonneg (by positivity)]
    have hnr : ¬ t.InRange |t.min| := by
      rintro ⟨_, h⟩
      simp only [IntTy.max, hsg, if_true] at h
      omega
    cases chk with
    | true =>
      exfalso
      have : (intFmt true t).abs t.min = .panic := by
        show absInt true t t.min = _
        unfold absInt
        rw [if_pos hsg, if_pos rfl, IntTy.checked, if_neg hnr]
      unfold writeTrailingTerm at hs
      simp only [this] at hs
      have hs' : (Res.panic : Res (List Char)) = .ok s := hs
      simp at hs'
    | false =>
      have hw : t.wrap |t.min| = t.min := by
        have hwr : t.wrap t.min = t.min := t.wrap_of_inRange (by omega) _ h
        have hcong : |t.min| = t.min + 2 ^ t.bits := by
          rw [habsv, hmin]
          have : (2 : Int) ^ t.bits = 2 * 2 ^ (t.bits - 1) := by
            rw [← pow_succ']; congr 1; omega
          omega
        rw [hcong]
        unfold IntTy.wrap at hwr ⊢
        rw [if_pos hsg] at hwr ⊢
        rw [show (2 : Int) ^ t.bits = ((2 ^ t.bits : Nat) : Int) by push_cast; rfl, Int.add_bmod_right]
        exact hwr
      have habs : (intFmt false t).abs t.min = .ok t.min := by
        show absInt false t t.min = _
        unfold absInt
        rw [if_pos hsg, if_neg (by simp), hw]
      have hone : (intFmt false t).isOne t.min = false := by
        show decide (t.min = 1) = false
        rw [decide_eq_false_iff_not]; omega
      have hsh : (intFmt false t).shw t.min = '-' :: showNat t.min.natAbs := by
        show showInt t.min = _
        unfold showInt; rw [if_pos (by omega)]
      have hps : (intFmt false t).isPositive t.min = false := by
        show isPositiveInt t.min = false
        unfold isPositiveInt
        rw [decide_eq_false_iff_not]; omega
      have hn1 : t.min.natAbs ≠ 1 := by omega
      have hs' : s = ' ' :: '-' :: ' ' :: '-' :: (coefPart t.min.natAbs d ++ degPart d) := by
        unfold writeTrailingTerm at hs
        simp only [habs, Res.ok_bind, hone, hsh, hps] at hs
        unfold coefPart degPart
        by_cases hd : d = 0
        · simpa [hd] using hs.symm
        · simpa [hd, hn1] using hs.symm
      have htr : trailText t.min d = '-' :: ' ' :: (coefPart t.min.natAbs d ++ degPart d) := by
        unfold trailText trailSign
        rw [if_neg (by omega)]
      rw [hs', htr, List.cons_append, squash_cons (.inl (by decide))]
      simp only [List.cons_append]
      rw [squash, squash_body _ (body_not_minus _ _)]
  · have := writeTrailing_eq chk (by omega) h (fun h1 h2 => hm ⟨h1, h2⟩) d
    rw [this] at hs
    rw [← Res.ok.inj hs, squash_trail]

theorem squash_display (chk : Bool) {t : IntTy} (hb : 2 ≤ t.bits) {ts : List (Int × Nat)}
    (hr : ∀ u ∈ ts, t.InRange u.1) (s : List Char) (hs : displayTerms (intFmt chk t) ts = .ok s) :
    squash s = termsText ts := by
  have htr : ∀ ts : List (Int × Nat), (∀ u ∈ ts, t.InRange u.1) → ∀ s,
      writeTrailingTerms (intFmt chk t) ts = .ok s →
      squash s = ((ts.map fun u => trailText u.1 u.2).map (' ' :: ·)).flatten := by
    intro ts
    induction ts with
    | nil => intro _ s hs; simp [writeTrailingTerms] at hs; subst hs; rfl
    | cons u ts ih =>
      intro hr s hs
      rw [writeTrailingTerms, Res.bind_eq_ok] at hs
      obtain ⟨a, ha, hs⟩ := hs
      rw [Res.bind_eq_ok] at hs
      obtain ⟨b, hb', hs⟩ := hs
      obtain rfl : a ++ b = s := Res.ok.inj hs
      rw [squash_writeTrailing chk hb (hr u (by simp)) u.2 a ha, ih (fun u hu => hr u (by simp [hu])) b hb']
      simp
  cases ts with
  | nil =>
    have : s = ['0'] := (Res.ok.inj hs).symm
    subst this; rfl
  | cons u ts =>
    rw [displayTerms, Res.bind_eq_ok] at hs
    obtain ⟨b, hb', hs⟩ := hs
    rw [writeLeading_eq chk (hr u (by simp))] at hs
    have := Res.ok.inj hs
    rw [← this, squash_lead, htr ts (fun u hu => hr u (by simp [hu])) b hb']
    rfl

theorem displayTerms_injective (chk : Bool) (t : IntTy) (hb : 2 ≤ t.bits) (P Q : ℤ[X])
    (hP : ∀ i, t.InRange (P.coeff i)) (hQ : ∀ i, t.InRange (Q.coeff i)) (ts us : List (ℤ × Nat))
    (hts : IsTermListOf ts P) (hus : IsTermListOf us Q) (s : List Char)
    (h1 : displayTerms (intFmt chk t) ts = .ok s) (h2 : displayTerms (intFmt chk t) us = .ok s) : P = Q := by
  have wide : ∀ P : ℤ[X], (∀ i, t.InRange (P.coeff i)) → Printable ⟨true, t.bits + 2⟩ P := by
    intro P hP i
    obtain ⟨ha, hc⟩ := hP i
    have e1 : (2 : Int) ^ (t.bits + 2 - 1) = 2 * 2 ^ t.bits := by
      rw [← pow_succ']; congr 1
    have e2 : (2 : Int) ^ t.bits = 2 * 2 ^ (t.bits - 1) := by
      rw [← pow_succ']; congr 1; omega
    have e3 : (0 : Int) < 2 ^ (t.bits - 1) := by positivity
    have hmin : -2 ^ t.bits ≤ t.min := by
      unfold IntTy.min; split <;> omega
    have hmax : t.max ≤ 2 ^ t.bits := by
      unfold IntTy.max; split <;> omega
    refine ⟨⟨?_, ?_⟩, fun _ _ => ?_⟩
    · show (⟨true, t.bits + 2⟩ : IntTy).min ≤ _
      simp only [IntTy.min, if_true]
      omega
    · show _ ≤ (⟨true, t.bits + 2⟩ : IntTy).max
      simp only [IntTy.max, if_true]
      omega
    · simp only [IntTy.min, if_true]
      omega
  have hrt : ∀ u ∈ ts, t.InRange u.1 := fun u hu => ((hts.2 u.1 u.2).1 hu).2 ▸ hP u.2
  have hru : ∀ u ∈ us, t.InRange u.1 := fun u hu => ((hus.2 u.1 u.2).1 hu).2 ▸ hQ u.2
  refine termsText_injective ⟨true, t.bits + 2⟩ (by simp) P Q (wide P hP) (wide Q hQ) ts us hts hus ?_
  rw [← squash_display chk hb hrt s h1, ← squash_display chk hb hru s h2]

/-- `p` is a value of one of the five types representing `P` and printing as `text`. -/
inductive PrintsAs (F : NumFmt ℤ) (P : ℤ[X]) (text : Res (List Char)) : Prop
  | dense (p : Poly ℤ) (h : descPoly p.terms = P) (hd : p.display F = text)
  | sparse (p : Sparse ℤ) (h : entriesPoly p.terms.entries = P) (hd : p.display F = text)
  | monomial (p : Monomial ℤ) (h : p.poly = P) (hd : p.display F = text)
  | binomial (p : LinearBinomial ℤ) (h : p.poly = P) (hd : p.display F = text)
  | trinomial (p : QuadraticTrinomial ℤ) (h : p.poly = P) (hd : p.display F = text)

/-- C38: values of any two of the five types, of any integer type of at least two bits, in either build
mode, that print the same text represent the same polynomial: unequal polynomials print differently. -/
theorem C38_injective (chk : Bool) (t : IntTy) (hb : 2 ≤ t.bits) (P Q : ℤ[X])
    (hP : ∀ i, t.InRange (P.coeff i)) (hQ : ∀ i, t.InRange (Q.coeff i)) (s : List Char)
    (h1 : PrintsAs (intFmt chk t) P (.ok s)) (h2 : PrintsAs (intFmt chk t) Q (.ok s)) : P = Q := by
  have key : ∀ P : ℤ[X], PrintsAs (intFmt chk t) P (.ok s) →
      ∃ ts, IsTermListOf ts P ∧ displayTerms (intFmt chk t) ts = .ok s := by
    intro P h
    cases h with
    | dense p h hd => exact ⟨_, h ▸ (C03_dense_terms p).1, hd⟩
    | sparse p h hd => exact ⟨_, h ▸ (C03_sparse_terms p).1, hd⟩
    | monomial p h hd => exact ⟨_, h ▸ (C03_monomial_terms p).1, by rw [← monomial_display_eq]; exact hd⟩
    | binomial p h hd => exact ⟨_, h ▸ (C03_binomial_terms p).1, hd⟩
    | trinomial p h hd => exact ⟨_, h ▸ (C03_trinomial_terms p).1, hd⟩
  obtain ⟨ts, hts, e1⟩ := key P h1
  obtain ⟨us, hus, e2⟩ := key Q h2
  exact displayTerms_injective chk t hb P Q hP hQ ts us hts hus s e1 e2

/-- Non-vacuity: `-3x^2 + x - 128` as `i8` without overflow checks does print. -/
example : PrintsAs (intFmt false ⟨true, 8⟩) (descPoly [-3, 1, -128]) (.ok "-3x^2 + x - -128".toList) :=
  .dense ⟨[-3, 1, -128]⟩ rfl (by decide +kernel)

end Rustnomial
