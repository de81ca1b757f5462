import Verif.SpecCalc
import Verif.Props.Expr
import Verif.Props.MachineText
import Verif.Props.DisplayMin

/-!
# C121: programs from text to text
-/

open Polynomial

set_option linter.unusedSectionVars false

namespace Rustnomial

/-- The program does what the outcome says. -/
def Matches {V : Type} (rel : V → ℤ[X] → Prop) (o : Outcome) (x : Res (Except PolynomialFromStringError V)) : Prop :=
  match o with
  | .value P => ∃ r, x = .ok (.ok r) ∧ rel r P
  | .refused e => x = .ok (.error e)
  | .panics => x = .panic

theorem Matches.andThen {V W : Type} {rel : V → ℤ[X] → Prop} {rel' : W → ℤ[X] → Prop} {o : Outcome}
    {x : Res (Except PolynomialFromStringError V)} (h : Matches rel o x) {f : ℤ[X] → Outcome}
    {g : V → Res (Except PolynomialFromStringError W)} (hg : ∀ r P, rel r P → Matches rel' (f P) (g r)) :
    Matches rel' (o.andThen f) (x.try g) := by
  cases o with
  | value P => obtain ⟨r, rfl, hr⟩ := h; exact hg r P hr
  | refused e => rw [show x = .ok (.error e) from h]; rfl
  | panics => rw [show x = .panic from h]; rfl

theorem StepIs.matches {V : Type} {rel : V → ℤ[X] → Prop} {ok : Prop} {P : ℤ[X]} {x : Res V} (h : StepIs rel ok P x) :
    Matches rel (.when ok P) x.lift := by
  unfold Outcome.when
  split
  · rename_i hk
    obtain ⟨r, rfl, hr⟩ := h.1 hk
    exact ⟨r, rfl, hr⟩
  · rename_i hk
    rw [h.2 hk]; rfl

theorem StepIs.matches_true {V : Type} {rel : V → ℤ[X] → Prop} {P : ℤ[X]} {x : Res V} (h : StepIs rel True P x) :
    Matches rel (.value P) x.lift := by
  obtain ⟨r, rfl, hr⟩ := h.1 trivial
  exact ⟨r, rfl, hr⟩

section
variable {V : Type} {o : ROps V ℤ} {rel : V → ℤ[X] → Prop} {num : ℤ → Prop} {resOk : ℤ[X] → Prop} {mulOk : ℤ[X] → ℤ[X] → Prop}
  {powOk : ℤ[X] → Nat → Prop} {parse : List Char → Res (Except PolynomialFromStringError V)} {reads : List Char → Outcome → Prop}

theorem Calc.run_matches (K : Computes o rel num resOk mulOk powOk) (hr : ∀ s u, reads s u → Matches rel u (parse s)) :
    ∀ (c : Calc ℤ), c.Factors num → ∀ u, c.Yields reads resOk mulOk powOk u → Matches rel u (c.run o parse)
  | .text s, _, u, hu => hr s u hu
  | .neg a, h, _, ⟨u, hu, e⟩ => e ▸ (run_matches K hr a h u hu).andThen fun r P hr => (K.neg r P hr).matches
  | .add a b, h, _, ⟨u, v, hu, hv, e⟩ => e ▸ (run_matches K hr a h.1 u hu).andThen fun r P h1 =>
      (run_matches K hr b h.2 v hv).andThen fun s Q h2 => (K.add r P s Q h1 h2).matches
  | .sub a b, h, _, ⟨u, v, hu, hv, e⟩ => e ▸ (run_matches K hr a h.1 u hu).andThen fun r P h1 =>
      (run_matches K hr b h.2 v hv).andThen fun s Q h2 => (K.sub r P s Q h1 h2).matches
  | .mul a b, h, _, ⟨u, v, hu, hv, e⟩ => e ▸ (run_matches K hr a h.1 u hu).andThen fun r P h1 =>
      (run_matches K hr b h.2 v hv).andThen fun s Q h2 => (K.mul r P s Q h1 h2).matches
  | .pow a n, h, _, ⟨u, hu, e⟩ => e ▸ (run_matches K hr a h u hu).andThen fun r P h1 => (K.pow r P n h1).matches
  | .scale a c, h, _, ⟨u, hu, e⟩ => e ▸ (run_matches K hr a h.1 u hu).andThen fun r P h1 => (K.scale r P c h.2 h1).matches
  | .shl a k, h, _, ⟨u, hu, e⟩ => e ▸ (run_matches K hr a h u hu).andThen fun r P h1 => (K.shl r P k h1).matches_true

theorem Calc.yields_exists (hr : ∀ s, ∃! u, reads s u) : ∀ c : Calc ℤ, ∃! u, c.Yields reads resOk mulOk powOk u := by
  intro c
  induction c with
  | text s => exact hr s
  | neg a ih => obtain ⟨u, hu, h⟩ := ih; exact ⟨_, ⟨u, hu, rfl⟩, fun _ ⟨u', hu', e⟩ => by rw [e, h u' hu']⟩
  | add a b iha ihb =>
    obtain ⟨u, hu, h⟩ := iha; obtain ⟨v, hv, h'⟩ := ihb
    exact ⟨_, ⟨u, v, hu, hv, rfl⟩, fun _ ⟨u', v', hu', hv', e⟩ => by rw [e, h u' hu', h' v' hv']⟩
  | sub a b iha ihb =>
    obtain ⟨u, hu, h⟩ := iha; obtain ⟨v, hv, h'⟩ := ihb
    exact ⟨_, ⟨u, v, hu, hv, rfl⟩, fun _ ⟨u', v', hu', hv', e⟩ => by rw [e, h u' hu', h' v' hv']⟩
  | mul a b iha ihb =>
    obtain ⟨u, hu, h⟩ := iha; obtain ⟨v, hv, h'⟩ := ihb
    exact ⟨_, ⟨u, v, hu, hv, rfl⟩, fun _ ⟨u', v', hu', hv', e⟩ => by rw [e, h u' hu', h' v' hv']⟩
  | pow a n ih => obtain ⟨u, hu, h⟩ := ih; exact ⟨_, ⟨u, hu, rfl⟩, fun _ ⟨u', hu', e⟩ => by rw [e, h u' hu']⟩
  | scale a c ih => obtain ⟨u, hu, h⟩ := ih; exact ⟨_, ⟨u, hu, rfl⟩, fun _ ⟨u', hu', e⟩ => by rw [e, h u' hu']⟩
  | shl a k ih => obtain ⟨u, hu, h⟩ := ih; exact ⟨_, ⟨u, hu, rfl⟩, fun _ ⟨u', hu', e⟩ => by rw [e, h u' hu']⟩

end

/-! ## Reading -/

section
variable (t : IntTy) (w cap : Nat)

/-- Either all tokens are terms or there is a first that is none. -/
theorem first_bad (f : List Char → Except TermFromStringError (Term ℤ)) (ts : List (List Char)) :
    (∃ terms : List (Term ℤ), ts.map f = terms.map .ok) ∨
    ∃ pre bad post err, ∃ terms : List (Term ℤ), ts = pre ++ bad :: post ∧ pre.map f = terms.map .ok ∧ f bad = .error err := by
  induction ts with
  | nil => exact .inl ⟨[], rfl⟩
  | cons x ts ih =>
    cases hx : f x with
    | error e => exact .inr ⟨[], x, ts, e, [], rfl, rfl, hx⟩
    | ok v =>
      rcases ih with ⟨terms, h⟩ | ⟨pre, bad, post, err, terms, h1, h2, h3⟩
      · exact .inl ⟨v :: terms, by simp [hx, h]⟩
      · exact .inr ⟨x :: pre, bad, post, err, v :: terms, by simp [h1], by simp [hx, h2], h3⟩

theorem reads_exists (fits : List (List Char) → Prop) (s : List Char) : ∃ u, Reads t w fits s u := by
  obtain ⟨ts, h, -⟩ := C34_tokenizer s
  by_cases hf : fits ts
  · by_cases hs : s = []
    · exact ⟨.refused .noTermsFound, ts, h, hf, .inl ⟨hs, rfl⟩⟩
    rcases first_bad (Term.fromStr (parseInt t) w) ts with ⟨terms, h1⟩ | ⟨pre, bad, post, err, terms, h1, h2, h3⟩
    · exact ⟨.value _, ts, terms, h, hf, hs, h1, rfl⟩
    · exact ⟨.refused _, ts, h, hf, .inr ⟨pre, bad, post, err, terms, h1, h2, h3, rfl⟩⟩
  · exact ⟨.panics, ts, h, hf⟩

theorem fits_inRange {room : Nat → Prop} {ts : List (List Char)} (h : TextFits t w (fun _ => True) room ts) {terms : List (Term ℤ)}
    (h1 : ts.map (Term.fromStr (parseInt t) w) = terms.map .ok) (n : Nat) : t.InRange ((terms.map Term.poly).sum.coeff n) :=
  (h ts (List.prefix_refl _) terms h1 trivial).2 n

theorem reads_dense (hcap : cap < 2 ^ w) (h1 : t.InRange 1) (s : List Char) (u : Outcome) (hu : Reads t w (TextFits t w (fun _ => True) (· < cap)) s u) :
    Matches (fun (r : Poly Int) P => descPoly r.terms = P ∧ AllIn t r.terms) u (Poly.fromStrM (.machine true t w cap) t s) := by
  cases u with
  | value P =>
    obtain ⟨ts, terms, h, hf, hs, h2, rfl⟩ := hu
    obtain ⟨r, h3, h4, -⟩ := C102_parse_dense t w cap hcap h1 s ts h
    obtain ⟨q, h5, h6⟩ := (C39_sum (parseInt t) w s ts terms h hs h2).1
    rw [h3] at h5; cases h5
    exact ⟨q, h4 hf, h6, (allIn_iff t _).2 fun n => by rw [h6]; exact fits_inRange t w hf h2 n⟩
  | refused e =>
    obtain ⟨ts, h, hf, hu⟩ := hu
    obtain ⟨r, h3, h4, -⟩ := C102_parse_dense t w cap hcap h1 s ts h
    rw [show Matches _ _ _ ↔ Poly.fromStrM (.machine true t w cap) t s = .ok (.error e) from Iff.rfl, h4 hf]
    rcases hu with ⟨hs, rfl⟩ | ⟨pre, bad, post, err, terms, rfl, h5, h6, rfl⟩
    · have := (C39_empty (Poly.zero : Poly ℤ) (parseInt t) w s).2 hs
      rw [show polyFromStr Poly.zero (parseInt t) w s = Poly.fromStr (parseInt t) w s from rfl, h3] at this
      exact this
    · rw [← h3]; exact (C39_first_error (parseInt t) w s pre bad post terms err h h5 h6).1
  | panics =>
    obtain ⟨ts, h, hf⟩ := hu
    obtain ⟨r, -, -, h4⟩ := C102_parse_dense t w cap hcap h1 s ts h
    exact h4 hf

theorem reads_sparse (h1 : t.InRange 1) (s : List Char) (u : Outcome) (hu : Reads t w (TextFits t w (fun _ => True) fun _ => True) s u) :
    Matches (fun (r : Sparse Int) P => entriesPoly r.terms.entries = P ∧ ∀ c ∈ r.terms.entries, t.InRange c.2) u
      (Sparse.fromStrM (.machine true t w cap) t s) := by
  cases u with
  | value P =>
    obtain ⟨ts, terms, h, hf, hs, h2, rfl⟩ := hu
    obtain ⟨r, h3, h4, -⟩ := C102_parse_sparse t w cap h1 s ts h
    obtain ⟨q, h5, h6⟩ := (C39_sum (parseInt t) w s ts terms h hs h2).2
    rw [h3] at h5; cases h5
    exact ⟨q, h4 hf, h6, (inRange_mapPoly t _).2 fun n => by
      show t.InRange ((entriesPoly q.terms.entries).coeff n); rw [h6]; exact fits_inRange t w hf h2 n⟩
  | refused e =>
    obtain ⟨ts, h, hf, hu⟩ := hu
    obtain ⟨r, h3, h4, -⟩ := C102_parse_sparse t w cap h1 s ts h
    rw [show Matches _ _ _ ↔ Sparse.fromStrM (.machine true t w cap) t s = .ok (.error e) from Iff.rfl, h4 hf]
    rcases hu with ⟨hs, rfl⟩ | ⟨pre, bad, post, err, terms, rfl, h5, h6, rfl⟩
    · have := (C39_empty (Sparse.zero : Sparse ℤ) (parseInt t) w s).2 hs
      rw [show polyFromStr Sparse.zero (parseInt t) w s = Sparse.fromStr (parseInt t) w s from rfl, h3] at this
      exact this
    · rw [← h3]; exact (C39_first_error (parseInt t) w s pre bad post terms err h h5 h6).2
  | panics =>
    obtain ⟨ts, h, hf⟩ := hu
    obtain ⟨r, -, -, h4⟩ := C102_parse_sparse t w cap h1 s ts h
    exact h4 hf

/-- All tokens are terms with sum `P`, or the first that is none has the error `e`, whatever the room. -/
theorem reads_agree {fits fits' : List (List Char) → Prop} {s : List Char} {u v : Outcome} (hu : Reads t w fits s u) (hv : Reads t w fits' s v)
    (h1 : u ≠ .panics) (h2 : v ≠ .panics) : u = v := by
  have key : ∀ {fits u}, Reads t w fits s u → u ≠ .panics →
      Matches (fun (r : Sparse Int) P => entriesPoly r.terms.entries = P) u (Sparse.fromStr (parseInt t) w s) := by
    intro fits u hu hne
    cases u with
    | value P =>
      obtain ⟨ts, terms, h, hf, hs, h2, rfl⟩ := hu
      exact (C39_sum (parseInt t) w s ts terms h hs h2).2
    | refused e =>
      obtain ⟨ts, h, hf, hu⟩ := hu
      rcases hu with ⟨hs, rfl⟩ | ⟨pre, bad, post, err, terms, rfl, h5, h6, rfl⟩
      · exact (C39_empty (Sparse.zero : Sparse ℤ) (parseInt t) w s).2 hs
      · exact (C39_first_error (parseInt t) w s pre bad post terms err h h5 h6).2
    | panics => exact absurd rfl hne
  have a := key hu h1
  have b := key hv h2
  cases u with
  | value P =>
    obtain ⟨r, e, rfl⟩ := a
    cases v with
    | value Q => obtain ⟨r', e', rfl⟩ := b; rw [e] at e'; cases e'; rfl
    | refused e' => rw [show Sparse.fromStr (parseInt t) w s = .ok (.error e') from b] at e; cases e
    | panics => exact absurd rfl h2
  | refused e =>
    have a : Sparse.fromStr (parseInt t) w s = .ok (.error e) := a
    cases v with
    | value Q => obtain ⟨r', e', rfl⟩ := b; rw [a] at e'; cases e'
    | refused e' => rw [show Sparse.fromStr (parseInt t) w s = .ok (.error e') from b] at a; cases a; rfl
    | panics => exact absurd rfl h2
  | panics => exact absurd rfl h1

theorem reads_unique (fits : List (List Char) → Prop) (s : List Char) : ∃! u, Reads t w fits s u := by
  obtain ⟨u, hu⟩ := reads_exists t w fits s
  refine ⟨u, hu, fun v hv => ?_⟩
  by_cases h1 : u = .panics
  · by_cases h2 : v = .panics
    · rw [h1, h2]
    · exfalso
      rw [h1] at hu
      obtain ⟨ts, h, hf⟩ := hu
      cases v with
      | value P => obtain ⟨ts', _, h', hf', _⟩ := hv; exact hf (C34_unique s ts ts' h h' ▸ hf')
      | refused e => obtain ⟨ts', h', hf', _⟩ := hv; exact hf (C34_unique s ts ts' h h' ▸ hf')
      | panics => exact h2 rfl
  · by_cases h2 : v = .panics
    · exfalso
      rw [h2] at hv
      obtain ⟨ts, h, hf⟩ := hv
      cases u with
      | value P => obtain ⟨ts', _, h', hf', _⟩ := hu; exact hf (C34_unique s ts ts' h h' ▸ hf')
      | refused e => obtain ⟨ts', h', hf', _⟩ := hu; exact hf (C34_unique s ts ts' h h' ▸ hf')
      | panics => exact h1 rfl
    · exact reads_agree t w hv hu h2 h1

/-! ## Printing -/

theorem not_printable {P : ℤ[X]} (hr : ∀ i, t.InRange (P.coeff i)) (h : ¬ Printable t P) :
    t.signed = true ∧ ∃ i : Nat, (i : WithBot ℕ) < P.degree ∧ P.coeff i = t.min := by
  unfold Printable at h
  push Not at h
  obtain ⟨i, h⟩ := h
  obtain ⟨h1, h2, h3⟩ := h (hr i)
  exact ⟨h1, i, h2, h3⟩

theorem display_dense (hb : 1 ≤ t.bits) (p : Poly Int) (hr : ∀ i, t.InRange ((descPoly p.terms).coeff i)) :
    (Printable t (descPoly p.terms) → ∃ str, p.display (intFmt true t) = .ok str) ∧
    (¬ Printable t (descPoly p.terms) → p.display (intFmt true t) = .panic) := by
  constructor
  · intro h
    exact ⟨_, displayTerms_eq true hb (printableTerms (C03_dense_terms p).1 h)⟩
  · intro h
    obtain ⟨h1, i, h2, h3⟩ := not_printable t hr h
    exact C37_min_panics t h1 p i h2 h3

theorem display_sparse_eq (p : Poly Int) (q : Sparse Int) (h : entriesPoly q.terms.entries = descPoly p.terms) (F : NumFmt ℤ) :
    q.display F = p.display F := by
  obtain ⟨text, h1, h2, -⟩ := C38_canonical F (descPoly p.terms)
  rw [h1 p rfl, h2 q h]

theorem display_sparse (hb : 1 ≤ t.bits) (q : Sparse Int) (hr : ∀ i, t.InRange ((entriesPoly q.terms.entries).coeff i)) :
    (Printable t (entriesPoly q.terms.entries) → ∃ str, q.display (intFmt true t) = .ok str) ∧
    (¬ Printable t (entriesPoly q.terms.entries) → q.display (intFmt true t) = .panic) := by
  have hs : entriesPoly q.terms.entries = descPoly (Poly.fromTerms q.orderedTermIter).terms := by
    rw [C31_dense_from_terms, C03_sparse_terms_sum]
  rw [display_sparse_eq _ q hs, hs]
  rw [hs] at hr
  exact display_dense t hb _ hr

/-! ## The programs -/

/-- What a program comes to with `Polynomial`s over `t`, with overflow checks, `usize` of `w` bits and vectors of at most `cap` coefficients:
results of sums, differences and multiples have to fit, products and powers as in C56 and C80, and zero times zero is impossible. -/
def DenseOutcome (c : Calc ℤ) (u : Outcome) : Prop :=
  c.Yields (Reads t w (TextFits t w (fun _ => True) (· < cap))) (fun P => ∀ d, t.InRange (P.coeff d)) (MulFitsDown t)
    (fun P n => (P ≠ 0 ∨ n ≤ 1) ∧ PowFits (MulFitsDesc t) P n) u

/-- The same with `SparsePolynomial`s: any degree has room, products and powers as in C76 and C80. -/
def SparseOutcome (c : Calc ℤ) (u : Outcome) : Prop :=
  c.Yields (Reads t w (TextFits t w (fun _ => True) fun _ => True)) (fun P => ∀ d, t.InRange (P.coeff d)) (MulFitsUp t) (PowFits (MulFitsAsc t)) u

/-- C121: every program comes to exactly one outcome. -/
theorem C121_outcome (c : Calc ℤ) : (∃! u, DenseOutcome t w cap c u) ∧ ∃! u, SparseOutcome t w c u :=
  ⟨Calc.yields_exists (reads_unique t w _) c, Calc.yields_exists (reads_unique t w _) c⟩

/-- C121 (Polynomial): with overflow checks the whole program ends with the error of the first text refused, panics at the first step that
is impossible or when the result cannot be printed, and otherwise prints a text from which the polynomial can be read again. -/
theorem C121_dense_program (hb : 1 ≤ t.bits) (h1 : t.InRange 1) (hcap : cap < 2 ^ w) (c : Calc ℤ) (hc : c.Factors t.InRange) :
    (∀ e, DenseOutcome t w cap c (.refused e) → c.denseProgram true t w cap = .ok (.error e)) ∧
    (DenseOutcome t w cap c .panics → c.denseProgram true t w cap = .panic) ∧
    (∀ P, DenseOutcome t w cap c (.value P) →
      (¬ Printable t P → c.denseProgram true t w cap = .panic) ∧
      (Printable t P → ∃ str, c.denseProgram true t w cap = .ok (.ok str) ∧ PrintsAs (intFmt true t) P (.ok str) ∧
        (P.degree < (cap : WithBot ℕ) →
          ∃ q, Poly.fromStrM (.machine true t w cap) t str = .ok (.ok q) ∧ descPoly q.terms = P))) := by
  have key := Calc.run_matches (computes_dense_checked t hb h1) (reads_dense t w cap hcap h1) c hc
  refine ⟨fun e h => ?_, fun h => ?_, fun P h => ?_⟩
  · have : c.run _ _ = _ := key _ h
    unfold Calc.denseProgram
    rw [this]; rfl
  · have : c.run _ _ = _ := key _ h
    unfold Calc.denseProgram
    rw [this]; rfl
  · obtain ⟨r, h2, rfl, h3⟩ := key _ h
    have e : c.denseProgram true t w cap = (r.display (intFmt true t)).lift := by
      unfold Calc.denseProgram; rw [h2]; rfl
    obtain ⟨a, b⟩ := display_dense t hb r ((allIn_iff t _).1 h3)
    refine ⟨fun hP => by rw [e, b hP]; rfl, fun hP => ?_⟩
    obtain ⟨str, hs⟩ := a hP
    refine ⟨str, by rw [e, hs]; rfl, .dense r rfl hs, fun hd => ?_⟩
    obtain ⟨str', q, h4, h5, h6⟩ := C102_round_dense true t w cap hb h1 hcap r hP hd
    rw [hs] at h4; cases h4
    exact ⟨q, h5, h6⟩

/-- C121 (SparsePolynomial): the same. -/
theorem C121_sparse_program (hb : 1 ≤ t.bits) (h1 : t.InRange 1) (c : Calc ℤ) (hc : c.Factors t.InRange) :
    (∀ e, SparseOutcome t w c (.refused e) → c.sparseProgram true t w cap = .ok (.error e)) ∧
    (SparseOutcome t w c .panics → c.sparseProgram true t w cap = .panic) ∧
    (∀ P, SparseOutcome t w c (.value P) →
      (¬ Printable t P → c.sparseProgram true t w cap = .panic) ∧
      (Printable t P → ∃ str, c.sparseProgram true t w cap = .ok (.ok str) ∧ PrintsAs (intFmt true t) P (.ok str) ∧
        (P.degree < ((2 ^ w : ℕ) : WithBot ℕ) →
          ∃ q, Sparse.fromStrM (.machine true t w cap) t str = .ok (.ok q) ∧ entriesPoly q.terms.entries = P))) := by
  have key := Calc.run_matches (computes_sparse_checked t hb h1) (reads_sparse t w cap h1) c hc
  refine ⟨fun e h => ?_, fun h => ?_, fun P h => ?_⟩
  · have : c.run _ _ = _ := key _ h
    unfold Calc.sparseProgram
    rw [this]; rfl
  · have : c.run _ _ = _ := key _ h
    unfold Calc.sparseProgram
    rw [this]; rfl
  · obtain ⟨r, h2, rfl, h3⟩ := key _ h
    have e : c.sparseProgram true t w cap = (r.display (intFmt true t)).lift := by
      unfold Calc.sparseProgram; rw [h2]; rfl
    obtain ⟨a, b⟩ := display_sparse t hb r ((inRange_mapPoly t _).1 h3)
    refine ⟨fun hP => by rw [e, b hP]; rfl, fun hP => ?_⟩
    obtain ⟨str, hs⟩ := a hP
    refine ⟨str, by rw [e, hs]; rfl, .sparse r rfl hs, fun hd => ?_⟩
    obtain ⟨str', q, h4, h5, h6⟩ := C102_round_sparse true t w cap hb h1 r hP hd
    rw [hs] at h4; cases h4
    exact ⟨q, h5, h6⟩

/-! ## Both types give the same answer -/

theorem andThen_agree {u v : Outcome} {f g : ℤ[X] → Outcome} (h : u ≠ .panics → v ≠ .panics → u = v)
    (hf : ∀ P, f P ≠ .panics → g P ≠ .panics → f P = g P) (h1 : u.andThen f ≠ .panics) (h2 : v.andThen g ≠ .panics) :
    u.andThen f = v.andThen g := by
  have hu : u ≠ .panics := fun e => h1 (by rw [e]; rfl)
  have hv : v ≠ .panics := fun e => h2 (by rw [e]; rfl)
  obtain rfl := h hu hv
  cases u with
  | value P => exact hf P h1 h2
  | refused e => rfl
  | panics => rfl

theorem when_agree {a b : Prop} {P : ℤ[X]} (h1 : Outcome.when a P ≠ .panics) (h2 : Outcome.when b P ≠ .panics) :
    Outcome.when a P = Outcome.when b P := by
  unfold Outcome.when at *
  split at h1
  · split at h2
    · rename_i ha hb; rw [if_pos ha, if_pos hb]
    · exact absurd rfl h2
  · exact absurd rfl h1

theorem Calc.yields_agree {reads reads' : List Char → Outcome → Prop} {resOk resOk' : ℤ[X] → Prop} {mulOk mulOk' : ℤ[X] → ℤ[X] → Prop}
    {powOk powOk' : ℤ[X] → Nat → Prop} (hr : ∀ s u v, reads s u → reads' s v → u ≠ .panics → v ≠ .panics → u = v) :
    ∀ (c : Calc ℤ) (u v : Outcome), c.Yields reads resOk mulOk powOk u → c.Yields reads' resOk' mulOk' powOk' v →
      u ≠ .panics → v ≠ .panics → u = v
  | .text s, u, v, hu, hv, h1, h2 => hr s u v hu hv h1 h2
  | .neg a, _, _, ⟨u, hu, e⟩, ⟨v, hv, e'⟩, h1, h2 => by
    subst e; subst e'; exact andThen_agree (yields_agree hr a u v hu hv) (fun P => when_agree) h1 h2
  | .add a b, _, _, ⟨u, x, hu, hx, e⟩, ⟨v, y, hv, hy, e'⟩, h1, h2 => by
    subst e; subst e'
    exact andThen_agree (yields_agree hr a u v hu hv) (fun P => andThen_agree (yields_agree hr b x y hx hy) fun Q => when_agree) h1 h2
  | .sub a b, _, _, ⟨u, x, hu, hx, e⟩, ⟨v, y, hv, hy, e'⟩, h1, h2 => by
    subst e; subst e'
    exact andThen_agree (yields_agree hr a u v hu hv) (fun P => andThen_agree (yields_agree hr b x y hx hy) fun Q => when_agree) h1 h2
  | .mul a b, _, _, ⟨u, x, hu, hx, e⟩, ⟨v, y, hv, hy, e'⟩, h1, h2 => by
    subst e; subst e'
    exact andThen_agree (yields_agree hr a u v hu hv) (fun P => andThen_agree (yields_agree hr b x y hx hy) fun Q => when_agree) h1 h2
  | .pow a n, _, _, ⟨u, hu, e⟩, ⟨v, hv, e'⟩, h1, h2 => by
    subst e; subst e'; exact andThen_agree (yields_agree hr a u v hu hv) (fun P => when_agree) h1 h2
  | .scale a c, _, _, ⟨u, hu, e⟩, ⟨v, hv, e'⟩, h1, h2 => by
    subst e; subst e'; exact andThen_agree (yields_agree hr a u v hu hv) (fun P => when_agree) h1 h2
  | .shl a k, _, _, ⟨u, hu, e⟩, ⟨v, hv, e'⟩, h1, h2 => by
    subst e; subst e'; exact andThen_agree (yields_agree hr a u v hu hv) (fun P _ _ => rfl) h1 h2

theorem printsAs_unique {F : NumFmt ℤ} {P : ℤ[X]} {x y : List Char} (hx : PrintsAs F P (.ok x)) (hy : PrintsAs F P (.ok y)) : x = y := by
  obtain ⟨text, a, b, c, d, e⟩ := C38_canonical F P
  have key : ∀ {z}, PrintsAs F P (.ok z) → text = .ok z := by
    intro z h
    cases h with
    | dense p h hd => rw [← a p h, hd]
    | sparse p h hd => rw [← b p h, hd]
    | monomial p h hd => rw [← c p h, hd]
    | binomial p h hd => rw [← d p h, hd]
    | trinomial p h hd => rw [← e p h, hd]
  have := key hx
  rw [key hy] at this
  cases this; rfl

/-- C121: if neither program panics, the one with `Polynomial`s and the one with `SparsePolynomial`s give the same answer: the same error or
the same text. -/
theorem C121_same_answer (hb : 1 ≤ t.bits) (h1 : t.InRange 1) (hcap : cap < 2 ^ w) (c : Calc ℤ) (hc : c.Factors t.InRange)
    (a b : Except PolynomialFromStringError (List Char)) (ha : c.denseProgram true t w cap = .ok a)
    (hs : c.sparseProgram true t w cap = .ok b) : a = b := by
  obtain ⟨⟨u, hu, -⟩, v, hv, -⟩ := C121_outcome t w cap c
  obtain ⟨d1, d2, d3⟩ := C121_dense_program t w cap hb h1 hcap c hc
  obtain ⟨s1, s2, s3⟩ := C121_sparse_program t w cap hb h1 c hc
  have hne : u ≠ .panics := by rintro rfl; rw [d2 hu] at ha; cases ha
  have hne' : v ≠ .panics := by rintro rfl; rw [s2 hv] at hs; cases hs
  obtain rfl := Calc.yields_agree (reads := Reads t w (TextFits t w (fun _ => True) (· < cap)))
    (reads' := Reads t w (TextFits t w (fun _ => True) fun _ => True))
    (fun s u v hu hv h1 h2 => reads_agree t w hu hv h1 h2) c u v hu hv hne hne'
  cases u with
  | panics => exact absurd rfl hne
  | refused e => rw [d1 e hu] at ha; rw [s1 e hv] at hs; cases ha; cases hs; rfl
  | value P =>
    by_cases hP : Printable t P
    · obtain ⟨x, hx, hx', -⟩ := (d3 P hu).2 hP
      obtain ⟨y, hy, hy', -⟩ := (s3 P hv).2 hP
      rw [hx] at ha; rw [hy] at hs; cases ha; cases hs
      rw [printsAs_unique hx' hy']
    · rw [(d3 P hu).1 hP] at ha; cases ha

/-! ## Without overflow checks -/

theorem OnlyPanics.tryThen {E V W : Type} {x y : Res (Except E V)} {f g : V → Res (Except E W)} (h : OnlyPanics x y)
    (hf : ∀ v, OnlyPanics (f v) (g v)) : OnlyPanics (x.try f) (y.try g) := by
  intro hx
  have h1 : x ≠ .panic := fun e => hx (by rw [e]; rfl)
  rw [h h1]
  cases x with
  | ok v =>
    cases v with
    | ok v => exact hf v hx
    | error e => rfl
  | panic => exact absurd rfl h1
  | fuel => rfl

theorem OnlyPanics.liftR {E V : Type} {x y : Res V} (h : OnlyPanics x y) : OnlyPanics (x.lift : Res (Except E V)) y.lift := by
  intro hx
  rw [h fun e => hx (by rw [e]; rfl)]

theorem Calc.run_onlyPanics {V N E : Type} {o o' : ROps V N} {parse parse' : List Char → Res (Except E V)}
    (hp : ∀ s, OnlyPanics (parse s) (parse' s)) (h1 : ∀ x, OnlyPanics (o.neg x) (o'.neg x)) (h2 : ∀ x y, OnlyPanics (o.add x y) (o'.add x y))
    (h3 : ∀ x y, OnlyPanics (o.sub x y) (o'.sub x y)) (h4 : ∀ x y, OnlyPanics (o.mul x y) (o'.mul x y))
    (h5 : ∀ x n, OnlyPanics (o.pow x n) (o'.pow x n)) (h6 : ∀ x c, OnlyPanics (o.scale x c) (o'.scale x c))
    (h7 : ∀ x k, OnlyPanics (o.shl x k) (o'.shl x k)) : ∀ c : Calc N, OnlyPanics (c.run o parse) (c.run o' parse') := by
  intro c
  induction c with
  | text s => exact hp s
  | neg a ih => exact ih.tryThen fun x => (h1 x).liftR
  | add a b iha ihb => exact iha.tryThen fun x => ihb.tryThen fun y => (h2 x y).liftR
  | sub a b iha ihb => exact iha.tryThen fun x => ihb.tryThen fun y => (h3 x y).liftR
  | mul a b iha ihb => exact iha.tryThen fun x => ihb.tryThen fun y => (h4 x y).liftR
  | pow a n ih => exact ih.tryThen fun x => (h5 x n).liftR
  | scale a c ih => exact ih.tryThen fun x => (h6 x c).liftR
  | shl a k ih => exact ih.tryThen fun x => (h7 x k).liftR

/-- C121: whatever the program does with overflow checks, other than panic, it does without them. -/
theorem C121_checks_only_panic (hb : 1 ≤ t.bits) (c : Calc ℤ) :
    OnlyPanics (c.denseProgram true t w cap) (c.denseProgram false t w cap) ∧
    OnlyPanics (c.sparseProgram true t w cap) (c.sparseProgram false t w cap) := by
  have hd : ∀ ts, OnlyPanics (displayTerms (intFmt true t) ts) (displayTerms (intFmt false t) ts) := fun ts =>
    (C103_numbers t hb 1 le_rfl 0 0 0 ⟨0, 0, 0⟩ ts).2.2.2.2
  have D := fun (x y : Poly Int) (a : Int) (n : Nat) => C103_dense t hb x y a 0 0 n 0 true (fun _ => none)
  have S := fun (x y : Sparse Int) (a : Int) (n : Nat) => C103_sparse t hb x y ⟨[]⟩ a 0 0 n 0 true (fun _ => none)
  constructor
  · refine OnlyPanics.tryThen ?_ fun p => (hd p.orderedTermIter).liftR
    exact Calc.run_onlyPanics (o := denseOpsM (.machine true t)) (o' := denseOpsM (.machine false t)) (fun s => (C103_from_str t hb w cap s).1) (fun x => (D x x 0 0).1) (fun x y => (D x y 0 0).2.1)
      (fun x y => (D x y 0 0).2.2.2.1) (fun x y => (D x y 0 0).2.2.2.2.2.1) (fun x n => (D x x 0 n).2.2.2.2.2.2.2.2.2.2.2.1)
      (fun x a => (D x x a 0).2.2.2.2.2.2.2.1) (fun x k _ => rfl) c
  · refine OnlyPanics.tryThen ?_ fun p => (hd p.orderedTermIter).liftR
    exact Calc.run_onlyPanics (o := sparseOpsM (.machine true t)) (o' := sparseOpsM (.machine false t)) (fun s => (C103_from_str t hb w cap s).2.1) (fun x => (S x x 0 0).1) (fun x y => (S x y 0 0).2.1)
      (fun x y => (S x y 0 0).2.2.2.1) (fun x y => (S x y 0 0).2.2.2.2.2.1) (fun x n => (S x x 0 n).2.2.2.2.2.2.2.2.2.2.1)
      (fun x a => (S x x a 0).2.2.2.2.2.2.1) (fun x k _ => rfl) c

/-! ## Without overflow checks: what the programs do -/

theorem parseListM_bad {S : Type} [MutPolyM S] (E : Env) (parse : List Char → Option Int) (bad : List Char) (post : List (List Char))
    (err : TermFromStringError) (hbad : Term.fromStr parse E.usz.bits bad = .error err) :
    ∀ (pre : List (List Char)) (terms : List (Term Int)) (p : S) (b : Bool),
    pre.map (Term.fromStr parse E.usz.bits) = terms.map .ok →
    parseListM E parse (pre ++ bad :: post) p b = (do
      let (_, r) ← addPolyM E (pairsOf terms) p
      match r with
      | .ok () => Res.ok (.error (.termFromString err))
      | .error e => Res.ok (.error (.addingTerm e)))
  | [], terms, p, b, h => by
    obtain rfl : terms = [] := by simpa using h.symm
    rw [List.nil_append, parseListM, hbad]
    rfl
  | tk :: ts, [], p, b, h => by simp at h
  | tk :: ts, T :: terms, p, b, h => by
    simp only [List.map_cons, List.cons.injEq] at h
    rw [List.cons_append, parseListM, h.1]
    cases T with
    | zeroTerm => exact parseListM_bad E parse bad post err hbad ts terms p true h.2
    | term c d =>
      simp only [pairsOf, addPolyM]
      cases MutPolyM.tryAddTermM E p c d with
      | panic => rfl
      | fuel => rfl
      | ok v =>
        obtain ⟨q, r⟩ := v
        cases r with
        | error e => rfl
        | ok u => exact parseListM_bad E parse bad post err hbad ts terms q true h.2

theorem textRoom_iff_all {room : Nat → Prop} {ts : List (List Char)} {terms : List (Term ℤ)}
    (h : ts.map (Term.fromStr (parseInt t) w) = terms.map .ok) :
    TextRoom t w room ts ↔ ∀ c d, Term.term c d ∈ terms → room d := by
  refine ⟨fun hr => hr ts (List.prefix_refl _) terms h, fun hr pre hp terms' h' c d hm => hr c d ?_⟩
  have : terms'.map (Except.ok (ε := TermFromStringError)) <+: terms.map .ok := by rw [← h, ← h']; exact hp.map _
  have h2 := this.subset (List.mem_map_of_mem hm)
  obtain ⟨x, hx, e⟩ := List.mem_map.1 h2
  cases e; exact hx

theorem textRoom_iff_bad {room : Nat → Prop} {pre post : List (List Char)} {bad : List Char} {err : TermFromStringError}
    {terms : List (Term ℤ)} (h : pre.map (Term.fromStr (parseInt t) w) = terms.map .ok)
    (hbad : Term.fromStr (parseInt t) w bad = .error err) :
    TextRoom t w room (pre ++ bad :: post) ↔ ∀ c d, Term.term c d ∈ terms → room d := by
  refine ⟨fun hr => hr pre (List.prefix_append _ _) terms h, fun hr => ?_⟩
  intro pr hp terms' h' c d hm
  have hle : pr <+: pre := by
    rcases Nat.lt_or_ge pre.length pr.length with hl | hl
    · exfalso
      have h3 : pre ++ [bad] <+: pr := by
        refine List.prefix_of_prefix_length_le (l₃ := pre ++ bad :: post) ⟨post, by simp⟩ hp (by simp; omega)
      have h4 : bad ∈ pr := h3.subset (by simp)
      have h5 := List.mem_map_of_mem (f := Term.fromStr (parseInt t) w) h4
      rw [h', hbad] at h5
      obtain ⟨x, -, e⟩ := List.mem_map.1 h5
      cases e
    · exact List.prefix_of_prefix_length_le hp (List.prefix_append _ _) hl
  exact (textRoom_iff_all t w h).2 hr pr hle terms' h' c d hm

theorem pairs_ok (hw : 1 ≤ w) (h1 : t.InRange 1) {ts : List (List Char)} {terms : List (Term ℤ)}
    (hterms : ts.map (Term.fromStr (parseInt t) w) = terms.map .ok) : ∀ x ∈ pairsOf terms, t.InRange x.1 ∧ x.2 < 2 ^ w := by
  rintro ⟨c, d⟩ hx
  have hx' := mem_pairsOf.1 hx
  have : (Except.ok (Term.term c d) : Except TermFromStringError (Term Int)) ∈ ts.map (Term.fromStr (parseInt t) w) := by
    rw [hterms]; exact List.mem_map_of_mem hx'
  obtain ⟨tk, _, htk⟩ := List.mem_map.1 this
  exact ⟨fromStr_inRange h1 htk, fromStr_degree_lt hw htk⟩

/-- A text whose first wrong token is `bad`, without overflow checks. -/
theorem parse_bad_wrap (hb : 1 ≤ t.bits) (hw : 1 ≤ w) (h1 : t.InRange 1) (hcap : cap < 2 ^ w) {s : List Char} {pre post : List (List Char)}
    {bad : List Char} {err : TermFromStringError} {terms : List (Term ℤ)} (hts : IsTokenization s (pre ++ bad :: post))
    (h : pre.map (Term.fromStr (parseInt t) w) = terms.map .ok) (hbad : Term.fromStr (parseInt t) w bad = .error err) :
    ((∀ c d, Term.term c d ∈ terms → d < cap) →
      Poly.fromStrM (.machine false t w cap) t s = .ok (.error (.termFromString err))) ∧
    (¬ (∀ c d, Term.term c d ∈ terms → d < cap) → Poly.fromStrM (.machine false t w cap) t s = .panic) ∧
    Sparse.fromStrM (.machine false t w cap) t s = .ok (.error (.termFromString err)) := by
  have hz : AllIn t (Poly.zero : Poly Int).terms := by
    intro x hx; simp [Poly.zero] at hx
  obtain ⟨g1, g2, g3⟩ := C102_wrap t w cap hb hcap Poly.zero Sparse.zero (pairsOf terms) hz (by simp [Poly.zero])
    (by simp [Sparse.zero, BMap.empty]) (pairs_ok t w hw h1 h)
  have hroom : (∀ x ∈ pairsOf terms, x.2 < cap) ↔ ∀ c d, Term.term c d ∈ terms → d < cap :=
    ⟨fun h c d hm => h (c, d) (mem_pairsOf.2 hm), fun h x hx => h x.1 x.2 (mem_pairsOf.1 hx)⟩
  rw [hroom] at g1 g2
  have hd : Poly.fromStrM (.machine false t w cap) t s = _ :=
    (polyFromStrM_eq (.machine false t w cap) Poly.zero (parseInt t) s _ hts).trans
      (parseListM_bad (.machine false t w cap) (parseInt t) bad post err hbad pre terms Poly.zero false h)
  have hs' : Sparse.fromStrM (.machine false t w cap) t s = _ :=
    (polyFromStrM_eq (.machine false t w cap) Sparse.zero (parseInt t) s _ hts).trans
      (parseListM_bad (.machine false t w cap) (parseInt t) bad post err hbad pre terms Sparse.zero false h)
  rw [hd, hs']
  refine ⟨fun h => ?_, fun h => ?_, ?_⟩
  · obtain ⟨r, hr, -⟩ := g1 h
    rw [hr]; rfl
  · rw [g2 h]; rfl
  · obtain ⟨r, hr, -⟩ := g3
    rw [hr]; rfl

theorem reads_wrap (hb : 1 ≤ t.bits) (hw : 1 ≤ w) (h1 : t.InRange 1) (hcap : cap < 2 ^ w) (s : List Char) (u : Outcome) :
    (Reads t w (TextRoom t w (· < cap)) s u → Matches (IsWrapOf t) u (Poly.fromStrM (.machine false t w cap) t s)) ∧
    (Reads t w (fun _ => True) s u → Matches (IsWrapOfS t) u (Sparse.fromStrM (.machine false t w cap) t s)) := by
  obtain ⟨ts, hts, -⟩ := C34_tokenizer s
  by_cases hs : s = []
  · have hnil : ts = [] := by
      have := hts.1
      rw [hs] at this
      cases ts with
      | nil => rfl
      | cons x ts =>
        exfalso
        have h0 := hts.ne_nil x (by simp)
        simp at this
        exact h0 this.1
    have e1 : Poly.fromStrM (.machine false t w cap) t s = .ok (.error .noTermsFound) :=
      (polyFromStrM_eq (.machine false t w cap) Poly.zero (parseInt t) s _ hts).trans (by rw [hnil]; rfl)
    have e2 : Sparse.fromStrM (.machine false t w cap) t s = .ok (.error .noTermsFound) :=
      (polyFromStrM_eq (.machine false t w cap) Sparse.zero (parseInt t) s _ hts).trans (by rw [hnil]; rfl)
    have key : ∀ {fits}, fits [] → Reads t w fits s u → u = .refused .noTermsFound := by
      intro fits hf hu
      exact (reads_unique t w fits s).unique hu ⟨ts, hts, hnil ▸ hf, .inl ⟨hs, rfl⟩⟩
    refine ⟨fun hu => ?_, fun hu => ?_⟩
    · rw [key (fun pre hp terms h c d hm => by
        obtain rfl : pre = [] := by simpa using hp
        obtain rfl : terms = [] := by simpa using h.symm
        cases hm) hu]
      exact e1
    · rw [key trivial hu]; exact e2
  rcases first_bad (Term.fromStr (parseInt t) w) ts with ⟨terms, ht⟩ | ⟨pre, bad, post, err, terms, rfl, h2, h3⟩
  · obtain ⟨g1, g2, g3⟩ := C102_parse_wrap t w cap hb hw h1 hcap s ts hts hs terms ht
    refine ⟨fun hu => ?_, fun hu => ?_⟩
    · by_cases hr : ∀ c d, Term.term c d ∈ terms → d < cap
      · rw [(reads_unique t w _ s).unique hu (y₂ := .value _) ⟨ts, terms, hts, (textRoom_iff_all t w ht).2 hr, hs, ht, rfl⟩]
        exact g1 hr
      · rw [(reads_unique t w _ s).unique hu (y₂ := .panics) ⟨ts, hts, fun h => hr ((textRoom_iff_all t w ht).1 h)⟩]
        exact g2 (by push Not at hr; exact hr)
    · rw [(reads_unique t w _ s).unique hu (y₂ := .value _) ⟨ts, terms, hts, trivial, hs, ht, rfl⟩]
      exact g3
  · obtain ⟨g1, g2, g3⟩ := parse_bad_wrap t w cap hb hw h1 hcap hts h2 h3
    refine ⟨fun hu => ?_, fun hu => ?_⟩
    · by_cases hr : ∀ c d, Term.term c d ∈ terms → d < cap
      · rw [(reads_unique t w _ s).unique hu (y₂ := .refused _)
          ⟨_, hts, (textRoom_iff_bad t w h2 h3).2 hr, .inr ⟨pre, bad, post, err, terms, rfl, h2, h3, rfl⟩⟩]
        exact g1 hr
      · rw [(reads_unique t w _ s).unique hu (y₂ := .panics) ⟨_, hts, fun h => hr ((textRoom_iff_bad t w h2 h3).1 h)⟩]
        exact g2 hr
    · rw [(reads_unique t w _ s).unique hu (y₂ := .refused _)
        ⟨_, hts, trivial, .inr ⟨pre, bad, post, err, terms, rfl, h2, h3, rfl⟩⟩]
      exact g3

theorem display_dense_wrap (hb : 1 ≤ t.bits) (p : Poly Int) (hr : ∀ i, t.InRange ((descPoly p.terms).coeff i)) :
    ∃ str, p.display (intFmt false t) = .ok str := by
  by_cases h : Printable t (descPoly p.terms)
  · exact ⟨_, displayTerms_eq false hb (printableTerms (C03_dense_terms p).1 h)⟩
  · obtain ⟨-, str, hs, -⟩ := C37_dense_unprintable t hb ((descPoly p.terms).natDegree + 1) p hr
      (lt_of_le_of_lt degree_le_natDegree (by exact_mod_cast (Nat.lt_succ_self _).trans Nat.lt_two_pow_self)) h
    exact ⟨str, hs⟩

theorem display_sparse_wrap (hb : 1 ≤ t.bits) (q : Sparse Int) (hr : ∀ i, t.InRange ((entriesPoly q.terms.entries).coeff i)) :
    ∃ str, q.display (intFmt false t) = .ok str := by
  have hs : entriesPoly q.terms.entries = descPoly (Poly.fromTerms q.orderedTermIter).terms := by
    rw [C31_dense_from_terms, C03_sparse_terms_sum]
  rw [display_sparse_eq _ q hs]
  rw [hs] at hr
  exact display_dense_wrap t hb _ hr

/-- What a program comes to with `Polynomial`s over `t` without overflow checks, before reduction to the type: every step is possible except
reading a term without room and multiplying two factors that are both zero for the type. -/
def DenseWrapOutcome (c : Calc ℤ) (u : Outcome) : Prop :=
  c.Yields (Reads t w (TextRoom t w (· < cap))) (fun _ => True) (fun P Q => ¬ (Vanishes t P ∧ Vanishes t Q))
    (fun P n => ¬ (2 ≤ n ∧ Vanishes t (P ^ (n / 2)))) u

/-- The same with `SparsePolynomial`s: every step is possible. -/
def SparseWrapOutcome (c : Calc ℤ) (u : Outcome) : Prop :=
  c.Yields (Reads t w fun _ => True) (fun _ => True) (fun _ _ => True) (fun _ _ => True) u

/-- C121 (Polynomial), without overflow checks: the program ends with the error of the first text refused, panics exactly where a term has
no room or zero is multiplied by zero, and otherwise prints the exact result with every coefficient reduced to the type once. -/
theorem C121_dense_wrap_program (hb : 1 ≤ t.bits) (hw : 1 ≤ w) (h1 : t.InRange 1) (hcap : cap < 2 ^ w) (c : Calc ℤ) (hc : c.Factors t.InRange) :
    (∃! u, DenseWrapOutcome t w cap c u) ∧
    (∀ e, DenseWrapOutcome t w cap c (.refused e) → c.denseProgram false t w cap = .ok (.error e)) ∧
    (DenseWrapOutcome t w cap c .panics → c.denseProgram false t w cap = .panic) ∧
    (∀ P, DenseWrapOutcome t w cap c (.value P) → ∃ str Q, c.denseProgram false t w cap = .ok (.ok str) ∧
      (∀ d, Q.coeff d = t.wrap (P.coeff d)) ∧ PrintsAs (intFmt false t) Q (.ok str) ∧
      (Printable t Q → Q.degree < (cap : WithBot ℕ) →
        ∃ q, Poly.fromStrM (.machine false t w cap) t str = .ok (.ok q) ∧ descPoly q.terms = Q)) := by
  have key := Calc.run_matches (computes_dense_wrap t hb h1) (fun s u => (reads_wrap t w cap hb hw h1 hcap s u).1) c hc
  refine ⟨Calc.yields_exists (reads_unique t w _) c, fun e h => ?_, fun h => ?_, fun P h => ?_⟩
  · have : c.run _ _ = _ := key _ h
    unfold Calc.denseProgram
    rw [this]; rfl
  · have : c.run _ _ = _ := key _ h
    unfold Calc.denseProgram
    rw [this]; rfl
  · obtain ⟨r, h2, h3, h4⟩ := key _ h
    have e : c.denseProgram false t w cap = (r.display (intFmt false t)).lift := by
      unfold Calc.denseProgram; rw [h2]; rfl
    obtain ⟨str, hs⟩ := display_dense_wrap t hb r ((inRange_descPoly t _).1 h3)
    refine ⟨str, descPoly r.terms, by rw [e, hs]; rfl, h4, .dense r rfl hs, fun hP hd => ?_⟩
    obtain ⟨str', q, h4, h5, h6⟩ := C102_round_dense false t w cap hb h1 hcap r hP hd
    rw [hs] at h4; cases h4
    exact ⟨q, h5, h6⟩

theorem Calc.yields_no_panic {reads : List Char → Outcome → Prop} (hr : ∀ s, ¬ reads s .panics) :
    ∀ (c : Calc ℤ) (u : Outcome), c.Yields reads (fun _ => True) (fun _ _ => True) (fun _ _ => True) u → u ≠ .panics := by
  have aux : ∀ {u : Outcome} {f : ℤ[X] → Outcome}, u ≠ .panics → (∀ P, f P ≠ .panics) → u.andThen f ≠ .panics := by
    intro u f h1 h2
    cases u with
    | value P => exact h2 P
    | refused e => simp [Outcome.andThen]
    | panics => exact absurd rfl h1
  have hwhen : ∀ P, Outcome.when True P ≠ .panics := by intro P; simp [Outcome.when]
  intro c
  induction c with
  | text s => rintro u hu rfl; exact hr s hu
  | neg a ih => rintro _ ⟨u, h, rfl⟩; exact aux (ih u h) fun P => hwhen _
  | add a b iha ihb => rintro _ ⟨u, v, h, h', rfl⟩; exact aux (iha u h) fun P => aux (ihb v h') fun Q => hwhen _
  | sub a b iha ihb => rintro _ ⟨u, v, h, h', rfl⟩; exact aux (iha u h) fun P => aux (ihb v h') fun Q => hwhen _
  | mul a b iha ihb => rintro _ ⟨u, v, h, h', rfl⟩; exact aux (iha u h) fun P => aux (ihb v h') fun Q => hwhen _
  | pow a n ih => rintro _ ⟨u, h, rfl⟩; exact aux (ih u h) fun P => hwhen _
  | scale a c ih => rintro _ ⟨u, h, rfl⟩; exact aux (ih u h) fun P => hwhen _
  | shl a k ih => rintro _ ⟨u, h, rfl⟩; exact aux (ih u h) fun P => by simp

/-- C121 (SparsePolynomial), without overflow checks: the program never panics; it ends with the error of the first text refused or prints
the exact result with every coefficient reduced to the type once. -/
theorem C121_sparse_wrap_program (hb : 1 ≤ t.bits) (hw : 1 ≤ w) (h1 : t.InRange 1) (hcap : cap < 2 ^ w) (c : Calc ℤ) (hc : c.Factors t.InRange) :
    (∃! u, SparseWrapOutcome t w c u) ∧ ¬ SparseWrapOutcome t w c .panics ∧
    (∀ e, SparseWrapOutcome t w c (.refused e) → c.sparseProgram false t w cap = .ok (.error e)) ∧
    (∀ P, SparseWrapOutcome t w c (.value P) → ∃ str Q, c.sparseProgram false t w cap = .ok (.ok str) ∧
      (∀ d, Q.coeff d = t.wrap (P.coeff d)) ∧ PrintsAs (intFmt false t) Q (.ok str) ∧
      (Printable t Q → Q.degree < ((2 ^ w : ℕ) : WithBot ℕ) →
        ∃ q, Sparse.fromStrM (.machine false t w cap) t str = .ok (.ok q) ∧ entriesPoly q.terms.entries = Q)) := by
  have key := Calc.run_matches (computes_sparse_wrap t hb h1) (fun s u => (reads_wrap t w cap hb hw h1 hcap s u).2) c hc
  refine ⟨Calc.yields_exists (reads_unique t w _) c, fun h => ?_, fun e h => ?_, fun P h => ?_⟩
  · exact Calc.yields_no_panic (fun s ⟨ts, _, h⟩ => h trivial) c _ h rfl
  · have : c.run _ _ = _ := key _ h
    unfold Calc.sparseProgram
    rw [this]; rfl
  · obtain ⟨r, h2, h3, h4⟩ := key _ h
    have e : c.sparseProgram false t w cap = (r.display (intFmt false t)).lift := by
      unfold Calc.sparseProgram; rw [h2]; rfl
    obtain ⟨str, hs⟩ := display_sparse_wrap t hb r ((inRange_mapPoly t _).1 h3)
    refine ⟨str, entriesPoly r.terms.entries, by rw [e, hs]; rfl, h4, .sparse r rfl hs, fun hP hd => ?_⟩
    obtain ⟨str', q, h4, h5, h6⟩ := C102_round_sparse false t w cap hb h1 r hP hd
    rw [hs] at h4; cases h4
    exact ⟨q, h5, h6⟩

/-- C121: without overflow checks, unless the program with `Polynomial`s panics, both give the same answer. -/
theorem C121_same_wrap_answer (hb : 1 ≤ t.bits) (hw : 1 ≤ w) (h1 : t.InRange 1) (hcap : cap < 2 ^ w) (c : Calc ℤ) (hc : c.Factors t.InRange)
    (ha : c.denseProgram false t w cap ≠ .panic) : c.sparseProgram false t w cap = c.denseProgram false t w cap := by
  obtain ⟨⟨u, hu, -⟩, d1, d2, d3⟩ := C121_dense_wrap_program t w cap hb hw h1 hcap c hc
  obtain ⟨⟨v, hv, -⟩, s0, s1, s3⟩ := C121_sparse_wrap_program t w cap hb hw h1 hcap c hc
  have hne : u ≠ .panics := by rintro rfl; exact ha (d2 hu)
  have hne' : v ≠ .panics := by rintro rfl; exact s0 hv
  obtain rfl := Calc.yields_agree (reads := Reads t w (TextRoom t w (· < cap))) (reads' := Reads t w fun _ => True)
    (fun s u v hu hv h1 h2 => reads_agree t w hu hv h1 h2) c u v hu hv hne hne'
  cases u with
  | panics => exact absurd rfl hne
  | refused e => rw [d1 e hu, s1 e hv]
  | value P =>
    obtain ⟨x, Q, hx, hq, hx', -⟩ := d3 P hu
    obtain ⟨y, Q', hy, hq', hy', -⟩ := s3 P hv
    obtain rfl : Q = Q' := by ext d; rw [hq, hq']
    rw [hx, hy, printsAs_unique hx' hy']

end

/-! ## Concrete cases -/

/-- `("x + 1")^3 * "2x - 1" - ("x" << 2)`. -/
def exCalc : Calc ℤ :=
  .sub (.mul (.pow (.text "x + 1".toList) 3) (.text "2x - 1".toList)) (.shl (.text "x".toList) 2)

example : exCalc.Factors (IntTy.InRange ⟨true, 32⟩) := by simp [exCalc, Calc.Factors]

example : exCalc.denseProgram true ⟨true, 32⟩ 64 1000 = .ok (.ok "2x^4 + 4x^3 + 3x^2 - x - 1".toList) ∧
    exCalc.sparseProgram true ⟨true, 32⟩ 64 1000 = .ok (.ok "2x^4 + 4x^3 + 3x^2 - x - 1".toList) := by decide +kernel

-- the first text refused decides, unless an earlier step panics
example : (Calc.add (.text "x + y".toList) (.text "".toList)).denseProgram true ⟨true, 32⟩ 64 1000 =
      .ok (.error (.termFromString (.unexpectedChar 'y'))) ∧
    (Calc.add (.text "".toList) (.text "x + y".toList)).denseProgram true ⟨true, 32⟩ 64 1000 = .ok (.error .noTermsFound) ∧
    (Calc.add (.mul (.text "100".toList) (.text "2".toList)) (.text "x + y".toList)).denseProgram true ⟨true, 8⟩ 64 1000 = .panic ∧
    (Calc.add (.mul (.text "100".toList) (.text "2".toList)) (.text "x".toList)).denseProgram false ⟨true, 8⟩ 64 1000 =
      .ok (.ok "x - 56".toList) := by decide +kernel

-- a program may panic with one type only: no room for a high degree, zero times zero
example : (Calc.text "x^1000 + 1".toList : Calc ℤ).denseProgram true ⟨true, 8⟩ 64 1000 = .panic ∧
    (Calc.text "x^1000 + 1".toList : Calc ℤ).sparseProgram true ⟨true, 8⟩ 64 1000 = .ok (.ok "x^1000 + 1".toList) ∧
    (Calc.mul (.text "x - x".toList) (.text "0".toList)).denseProgram true ⟨true, 8⟩ 64 1000 = .panic ∧
    (Calc.mul (.text "x - x".toList) (.text "0".toList)).sparseProgram true ⟨true, 8⟩ 64 1000 = .ok (.ok "0".toList) := by
  decide +kernel

-- without overflow checks: 16 * 16 is zero for `u8`, so that squaring it again panics with `Polynomial`s only; `i8` may print `-128`
example : (Calc.pow (.text "16x + 32".toList) 4 : Calc ℤ).denseProgram false ⟨false, 8⟩ 64 1000 = .panic ∧
    (Calc.pow (.text "16x + 32".toList) 4 : Calc ℤ).sparseProgram false ⟨false, 8⟩ 64 1000 = .ok (.ok "0".toList) ∧
    (Calc.pow (.text "16x + 31".toList) 4 : Calc ℤ).denseProgram false ⟨false, 8⟩ 64 1000 = .ok (.ok "192x + 129".toList) ∧
    (Calc.scale (.text "x + 64".toList) 2 : Calc ℤ).sparseProgram false ⟨true, 8⟩ 64 1000 = .ok (.ok "2x - -128".toList) ∧
    (Calc.text "100 + 100 + 2z".toList : Calc ℤ).denseProgram true ⟨true, 8⟩ 64 1000 = .panic ∧
    (Calc.text "100 + 100 + 2z".toList : Calc ℤ).denseProgram false ⟨true, 8⟩ 64 1000 =
      .ok (.error (.termFromString (.unexpectedChar 'z'))) := by
  decide +kernel

end Rustnomial
