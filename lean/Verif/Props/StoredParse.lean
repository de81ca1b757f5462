import Verif.Props.Stored
import Verif.Props.Parse

/-!
# C101 – the stored form of parsed values
-/

namespace Rustnomial

/-- The number of coefficients a dense vector needs for a term. -/
def Term.need {N : Type} : Term N → Nat
  | .zeroTerm => 0
  | .term _ d => d + 1

section
variable {N : Type} [Zero N] [NumZero N] [One N] [Add N] [Sub N] [CanNegate N] (parse : List Char → Option N) (uw : Nat)

theorem parseList_dense_length : ∀ (ts : List (List Char)) (terms : List (Term N)) (p q : Poly N) (b : Bool),
    ts.map (Term.fromStr parse uw) = terms.map .ok → parseList parse uw ts p b = .ok q →
    q.terms.length = max p.terms.length (maxOf (terms.map Term.need))
  | [], terms, p, q, b, hp, h => by
    have : terms = [] := by simpa using hp.symm
    subst this
    unfold parseList at h
    split at h
    · cases h; simp [maxOf]
    · cases h
  | t :: ts, [], p, q, b, hp, h => by simp at hp
  | t :: ts, T :: terms, p, q, b, hp, h => by
    simp only [List.map_cons, List.cons.injEq] at hp
    rw [parseList, hp.1] at h
    cases T with
    | zeroTerm =>
      dsimp only at h
      rw [parseList_dense_length ts terms p q _ hp.2 h]
      simp [maxOf, Term.need]
    | term c d =>
      have h' : parseList parse uw ts (p.addTerm c d) true = .ok q := h
      rw [parseList_dense_length ts terms _ q _ hp.2 h', addTerm_length]
      simp only [List.map_cons, maxOf, Term.need]
      omega

theorem parseList_sparse_keys (k : Nat) : ∀ (ts : List (List Char)) (terms : List (Term N)) (p q : Sparse N) (b : Bool),
    ts.map (Term.fromStr parse uw) = terms.map .ok → parseList parse uw ts p b = .ok q →
    (HasKey q.terms k ↔ HasKey p.terms k ∨ ∃ c, isZero c = false ∧ Term.term c k ∈ terms)
  | [], terms, p, q, b, hp, h => by
    have : terms = [] := by simpa using hp.symm
    subst this
    unfold parseList at h
    split at h
    · cases h; simp
    · cases h
  | t :: ts, [], p, q, b, hp, h => by simp at hp
  | t :: ts, T :: terms, p, q, b, hp, h => by
    simp only [List.map_cons, List.cons.injEq] at hp
    rw [parseList, hp.1] at h
    cases T with
    | zeroTerm =>
      dsimp only at h
      rw [parseList_sparse_keys k ts terms p q _ hp.2 h]
      simp
    | term c d =>
      have h' : parseList parse uw ts (p.addTerm c d) true = .ok q := h
      rw [parseList_sparse_keys k ts terms _ q _ hp.2 h', hasKey_addTerm]
      simp only [List.mem_cons, Term.term.injEq]
      constructor
      · rintro ((h1 | ⟨h1, h2⟩) | ⟨c', h1, h2⟩)
        exacts [.inl h1, .inr ⟨c, h1, .inl ⟨rfl, h2⟩⟩, .inr ⟨c', h1, .inr h2⟩]
      · rintro (h1 | ⟨c', h1, ⟨rfl, h2⟩ | h2⟩)
        exacts [.inl (.inl h1), .inl (.inr ⟨h1, h2⟩), .inr ⟨c', h1, h2⟩]

/-- C101: the size of parsed values is set by the exponents in the text, not by its length: a `Polynomial` stores one
coefficient more than the largest exponent of a term with a non-zero coefficient – also when the terms cancel – and a
`SparsePolynomial` one entry for each such exponent. -/
theorem C101_parse_size (s : List Char) (ts : List (List Char)) (terms : List (Term N)) (h : IsTokenization s ts)
    (hp : ts.map (Term.fromStr parse uw) = terms.map .ok) :
    (∀ q, Poly.fromStr parse uw s = .ok (.ok q) → q.terms.length = maxOf (terms.map Term.need)) ∧
    (∀ q, Sparse.fromStr parse uw s = .ok (.ok q) →
      ∀ k, Stores q k ↔ ∃ c, isZero c = false ∧ Term.term c k ∈ terms) := by
  constructor
  · intro q hq
    rw [Poly.fromStr, polyFromStr_eq _ _ _ _ _ h] at hq
    have := parseList_dense_length parse uw ts terms Poly.zero q false hp (by simpa using hq)
    simpa [Poly.zero] using this
  · intro q hq k
    rw [Sparse.fromStr, polyFromStr_eq _ _ _ _ _ h] at hq
    have := parseList_sparse_keys parse uw k ts terms Sparse.zero q false hp (by simpa using hq)
    show HasKey q.terms k ↔ _
    simpa [Sparse.zero, hasKey_empty] using this

end

/-- Three characters of text, ten stored coefficients; and terms which cancel. -/
example : Poly.fromStr (parseInt ⟨true, 32⟩) 64 "x^9".toList = .ok (.ok ⟨[1, 0, 0, 0, 0, 0, 0, 0, 0, 0]⟩) ∧
    Poly.fromStr (parseInt ⟨true, 32⟩) 64 "x^3 - x^3".toList = .ok (.ok ⟨[0, 0, 0, 0]⟩) ∧
    Poly.fromStr (parseInt ⟨true, 32⟩) 64 "0x^3".toList = .ok (.ok ⟨[]⟩) := ⟨rfl, rfl, rfl⟩

end Rustnomial
