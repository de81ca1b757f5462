import Verif.SpecStrings
import Verif.Spec

/-!
# Specification of which error a text is refused with

All about texts without the ignored characters (`clean`).
-/

namespace Rustnomial
open Polynomial

variable {N : Type} [One N]

/-- A beginning without fault: a number; or a coefficient that can be read, `x`, and a number in which one `^` may stand. -/
def GoodStart (parse : List Char → Option N) (g : List Char) : Prop :=
  (∀ c ∈ g, IsNum c) ∨
  ∃ num r, (∀ c ∈ num, IsNum c) ∧ (coeffText parse num).isSome ∧ g = num ++ 'x' :: r ∧ (∀ c ∈ r, IsNum c ∨ c = '^') ∧ r.count '^' ≤ 1

/-- After the faultless beginning `g` the character `c` is a fault, reported as `e`. -/
def FaultAt (parse : List Char → Option N) (g : List Char) (c : Char) : TermFromStringError → Prop
  | .unexpectedChar d => d = c ∧ ¬ IsNum c ∧ c ≠ 'x' ∧ c ≠ '^'
  | .moreThanOneX => c = 'x' ∧ 'x' ∈ g
  | .coeffCouldNotBeParsed => c = 'x' ∧ 'x' ∉ g ∧ coeffText parse g = none
  | .multipleCarets => c = '^' ∧ '^' ∈ g
  | .caretWithoutXInFront => c = '^' ∧ 'x' ∉ g
  | .caretWithoutDegree => False
  | .degreeCouldNotBeParsed => False

/-- The fault of a text with no faulty character: it ends too early, or its number or its degree can not be read. -/
def FaultAtEnd (parse : List Char → Option N) (uw : Nat) (t : List Char) : TermFromStringError → Prop
  | .caretWithoutDegree => ∃ num, t = num ++ ['x', '^']
  | .coeffCouldNotBeParsed => ('x' ∉ t ∧ parse t = none) ∨
      ∃ num r, t = num ++ 'x' :: r ∧ r ≠ [] ∧ r ≠ ['^'] ∧ parseUsize uw (r.filter (· ≠ '^')) = none
  | _ => False

/-- The first fault of a term. -/
def FirstFault (parse : List Char → Option N) (uw : Nat) (t : List Char) (e : TermFromStringError) : Prop :=
  (∃ g c r, t = g ++ c :: r ∧ GoodStart parse g ∧ FaultAt parse g c e) ∨ (GoodStart parse t ∧ FaultAtEnd parse uw t e)

/-- What a type can not take: the error for a further term of degree `d` after the given terms. -/
abbrev Refusal (N : Type) := List (Term N) → Nat → Option TryAddError

/-- `Polynomial` and `SparsePolynomial` take every term. -/
def refusesNothing : Refusal N := fun _ _ => none

/-- A type of fixed size takes the degrees up to `n`. -/
def refusesAbove (n : Nat) : Refusal N := fun _ d => if n < d then some .degreeOutOfBounds else none

open Classical in
/-- A monomial whose sum so far is not zero takes the degree of that sum only. -/
noncomputable def refusesOther {R : Type} [Ring R] : Refusal R := fun terms d =>
  if (terms.map Term.poly).sum ≠ 0 ∧ (terms.map Term.poly).sum.natDegree ≠ d then some .tooManyTerms else none

/-- The coefficients of the terms that are not zero, and their degrees. -/
def nonzeroTerms (terms : List (Term N)) : List (N × Nat) :=
  terms.filterMap fun
    | .zeroTerm => none
    | .term c d => some (c, d)

/-- The same for numbers that do not form a ring: the sum of the coefficients, from left to right, is not zero, and the degree is not
that of the last term. -/
def refusesOtherSum [Zero N] [NumZero N] [Add N] : Refusal N := fun terms d =>
  if isZero ((nonzeroTerms terms).foldl (fun v t => v + t.1) (0 : N)) = false ∧ (nonzeroTerms terms).getLast?.map (·.2) ≠ some d
  then some .tooManyTerms else none

/-- Each term is taken after the terms before it (zero terms are not offered). -/
def Taken (refuse : Refusal N) (terms : List (Term N)) : Prop :=
  ∀ pre c d post, terms = pre ++ .term c d :: post → refuse pre d = none

variable [Zero N] [NumZero N]

/-- The text `s` must be refused with the error `e`: it is empty, or its first fault is in a term, or its
first fault is a term that the type can not take. -/
def ParseFault (refuse : Refusal N) (parse : List Char → Option N) (uw : Nat) (s : List Char) (e : PolynomialFromStringError) : Prop :=
  (s = [] ∧ e = .noTermsFound) ∨
  ∃ pre bad post terms, IsTokenization s (pre ++ bad :: post) ∧ pre.map (Term.fromStr parse uw) = terms.map .ok ∧
    Taken refuse terms ∧
    ((∃ e', FirstFault parse uw (clean bad) e' ∧ e = .termFromString e') ∨
     ∃ c d e', Term.fromStr parse uw bad = .ok (.term c d) ∧ refuse terms d = some e' ∧ e = .addingTerm e')

/-- The text `s` has no fault. -/
def NoParseFault (refuse : Refusal N) (parse : List Char → Option N) (uw : Nat) (s : List Char) : Prop :=
  s ≠ [] ∧ ∃ ts terms, IsTokenization s ts ∧ ts.map (Term.fromStr parse uw) = terms.map .ok ∧ Taken refuse terms

end Rustnomial
