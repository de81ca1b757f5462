import Verif.Spec
import Verif.Model.Strings
import Mathlib.Algebra.Polynomial.Inductions

/-!
# Specification: sums of terms that stay in range
-/

open Polynomial

namespace Rustnomial

/-- Adding the terms to `P` one after the other, every coefficient of every polynomial on the way is a value of the
type. -/
def RunFits (t : IntTy) (P : ℤ[X]) (ts : List (ℤ × Nat)) : Prop :=
  ∀ pre, pre <+: ts → ∀ n, t.InRange ((P + termsPoly pre).coeff n)

/-- Likewise for subtracting them. -/
def RunFitsSub (t : IntTy) (P : ℤ[X]) (ts : List (ℤ × Nat)) : Prop :=
  ∀ pre, pre <+: ts → ∀ n, t.InRange ((P - termsPoly pre).coeff n)

/-- The terms a text is made of, given by its tokens, all have room and every partial sum has coefficients of the type: for
every beginning of the text whose tokens are all terms, and which is accepted.  Tokens after the first which is no term
are not looked at. -/
def TextFits (t : IntTy) (uw : Nat) (accepted : List (Term ℤ) → Prop) (room : Nat → Prop) (ts : List (List Char)) : Prop :=
  ∀ pre, pre <+: ts → ∀ terms : List (Term ℤ), pre.map (Term.fromStr (parseInt t) uw) = terms.map .ok → accepted terms →
    (∀ c d, Term.term c d ∈ terms → room d) ∧ ∀ n, t.InRange ((terms.map Term.poly).sum.coeff n)

/-- Every term has degree at most `k`. -/
def DegreesLE (k : Nat) (terms : List (Term ℤ)) : Prop := ∀ c d, Term.term c d ∈ terms → d ≤ k

/-- Every term has the degree of the sum of the terms before it, unless that sum is zero. -/
def OneDegree (terms : List (Term ℤ)) : Prop :=
  ∀ pre c d, pre ++ [Term.term c d] <+: terms → (pre.map Term.poly).sum = 0 ∨ d = (pre.map Term.poly).sum.natDegree

/-- As long as the terms are taken, adding (`σ = 1`) or subtracting (`σ = -1`) them one after the other gives polynomials
whose coefficients are values of the type.  Of a list of terms, `taken` says that all of them are taken. -/
def FitsWhile (t : IntTy) (taken : List (ℤ × Nat) → Prop) (σ : ℤ) (P : ℤ[X]) (ts : List (ℤ × Nat)) : Prop :=
  ∀ pre, pre <+: ts → taken pre → ∀ n, t.InRange ((P + C σ * termsPoly pre).coeff n)

/-- How going through the terms `ts` ends: either all of them are taken, or the terms `pre` are, and the next one is
refused with the error `e`. -/
def EndsAfter (taken : List (ℤ × Nat) → Prop) (e : TryAddError) (ts pre : List (ℤ × Nat))
    (r : Except TryAddError Unit) : Prop :=
  taken pre ∧ ((pre = ts ∧ r = .ok ()) ∨ ∃ x, pre ++ [x] <+: ts ∧ ¬ taken (pre ++ [x]) ∧ r = .error e)

/-- Every term `c x^d` finds a polynomial without terms of another degree, starting from `P`. -/
def SameDegree (σ : ℤ) (P : ℤ[X]) (ts : List (ℤ × Nat)) : Prop :=
  ∀ pre c d, pre ++ [(c, d)] <+: ts → ∀ n, n ≠ d → (P + C σ * termsPoly pre).coeff n = 0

/-- Likewise, where coefficients that are zero after reduction to the type do not count. -/
def SameDegreeWrap (t : IntTy) (σ : ℤ) (P : ℤ[X]) (ts : List (ℤ × Nat)) : Prop :=
  ∀ pre c d, pre ++ [(c, d)] <+: ts → ∀ n, n ≠ d → t.wrap ((P + C σ * termsPoly pre).coeff n) = 0

/-- As long as the products are taken, they are values of the type, and their degrees are values of a `w`-bit `usize`; the
product that is refused is formed as well. -/
def ProductsFit (t : IntTy) (w : Nat) (taken : List (ℤ × Nat) → Prop) (ps : List ((ℤ × Nat) × (ℤ × Nat))) : Prop :=
  ∀ pre x, pre ++ [x] <+: ps → taken (pre.map fun p => (p.1.1 * p.2.1, p.1.2 + p.2.2)) →
    t.InRange (x.1.1 * x.2.1) ∧ x.1.2 + x.2.2 < 2 ^ w

/-- The outcome with overflow checks of going through the terms `ts`, starting from `P`, under the condition `fits`: the
terms before the first refused one are added (`σ = 1`) or subtracted (`σ = -1`), and otherwise it panics. -/
def TakesTerms {S : Type} (repr : S → ℤ[X]) (fits : Prop) (taken : List (ℤ × Nat) → Prop) (σ : ℤ) (e : TryAddError)
    (P : ℤ[X]) (ts : List (ℤ × Nat)) (run : Res (S × Except TryAddError Unit)) : Prop :=
  (fits → ∃ r res pre, run = .ok (r, res) ∧ EndsAfter taken e ts pre res ∧ repr r = P + C σ * termsPoly pre) ∧
  (¬ fits → run = .panic)

/-- The outcome without overflow checks: the coefficients are reduced to the type. -/
def TakesTermsWrap {S : Type} (t : IntTy) (repr : S → ℤ[X]) (taken : List (ℤ × Nat) → Prop) (σ : ℤ) (e : TryAddError)
    (P : ℤ[X]) (ts : List (ℤ × Nat)) (run : Res (S × Except TryAddError Unit)) : Prop :=
  ∃ r res pre, run = .ok (r, res) ∧ EndsAfter taken e ts pre res ∧
    ∀ n, (repr r).coeff n = t.wrap ((P + C σ * termsPoly pre).coeff n)

/-- Evaluating `P` at `x` by Horner's scheme stays within the type: the point is zero, or every value of the scheme, before
and after multiplying by the point, is a value of the type.  `divX^[e] P` is `P` without its last `e` coefficients. -/
def HornerFits (t : IntTy) (P : ℤ[X]) (x : ℤ) : Prop :=
  x = 0 ∨ ∀ e, t.InRange ((divX^[e] P).eval x) ∧ (0 < e → t.InRange ((divX^[e] P).eval x * x))

/-- Evaluating the stored terms one after the other, lowest degree first, stays within the type: powers of the point, terms and
partial sums. -/
def TermwiseFits (t : IntTy) (entries : List (Nat × ℤ)) (x : ℤ) : Prop :=
  ∀ e ∈ entries, t.InRange (x ^ e.1) ∧ t.InRange (e.2 * x ^ e.1) ∧
    t.InRange (∑ i ∈ Finset.range (e.1 + 1), (entriesPoly entries).coeff i * x ^ i)

/-- What `a` does, if it does not panic, `b` does as well. -/
def OnlyPanics {α : Type} (a b : Res α) : Prop := a ≠ .panic → b = a

end Rustnomial
