import Verif.Model.Calc
import Verif.SpecBuild
import Verif.SpecStrings
import Verif.SpecExpr
import Mathlib.Logic.Basic

/-!
# Specification of programs from text to text
-/

open Polynomial

namespace Rustnomial

/-- What a program comes to: a polynomial, an error of `parse`, or a panic. -/
inductive Outcome where
  | value (P : ℤ[X])
  | refused (e : PolynomialFromStringError)
  | panics

/-- Go on with the polynomial. -/
noncomputable def Outcome.andThen : Outcome → (ℤ[X] → Outcome) → Outcome
  | .value P, f => f P
  | .refused e, _ => .refused e
  | .panics, _ => .panics

open Classical in
/-- The polynomial `P` if the step is possible. -/
noncomputable def Outcome.when (ok : Prop) (P : ℤ[X]) : Outcome := if ok then .value P else .panics

/-- What reading the text `s` comes to, if `fits` says of its tokens that no panic arises before the first wrong one: a panic if they do not
fit; otherwise the sum of its terms if all tokens are terms, the error of the first token that is none, or `NoTermsFound` for the empty
text. -/
def Reads (t : IntTy) (w : Nat) (fits : List (List Char) → Prop) (s : List Char) : Outcome → Prop
  | .value P => ∃ ts, ∃ terms : List (Term ℤ), IsTokenization s ts ∧ fits ts ∧ s ≠ [] ∧
      ts.map (Term.fromStr (parseInt t) w) = terms.map .ok ∧ P = (terms.map Term.poly).sum
  | .refused e => ∃ ts, IsTokenization s ts ∧ fits ts ∧
      ((s = [] ∧ e = .noTermsFound) ∨
        ∃ pre bad post err, ∃ terms : List (Term ℤ), ts = pre ++ bad :: post ∧ pre.map (Term.fromStr (parseInt t) w) = terms.map .ok ∧
          Term.fromStr (parseInt t) w bad = .error err ∧ e = .termFromString err)
  | .panics => ∃ ts, IsTokenization s ts ∧ ¬ fits ts

/-- All terms before the first token that is no term have room (with overflow checks: `TextFits`, which also asks for partial sums within
the type). -/
def TextRoom (t : IntTy) (w : Nat) (room : Nat → Prop) (ts : List (List Char)) : Prop :=
  ∀ pre, pre <+: ts → ∀ terms : List (Term ℤ), pre.map (Term.fromStr (parseInt t) w) = terms.map .ok →
    ∀ c d, Term.term c d ∈ terms → room d

/-- What a program comes to, if reading a text comes to what `reads` says and a step is possible as `resOk` (sums, differences, multiples),
`mulOk` and `powOk` say.  The first text refused or step impossible, in the order of computation, decides. -/
def Calc.Yields (reads : List Char → Outcome → Prop) (resOk : ℤ[X] → Prop) (mulOk : ℤ[X] → ℤ[X] → Prop) (powOk : ℤ[X] → Nat → Prop) :
    Calc ℤ → Outcome → Prop
  | .text s, o => reads s o
  | .neg a, o => ∃ u, a.Yields reads resOk mulOk powOk u ∧ o = u.andThen fun P => .when (resOk (-P)) (-P)
  | .add a b, o => ∃ u v, a.Yields reads resOk mulOk powOk u ∧ b.Yields reads resOk mulOk powOk v ∧
      o = u.andThen fun P => v.andThen fun Q => .when (resOk (P + Q)) (P + Q)
  | .sub a b, o => ∃ u v, a.Yields reads resOk mulOk powOk u ∧ b.Yields reads resOk mulOk powOk v ∧
      o = u.andThen fun P => v.andThen fun Q => .when (resOk (P - Q)) (P - Q)
  | .mul a b, o => ∃ u v, a.Yields reads resOk mulOk powOk u ∧ b.Yields reads resOk mulOk powOk v ∧
      o = u.andThen fun P => v.andThen fun Q => .when (mulOk P Q) (P * Q)
  | .pow a n, o => ∃ u, a.Yields reads resOk mulOk powOk u ∧ o = u.andThen fun P => .when (powOk P n) (P ^ n)
  | .scale a c, o => ∃ u, a.Yields reads resOk mulOk powOk u ∧ o = u.andThen fun P => .when (resOk (C c * P)) (C c * P)
  | .shl a k, o => ∃ u, a.Yields reads resOk mulOk powOk u ∧ o = u.andThen fun P => .value (P * X ^ k)

/-- All factors of the program are numbers of the type. -/
def Calc.Factors (ok : ℤ → Prop) : Calc ℤ → Prop
  | .text _ => True
  | .neg a => a.Factors ok
  | .add a b => a.Factors ok ∧ b.Factors ok
  | .sub a b => a.Factors ok ∧ b.Factors ok
  | .mul a b => a.Factors ok ∧ b.Factors ok
  | .pow a _ => a.Factors ok
  | .scale a c => a.Factors ok ∧ ok c
  | .shl a _ => a.Factors ok

end Rustnomial
