import Verif.Model.FloatHistory
import Verif.Props.History
import Verif.SpecFloatBuild
import Verif.SpecFloatExact

/-!
# Specification of histories in floating point
-/

open Polynomial

namespace Rustnomial
open Fl
variable {f : FlFmt}

/-- The exact effect of one operation. -/
noncomputable def absStepDiv (P : ℚ[X]) : OpDiv ℚ[X] ℚ → ℚ[X]
  | .op o => absStep P o
  | .divAssignScalar c => P * C c⁻¹

/-- The exact effect of a sequence of operations. -/
noncomputable def absRunDiv (P : ℚ[X]) (ops : List (OpDiv ℚ[X] ℚ)) : ℚ[X] := ops.foldl absStepDiv P

/-- The operation with exact operands. -/
def OpDiv.exact {S : Type} (val : S → ℚ[X]) : OpDiv S (Fl f) → OpDiv ℚ[X] ℚ
  | .op (.addTerm c d) => .op (.addTerm c.toRat d)
  | .op (.trySubTerm c d) => .op (.trySubTerm c.toRat d)
  | .op (.addAssign q) => .op (.addAssign (val q))
  | .op (.subAssign q) => .op (.subAssign (val q))
  | .op (.mulAssign q) => .op (.mulAssign (val q))
  | .op (.mulAssignScalar c) => .op (.mulAssignScalar c.toRat)
  | .op (.shlAssign k) => .op (.shlAssign k)
  | .op (.shrAssign k) => .op (.shrAssign k)
  | .op .trim => .op .trim
  | .op .setToZero => .op .setToZero
  | .divAssignScalar c => .divAssignScalar c.toRat

/-- Shifts are by an `i32` other than the smallest. -/
def OpDiv.ShiftOk {S N : Type} : OpDiv S N → Prop
  | .op (.shlAssign k) => -2 ^ 31 < k ∧ k < 2 ^ 31
  | .op (.shrAssign k) => -2 ^ 31 < k ∧ k < 2 ^ 31
  | _ => True

/-- Divisors are finite and not zero. -/
def OpDiv.DivisorOk {S : Type} : OpDiv S (Fl f) → Prop
  | .divAssignScalar c => c.isFinite = true ∧ c.toRat ≠ 0
  | _ => True

/-- Zero is never multiplied by zero. -/
def NeverZeroTimesZero : ℚ[X] → List (OpDiv ℚ[X] ℚ) → Prop
  | _, [] => True
  | P, o :: ops => (∀ Q, o = .op (.mulAssign Q) → P ≠ 0 ∨ Q ≠ 0) ∧ NeverZeroTimesZero (absStepDiv P o) ops

/-- Running error bound: if every coefficient of the value before the operation is within `E` of the one of `P`,
the new one is within `errStep` of the exact result.  `len` is the number of stored coefficients of a
right factor, `val` its exact polynomial. -/
noncomputable def errStep {S : Type} (val : S → ℚ[X]) (len : S → Nat) (P : ℚ[X]) (E : Nat → ℚ) :
    OpDiv S (Fl f) → Nat → ℚ
  | .op (.addTerm c d), k => E k + if k = d then uro f * (|P.coeff d + c.toRat| + E d) else 0
  | .op (.trySubTerm c d), k => E k + if k = d then uro f * (|P.coeff d - c.toRat| + E d) else 0
  | .op (.addAssign q), k => E k + uro f * (|P.coeff k + (val q).coeff k| + E k)
  | .op (.subAssign q), k => E k + uro f * (|P.coeff k - (val q).coeff k| + E k)
  | .op (.mulAssign q), k =>
    (∑ x ∈ Finset.antidiagonal k, E x.1 * |(val q).coeff x.2|) +
      ((1 + uro f) ^ (len q + 1) - 1) *
        (∑ x ∈ Finset.antidiagonal k, (|P.coeff x.1| + E x.1) * |(val q).coeff x.2|) +
      len q * (1 + uro f) ^ len q * eta f
  | .op (.mulAssignScalar c), k => E k * |c.toRat| + uro f * ((|P.coeff k| + E k) * |c.toRat|) + eta f
  | .op (.shlAssign s), k => if 0 ≤ s then (if s.toNat ≤ k then E (k - s.toNat) else 0) else E (k + (-s).toNat)
  | .op (.shrAssign s), k => if 0 ≤ s then E (k + s.toNat) else (if (-s).toNat ≤ k then E (k - (-s).toNat) else 0)
  | .op .trim, k => E k
  | .op .setToZero, _ => 0
  | .divAssignScalar c, k => E k / |c.toRat| + uro f * ((|P.coeff k| + E k) / |c.toRat|) + eta f

/-- The bound after a sequence of operations. -/
noncomputable def errRun {S : Type} (val : S → ℚ[X]) (len : S → Nat) : ℚ[X] → (Nat → ℚ) → List (OpDiv S (Fl f)) → Nat → ℚ
  | _, E, [] => E
  | P, E, o :: ops => errRun val len (absStepDiv P (o.exact val)) (errStep val len P E o) ops

/-- Every value on the way is finite. -/
def FiniteRun {S O : Type} (fin : S → Prop) (step : S → O → Res S) : S → List O → Prop
  | s, [] => fin s
  | s, o :: ops => fin s ∧ ∀ s', step s o = .ok s' → FiniteRun fin step s' ops

/-- The results of the operation are below `2^p`; in a product also the sums of absolute values, and in a quotient the
results are whole. -/
def OpWhole (f : FlFmt) (P : ℚ[X]) : OpDiv ℚ[X] ℚ → Prop
  | .op (.addTerm c d) => |P.coeff d + c| < 2 ^ f.p
  | .op (.trySubTerm c d) => |P.coeff d - c| < 2 ^ f.p
  | .op (.addAssign Q) => ∀ k, |P.coeff k + Q.coeff k| < 2 ^ f.p
  | .op (.subAssign Q) => ∀ k, |P.coeff k - Q.coeff k| < 2 ^ f.p
  | .op (.mulAssign Q) => ∀ k, (∑ x ∈ Finset.antidiagonal k, |P.coeff x.1| * |Q.coeff x.2|) < 2 ^ f.p
  | .op (.mulAssignScalar c) => ∀ k, |P.coeff k * c| < 2 ^ f.p
  | .divAssignScalar c => ∀ k, (∃ n : ℤ, P.coeff k / c = n) ∧ |P.coeff k / c| < 2 ^ f.p
  | _ => True

/-- The same at every step of a history. -/
def WholeRun (f : FlFmt) : ℚ[X] → List (OpDiv ℚ[X] ℚ) → Prop
  | _, [] => True
  | P, o :: ops => OpWhole f P o ∧ WholeRun f (absStepDiv P o) ops

/-- The numbers in the operation are whole. -/
def OpDiv.Whole {S : Type} (whole : S → Prop) : OpDiv S (Fl f) → Prop
  | .op (.addTerm c _) => c.IntValued
  | .op (.trySubTerm c _) => c.IntValued
  | .op (.addAssign q) => whole q
  | .op (.subAssign q) => whole q
  | .op (.mulAssign q) => whole q
  | .op (.mulAssignScalar c) => c.IntValued
  | .divAssignScalar c => c.IntValued
  | _ => True

end Rustnomial
