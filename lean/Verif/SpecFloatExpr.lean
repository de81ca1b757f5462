import Verif.SpecExpr
import Verif.SpecFloatPow

/-!
# Specification of expressions in floating point
-/

open Polynomial

namespace Rustnomial
open Fl

/-- The same expression with other numbers. -/
def RExpr.map {M N : Type} (g : M → N) : RExpr M → RExpr N
  | .lit cs => .lit (cs.map g)
  | .neg a => .neg (a.map g)
  | .add a b => .add (a.map g) (b.map g)
  | .sub a b => .sub (a.map g) (b.map g)
  | .mul a b => .mul (a.map g) (b.map g)
  | .pow a n => .pow (a.map g) n
  | .scale a c => .scale (a.map g) (g c)
  | .shl a k => .shl (a.map g) k

/-- The expression with every number replaced by its absolute value, every difference by a sum and negations left out. -/
noncomputable def RExpr.major : RExpr ℚ → ℚ[X]
  | .lit cs => descPoly (cs.map fun c => |c|)
  | .neg a => a.major
  | .add a b => a.major + b.major
  | .sub a b => a.major + b.major
  | .mul a b => a.major * b.major
  | .pow a n => a.major ^ n
  | .scale a c => C |c| * a.major
  | .shl a k => a.major * X ^ k

/-- A bound of the number of coefficients of the value. -/
def RExpr.size {N : Type} : RExpr N → Nat
  | .lit cs => cs.length
  | .neg a => a.size
  | .add a b => max a.size b.size
  | .sub a b => max a.size b.size
  | .mul a b => a.size + b.size - 1
  | .pow a n => n * (a.size - 1) + 1
  | .scale a _ => a.size
  | .shl a k => a.size + k

/-- The roundings counted for one coefficient of the value: one for a sum or a difference, two for a multiple, `2 n + 1` for a product by
`n` coefficients, `(n - 1)(2 n d + 3)` for an `n`-th power of degree `d`, besides those of the operands. -/
def RExpr.rounds {N : Type} : RExpr N → Nat
  | .lit _ => 0
  | .neg a => a.rounds
  | .add a b => max a.rounds b.rounds + 1
  | .sub a b => max a.rounds b.rounds + 1
  | .mul a b => a.rounds + b.rounds + (2 * b.size + 1)
  | .pow a n => n * a.rounds + powRounds n (a.size - 1)
  | .scale a _ => a.rounds + 2
  | .shl a _ => a.rounds

/-- Every coefficient that is not zero is at least the smallest normal number. -/
def NormalCoeffs (f : FlFmt) (P : ℚ[X]) : Prop := ∀ k, P.coeff k ≠ 0 → minNormal f ≤ P.coeff k

/-- Products cannot underflow: the polynomials of absolute values of products, multiples and powers (also of the smaller powers met on the
way) have no coefficient below the smallest normal number but zero. -/
def RExpr.Normal (f : FlFmt) : RExpr ℚ → Prop
  | .lit _ => True
  | .neg a => a.Normal f
  | .add a b => a.Normal f ∧ b.Normal f
  | .sub a b => a.Normal f ∧ b.Normal f
  | .mul a b => a.Normal f ∧ b.Normal f ∧ NormalCoeffs f (a.major * b.major)
  | .pow a n => a.Normal f ∧ ∀ m, 2 ≤ m → m ≤ n → NormalCoeffs f (a.major ^ m)
  | .scale a c => a.Normal f ∧ NormalCoeffs f (C |c| * a.major)
  | .shl a _ => a.Normal f

/-- The expression and its parts. -/
def RExpr.parts {N : Type} : RExpr N → List (RExpr N)
  | .lit cs => [.lit cs]
  | .neg a => .neg a :: a.parts
  | .add a b => .add a b :: (a.parts ++ b.parts)
  | .sub a b => .sub a b :: (a.parts ++ b.parts)
  | .mul a b => .mul a b :: (a.parts ++ b.parts)
  | .pow a n => .pow a n :: a.parts
  | .scale a c => .scale a c :: a.parts
  | .shl a k => .shl a k :: a.parts

/-- Every value on the way, if there is one, satisfies `fin`. -/
def RExpr.AllValues {V N : Type} (o : ROps V N) (fin : V → Prop) (e : RExpr N) : Prop := ∀ s ∈ e.parts, ∀ r, s.run o = .ok r → fin r

/-- The polynomial of absolute values. -/
noncomputable def absCoeffs (P : ℚ[X]) : ℚ[X] := ∑ k ∈ P.support, C |P.coeff k| * X ^ k

/-- The bounds under which an expression on whole numbers is exact: sums, differences and multiples below `2^p`, products and powers below
`2^p` when computed with absolute values. -/
def WholeExpr (f : FlFmt) (e : RExpr ℚ) : Prop :=
  e.Goes (fun P => ∀ k, |P.coeff k| < 2 ^ f.p) (fun P Q => ∀ k, (absCoeffs P * absCoeffs Q).coeff k < 2 ^ f.p)
    fun P n => ∀ k, (absCoeffs P ^ n).coeff k < 2 ^ f.p

/-- The expression with every polynomial replaced by the sum of the absolute values of its coefficients and every difference by a sum. -/
def RExpr.total : RExpr ℚ → ℚ
  | .lit cs => (cs.map fun c => |c|).sum
  | .neg a => a.total
  | .add a b => a.total + b.total
  | .sub a b => a.total + b.total
  | .mul a b => a.total * b.total
  | .pow a n => a.total ^ n
  | .scale a c => |c| * a.total
  | .shl a _ => a.total

end Rustnomial
