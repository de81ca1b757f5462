import Verif.Res
import Mathlib.Algebra.Field.Basic
import Mathlib.Algebra.Field.Rat
import Mathlib.Algebra.Ring.Int.Defs
import Mathlib.Data.ZMod.Basic

/-!
# Numeric traits

Classes standing for the traits of the `num` crate and of `src/numerics.rs` that the generic code
relies on, with separate law classes.
-/

namespace Rustnomial

/-- `num::Zero::is_zero`. -/
class NumZero (N : Type) [Zero N] where
  isZero : N → Bool

export NumZero (isZero)

/-- Law of `is_zero` (true of integers, rationals and floats: `-0.0` counts as zero there because
equality of floats is what is tested). -/
class LawfulNumZero (N : Type) [Zero N] [NumZero N] : Prop where
  isZero_iff : ∀ a : N, isZero a = true ↔ a = 0

/-- `is_zero` of every exact type: comparison with zero. -/
instance (priority := 100) numZeroOfDecEq {N : Type} [Zero N] [DecidableEq N] : NumZero N where
  isZero a := decide (a = 0)

instance (priority := 100) {N : Type} [Zero N] [DecidableEq N] : LawfulNumZero N where
  isZero_iff a := by simp [isZero]

@[simp] theorem isZero_eq_true {N : Type} [Zero N] [NumZero N] [LawfulNumZero N] (a : N) :
    isZero a = true ↔ a = 0 := LawfulNumZero.isZero_iff a

@[simp] theorem isZero_eq_false {N : Type} [Zero N] [NumZero N] [LawfulNumZero N] (a : N) :
    isZero a = false ↔ a ≠ 0 := by
  rw [← Bool.not_eq_true, isZero_eq_true]

theorem isZero_zero {N : Type} [Zero N] [NumZero N] [LawfulNumZero N] : isZero (0 : N) = true := by
  simp

/-- Rust `/` on the coefficient type (`core::ops::Div`), which may panic. -/
class RDiv (N : Type) where
  rdiv : N → N → Res N

export RDiv (rdiv)

/-- Division of an exact field type: nothing is assumed about division by zero. -/
class LawfulRDiv (K : Type) [Field K] [RDiv K] : Prop where
  rdiv_eq : ∀ a b : K, b ≠ 0 → rdiv a b = .ok (a / b)

/-- Integer division of Rust: truncation toward zero, panic on zero divisor. -/
instance : RDiv Int where
  rdiv a b := if b = 0 then .panic else .ok (Int.tdiv a b)

/-- Rational division (as `num::Rational`): panic on zero divisor. -/
instance : RDiv ℚ where
  rdiv a b := if b = 0 then .panic else .ok (a / b)

instance : LawfulRDiv ℚ where
  rdiv_eq a b hb := by simp [rdiv, hb]

/-- `TryFromUsizeContinuous::try_from_usize_cont` (src/numerics.rs 350-422); `none` is `Err(())`. -/
class FromUsizeCont (N : Type) where
  tryFromCont : Nat → Option N

export FromUsizeCont (tryFromCont)

/-- What the generic code needs of a successful conversion: it is the number.  (Established for
the concrete types under C41.) -/
class LawfulFromUsizeCont (N : Type) [NatCast N] [FromUsizeCont N] : Prop where
  tryFromCont_eq : ∀ n (v : N), tryFromCont n = some v → v = (n : N)

/-- `TryFromUsizeExact::try_from_usize_exact` (src/numerics.rs 424-499). -/
class FromUsizeExact (N : Type) where
  tryFromExact : Nat → Option N

export FromUsizeExact (tryFromExact)

/-- What the generic code needs of a successful conversion. -/
class LawfulFromUsizeExact (N : Type) [NatCast N] [FromUsizeExact N] : Prop where
  tryFromExact_eq : ∀ n (v : N), tryFromExact n = some v → v = (n : N)

/-- `PowUsize::upow` (src/numerics.rs 84-121). -/
class PowUsize (N : Type) where
  upow : N → Nat → N

export PowUsize (upow)

/-- `upow` is exponentiation for exponents below `bound` (the cast of the exponent to `u32` for
integers, to `i32` for floats, is the identity there). -/
class LawfulPowUsize (N : Type) [Monoid N] [PowUsize N] where
  bound : Nat
  upow_eq : ∀ (a : N) (n : Nat), n < bound → upow a n = a ^ n

/-- `upow` of the integer types: `self.pow(exp as u32)`; the cast keeps the low 32 bits
(src/numerics.rs 88-109). -/
def upowInt {N : Type} [Monoid N] (a : N) (exp : Nat) : N := a ^ (exp % 2 ^ 32)

instance : PowUsize Int where
  upow := upowInt

instance : LawfulPowUsize Int where
  bound := 2 ^ 32
  upow_eq a n h := by simp only [upow, upowInt]; rw [Nat.mod_eq_of_lt h]

/-- `exp as i32`: low 32 bits, two's complement. -/
def asI32 (n : Nat) : Int := if n % 2 ^ 32 < 2 ^ 31 then (n % 2 ^ 32 : Nat) else ((n % 2 ^ 32 : Nat) : Int) - 2 ^ 32

/-- `upow` of the float types: `self.powi(exp as i32)` (src/numerics.rs 111-121), with the exact
power in place of the rounded one. -/
def upowFloat {K : Type} [DivisionRing K] (a : K) (exp : Nat) : K := a ^ (asI32 exp)

theorem upowFloat_eq {K : Type} [DivisionRing K] (a : K) (n : Nat) (h : n < 2 ^ 31) :
    upowFloat a n = a ^ n := by
  have h1 : n % 2 ^ 32 = n := Nat.mod_eq_of_lt (by omega)
  rw [upowFloat, asI32, h1, if_pos h]
  exact zpow_natCast a n

instance : PowUsize ℚ where
  upow := upowFloat

instance : LawfulPowUsize ℚ where
  bound := 2 ^ 31
  upow_eq a n h := upowFloat_eq a n h

/-- `CanNegate::can_negate` (src/numerics.rs 242-269). -/
class CanNegate (N : Type) where
  canNegate : Bool

instance : CanNegate Int := ⟨true⟩
instance : CanNegate ℚ := ⟨true⟩

/-- Ideal (unbounded) conversion, used to instantiate the generic theorems at exact types. -/
instance : FromUsizeCont Int := ⟨fun n => some n⟩
instance : LawfulFromUsizeCont Int := ⟨by simp [tryFromCont]⟩
instance : FromUsizeCont ℚ := ⟨fun n => some n⟩
instance : LawfulFromUsizeCont ℚ := ⟨by simp [tryFromCont]⟩
instance : FromUsizeExact Int := ⟨fun n => some n⟩
instance : LawfulFromUsizeExact Int := ⟨by simp [tryFromExact]⟩
instance : FromUsizeExact ℚ := ⟨fun n => some n⟩
instance : LawfulFromUsizeExact ℚ := ⟨by simp [tryFromExact]⟩

end Rustnomial
