import Verif.Num
import Mathlib.Data.Nat.Size
import Mathlib.Data.Int.Init

/-!
# Machine number types and `src/numerics.rs`

Machine integers are integers together with a type descriptor; floats reached by conversion from
`usize` are their exact (natural number) values.
-/

namespace Rustnomial

/-- A primitive integer type: `iN` (`signed`) or `uN`. -/
structure IntTy where
  signed : Bool
  bits : Nat
  deriving DecidableEq, Repr

namespace IntTy

/-- `<$T>::MIN`. -/
def min (t : IntTy) : Int := if t.signed then -2 ^ (t.bits - 1) else 0

/-- `<$T>::MAX`. -/
def max (t : IntTy) : Int := if t.signed then 2 ^ (t.bits - 1) - 1 else 2 ^ t.bits - 1

/-- The integers which are values of the type. -/
def InRange (t : IntTy) (v : Int) : Prop := t.min ≤ v ∧ v ≤ t.max

instance (t : IntTy) (v : Int) : Decidable (t.InRange v) := by unfold InRange; infer_instance

/-- The value of type `t` congruent to `v` modulo `2 ^ bits`: the cast `v as t` between integer
types, and wrapping arithmetic. -/
def wrap (t : IntTy) (v : Int) : Int :=
  if t.signed then Int.bmod v (2 ^ t.bits) else v % (2 ^ t.bits : Nat)

/-- The result of an operation in a build with overflow checks: panic when out of range. -/
def checked (t : IntTy) (v : Int) : Res Int := if t.InRange v then .ok v else .panic

end IntTy

/-- `IsNegativeOne::is_negative_one` (src/numerics.rs 3-43) of the integer type `t`: constant
`false` for unsigned types. -/
def isNegativeOne (t : IntTy) (v : Int) : Bool := if t.signed then decide (v = -1) else false

/-- `Abs::abs` (src/numerics.rs 45-82) of the integer type `t`.  `iN::MIN.abs()` overflows: a
panic with overflow checks (`chk`), `MIN` without. -/
def absInt (chk : Bool) (t : IntTy) (v : Int) : Res Int :=
  if t.signed then
    if chk then t.checked |v| else .ok (t.wrap |v|)
  else .ok v

/-- `IsPositive::is_positive` (src/numerics.rs 123-150). -/
def isPositiveInt (v : Int) : Bool := decide (v > 0)

/-! ## `AbsSqrt` -/

/-- Addition of `uN` values with overflow check (as in src/numerics.rs 166, 167, 179). -/
def uadd (w a b : Nat) : Res Nat := if a + b < 2 ^ w then .ok (a + b) else .panic

/-- Multiplication of `uN` values with overflow check (as in src/numerics.rs 182). -/
def umul (w a b : Nat) : Res Nat := if a * b < 2 ^ w then .ok (a * b) else .panic

/-- Division of unsigned values (as in src/numerics.rs 167, 179). -/
def udiv (a b : Nat) : Res Nat := if b = 0 then .panic else .ok (a / b)

/-- `uN::leading_zeros` (used at src/numerics.rs 164); `Nat.size n` is the number of bits of `n`. -/
def leadingZeros (w n : Nat) : Nat := w - n.size

/-- The `loop` of `abs_sqrt` (src/numerics.rs 168-180). -/
def absSqrtLoop (w n : Nat) : Nat → Nat → Nat → Res Nat
  | 0, _, _ => .fuel
  | f + 1, guess, res =>
    if (if res > guess then decide (res - guess ≤ 1) else decide (guess - res ≤ 1)) then .ok res
    else do
      let q ← udiv n res
      let s ← uadd w res q
      absSqrtLoop w n f res (s / 2)

/-- The `while` of `abs_sqrt` (src/numerics.rs 182-184). -/
def absSqrtDown (w n : Nat) : Nat → Nat → Res Nat
  | 0, _ => .fuel
  | f + 1, res => do
    let sq ← umul w res res
    if sq > n then do
      let r ← usub res 1
      absSqrtDown w n f r
    else .ok res

/-- `AbsSqrt::abs_sqrt` of the unsigned type with `w` bits (src/numerics.rs 156-189);
`zero().count_zeros()` is `w`. -/
def absSqrtU (w fuel n : Nat) : Res Nat :=
  if n < 2 then .ok n
  else do
    let shift ← usub w (leadingZeros w n)
    let guess ← uadd w (n >>> (shift / 2)) 1
    let q ← udiv n guess
    let s ← uadd w guess q
    let res ← absSqrtLoop w n fuel guess (s / 2)
    absSqrtDown w n fuel res

/-- `AbsSqrt::abs_sqrt` of the signed type with `w` bits (src/numerics.rs 191-199):
`(self.abs() as U).abs_sqrt() as T`. -/
def absSqrtI (chk : Bool) (w fuel : Nat) (v : Int) : Res Int := do
  let a ← absInt chk ⟨true, w⟩ v
  let r ← absSqrtU w fuel ((⟨false, w⟩ : IntTy).wrap a).toNat
  .ok ((⟨true, w⟩ : IntTy).wrap r)

/-! ## Conversions from `usize` -/

/-- `TryFromUsizeContinuous::try_from_usize_cont` for the unsigned types (src/numerics.rs 381-395)
and the signed types (397-411); `uw` is the width of `usize`.  `none` is `Err(Overflow)`.  Sizes
are compared in bits instead of bytes. -/
def tryFromUsizeContInt (uw : Nat) (t : IntTy) (num : Nat) : Option Int :=
  if (if t.signed then decide (t.bits > uw) else decide (t.bits ≥ uw)) then some (t.wrap num)
  else if (num : Int) > (⟨false, uw⟩ : IntTy).wrap t.max then none
  else some (t.wrap num)

/-- `TryFromUsizeExact::try_from_usize_exact` for the unsigned types (src/numerics.rs 458-472)
and the signed types (474-488): the same text as the continuous one. -/
def tryFromUsizeExactInt (uw : Nat) (t : IntTy) (num : Nat) : Option Int :=
  if (if t.signed then decide (t.bits > uw) else decide (t.bits ≥ uw)) then some (t.wrap num)
  else if (num : Int) > (⟨false, uw⟩ : IntTy).wrap t.max then none
  else some (t.wrap num)

/-- The cast `num as fN` to a binary float with `p` significant bits: round to nearest, ties to
even.  (All `u128` values but those next to `2^128` are far from overflowing `f32`; only `usize`
values are converted in src/numerics.rs 366, 376, 438, 449.) -/
def roundNat (p n : Nat) : Nat :=
  let e := n.size - p
  let q := n / 2 ^ e
  let r := n % 2 ^ e
  if 2 * r > 2 ^ e ∨ (2 * r = 2 ^ e ∧ q % 2 = 1) then (q + 1) * 2 ^ e else q * 2 ^ e

/-- The cast `conv as usize` of a non-negative integral float: saturating
(src/numerics.rs 439, 450). -/
def floatToUsize (uw conv : Nat) : Nat := if conv ≤ 2 ^ uw - 1 then conv else 2 ^ uw - 1

/-- `try_from_usize_cont` of `f32` (src/numerics.rs 361-369); `2 << 23`. -/
def tryFromUsizeContF32 (num : Nat) : Option Nat := if num > 2 <<< 23 then none else some (roundNat 24 num)

/-- `try_from_usize_cont` of `f64` (src/numerics.rs 371-379); `2 << 51`. -/
def tryFromUsizeContF64 (num : Nat) : Option Nat := if num > 2 <<< 51 then none else some (roundNat 53 num)

/-- `try_from_usize_exact` of the float with `p` significant bits: 24 for `f32`
(src/numerics.rs 436-445), 53 for `f64` (447-456).  `none` is `Err(Unrepresentable)`. -/
def tryFromUsizeExactFloat (uw p num : Nat) : Option Nat :=
  let conv := roundNat p num
  if floatToUsize uw conv = num then some conv else none

end Rustnomial
