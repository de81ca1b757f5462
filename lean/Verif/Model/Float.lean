import Verif.Model.Dense
import Verif.Model.Numerics

/-!
# Binary floating point coefficients

`f32` and `f64` as coefficient types: IEEE 754 binary formats with round to nearest, ties to even,
including signed zeros, subnormal numbers, overflow to infinity and NaN.  With the instances of this file
the generic functions of `Model/Dense.lean` are the float instances of the Rust functions.

Every finite number of a format is a whole multiple of its smallest positive number `2^-q`, so a finite
float is a sign and a natural number of such units.  Not modelled: the payload and sign of NaN (the code
never looks at them).  The arithmetic is that of the Rust primitive types, it models no line of `/repo`; the
lines of `/repo` that use it are those cited in `Model/Dense.lean`.
-/

namespace Rustnomial

/-- A binary format: `p` significant bits, smallest positive number `2^-q`, numbers of `2^w` units or more
are infinite. -/
structure FlFmt where
  p : Nat
  q : Nat
  w : Nat
  deriving DecidableEq, Repr

/-- `f64`: 53 bits, subnormal step `2^-1074`, overflow at `2^1024`. -/
def binary64 : FlFmt := ⟨53, 1074, 2098⟩

/-- `f32`: 24 bits, subnormal step `2^-149`, overflow at `2^128`. -/
def binary32 : FlFmt := ⟨24, 149, 277⟩

/-- A float: NaN, an infinity, or a sign and a number of units `2^-q`.  (Values with more than `p`
significant bits are excluded by `Fl.Valid`.) -/
inductive Fl (f : FlFmt) where
  | nan
  | inf (neg : Bool)
  | fin (neg : Bool) (mag : Nat)
  deriving DecidableEq, Repr

/-- Round the positive rational `num / den` to `p` significant bits, but not finer than whole units: to
nearest, ties to even. -/
def roundRat (p num den : Nat) : Nat :=
  let e := (num / den).size - p
  let d := den * 2 ^ e
  let k := num / d
  let r := num % d
  if 2 * r > d ∨ (2 * r = d ∧ k % 2 = 1) then (k + 1) * 2 ^ e else k * 2 ^ e

namespace Fl
variable {f : FlFmt}

/-- A magnitude that is too large becomes an infinity. -/
def pack (neg : Bool) (mag : Nat) : Fl f := if mag < 2 ^ f.w then .fin neg mag else .inf neg

/-- `0.0`. -/
instance : Zero (Fl f) := ⟨.fin false 0⟩

/-- `1.0`. -/
instance : One (Fl f) := ⟨.fin false (2 ^ f.q)⟩

/-- Unary minus flips the sign. -/
def neg : Fl f → Fl f
  | .nan => .nan
  | .inf s => .inf (!s)
  | .fin s a => .fin (!s) a

instance : Neg (Fl f) := ⟨neg⟩

/-- Addition. -/
def add : Fl f → Fl f → Fl f
  | .nan, _ => .nan
  | _, .nan => .nan
  | .inf s, .inf t => if s = t then .inf s else .nan
  | .inf s, .fin _ _ => .inf s
  | .fin _ _, .inf t => .inf t
  | .fin s a, .fin t b =>
    if s = t then pack s (roundRat f.p (a + b) 1)
    else if a = b then .fin false 0
    else if b < a then pack s (roundRat f.p (a - b) 1)
    else pack t (roundRat f.p (b - a) 1)

instance : Add (Fl f) := ⟨add⟩

/-- Subtraction is addition of the negated operand. -/
instance : Sub (Fl f) := ⟨fun x y => x + -y⟩

/-- Multiplication. -/
def mul : Fl f → Fl f → Fl f
  | .nan, _ => .nan
  | _, .nan => .nan
  | .inf s, .inf t => .inf (s != t)
  | .inf s, .fin t b => if b = 0 then .nan else .inf (s != t)
  | .fin s a, .inf t => if a = 0 then .nan else .inf (s != t)
  | .fin s a, .fin t b => pack (s != t) (roundRat f.p (a * b) (2 ^ f.q))

instance : Mul (Fl f) := ⟨mul⟩

/-- Division. -/
def div : Fl f → Fl f → Fl f
  | .nan, _ => .nan
  | _, .nan => .nan
  | .inf _, .inf _ => .nan
  | .inf s, .fin t _ => .inf (s != t)
  | .fin s _, .inf t => .fin (s != t) 0
  | .fin s a, .fin t b =>
    if b = 0 then (if a = 0 then .nan else .inf (s != t))
    else pack (s != t) (roundRat f.p (a * 2 ^ f.q) b)

/-- Float division never panics. -/
instance : RDiv (Fl f) := ⟨fun x y => .ok (div x y)⟩

/-- `==` of floats: NaN differs from everything, the two zeros are equal. -/
def beq : Fl f → Fl f → Bool
  | .inf s, .inf t => s == t
  | .fin s a, .fin t b => a == b && (s == t || a == 0)
  | _, _ => false

instance : BEq (Fl f) := ⟨beq⟩

/-- `num::Zero::is_zero` of the float types: `*self == 0.0`. -/
instance : NumZero (Fl f) := ⟨fun x => x == 0⟩

/-- The conversion of a natural number that is exact in the format. -/
def ofNat (n : Nat) : Fl f := pack false (roundNat f.p n * 2 ^ f.q)

/-- `try_from_usize_cont` of `f64` (src/numerics.rs 371-379). -/
instance : FromUsizeCont (Fl binary64) := ⟨fun n => (tryFromUsizeContF64 n).map ofNat⟩

/-- `try_from_usize_cont` of `f32` (src/numerics.rs 361-369). -/
instance : FromUsizeCont (Fl binary32) := ⟨fun n => (tryFromUsizeContF32 n).map ofNat⟩

end Fl

end Rustnomial
