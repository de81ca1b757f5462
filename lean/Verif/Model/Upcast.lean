import Verif.Model.Numerics
import Verif.Model.Sparse
import Verif.Model.Fixed

/-!
# The `upcast!` table and `as` casts (src/macros.rs)

A machine number is represented by the rational number it denotes.  Float infinities and NaN are
not modelled.
-/

namespace Rustnomial

/-- The primitive number types of the table. -/
inductive NumTy where
  | int (t : IntTy)
  | f32
  | f64
  deriving DecidableEq, Repr

namespace NumTy
/-- `u8`. -/
abbrev u8 : NumTy := .int ⟨false, 8⟩
/-- `u16`. -/
abbrev u16 : NumTy := .int ⟨false, 16⟩
/-- `u32`. -/
abbrev u32 : NumTy := .int ⟨false, 32⟩
/-- `u64`. -/
abbrev u64 : NumTy := .int ⟨false, 64⟩
/-- `u128`. -/
abbrev u128 : NumTy := .int ⟨false, 128⟩
/-- `i8`. -/
abbrev i8 : NumTy := .int ⟨true, 8⟩
/-- `i16`. -/
abbrev i16 : NumTy := .int ⟨true, 16⟩
/-- `i32`. -/
abbrev i32 : NumTy := .int ⟨true, 32⟩
/-- `i64`. -/
abbrev i64 : NumTy := .int ⟨true, 64⟩
/-- `i128`. -/
abbrev i128 : NumTy := .int ⟨true, 128⟩

/-- Precision in bits of the significand of a float type. -/
def precision : NumTy → Nat
  | .int _ => 0
  | .f32 => 24
  | .f64 => 53

end NumTy

open NumTy in
/-- `upcast!` (src/macros.rs 5-62): the pairs `(A, B)` for which `From<P<A>> for P<B>` exists, in
the order of the source. -/
def upcastTable : List (NumTy × NumTy) :=
  [(u8, u16), (u8, u32), (u8, u64), (u8, u128),
   (u16, u32), (u16, u64), (u16, u128),
   (u32, u64), (u32, u128),
   (u64, u128),
   (u8, i16), (u8, i32), (u8, i64), (u8, i128),
   (u16, i32), (u16, i64), (u16, i128),
   (u32, i64), (u32, i128),
   (u64, i128),
   (i8, i16), (i8, i32), (i8, i64), (i8, i128),
   (i16, i32), (i16, i64), (i16, i128),
   (i32, i64), (i32, i128),
   (i64, i128),
   (u8, f32), (u16, f32), (i8, f32), (i16, f32),
   (u8, f64), (u16, f64), (u32, f64), (i8, f64), (i16, f64), (i32, f64), (f32, f64)]

/-- The cast `x as B` of a value `x` of type `A` (used at src/polynomial/polynomial.rs 652,
sparsepolynomial.rs 237, monomial.rs 319, binomial.rs 282, trinomial.rs 326-328).
Integer to integer wraps, integer to float rounds to nearest even.  `f32 as f64` is exact by the
definition of the formats, modelled as the identity.  Float to integer and `f64 as f32` are not in
the table and not modelled (identity). -/
def castAs (A B : NumTy) (x : ℚ) : ℚ :=
  match A, B with
  | .int _, .int t => t.wrap x.num
  | .int _, .f32 => x.num.sign * roundNat 24 x.num.natAbs
  | .int _, .f64 => x.num.sign * roundNat 53 x.num.natAbs
  | _, _ => x

end Rustnomial
