import Verif.Model.Machine
import Verif.Model.Usize
import Verif.Model.PolyMath
import Verif.Model.Strings

/-!
# Building polynomials term by term on a machine

The functions of `Model/PolyMath.lean` and `Model/Strings.lean` which add terms one after the other – `from_terms`,
`add_poly`, `sub_poly`, `mul_poly_vec`, `poly_add!`, `poly_sub!` and `FromStr` – once more, for coefficients of a primitive
integer type, degrees of type `usize` and vectors of bounded size.
-/

namespace Rustnomial

/-- What a build decides: the arithmetic of the coefficient type and its `can_negate` (src/numerics.rs 256-267), `usize`,
and the largest number of coefficients a `Vec` can hold (`isize::MAX` bytes; models no line of the repository). -/
structure Env where
  ar : Arith
  canNegate : Bool
  usz : USz
  cap : Nat

/-- The primitive type `t`, a `usize` of `bits` bits and vectors of at most `cap` elements, with or without overflow
checks. -/
def Env.machine (chk : Bool) (t : IntTy) (bits cap : Nat) : Env := ⟨.machine chk t, t.canNegate, ⟨bits, chk⟩, cap⟩

/-- Making room for `n` elements in a `Vec`, which panics with `capacity overflow` when they take more than `isize::MAX`
bytes (standard library).  That growing a vector asks for twice its old capacity at least, and that the memory may
be exhausted before, is left out. -/
def Env.alloc (E : Env) (n : Nat) : Res Unit := if n ≤ E.cap then .ok () else .panic

namespace Poly

/-- `add_term` (src/polynomial/polynomial.rs 315-323). -/
def addTermE (E : Env) (p : Poly Int) (coeff : Int) (degree : Nat) : Res (Poly Int) := do
  let need ← E.usz.add degree 1
  let terms ← if p.terms.length < need then do
      let need ← E.usz.add degree 1
      let addedZeros ← E.usz.sub need p.terms.length
      E.alloc (addedZeros + p.terms.length)
      Res.ok (List.replicate addedZeros 0 ++ p.terms)
    else Res.ok p.terms
  let i ← E.usz.sub terms.length degree
  let index ← E.usz.sub i 1
  let terms ← modifyM (fun x => E.ar.add x coeff) terms index
  .ok ⟨terms⟩

/-- `try_add_term` (src/polynomial/polynomial.rs 243-245). -/
def tryAddTermE (E : Env) (p : Poly Int) (coeff : Int) (degree : Nat) : Res (Poly Int × Except TryAddError Unit) := do
  let p ← p.addTermE E coeff degree
  .ok (p, .ok ())

/-- `try_sub_term` (src/polynomial/polynomial.rs 247-260). -/
def trySubTermE (E : Env) (p : Poly Int) (coeff : Int) (degree : Nat) : Res (Poly Int × Except TryAddError Unit) := do
  let need ← E.usz.add degree 1
  if p.terms.length < need ∧ E.canNegate = false then .ok (p, .error .canNotNegate)
  else do
    let terms ← if p.terms.length < need then do
        let need ← E.usz.add degree 1
        let addedZeros ← E.usz.sub need p.terms.length
        E.alloc (addedZeros + p.terms.length)
        Res.ok (List.replicate addedZeros 0 ++ p.terms)
      else Res.ok p.terms
    let i ← E.usz.sub terms.length degree
    let index ← E.usz.sub i 1
    let terms ← modifyM (fun x => E.ar.sub x coeff) terms index
    .ok (⟨terms⟩, .ok ())

/-- `from_terms` (src/polynomial/polynomial.rs 307-313). -/
def fromTermsE (E : Env) (terms : List (Int × Nat)) : Res (Poly Int) :=
  terms.foldlM (fun a t => a.addTermE E t.1 t.2) ⟨[]⟩

end Poly

/-- `try_add_term` (src/polynomial/sparsepolynomial.rs 165-167). -/
def Sparse.tryAddTermM (A : Arith) (p : Sparse Int) (coeff : Int) (degree : Nat) :
    Res (Sparse Int × Except TryAddError Unit) := do
  let p ← p.addTermM A coeff degree
  .ok (p, .ok ())

/-- `from_terms` (src/polynomial/sparsepolynomial.rs 264-270). -/
def Sparse.fromTermsM (A : Arith) (terms : List (Int × Nat)) : Res (Sparse Int) :=
  terms.foldlM (fun a t => a.addTermM A t.1 t.2) ⟨.empty⟩

/-- `MutablePolynomial` (src/polynomial/traits.rs 58-75). -/
class MutPolyM (S : Type) where
  tryAddTermM : Env → S → Int → Nat → Res (S × Except TryAddError Unit)
  trySubTermM : Env → S → Int → Nat → Res (S × Except TryAddError Unit)

/-- `impl MutablePolynomial for Polynomial` (src/polynomial/polynomial.rs 239-261). -/
instance : MutPolyM (Poly Int) := ⟨Poly.tryAddTermE, Poly.trySubTermE⟩

/-- `impl MutablePolynomial for SparsePolynomial` (src/polynomial/sparsepolynomial.rs 161-189). -/
instance : MutPolyM (Sparse Int) := ⟨fun E => Sparse.tryAddTermM E.ar, fun E => Sparse.trySubTermM E.ar E.canNegate⟩

/-- `impl MutablePolynomial for Monomial` (src/polynomial/monomial.rs 133-162). -/
instance : MutPolyM (Monomial Int) := ⟨fun E => Monomial.tryAddTermM E.ar, fun E => Monomial.trySubTermM E.ar⟩

/-- `impl MutablePolynomial for LinearBinomial` (src/polynomial/binomial.rs 156-177). -/
instance : MutPolyM (LinearBinomial Int) :=
  ⟨fun E => LinearBinomial.tryAddTermM E.ar, fun E => LinearBinomial.trySubTermM E.ar⟩

/-- `impl MutablePolynomial for QuadraticTrinomial` (src/polynomial/trinomial.rs 190-211). -/
instance : MutPolyM (QuadraticTrinomial Int) :=
  ⟨fun E => QuadraticTrinomial.tryAddTermM E.ar, fun E => QuadraticTrinomial.trySubTermM E.ar⟩

/-- `try_add_term` (src/polynomial/array_polynomial.rs 36-43); the index is smaller than `SIZE`. -/
def ArrayPoly.tryAddTermE {size : Nat} (E : Env) (p : ArrayPoly Int size) (coeff : Int) (degree : Nat) :
    Res (ArrayPoly Int size × Except TryAddError Unit) :=
  if degree < size then do
    let v ← E.ar.add (p.coefficients.getD (size - degree - 1) 0) coeff
    .ok (⟨p.coefficients.set (size - degree - 1) v, by simp [p.length_eq]⟩, .ok ())
  else .ok (p, .error .degreeOutOfBounds)

/-- `try_sub_term` (src/polynomial/array_polynomial.rs 45-52). -/
def ArrayPoly.trySubTermE {size : Nat} (E : Env) (p : ArrayPoly Int size) (coeff : Int) (degree : Nat) :
    Res (ArrayPoly Int size × Except TryAddError Unit) :=
  if degree < size then do
    let v ← E.ar.sub (p.coefficients.getD (size - degree - 1) 0) coeff
    .ok (⟨p.coefficients.set (size - degree - 1) v, by simp [p.length_eq]⟩, .ok ())
  else .ok (p, .error .degreeOutOfBounds)

/-- `impl MutablePolynomial for ArrayPolynomial` (src/polynomial/array_polynomial.rs 32-53). -/
instance {size : Nat} : MutPolyM (ArrayPoly Int size) := ⟨ArrayPoly.tryAddTermE, ArrayPoly.trySubTermE⟩

section
variable {S : Type} [MutPolyM S]

/-- `add_poly` (src/polynomial/poly_math.rs 47-59). -/
def addPolyM (E : Env) : List (Int × Nat) → S → Res (S × Except TryAddError Unit)
  | [], sink => .ok (sink, .ok ())
  | (coeff, deg) :: poly, sink => do
    let (sink, r) ← MutPolyM.tryAddTermM E sink coeff deg
    match r with
    | .ok () => addPolyM E poly sink
    | .error e => .ok (sink, .error e)

/-- `sub_poly` (src/polynomial/poly_math.rs 135-147). -/
def subPolyM (E : Env) : List (Int × Nat) → S → Res (S × Except TryAddError Unit)
  | [], sink => .ok (sink, .ok ())
  | (coeff, deg) :: poly, sink => do
    let (sink, r) ← MutPolyM.trySubTermM E sink coeff deg
    match r with
    | .ok () => subPolyM E poly sink
    | .error e => .ok (sink, .error e)

/-- Inner loop of `mul_poly_vec` (src/polynomial/poly_math.rs 114-116). -/
def mulPolyVecInnerM (E : Env) (rcoeff : Int) (rdeg : Nat) :
    List (Int × Nat) → S → Res (S × Except TryAddError Unit)
  | [], sink => .ok (sink, .ok ())
  | (lcoeff, ldeg) :: lhs, sink => do
    let c ← E.ar.mul rcoeff lcoeff
    let d ← E.usz.add rdeg ldeg
    let (sink, r) ← MutPolyM.tryAddTermM E sink c d
    match r with
    | .ok () => mulPolyVecInnerM E rcoeff rdeg lhs sink
    | .error e => .ok (sink, .error e)

/-- `mul_poly_vec` (src/polynomial/poly_math.rs 105-120). -/
def mulPolyVecM (E : Env) : List (Int × Nat) → List (Int × Nat) → S → Res (S × Except TryAddError Unit)
  | [], _, sink => .ok (sink, .ok ())
  | (rcoeff, rdeg) :: rhs, lhs, sink => do
    let (sink, r) ← mulPolyVecInnerM E rcoeff rdeg lhs sink
    match r with
    | .ok () => mulPolyVecM E rhs lhs sink
    | .error e => .ok (sink, .error e)

/-- `poly_add!(sink; x1, ..., xk)` (src/polynomial/poly_math.rs 19-31). -/
def polyAddSinkM (E : Env) (xs : List (List (Int × Nat))) (sink : S) : Res (S × Except TryAddError Unit) := do
  let r ← xs.foldlM (fun (st : S × List (Except TryAddError Unit)) x => do
    let r ← addPolyM E x st.1
    Res.ok (r.1, st.2 ++ [r.2])) (sink, [])
  .ok (r.1, firstError r.2)

/-- `poly_sub!(sink; x1, ..., xk)` (src/polynomial/poly_math.rs 160-172). -/
def polySubSinkM (E : Env) (xs : List (List (Int × Nat))) (sink : S) : Res (S × Except TryAddError Unit) := do
  let r ← xs.foldlM (fun (st : S × List (Except TryAddError Unit)) x => do
    let r ← subPolyM E x st.1
    Res.ok (r.1, st.2 ++ [r.2])) (sink, [])
  .ok (r.1, firstError r.2)

/-- The `for` loop of `from_str` (src/strings.rs 46-60) and the code after it (61-65). -/
def fromStrLoopM (E : Env) (parse : List Char → Option Int) (s : List Char) :
    Nat → Tokenizer → S → Bool → Res (Except PolynomialFromStringError S)
  | 0, _, _, _ => .fuel
  | f + 1, tok, polynomial, hasIterated =>
    match tok.next with
    | (none, _) => if hasIterated then .ok (.ok polynomial) else .ok (.error .noTermsFound)
    | (some (a, b), tok') => do
      let sub ← sliceStr s a b
      match Term.fromStr parse E.usz.bits sub with
      | .error e => .ok (.error (.termFromString e))
      | .ok .zeroTerm => fromStrLoopM E parse s f tok' polynomial true
      | .ok (.term coeff deg) => do
        let (polynomial, r) ← MutPolyM.tryAddTermM E polynomial coeff deg
        match r with
        | .error e => .ok (.error (.addingTerm e))
        | .ok () => fromStrLoopM E parse s f tok' polynomial true

/-- `poly_from_str!` (src/strings.rs 32-69): `zero` is `$T::zero()`. -/
def polyFromStrM (E : Env) (zero : S) (parse : List Char → Option Int) (s : List Char) :
    Res (Except PolynomialFromStringError S) :=
  fromStrLoopM E parse s (s.length + 2) (Tokenizer.new s) zero false

end

/-- `poly_add!(x1, ..., xk)` (src/polynomial/poly_math.rs 11-17). -/
def polyAddM (E : Env) (xs : List (List (Int × Nat))) : Res (Poly Int) := do
  let r ← polyAddSinkM E xs (Poly.zero : Poly Int)
  .ok r.1

/-- `poly_sub!(lhs, x1, ..., xk)` (src/polynomial/poly_math.rs 152-158); results are ignored. -/
def polySubM (E : Env) (lhs : List (Int × Nat)) (xs : List (List (Int × Nat))) : Res (Poly Int) := do
  let sink ← polyAddSinkM E [lhs] (Poly.zero : Poly Int)
  let r ← polySubSinkM E xs sink.1
  .ok r.1

/-- `impl FromStr for Polynomial` (src/polynomial/polynomial.rs 659), for the coefficient type `t`. -/
def Poly.fromStrM (E : Env) (t : IntTy) (s : List Char) : Res (Except PolynomialFromStringError (Poly Int)) :=
  polyFromStrM E Poly.zero (parseInt t) s

/-- `impl FromStr for SparsePolynomial` (src/polynomial/sparsepolynomial.rs 244). -/
def Sparse.fromStrM (E : Env) (t : IntTy) (s : List Char) : Res (Except PolynomialFromStringError (Sparse Int)) :=
  polyFromStrM E Sparse.zero (parseInt t) s

/-- `impl FromStr for Monomial` (src/polynomial/monomial.rs 326). -/
def Monomial.fromStrM (E : Env) (t : IntTy) (s : List Char) : Res (Except PolynomialFromStringError (Monomial Int)) :=
  polyFromStrM E Monomial.zero (parseInt t) s

/-- `impl FromStr for LinearBinomial` (src/polynomial/binomial.rs 289). -/
def LinearBinomial.fromStrM (E : Env) (t : IntTy) (s : List Char) :
    Res (Except PolynomialFromStringError (LinearBinomial Int)) := polyFromStrM E LinearBinomial.zero (parseInt t) s

/-- `impl FromStr for QuadraticTrinomial` (src/polynomial/trinomial.rs 336). -/
def QuadraticTrinomial.fromStrM (E : Env) (t : IntTy) (s : List Char) :
    Res (Except PolynomialFromStringError (QuadraticTrinomial Int)) :=
  polyFromStrM E QuadraticTrinomial.zero (parseInt t) s

end Rustnomial
