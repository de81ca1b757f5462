import Verif.Model.Fixed

/-!
# Generic traits and sink arithmetic
(src/polynomial/traits.rs, src/polynomial/poly_math.rs, src/polynomial/integral.rs)

A Rust `&mut self` method returning `Result` is a function returning the new value of `*self`
together with the result.
-/

namespace Rustnomial

/-- `MutablePolynomial` (src/polynomial/traits.rs 58-75). -/
class MutPoly (N S : Type) where
  tryAddTerm : S → N → Nat → S × Except TryAddError Unit
  trySubTerm : S → N → Nat → S × Except TryAddError Unit

/-- `impl MutablePolynomial for Polynomial` (src/polynomial/polynomial.rs 239-261). -/
instance {N : Type} [Zero N] [Add N] [Sub N] [CanNegate N] : MutPoly N (Poly N) :=
  ⟨Poly.tryAddTerm, Poly.trySubTerm⟩

/-- `impl MutablePolynomial for SparsePolynomial` (src/polynomial/sparsepolynomial.rs 161-189). -/
instance {N : Type} [Zero N] [NumZero N] [Add N] [Sub N] [CanNegate N] : MutPoly N (Sparse N) :=
  ⟨Sparse.tryAddTerm, Sparse.trySubTerm⟩

/-- `impl MutablePolynomial for Monomial` (src/polynomial/monomial.rs 133-162). -/
instance {N : Type} [Zero N] [NumZero N] [Add N] [Sub N] : MutPoly N (Monomial N) :=
  ⟨Monomial.tryAddTerm, Monomial.trySubTerm⟩

/-- `impl MutablePolynomial for LinearBinomial` (src/polynomial/binomial.rs 156-177). -/
instance {N : Type} [Add N] [Sub N] : MutPoly N (LinearBinomial N) :=
  ⟨LinearBinomial.tryAddTerm, LinearBinomial.trySubTerm⟩

/-- `impl MutablePolynomial for QuadraticTrinomial` (src/polynomial/trinomial.rs 190-211). -/
instance {N : Type} [Add N] [Sub N] : MutPoly N (QuadraticTrinomial N) :=
  ⟨QuadraticTrinomial.tryAddTerm, QuadraticTrinomial.trySubTerm⟩

/-- `impl MutablePolynomial for ArrayPolynomial` (src/polynomial/array_polynomial.rs 32-53). -/
instance {N : Type} {size : Nat} [Add N] [Sub N] : MutPoly N (ArrayPoly N size) :=
  ⟨ArrayPoly.tryAddTerm, ArrayPoly.trySubTerm⟩

/-- `add_poly` (src/polynomial/poly_math.rs 47-59), on the list of items of the iterator: final
value of `*sink` and result.  `?` returns at the first error. -/
def addPoly {N S : Type} [MutPoly N S] : List (N × Nat) → S → S × Except TryAddError Unit
  | [], sink => (sink, .ok ())
  | (coeff, deg) :: poly, sink =>
    match MutPoly.tryAddTerm sink coeff deg with
    | (sink, .ok ()) => addPoly poly sink
    | (sink, .error e) => (sink, .error e)

/-- `sub_poly` (src/polynomial/poly_math.rs 135-147). -/
def subPoly {N S : Type} [MutPoly N S] : List (N × Nat) → S → S × Except TryAddError Unit
  | [], sink => (sink, .ok ())
  | (coeff, deg) :: poly, sink =>
    match MutPoly.trySubTerm sink coeff deg with
    | (sink, .ok ()) => subPoly poly sink
    | (sink, .error e) => (sink, .error e)

/-- Inner loop of `mul_poly_vec` (src/polynomial/poly_math.rs 114-116). -/
def mulPolyVecInner {N S : Type} [MutPoly N S] [Mul N] (rcoeff : N) (rdeg : Nat) :
    List (N × Nat) → S → S × Except TryAddError Unit
  | [], sink => (sink, .ok ())
  | (lcoeff, ldeg) :: lhs, sink =>
    match MutPoly.tryAddTerm sink (rcoeff * lcoeff) (rdeg + ldeg) with
    | (sink, .ok ()) => mulPolyVecInner rcoeff rdeg lhs sink
    | (sink, .error e) => (sink, .error e)

/-- `mul_poly_vec` (src/polynomial/poly_math.rs 105-120). -/
def mulPolyVec {N S : Type} [MutPoly N S] [Mul N] :
    List (N × Nat) → List (N × Nat) → S → S × Except TryAddError Unit
  | [], _, sink => (sink, .ok ())
  | (rcoeff, rdeg) :: rhs, lhs, sink =>
    match mulPolyVecInner rcoeff rdeg lhs sink with
    | (sink, .ok ()) => mulPolyVec rhs lhs sink
    | (sink, .error e) => (sink, .error e)

/-- Collecting `Vec<Result<(), E>>` into a `Result` and mapping it as in the macros
(src/polynomial/poly_math.rs 22-30, 163-171): the first error, if any. -/
def firstError : List (Except TryAddError Unit) → Except TryAddError Unit
  | [] => .ok ()
  | .ok () :: rs => firstError rs
  | .error e :: _ => .error e

/-- `poly_add!(sink; x1, ..., xk)` (src/polynomial/poly_math.rs 19-31): every `add_poly` call runs,
in order, even after one has failed; then the results are collected. -/
def polyAddSink {N S : Type} [MutPoly N S] (xs : List (List (N × Nat))) (sink : S) :
    S × Except TryAddError Unit :=
  let r := xs.foldl (fun (st : S × List (Except TryAddError Unit)) x =>
    let r := addPoly x st.1
    (r.1, st.2 ++ [r.2])) (sink, [])
  (r.1, firstError r.2)

/-- `poly_sub!(sink; x1, ..., xk)` (src/polynomial/poly_math.rs 160-172). -/
def polySubSink {N S : Type} [MutPoly N S] (xs : List (List (N × Nat))) (sink : S) :
    S × Except TryAddError Unit :=
  let r := xs.foldl (fun (st : S × List (Except TryAddError Unit)) x =>
    let r := subPoly x st.1
    (r.1, st.2 ++ [r.2])) (sink, [])
  (r.1, firstError r.2)

/-- `poly_add!(x1, ..., xk)` (src/polynomial/poly_math.rs 11-17); the arguments are given by their
`ordered_term_iter()`. -/
def polyAdd {N : Type} [Zero N] [Add N] [Sub N] [CanNegate N] (xs : List (List (N × Nat))) : Poly N :=
  (polyAddSink xs (Poly.zero : Poly N)).1

/-- `poly_sub!(lhs, x1, ..., xk)` (src/polynomial/poly_math.rs 152-158); results are ignored. -/
def polySub {N : Type} [Zero N] [Add N] [Sub N] [CanNegate N] (lhs : List (N × Nat))
    (xs : List (List (N × Nat))) : Poly N :=
  let sink := (polyAddSink [lhs] (Poly.zero : Poly N)).1
  (polySubSink xs sink).1

/-- The part of `FreeSizePolynomial` and `Evaluable` used by `Integral`
(src/polynomial/traits.rs 77-90). -/
class FreeSizeEval (N P : Type) where
  addTerm : P → N → Nat → P
  eval : P → N → N

/-- `impl FreeSizePolynomial` and `Evaluable` for `Polynomial` (src/polynomial/polynomial.rs 288-362). -/
instance {N : Type} [Zero N] [NumZero N] [Add N] [Mul N] : FreeSizeEval N (Poly N) :=
  ⟨Poly.addTerm, Poly.eval⟩

/-- `impl FreeSizePolynomial` and `Evaluable` for `SparsePolynomial` (src/polynomial/sparsepolynomial.rs 247-286, 370-381). -/
instance {N : Type} [Zero N] [NumZero N] [Add N] [Mul N] [PowUsize N] : FreeSizeEval N (Sparse N) :=
  ⟨Sparse.addTerm, Sparse.eval⟩

/-- `Integral` (src/polynomial/integral.rs 24-27). -/
structure Integral (P : Type) where
  polynomial : P

/-- `Integral::inner` (src/polynomial/integral.rs 37-39). -/
def Integral.inner {P : Type} (i : Integral P) : P := i.polynomial

/-- `Integral::replace_c` (src/polynomial/integral.rs 61-65). -/
def Integral.replaceC {N P : Type} [FreeSizeEval N P] (i : Integral P) (c : N) : P :=
  FreeSizeEval.addTerm i.polynomial c 0

/-- `Integral::eval` (src/polynomial/integral.rs 81-83). -/
def Integral.eval {N P : Type} [Sub N] [FreeSizeEval N P] (i : Integral P) (start «end» : N) : N :=
  FreeSizeEval.eval i.polynomial «end» - FreeSizeEval.eval i.polynomial start

end Rustnomial
