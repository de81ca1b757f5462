import Verif.Props.History
import Verif.Props.MachineHistory

/-!
# Specification of histories with the room that is stored

The state is a polynomial together with what a value stores for it: the number of coefficients of a `Polynomial`, the set of degrees with an
entry of a `SparsePolynomial`.  `try_sub_term` of a type that cannot negate depends on it.
-/

open Polynomial

namespace Rustnomial

section
variable {R : Type} [CommRing R]

open Classical in
/-- The number of coefficients without leading zeros. -/
noncomputable def coreOf (P : R[X]) : Nat := if P = 0 then 0 else P.natDegree + 1

/-- How many coefficients a `Polynomial` stores after an operation. -/
noncomputable def roomAfter (P : R[X]) (n : Nat) : Op (R[X] × Nat) R → Nat
  | .addTerm _ d => max n (d + 1)
  | .trySubTerm _ d => max n (d + 1)
  | .addAssign q => max n q.2
  | .subAssign q => max n q.2
  | .mulAssign q => coreOf P + coreOf q.1 - 1
  | .mulAssignScalar _ => n
  | .shlAssign k => (n + k).toNat
  | .shrAssign k => (n - k).toNat
  | .trim => coreOf P
  | .setToZero => 0

open Classical in
/-- The degrees for which a `SparsePolynomial` has an entry after an operation. -/
noncomputable def storedAfter (P : R[X]) (S : Set Nat) : Op (R[X] × Set Nat) R → Set Nat
  | .addTerm c d => if c = 0 then S else insert d S
  | .trySubTerm c d => if c = 0 then S else insert d S
  | .addAssign q => S ∪ q.2
  | .subAssign q => S ∪ q.2
  | .mulAssign q => {k | ∃ a ∈ S, ∃ b, q.1.coeff b ≠ 0 ∧ k = a + b}
  | .mulAssignScalar _ => S
  | .shlAssign k => {j | ∃ a ∈ S, (j : ℤ) = a + k}
  | .shrAssign k => {j | ∃ a ∈ S, (j : ℤ) = a - k}
  | .trim => {k | P.coeff k ≠ 0}
  | .setToZero => ∅

/-- A type that cannot negate refuses to subtract a term of a degree beyond the stored coefficients. -/
def RefusedDense (neg : Bool) (n : Nat) {Q : Type} : Op Q R → Prop
  | .trySubTerm _ d => neg = false ∧ n ≤ d
  | _ => False

/-- A type that cannot negate refuses to subtract a term other than zero of a degree without an entry. -/
def RefusedSparse (neg : Bool) (S : Set Nat) {Q : Type} : Op Q R → Prop
  | .trySubTerm c d => neg = false ∧ c ≠ 0 ∧ d ∉ S
  | _ => False

open Classical in
/-- One operation on a polynomial of which `s.2` coefficients are stored: the mathematical step and its result. -/
noncomputable def roomSpec (neg : Bool) (s : R[X] × Nat) (o : Op (R[X] × Nat) R) : (R[X] × Nat) × Except TryAddError Unit :=
  if RefusedDense neg s.2 o then (s, .error .canNotNegate) else ((absStep s.1 (o.map Prod.fst), roomAfter s.1 s.2 o), .ok ())

open Classical in
/-- One operation on a polynomial stored with entries for the degrees in `s.2`. -/
noncomputable def storedSpec (neg : Bool) (s : R[X] × Set Nat) (o : Op (R[X] × Set Nat) R) :
    (R[X] × Set Nat) × Except TryAddError Unit :=
  if RefusedSparse neg s.2 o then (s, .error .canNotNegate) else ((absStep s.1 (o.map Prod.fst), storedAfter s.1 s.2 o), .ok ())

end

/-- The polynomial and the number of stored coefficients. -/
noncomputable def Poly.withRoom (p : Poly Int) : ℤ[X] × Nat := (descPoly p.terms, p.terms.length)

/-- The polynomial and the stored degrees. -/
noncomputable def Sparse.withStored (p : Sparse Int) : ℤ[X] × Set Nat := (entriesPoly p.terms.entries, {k | ∃ v, (k, v) ∈ p.terms.entries})

/-- With overflow checks an operation returns when the term is refused or nothing leaves the type. -/
def RoomFits (t : IntTy) (s : ℤ[X] × Nat) (o : Op (ℤ[X] × Nat) ℤ) : Prop :=
  RefusedDense t.canNegate s.2 o ∨ OpFits t (MulFitsDown t) s.1 (o.map Prod.fst)

/-- The same for `SparsePolynomial`. -/
def StoredFits (t : IntTy) (s : ℤ[X] × Set Nat) (o : Op (ℤ[X] × Set Nat) ℤ) : Prop :=
  RefusedSparse t.canNegate s.2 o ∨ OpFits t (MulFitsUp t) s.1 (o.map Prod.fst)

/-- The polynomial modulo `n` and what is stored. -/
noncomputable def modState {α : Type} (n : Nat) (s : ℤ[X] × α) : (ZMod n)[X] × α := (s.1.map (Int.castRingHom (ZMod n)), s.2)

/-- The operation with all numbers taken modulo `n`. -/
noncomputable def Op.modStored {α : Type} (n : Nat) : Op (ℤ[X] × α) ℤ → Op ((ZMod n)[X] × α) (ZMod n)
  | .addTerm c d => .addTerm c d
  | .trySubTerm c d => .trySubTerm c d
  | .addAssign q => .addAssign (modState n q)
  | .subAssign q => .subAssign (modState n q)
  | .mulAssign q => .mulAssign (modState n q)
  | .mulAssignScalar c => .mulAssignScalar c
  | .shlAssign k => .shlAssign k
  | .shrAssign k => .shrAssign k
  | .trim => .trim
  | .setToZero => .setToZero

end Rustnomial
