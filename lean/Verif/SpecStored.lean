import Verif.Model.Dense
import Verif.Model.Sparse

/-!
# Specification: the stored form of a value

What is kept in memory, as opposed to which polynomial it stands for.
-/

namespace Rustnomial

/-- A vector of coefficients (highest first) is trimmed: it is empty or its first coefficient is not zero. -/
def Trimmed {N : Type} [Zero N] [NumZero N] (l : List N) : Prop := ∀ x, l.head? = some x → isZero x = false

/-- The number of coefficients from the first non-zero one on. -/
def coreLen {N : Type} [Zero N] [NumZero N] (l : List N) : Nat := (l.dropWhile isZero).length

/-- The map stores an entry for degree `k`, zero or not. -/
def Stores {N : Type} (p : Sparse N) (k : Nat) : Prop := ∃ v, (k, v) ∈ p.terms.entries

/-- The map stores a non-zero entry for degree `k`. -/
def StoresNonzero {N : Type} [Zero N] [NumZero N] (p : Sparse N) (k : Nat) : Prop :=
  ∃ v, (k, v) ∈ p.terms.entries ∧ isZero v = false

/-- The largest of the numbers, 0 if there are none. -/
def maxOf : List Nat → Nat
  | [] => 0
  | a :: l => max a (maxOf l)

end Rustnomial
