import Verif.Model.Bisect

/-!
# Programs that count and bound the roots of a polynomial from its terms

The repository has no such functions; these are the programs a caller writes on the items of `ordered_term_iter` (any of the types),
with `is_positive` of src/numerics.rs 127-135.
-/

namespace Rustnomial

variable {N : Type}

/-- `for (c, e) in terms { let s = c.is_positive() != (neg && e % 2 == 1); if last == Some(!s) { n += 1; } last = Some(s); }`, which counts the
sign changes of `p(x)`, or of `p(-x)` for `neg`; here as the number of those still to come. -/
def signChangesFrom [IsPositive N] (neg : Bool) : Option Bool → List (N × Nat) → Nat
  | _, [] => 0
  | last, (c, e) :: ts =>
    let s := isPositive c != (neg && e % 2 == 1)
    (if last = some (!s) then 1 else 0) + signChangesFrom neg (some s) ts

/-- The above started with `let mut last = None; let mut n = 0;`. -/
def signChanges [IsPositive N] (neg : Bool) (terms : List (N × Nat)) : Nat := signChangesFrom neg none terms

/-- `for (c, _) in rest { let q = c / lead; let q = if q.is_positive() { q } else { -q }; if b < q { b = q; } }`. -/
def maxRatioFrom [RDiv N] [IsPositive N] [Neg N] (lt : N → N → Bool) (lead : N) : N → List (N × Nat) → Res N
  | b, [] => .ok b
  | b, (c, _) :: ts => do
    let q ← rdiv c lead
    let q := if isPositive q then q else -q
    maxRatioFrom lt lead (if lt b q then q else b) ts

/-- The above started with `let (lead, _) = terms.next()?; let mut b = 0;`. -/
def maxRatio [Zero N] [RDiv N] [IsPositive N] [Neg N] (lt : N → N → Bool) : List (N × Nat) → Res (Option N)
  | [] => .ok none
  | (lead, _) :: ts => do
    let b ← maxRatioFrom lt lead 0 ts
    .ok (some b)

end Rustnomial
