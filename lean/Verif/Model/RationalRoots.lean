import Verif.Model.Resultant
import Verif.Model.Bisect

/-!
# All rational roots of an integer polynomial, by trial

The repository has no such function; this is a program a caller writes with `ordered_term_iter` and `eval`.
-/

namespace Rustnomial

/-- `for (k, q) in candidates { let x = Ratio::new(k, q); if pr.eval(x).is_zero() && !roots.contains(&x) { roots.push(x); } } roots` (`eval`,
src/polynomial/polynomial.rs 340-362). -/
def trialLoop (pr : Poly ℚ) : List (ℤ × ℕ) → List ℚ → List ℚ
  | [], roots => roots
  | (k, q) :: candidates, roots =>
    let x : ℚ := (k : ℚ) / (q : ℚ)
    trialLoop pr candidates (if pr.eval x = 0 && !roots.contains x then roots ++ [x] else roots)

/-- The pairs of `for q in 1..=n { for k in -m..=m { … } }`. -/
def candidates (m n : ℕ) : List (ℤ × ℕ) :=
  (List.range n).flatMap fun (i : ℕ) => (List.range (2 * m + 1)).map fun (j : ℕ) => ((j : ℤ) - (m : ℤ), i + 1)

/-- `let pr = Polynomial::new(p.terms.iter().map(|&c| Ratio::from(c)).collect()); let (l, _) = p.ordered_term_iter().next().unwrap(); let (c, _) =
p.ordered_term_iter().last().unwrap();` and the loops above with `l.abs()` and `c.abs()` (`ordered_term_iter`, src/polynomial/polynomial.rs
171-182; `new` 147-151). -/
def Poly.rationalRoots (p : Poly ℤ) : Res (List ℚ) :=
  let pr : Poly ℚ := Poly.new (p.terms.map fun (c : ℤ) => (c : ℚ))
  match p.orderedTermIter.head?, p.orderedTermIter.getLast? with
  | some (l, _), some (c, _) => .ok (trialLoop pr (candidates c.natAbs l.natAbs) [])
  | _, _ => .panic

end Rustnomial
