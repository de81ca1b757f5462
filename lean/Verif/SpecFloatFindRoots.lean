import Verif.SpecFloat
import Verif.Model.FloatRoots

/-!
# Specification of root finding in floating point
-/

namespace Rustnomial
namespace Fl
variable {f : FlFmt}

/-- Horner's scheme: the coefficients of the quotient of `b x^n + a₁ x^(n-1) + … + aₙ` by `x - r` in
descending order, each product and each sum rounded; the remainder is left out. -/
def synth (r : Fl f) : Fl f → List (Fl f) → List (Fl f)
  | _, [] => []
  | b, a :: as => b :: synth r (a + r * b) as

/-- A zero of either sign is replaced by `0.0`. -/
def plusZero (x : Fl f) : Fl f := if isZero x then 0 else x

/-- What `find_roots` passes to the external solver for a polynomial of degree `d` with the coefficients `c`: the
quotients by the leading coefficient in descending order, and `0.0` for missing coefficients. -/
def solverInput (c : Nat → Fl f) (d : Nat) : List (Fl f) :=
  (List.range d).reverse.map fun k => if isZero (c k) then 0 else div (c k) (c d)

/-- `|x| < |y|` for float values: false if one of them is NaN or `x` is infinite. -/
def AbsBelow (x y : Fl f) : Prop := x.isFinite = true ∧ y ≠ .nan ∧ (y.isFinite = true → |x.toRat| < |y.toRat|)

/-- `r` is the solver's root `z`, or its rounding to a whole number if the polynomial is smaller there. -/
def Chosen (rnd eval : Fl f → Fl f) (z r : Fl f) : Prop :=
  (AbsBelow (eval (rnd z)) (eval z) → r = rnd z) ∧ (¬ AbsBelow (eval (rnd z)) (eval z) → r = z)

/-- The run of `find_roots` for a polynomial of degree `d ≥ 4`, from the solver's input `l` and the roots `rs` found
before to the result: all roots the solver returns are collected in order, until it returns none or there are `d`.
After each round the degree of the solver's input is what is left of `d`. -/
inductive SolverRun (oracle : List (Fl f) → List (Fl f)) (pick : Fl f → Fl f) (d : Nat) :
    List (Fl f) → List (Fl f) → Roots (Fl f) → Prop
  | none {l : List (Fl f)} : oracle l = [] → SolverRun oracle pick d l [] .noRoots
  | only {l rs : List (Fl f)} : oracle l = [] → rs ≠ [] → SolverRun oracle pick d l rs (.onlyRealRoots rs)
  | all {l rs : List (Fl f)} : oracle l ≠ [] → d ≤ (rs ++ (oracle l).map pick).length →
    SolverRun oracle pick d l rs (.manyRealRoots (rs ++ (oracle l).map pick))
  | more {l rs l' : List (Fl f)} {out : Roots (Fl f)} : oracle l ≠ [] →
    1 ≤ l'.length → (rs ++ (oracle l).map pick).length + l'.length = d →
    SolverRun oracle pick d l' (rs ++ (oracle l).map pick) out → SolverRun oracle pick d l rs out

/-- What a run yields: real roots only, each chosen by `pick` for a number the solver returned. -/
def SolverAnswer (oracle : List (Fl f) → List (Fl f)) (pick : Fl f → Fl f) (d : Nat) : Roots (Fl f) → Prop
  | .noRoots => True
  | .onlyRealRoots rs => rs ≠ [] ∧ rs.length < d ∧ ∀ r ∈ rs, ∃ l, ∃ z ∈ oracle l, r = pick z
  | .manyRealRoots rs => d ≤ rs.length ∧ ∀ r ∈ rs, ∃ l, ∃ z ∈ oracle l, r = pick z
  | _ => False

end Fl

/-- The coefficient of `x^k` of a polynomial with float coefficients, `0.0` if it is missing or a zero. -/
def Poly.coefAt {f : FlFmt} (p : Poly (Fl f)) (k : Nat) : Fl f := Fl.plusZero (p.terms.reverse.getD k 0)

/-- The coefficient of `x^k` of a polynomial with float coefficients, `0.0` if it is missing or a zero. -/
def Sparse.coefAt {f : FlFmt} (p : Sparse (Fl f)) (k : Nat) : Fl f := Fl.plusZero ((p.terms.get k).getD 0)

/-- Two or three roots as a list of roots. -/
def Roots.many {N : Type} : Roots N → Roots N
  | .twoRealRoots x y => .manyRealRoots [x, y]
  | .threeRealRoots x y z => .manyRealRoots [x, y, z]
  | .twoComplexRoots x y => .manyComplexRoots [x, y]
  | .threeComplexRoots x y z => .manyComplexRoots [x, y, z]
  | r => r

/-- The result `out` of `roots()` for a polynomial of the given degree with the coefficients `c`, where `oracle` is the
external solver, `rnd` rounds to whole numbers and `eval` evaluates the polynomial: the formulas up to degree three, the answer of the solver above. -/
def Fl.RootsOutcome {f : FlFmt} [Cbrt (Fl f)] (oracle : List (Fl f) → List (Fl f)) (rnd eval : Fl f → Fl f)
    (c : Nat → Fl f) (out : Roots (Fl f)) : Degree → Prop
  | .negInf => out = .infiniteRoots
  | .num 0 => out = .noRoots
  | .num (d + 1) =>
    if ∀ k, k < d + 1 → isZero (c k) = true then out = .manyRealRoots [0]
    else match d with
      | 0 => out = .manyRealRoots [Fl.div (-c 0) (c 1)]
      | 1 => ∃ r, trinomialRoots (c 2) (c 1) (c 0) = .ok r ∧ out = r.many
      | 2 => ∃ r, cubicRoots (c 3) (c 2) (c 1) (c 0) = .ok r ∧ out = r.many
      | d + 3 => (out = .noRoots ↔ oracle (Fl.solverInput c (d + 4)) = []) ∧
        ∃ pick, (∀ z, Fl.Chosen rnd eval z (pick z)) ∧ Fl.SolverAnswer oracle pick (d + 4) out ∧
          Fl.SolverRun oracle pick (d + 4) (Fl.solverInput c (d + 4)) [] out

end Rustnomial
