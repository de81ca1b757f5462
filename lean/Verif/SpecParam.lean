import Verif.Model.Expr
import Verif.Model.Fixed
import Verif.Model.History
import Verif.Model.Strings
import Verif.SpecFloatExpr
import Verif.SpecRootSymmetry

/-!
# Specification of two number types that stand for each other

A relation between the numbers of two types that the operations of the numbers respect, and what it makes of polynomials over them.
-/

namespace Rustnomial

/-- The number operations respect `r`: `x : A` and `y : B` with `r x y` stand for each other. -/
structure Alike {A B : Type} [Zero A] [NumZero A] [One A] [Neg A] [Add A] [Sub A] [Mul A] [Zero B] [NumZero B] [One B] [Neg B] [Add B] [Sub B]
    [Mul B] (r : A → B → Prop) : Prop where
  zero : r 0 0
  one : r 1 1
  isZero : ∀ {x y}, r x y → isZero x = isZero y
  neg : ∀ {x y}, r x y → r (-x) (-y)
  add : ∀ {x y x' y'}, r x y → r x' y' → r (x + x') (y + y')
  sub : ∀ {x y x' y'}, r x y → r x' y' → r (x - x') (y - y')
  mul : ∀ {x y x' y'}, r x y → r x' y' → r (x * x') (y * y')

/-- Division by a divisor that is not a zero respects `r`. -/
def AlikeDiv {A B : Type} [Zero A] [NumZero A] [RDiv A] [RDiv B] (r : A → B → Prop) : Prop :=
  ∀ {x : A} {y : B} {x' : A} {y' : B}, r x y → r x' y' → isZero x' = false → Res.Rel r (rdiv x x') (rdiv y y')

/-- The numbers that count degrees stand for each other in the narrower sense `s`. -/
structure AlikeCount {A B : Type} [One A] [Sub A] [FromUsizeCont A] [FromUsizeExact A] [One B] [Sub B] [FromUsizeCont B] [FromUsizeExact B]
    (r s : A → B → Prop) : Prop where
  le : ∀ {x y}, s x y → r x y
  cont : ∀ n, Option.Rel s (tryFromCont n : Option A) (tryFromCont n : Option B)
  exact : ∀ n, Option.Rel s (tryFromExact n : Option A) (tryFromExact n : Option B)
  pred : ∀ {x y}, s x y → s (x - 1) (y - 1)

/-- Division by a number that counts degrees. -/
def AlikeCountDiv {A B : Type} [RDiv A] [RDiv B] (r s : A → B → Prop) : Prop :=
  ∀ {x : A} {y : B} {d : A} {e : B}, r x y → s d e → Res.Rel r (rdiv x d) (rdiv y e)

/-- Coefficient by coefficient the same. -/
def Poly.Alike {A B : Type} (r : A → B → Prop) (p : Poly A) (q : Poly B) : Prop := List.Forall₂ r p.terms q.terms

/-- Two entries of the maps: the same degree, related coefficients. -/
def entryAlike {A B : Type} (r : A → B → Prop) (e : Nat × A) (e' : Nat × B) : Prop := e.1 = e'.1 ∧ r e.2 e'.2

/-- Entry by entry the same. -/
def Sparse.Alike {A B : Type} (r : A → B → Prop) (p : Sparse A) (q : Sparse B) : Prop :=
  List.Forall₂ (entryAlike r) p.terms.entries q.terms.entries

/-- The same exponent, related coefficients. -/
def Monomial.Alike {A B : Type} (r : A → B → Prop) (m : Monomial A) (n : Monomial B) : Prop := r m.coefficient n.coefficient ∧ m.deg = n.deg

/-- Coefficient by coefficient the same. -/
def LinearBinomial.Alike {A B : Type} (r : A → B → Prop) (p : LinearBinomial A) (q : LinearBinomial B) : Prop := r p.c0 q.c0 ∧ r p.c1 q.c1

/-- Coefficient by coefficient the same. -/
def QuadraticTrinomial.Alike {A B : Type} (r : A → B → Prop) (p : QuadraticTrinomial A) (q : QuadraticTrinomial B) : Prop :=
  r p.c0 q.c0 ∧ r p.c1 q.c1 ∧ r p.c2 q.c2

/-- Coefficient by coefficient the same. -/
def ArrayPoly.Alike {A B : Type} {size : Nat} (r : A → B → Prop) (p : ArrayPoly A size) (q : ArrayPoly B size) : Prop :=
  List.Forall₂ r p.coefficients q.coefficients

/-- The same term. -/
def Term.Alike {A B : Type} (r : A → B → Prop) : Term A → Term B → Prop
  | .zeroTerm, .zeroTerm => True
  | .term c d, .term c' d' => r c c' ∧ d = d'
  | _, _ => False

/-- The same list of terms, coefficient and degree. -/
def termsAlike {A B : Type} (r : A → B → Prop) : List (A × Nat) → List (B × Nat) → Prop :=
  List.Forall₂ fun e e' => r e.1 e'.1 ∧ e.2 = e'.2

/-- Numbers that are not zeros and stand for each other are printed alike: the same text, the same special cases. -/
def FmtAlike {A B : Type} [Zero A] [NumZero A] (r : A → B → Prop) (F : NumFmt A) (G : NumFmt B) : Prop :=
  ∀ {x : A} {y : B}, r x y → isZero x = false → F.shw x = G.shw y ∧ F.isOne x = G.isOne y ∧ F.isNegativeOne x = G.isNegativeOne y ∧
    F.isPositive x = G.isPositive y ∧ Res.Rel (fun u v => F.shw u = G.shw v ∧ F.isOne u = G.isOne v) (F.abs x) (G.abs y)

/-- The same expression over related numbers. -/
def RExpr.Alike {A B : Type} (r : A → B → Prop) : RExpr A → RExpr B → Prop
  | .lit cs, .lit cs' => List.Forall₂ r cs cs'
  | .neg a, .neg a' => a.Alike r a'
  | .add a b, .add a' b' => a.Alike r a' ∧ b.Alike r b'
  | .sub a b, .sub a' b' => a.Alike r a' ∧ b.Alike r b'
  | .mul a b, .mul a' b' => a.Alike r a' ∧ b.Alike r b'
  | .pow a n, .pow a' n' => a.Alike r a' ∧ n = n'
  | .scale a c, .scale a' c' => a.Alike r a' ∧ r c c'
  | .shl a k, .shl a' k' => a.Alike r a' ∧ k = k'
  | _, _ => False

/-- The same expression over related numbers. -/
def FExpr.Alike {A B : Type} (r : A → B → Prop) : FExpr A → FExpr B → Prop
  | .lit cs, .lit cs' => List.Forall₂ r cs cs'
  | .neg a, .neg a' => a.Alike r a'
  | .add a b, .add a' b' => a.Alike r a' ∧ b.Alike r b'
  | .sub a b, .sub a' b' => a.Alike r a' ∧ b.Alike r b'
  | .mul a b, .mul a' b' => a.Alike r a' ∧ b.Alike r b'
  | .pow a n, .pow a' n' => a.Alike r a' ∧ n = n'
  | .scale a c, .scale a' c' => a.Alike r a' ∧ r c c'
  | .shl a k, .shl a' k' => a.Alike r a' ∧ k = k'
  | .deriv a, .deriv a' => a.Alike r a'
  | .quo a b, .quo a' b' => a.Alike r a' ∧ b.Alike r b'
  | .rem a b, .rem a' b' => a.Alike r a' ∧ b.Alike r b'
  | _, _ => False

/-- The same mutation with related operands. -/
def Op.Alike {P Q A B : Type} (R : P → Q → Prop) (r : A → B → Prop) : Op P A → Op Q B → Prop
  | .addTerm c d, .addTerm c' d' => r c c' ∧ d = d'
  | .trySubTerm c d, .trySubTerm c' d' => r c c' ∧ d = d'
  | .addAssign q, .addAssign q' => R q q'
  | .subAssign q, .subAssign q' => R q q'
  | .mulAssign q, .mulAssign q' => R q q'
  | .mulAssignScalar c, .mulAssignScalar c' => r c c'
  | .shlAssign k, .shlAssign k' => k = k'
  | .shrAssign k, .shrAssign k' => k = k'
  | .trim, .trim => True
  | .setToZero, .setToZero => True
  | _, _ => False

/-- The same expression with `φ` applied to every number. -/
def FExpr.map {A B : Type} (φ : A → B) : FExpr A → FExpr B
  | .lit cs => .lit (cs.map φ)
  | .neg a => .neg (a.map φ)
  | .add a b => .add (a.map φ) (b.map φ)
  | .sub a b => .sub (a.map φ) (b.map φ)
  | .mul a b => .mul (a.map φ) (b.map φ)
  | .pow a n => .pow (a.map φ) n
  | .scale a c => .scale (a.map φ) (φ c)
  | .shl a k => .shl (a.map φ) k
  | .deriv a => .deriv (a.map φ)
  | .quo a b => .quo (a.map φ) (b.map φ)
  | .rem a b => .rem (a.map φ) (b.map φ)

end Rustnomial
