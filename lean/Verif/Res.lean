/-!
# Outcomes of running Rust code

`Res α` records how a Rust call ends: it returns a value, it panics, or the fuel that bounds the
number of loop iterations in the model ran out.  A Rust loop diverges exactly when the model
answers `fuel` for every amount of fuel.
-/

namespace Rustnomial

/-- Outcome of a Rust call: normal return, panic, or fuel exhausted (see `DESIGN.md` §2).
Models no particular line; it is the codomain of every function that can panic or loop. -/
inductive Res (α : Type) where
  | ok (a : α)
  | panic
  | fuel
  deriving DecidableEq, Repr

namespace Res

/-- Sequencing of Rust statements: a panic or divergence in the first aborts the second. -/
def bind {α : Type} {β : Type} : Res α → (α → Res β) → Res β
  | ok a, f => f a
  | panic, _ => panic
  | fuel, _ => fuel

instance : Monad Res where
  pure := Res.ok
  bind := Res.bind

@[simp] theorem ok_bind {α β : Type} (a : α) (f : α → Res β) : (Res.ok a >>= f) = f a := rfl
@[simp] theorem panic_bind {α β : Type} (f : α → Res β) : ((Res.panic : Res α) >>= f) = Res.panic := rfl
@[simp] theorem fuel_bind {α β : Type} (f : α → Res β) : ((Res.fuel : Res α) >>= f) = Res.fuel := rfl
@[simp] theorem pure_eq {α : Type} (a : α) : (pure a : Res α) = Res.ok a := rfl
@[simp] theorem map_ok {α β : Type} (f : α → β) (a : α) : (f <$> Res.ok a : Res β) = Res.ok (f a) := rfl
@[simp] theorem map_panic {α β : Type} (f : α → β) : (f <$> (Res.panic : Res α)) = Res.panic := rfl
@[simp] theorem map_fuel {α β : Type} (f : α → β) : (f <$> (Res.fuel : Res α)) = Res.fuel := rfl

instance : LawfulMonad Res := LawfulMonad.mk'
  (id_map := by intro α x; cases x <;> rfl)
  (pure_bind := by intros; rfl)
  (bind_assoc := by intro α β γ x f g; cases x <;> rfl)

theorem bind_eq_ok {α β : Type} {x : Res α} {f : α → Res β} {b : β} :
    (x >>= f) = Res.ok b ↔ ∃ a, x = Res.ok a ∧ f a = Res.ok b := by
  cases x <;> simp

end Res

/-- Rust `usize` subtraction `a - b`; underflow is a panic (in release builds the wrapped value is
then used as an allocation size or slice bound, which panics as well). -/
def usub (a b : Nat) : Res Nat := if b ≤ a then .ok (a - b) else .panic

/-- Rust slice `&v[i..]`: panics when `i > v.len()`. -/
def sliceFrom {α : Type} (l : List α) (i : Nat) : Res (List α) :=
  if i ≤ l.length then .ok (l.drop i) else .panic

/-- Rust slice `&v[i..j]`: panics when `i > j` or `j > v.len()`. -/
def sliceRange {α : Type} (l : List α) (i j : Nat) : Res (List α) :=
  if i ≤ j ∧ j ≤ l.length then .ok ((l.take j).drop i) else .panic

/-- Rust `for (x, y) in xs.iter_mut().zip(ys) { *x = f(*x, y) }`: stops at the shorter one and
leaves the rest of `xs` alone. -/
def zipMut {α : Type} {β : Type} (f : α → β → α) : List α → List β → List α
  | [], _ => []
  | x :: xs, [] => x :: xs
  | x :: xs, y :: ys => f x y :: zipMut f xs ys

@[simp] theorem zipMut_nil_left {α : Type} {β : Type} (f : α → β → α) (ys : List β) :
    zipMut f [] ys = [] := by cases ys <;> rfl
@[simp] theorem zipMut_nil_right {α : Type} {β : Type} (f : α → β → α) (xs : List α) :
    zipMut f xs [] = xs := by cases xs <;> rfl
@[simp] theorem zipMut_cons {α : Type} {β : Type} (f : α → β → α) (x xs y ys) :
    zipMut f (x :: xs) (y :: ys) = f x y :: zipMut f xs ys := rfl

@[simp] theorem length_zipMut {α : Type} {β : Type} (f : α → β → α) :
    ∀ (xs : List α) (ys : List β), (zipMut f xs ys).length = xs.length
  | [], ys => by simp
  | x :: xs, [] => by simp
  | x :: xs, y :: ys => by simp [length_zipMut f xs ys]

end Rustnomial
