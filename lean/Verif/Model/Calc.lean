import Verif.Model.Expr
import Verif.Model.Strings

/-!
# Programs from text to text

A program of a caller that reads polynomials from texts with `parse`, computes with the operators of the crate and prints the result with
`to_string`; every call of `parse` is followed by `?`, so that the first error ends the program.
-/

namespace Rustnomial

/-- An expression whose operands are texts. -/
inductive Calc (N : Type) where
  | text (s : List Char)
  | neg (a : Calc N)
  | add (a b : Calc N)
  | sub (a b : Calc N)
  | mul (a b : Calc N)
  | pow (a : Calc N) (n : Nat)
  | scale (a : Calc N) (c : N)
  | shl (a : Calc N) (k : Nat)

/-- `?`: go on with a value, end with an error. -/
def Res.try {E V W : Type} (x : Res (Except E V)) (f : V → Res (Except E W)) : Res (Except E W) :=
  x >>= fun
    | .ok v => f v
    | .error e => .ok (.error e)

/-- A value that is no error. -/
def Res.lift {E V : Type} (x : Res V) : Res (Except E V) := x >>= fun v => .ok (.ok v)

/-- The value of the expression: operands from left to right. -/
def Calc.run {V N E : Type} (o : ROps V N) (parse : List Char → Res (Except E V)) : Calc N → Res (Except E V)
  | .text s => parse s
  | .neg a => (a.run o parse).try fun x => (o.neg x).lift
  | .add a b => (a.run o parse).try fun x => (b.run o parse).try fun y => (o.add x y).lift
  | .sub a b => (a.run o parse).try fun x => (b.run o parse).try fun y => (o.sub x y).lift
  | .mul a b => (a.run o parse).try fun x => (b.run o parse).try fun y => (o.mul x y).lift
  | .pow a n => (a.run o parse).try fun x => (o.pow x n).lift
  | .scale a c => (a.run o parse).try fun x => (o.scale x c).lift
  | .shl a k => (a.run o parse).try fun x => (o.shl x k).lift

/-- The whole program with `Polynomial`s: parse (`FromStr`, src/polynomial/polynomial.rs 659), compute, print (`Display`, 660). -/
def Calc.denseProgram (chk : Bool) (t : IntTy) (w cap : Nat) (c : Calc Int) : Res (Except PolynomialFromStringError (List Char)) :=
  (c.run (denseOpsM (.machine chk t)) (Poly.fromStrM (.machine chk t w cap) t)).try fun p => (p.display (intFmt chk t)).lift

/-- The whole program with `SparsePolynomial`s: parse (`FromStr`, src/polynomial/sparsepolynomial.rs 244), compute, print (`Display`, 245). -/
def Calc.sparseProgram (chk : Bool) (t : IntTy) (w cap : Nat) (c : Calc Int) : Res (Except PolynomialFromStringError (List Char)) :=
  (c.run (sparseOpsM (.machine chk t)) (Sparse.fromStrM (.machine chk t w cap) t)).try fun p => (p.display (intFmt chk t)).lift

end Rustnomial
