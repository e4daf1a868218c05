import Verif.Model.ExpPoly
import Verif.Spec.Expr

/-! # Running a user expression with the operators of `gpcm/exppoly.py` -/

namespace Gpcm

variable {K : Type} [CommRing K] (R : Runtime K)

/-- Unary operation on a result that may be an exception. -/
def bind1 {α β : Type} (x : Except PyErr α) (f : α → Except PyErr β) : Except PyErr β :=
  match x with
  | .error e => .error e
  | .ok a => f a

/-- Binary operation; the left operand is evaluated first, as in Python. -/
def bind2 {α β γ : Type} (x : Except PyErr α) (y : Except PyErr β)
    (f : α → β → Except PyErr γ) : Except PyErr γ :=
  match x with
  | .error e => .error e
  | .ok a =>
    match y with
    | .error e => .error e
    | .ok b => f a b

/-- Evaluate a Python expression written with `var`, `const`, numbers and the operators
`+ - * **` (exppoly.py:37-59, 426-468). -/
def Expr.run : Expr K → Except PyErr (PyVal K)
  | .var x => PyVal.lift (Poly.var R x)
  | .const c => PyVal.lift (Poly.const R c)
  | .int n => .ok (.int n)
  | .num c => .ok (.num c)
  | .add e f => bind2 e.run f.run (PyVal.add R)
  | .sub e f => bind2 e.run f.run (PyVal.sub R)
  | .neg e => bind1 e.run (PyVal.neg R)
  | .mul e f => bind2 e.run f.run (PyVal.mul R)
  | .pow e n => bind1 e.run fun x => PyVal.pow R x n

/-- Evaluate a Python value: a `Poly` by `Poly.eval`, a number is itself. -/
def PyVal.eval (x : PyVal K) (m : String → Option K) : Except PyErr K :=
  match x with
  | .poly p => p.eval m
  | .int n => .ok (n : K)
  | .num c => .ok c

end Gpcm
