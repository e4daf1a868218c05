import Mathlib.Algebra.Ring.Basic

/-!
# Arithmetic expressions and their mathematical meaning

The independent yardstick for `gpcm/exppoly.py`: an expression a user writes, and the value it
should have. Nothing here refers to the model.
-/

namespace Gpcm

/-- Expressions over variables, polynomial constants, Python integers and other numbers. -/
inductive Expr (K : Type)
  | var (x : String)
  | const (c : K)
  | int (n : ℤ)
  | num (c : K)
  | add (e f : Expr K)
  | sub (e f : Expr K)
  | neg (e : Expr K)
  | mul (e f : Expr K)
  | pow (e : Expr K) (n : ℕ)

/-- The value of an expression under an assignment of the variables. -/
def Expr.denote {K : Type} [CommRing K] (v : String → K) : Expr K → K
  | .var x => v x
  | .const c => c
  | .int n => (n : K)
  | .num c => c
  | .add e f => e.denote v + f.denote v
  | .sub e f => e.denote v - f.denote v
  | .neg e => -e.denote v
  | .mul e f => e.denote v * f.denote v
  | .pow e n => e.denote v ^ n

/-- A syntactic bound on the degree. -/
def Expr.deg {K : Type} : Expr K → ℕ
  | .var _ => 1
  | .const _ => 0
  | .int _ => 0
  | .num _ => 0
  | .add e f => max e.deg f.deg
  | .sub e f => max e.deg f.deg
  | .neg e => e.deg
  | .mul e f => e.deg + f.deg
  | .pow e n => n * e.deg

/-- Expressions without sums: numbers times powers of variables. -/
def Expr.isMono {K : Type} : Expr K → Prop
  | .var _ => True
  | .const _ => True
  | .int _ => True
  | .num _ => True
  | .add _ _ => False
  | .sub _ _ => False
  | .neg e => e.isMono
  | .mul e f => e.isMono ∧ f.isMono
  | .pow e _ => e.isMono

/-- Expressions in which every product is a product of affine expressions or has an operand
without sums, and every power is a power of an expression without sums, of a constant, or at most
the square of an affine expression. All exponents in `gpcm.py` have this shape. -/
def Expr.Simple {K : Type} : Expr K → Prop
  | .var _ => True
  | .const _ => True
  | .int _ => True
  | .num _ => True
  | .add e f => e.Simple ∧ f.Simple
  | .sub e f => e.Simple ∧ f.Simple
  | .neg e => e.Simple
  | .mul e f => e.Simple ∧ f.Simple ∧ (e.deg ≤ 1 ∧ f.deg ≤ 1 ∨ e.isMono ∨ f.isMono)
  | .pow e n => e.Simple ∧ (e.isMono ∨ e.deg = 0 ∨ n ≤ 1 ∨ (e.deg ≤ 1 ∧ n ≤ 2))

end Gpcm
