import Verif.Model.ExprRun

/-!
# Objects that exist in a running program

`Factor`, `Term` and `Poly` objects are only ever made by their constructors
(exppoly.py:77-84, 148-158, 317-322) and are not modified afterwards. `Built` says that an object
is the result of such a constructor call on built arguments. Properties quantify over built
objects.
-/

namespace Gpcm

/-- A `Factor` made by its constructor. -/
def Factor.Built (f : Factor) : Prop := ∃ (x : String) (n : ℤ), Factor.new x n = .ok f

section
variable {K : Type} [CommRing K] (R : Runtime K)

/-- A `Term` made by its constructor. -/
def Term.Built (t : Term K) : Prop :=
  ∃ (c : K) (fs : List Factor), (∀ f ∈ fs, f.Built) ∧ Term.new R c fs = .ok t

/-- A `Poly` made by its constructor. -/
def Poly.Built (p : Poly K) : Prop :=
  ∃ ts : List (Term K), (∀ t ∈ ts, t.Built R) ∧ Poly.new R ts = .ok p

/-- A Python value in polynomial arithmetic. -/
def PyVal.Built : PyVal K → Prop
  | .poly p => p.Built R
  | .int _ => True
  | .num _ => True

end

end Gpcm
