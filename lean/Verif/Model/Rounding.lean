import Verif.Model.Py
import Mathlib.Data.Real.Basic
import Mathlib.Data.Int.Log
import Mathlib.Algebra.Order.Ring.Int
import Mathlib.Data.Real.Archimedean

/-!
# Model of variances from samples, with rounding

`Structured.predict_z`, the last lines of `Structured.predict` (`gpcm/approx.py`) and the variance in
`summarise_samples` (`gpcm/util.py`), where every operation rounds its result. The library may add numbers in any
order and with any bracketing. Numbers do not overflow or underflow: only the precision is limited.
-/

namespace Gpcm.Rounding

/-- How numbers are added up. -/
inductive Tree
  | leaf (x : ℝ)
  | node (l r : Tree)

/-- The summands. -/
def Tree.leaves : Tree → List ℝ
  | .leaf x => [x]
  | .node l r => l.leaves ++ r.leaves

/-- The sum, where every addition rounds. -/
def Tree.sum (rnd : ℝ → ℝ) : Tree → ℝ
  | .leaf x => x
  | .node l r => rnd (l.sum rnd + r.sum rnd)

/-- A library for arithmetic: how it rounds and in which order it adds. -/
structure Library where
  rnd : ℝ → ℝ
  tree : List ℝ → Tree
  tree_leaves : ∀ l ≠ [], (tree l).leaves.Perm l

/-- `B.mean` over the first axis, for one position. -/
noncomputable def Library.mean (L : Library) (l : List ℝ) : ℝ := L.rnd ((L.tree l).sum L.rnd / l.length)

/-- `x ** 2`. -/
def Library.sq (L : Library) (x : ℝ) : ℝ := L.rnd (x * x)

/-- `Structured.predict_z` (approx.py:557-571) for one feature and its samples. Stacking nothing raises. -/
noncomputable def predictZ (L : Library) (zs : List ℝ) : Except PyErr (ℝ × ℝ) :=
  if zs = [] then .error .valueError
  else
    let m1 := L.mean zs
    let m2 := L.mean (zs.map L.sq)
    .ok (m1, L.rnd (m2 - L.sq m1))

/-- The end of `Structured.predict` (approx.py:530-534) for one time: from the first and second moments for every
sample to mean and variance. -/
noncomputable def predict (L : Library) (noise : ℝ) (ms : List (ℝ × ℝ)) : Except PyErr (ℝ × ℝ) :=
  if ms = [] then .error .valueError
  else
    let m1 := L.mean (ms.map Prod.fst)
    let m2 := L.mean (ms.map Prod.snd)
    .ok (m1, L.rnd (L.rnd (m2 - L.sq m1) + noise))

/-- The square of `B.std` in `summarise_samples` without decibels (util.py:69): the library averages squared
deviations from the mean. The square root, which is squared again, is left out. -/
noncomputable def summaryVar (L : Library) (xs : List ℝ) : ℝ :=
  L.mean (xs.map fun x => L.sq (L.rnd (x - L.mean xs)))

/-! ## Binary floating-point numbers -/

/-- The nearest integer; halves go to the even one. -/
noncomputable def nearestEven (y : ℝ) : ℤ :=
  if y - ⌊y⌋ < 1 / 2 then ⌊y⌋
  else if 1 / 2 < y - ⌊y⌋ then ⌊y⌋ + 1
  else if Even ⌊y⌋ then ⌊y⌋ else ⌊y⌋ + 1

/-- The distance between numbers with `p` bits of the size of `x`. -/
noncomputable def ulp (p : ℕ) (x : ℝ) : ℝ := 2 ^ (Int.log 2 |x| - p + 1)

/-- Rounding to the nearest number with `p` significant bits, as in IEEE 754; 53 bits for double precision. -/
noncomputable def roundBits (p : ℕ) (x : ℝ) : ℝ := nearestEven (x / ulp p x) * ulp p x

/-- Adding from left to right. -/
def leftTree : List ℝ → Tree
  | [] => .leaf 0
  | x :: xs => xs.foldl (fun t y => .node t (.leaf y)) (.leaf x)

end Gpcm.Rounding
