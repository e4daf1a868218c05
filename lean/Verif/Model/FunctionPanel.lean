import Verif.Model.Paper
import Verif.Model.Prior

/-!
# Model of the figure of predicted functions in `analyse_plots`

Which noise the dashed lines are drawn with and which exceptions drawing raises. Colours, legends and the limits of the axes are
not modelled, nor are exceptions of `condition` and `predict`.
-/

namespace Gpcm.Plots

/-- `model.ps.noise()` (experiment.py:418): the value of the variable `noise`. In `varz`, a variable that does not exist raises a
`KeyError`. Simplified: so does one that is not a scalar, which no model creates. -/
def readNoise (vs : Store) : Except PyErr ℝ :=
  match vs.value "noise" with
  | some [x] => .ok x
  | _ => .error .keyError

/-- What is plotted for a model: its variables after `condition` and instantiation, and its predictions, mean and variance. -/
structure Plotted where
  vs : Store
  pred : List (ℝ × ℝ)

/-- The loop over the models (experiment.py:397-420) from model `i` on: the dashed lines in every panel. `plt.subplot(3, 1, 1 + i)`
raises a `ValueError` if there is no such panel. -/
noncomputable def functionPanels : ℕ → List Plotted → Except PyErr (List (List (ℝ × ℝ)))
  | _, [] => .ok []
  | i, m :: ms =>
    if 3 < 1 + i then .error .valueError
    else
      match readNoise m.vs with
      | .error e => .error e
      | .ok noise =>
        match functionPanels (i + 1) ms with
        | .error e => .error e
        | .ok l => .ok (m.pred.map (Paper.errorLines noise) :: l)

/-- `analyse_plots` up to the first figure (experiment.py:380-438): the dashed lines. -/
noncomputable def functionFigure (t : List ℝ) (ms : List Plotted) : Except PyErr (List (List (ℝ × ℝ))) :=
  match Paper.equallySpaced t with
  | .error e => .error e
  | .ok _ => functionPanels 0 ms

end Gpcm.Plots
