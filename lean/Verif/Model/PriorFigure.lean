import Verif.Model.SummaryCurves

/-!
# Model of the figure of the priors (`experiments/paper/priors.py`)

The samples that the figure summarises are the field `all_samples` of `predict_kernel` and `predict_psd`,
which is `allCurves`: one row per input. Spectral densities come in decibels.
-/

namespace Gpcm.PriorFigure

open Real

/-- `_extract_samples` (priors.py:31-37), for all samples together. -/
def extractRows (x : List ℝ) (rows : List (List ℝ)) : List (ℝ × List ℝ) :=
  ((x.reverse.dropLast.map fun a => -a) ++ x).zip (rows.reverse.dropLast ++ rows)

/-- What is drawn at one input: the shaded intervals in the order of drawing, and the black line. -/
structure Drawn where
  shades : List (ℝ × ℝ)
  line : ℝ

/-- The percentages of the loops (priors.py:54, 78). -/
def percentages : List ℝ := [1, 5, 10, 20, 30, 40]

/-- The panel of a kernel at one input (priors.py:54-62). -/
noncomputable def kernelAt (ks : List ℝ) : Drawn where
  shades := percentages.map fun q => (Util.quantile ks (q / 100), Util.quantile ks (1 - q / 100))
  line := Util.mean ks

/-- `apply_to_psd` (priors.py:74-76) at one frequency. -/
noncomputable def applyToPsd (psds : List ℝ) (f : List ℝ → ℝ) : ℝ :=
  let raw := psds.map fun p => (10 : ℝ) ^ (p / 10)
  10 * log (f raw) / log 10

/-- The panel of a spectral density at one frequency (priors.py:78-91). -/
noncomputable def psdAt (psds : List ℝ) : Drawn where
  shades := percentages.map fun q =>
    (applyToPsd psds fun x => Util.quantile x (q / 100), applyToPsd psds fun x => Util.quantile x (1 - q / 100))
  line := applyToPsd psds Util.mean

/-- The panel of a kernel (priors.py:52-62). -/
noncomputable def kernelPanel (x : List ℝ) (rows : List (List ℝ)) : List (ℝ × Drawn) :=
  (extractRows x rows).map fun p => (p.1, kernelAt p.2)

/-- The panel of a spectral density (priors.py:71-91). -/
noncomputable def psdPanel (x : List ℝ) (rows : List (List ℝ)) : List (ℝ × Drawn) :=
  (extractRows x rows).map fun p => (p.1, psdAt p.2)

end Gpcm.PriorFigure
