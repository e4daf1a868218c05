import Verif.Model.KernelPred

/-!
# Model of what `analyse_plots` plots

The two panels of Fourier features, the spectral density of the true kernel and the autocovariance of the data in
`experiments/experiment.py`. Colours, labels and the limits of the axes are not modelled.
-/

open Matrix Real

namespace Gpcm

namespace Plots

/-! ## Fourier features -/

/-- `np.where(...)` of a condition on an array: the indices. -/
def whereIdx (p : ℕ → Bool) (ms : List ℕ) : List ℕ := (List.range ms.length).filter fun i => p (ms.getD i 0)

/-- One point with its error bar. -/
structure Point where
  freq : ℝ
  mean : ℝ
  below : ℝ
  above : ℝ

/-- A point of `plt.errorbar` (experiment.py:581-583, 591-595). -/
noncomputable def point (freq mean var : ℝ) : Point :=
  let lower := mean - 1.96 * √var
  let upper := mean + 1.96 * √var
  ⟨freq, mean, mean - lower, upper - mean⟩

/-- The indices of the features in the panel of cosines (experiment.py:588-590). -/
def cosineInds (ms : List ℕ) (mMax : ℤ) : List ℕ :=
  whereIdx (fun m => m == 0) ms ++ whereIdx (fun m => decide ((m : ℤ) ≤ mMax)) ms

/-- The indices of the features in the panel of sines (experiment.py:605-607). -/
def sineInds (ms : List ℕ) (mMax : ℤ) : List ℕ :=
  whereIdx (fun m => m == 0) ms ++ whereIdx (fun m => decide (mMax < (m : ℤ))) ms

/-- The frequency at which the panel of cosines shows a feature (experiment.py:587). -/
noncomputable def cosineFreq (g : RgpcmModel) (i : ℕ) : ℝ := (g.ms.getD i 0 : ℝ) / (g.b - g.a)

/-- The frequency at which the panel of sines shows a feature (experiment.py:604). -/
noncomputable def sineFreq (g : RgpcmModel) (i : ℕ) : ℝ := max ((g.ms.getD i 0 : ℝ) - g.mMax) 0 / (g.b - g.a)

/-- The panel of cosines (experiment.py:585-598). -/
noncomputable def cosinePanel (g : RgpcmModel) (mean var : ℕ → ℝ) : List Point :=
  (cosineInds g.ms g.mMax).map fun i => point (cosineFreq g i) (mean i) (var i)

/-- The panel of sines (experiment.py:602-615). -/
noncomputable def sinePanel (g : RgpcmModel) (mean var : ℕ → ℝ) : List Point :=
  (sineInds g.ms g.mMax).map fun i => point (sineFreq g i) (mean i) (var i)

/-! ## The spectral density of the true kernel -/

/-- The true spectral density (experiment.py:511-515). `predX` is `pred.x`, the first field of the result of `predict_psd`. -/
noncomputable def truePsd (kern : ℝ → ℝ → ℝ) (predX : List ℝ) : Except PyErr (List (ℝ × ℝ)) :=
  match predX with
  | [] => .error .indexError
  | x0 :: xs => Util.estimatePsd (x0 :: xs) ((x0 :: xs).map (kern x0)) 2000 true

/-! ## The autocovariance of the data -/

/-- The curve "Autocorrelation" beside a predicted kernel (experiment.py:453-455, 486-487): lags and values. -/
noncomputable def dataKernel (t y : List ℝ) : Except PyErr (List (ℝ × ℝ)) :=
  match t with
  | [] => .error .indexError
  | t0 :: _ =>
    match Util.autocorr y none true false with
    | .error e => .error e
    | .ok k => .ok ((t.map (· - t0)).zip k)

/-- The curve "Autocorrelation" beside a predicted spectral density (experiment.py:517-521, 549-553): frequencies and values. The values
are in decibels if `db` is set, as it is in the code. -/
noncomputable def dataPsd (t y : List ℝ) (db : Bool) : Except PyErr (List (ℝ × ℝ)) :=
  match t with
  | [] => .error .indexError
  | t0 :: _ =>
    match Util.autocorr y none true false with
    | .error e => .error e
    | .ok k => Util.estimatePsd (t.map (· - t0)) k 2000 db

end Plots

end Gpcm
