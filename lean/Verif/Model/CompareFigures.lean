import Verif.Model.OtherScripts

/-!
# Model of the figures of the comparisons

`plot_kernel_predictions` of `experiments/paper/comparison_process.py`, and `plot_psd` and `plot_compare` of
`experiments/paper/crude_oil.py`. Styles, labels, ticks and legends are not modelled. The limits of the axes are modelled where they depend
on the data. An array of length one is broadcast by NumPy; here all lengths have to agree.
-/

open Real

namespace Gpcm.Figures

/-- `np.sqrt` of one number; NaN is `none`. -/
noncomputable def npSqrt (v : ℝ) : Option ℝ := if v < 0 then none else some √v

/-- A prediction as it is drawn at one input: the mean and the limits of the shaded region. -/
structure Drawn where
  x : ℝ
  mean : ℝ
  lower : Option ℝ
  upper : Option ℝ

/-- The mean and the shaded region at one input (comparison_process.py:43-49, crude_oil.py:181-187). -/
noncomputable def drawn (x m v : ℝ) : Drawn :=
  ⟨x, m, (npSqrt v).map fun s => m - 1.96 * s, (npSqrt v).map fun s => m + 1.96 * s⟩

/-- `plt.plot(x, y)`: `ValueError` if the lengths differ. -/
def plot (x y : List ℝ) : Except PyErr (List (ℝ × ℝ)) := if x.length = y.length then .ok (x.zip y) else .error .valueError

/-- A prediction with its shaded region (comparison_process.py:43-51, 52-60, crude_oil.py:181-189, 194-202). -/
noncomputable def bandPlot (t m v : List ℝ) : Except PyErr (List Drawn) :=
  if t.length = m.length ∧ m.length = v.length then .ok (List.zipWith (fun x p => drawn x p.1 p.2) t (m.zip v)) else .error .valueError

/-! ## Predictions of kernels -/

/-- One panel of the comparison. -/
structure KernelFigure where
  truth : List (ℝ × ℝ)
  structured : List Drawn
  meanField : List Drawn

/-- `plot_kernel_predictions` (comparison_process.py:37-60) with the content of the three files. The inputs in the file of the structured
approximation are overwritten by those in the file of the mean-field approximation. -/
noncomputable def kernelFigure (kFile : Option (List ℝ)) (sFile mFile : Option (List ℝ × List ℝ × List ℝ)) : Except PyErr KernelFigure :=
  match kFile, sFile, mFile with
  | some k, some (_, m1, v1), some (t, m2, v2) =>
    bind1 (plot t k) fun truth => bind1 (bandPlot t m1 v1) fun s => bind1 (bandPlot t m2 v2) fun mf => .ok ⟨truth, s, mf⟩
  | _, _, _ => .error .osError

/-- The file of a prediction of the kernel (comparison.py:95): inputs, means and variances. -/
noncomputable def kernelFile (pred : List (ℝ × Summary)) : List ℝ × List ℝ × List ℝ :=
  (pred.map Prod.fst, pred.map fun p => p.2.mean, pred.map fun p => p.2.var)

/-! ## Spectral densities -/

/-- What is stored of a prediction of the spectral density (crude_oil.py:113-118). -/
structure PsdPred where
  freqs : List ℝ
  mean : List ℝ
  lower : List ℝ
  upper : List ℝ

/-- A prediction of the spectral density as it is drawn at one frequency. -/
structure PsdPoint where
  freq : ℝ
  mean : ℝ
  lower : ℝ
  upper : ℝ

/-- `plot_psd` (crude_oil.py:144-161): the curve, and the stored prediction afterwards. `freqs -= freqs[0]` changes the stored array. -/
noncomputable def psdFigure (p : PsdPred) : Except PyErr (List PsdPoint) × PsdPred :=
  match p.freqs with
  | [] => (.error .indexError, p)
  | f0 :: _ =>
    let fs := p.freqs.map (· - f0)
    (bind1 (Scripts.maskLe fs 0.2 fs) fun f =>
      bind1 (Scripts.maskLe fs 0.2 p.mean) fun m =>
      bind1 (Scripts.maskLe fs 0.2 p.lower) fun l =>
      bind1 (Scripts.maskLe fs 0.2 p.upper) fun u =>
      .ok (List.zipWith (fun f (q : ℝ × ℝ × ℝ) => ⟨f, q.1, q.2.1, q.2.2⟩) f (m.zip (l.zip u))), { p with freqs := fs })

/-- What is stored of the result of `predict_psd` (crude_oil.py:111-118, 123). -/
noncomputable def psdFile (n : Paper.Normaliser) (pred : List (ℝ × Summary)) : PsdPred :=
  ⟨pred.map Prod.fst, pred.map fun p => (Paper.untransformPsd n p.2).1, pred.map fun p => (Paper.untransformPsd n p.2).2.1,
    pred.map fun p => (Paper.untransformPsd n p.2).2.2⟩

/-! ## Predictions of the price of oil -/

/-- `x[inds]` for `inds = t >= lo`: NumPy raises `IndexError` if the lengths differ. -/
noncomputable def maskGe (t : List ℝ) (lo : ℝ) (x : List ℝ) : Except PyErr (List ℝ) :=
  if t.length = x.length then .ok (((t.zip x).filter fun p => decide (lo ≤ p.1)).map Prod.snd) else .error .indexError

/-- The inputs of the predictions (crude_oil.py:39). -/
noncomputable def oilInputs (t : List ℝ) : Except PyErr (List ℝ) :=
  bind1 (pyMin t) fun lo => bind1 (pyMax t) fun hi => linspace lo hi 500

/-- One panel: the two predictions, the observations, and the limits of the horizontal axis. -/
structure OilFigure where
  first : List Drawn
  second : List Drawn
  train : List (ℝ × ℝ)
  test : List (ℝ × ℝ)
  left : ℝ
  right : ℝ

/-- `plot_compare` (crude_oil.py:169-214). `p1` and `p2` are means and variances; `train` has the normalised observations. -/
noncomputable def oilFigure (n : Paper.Normaliser) (tPred : List ℝ) (p1 p2 : List ℝ × List ℝ) (train test : List (ℝ × ℝ)) :
    Except PyErr OilFigure :=
  bind1 (maskGe tPred 150 p1.1) fun m1 => bind1 (maskGe tPred 150 p2.1) fun m2 =>
  bind1 (maskGe tPred 150 p1.2) fun v1 => bind1 (maskGe tPred 150 p2.2) fun v2 =>
  bind1 (maskGe tPred 150 tPred) fun t =>
  bind1 (bandPlot t m1 v1) fun c1 => bind1 (bandPlot t m2 v2) fun c2 =>
  match t with
  | [] => .error .indexError
  | a :: l => .ok ⟨c1, c2, (train.filter fun p => decide (150 ≤ p.1)).map fun p => (p.1, p.2 * n.scale + n.loc),
      test.filter fun p => decide (150 ≤ p.1), a, l.getLastD a⟩

/-- The training data after normalisation (crude_oil.py:55-56, 63-64), with the normaliser. -/
noncomputable def oilTrain (train : List (ℝ × ℝ)) : Paper.Normaliser × List (ℝ × ℝ) :=
  let n := Paper.Normaliser.fit (train.map Prod.snd)
  (n, (train.map Prod.fst).zip (n.transform (train.map Prod.snd)))

end Gpcm.Figures
