import Verif.Model.Py

/-!
# Model of the files that the experiments of the paper exchange (experiments/paper/reproduce.sh)

A script is the sequence of files that it writes and reads. What it writes is an arbitrary function of the script, the file and all that it
read before. A script may raise at any point, for example because memory runs out: `reproduce.sh` carries on with the next one. Paths are
relative to `_experiments`. Logs and figures, which nothing reads, are left out. `WorkingDirectory` of `wbml` is a dependency: it does not
delete what is there. `model.load` reads a file like `wd.load`.
-/

namespace Gpcm.Reproduce

/-- A path, by its components. -/
abbrev Path := List String

/-- What a script does with files. -/
inductive Op where
  | save (p : Path)
  | load (p : Path)
  deriving DecidableEq

/-- The files that exist, and their contents. -/
abbrev Files (γ : Type) := Path → Option γ

/-- The operations of a script, one after the other: the files afterwards, and what was read, unless a file is missing. -/
def exec {γ : Type} (g : Path → List γ → γ) : List Op → Files γ → List γ → Files γ × Except PyErr (List γ)
  | [], fs, r => (fs, .ok r)
  | .save p :: l, fs, r => exec g l (fun q => if q = p then some (g p r) else fs q) r
  | .load p :: l, fs, r =>
    match fs p with
    | none => (fs, .error .osError)
    | some c => exec g l fs (r ++ [c])

/-- A script that raises by itself after `k` operations, if `stop` is `k`. -/
def script {γ : Type} (g : Path → List γ → γ) (ops : List Op) (stop : Option ℕ) (fs : Files γ) : Files γ × Except PyErr (List γ) :=
  match stop with
  | none => exec g ops fs []
  | some k =>
    match exec g (ops.take k) fs [] with
    | (fs, .error e) => (fs, .error e)
    | (fs, .ok _) => (fs, .error .runtimeError)

/-- A shell script without `set -e` (reproduce.sh:1-28): the commands one after the other, whether they raise or not. Command `i` writes
`g i`. -/
def shell {γ : Type} (g : ℕ → Path → List γ → γ) : ℕ → List (List Op × Option ℕ) → Files γ → Files γ × List (Except PyErr (List γ))
  | _, [], fs => (fs, [])
  | i, c :: cs, fs =>
    let r := script (g i) c.1 c.2 fs
    let s := shell g (i + 1) cs r.1
    (s.1, r.2 :: s.2)

/-- `priors.py` (41-47), `sample.py` (70-74), `sample_interpolation.py` (90-94) and `smk.py` (47-78): results that are computed with `--train`
and read otherwise. -/
def computed (dir file : String) (train : Bool) : List Op := if train then [.save [dir, file]] else [.load [dir, file]]

/-- `comparison.py` (25-95). `slug` are the names of the directories of the three kernels, `slugify(str(kernel))`. -/
def comparison (slug : Path) : List Op :=
  (slug.zip ["gpcm", "cgpcm", "rgpcm"]).flatMap fun k =>
    .save ["comparison", k.1, "data.pickle"] :: ["mean-field", "structured"].flatMap fun scheme =>
      ["model.pickle", "elbo.pickle", "f_pred.pickle", "k_pred.pickle"].map fun file => .save ["comparison", k.1, scheme, k.2, file]

/-- `kernel_analysis` (comparison_process.py:14-24). -/
def kernelAnalysis (data scheme model : String) : List Op :=
  [.load ["comparison", data, "data.pickle"], .load ["comparison", data, scheme, model, "k_pred.pickle"]]

/-- `comparison_process.py` (27-79). -/
def comparisonProcess : List Op :=
  ([("gpcm", "eq"), ("cgpcm", "ceq-1"), ("rgpcm", "matern12")].flatMap fun k =>
    ["mean-field", "structured", "mean-field", "structured"].flatMap fun scheme => kernelAnalysis k.2 scheme k.1) ++
  [("gpcm", "eq"), ("cgpcm", "ceq-1"), ("rgpcm", "matern12")].flatMap fun k =>
    [.load ["comparison", k.2, "data.pickle"], .load ["comparison", k.2, "structured", k.1, "k_pred.pickle"],
      .load ["comparison", k.2, "mean-field", k.1, "k_pred.pickle"]]

/-- `crude_oil.py` (60, 84-134). -/
def crudeOil (year : String) (train predict : Bool) : List Op :=
  let models := ["gpcm", "rgpcm", "cgpcm"]
  let preds := ["pred_f.pickle", "pred_f_test.pickle", "pred_k.pickle", "pred_psd.pickle"]
  .save ["crude_oil", year, "data.pickle"] ::
    ((models.map fun m => let p := ["crude_oil", year, m, "model.pickle"]; if train then .save p else .load p) ++
    (if predict then models.flatMap fun m => preds.map fun f => .save ["crude_oil", year, m, f] else []) ++
    models.flatMap fun m => preds.map fun f => .load ["crude_oil", year, m, f])

/-- The years for which the experiment is run (reproduce.sh:15). -/
def years : List String := ["2012", "2013", "2014", "2015", "2016", "2017"]

/-- The years that are aggregated (crude_oil_aggregate.py:14-15), `str(year)` for `range(2012, 2017 + 1)`. -/
def aggregated : List String := ["2012", "2013", "2014", "2015", "2016", "2017"]

/-- `crude_oil_aggregate.py` (11-20). -/
def crudeOilAggregate : List Op :=
  aggregated.flatMap fun y => .load ["crude_oil", y, "data.pickle"] ::
    ["gpcm", "cgpcm", "rgpcm"].map fun m => .load ["crude_oil", y, m, "pred_f_test.pickle"]

/-- `vix_forecast.py` (59-112). -/
def vixForecast : List Op :=
  .save ["vix_forecast", "data.pickle"] :: ["rgpcm", "gpcm", "cgpcm"].map fun m => .save ["vix_forecast", m, "preds.pickle"]

/-- `vix_forecast_process.py` (24-25, 46-47, 59-64). -/
def vixForecastProcess : List Op :=
  ["gpcm", "cgpcm", "rgpcm", "rgpcm", "gpcm", "rgpcm", "cgpcm", "cgpcm", "gpcm"].map fun m => .load ["vix_forecast", m, "preds.pickle"]

/-- `vix_analyse.py` (55-81). -/
def vixAnalyse (train predict : Bool) : List Op :=
  (if train then Op.save ["vix_analyse", "model.pickle"] else .load ["vix_analyse", "model.pickle"]) ::
    ["pred_f.pickle", "pred_psd.pickle", "pred_k.pickle"].map fun f =>
      if predict then Op.save ["vix_analyse", f] else .load ["vix_analyse", f]

/-- The commands of reproduce.sh (6-28); `compare_inference.py` exchanges no files. -/
def reproduce (slug : Path) : List (List Op) :=
  [computed "priors" "samples.pickle" true, computed "sample" "samples.pickle" true, computed "sample_interpolate" "samples.pickle" true, [],
    comparison slug, computed "smk" "preds.pickle" true] ++
  years.map (fun y => crudeOil y true true) ++
  [vixForecast, vixAnalyse true true, vixAnalyse false true, comparisonProcess, crudeOilAggregate, vixForecastProcess]

end Gpcm.Reproduce
