import Verif.Props.ReproduceProps

/-!
# Property C220: drawing a figure again needs no training
-/

namespace Gpcm.Reproduce

variable {γ : Type}

/-- The files of predictions of one year, in the order in which they are read. -/
def oilPreds (year : String) : List Path :=
  ["gpcm", "rgpcm", "cgpcm"].flatMap fun m =>
    ["pred_f.pickle", "pred_f_test.pickle", "pred_k.pickle", "pred_psd.pickle"].map fun f => ["crude_oil", year, m, f]

/-- The files of models of one year. -/
def oilModels (year : String) : List Path := ["gpcm", "rgpcm", "cgpcm"].map fun m => ["crude_oil", year, m, "model.pickle"]

/-- **C220** After `crude_oil.py` was run with `--train --predict`, running it without reads the models and the predictions that were
computed, and those are what the first run drew. No file changes other than that of the data. -/
theorem c220_oil (g g' : Path → List γ → γ) (year : String) (fs : Files γ) :
    let r := script g (crudeOil year true true) none fs
    let r' := script g' (crudeOil year false false) none r.1
    r.2 = .ok ((oilPreds year).map fun p => g p []) ∧
    r'.2 = .ok ((oilModels year).map (fun p => g p []) ++ (oilPreds year).map fun p => g p []) ∧
    ∀ p, p ≠ ["crude_oil", year, "data.pickle"] → r'.1 p = r.1 p := by
  refine ⟨?_, ?_, ?_⟩
  · simp [script, crudeOil, exec, oilPreds]
  · simp [script, crudeOil, exec, oilPreds, oilModels]
  · intro p hp
    exact script_other g' _ none _ (by simpa [written, crudeOil] using hp)

/-- **C220** Likewise `vix_analyse.py` after `--train --predict`, and the scripts that have only `--train`. These write nothing then. -/
theorem c220_others (g g' : Path → List γ → γ) (dir file : String) (fs : Files γ) :
    (let r := script g (vixAnalyse true true) none fs;
      script g' (vixAnalyse false false) none r.1 =
        (r.1, .ok (["model.pickle", "pred_f.pickle", "pred_psd.pickle", "pred_k.pickle"].map fun f => g ["vix_analyse", f] []))) ∧
    let r := script g (computed dir file true) none fs
    script g' (computed dir file false) none r.1 = (r.1, .ok [g [dir, file] []]) := by
  constructor
  · simp [script, vixAnalyse, exec]
  · simp [script, computed, exec]

/-- **C220** Without anything to read, they raise. -/
theorem c220_nothing (g : Path → List γ → γ) (year dir file : String) :
    (script g (crudeOil year false false) none (fun _ => none)).2 = .error .osError ∧
    (script g (vixAnalyse false false) none (fun _ => none)).2 = .error .osError ∧
    (script g (computed dir file false) none (fun _ => none)).2 = .error .osError := by
  refine ⟨?_, ?_, ?_⟩
  · simp [script, crudeOil, exec]
  · simp [script, vixAnalyse, exec]
  · simp [script, computed, exec]

/-- **C220, refuted** With `--train` alone, the models are replaced, but predictions of the earlier ones are drawn: those of `vix_analyse.py`
and of `crude_oil.py`. -/
theorem c220_false (g g' : Path → List γ → γ) (year : String) (fs : Files γ) :
    (let r := script g (crudeOil year true true) none fs;
      let r' := script g' (crudeOil year true false) none r.1;
      (∀ p ∈ oilModels year, r'.1 p = some (g' p [])) ∧ r'.2 = .ok ((oilPreds year).map fun p => g p [])) ∧
    let r := script g (vixAnalyse true true) none fs
    let r' := script g' (vixAnalyse true false) none r.1
    r'.1 ["vix_analyse", "model.pickle"] = some (g' ["vix_analyse", "model.pickle"] []) ∧
      r'.2 = .ok (["pred_f.pickle", "pred_psd.pickle", "pred_k.pickle"].map fun f => g ["vix_analyse", f] []) := by
  refine ⟨⟨?_, ?_⟩, ?_, ?_⟩
  · simp [script, crudeOil, exec, oilModels]
  · simp [script, crudeOil, exec, oilPreds]
  · simp [script, vixAnalyse, exec]
  · simp [script, vixAnalyse, exec]

/-- **C220** With `--predict` alone, what is drawn is new and made from the model that was saved, which `--predict` keeps. -/
theorem c220_predict (g g' : Path → List γ → γ) (year : String) (fs : Files γ) :
    let r := script g (crudeOil year true true) none fs
    let r' := script g' (crudeOil year false true) none r.1
    r'.2 = .ok ((oilModels year).map (fun p => g p []) ++ (oilPreds year).map fun p => g' p ((oilModels year).map fun p => g p [])) ∧
    ∀ p ∈ oilModels year, r'.1 p = some (g p []) := by
  constructor
  · simp [script, crudeOil, exec, oilPreds, oilModels]
  · simp [script, crudeOil, exec, oilModels]

/-- The witness is not vacuous: two runs that write different things. -/
example : ((script (fun _ _ => 2) (crudeOil "2013" true false) none
    (script (fun _ _ => 1) (crudeOil "2013" true true) none (fun _ => none)).1).2 = .ok (List.replicate 12 1)) := rfl

end Gpcm.Reproduce
