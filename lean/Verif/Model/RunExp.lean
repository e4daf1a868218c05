import Verif.Model.Experiments

/-!
# Model of `run` and `train_models` (experiments/experiment.py)

What a model does is left open: its states, the files it writes, its training and its analysis are arbitrary. Printing is not
modelled.
-/

namespace Gpcm.Experiments

/-- A model and its name. -/
structure Trainee (σ : Type) where
  name : String
  state : σ

/-- What `train_models` calls: `model()`, which declares the variables, `model.fit(t, y, **train_config)`, `model.save` and
`model.load`. Random numbers may depend on the model. -/
structure Methods (σ φ : Type) where
  init : String → σ → σ
  fit : String → σ → Except PyErr σ
  save : σ → φ
  load : φ → σ → σ

variable {σ φ : Type}

/-- The directory `models` of the working directory: the content of the files that exist. -/
abbrev Files (φ : Type) := String → Option φ

/-- `wd.file("models", model.name + ".pickle")` (experiment.py:231, 245). -/
def fileOf (name : String) : String := name ++ ".pickle"

/-- The loop that loads the models (experiment.py:230-231). -/
def loadAll (M : Methods σ φ) (wd : Option (Files φ)) : List (Trainee σ) → Except PyErr (List (Trainee σ))
  | [] => .ok []
  | m :: ms =>
    match wd with
    | none => .error .attributeError
    | some f =>
      match f (fileOf m.name) with
      | none => .error .osError
      | some v =>
        match loadAll M wd ms with
        | .error e => .error e
        | .ok l => .ok (⟨m.name, M.load v m.state⟩ :: l)

/-- The loop that trains and saves the models (experiment.py:240-245): the models, unless training raises, and the files. -/
def fitAll (M : Methods σ φ) (wd : Option (Files φ)) : List (Trainee σ) → Except PyErr (List (Trainee σ)) × Option (Files φ)
  | [] => (.ok [], wd)
  | m :: ms =>
    match M.fit m.name m.state with
    | .error e => (.error e, wd)
    | .ok s =>
      let r := fitAll M (wd.map fun f n => if n = fileOf m.name then some (M.save s) else f n) ms
      match r.1 with
      | .error e => (.error e, r.2)
      | .ok l => (.ok (⟨m.name, s⟩ :: l), r.2)

/-- `train_models` (experiment.py:213-245). -/
def trainModels (M : Methods σ φ) (load : Bool) (wd : Option (Files φ)) (ms : List (Trainee σ)) :
    Except PyErr (List (Trainee σ)) × Option (Files φ) :=
  if load then (loadAll M wd ms, wd)
  else fitAll M wd (ms.map fun m => ⟨m.name, M.init m.name m.state⟩)

/-- `model.name` (gpcm.py:81, 298, rgpcm.py:56). -/
def Kind.title : Kind → String
  | .gpcm => "GPCM"
  | .cgpcm => "CGPCM"
  | .rgpcm => "RGPCM"

/-- `run` (experiment.py:62-124): build, train or load, and analyse (arbitrary, model by model). `new` constructs a model. -/
def runExperiment {num vec α : Type} (S : SetOrder) (M : Methods σ φ) (new : Call num vec → σ) (analyse : Trainee σ → α)
    (names : List String) (c : Common num vec) (nZ : Option ℕ) (ext load : Bool) (wd : Files φ) :
    Except PyErr (List α) × Files φ :=
  match buildModels S names c nZ ext with
  | .error e => (.error e, wd)
  | .ok calls =>
    let r := trainModels M load (some wd) (calls.map fun k => ⟨k.kind.title, new k⟩)
    (match r.1 with
      | .error e => .error e
      | .ok l => .ok (l.map analyse), r.2.getD wd)

end Gpcm.Experiments
