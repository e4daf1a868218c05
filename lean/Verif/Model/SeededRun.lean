import Verif.Model.RunExp
import Verif.Model.GlobalState

/-!
# Model of training in an experiment with one global random state (experiments/experiment.py)

`Model/RunExp.lean` leaves open where random numbers come from. Here training a model takes the global random state and changes it. The
state is that of the seed of the experiment when training starts. Files are left out.
-/

namespace Gpcm.Seeded

open Experiments

variable {γ s num vec : Type}

/-- What `train_models` calls for a model: `model()`, which declares the hyper-parameters and draws nothing, and `model.fit`, which may draw
from the global random state. -/
structure Trainer (γ s : Type) where
  init : Kind → s → s
  fit : Kind → s → γ → Except PyErr s × γ

/-- The loop that trains the models (experiment.py:240-245), without files: the models, unless training raises, and the global random
state. -/
def fitAll (T : Trainer γ s) : List (Kind × s) → γ → Except PyErr (List (Kind × s)) × γ
  | [], g => (.ok [], g)
  | x :: xs, g =>
    match T.fit x.1 x.2 g with
    | (.error e, g) => (.error e, g)
    | (.ok m, g) =>
      match fitAll T xs g with
      | (.error e, g) => (.error e, g)
      | (.ok l, g) => (.ok ((x.1, m) :: l), g)

/-- `setup` and `run` up to training (experiment.py:57, 93-121, 232-245): the working directory sets the global random state from
`--seed`, the models that `--model` names are built, which draws nothing, and trained. -/
def train (S : SetOrder) (T : Trainer γ s) (seeded : ℤ → γ) (new : Call num vec → s) (names : List String) (c : Common num vec)
    (nZ : Option ℕ) (ext : Bool) (seed : ℤ) : Except PyErr (List (Kind × s)) :=
  match buildModels S names c nZ ext with
  | .error e => .error e
  | .ok calls => (fitAll T (calls.map fun k => (k.kind, T.init k.kind (new k))) (seeded seed)).1

/-- Training with the scheme `mean-field-ca` (approx.py:799-802): the global random state is that of the process, and the one in
`World` is not used. -/
noncomputable def caTrainer {σ ι κ : Type} [Fintype ι] [DecidableEq ι] [Fintype κ] [DecidableEq κ] (G : Global.Gen σ ι κ)
    (C : Chols ι κ) (m : Kind → Inst ι κ) (d : List (ℝ × ℝ)) (iters : ℤ) : Trainer σ (Global.World σ ι κ) where
  init := fun _ w => w
  fit := fun k w g =>
    let w' := Global.World.fitCA G C (m k) d iters { w with state := g }
    (.ok { w' with state := w.state }, w'.state)

end Gpcm.Seeded
