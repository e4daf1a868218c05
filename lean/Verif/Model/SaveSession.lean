import Verif.Model.Session

/-!
# Model of saving and loading a session

`save` stores the variables of the container, and `load` assigns them to those of another model. How often the model was
conditioned and on what (`approximation._q_i` and `approximation.ts`) are attributes of the approximation and not variables.
The container itself is modelled in `Model/Vars.lean`.
-/

open Matrix

namespace Gpcm

variable {ι κ : Type} [Fintype ι] [DecidableEq ι] [Fintype κ] [DecidableEq κ]

/-- The content of the file as far as the approximate posteriors are concerned: for every index the variables that exist. -/
structure Saved (ι κ : Type) where
  qu : ℕ → Option (NatNormal ι)
  qz : ℕ → Option (NatNormal κ)
  samplesU : ℕ → Option (List (ι → ℝ))
  samplesZ : ℕ → Option (List (κ → ℝ))

namespace Session

/-- `model.save(path)` (model.py:249-257). `E i` says whether the variables of the `i`th approximate posterior exist, which is
the case once they have been used (approx.py:20-25). -/
def save (E : ℕ → Bool) (s : Session ι κ) : Saved ι κ where
  qu i := if E i then some (s.posts.qu i) else none
  qz i := if E i then some (s.posts.qz i) else none
  samplesU := s.samplesU
  samplesZ := s.samplesZ

/-- `model.load(path)` (model.py:259-274): variables in the file are assigned or created, others are kept. -/
def load (v : Saved ι κ) (s : Session ι κ) : Session ι κ where
  posts := ⟨s.posts.qi, fun i => (v.qu i).getD (s.posts.qu i), fun i => (v.qz i).getD (s.posts.qz i)⟩
  samplesU i := (v.samplesU i).or (s.samplesU i)
  samplesZ i := (v.samplesZ i).or (s.samplesZ i)
  ts := s.ts

variable (C : Chols ι κ) (m : Inst ι κ)

/-- One operation under the scheme `mean-field-ca`; `elbo` changes nothing (approx.py:597-640). -/
noncomputable def runCA (s : Session ι κ) : Op → Session ι κ
  | .fit d iters => s.fitCA C m d iters
  | .condition d => s.condition C m d
  | .elbo _ => s

end Session

end Gpcm
