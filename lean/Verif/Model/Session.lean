import Verif.Model.Gibbs
import Verif.Model.KernelPred

/-!
# Model of a session: fitting, conditioning and predicting in sequence

What a user does with a model whose hyper-parameters are fixed, on top of the numerical functions of
`Model/Approx.lean` and `Model/Gibbs.lean`. The model is an `Inst`. `fit`, `condition` and `elbo` change the variables of
the approximate posteriors; `predict` reads them. A posterior that does not exist yet has the value it is
initialised with. The random numbers of a fit are a tape: `fit` always starts from the same seed (approx.py:748).
-/

open Matrix

namespace Gpcm

variable {ι κ : Type} [Fintype ι] [DecidableEq ι] [Fintype κ] [DecidableEq κ]

/-- The variables of the approximate posteriors, their samples (`ps.q_u[i].samples`), and `approximation.ts`. -/
structure Session (ι κ : Type) where
  posts : Posts ι κ
  samplesU : ℕ → Option (List (ι → ℝ))
  samplesZ : ℕ → Option (List (κ → ℝ))
  ts : Option (DataTerms ι κ)

namespace Session

variable (C : Chols ι κ) (m : Inst ι κ)

/-- `model.condition(t, y)` (model.py:72-73, approx.py:121-130). -/
noncomputable def condition (d : List (ℝ × ℝ)) (s : Session ι κ) : Session ι κ :=
  { s with posts := s.posts.condition, ts := some (constructDataTerms C m d) }

/-- `model.fit(t, y, iters=iters)` for the scheme `mean-field-ca` (approx.py:801-802). -/
noncomputable def fitCA (d : List (ℝ × ℝ)) (iters : ℤ) (s : Session ι κ) : Session ι κ :=
  { s with posts := (fitMeanFieldCA C m s.posts d iters).1 }

/-- The setters of `q_u_samples` and `q_z_samples` (approx.py:372-378, 390-396): the old samples are deleted. -/
def setSamples (us : List (ι → ℝ)) (zs : List (κ → ℝ)) (s : Session ι κ) : Session ι κ :=
  { s with
    samplesU := fun i => if i = s.posts.qi then some us else s.samplesU i
    samplesZ := fun i => if i = s.posts.qi then some zs else s.samplesZ i }

/-- `model.fit(t, y, iters=iters, optimise_hypers=False)` for the scheme `structured` (approx.py:687-783). The first entry of
the tape initialises the chain, the following ones are used by the sweeps. -/
noncomputable def fitStructured (W : ℕ → (ι → ℝ) × (κ → ℝ)) (d : List (ℝ × ℝ)) (iters : ℤ) (s : Session ι κ) :
    Session ι κ × Except PyErr Unit :=
  let ts := constructDataTerms C m d
  let u := s.posts.qU.sample C.u (W 0).1
  let z := s.posts.qZ.sample C.z (W 0).2
  let r := Fit.gibbsLoop (gibbsU C m ts W) (gibbsZ C m ts W) none (iters / 2).toNat 0 (1, u, z)
  match r.2.getLast? with
  | none => (s, .error .indexError)
  | some x =>
    let thousands : ℤ := if 1000 < iters then iters / 1000 else 1
    let r := Fit.gibbsLoop (gibbsU C m ts W) (gibbsZ C m ts W) (some thousands.toNat) (thousands * 1000).toNat 0 (r.1, x)
    (s.setSamples (r.2.map Prod.fst) (r.2.map Prod.snd), .ok ())

/-- `model.elbo(t, y)` for the scheme `structured`: the variables afterwards (approx.py:398-419). -/
noncomputable def elboStructured (d : List (ℝ × ℝ)) (s : Session ι κ) : Session ι κ := fitCA C m d 5000 s

/-- `model.elbo(t, y, num_samples)` for the scheme `structured` (approx.py:398-419, 481-503): the session afterwards and the value. `ws`
are the random numbers of the samples. -/
noncomputable def reportStructured (d : List (ℝ × ℝ)) (ws : List (ι → ℝ)) (s : Session ι κ) : Session ι κ × Except PyErr ℝ :=
  let s' := s.elboStructured C m d
  (s', elboCollapsedZ C m s'.posts d (ws.map (s'.posts.qU.sample C.u)))

/-- `model.elbo(t, y)` for the mean-field schemes (approx.py:584-632): the session afterwards and the value. -/
noncomputable def reportMeanField (d : List (ℝ × ℝ)) (s : Session ι κ) : Session ι κ × Except PyErr ℝ :=
  (s, MeanField.elbo C m s.posts d none)

/-- `model.predict(t)` for the mean-field schemes (model.py:80-83, approx.py:642-660). -/
noncomputable def predictMeanField (t : List ℝ) (s : Session ι κ) : List (ℝ × ℝ) := MeanField.predict C m s.posts t

/-- `_sample_p_u` (approx.py:505-509) with the getter `p_u_samples` (approx.py:362-365), which raises if the
variable does not exist. `ws` are as many random vectors as samples are requested. -/
noncomputable def samplePU (ws : List (ι → ℝ)) (s : Session ι κ) : Except PyErr (List (ι → ℝ)) :=
  if s.posts.qi = 0 then .ok (Gpcm.samplePU C.u m.Ku none ws)
  else match s.samplesU (s.posts.qi - 1) with
    | none => .error .keyError
    | some us => .ok (Gpcm.samplePU C.u m.Ku (some us) ws)

/-- `model.predict(t, num_samples)` for the scheme `structured` (model.py:80-83, approx.py:511-534). -/
noncomputable def predictStructured (t : List ℝ) (ws : List (ι → ℝ)) (s : Session ι κ) : Except PyErr (List (ℝ × ℝ)) :=
  bind1 (s.samplePU C m ws) fun us => Structured.predict C m s.ts t us

/-- What a user may do with a model before predicting. -/
inductive Op
  | fit (d : List (ℝ × ℝ)) (iters : ℤ)
  | condition (d : List (ℝ × ℝ))
  | elbo (d : List (ℝ × ℝ))

/-- One operation under the scheme `structured`. An exception leaves the state as it is when it is raised. -/
noncomputable def run (W : ℕ → (ι → ℝ) × (κ → ℝ)) (s : Session ι κ) : Op → Session ι κ
  | .fit d iters => (s.fitStructured C m W d iters).1
  | .condition d => s.condition C m d
  | .elbo d => s.elboStructured C m d

/-- A session starts with no samples and no terms. -/
def fresh (qu : ℕ → NatNormal ι) (qz : ℕ → NatNormal κ) : Session ι κ := ⟨⟨0, qu, qz⟩, fun _ => none, fun _ => none, none⟩

end Session

end Gpcm
