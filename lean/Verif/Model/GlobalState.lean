import Verif.Model.Session

/-!
# Model of the random numbers that initialise the approximate posteriors

`Model/Session.lean` takes the distributions that the approximate posteriors are initialised with as given. Here they are drawn, as in
`_parametrise_natural`, from the global random state of the process whenever a posterior is accessed. The global random state is of
any type; `Gen` says what `B.randn` returns for the two sizes and how it changes the state. The random state that `fit` creates for
itself from the seed zero is a tape, as in `Model/Session.lean`.
-/

open Matrix

namespace Gpcm.Global

variable {σ ι κ : Type} [Fintype ι] [DecidableEq ι] [Fintype κ] [DecidableEq κ]

/-- `B.randn(n, 1)` for the numbers of inducing variables of the filter and of the excitation (approx.py:22): the random numbers and the
new global random state. -/
structure Gen (σ ι κ : Type) where
  randnU : σ → (ι → ℝ) × σ
  randnZ : σ → (κ → ℝ) × σ

/-- A process with one model: the global random state, and the model as in `Session`, but with posteriors that need not exist. -/
structure World (σ ι κ : Type) where
  state : σ
  depth : ℕ
  qu : ℕ → Option (NatNormal ι)
  qz : ℕ → Option (NatNormal κ)
  samplesU : ℕ → Option (List (ι → ℝ))
  samplesZ : ℕ → Option (List (κ → ℝ))
  ts : Option (DataTerms ι κ)

/-- `_parametrise_natural(params, n)` (approx.py:19-24): random numbers are drawn whether or not the variables exist already; they are used
if not. -/
noncomputable def parametrise {n : Type} [DecidableEq n] (randn : σ → (n → ℝ) × σ) (q : Option (NatNormal n)) (g : σ) : NatNormal n × σ :=
  let r := randn g
  match q with
  | some q => (q, r.2)
  | none => (⟨r.1, (1e-1 : ℝ) • 1⟩, r.2)

namespace World

variable (G : Gen σ ι κ) (C : Chols ι κ) (m : Inst ι κ)

/-- A new model in a process with the global random state `g` (approx.py:42-44). -/
def new (g : σ) : World σ ι κ := ⟨g, 0, fun _ => none, fun _ => none, fun _ => none, fun _ => none, none⟩

/-- Anything else in the process that draws random numbers or sets the global random state. -/
def other (f : σ → σ) (w : World σ ι κ) : World σ ι κ := { w with state := f w.state }

/-- The property `q_u` (approx.py:57-60). -/
noncomputable def readU (w : World σ ι κ) : NatNormal ι × World σ ι κ :=
  let r := parametrise G.randnU (w.qu w.depth) w.state
  (r.1, { w with state := r.2, qu := fun i => if i = w.depth then some r.1 else w.qu i })

/-- The property `q_z` (approx.py:80-83). -/
noncomputable def readZ (w : World σ ι κ) : NatNormal κ × World σ ι κ :=
  let r := parametrise G.randnZ (w.qz w.depth) w.state
  (r.1, { w with state := r.2, qz := fun i => if i = w.depth then some r.1 else w.qz i })

/-- The setter of `q_u` (approx.py:62-67): the posterior is accessed and then assigned. -/
noncomputable def setU (q : NatNormal ι) (w : World σ ι κ) : World σ ι κ :=
  let w := (w.readU G).2
  { w with qu := fun i => if i = w.depth then some q else w.qu i }

/-- The setter of `q_z` (approx.py:85-90). -/
noncomputable def setZ (q : NatNormal κ) (w : World σ ι κ) : World σ ι κ :=
  let w := (w.readZ G).2
  { w with qz := fun i => if i = w.depth then some q else w.qz i }

/-- `_fit_mean_field_ca(model(), t, y, iters)` (approx.py:297-356): both posteriors are accessed before the iterations and assigned after
them. -/
noncomputable def fitCA (d : List (ℝ × ℝ)) (iters : ℤ) (w : World σ ι κ) : World σ ι κ :=
  let (qu, w) := w.readU G
  let (qz, w) := w.readZ G
  let r := (caLoop (caStep C m (constructDataTerms C m d)) Pair.diff iters.toNat ⟨qu, qz⟩).1
  (w.setU G r.u).setZ G r.z

/-- The setters of `q_u_samples` and `q_z_samples` (approx.py:372-378, 390-396). -/
def setSamples (us : List (ι → ℝ)) (zs : List (κ → ℝ)) (w : World σ ι κ) : World σ ι κ :=
  { w with
    samplesU := fun i => if i = w.depth then some us else w.samplesU i
    samplesZ := fun i => if i = w.depth then some zs else w.samplesZ i }

/-- `fit(model, t, y, approximation, iters, optimise_hypers=False)` for the scheme `structured` (approx.py:687-783). Only the first call
of `gibbs_sample` accesses the posteriors (approx.py:728-732). -/
noncomputable def fitStructured (W : ℕ → (ι → ℝ) × (κ → ℝ)) (d : List (ℝ × ℝ)) (iters : ℤ) (w : World σ ι κ) :
    World σ ι κ × Except PyErr Unit :=
  let ts := constructDataTerms C m d
  let (qu, w) := w.readU G
  let u := qu.sample C.u (W 0).1
  let (qz, w) := w.readZ G
  let z := qz.sample C.z (W 0).2
  let r := Fit.gibbsLoop (gibbsU C m ts W) (gibbsZ C m ts W) none (iters / 2).toNat 0 (1, u, z)
  match r.2.getLast? with
  | none => (w, .error .indexError)
  | some x =>
    let thousands : ℤ := if 1000 < iters then iters / 1000 else 1
    let r := Fit.gibbsLoop (gibbsU C m ts W) (gibbsZ C m ts W) (some thousands.toNat) (thousands * 1000).toNat 0 (r.1, x)
    (w.setSamples (r.2.map Prod.fst) (r.2.map Prod.snd), .ok ())

/-- `model.condition(t, y)` (model.py:72-73, approx.py:121-130). -/
noncomputable def condition (d : List (ℝ × ℝ)) (w : World σ ι κ) : World σ ι κ :=
  { w with depth := w.depth + 1, ts := some (constructDataTerms C m d) }

/-- What happens in a process with a model of the scheme `scheme`. -/
inductive Op (σ : Type)
  | fit (d : List (ℝ × ℝ)) (iters : ℤ)
  | condition (d : List (ℝ × ℝ))
  | read
  | other (f : σ → σ)

/-- One operation under the scheme `structured`, or else under `mean-field-ca`. `read` accesses `q_u` and `q_z`. -/
noncomputable def run (structured : Bool) (W : ℕ → (ι → ℝ) × (κ → ℝ)) (w : World σ ι κ) : Op σ → World σ ι κ
  | .fit d iters => if structured then (w.fitStructured G C m W d iters).1 else w.fitCA G C m d iters
  | .condition d => w.condition C m d
  | .read => ((w.readU G).2.readZ G).2
  | .other f => w.other f

end World

end Gpcm.Global
