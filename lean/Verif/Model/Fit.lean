import Verif.Model.Py
import Mathlib.Data.Real.Basic

/-!
# Model of scheme selection, `ignore_qs`, `fit` and `predict_fourier`

`gpcm/model.py` (`__init__`, `__prior__`, `__condition__`, `predict_fourier`, `fit`), `gpcm/approx.py`
(`Approximation`, the two `fit` methods) and the options that `experiments/experiment.py` passes on.

The numerical work is a parameter (`Backend`): the optimisers, coordinate ascent (modelled in `Model/Approx.lean`)
and the random draws are arbitrary functions. Optimisers may change the variables they are asked to train, and
only those. Names of variables are structured instead of strings, and a pattern `ps.q_u[i].all()` matches
exactly the variables of that posterior; `samples.delete()` is a no-op if there is nothing to delete.
-/

namespace Gpcm.Fit

/-! ## Schemes -/

/-- Python's `str.lower` on single characters. On ASCII characters it is the usual map. A non-ASCII character
goes to a string with a character that is not ASCII, or to the letter `k` (the Kelvin sign is the only
such character). -/
structure Lower where
  low : Char → List Char
  ascii : ∀ c : Char, c.toNat < 128 → low c = [c.toLower]
  other : ∀ c : Char, 128 ≤ c.toNat → ∃ d ∈ low c, 128 ≤ d.toNat ∨ d = 'k'

/-- `str.lower`. -/
def Lower.lower (L : Lower) (s : List Char) : List Char := s.flatMap L.low

/-- The values of `MeanField.fit` (approx.py:578, 801-855). -/
inductive MF
  | ca
  | bfgs
  | collapsedBfgs
  | caBfgs
  | caCollapsedBfgs
  deriving DecidableEq, Repr

/-- The approximations. -/
inductive Approx
  | structured
  | meanField (fit : MF)
  deriving DecidableEq, Repr

/-- `AbstractGPCM.__prior__` (model.py:51-70) on the scheme in lower case. -/
def selectScheme (s : List Char) : Except PyErr Approx :=
  if s = "structured".toList then .ok .structured
  else if s = "mean-field".toList then .ok (.meanField .caCollapsedBfgs)
  else if s = "mean-field-ca".toList then .ok (.meanField .ca)
  else if s = "mean-field-gradient".toList then .ok (.meanField .bfgs)
  else if s = "mean-field-collapsed-gradient".toList then .ok (.meanField .collapsedBfgs)
  else if s = "mean-field-ca-gradient".toList then .ok (.meanField .caBfgs)
  else if s = "mean-field-ca-collapsed-gradient".toList then .ok (.meanField .caCollapsedBfgs)
  else .error .valueError

/-- Construction and instantiation (model.py:35-38, 51-70). -/
def scheme (L : Lower) (s : String) : Except PyErr Approx := selectScheme (L.lower s.toList)

/-! ## Variables and patterns -/

/-- The variables of one posterior. -/
inductive Field
  | lam
  | prec
  | samples
  deriving DecidableEq, Repr

/-- The names of the variables. -/
inductive Name
  | hyper (s : String)
  | qu (i : ℕ) (f : Field)
  | qz (i : ℕ) (f : Field)
  deriving DecidableEq, Repr

/-- The patterns `"-" + ps.q_u[i].all()` and `"-" + ps.q_z[i].all()`. -/
inductive Pat
  | exU (i : ℕ)
  | exZ (i : ℕ)
  deriving DecidableEq, Repr

/-- The names a pattern excludes. -/
def Pat.matches : Pat → Name → Bool
  | .exU i, .qu j _ => i = j
  | .exZ i, .qz j _ => i = j
  | _, _ => false

/-- The names an optimiser trains given negated patterns only. -/
def selected (ps : List Pat) (n : Name) : Bool := !ps.any fun p => p.matches n

/-- The argument `current` of `ignore_qs`. -/
inductive Current
  | bool (b : Bool)
  | str (s : String)
  /-- Any other object; its comparisons with strings are false. -/
  | other
  deriving DecidableEq, Repr

/-- `Approximation.ignore_qs` (approx.py:92-119) at conditioning depth `i`. The outer options are the arguments
that were given. -/
def ignoreQs (i : ℕ) (previous : Option Bool) (current : Option Current) : Except PyErr (List Pat) :=
  match previous, current with
  | some p, some c =>
    let prev := if p then (List.range i).flatMap fun j => [.exU j, .exZ j] else []
    match c with
    | .bool true => .ok (prev ++ [.exU i, .exZ i])
    | .str s => if s = "u" then .ok (prev ++ [.exU i]) else if s = "z" then .ok (prev ++ [.exZ i])
      else .error .valueError
    | _ => .error .valueError
  | _, _ => .error .typeError

/-! ## Gibbs sampling -/

section
variable {S U Z : Type}

/-- The loop of `gibbs_sample` (approx.py:737-743). The number of remaining iterations and the counter are
separate. `subsample` is never zero. -/
def gibbsLoop (su : S → Z → S × U) (sz : S → U → S × Z) (sub : Option ℕ) :
    ℕ → ℕ → S × U × Z → S × List (U × Z)
  | 0, _, x => (x.1, [])
  | k + 1, i, x =>
    let a := su x.1 x.2.2
    let b := sz a.1 a.2
    let r := gibbsLoop su sz sub k (i + 1) (b.1, a.2, b.2)
    if sub = none ∨ ∃ m, sub = some m ∧ i % m = 0 then (r.1, (a.2, b.2) :: r.2) else r

/-- The loop of `elbo_gibbs` (approx.py:454-456): the new random state and samples. -/
def elboGibbsLoop (su : S → Z → S × U) (sz : S → U → S × Z) : ℕ → S × U × Z → S × U × Z
  | 0, x => x
  | k + 1, x =>
    let a := su x.1 x.2.2
    let b := sz a.1 a.2
    elboGibbsLoop su sz k (b.1, a.2, b.2)

end

/-! ## Fitting -/

/-- The values of the variables. -/
abbrev Store (V : Type) := Name → Option V

/-- Assign a variable. -/
def Store.set {V : Type} (s : Store V) (n : Name) (v : V) : Store V := fun m => if m = n then some v else s m

/-- Initialise a variable unless it exists. -/
def Store.touch {V : Type} (s : Store V) (n : Name) (v : V) : Store V :=
  fun m => if m = n ∧ s n = none then some v else s m

/-- Everything numerical. `D` is the type of data, `S` of random states. -/
structure Backend (V D S U Z : Type) where
  /-- Initial values of the parameters of a posterior (`_parametrise_natural`, approx.py:19-24). -/
  init : Name → V
  /-- `model()`: creates hyper-parameters that do not exist yet. -/
  instantiate : Store V → Store V
  instantiate_frame : ∀ s n, (s n).isSome ∨ (∀ h, n ≠ .hyper h) → instantiate s n = s n
  /-- An optimiser run that trains the given names. -/
  optimise : (Name → Bool) → Store V → D → ℤ → Store V
  optimise_frame : ∀ sel s d k n, sel n = false → optimise sel s d k n = s n
  /-- The result of coordinate ascent: `lam` and `prec` of both factors. -/
  ca : Store V → ℕ → D → ℤ → (V × V) × (V × V)
  /-- The optimal factor of `z` given that of `u`. -/
  qzOpt : Store V → ℕ → D → V × V
  /-- `B.create_random_state(dtype, seed=0)`. -/
  seed : S
  /-- Draws from the current posteriors and from the conditionals. -/
  drawU : Store V → ℕ → S → S × U
  drawZ : Store V → ℕ → S → S × Z
  condU : Store V → ℕ → D → S → Z → S × U
  condZ : Store V → ℕ → D → S → U → S × Z
  /-- The state and samples that the optimiser of the hyper-parameters returns. -/
  adam : Store V → ℕ → D → ℤ → S × U × Z → S × U × Z
  stackU : List U → V
  stackZ : List Z → V

/-- The option `optimise_hypers`. -/
inductive OptHypers
  | bool (b : Bool)
  | int (n : ℤ)
  deriving DecidableEq, Repr

/-- `if optimise_hypers`. -/
def OptHypers.truthy : OptHypers → Bool
  | .bool b => b
  | .int n => n ≠ 0

/-- The keyword arguments given to `fit`. -/
structure Kw where
  iters : Option ℤ := none
  rate : Option ℝ := none
  optimiseHypers : Option OptHypers := none
  numSamples : Option ℤ := none

/-- The state of a model: how often it was conditioned and its variables. -/
structure State (V : Type) where
  depth : ℕ
  store : Store V

section
variable {V D S U Z : Type} (B : Backend V D S U Z)

/-- Reading `approximation.q_u` and `q_z` (approx.py:57-60, 80-83) initialises them. -/
def touchQ (i : ℕ) (s : Store V) : Store V :=
  (((s.touch (.qu i .lam) (B.init (.qu i .lam))).touch (.qu i .prec) (B.init (.qu i .prec))).touch
    (.qz i .lam) (B.init (.qz i .lam))).touch (.qz i .prec) (B.init (.qz i .prec))

/-- Reading `approximation.p_u` and `p_z` (approx.py:46-55, 69-78) initialises the previous posteriors if the
model was conditioned. -/
def touchP (i : ℕ) (s : Store V) : Store V := if i = 0 then s else touchQ B (i - 1) s

/-- Reading `approximation.p_u` alone (approx.py:46-55): what the structured bounds do (approx.py:457, 503). -/
def touchPU (i : ℕ) (s : Store V) : Store V :=
  if i = 0 then s
  else (s.touch (.qu (i - 1) .lam) (B.init (.qu (i - 1) .lam))).touch (.qu (i - 1) .prec) (B.init (.qu (i - 1) .prec))

/-- `_fit_mean_field_ca` (approx.py:297-356): the state afterwards. -/
def fitCA (i : ℕ) (d : D) (iters : ℤ) (s : Store V) : Store V :=
  let s := touchQ B i (B.instantiate s)
  let r := B.ca s i d iters
  (((s.set (.qu i .lam) r.1.1).set (.qu i .prec) r.1.2).set (.qz i .lam) r.2.1).set (.qz i .prec) r.2.2

/-- `fit` for mean-field approximations (approx.py:786-855), after its arguments have been accepted: the
variables afterwards and whether an exception was raised. -/
def fitMeanField (f : MF) (i : ℕ) (d : D) (iters : ℤ) (s : Store V) : Store V × Except PyErr Unit :=
  match f with
  | .ca => (fitCA B i d iters s, .ok ())
  | .bfgs =>
    -- The test for `ca-bfgs` inside this branch never succeeds.
    let s := B.instantiate s
    match ignoreQs i (some true) none with
    | .error e => (s, .error e)
    | .ok ps => (B.optimise (selected ps) (touchQ B i (touchP B i s)) d (iters / 5), .ok ())
  | .collapsedBfgs | .caCollapsedBfgs =>
    let s := if f = .caCollapsedBfgs then fitCA B i d iters s else s
    let s := B.instantiate s
    match ignoreQs i (some true) (some (.str "z")) with
    | .error e => (s, .error e)
    | .ok ps =>
      let s := B.optimise (selected ps) (touchQ B i (touchP B i s)) d (iters / 5)
      let s := touchQ B i (B.instantiate s)
      let q := B.qzOpt s i d
      let s := (s.set (.qz i .lam) q.1).set (.qz i .prec) q.2
      let s := if f = .caCollapsedBfgs then fitCA B i d iters s else s
      (s, .ok ())
  | .caBfgs => (s, .error .valueError)

/-- The number of iterations for the hyper-parameters (approx.py:756-759). -/
def hyperIters (iters : ℤ) (opt : OptHypers) (num : ℤ) : Except PyErr ℤ :=
  match opt with
  | .bool _ => if num = 0 then .error .zeroDivision else .ok (iters / num)
  | .int n => .ok n

/-- The optional optimisation of the hyper-parameters in the structured `fit` (approx.py:754-776). -/
def fitHypers (i : ℕ) (d : D) (iters : ℤ) (opt : OptHypers) (num : ℤ) (s : Store V) (x : S × U × Z) :
    Store V × Except PyErr (S × U × Z) :=
  if opt.truthy then
    match hyperIters iters opt num with
    | .error e => (s, .error e)
    | .ok k =>
      let s := B.instantiate s
      match ignoreQs i (some true) (some (.bool true)) with
      | .error e => (s, .error e)
      | .ok ps =>
        let s := touchPU B i s
        (B.optimise (selected ps) s d k, .ok (B.adam s i d k x))
  else (s, .ok x)

/-- `fit` for the structured approximation (approx.py:687-783): the variables afterwards and whether an exception was
raised. -/
def fitStructured (i : ℕ) (d : D) (iters : ℤ) (opt : OptHypers) (num : ℤ) (s : Store V) :
    Store V × Except PyErr Unit :=
  let s := touchQ B i (B.instantiate s)
  -- Find good starting points.
  let u0 := B.drawU s i B.seed
  let z0 := B.drawZ s i u0.1
  let r := gibbsLoop (B.condU s i d) (B.condZ s i d) none (iters / 2).toNat 0 (z0.1, u0.2, z0.2)
  match r.2.getLast? with
  | none => (s, .error .indexError)
  | some (u, z) =>
    match fitHypers B i d iters opt num s (r.1, u, z) with
    | (s, .error e) => (s, .error e)
    | (s, .ok x) =>
      let thousands : ℤ := if 1000 < iters then iters / 1000 else 1
      let s := B.instantiate s
      let r := gibbsLoop (B.condU s i d) (B.condZ s i d) (some thousands.toNat) (thousands * 1000).toNat 0 x
      ((s.set (.qu i .samples) (B.stackU (r.2.map Prod.fst))).set (.qz i .samples)
        (B.stackZ (r.2.map Prod.snd)), .ok ())

/-- `model.fit(t, y, **kw)` (model.py:277-279 and the methods it dispatches to). A keyword that the chosen method
does not have is a `TypeError`. -/
def fit (a : Approx) (kw : Kw) (d : D) (m : State V) : State V × Except PyErr Unit :=
  match a with
  | .structured =>
    let r := fitStructured B m.depth d (kw.iters.getD 5000) (kw.optimiseHypers.getD (.bool true))
      (kw.numSamples.getD 5) m.store
    ({ m with store := r.1 }, r.2)
  | .meanField f =>
    if kw.rate.isSome ∨ kw.optimiseHypers.isSome ∨ kw.numSamples.isSome then
      ({ m with store := B.instantiate m.store }, .error .typeError)
    else
      let r := fitMeanField B f m.depth d (kw.iters.getD 5000) m.store
      ({ m with store := r.1 }, r.2)

/-- `Approximation.condition` (approx.py:121-130) on the state. -/
def condition (m : State V) : State V := { depth := m.depth + 1, store := B.instantiate m.store }

/-- `model.elbo(t, y)`: the variables afterwards. The structured bound fits a mean-field approximation first
(approx.py:398-426); the mean-field bound reads the current priors and posteriors (approx.py:585-633). -/
def elbo (a : Approx) (d : D) (m : State V) : State V :=
  match a with
  | .structured => { m with store := touchPU B m.depth (fitCA B m.depth d 5000 m.store) }
  | .meanField _ => { m with store := touchQ B m.depth (touchP B m.depth (B.instantiate m.store)) }

/-- What a user does with a model. -/
inductive Op (D : Type)
  | fit (kw : Kw) (d : D)
  | condition
  | elbo (d : D)
  /-- Instantiate, and read the current priors and posteriors (`predict`, ...). -/
  | read

/-- Run one operation; exceptions leave the state they leave. -/
def Op.run (a : Approx) (m : State V) : Op D → State V
  | .fit kw d => (Fit.fit B a kw d m).1
  | .condition => Fit.condition B m
  | .elbo d => Fit.elbo B a d m
  | .read => { m with store := touchQ B m.depth (touchP B m.depth (B.instantiate m.store)) }

end

/-- The names of the parameters that `approximation.p_u` uses at a depth, if it does not use the kernel matrix
(approx.py:46-55). -/
def priorNamesU (i : ℕ) : Option (Name × Name) :=
  if i = 0 then none else some (.qu (i - 1) .lam, .qu (i - 1) .prec)

/-- The same for `p_z` (approx.py:69-78). -/
def priorNamesZ (i : ℕ) : Option (Name × Name) :=
  if i = 0 then none else some (.qz (i - 1) .lam, .qz (i - 1) .prec)

/-! ## `predict_fourier` -/

/-- The two parameters of `predict_z`: what `predict_fourier` can call. -/
structure PredictZ (κ : Type) where
  /-- `_sample_p_z` for the structured approximation. -/
  samples : ℤ → List (κ → ℝ)
  /-- The moments of `p_z` for the mean-field approximation. -/
  mean : κ → ℝ
  var : κ → ℝ

/-- The mean over samples. -/
noncomputable def sampleMean {κ : Type} (l : List (κ → ℝ)) (i : κ) : ℝ :=
  (l.map fun z => z i).sum / l.length

/-- `Structured.predict_z` (approx.py:557-571). Stacking nothing raises. -/
noncomputable def structuredPredictZ {κ : Type} (p : PredictZ κ) (num : ℤ) :
    Except PyErr ((κ → ℝ) × (κ → ℝ)) :=
  let zs := p.samples num
  if zs = [] then .error .valueError
  else
    let m1 := sampleMean zs
    let m2 := sampleMean (zs.map fun z i => z i ^ 2)
    .ok (m1, fun i => m2 i - m1 i ^ 2)

/-- `predict_z` given the keyword `num_samples` or not (approx.py:557-571, 677-684). -/
noncomputable def predictZ {κ : Type} (a : Approx) (p : PredictZ κ) (num : Option ℤ) :
    Except PyErr ((κ → ℝ) × (κ → ℝ)) :=
  match a with
  | .structured => structuredPredictZ p (num.getD 1000)
  | .meanField _ => if num.isSome then .error .typeError else .ok (p.mean, p.var)

/-- `AbstractGPCM.predict_fourier` (model.py:146-156). -/
noncomputable def predictFourier {κ : Type} (a : Approx) (p : PredictZ κ) (num : ℤ := 1000) :
    Except PyErr ((κ → ℝ) × (κ → ℝ)) := predictZ a p (some num)

/-! ## Options of the experiments -/

/-- The arguments on the command line that matter for training (experiment.py:42-46). -/
structure Args where
  iters : Option ℤ := none
  fixHypers : Bool := false

/-- `train_config` (experiment.py:109-118): falsy options are not passed on. -/
def trainConfig (a : Args) : Kw where
  iters := match a.iters with
    | some n => if n = 0 then none else some n
    | none => none
  optimiseHypers := if a.fixHypers then some (.bool false) else none

end Gpcm.Fit
