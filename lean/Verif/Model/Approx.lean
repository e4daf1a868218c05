import Verif.Model.Normal

/-!
# Model of `gpcm/approx.py`: terms, optimal updates, bounds and predictions

Vectors and matrices over the reals; inducing variables of the filter are indexed by `ι`, those of the noise
by `κ`. Batched tensors are lists over the data points. A data set is a list of pairs, so inputs and
observations have equal length; numpy's broadcasting of a single observation is not modelled. `B.jit`,
`B.dense` and `stop_gradient` are the identity.
-/

open Matrix Real

namespace Gpcm

variable {ι κ : Type} [Fintype ι] [DecidableEq ι] [Fintype κ] [DecidableEq κ]

/-- `B.sum(X * Y)` of two matrices. -/
def frob {α β : Type} [Fintype α] [Fintype β] (X Y : Matrix α β ℝ) : ℝ := ∑ i, ∑ j, X i j * Y i j

/-- What an instantiated model gives to its approximation (model.py:40-45): the two kernel matrices, the
noise, and the integrals. -/
structure Inst (ι κ : Type) where
  Ku : Matrix ι ι ℝ
  Kz : Matrix κ κ ℝ
  noise : ℝ
  iHx : ℝ → ℝ → ℝ
  iUx : Matrix ι ι ℝ
  iHz : ℝ → Matrix κ κ ℝ
  iUz : ℝ → Matrix ι κ ℝ

/-- The two uses of `B.chol`. -/
structure Chols (ι κ : Type) [Fintype ι] [DecidableEq ι] [Fintype κ] [DecidableEq κ] where
  u : CholOracle ι
  z : CholOracle κ

/-- `K_u_inv` (model.py:45). -/
noncomputable def Inst.KuInv (m : Inst ι κ) (C : Chols ι κ) : Matrix ι ι ℝ := pdInv C.u m.Ku

/-- `K_z_inv` (model.py:43). -/
noncomputable def Inst.KzInv (m : Inst ι κ) (C : Chols ι κ) : Matrix κ κ ℝ := pdInv C.z m.Kz

/-- The namespace `ts` without observations (approx.py:132-166). -/
structure Terms (ι κ : Type) where
  n : ℕ
  iHx : List ℝ
  iUx : Matrix ι ι ℝ
  iHz : List (Matrix κ κ ℝ)
  iUz : List (Matrix ι κ ℝ)
  KuSq : List (Matrix κ κ ℝ)
  KzSq : List (Matrix ι ι ℝ)
  ASum : Matrix ι ι ℝ
  BSum : Matrix κ κ ℝ
  cSum : ℝ

/-- The namespace `ts` with observations (approx.py:168-170). -/
structure DataTerms (ι κ : Type) extends Terms ι κ where
  y : List ℝ
  iUzSum : Matrix ι κ ℝ

/-- `Approximation.construct_terms` without observations (approx.py:132-166, 172). -/
noncomputable def constructTerms (C : Chols ι κ) (m : Inst ι κ) (t : List ℝ) : Terms ι κ :=
  let iHx := t.map fun s => m.iHx s s
  let iHz := t.map m.iHz
  let iUz := t.map m.iUz
  let iHxSum := iHx.sum
  let iHzSum := iHz.sum
  let iUxSum := (t.length : ℝ) • m.iUx
  let KuSq := iUz.map fun I => Iᵀ * m.KuInv C * I
  let KzSq := iUz.map fun I => I * m.KzInv C * Iᵀ
  { n := t.length
    iHx := iHx
    iUx := m.iUx
    iHz := iHz
    iUz := iUz
    KuSq := KuSq
    KzSq := KzSq
    ASum := iUxSum - KzSq.sum
    BSum := iHzSum - KuSq.sum
    cSum := iHxSum - frob (m.KuInv C) iUxSum - frob (m.KzInv C) iHzSum
      + (KzSq.map fun K => frob (m.KuInv C) K).sum }

/-- `Approximation.construct_terms` with observations (approx.py:132-172). -/
noncomputable def constructDataTerms (C : Chols ι κ) (m : Inst ι κ) (d : List (ℝ × ℝ)) :
    DataTerms ι κ :=
  { constructTerms C m (d.map Prod.fst) with
    y := d.map Prod.snd
    iUzSum := (d.map fun p => p.2 • m.iUz p.1).sum }

/-- `Approximation._q_optimal` (approx.py:252-262). -/
noncomputable def qOptimal {α β : Type} [Fintype β] (noise : ℝ) (A : Matrix α α ℝ)
    (I : List (Matrix α β ℝ)) (Isum : Matrix α β ℝ) (K : Matrix α α ℝ) (x : β → ℝ)
    (x2 : Option (Matrix β β ℝ)) : NatNormal α :=
  let inner := match x2 with
    | some x2 => I.map fun I => I * x2 * Iᵀ
    | none => I.map fun I => vecMulVec (I *ᵥ x) (I *ᵥ x)
  ⟨(1 / noise) • (Isum *ᵥ x), K + (1 / noise) • (A + inner.sum)⟩

variable (C : Chols ι κ) (m : Inst ι κ)

/-- `Approximation.q_u_optimal` (approx.py:175-192). -/
noncomputable def quOptimal (ts : DataTerms ι κ) (z : κ → ℝ) : NatNormal ι :=
  qOptimal m.noise ts.ASum ts.iUz ts.iUzSum m.Ku z none

/-- `Approximation.q_u_optimal_mean_field` (approx.py:194-212). -/
noncomputable def quOptimalMF (ts : DataTerms ι κ) (q : NatNormal κ) : NatNormal ι :=
  qOptimal m.noise ts.ASum ts.iUz ts.iUzSum m.Ku (q.mean C.z) (some (q.m2 C.z))

/-- `Approximation.q_z_optimal` (approx.py:214-231). -/
noncomputable def qzOptimal (ts : DataTerms ι κ) (u : ι → ℝ) : NatNormal κ :=
  qOptimal m.noise ts.BSum (ts.iUz.map transpose) ts.iUzSumᵀ m.Kz u none

/-- `Approximation.q_z_optimal_mean_field` (approx.py:233-250). -/
noncomputable def qzOptimalMF (ts : DataTerms ι κ) (q : NatNormal ι) : NatNormal κ :=
  qOptimal m.noise ts.BSum (ts.iUz.map transpose) ts.iUzSumᵀ m.Kz (q.mean C.u) (some (q.m2 C.u))

/-- The variational posteriors stored by depth (`ps.q_u`, `ps.q_z`) and the current depth `_q_i`. -/
structure Posts (ι κ : Type) where
  qi : ℕ
  qu : ℕ → NatNormal ι
  qz : ℕ → NatNormal κ

/-- The property `p_u` (approx.py:46-55). -/
def Posts.pU (s : Posts ι κ) : NatNormal ι := if s.qi = 0 then ⟨0, m.Ku⟩ else s.qu (s.qi - 1)

/-- The property `p_z` (approx.py:69-78). -/
def Posts.pZ (s : Posts ι κ) : NatNormal κ := if s.qi = 0 then ⟨0, m.Kz⟩ else s.qz (s.qi - 1)

/-- The property `q_u` (approx.py:57-60). -/
def Posts.qU (s : Posts ι κ) : NatNormal ι := s.qu s.qi

/-- The property `q_z` (approx.py:80-83). -/
def Posts.qZ (s : Posts ι κ) : NatNormal κ := s.qz s.qi

/-- The setter of `q_u` (approx.py:62-67). -/
def Posts.setU (s : Posts ι κ) (q : NatNormal ι) : Posts ι κ :=
  { s with qu := fun i => if i = s.qi then q else s.qu i }

/-- The setter of `q_z` (approx.py:85-90). -/
def Posts.setZ (s : Posts ι κ) (q : NatNormal κ) : Posts ι κ :=
  { s with qz := fun i => if i = s.qi then q else s.qz i }

/-- `Approximation.condition` (approx.py:121-130): the posterior becomes the prior. The terms that it stores are an argument
of `Structured.predict`. -/
def Posts.condition (s : Posts ι κ) : Posts ι κ := { s with qi := s.qi + 1 }

/-- Expected log-likelihood plus divergences: the last expression of `MeanField.elbo`
(approx.py:616-633). -/
noncomputable def meanFieldBound (ts : DataTerms ι κ) (pu qu : NatNormal ι) (pz qz : NatNormal κ) : ℝ :=
  ((-0.5) * ts.n * log (2 * π * m.noise)
    + (-0.5 / m.noise) * ((ts.y.map fun y => y ^ 2).sum + frob ts.ASum (qu.m2 C.u)
      + frob ts.BSum (qz.m2 C.z)
      + (ts.iUz.map fun I => frob (I * qz.m2 C.z * Iᵀ) (qu.m2 C.u)).sum + ts.cSum
      - 2 * ∑ i, qu.mean C.u i * (ts.iUzSum *ᵥ qz.mean C.z) i))
  - qu.kl C.u pu - qz.kl C.z pz

/-- `MeanField.elbo` (approx.py:585-633). -/
noncomputable def MeanField.elbo (s : Posts ι κ) (d : List (ℝ × ℝ)) (collapsed : Option String) :
    Except PyErr ℝ :=
  let ts := constructDataTerms C m d
  match collapsed with
  | none => .ok (meanFieldBound C m ts (s.pU m) s.qU (s.pZ m) s.qZ)
  | some c =>
    if c = "z" then .ok (meanFieldBound C m ts (s.pU m) s.qU (s.pZ m) (qzOptimalMF C m ts s.qU))
    else if c = "u" then .ok (meanFieldBound C m ts (s.pU m) (quOptimalMF C m ts s.qZ) (s.pZ m) s.qZ)
    else .error .valueError

/-- `B.iqf(A, b)`: the quadratic form of the inverse. -/
noncomputable def iqf {n : Type} [Fintype n] [DecidableEq n] (C : CholOracle n) (A : Matrix n n ℝ)
    (b : n → ℝ) : ℝ :=
  ∑ i, ((C.chol A)⁻¹ *ᵥ b) i ^ 2

/-- `Structured.log_Z_u` (approx.py:460-479). -/
noncomputable def logZu (ts : DataTerms ι κ) (u : ι → ℝ) : ℝ :=
  let qz := qzOptimal m ts u
  let quadratic := (ts.y.map fun y => y ^ 2).sum + (∑ i, u i * (ts.ASum *ᵥ u) i) + ts.cSum;
  0.5 * (-ts.n * log (2 * π * m.noise) - quadratic / m.noise + log m.Kz.det - log qz.prec.det
    + iqf C.z qz.prec qz.lam)

/-- `Structured.elbo_collapsed_z` (approx.py:481-503) for the list `us` of samples from `q_u`; without
samples, the average divides by zero. -/
noncomputable def elboCollapsedZ (s : Posts ι κ) (d : List (ℝ × ℝ)) (us : List (ι → ℝ)) :
    Except PyErr ℝ :=
  let ts := constructDataTerms C m d
  if us.length = 0 then .error .zeroDivision
  else .ok ((us.map (logZu C m ts)).sum / us.length - s.qU.kl C.u (s.pU m))

/-- The moments of the prediction at one point, given the terms of that point (approx.py:264-284). -/
noncomputable def predictMoment (iHx : ℝ) (iUx : Matrix ι ι ℝ) (iHz : Matrix κ κ ℝ) (iUz : Matrix ι κ ℝ)
    (KuSq : Matrix κ κ ℝ) (KzSq : Matrix ι ι ℝ)
    (u : ι → ℝ) (u2 : Matrix ι ι ℝ) (z : κ → ℝ) (z2 : Matrix κ κ ℝ) : ℝ × ℝ :=
  let m1 := u ⬝ᵥ (iUz *ᵥ z)
  let A := iUx - KzSq
  let B := iHz - KuSq
  let c := iHx - frob (m.KuInv C) iUx - frob (m.KzInv C) iHz + frob (m.KuInv C) KzSq
  (m1, frob A u2 + frob B z2 + c + frob u2 (iUz * z2 * iUzᵀ))

/-- `Approximation._predict_moments` (approx.py:264-284), zipping the batches of terms. -/
noncomputable def predictMoments (ts : Terms ι κ) (u : ι → ℝ) (u2 : Matrix ι ι ℝ) (z : κ → ℝ)
    (z2 : Matrix κ κ ℝ) : List (ℝ × ℝ) :=
  (ts.iHx.zip (ts.iHz.zip (ts.iUz.zip (ts.KuSq.zip ts.KzSq)))).map fun p =>
    predictMoment C m p.1 ts.iUx p.2.1 p.2.2.1 p.2.2.2.1 p.2.2.2.2 u u2 z z2

/-- Mean and variance of the prediction from the moments (approx.py:531-534, 652-660). -/
noncomputable def toMeanVar (p : ℝ × ℝ) : ℝ × ℝ := (p.1, p.2 - p.1 ^ 2 + m.noise)

/-- `MeanField.predict` (approx.py:642-660). -/
noncomputable def MeanField.predict (s : Posts ι κ) (t : List ℝ) : List (ℝ × ℝ) :=
  (predictMoments C m (constructTerms C m t) ((s.pU m).mean C.u) ((s.pU m).m2 C.u) ((s.pZ m).mean C.z)
    ((s.pZ m).m2 C.z)).map (toMeanVar m)

/-- Pointwise addition of lists of moments. -/
def addMoments (a b : List (ℝ × ℝ)) : List (ℝ × ℝ) := List.zipWith (· + ·) a b

/-- `B.mean(B.stack(*ms, axis=0), axis=0)`; stacking nothing is an error. -/
noncomputable def meanMoments : List (List (ℝ × ℝ)) → Except PyErr (List (ℝ × ℝ))
  | [] => .error .valueError
  | a :: as => .ok (((as.foldl addMoments a)).map fun p =>
      (p.1 / (as.length + 1), p.2 / (as.length + 1)))

/-- `Structured.predict` (approx.py:511-534) for the list `us` of samples of `_sample_p_u`; `ts₀` is
`self.ts`, which exists only after `condition`. -/
noncomputable def Structured.predict (ts₀ : Option (DataTerms ι κ)) (t : List ℝ) (us : List (ι → ℝ)) :
    Except PyErr (List (ℝ × ℝ)) :=
  let ts := constructTerms C m t
  match us, ts₀ with
  | [], _ => .error .valueError
  | _ :: _, none => .error .attributeError
  | us, some ts₀ =>
    match meanMoments (us.map fun u =>
      let qz := qzOptimal m ts₀ u
      predictMoments C m ts u (vecMulVec u u) (qz.mean C.z) (qz.m2 C.z)) with
    | .error e => .error e
    | .ok l => .ok (l.map (toMeanVar m))

/-! ## Coordinate ascent -/

/-- `B.sqrt(B.mean((x - y) ** 2))` for vectors. -/
noncomputable def rmsVec {α : Type} [Fintype α] (x y : α → ℝ) : ℝ :=
  √((∑ i, (x i - y i) ^ 2) / Fintype.card α)

/-- `B.sqrt(B.mean((x - y) ** 2))` for matrices. -/
noncomputable def rmsMat {α : Type} [Fintype α] (x y : Matrix α α ℝ) : ℝ :=
  √((∑ i, ∑ j, (x i j - y i j) ^ 2) / (Fintype.card α * Fintype.card α))

/-- A pair of posteriors. -/
structure Pair (ι κ : Type) where
  u : NatNormal ι
  z : NatNormal κ

/-- The function `diff` (approx.py:322-326). -/
noncomputable def Pair.diff (a b : Pair ι κ) : ℝ :=
  rmsVec a.u.lam b.u.lam + rmsMat a.u.prec b.u.prec + rmsVec a.z.lam b.z.lam + rmsMat a.z.prec b.z.prec

/-- One fixed-point iteration (approx.py:339-340). -/
noncomputable def caStep (ts : DataTerms ι κ) (p : Pair ι κ) : Pair ι κ :=
  let qu := quOptimalMF C m ts p.z
  ⟨qu, qzOptimalMF C m ts qu⟩

open Classical in
/-- The loop (approx.py:338-352) over abstract step and difference: the final iterate and the arguments of
the callback. `range(iters)` is empty for a negative number. -/
noncomputable def caLoop {σ : Type} (step : σ → σ) (diff : σ → σ → ℝ) : ℕ → σ → σ × List σ
  | 0, p => (p, [])
  | k + 1, p =>
    let q := step p
    if diff q p < 1e-6 then (q, [q])
    else
      let r := caLoop step diff k q
      (r.1, q :: r.2)

/-- `_fit_mean_field_ca` (approx.py:297-356): the new state and the calls of the callback. -/
noncomputable def fitMeanFieldCA (s : Posts ι κ) (d : List (ℝ × ℝ)) (iters : ℤ) :
    Posts ι κ × List (Pair ι κ) :=
  let ts := constructDataTerms C m d
  let r := caLoop (caStep C m ts) Pair.diff iters.toNat ⟨s.qU, s.qZ⟩
  ((s.setU r.1.u).setZ r.1.z, r.2)

end Gpcm
