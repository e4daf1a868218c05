import Verif.Model.Approx

/-!
# Model of normal distributions, updates, bounds and predictions with regularised factorisations

In `Model/Normal.lean` and `Model/Approx.lean` factorisations are exact. The libraries add the setting `B.epsilon` (`1e-12` by default; the
experiments set values up to `1e-6`) to the diagonal of a dense matrix before they factorise it. Here the
factorisations are arbitrary functions, and everything that the code computes with the help of a factorisation is written in
terms of it: `B.pd_inv`, `B.cholsolve`, `B.iqf` and also `B.logdet`. Functions that factorise nothing are those of `Model/Approx.lean`.
-/

open Matrix Real

namespace Gpcm.Reg

variable {n : Type} [Fintype n] [DecidableEq n]

/-- A function that factorises matrices, like `B.chol`. -/
abbrev Fac (n : Type) : Type := Matrix n n ℝ → Matrix n n ℝ

/-- Factorisations which add at most `ε` to the diagonal, and so much that the sum is positive definite. Without regularisation,
nothing is known about matrices that are not positive definite. -/
def Regularised (ε : ℝ) (f : Fac n) : Prop :=
  ∀ A : Matrix n n ℝ, A.PosSemidef → A.PosDef ∨ 0 < ε →
    ∃ e, 0 ≤ e ∧ e ≤ ε ∧ (A + e • 1).PosDef ∧ f A * (f A)ᵀ = A + e • 1

/-- `B.pd_inv`. -/
noncomputable def pdInv (f : Fac n) (A : Matrix n n ℝ) : Matrix n n ℝ := cholsolve (f A) 1

/-- `B.logdet`, which sums the logarithms of the diagonal of the factor. -/
noncomputable def logdet (f : Fac n) (A : Matrix n n ℝ) : ℝ := log (f A * (f A)ᵀ).det

/-- `B.iqf`. -/
noncomputable def iqf (f : Fac n) (A : Matrix n n ℝ) (b : n → ℝ) : ℝ := ∑ i, ((f A)⁻¹ *ᵥ b) i ^ 2

section
variable (f : Fac n) (d : NatNormal n)

/-- `NaturalNormal.mean` (normal.py:60-65). -/
noncomputable def mean : n → ℝ := cholsolveVec (f d.prec) d.lam

/-- `NaturalNormal.var` (normal.py:67-72). -/
noncomputable def var : Matrix n n ℝ := pdInv f d.prec

/-- `NaturalNormal.m2` (normal.py:74-80). -/
noncomputable def m2 : Matrix n n ℝ :=
  cholsolve (f d.prec) (cholsolve (f d.prec) (d.prec + vecMulVec d.lam d.lam))ᵀ

/-- One column of `NaturalNormal.sample` (normal.py:82-99). -/
noncomputable def sample (z : n → ℝ) : n → ℝ := cholsolveVec (f d.prec) (f d.prec *ᵥ z + d.lam)

/-- `NaturalNormal.kl` (normal.py:108-126). -/
noncomputable def kl (q p : NatNormal n) : ℝ :=
  let ratio := (f q.prec)⁻¹ * f p.prec
  let diff := mean f q - mean f p;
  0.5 * ((∑ i, ∑ j, ratio i j ^ 2) - logdet f (ratioᵀ * ratio) + (∑ i, (p.prec *ᵥ diff) i * diff i)
    - Fintype.card n)

/-- `NaturalNormal.logpdf` (normal.py:128-142). -/
noncomputable def logpdf (x : n → ℝ) : ℝ :=
  let diff := x - mean f d;
  (-0.5) * (-logdet f d.prec + Fintype.card n * log (2 * π) + ∑ i, (d.prec *ᵥ diff) i * diff i)

end

variable {ι κ : Type} [Fintype ι] [DecidableEq ι] [Fintype κ] [DecidableEq κ]

/-- The two uses of `B.chol`. -/
structure Facs (ι κ : Type) where
  u : Fac ι
  z : Fac κ

variable (F : Facs ι κ) (m : Inst ι κ)

/-- `K_u_inv` (model.py:45). -/
noncomputable def KuInv : Matrix ι ι ℝ := pdInv F.u m.Ku

/-- `K_z_inv` (model.py:43). -/
noncomputable def KzInv : Matrix κ κ ℝ := pdInv F.z m.Kz

/-- `Approximation.construct_terms` without observations (approx.py:132-166, 172). -/
noncomputable def constructTerms (t : List ℝ) : Terms ι κ :=
  let iHx := t.map fun s => m.iHx s s
  let iHz := t.map m.iHz
  let iUz := t.map m.iUz
  let iHxSum := iHx.sum
  let iHzSum := iHz.sum
  let iUxSum := (t.length : ℝ) • m.iUx
  let KuSq := iUz.map fun I => Iᵀ * KuInv F m * I
  let KzSq := iUz.map fun I => I * KzInv F m * Iᵀ
  { n := t.length
    iHx := iHx
    iUx := m.iUx
    iHz := iHz
    iUz := iUz
    KuSq := KuSq
    KzSq := KzSq
    ASum := iUxSum - KzSq.sum
    BSum := iHzSum - KuSq.sum
    cSum := iHxSum - frob (KuInv F m) iUxSum - frob (KzInv F m) iHzSum
      + (KzSq.map fun K => frob (KuInv F m) K).sum }

/-- `Approximation.construct_terms` with observations (approx.py:132-172). -/
noncomputable def constructDataTerms (d : List (ℝ × ℝ)) : DataTerms ι κ :=
  { constructTerms F m (d.map Prod.fst) with
    y := d.map Prod.snd
    iUzSum := (d.map fun p => p.2 • m.iUz p.1).sum }

/-- `Approximation.q_u_optimal_mean_field` (approx.py:194-212). -/
noncomputable def quOptimalMF (ts : DataTerms ι κ) (q : NatNormal κ) : NatNormal ι :=
  qOptimal m.noise ts.ASum ts.iUz ts.iUzSum m.Ku (mean F.z q) (some (m2 F.z q))

/-- `Approximation.q_z_optimal_mean_field` (approx.py:233-250). -/
noncomputable def qzOptimalMF (ts : DataTerms ι κ) (q : NatNormal ι) : NatNormal κ :=
  qOptimal m.noise ts.BSum (ts.iUz.map transpose) ts.iUzSumᵀ m.Kz (mean F.u q) (some (m2 F.u q))

/-- The last expression of `MeanField.elbo` (approx.py:616-633). -/
noncomputable def meanFieldBound (ts : DataTerms ι κ) (pu qu : NatNormal ι) (pz qz : NatNormal κ) : ℝ :=
  ((-0.5) * ts.n * log (2 * π * m.noise)
    + (-0.5 / m.noise) * ((ts.y.map fun y => y ^ 2).sum + frob ts.ASum (m2 F.u qu)
      + frob ts.BSum (m2 F.z qz)
      + (ts.iUz.map fun I => frob (I * m2 F.z qz * Iᵀ) (m2 F.u qu)).sum + ts.cSum
      - 2 * ∑ i, mean F.u qu i * (ts.iUzSum *ᵥ mean F.z qz) i))
  - kl F.u qu pu - kl F.z qz pz

/-- `MeanField.elbo` (approx.py:585-633). -/
noncomputable def MeanField.elbo (s : Posts ι κ) (d : List (ℝ × ℝ)) (collapsed : Option String) :
    Except PyErr ℝ :=
  let ts := constructDataTerms F m d
  match collapsed with
  | none => .ok (meanFieldBound F m ts (s.pU m) s.qU (s.pZ m) s.qZ)
  | some c =>
    if c = "z" then .ok (meanFieldBound F m ts (s.pU m) s.qU (s.pZ m) (qzOptimalMF F m ts s.qU))
    else if c = "u" then .ok (meanFieldBound F m ts (s.pU m) (quOptimalMF F m ts s.qZ) (s.pZ m) s.qZ)
    else .error .valueError

/-- `Structured.log_Z_u` (approx.py:460-479). -/
noncomputable def logZu (ts : DataTerms ι κ) (u : ι → ℝ) : ℝ :=
  let qz := qzOptimal m ts u
  let quadratic := (ts.y.map fun y => y ^ 2).sum + (∑ i, u i * (ts.ASum *ᵥ u) i) + ts.cSum;
  0.5 * (-ts.n * log (2 * π * m.noise) - quadratic / m.noise + logdet F.z m.Kz - logdet F.z qz.prec
    + iqf F.z qz.prec qz.lam)

/-- `Structured.elbo_collapsed_z` (approx.py:481-503) for the list `us` of samples from `q_u`. -/
noncomputable def elboCollapsedZ (s : Posts ι κ) (d : List (ℝ × ℝ)) (us : List (ι → ℝ)) : Except PyErr ℝ :=
  let ts := constructDataTerms F m d
  if us.length = 0 then .error .zeroDivision
  else .ok ((us.map (logZu F m ts)).sum / us.length - kl F.u s.qU (s.pU m))

/-- The moments of the prediction at one point (approx.py:264-284). -/
noncomputable def predictMoment (iHx : ℝ) (iUx : Matrix ι ι ℝ) (iHz : Matrix κ κ ℝ) (iUz : Matrix ι κ ℝ)
    (KuSq : Matrix κ κ ℝ) (KzSq : Matrix ι ι ℝ)
    (u : ι → ℝ) (u2 : Matrix ι ι ℝ) (z : κ → ℝ) (z2 : Matrix κ κ ℝ) : ℝ × ℝ :=
  let m1 := u ⬝ᵥ (iUz *ᵥ z)
  let A := iUx - KzSq
  let B := iHz - KuSq
  let c := iHx - frob (KuInv F m) iUx - frob (KzInv F m) iHz + frob (KuInv F m) KzSq
  (m1, frob A u2 + frob B z2 + c + frob u2 (iUz * z2 * iUzᵀ))

/-- `Approximation._predict_moments` (approx.py:264-284). -/
noncomputable def predictMoments (ts : Terms ι κ) (u : ι → ℝ) (u2 : Matrix ι ι ℝ) (z : κ → ℝ)
    (z2 : Matrix κ κ ℝ) : List (ℝ × ℝ) :=
  (ts.iHx.zip (ts.iHz.zip (ts.iUz.zip (ts.KuSq.zip ts.KzSq)))).map fun p =>
    predictMoment F m p.1 ts.iUx p.2.1 p.2.2.1 p.2.2.2.1 p.2.2.2.2 u u2 z z2

/-- `MeanField.predict` (approx.py:642-660). -/
noncomputable def MeanField.predict (s : Posts ι κ) (t : List ℝ) : List (ℝ × ℝ) :=
  (predictMoments F m (constructTerms F m t) (mean F.u (s.pU m)) (m2 F.u (s.pU m)) (mean F.z (s.pZ m))
    (m2 F.z (s.pZ m))).map (toMeanVar m)

/-- `Structured.predict` (approx.py:511-534) for the list `us` of samples of `_sample_p_u`. -/
noncomputable def Structured.predict (ts₀ : Option (DataTerms ι κ)) (t : List ℝ) (us : List (ι → ℝ)) :
    Except PyErr (List (ℝ × ℝ)) :=
  let ts := constructTerms F m t
  match us, ts₀ with
  | [], _ => .error .valueError
  | _ :: _, none => .error .attributeError
  | us, some ts₀ =>
    match meanMoments (us.map fun u =>
      let qz := qzOptimal m ts₀ u
      predictMoments F m ts u (vecMulVec u u) (mean F.z qz) (m2 F.z qz)) with
    | .error e => .error e
    | .ok l => .ok (l.map (toMeanVar m))

/-- One fixed-point iteration of coordinate ascent (approx.py:339-340). -/
noncomputable def caStep (ts : DataTerms ι κ) (p : Pair ι κ) : Pair ι κ :=
  let qu := quOptimalMF F m ts p.z
  ⟨qu, qzOptimalMF F m ts qu⟩

/-- `_fit_mean_field_ca` (approx.py:297-356): the new state. -/
noncomputable def fitMeanFieldCA (s : Posts ι κ) (d : List (ℝ × ℝ)) (iters : ℤ) : Posts ι κ :=
  let ts := constructDataTerms F m d
  let r := caLoop (caStep F m ts) Pair.diff iters.toNat ⟨s.qU, s.qZ⟩
  (s.setU r.1.u).setZ r.1.z

end Gpcm.Reg
