import Verif.Props.SessionProps

/-!
# Properties C134 and C135: the order and the sign of the observations

A session is any sequence of fits, evaluations of the bound and conditionings (`Model/Session.lean`).
-/

open Matrix

namespace Gpcm

variable {ι κ : Type} [Fintype ι] [DecidableEq ι] [Fintype κ] [DecidableEq κ]
variable (C : Chols ι κ) (m : Inst ι κ)

/-! ## C134 -/

/-- Terms that differ in the order of the observations. -/
structure DataTerms.Same (a b : DataTerms ι κ) : Prop where
  n : a.n = b.n
  iUx : a.iUx = b.iUx
  ASum : a.ASum = b.ASum
  BSum : a.BSum = b.BSum
  cSum : a.cSum = b.cSum
  iUzSum : a.iUzSum = b.iUzSum
  iUz : a.iUz.Perm b.iUz
  y : a.y.Perm b.y

theorem constructDataTerms_same {d d' : List (ℝ × ℝ)} (h : d.Perm d') :
    (constructDataTerms C m d).Same (constructDataTerms C m d') := by
  have ht : (d.map Prod.fst).Perm (d'.map Prod.fst) := h.map _
  have e1 : ∀ {α : Type} [AddCommMonoid α] (f : ℝ → α), ((d.map Prod.fst).map f).sum = ((d'.map Prod.fst).map f).sum :=
    fun f => (ht.map f).sum_eq
  have e2 := ht.length_eq
  constructor <;> simp only [constructDataTerms, constructTerms, List.map_map, e2]
  · congr 1
    exact (h.map _).sum_eq
  · congr 1
    · exact (h.map _).sum_eq
    · exact (h.map _).sum_eq
  · have h1 := e1 fun s => m.iHx s s
    have h2 := e1 m.iHz
    have h3 := e1 fun s => frob (m.KuInv C) (m.iUz s * m.KzInv C * (m.iUz s)ᵀ)
    simp only [List.map_map] at h1 h2 h3
    rw [h1, h2]
    congr 1
  · exact (h.map _).sum_eq
  · exact h.map _
  · exact h.map _

namespace DataTerms.Same

variable {C m} {a b : DataTerms ι κ} (h : a.Same b)
include h

omit [Fintype ι] [DecidableEq ι] [DecidableEq κ] in
theorem quOptimal (z : κ → ℝ) : Gpcm.quOptimal m a z = Gpcm.quOptimal m b z := by
  simp only [Gpcm.quOptimal, qOptimal, h.ASum, h.iUzSum, (h.iUz.map _).sum_eq]

theorem quOptimalMF (q : NatNormal κ) : Gpcm.quOptimalMF C m a q = Gpcm.quOptimalMF C m b q := by
  simp only [Gpcm.quOptimalMF, qOptimal, h.ASum, h.iUzSum, (h.iUz.map _).sum_eq]

omit [DecidableEq ι] [Fintype κ] [DecidableEq κ] in
theorem qzOptimal (u : ι → ℝ) : Gpcm.qzOptimal m a u = Gpcm.qzOptimal m b u := by
  simp only [Gpcm.qzOptimal, qOptimal, h.BSum, h.iUzSum, ((h.iUz.map _).map _).sum_eq]

theorem qzOptimalMF (q : NatNormal ι) : Gpcm.qzOptimalMF C m a q = Gpcm.qzOptimalMF C m b q := by
  simp only [Gpcm.qzOptimalMF, qOptimal, h.BSum, h.iUzSum, ((h.iUz.map _).map _).sum_eq]

theorem caStep : Gpcm.caStep C m a = Gpcm.caStep C m b := by
  funext p
  simp only [Gpcm.caStep, h.quOptimalMF, h.qzOptimalMF]

theorem meanFieldBound (pu qu : NatNormal ι) (pz qz : NatNormal κ) :
    Gpcm.meanFieldBound C m a pu qu pz qz = Gpcm.meanFieldBound C m b pu qu pz qz := by
  simp only [Gpcm.meanFieldBound, h.n, h.ASum, h.BSum, h.cSum, h.iUzSum, (h.iUz.map _).sum_eq, (h.y.map _).sum_eq]

theorem logZu (u : ι → ℝ) : Gpcm.logZu C m a u = Gpcm.logZu C m b u := by
  simp only [Gpcm.logZu, h.qzOptimal, h.n, h.ASum, h.cSum, (h.y.map _).sum_eq]

theorem gibbsU (W : ℕ → (ι → ℝ) × (κ → ℝ)) : Gpcm.gibbsU C m a W = Gpcm.gibbsU C m b W := by
  funext i z
  simp only [Gpcm.gibbsU, h.quOptimal]

theorem gibbsZ (W : ℕ → (ι → ℝ) × (κ → ℝ)) : Gpcm.gibbsZ C m a W = Gpcm.gibbsZ C m b W := by
  funext i z
  simp only [Gpcm.gibbsZ, h.qzOptimal]

theorem predict (t : List ℝ) (us : List (ι → ℝ)) :
    Structured.predict C m (some a) t us = Structured.predict C m (some b) t us := by
  cases us <;> simp only [Structured.predict, h.qzOptimal]

end DataTerms.Same

/-- The same operation with the observations in another order. -/
inductive Spec.Reordered : Session.Op → Session.Op → Prop
  | fit {d d' : List (ℝ × ℝ)} (h : d.Perm d') (iters : ℤ) : Reordered (.fit d iters) (.fit d' iters)
  | condition {d d' : List (ℝ × ℝ)} (h : d.Perm d') : Reordered (.condition d) (.condition d')
  | elbo {d d' : List (ℝ × ℝ)} (h : d.Perm d') : Reordered (.elbo d) (.elbo d')

/-- Sessions that differ in the order of the stored terms. -/
structure Session.Same (s s' : Session ι κ) : Prop where
  posts : s.posts = s'.posts
  samplesU : s.samplesU = s'.samplesU
  samplesZ : s.samplesZ = s'.samplesZ
  ts : Option.Rel DataTerms.Same s.ts s'.ts

theorem fitMeanFieldCA_perm {d d' : List (ℝ × ℝ)} (h : d.Perm d') (s : Posts ι κ) (iters : ℤ) :
    fitMeanFieldCA C m s d iters = fitMeanFieldCA C m s d' iters := by
  simp only [fitMeanFieldCA, (constructDataTerms_same C m h).caStep]

theorem Session.Same.run {W : ℕ → (ι → ℝ) × (κ → ℝ)} {s s' : Session ι κ} (h : s.Same s') {o o' : Session.Op}
    (ho : Spec.Reordered o o') : (s.run C m W o).Same (s'.run C m W o') := by
  obtain ⟨p, su, sz, ts⟩ := s
  obtain ⟨p', su', sz', ts'⟩ := s'
  obtain ⟨h1, h2, h3, h4⟩ := h
  simp only at h1 h2 h3 h4
  subst h1 h2 h3
  cases ho with
  | fit hd iters =>
    have hs := constructDataTerms_same C m hd
    simp only [Session.run, Session.fitStructured, hs.gibbsU, hs.gibbsZ]
    split
    · exact ⟨rfl, rfl, rfl, h4⟩
    · exact ⟨rfl, rfl, rfl, h4⟩
  | condition hd => exact ⟨rfl, rfl, rfl, .some (constructDataTerms_same C m hd)⟩
  | elbo hd => exact ⟨by simp only [Session.run, Session.elboStructured, Session.fitCA, fitMeanFieldCA_perm C m hd],
      rfl, rfl, h4⟩

/-- **C134** Predictions of the structured scheme do not depend on the order in which observations are passed, whatever is
done with the model before. -/
theorem c134_structured (W : ℕ → (ι → ℝ) × (κ → ℝ)) (s : Session ι κ) {ops ops' : List Session.Op}
    (h : List.Forall₂ Spec.Reordered ops ops') (t : List ℝ) (ws : List (ι → ℝ)) :
    (ops.foldl (Session.run C m W) s).predictStructured C m t ws =
      (ops'.foldl (Session.run C m W) s).predictStructured C m t ws := by
  have hs : ∀ s s' : Session ι κ, s.Same s' →
      (ops.foldl (Session.run C m W) s).Same (ops'.foldl (Session.run C m W) s') := by
    induction h with
    | nil => exact fun s s' h => h
    | cons ho _ ih => exact fun s s' h => ih _ _ (h.run C m ho)
  have h0 : s.Same s := ⟨rfl, rfl, rfl, by
    cases s.ts with
    | none => exact .none
    | some ts => exact .some ⟨rfl, rfl, rfl, rfl, rfl, rfl, .refl _, .refl _⟩⟩
  have := hs s s h0
  generalize ops.foldl (Session.run C m W) s = a at this
  generalize ops'.foldl (Session.run C m W) s = b at this
  obtain ⟨p, su, sz, ts⟩ := a
  obtain ⟨p', su', sz', ts'⟩ := b
  obtain ⟨h1, h2, h3, h4⟩ := this
  simp only at h1 h2 h3 h4
  subst h1 h2 h3
  have e : ∀ us, Structured.predict C m ts t us = Structured.predict C m ts' t us := fun us => by
    cases h4 with
    | none => rfl
    | some h => exact h.predict t us
  simp only [Session.predictStructured, Session.samplePU, e]

/-- **C134** Nor does what coordinate ascent converges to, including its callbacks. -/
theorem c134_ca {d d' : List (ℝ × ℝ)} (h : d.Perm d') (s : Posts ι κ) (iters : ℤ) :
    fitMeanFieldCA C m s d iters = fitMeanFieldCA C m s d' iters := fitMeanFieldCA_perm C m h s iters

/-- **C134** Nor do the bounds: of the mean-field schemes, collapsed or not, and of the structured scheme. -/
theorem c134_bounds {d d' : List (ℝ × ℝ)} (h : d.Perm d') (s : Posts ι κ) :
    (∀ c, MeanField.elbo C m s d c = MeanField.elbo C m s d' c) ∧
      (∀ us, elboCollapsedZ C m s d us = elboCollapsedZ C m s d' us) ∧
      ∀ W k x, elboGibbs C m s d W k x = elboGibbs C m s d' W k x := by
  have hs := constructDataTerms_same C m h
  refine ⟨fun c => ?_, fun us => ?_, fun W k x => ?_⟩
  · cases c <;> simp only [MeanField.elbo, hs.meanFieldBound, hs.qzOptimalMF, hs.quOptimalMF]
  · have e : logZu C m (constructDataTerms C m d) = logZu C m (constructDataTerms C m d') := funext hs.logZu
    simp only [elboCollapsedZ, e]
  · simp only [elboGibbs, hs.gibbsU, hs.gibbsZ, hs.logZu]

theorem predictMoments_map (t : List ℝ) (u : ι → ℝ) (u2 : Matrix ι ι ℝ) (z : κ → ℝ) (z2 : Matrix κ κ ℝ) :
    predictMoments C m (constructTerms C m t) u u2 z z2 = t.map fun s =>
      predictMoment C m (m.iHx s s) m.iUx (m.iHz s) (m.iUz s) ((m.iUz s)ᵀ * m.KuInv C * m.iUz s)
        (m.iUz s * m.KzInv C * (m.iUz s)ᵀ) u u2 z z2 := by
  induction t with
  | nil => rfl
  | cons x t ih =>
    simp only [predictMoments, constructTerms, List.map_cons, List.zip_cons_cons, List.map_map, List.zip_map_left] at ih ⊢
    rw [ih]

theorem foldl_addMoments_map {α : Type} (t : List ℝ) (f : α → ℝ → ℝ × ℝ) (us : List α) (g : ℝ → ℝ × ℝ) :
    (us.map fun u => t.map (f u)).foldl addMoments (t.map g) = t.map fun s => (us.map fun u => f u s).foldl (· + ·) (g s) := by
  induction us generalizing g with
  | nil => rfl
  | cons u us ih =>
    have : addMoments (t.map g) (t.map (f u)) = t.map fun s => g s + f u s := by
      unfold addMoments
      induction t with
      | nil => rfl
      | cons x t ih => simp
    simp only [List.map_cons, List.foldl_cons, this, ih]

/-- **C134** A prediction at one input does not depend on the other inputs: there is a function of the input that is
evaluated at each of them. -/
theorem c134_inputs (s : Posts ι κ) (ts : DataTerms ι κ) {us : List (ι → ℝ)} (hus : us ≠ []) :
    (∃ f : ℝ → ℝ × ℝ, ∀ t, MeanField.predict C m s t = t.map f) ∧
      ∃ f : ℝ → ℝ × ℝ, ∀ t, Structured.predict C m (some ts) t us = .ok (t.map f) := by
  constructor
  · exact ⟨_, fun t => by simp only [MeanField.predict, predictMoments_map, List.map_map]; rfl⟩
  · obtain ⟨u, us, rfl⟩ := List.exists_cons_of_ne_nil hus
    exact ⟨_, fun t => by
      simp only [Structured.predict, predictMoments_map, List.map_cons, meanMoments, foldl_addMoments_map, List.map_map,
        List.length_map]
      rfl⟩

/-- Two observations in both orders. -/
example : List.Forall₂ Spec.Reordered [.fit [(0, 1), (2, 3)] 10, .condition [(0, 1), (2, 3)]]
    [.fit [(2, 3), (0, 1)] 10, .condition [(2, 3), (0, 1)]] :=
  .cons (.fit (.swap _ _ _) 10) (.cons (.condition (.swap _ _ _)) .nil)

/-! ## C135 -/

/-- The negative of a distribution. -/
def NatNormal.neg (q : NatNormal κ) : NatNormal κ := ⟨-q.lam, q.prec⟩

/-- The observations with the opposite sign. -/
def Spec.negData (d : List (ℝ × ℝ)) : List (ℝ × ℝ) := d.map fun p => (p.1, -p.2)

/-- The distribution of the noise is replaced with that of its negative. -/
def Posts.neg (s : Posts ι κ) : Posts ι κ := { s with qz := fun i => (s.qz i).neg }

/-- The random numbers of the noise with the opposite sign; they have the same distribution. -/
def negTape (W : ℕ → (ι → ℝ) × (κ → ℝ)) : ℕ → (ι → ℝ) × (κ → ℝ) := fun i => ((W i).1, -(W i).2)

/-- The terms for the observations with the opposite sign. -/
def DataTerms.neg (a : DataTerms ι κ) : DataTerms ι κ :=
  { a with y := a.y.map fun y => -y, iUzSum := -a.iUzSum }

theorem constructDataTerms_neg (d : List (ℝ × ℝ)) :
    constructDataTerms C m (Spec.negData d) = (constructDataTerms C m d).neg := by
  have e : (Spec.negData d).map Prod.fst = d.map Prod.fst := by simp [Spec.negData]
  have e2 : ((Spec.negData d).map fun p => p.2 • m.iUz p.1).sum = -(d.map fun p => p.2 • m.iUz p.1).sum := by
    simp only [Spec.negData, List.map_map]
    clear e
    induction d with
    | nil => simp
    | cons p d ih => simp [ih, add_comm]
  simp only [constructDataTerms, e, e2, DataTerms.neg]
  simp [Spec.negData, Function.comp_def]

section
variable {n : Type} [Fintype n] [DecidableEq n] (D : CholOracle n) (q : NatNormal n)

theorem cholsolveVec_neg (L : Matrix n n ℝ) (b : n → ℝ) : cholsolveVec L (-b) = -cholsolveVec L b := by
  simp only [cholsolveVec, mulVec_neg]

theorem NatNormal.mean_neg : q.neg.mean D = -q.mean D := cholsolveVec_neg _ _

theorem NatNormal.m2_neg : q.neg.m2 D = q.m2 D := by
  simp only [NatNormal.m2, NatNormal.neg, neg_vecMulVec, vecMulVec_neg, neg_neg]

theorem NatNormal.sample_neg (w : n → ℝ) : q.neg.sample D (-w) = -q.sample D w := by
  rw [NatNormal.sample, NatNormal.sample, NatNormal.neg, mulVec_neg, ← neg_add, cholsolveVec_neg]

theorem NatNormal.kl_neg (p : NatNormal n) : q.neg.kl D p.neg = q.kl D p := by
  have e : q.neg.mean D - p.neg.mean D = -(q.mean D - p.mean D) := by
    rw [NatNormal.mean_neg, NatNormal.mean_neg]
    abel
  simp only [NatNormal.kl, e, mulVec_neg, Pi.neg_apply, neg_mul_neg]
  rfl

omit [Fintype n] [DecidableEq n] in
theorem NatNormal.neg_zero (A : Matrix n n ℝ) : NatNormal.neg ⟨0, A⟩ = ⟨0, A⟩ := by
  simp [NatNormal.neg]

end

section
variable {C m} (ts : DataTerms ι κ)

omit [Fintype ι] [DecidableEq ι] [DecidableEq κ] in
theorem quOptimal_neg (z : κ → ℝ) : quOptimal m ts.neg (-z) = quOptimal m ts z := by
  simp [quOptimal, qOptimal, DataTerms.neg, neg_mulVec, mulVec_neg, neg_vecMulVec, vecMulVec_neg]

theorem quOptimalMF_neg (q : NatNormal κ) : quOptimalMF C m ts.neg q.neg = quOptimalMF C m ts q := by
  simp [quOptimalMF, qOptimal, DataTerms.neg, NatNormal.mean_neg, NatNormal.m2_neg, neg_mulVec, mulVec_neg]

omit [DecidableEq ι] [Fintype κ] [DecidableEq κ] in
theorem qzOptimal_neg (u : ι → ℝ) : qzOptimal m ts.neg u = (qzOptimal m ts u).neg := by
  simp [qzOptimal, qOptimal, DataTerms.neg, NatNormal.neg, neg_mulVec]

theorem qzOptimalMF_neg (q : NatNormal ι) : qzOptimalMF C m ts.neg q = (qzOptimalMF C m ts q).neg := by
  simp [qzOptimalMF, qOptimal, DataTerms.neg, NatNormal.neg, neg_mulVec]

theorem meanFieldBound_neg (pu qu : NatNormal ι) (pz qz : NatNormal κ) :
    meanFieldBound C m ts.neg pu qu pz.neg qz.neg = meanFieldBound C m ts pu qu pz qz := by
  simp [meanFieldBound, DataTerms.neg, NatNormal.mean_neg, NatNormal.m2_neg, NatNormal.kl_neg, neg_mulVec, mulVec_neg,
    Function.comp_def]

theorem iqf_neg (D : CholOracle κ) (A : Matrix κ κ ℝ) (b : κ → ℝ) : iqf D A (-b) = iqf D A b := by
  simp [iqf, mulVec_neg]

theorem logZu_neg (u : ι → ℝ) : logZu C m ts.neg u = logZu C m ts u := by
  simp only [logZu, qzOptimal_neg]
  simp [NatNormal.neg, iqf_neg, DataTerms.neg, Function.comp_def]

end

/-- The pair with the negative of the noise. -/
def Pair.neg (p : Pair ι κ) : Pair ι κ := ⟨p.u, p.z.neg⟩

omit [DecidableEq ι] [DecidableEq κ] in
theorem Pair.diff_neg (a b : Pair ι κ) : a.neg.diff b.neg = a.diff b := by
  have : rmsVec (-a.z.lam) (-b.z.lam) = rmsVec a.z.lam b.z.lam := by
    unfold rmsVec
    congr 2
    exact Finset.sum_congr rfl fun i _ => by rw [Pi.neg_apply, Pi.neg_apply]; ring
  simp only [Pair.diff, Pair.neg, NatNormal.neg, this]

theorem caStep_neg (ts : DataTerms ι κ) (p : Pair ι κ) : caStep C m ts.neg p.neg = (caStep C m ts p).neg := by
  simp only [caStep, Pair.neg, quOptimalMF_neg, qzOptimalMF_neg]

theorem caLoop_map {σ : Type} {step step' : σ → σ} {diff : σ → σ → ℝ} {φ : σ → σ} (hs : ∀ p, step' (φ p) = φ (step p))
    (hd : ∀ p q, diff (φ p) (φ q) = diff p q) (k : ℕ) (p : σ) :
    caLoop step' diff k (φ p) = (φ (caLoop step diff k p).1, (caLoop step diff k p).2.map φ) := by
  induction k generalizing p with
  | zero => rfl
  | succ k ih =>
    by_cases h : diff (step p) p < 1e-6
    · simp only [caLoop, hs, hd, h, if_true, List.map_cons, List.map_nil]
    · simp only [caLoop, hs, hd, h, if_false, List.map_cons, ih]

omit [Fintype ι] [DecidableEq ι] [Fintype κ] [DecidableEq κ] in
theorem Posts.neg_setU_setZ (s : Posts ι κ) (a : NatNormal ι) (b : NatNormal κ) :
    (s.neg.setU a).setZ b.neg = ((s.setU a).setZ b).neg := by
  simp only [Posts.setU, Posts.setZ, Posts.neg, Posts.mk.injEq, true_and]
  refine ⟨rfl, funext fun i => ?_⟩
  by_cases h : i = s.qi
  · simp only [h, if_true]
  · simp only [h, if_false]

theorem fitMeanFieldCA_neg (s : Posts ι κ) (d : List (ℝ × ℝ)) (iters : ℤ) :
    (fitMeanFieldCA C m s.neg (Spec.negData d) iters).1 = (fitMeanFieldCA C m s d iters).1.neg := by
  simp only [fitMeanFieldCA, constructDataTerms_neg]
  have := caLoop_map (step := caStep C m (constructDataTerms C m d)) (caStep_neg C m _) Pair.diff_neg iters.toNat
    (⟨s.qU, s.qZ⟩ : Pair ι κ)
  have e : (⟨s.neg.qU, s.neg.qZ⟩ : Pair ι κ) = Pair.neg ⟨s.qU, s.qZ⟩ := rfl
  rw [e, this]
  exact Posts.neg_setU_setZ s _ _

omit [Fintype ι] [DecidableEq ι] [Fintype κ] [DecidableEq κ] in
theorem Posts.neg_pZ (s : Posts ι κ) : s.neg.pZ m = (s.pZ m).neg := by
  simp only [Posts.pZ, Posts.neg]
  by_cases h : s.qi = 0
  · simp only [h, if_true, NatNormal.neg_zero]
  · simp only [h, if_false]

/-- A prediction with the opposite mean and the same variance. -/
def Spec.negPrediction (p : ℝ × ℝ) : ℝ × ℝ := (-p.1, p.2)

theorem predictMoments_neg (ts : Terms ι κ) (u : ι → ℝ) (u2 : Matrix ι ι ℝ) (z : κ → ℝ) (z2 : Matrix κ κ ℝ) :
    predictMoments C m ts u u2 (-z) z2 = (predictMoments C m ts u u2 z z2).map Spec.negPrediction := by
  simp only [predictMoments, List.map_map]
  refine List.map_congr_left fun p _ => ?_
  simp [predictMoment, Spec.negPrediction, mulVec_neg]

omit [Fintype ι] [DecidableEq ι] [Fintype κ] [DecidableEq κ] in
theorem toMeanVar_neg (p : ℝ × ℝ) : toMeanVar m (Spec.negPrediction p) = Spec.negPrediction (toMeanVar m p) := by
  simp [toMeanVar, Spec.negPrediction]

theorem meanField_predict_neg (s : Posts ι κ) (t : List ℝ) :
    MeanField.predict C m s.neg t = (MeanField.predict C m s t).map Spec.negPrediction := by
  have e : s.neg.pU m = s.pU m := rfl
  simp only [MeanField.predict, Posts.neg_pZ, NatNormal.mean_neg, NatNormal.m2_neg, predictMoments_neg, List.map_map, e]
  exact List.map_congr_left fun p _ => toMeanVar_neg m p

/-- **C135** Coordinate ascent: fitting and conditioning on the negated observations gives the opposite mean and the same
variance everywhere, if it starts from the negated initial distribution of the noise (which is drawn from a symmetric
distribution). -/
theorem c135_ca (s : Posts ι κ) (d : List (ℝ × ℝ)) (iters : ℤ) (t : List ℝ) :
    MeanField.predict C m (fitMeanFieldCA C m s.neg (Spec.negData d) iters).1.condition t =
      (MeanField.predict C m (fitMeanFieldCA C m s d iters).1.condition t).map Spec.negPrediction := by
  rw [fitMeanFieldCA_neg]
  exact meanField_predict_neg C m (fitMeanFieldCA C m s d iters).1.condition t

/-- **C135** The bounds are the same. -/
theorem c135_bounds (s : Posts ι κ) (d : List (ℝ × ℝ)) :
    (∀ c, MeanField.elbo C m s.neg (Spec.negData d) c = MeanField.elbo C m s d c) ∧
      ∀ us, elboCollapsedZ C m s.neg (Spec.negData d) us = elboCollapsedZ C m s d us := by
  have e1 : s.neg.pU m = s.pU m := rfl
  have e2 : s.neg.qU = s.qU := rfl
  have e3 : s.neg.qZ = s.qZ.neg := rfl
  refine ⟨fun c => ?_, fun us => ?_⟩
  · cases c <;> simp only [MeanField.elbo, constructDataTerms_neg, Posts.neg_pZ, e1, e2, e3, qzOptimalMF_neg,
      quOptimalMF_neg, meanFieldBound_neg]
  · have e : logZu C m (constructDataTerms C m (Spec.negData d)) = logZu C m (constructDataTerms C m d) := by
      rw [constructDataTerms_neg]
      exact funext (logZu_neg _)
    simp only [elboCollapsedZ, e, e1, e2]

/-- The session with the negative of the noise. -/
def Session.neg (s : Session ι κ) : Session ι κ :=
  ⟨s.posts.neg, s.samplesU, fun i => (s.samplesZ i).map fun l => l.map fun z => -z, s.ts.map DataTerms.neg⟩

/-- The operation with the negated observations. -/
def Spec.negOp : Session.Op → Session.Op
  | .fit d iters => .fit (Spec.negData d) iters
  | .condition d => .condition (Spec.negData d)
  | .elbo d => .elbo (Spec.negData d)

theorem gibbsLoop_neg (ts : DataTerms ι κ) (W : ℕ → (ι → ℝ) × (κ → ℝ)) (sub : Option ℕ) (k i j : ℕ) (u : ι → ℝ)
    (z : κ → ℝ) :
    Fit.gibbsLoop (gibbsU C m ts.neg (negTape W)) (gibbsZ C m ts.neg (negTape W)) sub k i (j, u, -z) =
      ((Fit.gibbsLoop (gibbsU C m ts W) (gibbsZ C m ts W) sub k i (j, u, z)).1,
        (Fit.gibbsLoop (gibbsU C m ts W) (gibbsZ C m ts W) sub k i (j, u, z)).2.map fun x => (x.1, -x.2)) := by
  induction k generalizing i j u z with
  | zero => rfl
  | succ k ih =>
    have e1 : ∀ j z, gibbsU C m ts.neg (negTape W) j (-z) = gibbsU C m ts W j z := fun j z => by
      simp only [gibbsU, quOptimal_neg, negTape]
    have e2 : ∀ j u, gibbsZ C m ts.neg (negTape W) j u = ((gibbsZ C m ts W j u).1, -(gibbsZ C m ts W j u).2) := fun j u => by
      simp only [gibbsZ, qzOptimal_neg, negTape, NatNormal.sample_neg]
    simp only [Fit.gibbsLoop, e1, e2]
    have h := ih (i + 1) (gibbsZ C m ts W (gibbsU C m ts W j z).1 (gibbsU C m ts W j z).2).1 (gibbsU C m ts W j z).2
      (gibbsZ C m ts W (gibbsU C m ts W j z).1 (gibbsU C m ts W j z).2).2
    rw [h]
    split <;> rfl

theorem Session.run_neg (W : ℕ → (ι → ℝ) × (κ → ℝ)) (s : Session ι κ) (o : Session.Op) :
    s.neg.run C m (negTape W) (Spec.negOp o) = (s.run C m W o).neg := by
  cases o with
  | fit d iters =>
    simp only [Session.run, Spec.negOp, Session.fitStructured, constructDataTerms_neg]
    have e1 : s.neg.posts.qU.sample C.u (negTape W 0).1 = s.posts.qU.sample C.u (W 0).1 := rfl
    have e2 : s.neg.posts.qZ.sample C.z (negTape W 0).2 = -s.posts.qZ.sample C.z (W 0).2 :=
      NatNormal.sample_neg C.z _ _
    rw [e1, e2, gibbsLoop_neg]
    rw [List.getLast?_map]
    cases (Fit.gibbsLoop (gibbsU C m (constructDataTerms C m d) W) (gibbsZ C m (constructDataTerms C m d) W) none
      (iters / 2).toNat 0 (1, s.posts.qU.sample C.u (W 0).1, s.posts.qZ.sample C.z (W 0).2)).2.getLast? with
    | none => rfl
    | some x =>
      obtain ⟨u, z⟩ := x
      simp only [Option.map_some, gibbsLoop_neg, List.map_map]
      simp only [Session.setSamples, Session.neg, Session.mk.injEq, true_and, and_true]
      refine ⟨rfl, funext fun i => ?_⟩
      show (if i = s.posts.qi then _ else _) = _
      by_cases h : i = s.posts.qi
      · simp only [h, if_true, Option.map_some, List.map_map]
        rfl
      · simp only [h, if_false]
  | condition d =>
    simp only [Session.run, Spec.negOp, Session.condition, constructDataTerms_neg, Session.neg, Option.map_some]
    rfl
  | elbo d =>
    simp only [Session.run, Spec.negOp, Session.elboStructured, Session.fitCA, Session.neg, fitMeanFieldCA_neg]

theorem meanMoments_neg (l : List (List (ℝ × ℝ))) :
    meanMoments (l.map fun a => a.map Spec.negPrediction) =
      match meanMoments l with
      | .error e => .error e
      | .ok a => .ok (a.map Spec.negPrediction) := by
  cases l with
  | nil => rfl
  | cons a l =>
    have h : ∀ (l : List (List (ℝ × ℝ))) (a : List (ℝ × ℝ)), (l.map fun a => a.map Spec.negPrediction).foldl addMoments
        (a.map Spec.negPrediction) = (l.foldl addMoments a).map Spec.negPrediction := by
      intro l
      induction l with
      | nil => exact fun a => rfl
      | cons b l ih =>
        intro a
        have e : addMoments (a.map Spec.negPrediction) (b.map Spec.negPrediction) =
            (addMoments a b).map Spec.negPrediction := by
          unfold addMoments
          rw [List.zipWith_map, List.map_zipWith]
          congr 1
          funext p q
          simp only [Spec.negPrediction, Prod.mk_add_mk, Prod.fst_add, Prod.snd_add, neg_add]
        simp only [List.map_cons, List.foldl_cons, e, ih]
    simp only [List.map_cons, meanMoments, h, List.length_map, List.map_map]
    congr 1
    refine List.map_congr_left fun p _ => ?_
    simp [Spec.negPrediction, neg_div]

theorem structured_predict_neg (ts : Option (DataTerms ι κ)) (t : List ℝ) (us : List (ι → ℝ)) :
    Structured.predict C m (ts.map DataTerms.neg) t us =
      match Structured.predict C m ts t us with
      | .error e => .error e
      | .ok l => .ok (l.map Spec.negPrediction) := by
  cases us with
  | nil => rfl
  | cons u us =>
    cases ts with
    | none => rfl
    | some ts =>
      simp only [Structured.predict, Option.map_some, qzOptimal_neg, NatNormal.mean_neg, NatNormal.m2_neg,
        predictMoments_neg]
      have := meanMoments_neg ((u :: us).map fun u => predictMoments C m (constructTerms C m t) u (vecMulVec u u)
        ((qzOptimal m ts u).mean C.z) ((qzOptimal m ts u).m2 C.z))
      rw [List.map_map] at this
      rw [show (fun u => (predictMoments C m (constructTerms C m t) u (vecMulVec u u) ((qzOptimal m ts u).mean C.z)
        ((qzOptimal m ts u).m2 C.z)).map Spec.negPrediction) = (fun a : List (ℝ × ℝ) => a.map Spec.negPrediction) ∘
        fun u => predictMoments C m (constructTerms C m t) u (vecMulVec u u) ((qzOptimal m ts u).mean C.z)
        ((qzOptimal m ts u).m2 C.z) from rfl, this]
      split
      · rename_i h
        split at h
        · rename_i h'
          simp only [h']
          exact congrArg _ (Except.error.inj h).symm
        · cases h
      · rename_i h
        split at h
        · cases h
        · rename_i h'
          obtain rfl := Except.ok.inj h
          simp only [h', List.map_map]
          congr 1
          exact List.map_congr_left fun p _ => toMeanVar_neg m p

/-- **C135** The structured scheme: whatever is done with a model, with the negated observations instead (and random numbers
of the noise that are negated, which have the same distribution) it predicts the opposite mean and the same variance. -/
theorem c135_structured (W : ℕ → (ι → ℝ) × (κ → ℝ)) (s : Session ι κ) (ops : List Session.Op) (t : List ℝ)
    (ws : List (ι → ℝ)) :
    ((ops.map Spec.negOp).foldl (Session.run C m (negTape W)) s.neg).predictStructured C m t ws =
      match (ops.foldl (Session.run C m W) s).predictStructured C m t ws with
      | .error e => .error e
      | .ok l => .ok (l.map Spec.negPrediction) := by
  have h : (ops.map Spec.negOp).foldl (Session.run C m (negTape W)) s.neg = (ops.foldl (Session.run C m W) s).neg := by
    induction ops generalizing s with
    | nil => rfl
    | cons o ops ih => simp only [List.map_cons, List.foldl_cons, Session.run_neg, ih]
  rw [h]
  generalize ops.foldl (Session.run C m W) s = s
  have e : s.neg.samplePU C m ws = s.samplePU C m ws := rfl
  simp only [Session.predictStructured, e]
  cases s.samplePU C m ws with
  | error e => rfl
  | ok us => exact structured_predict_neg C m s.ts t us

/-- A model that is fitted to and conditioned on two observations predicts something, so with either sign. -/
example (W : ℕ → (Fin 1 → ℝ) × (Fin 1 → ℝ)) (D : Chols (Fin 1) (Fin 1)) :
    ∃ l, (([.fit [(0, 1), (2, -3)] 4, .condition [(0, 1), (2, -3)]] : List Session.Op).foldl (Session.run D exInst W)
      exSession).predictStructured D exInst [0, 1] [0] = .ok l ∧
      (([.fit [(0, -1), (2, 3)] 4, .condition [(0, -1), (2, 3)]] : List Session.Op).foldl (Session.run D exInst (negTape W))
      exSession.neg).predictStructured D exInst [0, 1] [0] = .ok (l.map Spec.negPrediction) := by
  obtain ⟨l, h, -⟩ := (c124_predicts D W exInst_valid (exPosts 0).qu (exPosts 0).qz
    [.fit [(0, 1), (2, -3)] 4, .condition [(0, 1), (2, -3)]] [0, 1] [0] (by simp)).1
    ⟨[.fit [(0, 1), (2, -3)] 4], [(0, 1), (2, -3)], [], rfl, ⟨[], [(0, 1), (2, -3)], 4, [], rfl, by norm_num, by simp⟩,
      by simp⟩
  refine ⟨l, h, ?_⟩
  have e := c135_structured D exInst W exSession [.fit [(0, 1), (2, -3)] 4, .condition [(0, 1), (2, -3)]] [0, 1] [0]
  rw [show exSession = Session.fresh (exPosts 0).qu (exPosts 0).qz from rfl, h] at e
  simpa [Spec.negOp, Spec.negData, exSession] using e

end Gpcm
