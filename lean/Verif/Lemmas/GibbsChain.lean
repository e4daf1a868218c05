import Verif.Lemmas.MarkovLLN
import Verif.Props.GibbsConvProps
import Verif.Props.SessionProps

/-! # The Gibbs sampler as a Markov chain -/

set_option linter.unusedSectionVars false

open Matrix Real MeasureTheory ProbabilityTheory ENNReal Filter Topology

namespace Gpcm

open Markov

variable {ι κ : Type} [Fintype ι] [DecidableEq ι] [Fintype κ] [DecidableEq κ]
variable (C : Chols ι κ) {m : Inst ι κ}

/-- The transition of a sweep. -/
noncomputable def gibbsKernel (h : m.Valid) (d : List (ℝ × ℝ)) : Kernel ((ι → ℝ) × (κ → ℝ)) ((ι → ℝ) × (κ → ℝ)) where
  toFun x := (volume.prod volume).withDensity (gibbsDens volume volume (joint m d) x)
  measurable' := by
    refine Measure.measurable_of_measurable_coe _ fun A hA => ?_
    simp only [withDensity_apply _ hA, ← lintegral_indicator hA]
    refine Measurable.lintegral_prod_right (f := fun x y => A.indicator (gibbsDens volume volume (joint m d) x) y) ?_
    have : (Function.uncurry fun x y => A.indicator (gibbsDens volume volume (joint m d) x) y) =
        (Prod.snd ⁻¹' A).indicator (Function.uncurry (gibbsDens volume volume (joint m d))) := by
      funext q
      by_cases hq : q.2 ∈ A
      · rw [Set.indicator_of_mem (by exact hq), Function.uncurry, Set.indicator_of_mem hq]; rfl
      · rw [Set.indicator_of_notMem (by exact hq), Function.uncurry, Set.indicator_of_notMem hq]
    rw [this]
    exact (gibbsDens_measurable (measurable_joint h d)).indicator (measurable_snd hA)

theorem lintegral_gibbsKernel (h : m.Valid) (d : List (ℝ × ℝ)) {f : (ι → ℝ) × (κ → ℝ) → ℝ≥0∞} (hf : Measurable f)
    (x : (ι → ℝ) × (κ → ℝ)) : ∫⁻ y, f y ∂gibbsKernel h d x = gibbsOp volume volume (joint m d) f x := by
  rw [gibbsOp_eq (measurable_joint h d) hf]
  exact lintegral_withDensity_eq_lintegral_mul _
    ((gibbsDens_measurable (measurable_joint h d)).comp measurable_prodMk_left) hf

instance gibbsKernel_markov (h : m.Valid) (d : List (ℝ × ℝ)) : IsMarkovKernel (gibbsKernel h d) := by
  obtain ⟨a, b, c, e⟩ := joint_hyps h d
  refine ⟨fun x => ⟨?_⟩⟩
  rw [← lintegral_one, lintegral_gibbsKernel h d measurable_const, gibbsOp_one (measurable_joint h d) a b c e]

theorem chainExpect_eq_pw (h : m.Valid) (d : List (ℝ × ℝ)) {f : (ι → ℝ) × (κ → ℝ) → ℝ≥0∞} (hf : Measurable f)
    (k : ℕ) (x : (ι → ℝ) × (κ → ℝ)) :
    chainExpect C m (constructDataTerms C m d) f k x = ∫⁻ y, f y ∂pw (gibbsKernel h d) k x := by
  induction k generalizing x with
  | zero => rw [lintegral_pw_zero _ _ hf]; rfl
  | succ k ih =>
    rw [chainExpect_succ C h, lintegral_pw_succ _ _ _ hf, ← lintegral_gibbsKernel h d (chainExpect_measurable C h d hf k)]
    exact lintegral_congr fun y => ih y

theorem lintegral_structuredPosterior (h : m.Valid) (d : List (ℝ × ℝ)) {f : (ι → ℝ) × (κ → ℝ) → ℝ≥0∞}
    (hf : Measurable f) : ∫⁻ x, f x ∂structuredPosterior m d =
      (∫⁻ x, joint m d x * f x ∂(volume.prod volume)) / ∫⁻ x, joint m d x ∂(volume.prod volume) := by
  have hj := measurable_joint h d
  rw [structuredPosterior, lintegral_withDensity_eq_lintegral_mul _ (hj.div_const _) hf, div_eq_mul_inv,
    ← lintegral_mul_const (f := fun x => joint m d x * f x) _ (hj.mul hf)]
  refine lintegral_congr fun x => ?_
  rw [Pi.mul_apply, div_eq_mul_inv]
  ring

theorem structuredPosterior_prob (h : m.Valid) (d : List (ℝ × ℝ)) : IsProbabilityMeasure (structuredPosterior m d) := by
  refine ⟨?_⟩
  rw [← lintegral_one, lintegral_structuredPosterior h d measurable_const]
  simp only [mul_one]
  exact ENNReal.div_self (joint_finite h d).1 (joint_finite h d).2

theorem gibbs_erg (h : m.Valid) (d : List (ℝ × ℝ)) : Erg (gibbsKernel h d) (structuredPosterior m d) := by
  intro f hf M hM hfM x
  obtain ⟨Cu⟩ := cholOracle_nonempty (n := ι)
  obtain ⟨Cz⟩ := cholOracle_nonempty (n := κ)
  have := c116_converges ⟨Cu, Cz⟩ h d hf hM hfM x
  rw [← lintegral_structuredPosterior h d hf] at this
  simpa only [chainExpect_eq_pw ⟨Cu, Cz⟩ h d hf] using this

/-! ## The chain as a function of the random numbers -/

theorem gibbsChain_cons (ts : DataTerms ι κ) (w : (ι → ℝ) × (κ → ℝ)) (W : ℕ → (ι → ℝ) × (κ → ℝ))
    (x : (ι → ℝ) × (κ → ℝ)) (i : ℕ) :
    gibbsChain C m ts (cons w W) x (i + 1) = gibbsChain C m ts W (gibbsSweep C m ts w x) i := by
  induction i with
  | zero => rfl
  | succ i ih => rw [gibbsChain, ih, gibbsChain]; rfl

theorem normalExpect_chain (h : m.Valid) (d : List (ℝ × ℝ)) (n : ℕ) {F : (ℕ → (ι → ℝ) × (κ → ℝ)) → ℝ≥0∞}
    (hF : Measurable F) (hn : ∀ l l', (∀ i < n, l i = l' i) → F l = F l') (x : (ι → ℝ) × (κ → ℝ)) :
    normalExpect n (fun W => F fun i => gibbsChain C m (constructDataTerms C m d) W x (i + 1)) =
      ∫⁻ l, F l ∂traj (gibbsKernel h d) n x := by
  induction n generalizing F x with
  | zero =>
    have e : ∀ l, F l = F fun _ => x := fun l => hn _ _ fun i hi => absurd hi (by omega)
    rw [normalExpect, e]
    simp only [e]
    rw [lintegral_const, measure_univ, mul_one, e]
  | succ n ih =>
    have hG : Measurable fun y => ∫⁻ l, F (cons y l) ∂traj (gibbsKernel h d) n y :=
      Measurable.lintegral_kernel_prod_right (f := fun y l => F (cons y l)) (hF.comp measurable_cons)
    rw [normalExpect, lintegral_traj_succ _ _ _ hF, lintegral_gibbsKernel h d hG]
    have e := chainExpect_succ C h d (fun y => ∫⁻ l, F (cons y l) ∂traj (gibbsKernel h d) n y) 0
    have e' : chainExpect C m (constructDataTerms C m d) (fun y => ∫⁻ l, F (cons y l) ∂traj (gibbsKernel h d) n y) 0 =
        fun y => ∫⁻ l, F (cons y l) ∂traj (gibbsKernel h d) n y := rfl
    rw [← e', ← e, chainExpect]
    refine lintegral_congr fun w₁ => ?_
    congr 1
    refine lintegral_congr fun w₂ => ?_
    congr 1
    show _ = ∫⁻ l, F (cons (gibbsSweep C m (constructDataTerms C m d) (w₁, w₂) x) l) ∂traj (gibbsKernel h d) n
      (gibbsSweep C m (constructDataTerms C m d) (w₁, w₂) x)
    rw [← ih (F := fun l => F (cons (gibbsSweep C m (constructDataTerms C m d) (w₁, w₂) x) l))
      (hF.comp (measurable_cons_left _))]
    · congr 1
      funext W
      congr 1
      funext i
      rw [gibbsChain_cons]
      cases i <;> rfl
    · intro l l' hl
      refine hn _ _ fun i hi => ?_
      cases i with
      | zero => rfl
      | succ i => exact hl i (by omega)

theorem normalExpect_mono (n : ℕ) {H H' : (ℕ → (ι → ℝ) × (κ → ℝ)) → ℝ≥0∞} (hH : ∀ W, H W ≤ H' W) :
    normalExpect n H ≤ normalExpect n H' := by
  induction n generalizing H H' with
  | zero => exact hH _
  | succ n ih =>
    refine lintegral_mono fun w₁ => mul_le_mul_right (lintegral_mono fun w₂ => mul_le_mul_right ?_ _) _
    exact ih fun W => hH _

theorem normalExpect_const_mul (n : ℕ) {c : ℝ≥0∞} (hc : c ≠ ∞) (H : (ℕ → (ι → ℝ) × (κ → ℝ)) → ℝ≥0∞) :
    normalExpect n (fun W => c * H W) = c * normalExpect n H := by
  induction n generalizing H with
  | zero => rfl
  | succ n ih =>
    simp only [normalExpect, ih]
    rw [← lintegral_const_mul' _ _ hc]
    refine lintegral_congr fun w₁ => ?_
    rw [mul_left_comm, ← lintegral_const_mul' _ _ hc]
    congr 1
    exact lintegral_congr fun w₂ => mul_left_comm _ _ _

/-! ## The state that a fit starts from -/

theorem measurable_sample {n : Type} [Fintype n] [DecidableEq n] (D : CholOracle n) (q : NatNormal n) :
    Measurable (q.sample D) := by
  refine Continuous.measurable ?_
  unfold NatNormal.sample cholsolveVec
  fun_prop

/-- The distribution of the state that a fit starts from. -/
noncomputable def startLaw (qu : NatNormal ι) (qz : NatNormal κ) : Measure ((ι → ℝ) × (κ → ℝ)) :=
  ((volume.prod volume).withDensity fun w : (ι → ℝ) × (κ → ℝ) =>
    ENNReal.ofReal (stdPdf w.1) * ENNReal.ofReal (stdPdf w.2)).map fun w => (qu.sample C.u w.1, qz.sample C.z w.2)

theorem measurable_stdPdf {n : Type} [Fintype n] : Measurable (stdPdf : (n → ℝ) → ℝ) := by
  unfold stdPdf
  exact Finset.measurable_prod _ fun i _ => (measurable_gaussianPDFReal 0 1).comp (measurable_pi_apply i)

theorem lintegral_startLaw (qu : NatNormal ι) (qz : NatNormal κ) {f : (ι → ℝ) × (κ → ℝ) → ℝ≥0∞} (hf : Measurable f) :
    ∫⁻ x, f x ∂startLaw C qu qz = ∫⁻ w₁, ENNReal.ofReal (stdPdf w₁) * ∫⁻ w₂, ENNReal.ofReal (stdPdf w₂) *
      f (qu.sample C.u w₁, qz.sample C.z w₂) := by
  have hs : Measurable fun w : (ι → ℝ) × (κ → ℝ) => (qu.sample C.u w.1, qz.sample C.z w.2) :=
    ((measurable_sample _ _).comp measurable_fst).prodMk ((measurable_sample _ _).comp measurable_snd)
  have hd : Measurable fun w : (ι → ℝ) × (κ → ℝ) => ENNReal.ofReal (stdPdf w.1) * ENNReal.ofReal (stdPdf w.2) :=
    (measurable_stdPdf.comp measurable_fst).ennreal_ofReal.mul (measurable_stdPdf.comp measurable_snd).ennreal_ofReal
  rw [startLaw, lintegral_map hf hs, lintegral_withDensity_eq_lintegral_mul
    (g := fun w => f (qu.sample C.u w.1, qz.sample C.z w.2)) _ hd (hf.comp hs),
    lintegral_prod _ (by exact (hd.mul (hf.comp hs)).aemeasurable)]
  refine lintegral_congr fun w₁ => ?_
  simp only [Pi.mul_apply, mul_assoc, Function.comp]
  rw [lintegral_const_mul' _ _ ENNReal.ofReal_ne_top]

instance startLaw_prob (qu : NatNormal ι) (qz : NatNormal κ) : IsProbabilityMeasure (startLaw C qu qz) := by
  have e : ∀ {n : Type} [Fintype n] [DecidableEq n], ∫⁻ w : n → ℝ, ENNReal.ofReal (stdPdf w) = 1 := fun {n} _ _ => by
    obtain ⟨D⟩ := cholOracle_nonempty (n := n)
    have h1 := lexpect_sample D (d := ⟨0, 1⟩) Matrix.PosDef.one fun _ => 1
    have h2 := lexpect_one D (d := (⟨0, 1⟩ : NatNormal n)) Matrix.PosDef.one
    simp only [mul_one] at h1
    rw [h1, h2]
  refine ⟨?_⟩
  rw [← lintegral_one, lintegral_startLaw C qu qz measurable_const]
  simp only [mul_one, e]

/-! ## The samples that a fit stores -/

theorem sweep_iterate_one (ts : DataTerms ι κ) (W : ℕ → (ι → ℝ) × (κ → ℝ)) (x : (ι → ℝ) × (κ → ℝ)) (k : ℕ) :
    (Fit.sweep (gibbsU C m ts W) (gibbsZ C m ts W))^[k] (1, x) =
      (k + 1, gibbsChain C m ts (fun i => W (i + 1)) x k) := by
  induction k with
  | zero => rfl
  | succ k ih =>
    rw [Function.iterate_succ_apply', ih]
    rfl

/-- The number of sweeps between two stored samples (approx.py:779-780). -/
def thinning (iters : ℤ) : ℕ := (if 1000 < iters then iters / 1000 else 1 : ℤ).toNat

theorem thinning_pos (iters : ℤ) : 0 < thinning iters := by
  unfold thinning
  split <;> omega

/-- The number of sweeps of a fit (approx.py:751, 779-780). -/
def fitSweeps (iters : ℤ) : ℕ := (iters / 2).toNat + 1000 * thinning iters

theorem storedSamples_eq (W : ℕ → (ι → ℝ) × (κ → ℝ)) (d : List (ℝ × ℝ)) (iters : ℤ) (qu : NatNormal ι)
    (qz : NatNormal κ) : storedSamples C m W d iters qu qz = (List.range 1000).map fun j =>
      gibbsChain C m (constructDataTerms C m d) (fun i => W (i + 1)) (qu.sample C.u (W 0).1, qz.sample C.z (W 0).2)
        ((iters / 2).toNat + j * thinning iters + 1) := by
  unfold storedSamples
  refine List.map_congr_left fun j _ => ?_
  rw [sessionSweep, sweep_iterate_one]
  rfl

theorem normalExpect_start (h : m.Valid) (d : List (ℝ × ℝ)) (n : ℕ) {F : (ℕ → (ι → ℝ) × (κ → ℝ)) → ℝ≥0∞}
    (hF : Measurable F) (hn : ∀ l l', (∀ i < n, l i = l' i) → F l = F l') (qu : NatNormal ι) (qz : NatNormal κ) :
    normalExpect (n + 1) (fun W => F fun i => gibbsChain C m (constructDataTerms C m d) (fun i => W (i + 1))
      (qu.sample C.u (W 0).1, qz.sample C.z (W 0).2) (i + 1)) =
      ∫⁻ x, ∫⁻ l, F l ∂traj (gibbsKernel h d) n x ∂startLaw C qu qz := by
  rw [lintegral_startLaw C qu qz hF.lintegral_kernel, normalExpect]
  refine lintegral_congr fun w₁ => ?_
  congr 1
  refine lintegral_congr fun w₂ => ?_
  congr 1
  exact normalExpect_chain C h d n hF hn (qu.sample C.u w₁, qz.sample C.z w₂)

/-- Expectations of functions of the stored samples. -/
theorem normalExpect_stored (h : m.Valid) (d : List (ℝ × ℝ)) (iters : ℤ) {G : (ℕ → (ι → ℝ) × (κ → ℝ)) → ℝ≥0∞}
    (hG : Measurable G) (hn : ∀ l l', (∀ j < 1000, l j = l' j) → G l = G l') (qu : NatNormal ι) (qz : NatNormal κ) :
    normalExpect (fitSweeps iters + 1) (fun W => G fun j => (storedSamples C m W d iters qu qz).getD j 0) =
      ∫⁻ x, ∫⁻ l, G (fun j => l ((iters / 2).toNat + j * thinning iters)) ∂traj (gibbsKernel h d) (fitSweeps iters) x
        ∂startLaw C qu qz := by
  rw [← normalExpect_start C h d (fitSweeps iters)
    (F := fun l => G fun j => l ((iters / 2).toNat + j * thinning iters))]
  · refine congrArg (normalExpect _) (funext fun W => hn _ _ fun j hj => ?_)
    rw [storedSamples_eq, List.getD_eq_getElem?_getD, List.getElem?_map, List.getElem?_range hj]
    rfl
  · exact hG.comp (measurable_pi_iff.2 fun j => measurable_pi_apply _)
  · intro l l' hl
    refine hn _ _ fun j hj => hl _ ?_
    have h1 := thinning_pos iters
    have h2 : (j + 1) * thinning iters ≤ 1000 * thinning iters := Nat.mul_le_mul_right _ (by omega)
    rw [Nat.succ_mul] at h2
    unfold fitSweeps
    omega

theorem fit_bounds_tendsto (N : ℕ) : ∀ᶠ iters : ℤ in atTop, N ≤ (iters / 2).toNat ∧ N ≤ thinning iters ∧ 2 ≤ iters := by
  refine eventually_atTop.2 ⟨1000 * N + 2000, fun iters hi => ?_⟩
  unfold thinning
  rw [if_pos (by omega)]
  omega

end Gpcm
