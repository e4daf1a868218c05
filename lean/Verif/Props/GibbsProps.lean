import Verif.Props.FitProps
import Verif.Model.Gibbs
import Verif.Lemmas.JointLemmas

/-!
# Property C96: the Gibbs sampler

The target of the sampler is `joint m d`: the prior densities of the two inducing variables times the
exponentiated expected log-likelihood. Noise vectors have the standard normal density `stdPdf`. Expectations
over the noise of a sweep are iterated integrals, first over the noise for `z`, then over the noise for `u`.
-/

set_option linter.unusedSectionVars false

open Matrix Real MeasureTheory ENNReal

namespace Gpcm

variable {ι κ : Type} [Fintype ι] [DecidableEq ι] [Fintype κ] [DecidableEq κ]
variable (C : Chols ι κ) {m : Inst ι κ}

/-- The state after `k` sweeps with noise `W`. -/
noncomputable def gibbsChain (m : Inst ι κ) (ts : DataTerms ι κ) (W : ℕ → (ι → ℝ) × (κ → ℝ))
    (x : (ι → ℝ) × (κ → ℝ)) : ℕ → (ι → ℝ) × (κ → ℝ)
  | 0 => x
  | k + 1 => gibbsSweep C m ts (W k) (gibbsChain m ts W x k)

theorem sweep_iterate (ts : DataTerms ι κ) (W : ℕ → (ι → ℝ) × (κ → ℝ)) (x : (ι → ℝ) × (κ → ℝ)) (k : ℕ) :
    (Fit.sweep (gibbsU C m ts W) (gibbsZ C m ts W))^[k] (0, x) = (k, gibbsChain C m ts W x k) := by
  induction k with
  | zero => rfl
  | succ k ih =>
    rw [Function.iterate_succ_apply', ih]
    rfl

/-- **C96** The samples of `gibbs_sample` are the states of the chain. -/
theorem c96_samples (ts : DataTerms ι κ) (W : ℕ → (ι → ℝ) × (κ → ℝ)) (x : (ι → ℝ) × (κ → ℝ)) (k : ℕ) :
    (Fit.gibbsLoop (gibbsU C m ts W) (gibbsZ C m ts W) none k 0 (0, x)).2 =
      (List.range k).map fun i => gibbsChain C m ts W x (i + 1) := by
  rw [Fit.c34_gibbs_sample]
  simp only [sweep_iterate, true_or, decide_true, List.filter_true]

/-- **C96** `q_z_optimal` is the conditional distribution of `z` given `u` under the target. -/
theorem c96_conditional_z (h : m.Valid) (d : List (ℝ × ℝ)) (u : ι → ℝ) (z : κ → ℝ) :
    joint m d (u, z) = (∫⁻ z', joint m d (u, z')) *
      ENNReal.ofReal (exp ((qzOptimal m (constructDataTerms C m d) u).logpdf C.z z)) := by
  rw [joint_marg_u C h, ← ENNReal.ofReal_mul (exp_pos _).le, ← exp_add, ← logJoint_u C h]
  rfl

/-- **C96** `q_u_optimal` is the conditional distribution of `u` given `z` under the target. -/
theorem c96_conditional_u (h : m.Valid) (d : List (ℝ × ℝ)) (u : ι → ℝ) (z : κ → ℝ) :
    joint m d (u, z) = (∫⁻ u', joint m d (u', z)) *
      ENNReal.ofReal (exp ((quOptimal m (constructDataTerms C m d) z).logpdf C.u u)) := by
  rw [joint_marg_z C h, ← ENNReal.ofReal_mul (exp_pos _).le, ← exp_add, ← logJoint_z C h]
  rfl

/-- The expectation of `f` after `k` sweeps with independent noise, started at `x`. -/
noncomputable def chainExpect (m : Inst ι κ) (ts : DataTerms ι κ) (f : (ι → ℝ) × (κ → ℝ) → ℝ≥0∞) :
    ℕ → (ι → ℝ) × (κ → ℝ) → ℝ≥0∞
  | 0, x => f x
  | k + 1, x => ∫⁻ w₁, ENNReal.ofReal (stdPdf w₁) * ∫⁻ w₂, ENNReal.ofReal (stdPdf w₂) *
      chainExpect m ts f k (gibbsSweep C m ts (w₁, w₂) x)

theorem chainExpect_succ (h : m.Valid) (d : List (ℝ × ℝ)) (f : (ι → ℝ) × (κ → ℝ) → ℝ≥0∞) (k : ℕ) :
    chainExpect C m (constructDataTerms C m d) f (k + 1) =
      gibbsOp volume volume (joint m d) (chainExpect C m (constructDataTerms C m d) f k) := by
  funext x
  obtain ⟨g, hg⟩ : ∃ g, g = chainExpect C m (constructDataTerms C m d) f k := ⟨_, rfl⟩
  rw [chainExpect, ← hg]
  have e1 : ∀ u : ι → ℝ, ∫⁻ w₂, ENNReal.ofReal (stdPdf w₂) *
      g (u, (qzOptimal m (constructDataTerms C m d) u).sample C.z w₂) =
      ∫⁻ z, joint m d (u, z) / (∫⁻ z', joint m d (u, z')) * g (u, z) := fun u => by
    rw [lexpect_sample C.z (qzOptimal_posDef C h d u) fun z => g (u, z)]
    refine lintegral_congr fun z => ?_
    rw [c96_conditional_z C h d u z, joint_marg_u C h, mul_comm (ENNReal.ofReal (exp (logMargU C m d u))),
      ENNReal.mul_div_cancel_right (ofReal_exp_ne_zero _) ENNReal.ofReal_ne_top]
  simp only [gibbsSweep, e1]
  rw [lexpect_sample C.u (quOptimal_posDef C h d x.2) fun u =>
    ∫⁻ z, joint m d (u, z) / (∫⁻ z', joint m d (u, z')) * g (u, z)]
  unfold gibbsOp
  refine lintegral_congr fun u => ?_
  rw [c96_conditional_u C h d u x.2, joint_marg_z C h, mul_comm (ENNReal.ofReal (exp (logMargZ C m d x.2))),
    ENNReal.mul_div_cancel_right (ofReal_exp_ne_zero _) ENNReal.ofReal_ne_top]

theorem chainExpect_measurable (h : m.Valid) (d : List (ℝ × ℝ)) {f : (ι → ℝ) × (κ → ℝ) → ℝ≥0∞}
    (hf : Measurable f) (k : ℕ) : Measurable (chainExpect C m (constructDataTerms C m d) f k) := by
  induction k with
  | zero => exact hf
  | succ k ih =>
    rw [chainExpect_succ C h]
    exact gibbsOp_measurable (measurable_joint h d) ih

theorem joint_hyps (h : m.Valid) (d : List (ℝ × ℝ)) :
    (∀ z, ∫⁻ u, joint m d (u, z) ≠ 0) ∧ (∀ z, ∫⁻ u, joint m d (u, z) ≠ ∞) ∧
    (∀ u, ∫⁻ z, joint m d (u, z) ≠ 0) ∧ (∀ u, ∫⁻ z, joint m d (u, z) ≠ ∞) := by
  obtain ⟨Cu⟩ := cholOracle_nonempty (n := ι)
  obtain ⟨Cz⟩ := cholOracle_nonempty (n := κ)
  simp only [joint_marg_z ⟨Cu, Cz⟩ h, joint_marg_u ⟨Cu, Cz⟩ h]
  exact ⟨fun _ => ofReal_exp_ne_zero _, fun _ => ENNReal.ofReal_ne_top, fun _ => ofReal_exp_ne_zero _,
    fun _ => ENNReal.ofReal_ne_top⟩

/-- **C96** The target is a proper distribution: it has a positive, finite normaliser. -/
theorem c96_proper (h : m.Valid) (d : List (ℝ × ℝ)) :
    0 < ∫⁻ x, joint m d x ∂(volume.prod volume) ∧ ∫⁻ x, joint m d x ∂(volume.prod volume) < ∞ :=
  ⟨pos_iff_ne_zero.2 (joint_finite h d).1, lt_top_iff_ne_top.2 (joint_finite h d).2⟩

/-- **C96** A chain started at the target stays at the target: after any number of sweeps, the expectation of
every function is that under the target. -/
theorem c96_invariant (h : m.Valid) (d : List (ℝ × ℝ)) {f : (ι → ℝ) × (κ → ℝ) → ℝ≥0∞} (hf : Measurable f)
    (k : ℕ) :
    ∫⁻ x, joint m d x * chainExpect C m (constructDataTerms C m d) f k x ∂(volume.prod volume) =
      ∫⁻ x, joint m d x * f x ∂(volume.prod volume) := by
  obtain ⟨a, b, c, e⟩ := joint_hyps h d
  induction k with
  | zero => rfl
  | succ k ih =>
    rw [chainExpect_succ C h, gibbsOp_invariant (measurable_joint h d) a b c e
      (chainExpect_measurable C h d hf k), ih]

/-- **C96** Nothing else is preserved: every distribution that a sweep preserves is the normalised target. -/
theorem c96_unique (h : m.Valid) (d : List (ℝ × ℝ)) {rho : Measure ((ι → ℝ) × (κ → ℝ))} [IsProbabilityMeasure rho]
    (hr : ∀ f : (ι → ℝ) × (κ → ℝ) → ℝ≥0∞, Measurable f →
      ∫⁻ x, chainExpect C m (constructDataTerms C m d) f 1 x ∂rho = ∫⁻ x, f x ∂rho) :
    rho = (volume.prod volume).withDensity fun x =>
      joint m d x / ∫⁻ x', joint m d x' ∂(volume.prod volume) := by
  obtain ⟨a, b, c, e⟩ := joint_hyps h d
  refine gibbsOp_unique (measurable_joint h d) a b c e (fun _ => ofReal_exp_ne_zero _) rfl (joint_finite h d).1
    (joint_finite h d).2 fun f hf => ?_
  have := hr f hf
  rw [chainExpect_succ C h] at this
  exact this

/-- The sweep is a Markov transition: the expectation of one is one. -/
theorem c96_markov (h : m.Valid) (d : List (ℝ × ℝ)) (k : ℕ) (x : (ι → ℝ) × (κ → ℝ)) :
    chainExpect C m (constructDataTerms C m d) (fun _ => 1) k x = 1 := by
  obtain ⟨a, b, c, e⟩ := joint_hyps h d
  have key : ∀ k, chainExpect C m (constructDataTerms C m d) (fun _ => 1) k = fun _ => 1 := fun k => by
    induction k with
    | zero => rfl
    | succ k ih =>
      rw [chainExpect_succ C h, ih]
      exact funext (gibbsOp_one (measurable_joint h d) a b c e)
  rw [key]

/-- The hypotheses are met by a concrete instance and data set. -/
example (D : Chols (Fin 1) (Fin 1)) {f : (Fin 1 → ℝ) × (Fin 1 → ℝ) → ℝ≥0∞} (hf : Measurable f) :
    ∫⁻ x, joint exInst [(0, 1), (2, 3)] x * chainExpect D exInst (constructDataTerms D exInst [(0, 1), (2, 3)]) f 5 x
      ∂(volume.prod volume) = ∫⁻ x, joint exInst [(0, 1), (2, 3)] x * f x ∂(volume.prod volume) :=
  c96_invariant D exInst_valid _ hf 5

end Gpcm
