import Verif.Lemmas.GibbsConv
import Verif.Lemmas.MarkovLemmas
import Mathlib.Probability.Kernel.RadonNikodym

/-!
# Reversible chains converge

A Markov chain that is reversible with respect to a probability measure and whose transition probabilities have the same null sets
as that measure converges to it from every state. The square of the chain is a Gibbs sampler, to which `iter_limit` applies.
-/

open MeasureTheory ProbabilityTheory ENNReal Filter Topology

namespace Gpcm.Markov

variable {S : Type} [MeasurableSpace S] [MeasurableSpace.CountablyGenerated S] {Q : Kernel S S} [IsMarkovKernel Q] {p : Measure S}
  [IsProbabilityMeasure p]

/-- A density of the transition probabilities that is positive and whose integral over the first argument is one as well. -/
theorem exists_density (hinv : ∀ A, MeasurableSet A → ∫⁻ x, Q x A ∂p = p A) (hac : ∀ x, Q x ≪ p) (hpos : ∀ x, p ≪ Q x) :
    ∃ j : S × S → ℝ≥0∞, Measurable j ∧ (∀ w, j w ≠ 0) ∧ (∀ x, Q x = p.withDensity fun y => j (x, y)) ∧
      ∀ y, ∫⁻ x, j (x, y) ∂p = 1 := by
  classical
  obtain ⟨q, hq⟩ : ∃ q : S × S → ℝ≥0∞, q = fun w => Kernel.rnDeriv Q (Kernel.const S p) w.1 w.2 := ⟨_, rfl⟩
  have hqm : Measurable q := by
    rw [hq]
    exact Kernel.measurable_rnDeriv Q (Kernel.const S p)
  have hqx : ∀ x, Measurable fun y => q (x, y) := fun x => hqm.comp measurable_prodMk_left
  have hqQ : ∀ x, Q x = p.withDensity fun y => q (x, y) := fun x => by
    have := Kernel.withDensity_rnDeriv_eq (κ := Q) (η := Kernel.const S p) (a := x) (by rw [Kernel.const_apply]; exact hac x)
    rw [Kernel.withDensity_apply _ (Kernel.measurable_rnDeriv Q (Kernel.const S p)), Kernel.const_apply] at this
    rw [hq]
    exact this.symm
  have hq0 : ∀ x, ∀ᵐ y ∂p, q (x, y) ≠ 0 := fun x => by
    have hz : MeasurableSet {y | q (x, y) = 0} := hqx x (measurableSet_singleton 0)
    have h1 : Q x {y | q (x, y) = 0} = 0 := by
      rw [hqQ x, withDensity_apply _ hz]
      refine (setLIntegral_congr_fun (g := fun _ => 0) hz fun y hy => hy).trans ?_
      simp
    have h2 := hpos x h1
    rw [ae_iff]
    simpa using h2
  obtain ⟨q', hq'⟩ : ∃ q' : S × S → ℝ≥0∞, q' = fun w => if q w = 0 then 1 else q w := ⟨_, rfl⟩
  have hq'm : Measurable q' := by
    rw [hq']
    exact Measurable.ite (hqm (measurableSet_singleton 0)) measurable_const hqm
  have hq'0 : ∀ w, q' w ≠ 0 := fun w => by
    rw [hq']
    by_cases h : q w = 0
    · simp [h]
    · simp [h]
  have hq'e : ∀ x, (fun y => q' (x, y)) =ᵐ[p] fun y => q (x, y) := fun x => by
    filter_upwards [hq0 x] with y hy
    rw [hq']
    simp only [hy, if_false]
  have hcm : Measurable fun y => ∫⁻ x, q' (x, y) ∂p := Measurable.lintegral_prod_left' hq'm
  have hc : (fun y => ∫⁻ x, q' (x, y) ∂p) =ᵐ[p] fun _ => 1 := by
    refine ae_eq_of_forall_setLIntegral_eq_of_sigmaFinite hcm measurable_const fun A hA _ => ?_
    rw [setLIntegral_one, ← hinv A hA]
    have h1 : ∀ x, Q x A = ∫⁻ y in A, q' (x, y) ∂p := fun x => by
      rw [hqQ x, withDensity_apply _ hA]
      exact (lintegral_congr_ae (ae_restrict_of_ae (hq'e x))).symm
    simp only [h1]
    exact lintegral_lintegral_swap (hq'm.comp measurable_swap).aemeasurable
  obtain ⟨N, hN⟩ : ∃ N : Set S, N = {y | ∫⁻ x, q' (x, y) ∂p ≠ 1} := ⟨_, rfl⟩
  have hNm : MeasurableSet N := by
    rw [hN]
    exact (hcm (measurableSet_singleton 1)).compl
  have hN0 : ∀ᵐ y ∂p, y ∉ N := by
    filter_upwards [hc] with y hy
    rw [hN]
    simpa using hy
  refine ⟨fun w => if w.2 ∈ N then 1 else q' w, Measurable.ite (measurable_snd hNm) measurable_const hq'm, fun w => ?_, fun x => ?_,
    fun y => ?_⟩
  · by_cases h : w.2 ∈ N
    · simp [h]
    · simp only [h, if_false]
      exact hq'0 w
  · rw [hqQ x]
    refine withDensity_congr_ae ?_
    filter_upwards [hN0, hq'e x] with y h1 h2
    simp only [h1, if_false]
    exact h2.symm
  · by_cases h : y ∈ N
    · simp [h]
    · simp only [h, if_false]
      rw [hN] at h
      simpa using h

/-- **Convergence of reversible chains.** -/
theorem erg_of_reversible (hrev : ∀ f g : S → ℝ≥0∞, Measurable f → Measurable g →
      ∫⁻ x, g x * ∫⁻ y, f y ∂Q x ∂p = ∫⁻ x, f x * ∫⁻ y, g y ∂Q x ∂p)
    (hac : ∀ x, Q x ≪ p) (hpos : ∀ x, p ≪ Q x) : Erg Q p := by
  have hinv : ∀ A, MeasurableSet A → ∫⁻ x, Q x A ∂p = p A := fun A hA => by
    have := hrev (A.indicator 1) (fun _ => 1) (measurable_one.indicator hA) measurable_const
    simp only [one_mul, lintegral_indicator_one hA, lintegral_const, measure_univ, mul_one] at this
    exact this
  obtain ⟨j, hj, hj0, hjQ, hjc⟩ := exists_density hinv hac hpos
  have hjx : ∀ x, Measurable fun y => j (x, y) := fun x => hj.comp measurable_prodMk_left
  have hjy : ∀ y, Measurable fun x => j (x, y) := fun y => hj.comp measurable_prodMk_right
  have hjr : ∀ x, ∫⁻ y, j (x, y) ∂p = 1 := fun x => by
    have : Q x Set.univ = 1 := measure_univ
    rw [hjQ x, withDensity_apply _ MeasurableSet.univ, setLIntegral_univ] at this
    exact this
  have hX : ∀ {g : S → ℝ≥0∞}, Measurable g → ∀ x, condX p j g x = ∫⁻ y, g y ∂Q x := fun {g} hg x => by
    rw [hjQ x, lintegral_withDensity_eq_lintegral_mul _ (hjx x) hg]
    unfold condX wavg
    simp only [hjr x, div_one]
    rfl
  have hY : ∀ {g : S → ℝ≥0∞}, Measurable g → condY p j g =ᵐ[p] fun y => ∫⁻ x, g x ∂Q y := fun {g} hg => by
    have hm : Measurable fun y => ∫⁻ x, g x ∂Q y := hg.lintegral_kernel
    have e : condY p j g = fun y => ∫⁻ x, j (x, y) * g x ∂p := funext fun y => by
      unfold condY wavg
      simp only [hjc y, div_one]
    refine ae_eq_of_forall_setLIntegral_eq_of_sigmaFinite (condY_measurable hj hg) hm fun A hA _ => ?_
    have h1 := hrev (A.indicator 1) g (measurable_one.indicator hA) hg
    simp only [lintegral_indicator_one hA] at h1
    have h2 : ∫⁻ x, A.indicator 1 x * ∫⁻ y, g y ∂Q x ∂p = ∫⁻ x in A, ∫⁻ y, g y ∂Q x ∂p := by
      rw [← lintegral_indicator hA]
      refine lintegral_congr fun x => ?_
      by_cases hx : x ∈ A <;> simp [hx]
    rw [← h2, ← h1, e, lintegral_lintegral_swap]
    · refine lintegral_congr fun x => ?_
      rw [hjQ x, withDensity_apply _ hA, mul_comm, ← lintegral_mul_const _ (hjx x)]
    · exact ((hj.comp measurable_swap).mul (hg.comp measurable_snd)).aemeasurable
  intro f hf M hM hfM
  obtain ⟨F, hF⟩ : ∃ F : ℕ → S → ℝ≥0∞, F = fun n x => ∫⁻ y, f y ∂pw Q n x := ⟨_, rfl⟩
  have hFm : ∀ n, Measurable (F n) := fun n => by
    rw [hF]
    exact hf.lintegral_kernel
  have hFs : ∀ n x, F (n + 1) x = ∫⁻ y, F n y ∂Q x := fun n x => by
    rw [hF]
    exact lintegral_pw_succ Q n x hf
  have hFM : ∀ n x, F n x ≤ M := fun n x => by
    rw [hF]
    refine (lintegral_mono hfM).trans ?_
    rw [lintegral_const, measure_univ, mul_one]
  have hF0 : F 0 = f := by
    rw [hF]
    exact funext fun x => lintegral_pw_zero Q x hf
  -- the Gibbs sampler
  obtain ⟨G, hG⟩ : ∃ G : ℕ → S → ℝ≥0∞, G = fun n => (fun g => condY p j (condX p j g))^[n] f := ⟨_, rfl⟩
  have hG0 : G 0 = f := by rw [hG]; rfl
  have hGs : ∀ n, G (n + 1) = condY p j (condX p j (G n)) := fun n => by
    rw [hG]
    exact Function.iterate_succ_apply' _ _ _
  have hGm : ∀ n, Measurable (G n) := fun n => by
    induction n with
    | zero => rw [hG0]; exact hf
    | succ n ih => rw [hGs]; exact condY_measurable hj (condX_measurable hj ih)
  have hGM : ∀ n y, G n y ≤ M := fun n => by
    induction n with
    | zero => rw [hG0]; exact hfM
    | succ n ih =>
      have h1 : ∀ x, condX p j (G n) x ≤ M := fun x => by
        rw [hX (hGm n)]
        refine (lintegral_mono ih).trans ?_
        rw [lintegral_const, measure_univ, mul_one]
      intro y
      rw [hGs]
      unfold condY wavg
      simp only [hjc y, div_one]
      refine (lintegral_mono fun x => mul_le_mul_right (h1 x) _).trans ?_
      rw [lintegral_mul_const _ (hjy y), hjc y, one_mul]
  have hGF : ∀ n, G n =ᵐ[p] F (2 * n) := fun n => by
    induction n with
    | zero => rw [hG0, Nat.mul_zero, hF0]
    | succ n ih =>
      have h1 : condX p j (G n) = F (2 * n + 1) := funext fun x => by
        rw [hX (hGm n), hFs]
        exact lintegral_congr_ae ((hac x).ae_eq ih)
      rw [hGs, h1, show 2 * (n + 1) = 2 * n + 1 + 1 by ring]
      refine (hY (hFm _)).trans ?_
      exact Eventually.of_forall fun y => (hFs _ y).symm
  have hlim : ∀ y, Tendsto (fun n => G n y) atTop (𝓝 (∫⁻ y, f y ∂p)) := fun y => by
    have := iter_limit (mu := p) (nu := p) hj (fun y => by rw [hjc]; exact one_ne_zero) (fun y => by rw [hjc]; exact one_ne_top)
      (fun x => by rw [hjr]; exact one_ne_zero) (fun x => by rw [hjr]; exact one_ne_top) hGm hGs hM hGM
      (by simp only [hjc]; simp) hj0 y
    simpa only [hjc, one_mul, hG0, lintegral_one, measure_univ, div_one] using this
  have hae : ∀ᵐ y ∂p, Tendsto (fun n => F (2 * n) y) atTop (𝓝 (∫⁻ y, f y ∂p)) := by
    filter_upwards [ae_all_iff.2 hGF] with y hy
    simp only [← hy]
    exact hlim y
  have hdom : ∀ {H : ℕ → S → ℝ≥0∞} {c : ℝ≥0∞} (x : S), (∀ n, Measurable (H n)) → (∀ n y, H n y ≤ M) →
      (∀ᵐ y ∂Q x, Tendsto (fun n => H n y) atTop (𝓝 c)) → Tendsto (fun n => ∫⁻ y, H n y ∂Q x) atTop (𝓝 c) := by
    intro H c x h1 h2 h3
    have := tendsto_lintegral_of_dominated_convergence (μ := Q x) (F := H) (f := fun _ => c) (fun _ => M) h1
      (fun n => Eventually.of_forall (h2 n)) (by rw [lintegral_const, measure_univ, mul_one]; exact hM) h3
    rwa [lintegral_const, measure_univ, mul_one] at this
  have hodd : ∀ x, Tendsto (fun n => F (2 * n + 1) x) atTop (𝓝 (∫⁻ y, f y ∂p)) := fun x => by
    simp only [hFs]
    exact hdom x (fun n => hFm _) (fun n => hFM _) ((hac x).ae_le hae)
  have heven : ∀ x, Tendsto (fun n => F (2 * n + 1 + 1) x) atTop (𝓝 (∫⁻ y, f y ∂p)) := fun x => by
    simp only [hFs (2 * _ + 1)]
    exact hdom x (fun n => hFm _) (fun n => hFM _) (Eventually.of_forall hodd)
  intro x
  have key : Tendsto (fun n => F (n + 1) x) atTop (𝓝 (∫⁻ y, f y ∂p)) := by
    rw [tendsto_def]
    intro U hU
    obtain ⟨N1, h1⟩ := mem_atTop_sets.1 (hodd x hU)
    obtain ⟨N2, h2⟩ := mem_atTop_sets.1 (heven x hU)
    refine mem_atTop_sets.2 ⟨2 * (N1 + N2), fun n hn => ?_⟩
    rcases Nat.even_or_odd' n with ⟨k, rfl | rfl⟩
    · exact h1 k (by omega)
    · exact h2 k (by omega)
  have := (tendsto_add_atTop_iff_nat (f := fun n => F n x) 1).1 key
  rw [hF] at this
  exact this

end Gpcm.Markov
