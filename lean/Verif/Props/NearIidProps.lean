import Verif.Lemmas.NearIid
import Verif.Props.GibbsRateProps

/-!
# Property C200: the stored samples are nearly independent draws, at a geometric rate

`Measure.pi fun _ : Fin 1000 => structuredPosterior m d` is the distribution of a thousand independent draws from the
structured posterior. C160 says that the samples of longer and longer fits become independent; here, the difference is bounded
for every fit, for arbitrary functions of all the samples.
-/

set_option linter.unusedSectionVars false

open Matrix Real MeasureTheory ProbabilityTheory ENNReal Filter Topology

namespace Gpcm

open Markov

variable {ι κ : Type} [Fintype ι] [DecidableEq ι] [Fintype κ] [DecidableEq κ]
variable (C : Chols ι κ) {m : Inst ι κ}

theorem sum_map_getD {X : Type} (f : X → ℝ) {L : List X} {n : ℕ} (hL : L.length = n) {x : X} :
    (L.map f).sum = ∑ i : Fin n, f (L.getD i x) := by
  rw [← List.sum_ofFn]
  congr 1
  refine List.ext_getElem (by simp [hL]) fun j h1 h2 => ?_
  rw [List.getElem_map, List.getElem_ofFn, List.getD_eq_getElem?_getD, List.getElem?_eq_getElem (by simpa using h1)]
  rfl

theorem stored_unit (h : m.Valid) (d : List (ℝ × ℝ)) : ∃ r : ℝ, 0 ≤ r ∧ r < 1 ∧
    ∀ (s : Session ι κ) (iters : ℤ), 2 ≤ iters → ∀ G : (Fin 1000 → (ι → ℝ) × (κ → ℝ)) → ℝ, Measurable G →
      (∀ v, 0 ≤ G v ∧ G v ≤ 1) →
      |(normalExpect (fitSweeps iters + 1) fun W => (s.fitStructured C m W d iters).1.onSamples fun xs =>
          ENNReal.ofReal (G fun j => xs.getD j 0)).toReal -
        ∫ v, G v ∂Measure.pi (fun _ : Fin 1000 => structuredPosterior m d)| ≤ 1000 * r ^ (iters.toNat / 2000) := by
  have := structuredPosterior_prob h d
  obtain ⟨nu, hf, h0, hnu⟩ := gibbs_minor h d
  have hp : 0 < nu.real Set.univ := lt_of_le_of_ne measureReal_nonneg (Ne.symm h0)
  obtain ⟨r, hr⟩ : ∃ r, r = 1 - nu.real Set.univ := ⟨_, rfl⟩
  have hr0 : 0 ≤ r := by rw [hr]; linarith [doeblin_le_one hnu]
  have hr1 : r < 1 := by rw [hr]; linarith
  refine ⟨r, hr0, hr1, fun s iters hi G hG hG1 => ?_⟩
  have hT := thinning_pos iters
  have hTi : iters.toNat / 1000 ≤ thinning iters ∧ thinning iters ≤ (iters / 2).toNat + 1 := by
    unfold thinning
    split <;> omega
  have hL : Measurable fun l : ℕ → (ι → ℝ) × (κ → ℝ) => fun j : Fin 1000 => l j := measurable_pi_iff.2 fun j => measurable_pi_apply _
  simp only [onSamples_fit C _ d hi]
  rw [normalExpect_stored C h d iters (G := fun l => ENNReal.ofReal (G fun j => l j)) (hG.comp hL).ennreal_ofReal
    fun l l' hl => by rw [show (fun j : Fin 1000 => l j) = fun j : Fin 1000 => l' j from funext fun j => hl j j.2]]
  beta_reduce
  obtain ⟨N, hN⟩ : ∃ N, N = fitSweeps iters := ⟨_, rfl⟩
  have hlt : ∀ j < 1000, (iters / 2).toNat + j * thinning iters < N := fun j hj => by
    have h2 : (j + 1) * thinning iters ≤ 1000 * thinning iters := Nat.mul_le_mul_right _ (by omega)
    rw [Nat.succ_mul] at h2
    rw [hN]
    unfold fitSweeps
    omega
  rw [← hN]
  have hLt : Measurable fun l : ℕ → (ι → ℝ) × (κ → ℝ) => G fun j : Fin 1000 => l ((iters / 2).toNat + j * thinning iters) :=
    hG.comp (measurable_pi_iff.2 fun j => measurable_pi_apply _)
  have hb : ∀ x, |∫ l, G (fun j : Fin 1000 => l ((iters / 2).toNat + j * thinning iters)) ∂traj (gibbsKernel h d) N x -
      ∫ v, G v ∂Measure.pi (fun _ : Fin 1000 => structuredPosterior m d)| ≤ 1000 * r ^ (iters.toNat / 2000) := fun x => by
    have := near_iid (Q := gibbsKernel h d) (p := structuredPosterior m d) hT (ρ := r ^ (iters.toNat / 2000)) (fun k hk g hg hg1 x => by
      have := (gibbs_erg h d).geometric hnu hg (fun x => (hg1 x).1) (fun x => (hg1 x).2) k x
      rw [sub_zero, one_mul, ← hr] at this
      exact this.trans (pow_le_pow_of_le_one hr0 hr1.le (by omega))) 1000 hG hG1 (iters / 2).toNat N hTi.2 hlt x
    exact_mod_cast this
  have hH : Measurable fun x => ∫ l, G (fun j : Fin 1000 => l ((iters / 2).toNat + j * thinning iters)) ∂traj (gibbsKernel h d) N x :=
    (hLt.stronglyMeasurable.integral_kernel (κ := traj (gibbsKernel h d) N)).measurable
  simp only [ofReal_integral_bounded _ hLt fun l => hG1 _]
  rw [← integral_eq_lintegral_of_nonneg_ae (Eventually.of_forall fun x => (integral_unit _ hLt fun l => hG1 _).1)
    hH.aestronglyMeasurable]
  obtain ⟨h1, h2⟩ := integral_mem (μ := startLaw C s.posts.qU s.posts.qZ) hH
    (a := (∫ v, G v ∂Measure.pi (fun _ : Fin 1000 => structuredPosterior m d)) - 1000 * r ^ (iters.toNat / 2000))
    (b := (∫ v, G v ∂Measure.pi (fun _ : Fin 1000 => structuredPosterior m d)) + 1000 * r ^ (iters.toNat / 2000))
    (fun x => by linarith [(abs_le.1 (hb x)).1]) fun x => by linarith [(abs_le.1 (hb x)).2]
  rw [abs_le]
  constructor <;> linarith

/-- **C200** There is a rate below one such that, for every fit of the structured scheme and whatever the session did before,
the expectation of every function of the thousand stored samples with values between zero and `B` is within
`1000 B r ^ ⌊iters / 2000⌋` of its expectation for a thousand independent draws from the structured posterior. -/
theorem c200_functions (h : m.Valid) (d : List (ℝ × ℝ)) : ∃ r : ℝ, 0 ≤ r ∧ r < 1 ∧
    ∀ (s : Session ι κ) (iters : ℤ), 2 ≤ iters → ∀ (G : (Fin 1000 → (ι → ℝ) × (κ → ℝ)) → ℝ) (B : ℝ), Measurable G →
      (∀ v, 0 ≤ G v ∧ G v ≤ B) →
      |(normalExpect (fitSweeps iters + 1) fun W => (s.fitStructured C m W d iters).1.onSamples fun xs =>
          ENNReal.ofReal (G fun j => xs.getD j 0)).toReal -
        ∫ v, G v ∂Measure.pi (fun _ : Fin 1000 => structuredPosterior m d)| ≤ 1000 * B * r ^ (iters.toNat / 2000) := by
  obtain ⟨r, h0, h1, hr⟩ := stored_unit C h d
  refine ⟨r, h0, h1, fun s iters hi G B hG hGB => ?_⟩
  have hB : 0 ≤ B := (hGB fun _ => 0).1.trans (hGB _).2
  rcases hB.eq_or_lt with rfl | hB
  · have e : G = fun _ => 0 := funext fun v => le_antisymm (hGB v).2 (hGB v).1
    have := hr s iters hi G hG fun v => ⟨(hGB v).1, (hGB v).2.trans zero_le_one⟩
    have h2 := hr s iters hi (fun _ => 0) measurable_const fun v => ⟨le_rfl, zero_le_one⟩
    rw [e]
    simp only [onSamples_fit C _ d hi, ENNReal.ofReal_zero, integral_zero, mul_zero, zero_mul, sub_zero]
    have e0 : normalExpect (ι := ι) (κ := κ) (fitSweeps iters + 1) (fun _ => (0 : ℝ≥0∞)) = 0 := by
      have := normalExpect_const_mul (ι := ι) (κ := κ) (fitSweeps iters + 1) (c := 0) zero_ne_top fun _ => 0
      simpa only [zero_mul] using this
    rw [e0]
    simp
  · have := hr s iters hi (fun v => B⁻¹ * G v) (hG.const_mul _) fun v => ⟨mul_nonneg (inv_nonneg.2 hB.le) (hGB v).1, by
      rw [inv_mul_eq_div, div_le_one hB]
      exact (hGB v).2⟩
    simp only [onSamples_fit C _ d hi, ENNReal.ofReal_mul (inv_nonneg.2 hB.le)] at this
    rw [normalExpect_const_mul _ ENNReal.ofReal_ne_top, ENNReal.toReal_mul, ENNReal.toReal_ofReal (inv_nonneg.2 hB.le),
      integral_const_mul, ← mul_sub, abs_mul, abs_of_pos (inv_pos.2 hB), inv_mul_le_iff₀ hB] at this
    simp only [onSamples_fit C _ d hi]
    refine this.trans (le_of_eq ?_)
    ring

/-- **C200** For events: the probability of any event about the thousand samples differs from that for independent draws by at
most `1000 r ^ ⌊iters / 2000⌋`. -/
theorem c200_events (h : m.Valid) (d : List (ℝ × ℝ)) : ∃ r : ℝ, 0 ≤ r ∧ r < 1 ∧
    ∀ (s : Session ι κ) (iters : ℤ), 2 ≤ iters → ∀ A : Set (Fin 1000 → (ι → ℝ) × (κ → ℝ)), MeasurableSet A →
      |(normalExpect (fitSweeps iters + 1) fun W => (s.fitStructured C m W d iters).1.onSamples fun xs =>
          A.indicator 1 fun j => xs.getD j 0).toReal -
        (Measure.pi fun _ : Fin 1000 => structuredPosterior m d).real A| ≤ 1000 * r ^ (iters.toNat / 2000) := by
  obtain ⟨r, h0, h1, hr⟩ := stored_unit C h d
  refine ⟨r, h0, h1, fun s iters hi A hA => ?_⟩
  have := hr s iters hi (A.indicator 1) (measurable_one.indicator hA) fun v =>
    ⟨Set.indicator_nonneg (fun _ _ => zero_le_one) v, Set.indicator_le_self' (fun _ _ => zero_le_one) v⟩
  have e : ∀ v, ENNReal.ofReal (A.indicator (1 : (Fin 1000 → (ι → ℝ) × (κ → ℝ)) → ℝ) v) = A.indicator 1 v := fun v => by
    by_cases hv : v ∈ A
    · rw [Set.indicator_of_mem hv, Set.indicator_of_mem hv, Pi.one_apply, Pi.one_apply, ENNReal.ofReal_one]
    · rw [Set.indicator_of_notMem hv, Set.indicator_of_notMem hv, ENNReal.ofReal_zero]
  simp only [e] at this
  rwa [integral_indicator_one hA] at this

/-- **C200** The average of a bounded function over the thousand stored samples has the mean squared error of a thousand
independent draws, up to a geometrically small term. -/
theorem c200_average (h : m.Valid) (d : List (ℝ × ℝ)) : ∃ r : ℝ, 0 ≤ r ∧ r < 1 ∧
    ∀ (s : Session ι κ) (iters : ℤ), 2 ≤ iters → ∀ (f : (ι → ℝ) × (κ → ℝ) → ℝ) (M : ℝ), Measurable f → (∀ x, |f x| ≤ M) →
      |(normalExpect (fitSweeps iters + 1) fun W => (s.fitStructured C m W d iters).1.onSamples fun xs =>
          ENNReal.ofReal (((xs.map f).sum / 1000 - ∫ x, f x ∂structuredPosterior m d) ^ 2)).toReal -
        Var[f; structuredPosterior m d] / 1000| ≤ 4000 * M ^ 2 * r ^ (iters.toNat / 2000) := by
  have := structuredPosterior_prob h d
  obtain ⟨r, h0, h1, hr⟩ := c200_functions C h d
  refine ⟨r, h0, h1, fun s iters hi f M hf hM => ?_⟩
  obtain ⟨c, hc⟩ : ∃ c, c = ∫ x, f x ∂structuredPosterior m d := ⟨_, rfl⟩
  have hcM : |c| ≤ M := by rw [hc]; exact abs_integral_le hM
  have hsm : Measurable fun v : Fin 1000 → (ι → ℝ) × (κ → ℝ) => ∑ i, f (v i) :=
    Finset.measurable_sum _ fun i _ => hf.comp (measurable_pi_apply i)
  have hs : ∀ v : Fin 1000 → (ι → ℝ) × (κ → ℝ), |(∑ i, f (v i)) / 1000| ≤ M := fun v => by
    rw [abs_div, abs_of_pos (by norm_num : (0 : ℝ) < 1000), div_le_iff₀ (by norm_num)]
    refine (Finset.abs_sum_le_sum_abs _ _).trans ((Finset.sum_le_sum fun i _ => hM (v i)).trans (le_of_eq ?_))
    rw [Finset.sum_const, Finset.card_univ, Fintype.card_fin, nsmul_eq_mul, mul_comm]
    norm_num
  have := hr s iters hi (fun v => ((∑ i, f (v i)) / 1000 - c) ^ 2) (4 * M ^ 2) (((hsm.div_const _).sub_const _).pow_const 2)
    fun v => ⟨sq_nonneg _, by
      have h2 := abs_sub ((∑ i, f (v i)) / 1000) c
      have h3 := hs v
      rw [← sq_abs]
      have h4 : |(∑ i, f (v i)) / 1000 - c| ≤ 2 * M := by linarith
      nlinarith [abs_nonneg ((∑ i, f (v i)) / 1000 - c)]⟩
  have e2 := iid_mse (p := structuredPosterior m d) hf hM (n := 1000) (by norm_num)
  rw [← hc] at e2 ⊢
  rw [show ((1000 : ℕ) : ℝ) = 1000 by norm_num] at e2
  rw [e2] at this
  simp only [onSamples_fit C _ d hi] at this ⊢
  have e3 : ∀ W : ℕ → (ι → ℝ) × (κ → ℝ), ((storedSamples C m W d iters s.posts.qU s.posts.qZ).map f).sum =
      ∑ i : Fin 1000, f ((storedSamples C m W d iters s.posts.qU s.posts.qZ).getD i 0) := fun W => by
    exact sum_map_getD f (storedSamples_length C m W d iters s.posts.qU s.posts.qZ)
  simp only [e3]
  refine this.trans (le_of_eq ?_)
  ring

/-- A concrete event: all the stored filters are positive. -/
example (D : Chols (Fin 1) (Fin 1)) : ∃ r : ℝ, 0 ≤ r ∧ r < 1 ∧ ∀ (s : Session (Fin 1) (Fin 1)) (iters : ℤ), 2 ≤ iters →
    |(normalExpect (fitSweeps iters + 1) fun W => (s.fitStructured D exInst W [(0, 1), (2, 3)] iters).1.onSamples fun xs =>
        {v : Fin 1000 → (Fin 1 → ℝ) × (Fin 1 → ℝ) | ∀ j, 0 < (v j).1 0}.indicator 1 fun j => xs.getD j 0).toReal -
      (Measure.pi fun _ : Fin 1000 => structuredPosterior exInst [(0, 1), (2, 3)]).real {v | ∀ j, 0 < (v j).1 0}| ≤
        1000 * r ^ (iters.toNat / 2000) := by
  obtain ⟨r, h0, h1, hr⟩ := c200_events D exInst_valid [(0, 1), (2, 3)]
  refine ⟨r, h0, h1, fun s iters hi => hr s iters hi _ ?_⟩
  rw [Set.ofPred_forall]
  exact MeasurableSet.iInter fun j => measurableSet_lt measurable_const
    ((measurable_pi_apply 0).comp (measurable_fst.comp (measurable_pi_apply j)))

end Gpcm
