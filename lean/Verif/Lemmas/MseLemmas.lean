import Verif.Lemmas.MarkovPaths

/-!
# The mean squared error of averages over asymptotically independent draws

`P i` are probability measures under which `X i j` become independent draws from `p`.
-/

set_option linter.unusedSectionVars false

open MeasureTheory ProbabilityTheory ENNReal Filter Topology

namespace Gpcm.Markov

variable {S : Type} [MeasurableSpace S] {p : Measure S} [IsProbabilityMeasure p]
variable {I Ω : Type} [MeasurableSpace Ω] {F : Filter I} [F.NeBot] {P : I → Measure Ω} [∀ i, IsProbabilityMeasure (P i)]
  {X : I → ℕ → Ω → S}

theorem integrable_comp_le {i : I} {Y : Ω → ℝ} (hY : Measurable Y) {M : ℝ} (hM : ∀ w, |Y w| ≤ M) : Integrable Y (P i) :=
  Integrable.of_bound hY.aestronglyMeasurable M (Eventually.of_forall hM)

/-- Two draws are in the limit distributed as independent draws from `p`. -/
def PairLimit (p : Measure S) (F : Filter I) (P : I → Measure Ω) (X : I → ℕ → Ω → S) (j k : ℕ) : Prop :=
  ∀ f f' : S → ℝ≥0∞, Measurable f → Measurable f' → ∀ M : ℝ≥0∞, M ≠ ∞ → (∀ x, f x ≤ M) → (∀ x, f' x ≤ M) →
    Tendsto (fun i => ∫⁻ w, f (X i j w) * f' (X i k w) ∂P i) F (𝓝 ((∫⁻ x, f x ∂p) * ∫⁻ x, f' x ∂p))

/-- A draw is in the limit distributed according to `p`. -/
def OneLimit (p : Measure S) (F : Filter I) (P : I → Measure Ω) (X : I → ℕ → Ω → S) (j : ℕ) : Prop :=
  ∀ f : S → ℝ≥0∞, Measurable f → ∀ M : ℝ≥0∞, M ≠ ∞ → (∀ x, f x ≤ M) →
    Tendsto (fun i => ∫⁻ w, f (X i j w) ∂P i) F (𝓝 (∫⁻ x, f x ∂p))

theorem integral_shift (μ : Measure Ω) [IsProbabilityMeasure μ] {Y : Ω → ℝ} (hY : Measurable Y) {M : ℝ}
    (hM : ∀ w, |Y w| ≤ M) : ∫ w, Y w ∂μ = (∫⁻ w, ENNReal.ofReal (Y w + M) ∂μ).toReal - M := by
  have hi : Integrable Y μ := Integrable.of_bound hY.aestronglyMeasurable M (Eventually.of_forall hM)
  rw [← integral_eq_lintegral_of_nonneg_ae (Eventually.of_forall fun y => ?_) (hY.add_const _).aestronglyMeasurable,
    integral_add hi (integrable_const _)]
  · simp
  · show 0 ≤ Y y + M
    have := abs_le.1 (hM y)
    linarith

theorem OneLimit.real {j : ℕ} (hX : ∀ i j, Measurable (X i j)) (h : OneLimit p F P X j) {g : S → ℝ} (hg : Measurable g)
    {M : ℝ} (hM : ∀ x, |g x| ≤ M) : Tendsto (fun i => ∫ w, g (X i j w) ∂P i) F (𝓝 (∫ x, g x ∂p)) := by
  have hle : ∀ x, ENNReal.ofReal (g x + M) ≤ ENNReal.ofReal (2 * M) := fun x => by
    refine ENNReal.ofReal_le_ofReal ?_
    have := abs_le.1 (hM x)
    linarith
  have e : ∀ i, ∫ w, g (X i j w) ∂P i = (∫⁻ w, ENNReal.ofReal (g (X i j w) + M) ∂P i).toReal - M := fun i =>
    integral_shift (P i) (hg.comp (hX i j)) fun w => hM _
  simp only [e]
  rw [integral_shift p hg hM]
  refine Tendsto.sub_const ((ENNReal.tendsto_toReal ?_).comp (h _ (hg.add_const M).ennreal_ofReal _
    (ENNReal.ofReal_ne_top (r := 2 * M)) hle)) _
  exact ne_top_of_le_ne_top ENNReal.ofReal_ne_top (lintegral_le_of_le hle)

theorem PairLimit.real {j k : ℕ} (hX : ∀ i j, Measurable (X i j)) (h : PairLimit p F P X j k) (h1 : OneLimit p F P X j)
    (h2 : OneLimit p F P X k) {g : S → ℝ} (hg : Measurable g) {M : ℝ} (hM : ∀ x, |g x| ≤ M) :
    Tendsto (fun i => ∫ w, g (X i j w) * g (X i k w) ∂P i) F (𝓝 ((∫ x, g x ∂p) ^ 2)) := by
  have hM' : ∀ x, 0 ≤ g x + M ∧ g x + M ≤ 2 * M := fun x => by
    have := abs_le.1 (hM x)
    constructor <;> linarith
  have hle : ∀ x, ENNReal.ofReal (g x + M) ≤ ENNReal.ofReal (2 * M) := fun x => ENNReal.ofReal_le_ofReal (hM' x).2
  have hm : ∀ i j, Measurable fun w => g (X i j w) := fun i j => hg.comp (hX i j)
  have hi : ∀ i j, Integrable (fun w => g (X i j w)) (P i) := fun i j => integrable_comp_le (hm i j) fun w => hM _
  have e : ∀ i, ∫ w, g (X i j w) * g (X i k w) ∂P i =
      (∫⁻ w, ENNReal.ofReal (g (X i j w) + M) * ENNReal.ofReal (g (X i k w) + M) ∂P i).toReal -
        M * ∫ w, g (X i j w) ∂P i - M * ∫ w, g (X i k w) ∂P i - M ^ 2 := fun i => by
    have e1 : ∀ w, ENNReal.ofReal (g (X i j w) + M) * ENNReal.ofReal (g (X i k w) + M) =
        ENNReal.ofReal ((g (X i j w) + M) * (g (X i k w) + M)) := fun w => by
      rw [ENNReal.ofReal_mul (hM' _).1]
    have hij : Integrable (fun w => g (X i j w) * g (X i k w)) (P i) :=
      integrable_comp_le ((hm i j).mul (hm i k)) (M := M * M) fun w => by
        rw [abs_mul]
        exact mul_le_mul (hM _) (hM _) (abs_nonneg _) ((abs_nonneg _).trans (hM (X i j w)))
    have e2 : (fun w => (g (X i j w) + M) * (g (X i k w) + M)) = fun w =>
        g (X i j w) * g (X i k w) + (M * g (X i j w) + M * g (X i k w) + M ^ 2) := by
      funext w
      ring
    have hp : Integrable (fun w => (g (X i j w) + M) * (g (X i k w) + M)) (P i) := by
      rw [e2]
      exact hij.add ((((hi i j).const_mul M).add ((hi i k).const_mul M)).add (integrable_const _))
    simp only [e1]
    rw [← integral_eq_lintegral_of_nonneg_ae (Eventually.of_forall fun w => mul_nonneg (hM' _).1 (hM' _).1)
      hp.aestronglyMeasurable]
    rw [e2, integral_add hij, integral_add, integral_add, integral_const_mul, integral_const_mul]
    · simp
      ring
    · exact (hi i j).const_mul M
    · exact (hi i k).const_mul M
    · exact ((hi i j).const_mul M).add ((hi i k).const_mul M)
    · exact integrable_const _
    · exact (((hi i j).const_mul M).add ((hi i k).const_mul M)).add (integrable_const _)
  simp only [e]
  have hc := integral_shift p hg hM
  have hfin : ∫⁻ x, ENNReal.ofReal (g x + M) ∂p ≠ ∞ :=
    ne_top_of_le_ne_top ENNReal.ofReal_ne_top (lintegral_le_of_le hle)
  have hlim := (ENNReal.tendsto_toReal (ENNReal.mul_ne_top hfin hfin)).comp
    (h _ _ (hg.add_const M).ennreal_ofReal (hg.add_const M).ennreal_ofReal _ (ENNReal.ofReal_ne_top (r := 2 * M)) hle hle)
  rw [ENNReal.toReal_mul] at hlim
  have := ((hlim.sub ((h1.real hX hg hM).const_mul M)).sub ((h2.real hX hg hM).const_mul M)).sub_const (M ^ 2)
  have e4 : (∫ x, g x ∂p) ^ 2 = (∫⁻ x, ENNReal.ofReal (g x + M) ∂p).toReal * (∫⁻ x, ENNReal.ofReal (g x + M) ∂p).toReal -
      M * ∫ x, g x ∂p - M * ∫ x, g x ∂p - M ^ 2 := by
    rw [hc]
    ring
  rw [e4]
  exact this

/-! ## Truncation -/

/-- A number restricted to the interval from `-M` to `M`. -/
noncomputable def clamp (M x : ℝ) : ℝ := max (-M) (min M x)

theorem clamp_measurable (M : ℝ) : Measurable (clamp M) := measurable_const.max (measurable_const.min measurable_id)

theorem abs_clamp_le {M : ℝ} (hM : 0 ≤ M) (x : ℝ) : |clamp M x| ≤ M := by
  unfold clamp
  refine abs_le.2 ⟨le_max_left _ _, max_le (by linarith) (min_le_left _ _)⟩

theorem clamp_eq {M x : ℝ} (hx : |x| ≤ M) : clamp M x = x := by
  obtain ⟨h1, h2⟩ := abs_le.1 hx
  unfold clamp
  rw [min_eq_right h2, max_eq_right h1]

theorem abs_clamp_le_abs {M : ℝ} (hM : 0 ≤ M) (x : ℝ) : |clamp M x| ≤ |x| := by
  by_cases h : |x| ≤ M
  · rw [clamp_eq h]
  · exact (abs_clamp_le hM x).trans (le_of_not_ge h)

/-- Products of truncated numbers. -/
theorem clamp_mul_sub {M : ℝ} (hM : 0 < M) (x y : ℝ) :
    |x * y - clamp M x * clamp M y| ≤ 2 / M ^ 2 * (x ^ 4 + y ^ 4) := by
  by_cases h : |x| ≤ M ∧ |y| ≤ M
  · rw [clamp_eq h.1, clamp_eq h.2, sub_self, abs_zero]
    positivity
  · have h1 : M ^ 2 ≤ x ^ 2 + y ^ 2 := by
      rw [not_and_or, not_le, not_le] at h
      rcases h with h | h
      · have := pow_le_pow_left₀ hM.le h.le 2
        rw [sq_abs] at this
        nlinarith [sq_nonneg y]
      · have := pow_le_pow_left₀ hM.le h.le 2
        rw [sq_abs] at this
        nlinarith [sq_nonneg x]
    have h2 : |x * y - clamp M x * clamp M y| ≤ x ^ 2 + y ^ 2 := by
      have h3 : |clamp M x * clamp M y| ≤ |x * y| := by
        rw [abs_mul, abs_mul]
        exact mul_le_mul (abs_clamp_le_abs hM.le x) (abs_clamp_le_abs hM.le y) (abs_nonneg _) (abs_nonneg _)
      have h4 : |x * y| ≤ (x ^ 2 + y ^ 2) / 2 := by
        rw [abs_le]
        constructor <;> nlinarith [sq_nonneg (x + y), sq_nonneg (x - y)]
      have := abs_sub (x * y) (clamp M x * clamp M y)
      linarith
    refine h2.trans ?_
    rw [div_mul_eq_mul_div, le_div_iff₀ (by positivity)]
    calc (x ^ 2 + y ^ 2) * M ^ 2 ≤ (x ^ 2 + y ^ 2) * (x ^ 2 + y ^ 2) := by gcongr
      _ ≤ 2 * (x ^ 4 + y ^ 4) := by nlinarith [sq_nonneg (x ^ 2 - y ^ 2)]

theorem clamp_tendsto (x : ℝ) : Tendsto (fun n : ℕ => clamp n x) atTop (𝓝 x) := by
  obtain ⟨N, hN⟩ := exists_nat_ge |x|
  refine tendsto_const_nhds.congr' (eventually_atTop.2 ⟨N, fun n hn => ?_⟩)
  exact (clamp_eq (hN.trans (by exact_mod_cast hn))).symm

theorem swap_limits {a : I → ℝ} {aM : ℕ → I → ℝ} {L : ℝ} {LM d : ℕ → ℝ} (h1 : ∀ n, Tendsto (aM n) F (𝓝 (LM n)))
    (h2 : ∀ n, ∀ᶠ i in F, |a i - aM n i| ≤ d n) (h3 : Tendsto LM atTop (𝓝 L)) (h4 : Tendsto d atTop (𝓝 0)) :
    Tendsto a F (𝓝 L) := by
  refine Metric.tendsto_nhds.2 fun e he => ?_
  have e3 := Metric.tendsto_nhds.1 h3 (e / 3) (by linarith)
  have e4 := Metric.tendsto_nhds.1 h4 (e / 3) (by linarith)
  obtain ⟨n, hn3, hn4⟩ := (e3.and e4).exists
  filter_upwards [Metric.tendsto_nhds.1 (h1 n) (e / 3) (by linarith), h2 n] with i hi1 hi2
  rw [Real.dist_eq] at *
  rw [sub_zero] at hn4
  have := le_abs_self (d n)
  calc |a i - L| = |(a i - aM n i) + (aM n i - LM n) + (LM n - L)| := by congr 1; ring
    _ ≤ |a i - aM n i| + |aM n i - LM n| + |LM n - L| := abs_add_three _ _ _
    _ < e := by linarith

/-- The fourth moments of draws are bounded. -/
def MomentBound (F : Filter I) (P : I → Measure Ω) (X : I → ℕ → Ω → S) (g : S → ℝ) (B : ℝ) (j : ℕ) : Prop :=
  ∀ᶠ i in F, ∫⁻ w, ENNReal.ofReal (g (X i j w) ^ 4) ∂P i ≤ ENNReal.ofReal B

theorem four_integrable {A : Type} [MeasurableSpace A] {μ : Measure A} [IsProbabilityMeasure μ] {Y : A → ℝ}
    (hY : Measurable Y) {B : ℝ} (h : ∫⁻ w, ENNReal.ofReal (Y w ^ 4) ∂μ ≤ ENNReal.ofReal B) :
    Integrable (fun w => Y w ^ 4) μ ∧ ∫ w, Y w ^ 4 ∂μ ≤ max B 0 ∧ Integrable (fun w => Y w ^ 2) μ ∧ Integrable Y μ := by
  have h4 : Integrable (fun w => Y w ^ 4) μ := by
    refine ⟨(hY.pow_const 4).aestronglyMeasurable, ?_⟩
    rw [hasFiniteIntegral_iff_ofReal (Eventually.of_forall fun w => by positivity)]
    exact h.trans_lt ENNReal.ofReal_lt_top
  refine ⟨h4, ?_, ?_, ?_⟩
  · rw [integral_eq_lintegral_of_nonneg_ae (Eventually.of_forall fun w => by positivity) h4.aestronglyMeasurable]
    refine (ENNReal.toReal_mono ENNReal.ofReal_ne_top h).trans ?_
    rw [ENNReal.toReal_ofReal']
  · refine (h4.add (integrable_const 1)).mono (hY.pow_const 2).aestronglyMeasurable (Eventually.of_forall fun w => ?_)
    rw [Real.norm_eq_abs, Real.norm_eq_abs, abs_of_nonneg (sq_nonneg _)]
    refine le_trans ?_ (le_abs_self _)
    simp only [Pi.add_apply]
    nlinarith [sq_nonneg (Y w ^ 2 - 1)]
  · refine (h4.add (integrable_const 1)).mono hY.aestronglyMeasurable (Eventually.of_forall fun w => ?_)
    rw [Real.norm_eq_abs, Real.norm_eq_abs]
    refine le_trans ?_ (le_abs_self _)
    simp only [Pi.add_apply]
    rw [abs_le]
    constructor <;> nlinarith [sq_nonneg (Y w ^ 2 - 1), sq_nonneg (Y w - 1), sq_nonneg (Y w + 1)]

theorem moment_limit {j : ℕ} (h : OneLimit p F P X j) {g : S → ℝ} (hg : Measurable g)
    {B : ℝ} (hB : MomentBound F P X g B j) : ∫⁻ x, ENNReal.ofReal (g x ^ 4) ∂p ≤ ENNReal.ofReal B := by
  have h1 : ∀ n : ℕ, ∫⁻ x, ENNReal.ofReal (clamp n (g x) ^ 4) ∂p ≤ ENNReal.ofReal B := fun n => by
    have hm : Measurable fun x => ENNReal.ofReal (clamp n (g x) ^ 4) :=
      (((clamp_measurable n).comp hg).pow_const 4).ennreal_ofReal
    refine le_of_tendsto (h _ hm (ENNReal.ofReal ((n : ℝ) ^ 4)) ENNReal.ofReal_ne_top fun x => ?_)
      (hB.mono fun i hi => le_trans (lintegral_mono fun w => ?_) hi)
    · refine ENNReal.ofReal_le_ofReal ?_
      have := pow_le_pow_left₀ (abs_nonneg _) (abs_clamp_le n.cast_nonneg (g x)) 4
      rwa [Even.pow_abs (by decide)] at this
    · refine ENNReal.ofReal_le_ofReal ?_
      have := pow_le_pow_left₀ (abs_nonneg _) (abs_clamp_le_abs n.cast_nonneg (g (X i j w))) 4
      rwa [Even.pow_abs (by decide), Even.pow_abs (by decide)] at this
  have h2 : ∀ x, ENNReal.ofReal (g x ^ 4) = liminf (fun n : ℕ => ENNReal.ofReal (clamp n (g x) ^ 4)) atTop := fun x => by
    refine (Tendsto.liminf_eq ?_).symm
    exact (ENNReal.continuous_ofReal.tendsto _).comp ((clamp_tendsto (g x)).pow 4)
  simp only [h2]
  refine (lintegral_liminf_le (u := (atTop : Filter ℕ)) fun n => (((clamp_measurable n).comp hg).pow_const 4).ennreal_ofReal).trans ?_
  exact liminf_le_of_frequently_le' (Eventually.of_forall h1).frequently

/-- Limits of expectations of products of unbounded functions. -/
theorem mul_limit {j k : ℕ} (hX : ∀ i j, Measurable (X i j)) (h1 : OneLimit p F P X j)
    (hjk : j = k ∨ PairLimit p F P X j k ∧ OneLimit p F P X k) {g : S → ℝ} (hg : Measurable g) {B : ℝ}
    (hBj : MomentBound F P X g B j) (hBk : MomentBound F P X g B k) :
    Tendsto (fun i => ∫ w, g (X i j w) * g (X i k w) ∂P i) F
      (𝓝 (if j = k then ∫ x, g x ^ 2 ∂p else (∫ x, g x ∂p) ^ 2)) := by
  obtain ⟨p4, -, p2, p1⟩ := four_integrable hg (moment_limit h1 hg hBj)
  have hcm : ∀ n : ℕ, Measurable fun x => clamp n (g x) := fun n => (clamp_measurable n).comp hg
  have hcb : ∀ (n : ℕ) x, |clamp n (g x)| ≤ n := fun n x => abs_clamp_le n.cast_nonneg _
  refine swap_limits (aM := fun n i => ∫ w, clamp (n + 1 : ℕ) (g (X i j w)) * clamp (n + 1 : ℕ) (g (X i k w)) ∂P i)
    (LM := fun n => if j = k then ∫ x, clamp (n + 1 : ℕ) (g x) ^ 2 ∂p else (∫ x, clamp (n + 1 : ℕ) (g x) ∂p) ^ 2)
    (d := fun n => 2 / ((n + 1 : ℕ) : ℝ) ^ 2 * (2 * max B 0)) (fun n => ?_) (fun n => ?_) ?_ ?_
  · by_cases e : j = k
    · subst e
      simp only [if_true]
      have := h1.real hX (g := fun x => clamp (n + 1 : ℕ) (g x) ^ 2) ((hcm _).pow_const 2) (M := ((n + 1 : ℕ) : ℝ) ^ 2)
        fun x => by
          rw [abs_pow]
          exact pow_le_pow_left₀ (abs_nonneg _) (hcb _ x) 2
      simpa only [sq] using this
    · simp only [if_neg e]
      obtain ⟨h2, h3⟩ := hjk.resolve_left e
      exact h2.real hX h1 h3 (hcm _) (hcb _)
  · filter_upwards [hBj, hBk] with i hj hk
    obtain ⟨a4, aB, a2, a1⟩ := four_integrable (hg.comp (hX i j)) hj
    obtain ⟨b4, bB, b2, b1⟩ := four_integrable (hg.comp (hX i k)) hk
    simp only [Function.comp] at a4 aB a2 b4 bB b2
    have hm : ∀ j, Measurable fun w => g (X i j w) := fun j => hg.comp (hX i j)
    have hI : Integrable (fun w => g (X i j w) * g (X i k w)) (P i) := by
      refine (a2.add b2).mono ((hm j).mul (hm k)).aestronglyMeasurable (Eventually.of_forall fun w => ?_)
      rw [Real.norm_eq_abs, Real.norm_eq_abs]
      refine le_trans ?_ (le_abs_self _)
      simp only [Pi.add_apply]
      rw [abs_le]
      constructor <;> nlinarith [sq_nonneg (g (X i j w) + g (X i k w)), sq_nonneg (g (X i j w) - g (X i k w)),
        sq_nonneg (g (X i j w)), sq_nonneg (g (X i k w))]
    have hJ : Integrable (fun w => clamp (n + 1 : ℕ) (g (X i j w)) * clamp (n + 1 : ℕ) (g (X i k w))) (P i) :=
      integrable_comp_le (((hcm _).comp (hX i j)).mul ((hcm _).comp (hX i k))) (M := ((n + 1 : ℕ) : ℝ) * (n + 1 : ℕ))
        fun w => by
          rw [abs_mul]
          exact mul_le_mul (hcb _ _) (hcb _ _) (abs_nonneg _) (Nat.cast_nonneg _)
    rw [← integral_sub hI hJ]
    refine (abs_integral_le_integral_abs).trans ?_
    calc ∫ w, |g (X i j w) * g (X i k w) - clamp (n + 1 : ℕ) (g (X i j w)) * clamp (n + 1 : ℕ) (g (X i k w))| ∂P i
        ≤ ∫ w, 2 / ((n + 1 : ℕ) : ℝ) ^ 2 * (g (X i j w) ^ 4 + g (X i k w) ^ 4) ∂P i :=
          integral_mono (hI.sub hJ).abs ((a4.add b4).const_mul _) fun w => clamp_mul_sub (by positivity) _ _
      _ = 2 / ((n + 1 : ℕ) : ℝ) ^ 2 * (∫ w, g (X i j w) ^ 4 ∂P i + ∫ w, g (X i k w) ^ 4 ∂P i) := by
          rw [integral_const_mul, integral_add a4 b4]
      _ ≤ _ := by
          refine mul_le_mul_of_nonneg_left ?_ (by positivity)
          linarith
  · have e1 : Tendsto (fun n : ℕ => ∫ x, clamp (n + 1 : ℕ) (g x) ^ 2 ∂p) atTop (𝓝 (∫ x, g x ^ 2 ∂p)) :=
      tendsto_integral_of_dominated_convergence (fun x => g x ^ 2) (fun n => ((hcm _).pow_const 2).aestronglyMeasurable)
        p2 (fun n => Eventually.of_forall fun x => by
          rw [Real.norm_eq_abs, abs_pow, ← sq_abs (g x)]
          exact pow_le_pow_left₀ (abs_nonneg _) (abs_clamp_le_abs (Nat.cast_nonneg _) _) 2)
        (Eventually.of_forall fun x => ((tendsto_add_atTop_iff_nat 1).2 (clamp_tendsto (g x))).pow 2)
    have e2 : Tendsto (fun n : ℕ => ∫ x, clamp (n + 1 : ℕ) (g x) ∂p) atTop (𝓝 (∫ x, g x ∂p)) :=
      tendsto_integral_of_dominated_convergence (fun x => |g x|) (fun n => (hcm _).aestronglyMeasurable)
        p1.abs (fun n => Eventually.of_forall fun x => abs_clamp_le_abs (Nat.cast_nonneg _) _)
        (Eventually.of_forall fun x => (tendsto_add_atTop_iff_nat 1).2 (clamp_tendsto (g x)))
    by_cases e : j = k
    · simpa only [if_pos e] using e1
    · simpa only [if_neg e] using e2.pow 2
  · have e1 : Tendsto (fun n : ℕ => ((n + 1 : ℕ) : ℝ)⁻¹) atTop (𝓝 0) :=
      (tendsto_add_atTop_iff_nat 1).2 (tendsto_inv_atTop_nhds_zero_nat (𝕜 := ℝ))
    have e2 := (e1.pow 2).const_mul (2 * (2 * max B 0))
    simp only [ne_eq, OfNat.ofNat_ne_zero, not_false_eq_true, zero_pow, mul_zero] at e2
    refine e2.congr fun n => ?_
    rw [inv_pow]
    ring

/-- The mean squared error of an average over `r` draws. -/
theorem mse_limit {r : ℕ} (hr : 0 < r) (hX : ∀ i j, Measurable (X i j)) (h1 : ∀ j < r, OneLimit p F P X j)
    (h2 : ∀ j < r, ∀ k < r, j ≠ k → PairLimit p F P X j k) {f : S → ℝ} (hf : Measurable f) {B : ℝ}
    (hB : ∀ j < r, MomentBound F P X f B j) :
    Tendsto (fun i => ∫⁻ w, ENNReal.ofReal (((r : ℝ)⁻¹ * ∑ j ∈ Finset.range r, f (X i j w) - ∫ x, f x ∂p) ^ 2) ∂P i) F
      (𝓝 (ENNReal.ofReal ((∫ x, (f x - ∫ x, f x ∂p) ^ 2 ∂p) / r))) := by
  obtain ⟨mu, hmu⟩ : ∃ mu, mu = ∫ x, f x ∂p := ⟨_, rfl⟩
  rw [← hmu]
  obtain ⟨g, hg⟩ : ∃ g : S → ℝ, g = fun x => f x - mu := ⟨_, rfl⟩
  have hgm : Measurable g := by rw [hg]; exact hf.sub_const _
  have hgB : ∀ j < r, MomentBound F P X g (8 * max B 0 + 8 * mu ^ 4) j := fun j hj => (hB j hj).mono fun i hi => by
    obtain ⟨a4, aB, -, -⟩ := four_integrable (hf.comp (hX i j)) hi
    simp only [Function.comp] at a4 aB
    have h3 : ∀ w, g (X i j w) ^ 4 ≤ 8 * f (X i j w) ^ 4 + 8 * mu ^ 4 := fun w => by
      rw [hg]
      have e1 : (f (X i j w) - mu) ^ 2 ≤ 2 * f (X i j w) ^ 2 + 2 * mu ^ 2 := by nlinarith [sq_nonneg (f (X i j w) + mu)]
      have e2 : ((f (X i j w) - mu) ^ 2) ^ 2 ≤ (2 * f (X i j w) ^ 2 + 2 * mu ^ 2) ^ 2 :=
        pow_le_pow_left₀ (sq_nonneg _) e1 2
      simp only
      nlinarith [sq_nonneg (f (X i j w) ^ 2 - mu ^ 2)]
    calc ∫⁻ w, ENNReal.ofReal (g (X i j w) ^ 4) ∂P i ≤ ∫⁻ w, ENNReal.ofReal (8 * f (X i j w) ^ 4 + 8 * mu ^ 4) ∂P i :=
          lintegral_mono fun w => ENNReal.ofReal_le_ofReal (h3 w)
      _ = ENNReal.ofReal (∫ w, (8 * f (X i j w) ^ 4 + 8 * mu ^ 4) ∂P i) := by
          exact (ofReal_integral_eq_lintegral_ofReal ((a4.const_mul 8).add (integrable_const (8 * mu ^ 4)))
            (Eventually.of_forall fun w => by simp only [Pi.zero_apply, Pi.add_apply]; positivity)).symm
      _ ≤ _ := by
          refine ENNReal.ofReal_le_ofReal ?_
          rw [integral_add (a4.const_mul 8) (integrable_const _), integral_const_mul, integral_const]
          simp only [probReal_univ, smul_eq_mul, one_mul]
          linarith
  have hr0 : (0 : ℝ) < r := by exact_mod_cast hr
  have hfp := (four_integrable hf (moment_limit (h1 0 hr) hf (hB 0 hr))).2.2.2
  have hg0 : ∫ x, g x ∂p = 0 := by
    rw [hg, integral_sub hfp (integrable_const _), ← hmu]
    simp
  have hlim : Tendsto (fun i => (r : ℝ)⁻¹ ^ 2 * ∑ j ∈ Finset.range r, ∑ k ∈ Finset.range r,
      ∫ w, g (X i j w) * g (X i k w) ∂P i) F (𝓝 ((∫ x, g x ^ 2 ∂p) / r)) := by
    have e : (∫ x, g x ^ 2 ∂p) / r = (r : ℝ)⁻¹ ^ 2 * ∑ j ∈ Finset.range r, ∑ k ∈ Finset.range r,
        (if j = k then ∫ x, g x ^ 2 ∂p else (∫ x, g x ∂p) ^ 2) := by
      rw [hg0]
      simp only [ne_eq, OfNat.ofNat_ne_zero, not_false_eq_true, zero_pow, Finset.sum_ite_eq]
      rw [Finset.sum_congr rfl fun j hj => if_pos hj]
      simp
      field_simp
    rw [e]
    refine (tendsto_finsetSum _ fun j hj => tendsto_finsetSum _ fun k hk => ?_).const_mul _
    have hj := Finset.mem_range.1 hj
    have hk := Finset.mem_range.1 hk
    refine mul_limit hX (h1 j hj) ?_ hgm (hgB j hj) (hgB k hk)
    by_cases e : j = k
    · exact Or.inl e
    · exact Or.inr ⟨h2 j hj k hk e, h1 k hk⟩
  have hgg : ∀ x, (f x - mu) ^ 2 = g x ^ 2 := fun x => by rw [hg]
  simp only [hgg]
  have hev : ∀ᶠ i in F, ∀ j ∈ Finset.range r,
      ∫⁻ w, ENNReal.ofReal (g (X i j w) ^ 4) ∂P i ≤ ENNReal.ofReal (8 * max B 0 + 8 * mu ^ 4) := by
    rw [Filter.eventually_all_finset]
    exact fun j hj => hgB j (Finset.mem_range.1 hj)
  refine ((ENNReal.continuous_ofReal.tendsto _).comp hlim).congr' (hev.mono fun i hi => ?_)
  have hI : ∀ j ∈ Finset.range r, ∀ k ∈ Finset.range r, Integrable (fun w => g (X i j w) * g (X i k w)) (P i) :=
    fun j hj k hk => by
      obtain ⟨-, -, a2, -⟩ := four_integrable (hgm.comp (hX i j)) (hi j hj)
      obtain ⟨-, -, b2, -⟩ := four_integrable (hgm.comp (hX i k)) (hi k hk)
      simp only [Function.comp] at a2 b2
      refine (a2.add b2).mono ((hgm.comp (hX i j)).mul (hgm.comp (hX i k))).aestronglyMeasurable
        (Eventually.of_forall fun w => ?_)
      rw [Real.norm_eq_abs, Real.norm_eq_abs]
      refine le_trans ?_ (le_abs_self _)
      simp only [Pi.add_apply]
      rw [abs_le]
      constructor <;> nlinarith [sq_nonneg (g (X i j w) + g (X i k w)), sq_nonneg (g (X i j w) - g (X i k w)),
        sq_nonneg (g (X i j w)), sq_nonneg (g (X i k w))]
  have e1 : ∀ w, ((r : ℝ)⁻¹ * ∑ j ∈ Finset.range r, f (X i j w) - mu) ^ 2 =
      (r : ℝ)⁻¹ ^ 2 * ∑ j ∈ Finset.range r, ∑ k ∈ Finset.range r, g (X i j w) * g (X i k w) := fun w => by
    have : (r : ℝ)⁻¹ * ∑ j ∈ Finset.range r, f (X i j w) - mu = (r : ℝ)⁻¹ * ∑ j ∈ Finset.range r, g (X i j w) := by
      rw [hg, Finset.sum_sub_distrib]
      simp
      field_simp
    rw [this, mul_pow, sq (∑ j ∈ Finset.range r, g (X i j w)), Finset.sum_mul_sum]
  have hJ : Integrable (fun w => ∑ j ∈ Finset.range r, ∑ k ∈ Finset.range r, g (X i j w) * g (X i k w)) (P i) :=
    integrable_finsetSum _ fun j hj => integrable_finsetSum _ fun k hk => hI j hj k hk
  simp only [Function.comp]
  rw [← ofReal_integral_eq_lintegral_ofReal]
  · congr 1
    simp only [e1]
    rw [integral_const_mul, integral_finsetSum _ fun j hj => integrable_finsetSum _ fun k hk => hI j hj k hk]
    congr 1
    exact (Finset.sum_congr rfl fun j hj => integral_finsetSum _ fun k hk => hI j hj k hk).symm
  · simp only [e1]
    exact hJ.const_mul _
  · exact Eventually.of_forall fun w => sq_nonneg _

end Gpcm.Markov
