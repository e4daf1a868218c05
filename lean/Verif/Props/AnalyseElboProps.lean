import Verif.Model.AnalyseElbos
import Verif.Props.CalibrationProps

/-! # Property C209: the likelihoods printed beside the bounds are benchmarks -/

set_option linter.unusedSectionVars false

open Matrix Real MeasureTheory ENNReal

namespace Gpcm.Elbos

/-! ## The distribution of the data -/

/-- The distribution of the observations under a Gaussian process with covariance matrix `K`. -/
noncomputable def Spec.gpLaw {n : ℕ} (K : Matrix (Fin n) (Fin n) ℝ) : Measure (Fin n → ℝ) :=
  volume.withDensity fun y => ENNReal.ofReal (exp (gpLogpdf K y))

variable {n : ℕ} {K : Matrix (Fin n) (Fin n) ℝ}

theorem density_factor (hK : K.PosDef) {L : Matrix (Fin n) (Fin n) ℝ} (hL : L * Lᵀ = K) (z : Fin n → ℝ) :
    L.det ≠ 0 ∧ |L.det| * exp (gpLogpdf K (L *ᵥ z)) = stdPdf z := by
  have hd : K.det = L.det ^ 2 := by rw [← hL, det_mul, det_transpose, sq]
  have hd0 : L.det ≠ 0 := fun h => by
    have := hK.det_pos
    rw [hd, h] at this
    norm_num at this
  refine ⟨hd0, ?_⟩
  have hu : IsUnit L.det := hd0.isUnit
  have hq : (L *ᵥ z) ⬝ᵥ (K⁻¹ *ᵥ (L *ᵥ z)) = z ⬝ᵥ z := by
    rw [← hL, Matrix.mul_inv_rev, mulVec_mulVec, Matrix.mul_assoc, nonsing_inv_mul L hu, Matrix.mul_one, dotProduct_comm, dotProduct_mulVec,
      ← mulVec_transpose, mulVec_mulVec, mul_nonsing_inv Lᵀ (by rwa [det_transpose]), one_mulVec]
  have hl : log K.det = 2 * log |L.det| := by
    rw [hd, log_pow, log_abs]
    norm_num
  rw [gpLogpdf, hq, hl, stdPdf_eq, Fintype.card_fin, ← exp_add]
  have hp : 0 < |L.det| := abs_pos.2 hd0
  rw [show |L.det| = exp (log |L.det|) from (exp_log hp).symm, ← exp_add, exp_log hp]
  congr 1
  ring

theorem continuous_gpLogpdf (K : Matrix (Fin n) (Fin n) ℝ) : Continuous (gpLogpdf K) := by
  unfold gpLogpdf
  have : Continuous fun y : Fin n → ℝ => y ⬝ᵥ (K⁻¹ *ᵥ y) := by fun_prop
  fun_prop

/-- **C209** The data that the scripts draw have this distribution. -/
theorem c209_sample (C : CholOracle (Fin n)) (hK : K.PosDef) (f : (Fin n → ℝ) → ℝ≥0∞) :
    ∫⁻ w, ENNReal.ofReal (stdPdf w) * f (gpSample C K w) = ∫⁻ y, ENNReal.ofReal (exp (gpLogpdf K y)) * f y := by
  have h0 := (density_factor hK (C.spec K hK) 0).1
  rw [← lintegral_affine h0 0 fun y => ENNReal.ofReal (exp (gpLogpdf K y)) * f y, ← lintegral_const_mul' _ _ ENNReal.ofReal_ne_top]
  refine lintegral_congr fun w => ?_
  rw [zero_add, ← mul_assoc, ← ENNReal.ofReal_mul (abs_nonneg _), (density_factor hK (C.spec K hK) w).2]
  rfl

theorem gp_mass (hK : K.PosDef) : ∫⁻ y, ENNReal.ofReal (exp (gpLogpdf K y)) = 1 := by
  obtain ⟨L, hL⟩ : ∃ L : Matrix (Fin n) (Fin n) ℝ, L * Lᵀ = K := by
    obtain ⟨C⟩ := cholOracle_nonempty (n := Fin n)
    exact ⟨C.chol K, C.spec K hK⟩
  have h0 := (density_factor hK hL 0).1
  rw [← lintegral_affine h0 0 fun y => ENNReal.ofReal (exp (gpLogpdf K y)), ← lintegral_const_mul' _ _ ENNReal.ofReal_ne_top]
  obtain ⟨h1, h2⟩ := std_zeroth (n := Fin n)
  rw [← ENNReal.ofReal_one, ← h2, ofReal_integral_eq_lintegral_ofReal h1 (Filter.Eventually.of_forall fun z => ?_)]
  · refine lintegral_congr fun w => ?_
    rw [zero_add, ← ENNReal.ofReal_mul (abs_nonneg _), (density_factor hK hL w).2]
  · exact Finset.prod_nonneg fun i _ => ProbabilityTheory.gaussianPDFReal_nonneg 0 1 (z i)

/-- It is a probability distribution. -/
theorem c209_law (hK : K.PosDef) : IsProbabilityMeasure (Spec.gpLaw K) :=
  ⟨by rw [Spec.gpLaw, withDensity_apply _ MeasurableSet.univ, Measure.restrict_univ, gp_mass hK]⟩

/-! ## Bounds against the likelihood of the truth -/

/-- Whatever is at most the logarithm of a density of mass at most one exceeds the true likelihood by `c` with probability at most
`exp (-c)`. -/
theorem exceed {q b : (Fin n → ℝ) → ℝ} (hq : Measurable q) (hpos : ∀ y, 0 < q y) (hmass : ∫⁻ y, ENNReal.ofReal (q y) ≤ 1)
    (hb : ∀ y, b y ≤ log (q y)) (c : ℝ) : Spec.gpLaw K {y | gpLogpdf K y + c ≤ b y} ≤ ENNReal.ofReal (exp (-c)) := by
  have hm : MeasurableSet {y | gpLogpdf K y + c ≤ log (q y)} :=
    measurableSet_le ((continuous_gpLogpdf K).measurable.add_const c) hq.log
  refine (measure_mono (t := {y | gpLogpdf K y + c ≤ log (q y)}) fun y hy => le_trans hy (hb y)).trans ?_
  rw [Spec.gpLaw, withDensity_apply _ hm]
  calc ∫⁻ y in {y | gpLogpdf K y + c ≤ log (q y)}, ENNReal.ofReal (exp (gpLogpdf K y))
      ≤ ∫⁻ y in {y | gpLogpdf K y + c ≤ log (q y)}, ENNReal.ofReal (exp (-c)) * ENNReal.ofReal (q y) :=
        setLIntegral_mono' hm fun y hy => by
          rw [← ENNReal.ofReal_mul (exp_pos _).le]
          refine ENNReal.ofReal_le_ofReal ?_
          have h1 : gpLogpdf K y ≤ -c + log (q y) := by
            have : gpLogpdf K y + c ≤ log (q y) := hy
            linarith
          calc exp (gpLogpdf K y) ≤ exp (-c + log (q y)) := exp_le_exp.2 h1
            _ = exp (-c) * q y := by rw [exp_add, exp_log (hpos y)]
    _ ≤ ∫⁻ y, ENNReal.ofReal (exp (-c)) * ENNReal.ofReal (q y) := setLIntegral_le_lintegral _ _
    _ ≤ ENNReal.ofReal (exp (-c)) := by
        rw [lintegral_const_mul' _ _ ENNReal.ofReal_ne_top]
        exact (mul_le_mul_right hmass _).trans (by rw [mul_one])

/-- On average it is at most the true likelihood. -/
theorem average {q b : (Fin n → ℝ) → ℝ} (hK : K.PosDef) (hq : Measurable q) (hpos : ∀ y, 0 < q y) (hmass : ∫⁻ y, ENNReal.ofReal (q y) ≤ 1)
    (hb : ∀ y, b y ≤ log (q y)) (hint : Integrable (fun y => b y - gpLogpdf K y) (Spec.gpLaw K)) :
    ∫ y, (b y - gpLogpdf K y) ∂Spec.gpLaw K ≤ 0 := by
  have hp := c209_law hK
  have hr : ∫⁻ y, ENNReal.ofReal (q y * exp (-gpLogpdf K y)) ∂Spec.gpLaw K ≤ 1 := by
    have hm1 : Measurable fun y => ENNReal.ofReal (exp (gpLogpdf K y)) := (continuous_gpLogpdf K).rexp.measurable.ennreal_ofReal
    have hm2 : Measurable fun y => ENNReal.ofReal (q y * exp (-gpLogpdf K y)) :=
      (hq.mul (continuous_gpLogpdf K).neg.rexp.measurable).ennreal_ofReal
    rw [Spec.gpLaw, lintegral_withDensity_eq_lintegral_mul _ hm1 hm2]
    refine le_trans (le_of_eq (lintegral_congr fun y => ?_)) hmass
    rw [Pi.mul_apply, ← ENNReal.ofReal_mul (exp_pos _).le, mul_comm (q y), ← mul_assoc, ← exp_add, add_neg_cancel, exp_zero, one_mul]
  have hmq : Measurable fun y => q y * exp (-gpLogpdf K y) := hq.mul (continuous_gpLogpdf K).neg.rexp.measurable
  have hnn : ∀ y, 0 ≤ q y * exp (-gpLogpdf K y) := fun y => (mul_pos (hpos y) (exp_pos _)).le
  have hi : Integrable (fun y => q y * exp (-gpLogpdf K y)) (Spec.gpLaw K) := by
    refine ⟨hmq.aestronglyMeasurable, ?_⟩
    rw [hasFiniteIntegral_iff_ofReal (Filter.Eventually.of_forall hnn)]
    exact hr.trans_lt one_lt_top
  have h1 : ∫ y, q y * exp (-gpLogpdf K y) ∂Spec.gpLaw K ≤ 1 := by
    rw [integral_eq_lintegral_of_nonneg_ae (Filter.Eventually.of_forall hnn) hi.aestronglyMeasurable]
    exact ENNReal.toReal_le_of_le_ofReal zero_le_one (by rwa [ENNReal.ofReal_one])
  have h2 : ∫ y, (b y - gpLogpdf K y) ∂Spec.gpLaw K ≤ ∫ y, (q y * exp (-gpLogpdf K y) - 1) ∂Spec.gpLaw K := by
    refine integral_mono hint (hi.sub (integrable_const 1)) fun y => ?_
    have h3 : b y - gpLogpdf K y ≤ log (q y * exp (-gpLogpdf K y)) := by
      rw [log_mul (hpos y).ne' (exp_pos _).ne', log_exp]
      have := hb y
      linarith
    exact h3.trans (log_le_sub_one_of_pos (mul_pos (hpos y) (exp_pos _)))
  rw [integral_sub hi (integrable_const 1), integral_const, probReal_univ, one_smul] at h2
  linarith

section Models

variable {ι κ : Type} [Fintype ι] [DecidableEq ι] [Fintype κ] [DecidableEq κ] (C : Chols ι κ) {m : Inst ι κ}

/-- **C209** For data from a Gaussian process, the bound of the mean-field schemes exceeds the likelihood under that process by `c` with
probability at most `exp (-c)`, whatever the model and however the approximate posteriors depend on the data; and it does not exceed it
on average. -/
theorem c209_mean_field (hK : K.PosDef) (h : m.Valid) (t : Fin n → ℝ) (s : (Fin n → ℝ) → Posts ι κ) (collapsed : Option String)
    (hs : ∀ y, (s y).qi = 0 ∧ (s y).qU.prec.PosDef ∧ (s y).qZ.prec.PosDef) (b : (Fin n → ℝ) → ℝ)
    (hb : ∀ y, MeanField.elbo C m (s y) (Spec.dataset t y) collapsed = .ok (b y)) :
    (∀ c, Spec.gpLaw K {y | gpLogpdf K y + c ≤ b y} ≤ ENNReal.ofReal (exp (-c))) ∧
    (Integrable (fun y => b y - gpLogpdf K y) (Spec.gpLaw K) → ∫ y, (b y - gpLogpdf K y) ∂Spec.gpLaw K ≤ 0) := by
  have hle : ∀ y, b y ≤ log (evidence m (Spec.dataset t y)) := fun y =>
    (c97_mean_field C h (s y) (hs y).1 _ (hs y).2.1 (hs y).2.2 collapsed (b y) (hb y)).1
  exact ⟨fun c => exceed (measurable_evidence h t) (fun y => evidence_pos h _) (lintegral_evidence_le h t) hle c,
    fun hi => average hK (measurable_evidence h t) (fun y => evidence_pos h _) (lintegral_evidence_le h t) hle hi⟩

/-- **C209** The same for the bound of the structured scheme. -/
theorem c209_structured (hK : K.PosDef) (h : m.Valid) (t : Fin n → ℝ) (q : (Fin n → ℝ) → NatNormal ι) (hq : ∀ y, (q y).prec.PosDef) :
    (∀ c, Spec.gpLaw K {y | gpLogpdf K y + c ≤ structuredBound C m (Spec.dataset t y) (q y)} ≤ ENNReal.ofReal (exp (-c))) ∧
    (Integrable (fun y => structuredBound C m (Spec.dataset t y) (q y) - gpLogpdf K y) (Spec.gpLaw K) →
      ∫ y, (structuredBound C m (Spec.dataset t y) (q y) - gpLogpdf K y) ∂Spec.gpLaw K ≤ 0) := by
  have hle : ∀ y, structuredBound C m (Spec.dataset t y) (q y) ≤ log (evidence m (Spec.dataset t y)) := fun y => c97_structured C h _ _ (hq y)
  exact ⟨fun c => exceed (measurable_evidence h t) (fun y => evidence_pos h _) (lintegral_evidence_le h t) hle c,
    fun hi => average hK (measurable_evidence h t) (fun y => evidence_pos h _) (lintegral_evidence_le h t) hle hi⟩

end Models

/-- **C209** The same for the likelihood under any other Gaussian process. -/
theorem c209_gp (hK : K.PosDef) {K' : Matrix (Fin n) (Fin n) ℝ} (hK' : K'.PosDef) :
    (∀ c, Spec.gpLaw K {y | gpLogpdf K y + c ≤ gpLogpdf K' y} ≤ ENNReal.ofReal (exp (-c))) ∧
    (Integrable (fun y => gpLogpdf K' y - gpLogpdf K y) (Spec.gpLaw K) → ∫ y, (gpLogpdf K' y - gpLogpdf K y) ∂Spec.gpLaw K ≤ 0) := by
  have hm : Measurable fun y => exp (gpLogpdf K' y) := (continuous_gpLogpdf K').rexp.measurable
  have hle : ∀ y, gpLogpdf K' y ≤ log (exp (gpLogpdf K' y)) := fun y => (log_exp _).ge
  exact ⟨fun c => exceed hm (fun y => exp_pos _) (gp_mass hK').le hle c, fun hi => average hK hm (fun y => exp_pos _) (gp_mass hK').le hle hi⟩

/-! ## What is printed -/

theorem printElbos_keys {σ : Type} {ms : List (String × (σ → Except PyErr (σ × ℝ)))} {s : σ} {l : List (String × ℝ)}
    (h : printElbos ms s = .ok l) : l.map Prod.fst = ms.map Prod.fst := by
  induction ms generalizing s l with
  | nil => obtain rfl := Except.ok.inj h; rfl
  | cons m ms ih =>
    unfold printElbos at h
    obtain ⟨r, hr, h⟩ := bind1_ok h
    obtain ⟨l', hl', h⟩ := bind1_ok h
    obtain rfl := Except.ok.inj h
    simp [ih hl']

/-- **C209** With both kernels, two likelihoods are printed, then one bound for each model in the order of the models: the first value is the
likelihood under the truth, the second under a kernel of the family. -/
theorem c209_printed {Θ σ : Type} (min : (Θ → ℝ) → Θ → Θ) (θ₀ : Θ) (F : Θ → Matrix (Fin n) (Fin n) ℝ) (y : Fin n → ℝ)
    (models : List (String × (σ → Except PyErr (σ × ℝ)))) (s : σ) {l : List (String × ℝ)}
    (h : analyseElbos min θ₀ (some K) (some F) y models s = .ok l) :
    ∃ θ l', l = ("LML under true GP", gpLogpdf K y) :: ("LML under optimised GP", gpLogpdf (F θ) y) :: l' ∧
      l'.map Prod.fst = models.map Prod.fst := by
  unfold analyseElbos at h
  obtain ⟨l3, h3, h⟩ := bind1_ok h
  obtain rfl := Except.ok.inj h
  exact ⟨min (fun θ => -gpLogpdf (F θ) y) θ₀, l3, by simp, printElbos_keys h3⟩

/-- The random state after running models one after another. -/
def Spec.Runs {σ : Type} : List (String × (σ → Except PyErr (σ × ℝ))) → σ → σ → Prop
  | [], s, s' => s' = s
  | m :: ms, s, s' => ∃ s₁ v, m.2 s = .ok (s₁, v) ∧ Spec.Runs ms s₁ s'

/-- **C209** The bound printed for a model is what it computes from the random state that the models before it leave, so no two models are given the
same random numbers. -/
theorem c209_state {σ : Type} (ms : List (String × (σ → Except PyErr (σ × ℝ)))) (m : String × (σ → Except PyErr (σ × ℝ)))
    (ms' : List (String × (σ → Except PyErr (σ × ℝ)))) {s : σ} {l : List (String × ℝ)} (h : printElbos (ms ++ m :: ms') s = .ok l) :
    ∃ s' s'' v, Spec.Runs ms s s' ∧ m.2 s' = .ok (s'', v) ∧ l[ms.length]? = some (m.1, v) := by
  induction ms generalizing s l with
  | nil =>
    rw [List.nil_append] at h
    unfold printElbos at h
    obtain ⟨r, hr, h⟩ := bind1_ok h
    obtain ⟨l', -, h⟩ := bind1_ok h
    obtain rfl := Except.ok.inj h
    exact ⟨s, r.1, r.2, rfl, hr, rfl⟩
  | cons m₁ ms ih =>
    rw [List.cons_append] at h
    unfold printElbos at h
    obtain ⟨r, hr, h⟩ := bind1_ok h
    obtain ⟨l', hl', h⟩ := bind1_ok h
    obtain rfl := Except.ok.inj h
    obtain ⟨s', s'', v, h1, h2, h3⟩ := ih hl'
    exact ⟨s', s'', v, ⟨r.1, r.2, hr, h1⟩, h2, by simpa using h3⟩

/-- Two models that each return the next number of the tape. -/
example : printElbos [("a", fun s : List ℝ => .ok (s.tail, s.headD 0)), ("b", fun s => .ok (s.tail, s.headD 0))] [1, 2] =
    .ok [("a", 1), ("b", 2)] := rfl

/-- **C209** If the minimiser does not end above where it starts, then the likelihood under the optimised process is at least that under the
process it starts from. In `eq.py` that is the truth. -/
theorem c209_eq {σ : Type} (min : (GpParams → ℝ) → GpParams → GpParams) (hmin : ∀ (f : GpParams → ℝ) (p : GpParams), f (min f p) ≤ f p) (noise : ℝ) (t y : Fin n → ℝ)
    (models : List (String × (σ → Except PyErr (σ × ℝ)))) (s : σ) {l : List (String × ℝ)}
    (h : analyseElbos min (startParams noise) (some (covNoisy Scripts.eqKernel noise t)) (some (comparative t)) y models s = .ok l) :
    ∃ a b l', l = ("LML under true GP", a) :: ("LML under optimised GP", b) :: l' ∧ a ≤ b := by
  unfold analyseElbos at h
  obtain ⟨l3, h3, h⟩ := bind1_ok h
  obtain rfl := Except.ok.inj h
  refine ⟨_, _, l3, rfl, ?_⟩
  have h1 := hmin (fun θ => -gpLogpdf (comparative t θ) y) (startParams noise)
  have e : comparative t (startParams noise) = covNoisy Scripts.eqKernel noise t := by
    unfold comparative startParams
    congr 1
    funext x y
    simp only [Scripts.stretch]
    norm_num
  simp only [e] at h1 ⊢
  linarith

/-! ## The other script -/

theorem gpLogpdf_two {p q a : ℝ} (h1 : 0 < p - q) (h2 : 0 < p + q) : gpLogpdf !![p, q; q, p] ![a, -a] =
    -(log (p - q) + log (p + q)) / 2 - log (2 * π) - a ^ 2 / (p - q) := by
  have hd : (!![p, q; q, p] : Matrix (Fin 2) (Fin 2) ℝ).det = (p - q) * (p + q) := by
    rw [det_fin_two_of]
    ring
  have hu : IsUnit (!![p, q; q, p] : Matrix (Fin 2) (Fin 2) ℝ).det := by
    rw [hd]
    exact (mul_pos h1 h2).ne'.isUnit
  have hw : (!![p, q; q, p] : Matrix (Fin 2) (Fin 2) ℝ) *ᵥ ![a / (p - q), -a / (p - q)] = ![a, -a] := by
    funext i
    fin_cases i
    · simp [mulVec, dotProduct, Fin.sum_univ_two]
      field_simp
      ring
    · simp [mulVec, dotProduct, Fin.sum_univ_two]
      field_simp
      ring
  have hi : (!![p, q; q, p] : Matrix (Fin 2) (Fin 2) ℝ)⁻¹ *ᵥ ![a, -a] = ![a / (p - q), -a / (p - q)] := by
    rw [← hw, mulVec_mulVec, nonsing_inv_mul _ hu, one_mulVec]
  rw [gpLogpdf, hd, hi, log_mul h1.ne' h2.ne']
  simp [dotProduct, Fin.sum_univ_two]
  ring

theorem covNoisy_two (k : ℝ → ℝ → ℝ) (v a b : ℝ) : covNoisy k v ![a, b] = !![k a a + v, k a b; k b a, k b b + v] := by
  ext i j
  fin_cases i <;> fin_cases j <;> simp [covNoisy]

/-- **C209, refuted for `smk.py`** The family of kernels does not contain the truth. There are data at two times for which every process of
the family has a smaller likelihood than the truth, so the "optimised" likelihood is below the true one whatever the minimiser. -/
theorem c209_smk_refuted : ∃ t y : Fin 2 → ℝ, ∀ p : GpParams, 0 < p.var → 0 < p.scale → 0 < p.noise →
    gpLogpdf (comparative t p) y < gpLogpdf (covNoisy Scripts.smkKernel 1 t) y := by
  obtain ⟨e, he⟩ : ∃ e, e = exp (-(1 / 8) : ℝ) := ⟨_, rfl⟩
  have he0 : 0 < e := he ▸ exp_pos _
  have he1 : e < 1 := by rw [he, exp_lt_one_iff]; norm_num
  have hs : covNoisy Scripts.smkKernel 1 ![0, 1 / 2] = !![2, -e; -e, 2] := by
    have hc : cos (2 * π * (1 / 2)) = -1 := by rw [show 2 * π * (1 / 2) = π by ring, cos_pi]
    have hz : sin (2 * π * (1 / 2)) = 0 := by rw [show 2 * π * (1 / 2) = π by ring, sin_pi]
    have e8 : exp (-(1 / 2) * (0 / 1 - (1 / 2) / 1) ^ 2) = e := by rw [he]; congr 1; norm_num
    have e8' : exp (-(1 / 2) * ((1 / 2) / 1 - 0 / 1) ^ 2) = e := by rw [he]; congr 1; norm_num
    rw [covNoisy_two]
    simp only [Scripts.smkKernel, Scripts.timesFn, Scripts.stretch, Scripts.eqKernel, hc, hz, e8, e8', sub_self, mul_zero, cos_zero,
      sin_zero]
    norm_num
  refine ⟨![0, 1 / 2], ![√(2 + e), -√(2 + e)], fun p hv hl hn => ?_⟩
  obtain ⟨r, hr⟩ : ∃ r, r = exp (-(1 / 2) * (0 / p.scale - (1 / 2) / p.scale) ^ 2) := ⟨_, rfl⟩
  have hr0 : 0 < r := hr ▸ exp_pos _
  have hr1 : r ≤ 1 := by
    rw [hr, exp_le_one_iff]
    nlinarith [sq_nonneg (0 / p.scale - (1 / 2) / p.scale)]
  have hcomp : comparative ![0, 1 / 2] p = !![p.var + p.noise, p.var * r; p.var * r, p.var + p.noise] := by
    have hr' : exp (-(1 / 2) * ((1 / 2) / p.scale - 0 / p.scale) ^ 2) = r := by rw [hr]; congr 1; ring
    rw [comparative, covNoisy_two]
    simp only [Scripts.stretch, Scripts.eqKernel, ← hr, hr', sub_self]
    norm_num
  have hlo : 0 < p.var + p.noise - p.var * r := by nlinarith
  have hhi : p.var + p.noise - p.var * r ≤ p.var + p.noise + p.var * r := by nlinarith
  have hsq : √(2 + e) ^ 2 = 2 + e := sq_sqrt (by linarith)
  rw [hs, hcomp, gpLogpdf_two hlo (hlo.trans_le hhi), gpLogpdf_two (by linarith) (by linarith), hsq,
    show (2 : ℝ) - -e = 2 + e by ring, show (2 : ℝ) + -e = 2 - e by ring, div_self (by linarith : (2 : ℝ) + e ≠ 0)]
  have h1 : log (p.var + p.noise - p.var * r) ≤ log (p.var + p.noise + p.var * r) := log_le_log hlo hhi
  have h2 : log (2 - e) < log (2 + e) := log_lt_log (by linarith) (by linarith)
  have h3 := log_le_sub_one_of_pos (show 0 < (2 + e) / (p.var + p.noise - p.var * r) from div_pos (by linarith) hlo)
  rw [log_div (by linarith) hlo.ne'] at h3
  linarith

/-- A process with two observations: a mean-field bound of a model exceeds its likelihood by three nats in at most a twentieth of all data. -/
example (C : Chols (Fin 1) (Fin 1)) (t : Fin 2 → ℝ) (s : (Fin 2 → ℝ) → Posts (Fin 1) (Fin 1))
    (hs : ∀ y, (s y).qi = 0 ∧ (s y).qU.prec.PosDef ∧ (s y).qZ.prec.PosDef) (b : (Fin 2 → ℝ) → ℝ)
    (hb : ∀ y, MeanField.elbo C exactInst (s y) (Spec.dataset t y) none = .ok (b y)) :
    Spec.gpLaw (1 : Matrix (Fin 2) (Fin 2) ℝ) {y | gpLogpdf 1 y + 3 ≤ b y} ≤ ENNReal.ofReal (exp (-3)) :=
  (c209_mean_field C PosDef.one exactInst_valid t s none hs b hb).1 3

/-- The minimiser that stays where it is does not end above its start. -/
example (t y : Fin 3 → ℝ) : ∃ l, analyseElbos (fun _ p => p) (startParams 0.1) (some (covNoisy Scripts.eqKernel 0.1 t)) (some (comparative t)) y
    [("GPCM", fun s : ℕ => .ok (s + 1, -3))] 0 = .ok l ∧ ∃ a b l', l = ("LML under true GP", a) :: ("LML under optimised GP", b) :: l' ∧ a ≤ b :=
  ⟨_, rfl, c209_eq (fun _ p => p) (fun _ _ => le_rfl) 0.1 t y [("GPCM", fun s : ℕ => .ok (s + 1, -3))] 0 rfl⟩

end Gpcm.Elbos
