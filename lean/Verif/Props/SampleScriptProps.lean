import Verif.Model.OtherScripts
import Verif.Props.SampleProps
import Verif.Props.RgpcmSampleProps
import Verif.Props.PaperProps

/-!
# C158: the samples in the figure of `sample.py`; C159: the Mauna Loa data and the kernel comparison
-/

open Matrix Real

namespace Gpcm.Scripts

/-! ## C158 -/

/-- The Cholesky factor: lower triangular with a positive diagonal. -/
def IsCholesky {n : ℕ} (Ct : CholOracle (Fin n)) : Prop :=
  ∀ A : Matrix (Fin n) (Fin n) ℝ, A.PosDef → (∀ i j, i < j → Ct.chol A i j = 0) ∧ ∀ i, 0 < Ct.chol A i i

/-- A function with a correlation matrix starts where its noise starts. -/
theorem cholesky_start {n : ℕ} (Ct : CholOracle (Fin n)) (hC : IsCholesky Ct) {A : Matrix (Fin n) (Fin n) ℝ} (hA : A.PosDef)
    (i : Fin n) (hi : i.1 = 0) (h1 : A i i = 1) (e : Fin n → ℝ) : (Ct.chol A *ᵥ e) i = e i := by
  obtain ⟨h, hd⟩ := hC A hA
  have hz : ∀ j, j ≠ i → Ct.chol A i j = 0 := fun j hj =>
    h i j (by
      rw [Fin.lt_def]
      have : j.1 ≠ i.1 := fun e => hj (Fin.ext e)
      omega)
  have hsq : Ct.chol A i i * Ct.chol A i i = 1 := by
    have := congrFun (congrFun (Ct.spec A hA) i) i
    rw [h1, mul_apply, Finset.sum_eq_single i (fun j _ hj => by rw [hz j hj, zero_mul]) (by simp)] at this
    simpa using this
  have : Ct.chol A i i = 1 := by nlinarith [hd i]
  rw [mulVec, dotProduct, Finset.sum_eq_single i (fun j _ hj => by rw [hz j hj, zero_mul]) (by simp), this, one_mul]

/-- Entries of a correlation matrix. -/
theorem corr_le_one {n : ℕ} {A : Matrix (Fin n) (Fin n) ℝ} (hA : A.PosDef) (h1 : ∀ i, A i i = 1) (i j : Fin n) : |A i j| ≤ 1 := by
  have hs : A j i = A i j := by simpa using hA.1.apply i j
  have key : ∀ s : ℝ, 0 ≤ A i i + 2 * s * A i j + s ^ 2 * A j j := fun s => by
    have := hA.posSemidef.dotProduct_mulVec_nonneg (Pi.single i 1 + s • Pi.single j 1)
    simp only [star_trivial, mulVec_add, mulVec_smul, add_dotProduct, smul_dotProduct, dotProduct_add, dotProduct_smul,
      single_one_dotProduct, mulVec_single_one, col_apply, smul_eq_mul, hs] at this
    linarith
  have h2 := key 1
  have h3 := key (-1)
  rw [h1, h1] at h2 h3
  exact abs_le.2 ⟨by linarith, by linarith⟩

/-- What is said about one sampled kernel `k` and function `f` at the times `t`, drawn with the noise `e`. -/
def Sampled {n : ℕ} (e : Fin n → ℝ) (k : List ℝ) (f : Fin n → ℝ) : Prop :=
  ∃ K L : Matrix (Fin n) (Fin n) ℝ, K.PosDef ∧ (∀ i, K i i = 1) ∧ L * Lᵀ = K ∧ k = (rows K).headD [] ∧ f = L *ᵥ e ∧
    k.length = n ∧ k.head? = some 1 ∧ (∀ x ∈ k, |x| ≤ 1) ∧ ∀ i : Fin n, i.1 = 0 → f i = e i

theorem sampled_of {n : ℕ} (hn : 0 < n) (Ct : CholOracle (Fin n)) (hC : IsCholesky Ct) {K : Matrix (Fin n) (Fin n) ℝ} (hK : K.PosDef)
    (h1 : ∀ i, K i i = 1) (e : Fin n → ℝ) : Sampled e ((rows K).headD []) (Ct.chol K *ᵥ e) := by
  obtain ⟨m, rfl⟩ : ∃ m, n = m + 1 := ⟨n - 1, by omega⟩
  have hr : (rows K).headD [] = List.ofFn (K 0) := by
    unfold rows
    rw [List.ofFn_succ]
    rfl
  refine ⟨K, _, hK, h1, Ct.spec K hK, rfl, rfl, by rw [hr, List.length_ofFn], ?_, fun x hx => ?_,
    fun i hi => cholesky_start Ct hC hK i hi (h1 i) e⟩
  · rw [hr, List.ofFn_succ, List.head?_cons, h1]
  · rw [hr, List.mem_ofFn] at hx
    obtain ⟨j, rfl⟩ := hx
    exact corr_le_one hK h1 0 j

/-- **C158** (GPCM and CGPCM) Every iteration succeeds. The kernel starts at one and is bounded by one in size; the function has
the correlation matrix of which the kernel is the first row, and starts at the first value of the noise. -/
theorem c158_gpcm (R : Runtime ℝ) (g : GpcmModel) (hm : g.Moderate) (hγ : 0 < g.gamma) (hu : g.tU.Nodup)
    (C : CholOracle (Fin g.tU.length)) (t : List ℝ) (ht : t.Nodup) (h0 : t ≠ []) (Ct : CholOracle (Fin t.length))
    (hC : IsCholesky Ct) (svd : Matrix (Fin t.length) (Fin t.length) ℝ → Util.Svd t.length)
    (hsvd : ∀ a, a.PosSemidef → Util.IsSvd a (svd a)) (noiseF : Fin t.length → ℝ) (w : Fin g.tU.length → ℝ) :
    ∃ k f, sampleStep R g C t Ct svd noiseF w = .ok (k, f) ∧ Sampled noiseF k f := by
  have hKu : ∃ Ku, (matE fun i j => g.kuEntry R (g.tU.get i) (g.tU.get j)) = .ok Ku := 
    ⟨_, matE_ok (M := g.specInst.Ku) fun i j => kuEntry_eq g _ _⟩
  obtain ⟨Ku, hKu⟩ := hKu
  have hK := g.kernelApprox_rows R hm C t (C.chol Ku *ᵥ w)
  obtain ⟨M, hM, hMp, hM1⟩ := c99_correlation R g hm hγ hu C t ht h0 (C.chol Ku *ᵥ w) _ hK
  refine ⟨(rows M).headD [], Ct.chol M *ᵥ noiseF, ?_, sampled_of (List.length_pos_iff.2 h0) Ct hC hMp hM1 noiseF⟩
  unfold sampleStep
  rw [hKu]
  simp only [bind1]
  rw [hK]
  simp only
  rw [hM]
  simp only
  rw [toMatrix_rows, Util.c49_unchanged (hsvd _ hMp.posSemidef) hMp.posSemidef]

/-- **C158** (RGPCM) Likewise. -/
theorem c158_rgpcm (g : RgpcmModel) (h : g.Regular) (hα : g.alphaT ≠ 0)
    (C : CholOracle (Fin g.tU.length)) (t : List ℝ) (ht : t.Nodup) (h0 : t ≠ []) (Ct : CholOracle (Fin t.length))
    (hC : IsCholesky Ct) (svd : Matrix (Fin t.length) (Fin t.length) ℝ → Util.Svd t.length)
    (hsvd : ∀ a, a.PosSemidef → Util.IsSvd a (svd a)) (noiseF : Fin t.length → ℝ) (w : Fin g.tU.length → ℝ) :
    ∃ k f, sampleStepR g C t Ct svd noiseF w = .ok (k, f) ∧ Sampled noiseF k f := by
  have hK := RgpcmModel.kernelApprox_rows h C t (C.chol g.computeKu *ᵥ w)
  obtain ⟨M, hM, hMp, hM1⟩ := c99_correlation_rgpcm h hα C t ht h0 (C.chol g.computeKu *ᵥ w) _ hK
  refine ⟨(rows M).headD [], Ct.chol M *ᵥ noiseF, ?_, sampled_of (List.length_pos_iff.2 h0) Ct hC hMp hM1 noiseF⟩
  unfold sampleStepR
  rw [hK]
  simp only [bind1]
  rw [hM]
  simp only
  rw [toMatrix_rows, Util.c49_unchanged (hsvd _ hMp.posSemidef) hMp.posSemidef]

/-! ## C159 -/

theorem lastN_length {α : Type} (n : ℕ) (a : List α) : (lastN n a).length = min n a.length := by
  unfold lastN
  rw [List.length_drop]
  omega

theorem lastN_suffix {α : Type} (n : ℕ) (a : List α) : lastN n a <:+ a := List.drop_suffix _ _

/-- **C159** (mauna_loa.py) The data that are modelled are the last two hundred observations, or all if there are fewer. Time
starts at zero and differences of times are kept. If the observations are not all equal, the values have mean zero and variance
one, and are an increasing affine function of the observations. -/
theorem c159_mauna_loa (data : List (ℝ × ℝ)) (h : data ≠ []) :
    ∃ (d l : List (ℝ × ℝ)) (t₀ a b : ℝ), maunaLoa data = .ok l ∧ d <:+ data ∧ d.length = min 200 data.length ∧
      l = d.map (fun p => (p.1 - t₀, a * p.2 + b)) ∧ (l.map Prod.fst).head? = some 0 ∧
      ((∃ p ∈ d, ∃ q ∈ d, p.2 ≠ q.2) → 0 < a ∧ Util.mean (l.map Prod.snd) = 0 ∧ std (l.map Prod.snd) = 1) := by
  obtain ⟨d, hd⟩ : ∃ d, d = lastN 200 data := ⟨_, rfl⟩
  have hl : d.length = min 200 data.length := hd ▸ lastN_length 200 data
  have hne : d ≠ [] := by
    intro e
    have : 0 < data.length := List.length_pos_iff.2 h
    rw [e, List.length_nil] at hl
    omega
  obtain ⟨y, hy⟩ : ∃ y, y = d.map Prod.snd := ⟨_, rfl⟩
  have hyne : y ≠ [] := by simpa [hy] using hne
  obtain ⟨μ, hμ⟩ : ∃ μ, μ = Util.mean y := ⟨_, rfl⟩
  have e1 : (y.map fun a => a - μ) = y.map fun x => 1 * x + -μ := by
    refine List.map_congr_left fun x _ => by ring
  have hm1 : Util.mean (y.map fun a => a - μ) = 0 := by
    rw [e1, mean_map_affine hyne, hμ]
    ring
  obtain ⟨s, hs⟩ : ∃ s, s = std (y.map fun a => a - μ) := ⟨_, rfl⟩
  obtain ⟨r, d', hrd⟩ : ∃ r d', d = r :: d' := by
    cases d with
    | nil => exact absurd rfl hne
    | cons r d' => exact ⟨r, d', rfl⟩
  have hz : ∀ (f : ℝ × ℝ → ℝ) (g : ℝ → ℝ) (l : List (ℝ × ℝ)), (l.map f).zip ((l.map Prod.snd).map g) = l.map fun p => (f p, g p.2) := by
    intro f g l
    induction l with
    | nil => rfl
    | cons a l ih => rw [List.map_cons, List.map_cons, List.map_cons, List.map_cons, List.zip_cons_cons, ih]
  have hrun : maunaLoa data = .ok (d.map fun p => (p.1 - r.1, s⁻¹ * p.2 + -(s⁻¹ * μ))) := by
    unfold maunaLoa
    simp only [← hd]
    rw [hrd]
    simp only
    rw [← hrd, ← hy, ← hμ, ← hs, List.map_map, hy, hz]
    congr 1
    refine List.map_congr_left fun p _ => ?_
    simp only [Function.comp_apply, Prod.mk.injEq, true_and]
    rw [div_eq_inv_mul]
    ring
  refine ⟨d, _, r.1, s⁻¹, -(s⁻¹ * μ), hrun, hd ▸ lastN_suffix 200 data, hl, rfl, ?_, fun ⟨p, hp, q, hq, hpq⟩ => ?_⟩
  · rw [hrd]
    simp
  · have hs0 : 0 ≤ s := hs ▸ by unfold std; positivity
    have hs' : s ≠ 0 := by
      intro h0
      have hsum : ((y.map fun a => a - μ).map fun x => (x - 0) ^ 2).sum = 0 := by
        rw [h0] at hs
        unfold std at hs
        rw [hm1, eq_comm, sqrt_eq_zero' , Util.mean, List.length_map, List.length_map] at hs
        have hpos : (0 : ℝ) < y.length := Nat.cast_pos.2 (List.length_pos_iff.2 hyne)
        have hnn : 0 ≤ ((y.map fun a => a - μ).map fun x => (x - 0) ^ 2).sum := by
          refine List.sum_nonneg fun x hx => ?_
          obtain ⟨a, -, rfl⟩ := List.mem_map.1 hx
          positivity
        exact le_antisymm (not_lt.1 fun hc => absurd (div_pos hc hpos) (not_lt.2 hs)) hnn
      have hall : ∀ x ∈ y, x = μ := by
        intro x hx
        have h1 : ∀ z ∈ ((y.map fun a => a - μ).map fun x => (x - 0) ^ 2), 0 ≤ z := by
          intro z hz
          obtain ⟨a, -, rfl⟩ := List.mem_map.1 hz
          positivity
        have h2 := List.all_zero_of_le_zero_le_of_sum_eq_zero h1 hsum (x := (x - μ - 0) ^ 2)
          (List.mem_map.2 ⟨x - μ, List.mem_map.2 ⟨x, hx, rfl⟩, rfl⟩)
        have := pow_eq_zero_iff (two_ne_zero) |>.1 h2
        linarith
      exact hpq ((hall _ (hy ▸ List.mem_map_of_mem hp)).trans (hall _ (hy ▸ List.mem_map_of_mem hq)).symm)
    have hpos : 0 < s := lt_of_le_of_ne hs0 (Ne.symm hs')
    have e2 : (d.map fun p => (p.1 - r.1, s⁻¹ * p.2 + -(s⁻¹ * μ))).map Prod.snd = (y.map fun a => a - μ).map (s⁻¹ * ·) := by
      rw [hy, List.map_map, List.map_map, List.map_map]
      refine List.map_congr_left fun p _ => ?_
      simp only [Function.comp_apply]
      ring
    refine ⟨inv_pos.2 hpos, ?_, ?_⟩
    · rw [e2, mean_map_mul, hm1, mul_zero]
    · rw [e2, std_map_mul, ← hs, abs_of_pos (inv_pos.2 hpos), inv_mul_cancel₀ hs']

/-- **C159** (mauna_loa.py) Without data the script stops with an exception. -/
theorem c159_empty : maunaLoa [] = .error .indexError := rfl

theorem maskLe_all {t x : List ℝ} {u : ℝ} (h : t.length = x.length) (ht : ∀ a ∈ t, a ≤ u) : maskLe t u x = .ok x := by
  unfold maskLe
  rw [if_pos h, List.filter_eq_self.2 fun p hp => by simpa using ht _ (List.of_mem_zip hp).1]
  rw [List.map_snd_zip h.ge]

/-- **C159** (comparison_process.py) With the inputs of `comparison.py` and the default range, both metrics are computed from all
of the prediction and all of the truth, in order. -/
theorem c159_range {α : Type} (smll : List ℝ → List ℝ → List ℝ → α) (rmse : List ℝ → List ℝ → α) :
    ∃ t : List ℝ, comparisonInputs = .ok t ∧ t.length = 200 ∧ t.head? = some 0 ∧ t.getLast? = some 4 ∧
      ∀ k m v : List ℝ, k.length = 200 → m.length = 200 → v.length = 200 →
        kernelAnalysis smll rmse (some k) (some (t, m, v)) "smll" 4 = .ok (smll m v k) ∧
        kernelAnalysis smll rmse (some k) (some (t, m, v)) "rmse" 4 = .ok (rmse m k) := by
  have e : comparisonInputs = .ok ((List.range 200).map fun i : ℕ => 0 + (4 - 0) / (((200 : ℤ) : ℝ) - 1) * (i : ℝ)) :=
    linspace_of_nonneg (by norm_num)
  refine ⟨_, e, by rw [List.length_map, List.length_range], by rw [List.head?_map, List.head?_range]; simp, ?_, fun k m v hk hm hv => ?_⟩
  · rw [List.getLast?_map, List.getLast?_range]
    norm_num
  · have hle : ∀ a ∈ ((List.range 200).map fun i : ℕ => 0 + (4 - 0) / (((200 : ℤ) : ℝ) - 1) * (i : ℝ)), a ≤ (4 : ℝ) := by
      intro a ha
      obtain ⟨i, hi, rfl⟩ := List.mem_map.1 ha
      have : (i : ℝ) ≤ 199 := by exact_mod_cast Nat.le_of_lt_succ (List.mem_range.1 hi)
      norm_num
      linarith
    have hl : ∀ x : List ℝ, x.length = 200 → maskLe ((List.range 200).map fun i : ℕ => 0 + (4 - 0) / (((200 : ℤ) : ℝ) - 1) * (i : ℝ)) 4 x = .ok x :=
      fun x hx => maskLe_all (by rw [List.length_map, List.length_range, hx]) hle
    constructor
    · rw [kernelAnalysis]
      simp only [if_true, hl m hm, hl v hv, hl k hk, bind1]
    · rw [kernelAnalysis]
      simp only [String.reduceEq, if_false, if_true, hl m hm, hl k hk, bind1]

/-- **C159** (comparison_process.py) For every range, the same points of the prediction and of the truth are compared: those in
the range. -/
theorem c159_points {α : Type} (smll : List ℝ → List ℝ → List ℝ → α) (rmse : List ℝ → List ℝ → α) (d : List (ℝ × ℝ × ℝ × ℝ)) (u : ℝ) :
    kernelAnalysis smll rmse (some (d.map fun p => p.2.2.2)) (some (d.map Prod.fst, d.map fun p => p.2.1, d.map fun p => p.2.2.1)) "smll" u =
        .ok (smll ((d.filter fun p => p.1 ≤ u).map fun p => p.2.1) ((d.filter fun p => p.1 ≤ u).map fun p => p.2.2.1)
          ((d.filter fun p => p.1 ≤ u).map fun p => p.2.2.2)) ∧
    kernelAnalysis smll rmse (some (d.map fun p => p.2.2.2)) (some (d.map Prod.fst, d.map fun p => p.2.1, d.map fun p => p.2.2.1)) "rmse" u =
        .ok (rmse ((d.filter fun p => p.1 ≤ u).map fun p => p.2.1) ((d.filter fun p => p.1 ≤ u).map fun p => p.2.2.2)) := by
  have key : ∀ f : ℝ × ℝ × ℝ × ℝ → ℝ, maskLe (d.map Prod.fst) u (d.map f) = .ok ((d.filter fun p => p.1 ≤ u).map f) := by
    intro f
    unfold maskLe
    rw [if_pos (by simp)]
    congr 1
    induction d with
    | nil => rfl
    | cons a d ih =>
      simp only [List.map_cons, List.zip_cons_cons, List.filter_cons]
      by_cases h : a.1 ≤ u
      · simp [h, ih]
      · simp [h, ih]
  constructor
  · rw [kernelAnalysis]
    simp only [if_true, key, bind1]
  · rw [kernelAnalysis]
    simp only [String.reduceEq, if_false, if_true, key, bind1]

/-- **C159** (comparison_process.py) Another metric raises `ValueError`, once both files have been read. -/
theorem c159_metric {α : Type} (smll : List ℝ → List ℝ → List ℝ → α) (rmse : List ℝ → List ℝ → α) {metric : String}
    (h1 : metric ≠ "smll") (h2 : metric ≠ "rmse") (kFile : Option (List ℝ)) (predFile : Option (List ℝ × List ℝ × List ℝ)) (u : ℝ) :
    kernelAnalysis smll rmse kFile predFile metric u = .error (if kFile = none ∨ predFile = none then .osError else .valueError) := by
  cases kFile with
  | none => simp [kernelAnalysis]
  | some k =>
    cases predFile with
    | none => simp [kernelAnalysis]
    | some p => simp [kernelAnalysis, h1, h2]

/-- Two different observations. -/
example : ∃ l, maunaLoa [(3, 1), (4, 5)] = .ok l ∧ Util.mean (l.map Prod.snd) = 0 ∧ std (l.map Prod.snd) = 1 := by
  obtain ⟨d, l, _, _, _, h, hd, hl, -, -, h2⟩ := c159_mauna_loa [(3, 1), (4, 5)] (by simp)
  have e : d = [(3, 1), (4, 5)] := hd.eq_of_length (by rw [hl]; rfl)
  exact ⟨l, h, (h2 ⟨_, by rw [e]; exact List.mem_cons_self, (4, 5), by simp [e], by norm_num⟩).2⟩

/-- A Cholesky factor of two by two matrices. -/
example : ∃ Ct : CholOracle (Fin 2), IsCholesky Ct := by
  have hd : ∀ A : Matrix (Fin 2) (Fin 2) ℝ, A.PosDef → 0 < A 0 0 ∧ A 1 0 = A 0 1 ∧ 0 < A 1 1 - A 0 1 ^ 2 / A 0 0 := by
    intro A hA
    have h0 : 0 < A 0 0 := hA.diag_pos
    have hs : A 1 0 = A 0 1 := by simpa using hA.1.apply 0 1
    have hdet := hA.det_pos
    rw [det_fin_two, hs] at hdet
    refine ⟨h0, hs, ?_⟩
    have : A 1 1 - A 0 1 ^ 2 / A 0 0 = (A 0 0 * A 1 1 - A 0 1 * A 0 1) / A 0 0 := by
      field_simp
    rw [this]
    exact div_pos hdet h0
  refine ⟨⟨fun A => !![√(A 0 0), 0; A 0 1 / √(A 0 0), √(A 1 1 - A 0 1 ^ 2 / A 0 0)], fun A hA => ?_⟩, fun A hA => ⟨fun i j hij => ?_, fun i => ?_⟩⟩
  · obtain ⟨h0, hs, h1⟩ := hd A hA
    have hq : √(A 0 0) ≠ 0 := (sqrt_pos.2 h0).ne'
    ext i j
    fin_cases i <;> fin_cases j
    · simp [Matrix.mul_apply, Fin.sum_univ_two, mul_self_sqrt h0.le]
    · simp [Matrix.mul_apply, Fin.sum_univ_two, mul_div_cancel₀ _ hq]
    · simp [Matrix.mul_apply, Fin.sum_univ_two, hs, div_mul_cancel₀ _ hq]
    · simp [Matrix.mul_apply, Fin.sum_univ_two, mul_self_sqrt h1.le, div_mul_div_comm, mul_self_sqrt h0.le]
      ring
  · fin_cases i <;> fin_cases j <;> simp at hij ⊢
  · obtain ⟨h0, hs, h1⟩ := hd A hA
    fin_cases i
    · simpa using h0
    · simpa using sqrt_pos.2 h1

end Gpcm.Scripts
