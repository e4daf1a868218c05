import Verif.Lemmas.MseLemmas
import Verif.Lemmas.MarkovLLN
import Mathlib.Algebra.Order.Chebyshev

/-! # Averages of unbounded functions over the states of a Markov chain -/

set_option linter.unusedSectionVars false

open MeasureTheory ProbabilityTheory ENNReal Filter Topology

namespace Gpcm.Markov

variable {S : Type} [MeasurableSpace S] {Q : Kernel S S} [IsMarkovKernel Q] {p : Measure S} [IsProbabilityMeasure p]

/-- The distribution of the next `n` states if the start is random. -/
noncomputable def startTraj (Q : Kernel S S) [IsMarkovKernel Q] (ν : Measure S) (n : ℕ) : Measure (ℕ → S) :=
  ν.bind (traj Q n)

instance startTraj_prob (ν : Measure S) [IsProbabilityMeasure ν] (n : ℕ) : IsProbabilityMeasure (startTraj Q ν n) := by
  unfold startTraj
  infer_instance

theorem lintegral_startTraj (ν : Measure S) (n : ℕ) {F : (ℕ → S) → ℝ≥0∞} (hF : Measurable F) :
    ∫⁻ l, F l ∂startTraj Q ν n = ∫⁻ x, ∫⁻ l, F l ∂traj Q n x ∂ν :=
  Measure.lintegral_bind (traj Q n).measurable.aemeasurable hF.aemeasurable

variable (ν : Measure S) [IsProbabilityMeasure ν] {b T n : ℤ → ℕ}

theorem Erg.one (h : Erg Q p) (hT : ∀ i, 0 < T i) (hbT : ∀ N, ∀ᶠ i in atTop, N ≤ b i ∧ N ≤ T i) {r : ℕ}
    (hn : ∀ i, ∀ j < r, b i + j * T i < n i) {j : ℕ} (hj : j < r) :
    OneLimit p atTop (fun i => startTraj Q ν (n i)) (fun i j l => l (b i + j * T i)) j := by
  intro f hf M hM hfM
  have h1 := h.independent (fs := [f]) (by simpa using hf) hM (by simpa using hfM) ν (b := fun i => b i + j * T i) (T := T)
    fun N => (hbT N).mono fun i hi => ⟨by omega, hi.2⟩
  simp only [List.map_cons, List.map_nil, List.prod_cons, List.prod_nil, mul_one] at h1
  refine h1.congr fun i => ?_
  rw [lintegral_startTraj ν _ (F := fun l => f (l (b i + j * T i))) (hf.comp (measurable_pi_apply _))]
  refine lintegral_congr fun x => ?_
  rw [← lintegral_prodAt Q (hT i) (fs := [f]) (by simpa using hf) _ (n i) (fun k hk => by
    have : k = 0 := by simpa using hk
    subst this
    simpa using hn i j hj)]
  simp [prodAt]

theorem Erg.pair (h : Erg Q p) (hT : ∀ i, 0 < T i) (hbT : ∀ N, ∀ᶠ i in atTop, N ≤ b i ∧ N ≤ T i) {r : ℕ}
    (hn : ∀ i, ∀ j < r, b i + j * T i < n i) {j k : ℕ} (hk : k < r) (hjk : j < k) :
    PairLimit p atTop (fun i => startTraj Q ν (n i)) (fun i j l => l (b i + j * T i)) j k := by
  intro f f' hf hf' M hM hfM hfM'
  have hm : ∀ g ∈ [f, f'], Measurable g := by simpa using ⟨hf, hf'⟩
  have h1 := h.independent (fs := [f, f']) hm hM (by simpa using ⟨hfM, hfM'⟩) ν (b := fun i => b i + j * T i)
    (T := fun i => (k - j) * T i) fun N => (hbT N).mono fun i hi => ⟨by omega, hi.2.trans (Nat.le_mul_of_pos_left _ (by omega))⟩
  simp only [List.map_cons, List.map_nil, List.prod_cons, List.prod_nil, mul_one] at h1
  refine h1.congr fun i => ?_
  rw [lintegral_startTraj ν _ (F := fun l => f (l (b i + j * T i)) * f' (l (b i + k * T i)))
    ((hf.comp (measurable_pi_apply _)).mul (hf'.comp (measurable_pi_apply _)))]
  refine lintegral_congr fun x => ?_
  have e : b i + j * T i + (k - j) * T i = b i + k * T i := by
    rw [Nat.add_assoc, ← Nat.add_mul, Nat.add_sub_cancel' hjk.le]
  rw [← lintegral_prodAt Q (Nat.mul_pos (by omega) (hT i)) hm _ (n i) (fun l hl => by
    have hl : l = 0 ∨ l = 1 := by
      simp at hl
      omega
    rcases hl with rfl | rfl
    · simpa using hn i j (by omega)
    · rw [Nat.one_mul, e]
      exact hn i k hk)]
  simp [prodAt, e]

theorem PairLimit.symm {I Ω : Type} [MeasurableSpace Ω] {F : Filter I} {P : I → Measure Ω} {X : I → ℕ → Ω → S} {j k : ℕ}
    (h : PairLimit p F P X j k) : PairLimit p F P X k j := by
  intro f f' hf hf' M hM hfM hfM'
  rw [mul_comm]
  refine (h f' f hf' hf M hM hfM' hfM).congr fun i => lintegral_congr fun w => mul_comm _ _

/-- The mean squared error of an average over states that are far apart and far from the start. -/
theorem Erg.mse (h : Erg Q p) (hT : ∀ i, 0 < T i) (hbT : ∀ N, ∀ᶠ i in atTop, N ≤ b i ∧ N ≤ T i) {r : ℕ} (hr : 0 < r)
    (hn : ∀ i, ∀ j < r, b i + j * T i < n i) {f : S → ℝ} (hf : Measurable f) {B : ℝ}
    (hB : ∀ k x, ∫⁻ y, ENNReal.ofReal (f y ^ 4) ∂pw Q (k + 1) x ≤ ENNReal.ofReal B) :
    Tendsto (fun i => ∫⁻ x, ∫⁻ l, ENNReal.ofReal (((r : ℝ)⁻¹ * ∑ j ∈ Finset.range r, f (l (b i + j * T i)) -
      ∫ x, f x ∂p) ^ 2) ∂traj Q (n i) x ∂ν) atTop (𝓝 (ENNReal.ofReal ((∫ x, (f x - ∫ x, f x ∂p) ^ 2 ∂p) / r))) := by
  have h1 := mse_limit (P := fun i => startTraj Q ν (n i)) (X := fun i j l => l (b i + j * T i)) hr
    (fun i j => measurable_pi_apply _) (fun j hj => h.one ν hT hbT hn hj) (fun j hj k hk hjk => by
      rcases Nat.lt_or_gt_of_ne hjk with hl | hl
      · exact h.pair ν hT hbT hn hk hl
      · exact (h.pair ν hT hbT hn hj hl).symm) hf (B := B) (fun j hj => Eventually.of_forall fun i => by
      rw [lintegral_startTraj ν _ (F := fun l => ENNReal.ofReal (f (l (b i + j * T i)) ^ 4))
        ((hf.comp (measurable_pi_apply _)).pow_const 4).ennreal_ofReal]
      refine lintegral_le_of_le fun x => ?_
      rw [lintegral_traj_eval Q (hn i j hj) x (f := fun y => ENNReal.ofReal (f y ^ 4)) (hf.pow_const 4).ennreal_ofReal]
      exact hB _ _)
  refine h1.congr fun i => ?_
  refine lintegral_startTraj ν _ (F := fun l => ENNReal.ofReal (((r : ℝ)⁻¹ * ∑ j ∈ Finset.range r, f (l (b i + j * T i)) -
      ∫ x, f x ∂p) ^ 2)) ?_
  exact ((((Finset.measurable_sum _ fun j _ => hf.comp (measurable_pi_apply (b i + j * T i))).const_mul _).sub_const
    _).pow_const 2).ennreal_ofReal

/-! ## A law of large numbers -/

theorem Erg.moment (h : Erg Q p) {f : S → ℝ} (hf : Measurable f) {B : ℝ} (x : S)
    (hB : ∀ k, ∫⁻ y, ENNReal.ofReal (f y ^ 4) ∂pw Q (k + 1) x ≤ ENNReal.ofReal B) :
    ∫⁻ y, ENNReal.ofReal (f y ^ 4) ∂p ≤ ENNReal.ofReal B :=
  moment_limit (I := ℕ) (F := atTop) (P := fun k => pw Q (k + 1) x) (X := fun _ _ y => y) (j := 0)
    (fun g hg M hM hgM => (tendsto_add_atTop_iff_nat (f := fun k => ∫⁻ y, g y ∂pw Q k x) 1).2 (h g hg M hM hgM x)) hf
    (Eventually.of_forall hB)

theorem sq_sub_clamp {M : ℝ} (hM : 0 < M) (x : ℝ) : (x - clamp M x) ^ 2 ≤ (M⁻¹) ^ 2 * x ^ 4 := by
  by_cases h : |x| ≤ M
  · rw [clamp_eq h, sub_self]
    have : (0 : ℝ) ^ 2 = 0 := by norm_num
    rw [this]
    positivity
  · have h1 : M ^ 2 ≤ x ^ 2 := by
      rw [← sq_abs x]
      exact pow_le_pow_left₀ hM.le (not_le.1 h).le 2
    have h2 : (x - clamp M x) ^ 2 ≤ x ^ 2 := by
      unfold clamp
      rcases lt_abs.1 (not_le.1 h) with hx | hx
      · rw [min_eq_left hx.le, max_eq_right (by linarith)]
        nlinarith
      · rw [min_eq_right (by linarith), max_eq_left (by linarith)]
        nlinarith
    refine h2.trans ?_
    rw [inv_pow, ← div_eq_inv_mul, le_div_iff₀ (by positivity)]
    nlinarith [sq_nonneg x]

theorem Erg.lln_moment (h : Erg Q p) {f : S → ℝ} (hf : Measurable f) {B : ℝ} (x : S)
    (hB : ∀ k, ∫⁻ y, ENNReal.ofReal (f y ^ 4) ∂pw Q (k + 1) x ≤ ENNReal.ofReal B) :
    Tendsto (fun n : ℕ => ∫⁻ l, ENNReal.ofReal (((n : ℝ)⁻¹ * ∑ i ∈ Finset.range n, f (l i) - ∫ z, f z ∂p) ^ 2)
      ∂traj Q n x) atTop (𝓝 0) := by
  obtain ⟨p4, -, p2, p1⟩ := four_integrable hf (h.moment hf x hB)
  have hcm : ∀ k : ℕ, Measurable fun x => clamp k (f x) := fun k => (clamp_measurable k).comp hf
  have hcb : ∀ (k : ℕ) x, |clamp k (f x)| ≤ k := fun k x => abs_clamp_le k.cast_nonneg _
  have e2 : Tendsto (fun k : ℕ => ∫ x, clamp k (f x) ∂p) atTop (𝓝 (∫ x, f x ∂p)) :=
    tendsto_integral_of_dominated_convergence (fun x => |f x|) (fun k => (hcm _).aestronglyMeasurable)
      p1.abs (fun k => Eventually.of_forall fun x => abs_clamp_le_abs (Nat.cast_nonneg _) _)
      (Eventually.of_forall fun x => clamp_tendsto (f x))
  -- the error of the truncation
  have h1 : ∀ k : ℕ, 0 < k → ∀ n : ℕ, ∫⁻ l, ENNReal.ofReal (((n : ℝ)⁻¹ * ∑ i ∈ Finset.range n, f (l i) - ∫ z, f z ∂p) ^ 2)
      ∂traj Q n x ≤ ENNReal.ofReal (3 * ((k : ℝ)⁻¹ ^ 2 * B)) +
        3 * ∫⁻ l, ENNReal.ofReal (((n : ℝ)⁻¹ * ∑ i ∈ Finset.range n, clamp k (f (l i)) - ∫ z, clamp k (f z) ∂p) ^ 2) ∂traj Q n x +
        ENNReal.ofReal (3 * (∫ z, clamp k (f z) ∂p - ∫ z, f z ∂p) ^ 2) := fun k hk n => by
    obtain ⟨mu, hmu⟩ : ∃ mu, mu = ∫ z, f z ∂p := ⟨_, rfl⟩
    obtain ⟨muk, hmuk⟩ : ∃ mu, mu = ∫ z, clamp k (f z) ∂p := ⟨_, rfl⟩
    rw [← hmu, ← hmuk]
    have hk0 : (0 : ℝ) < k := by exact_mod_cast hk
    have hb : ∀ l : ℕ → S, ENNReal.ofReal (((n : ℝ)⁻¹ * ∑ i ∈ Finset.range n, f (l i) - mu) ^ 2) ≤
        ENNReal.ofReal (3 * ((k : ℝ)⁻¹ ^ 2)) * (ENNReal.ofReal (n : ℝ)⁻¹ * ∑ i ∈ Finset.range n, ENNReal.ofReal (f (l i) ^ 4)) +
        3 * ENNReal.ofReal (((n : ℝ)⁻¹ * ∑ i ∈ Finset.range n, clamp k (f (l i)) - muk) ^ 2) +
          ENNReal.ofReal (3 * (muk - mu) ^ 2) := fun l => by
      have i1 : ((n : ℝ)⁻¹ * ∑ i ∈ Finset.range n, (f (l i) - clamp k (f (l i)))) ^ 2 ≤
          (k : ℝ)⁻¹ ^ 2 * ((n : ℝ)⁻¹ * ∑ i ∈ Finset.range n, f (l i) ^ 4) := by
        rw [mul_pow]
        have c1 := sq_sum_le_card_mul_sum_sq (s := Finset.range n) (f := fun i => f (l i) - clamp k (f (l i)))
        rw [Finset.card_range] at c1
        have c2 : ∑ i ∈ Finset.range n, (f (l i) - clamp k (f (l i))) ^ 2 ≤ (k : ℝ)⁻¹ ^ 2 * ∑ i ∈ Finset.range n, f (l i) ^ 4 := by
          rw [Finset.mul_sum]
          exact Finset.sum_le_sum fun i _ => sq_sub_clamp hk0 _
        have c3 : (n : ℝ)⁻¹ ^ 2 * n = (n : ℝ)⁻¹ := by
          by_cases h0 : (n : ℝ) = 0
          · rw [h0]; simp
          · field_simp
        calc (n : ℝ)⁻¹ ^ 2 * (∑ i ∈ Finset.range n, (f (l i) - clamp k (f (l i)))) ^ 2
            ≤ (n : ℝ)⁻¹ ^ 2 * (n * ((k : ℝ)⁻¹ ^ 2 * ∑ i ∈ Finset.range n, f (l i) ^ 4)) :=
              mul_le_mul_of_nonneg_left (c1.trans (mul_le_mul_of_nonneg_left c2 n.cast_nonneg)) (by positivity)
          _ = ((n : ℝ)⁻¹ ^ 2 * n) * ((k : ℝ)⁻¹ ^ 2 * ∑ i ∈ Finset.range n, f (l i) ^ 4) := by ring
          _ = _ := by rw [c3]; ring
      rw [Finset.sum_sub_distrib, mul_sub] at i1
      obtain ⟨a, ha⟩ : ∃ a, a = (n : ℝ)⁻¹ * ∑ i ∈ Finset.range n, f (l i) := ⟨_, rfl⟩
      obtain ⟨c, hc⟩ : ∃ c, c = (n : ℝ)⁻¹ * ∑ i ∈ Finset.range n, clamp k (f (l i)) := ⟨_, rfl⟩
      rw [← ha, ← hc] at i1
      rw [← ha, ← hc]
      have i2 : (a - mu) ^ 2 ≤ 3 * ((k : ℝ)⁻¹ ^ 2) * ((n : ℝ)⁻¹ * ∑ i ∈ Finset.range n, f (l i) ^ 4) + 3 * (c - muk) ^ 2 +
          3 * (muk - mu) ^ 2 := by
        nlinarith [sq_nonneg ((a - c) - (c - muk)), sq_nonneg ((a - c) - (muk - mu)), sq_nonneg ((c - muk) - (muk - mu))]
      refine (ENNReal.ofReal_le_ofReal i2).trans (le_of_eq ?_)
      have hs : 0 ≤ ∑ i ∈ Finset.range n, f (l i) ^ 4 := Finset.sum_nonneg fun i _ => by positivity
      rw [ENNReal.ofReal_add (by positivity) (by positivity), ENNReal.ofReal_add (by positivity) (by positivity),
        ENNReal.ofReal_mul (p := 3 * ((k : ℝ)⁻¹ ^ 2)) (by positivity), ENNReal.ofReal_mul (p := (n : ℝ)⁻¹) (by positivity),
        ENNReal.ofReal_sum_of_nonneg fun i _ => by positivity, ENNReal.ofReal_mul (p := 3) (q := (c - muk) ^ 2) (by norm_num),
        ENNReal.ofReal_ofNat]
    have hm4 : ∀ i, Measurable fun l : ℕ → S => ENNReal.ofReal (f (l i) ^ 4) := fun i =>
      ((hf.comp (measurable_pi_apply i)).pow_const 4).ennreal_ofReal
    have hmc : Measurable fun l : ℕ → S =>
        ENNReal.ofReal (((n : ℝ)⁻¹ * ∑ i ∈ Finset.range n, clamp k (f (l i)) - muk) ^ 2) :=
      ((((measurable_sum_seq (hcm k) n).const_mul _).sub_const _).pow_const 2).ennreal_ofReal
    refine (lintegral_mono hb).trans ?_
    rw [lintegral_add_right _ measurable_const, lintegral_add_right _ (hmc.const_mul 3), lintegral_const_mul _ hmc,
      lintegral_const_mul' _ _ ENNReal.ofReal_ne_top, lintegral_const_mul' _ _ ENNReal.ofReal_ne_top,
      lintegral_finsetSum _ fun i _ => hm4 i, lintegral_const, measure_univ, mul_one]
    gcongr
    have hs : ∑ i ∈ Finset.range n, ∫⁻ l, ENNReal.ofReal (f (l i) ^ 4) ∂traj Q n x ≤ n * ENNReal.ofReal B := by
      refine (Finset.sum_le_sum (g := fun _ => ENNReal.ofReal B) fun i hi => ?_).trans (by simp)
      rw [lintegral_traj_eval Q (Finset.mem_range.1 hi) x (f := fun y => ENNReal.ofReal (f y ^ 4)) (hf.pow_const 4).ennreal_ofReal]
      exact hB i
    calc ENNReal.ofReal (3 * (k : ℝ)⁻¹ ^ 2) * (ENNReal.ofReal (n : ℝ)⁻¹ * ∑ i ∈ Finset.range n, ∫⁻ l, ENNReal.ofReal (f (l i) ^ 4) ∂traj Q n x)
        ≤ ENNReal.ofReal (3 * (k : ℝ)⁻¹ ^ 2) * (ENNReal.ofReal (n : ℝ)⁻¹ * (n * ENNReal.ofReal B)) := by gcongr
      _ ≤ ENNReal.ofReal (3 * (k : ℝ)⁻¹ ^ 2) * ENNReal.ofReal B := by
          refine mul_le_mul_right ?_ _
          rw [← mul_assoc, ← ENNReal.ofReal_natCast, ← ENNReal.ofReal_mul (by positivity)]
          refine (mul_le_mul_left (b := ENNReal.ofReal ((n : ℝ)⁻¹ * n)) (c := 1) ?_ _).trans (by rw [one_mul])
          rw [← ENNReal.ofReal_one]
          exact ENNReal.ofReal_le_ofReal inv_mul_le_one
      _ = ENNReal.ofReal (3 * ((k : ℝ)⁻¹ ^ 2 * B)) := by rw [← ENNReal.ofReal_mul (by positivity), mul_assoc]
  have t1 : Tendsto (fun k : ℕ => ENNReal.ofReal (3 * ((k : ℝ)⁻¹ ^ 2 * B))) atTop (𝓝 0) := by
    have := (((tendsto_inv_atTop_nhds_zero_nat (𝕜 := ℝ)).pow 2).mul_const B).const_mul 3
    have := (ENNReal.continuous_ofReal.tendsto _).comp this
    simpa [Function.comp_def] using this
  have t2 : Tendsto (fun k : ℕ => ENNReal.ofReal (3 * (∫ z, clamp k (f z) ∂p - ∫ z, f z ∂p) ^ 2)) atTop (𝓝 0) := by
    have := ((e2.sub_const (∫ z, f z ∂p)).pow 2).const_mul 3
    have := (ENNReal.continuous_ofReal.tendsto _).comp this
    simpa [Function.comp_def] using this
  refine ENNReal.tendsto_nhds_zero.2 fun e he => ?_
  have he3 : 0 < e / 3 := ENNReal.div_pos he.ne' (by simp)
  obtain ⟨k, hk1, hk2, hk0⟩ := ((ENNReal.tendsto_nhds_zero.1 t1 _ he3).and ((ENNReal.tendsto_nhds_zero.1 t2 _ he3).and
    (eventually_gt_atTop 0))).exists
  have t3 := ENNReal.Tendsto.const_mul (a := 3) (h.lln_sq (hcm k) (hcb k) x) (Or.inr (by simp))
  rw [mul_zero] at t3
  refine (ENNReal.tendsto_nhds_zero.1 t3 _ he3).mono fun n hn => (h1 k hk0 n).trans ?_
  calc _ ≤ e / 3 + e / 3 + e / 3 := by gcongr
    _ = e := ENNReal.add_thirds e

end Gpcm.Markov
