import Verif.Model.Plots
import Verif.Model.Fit
import Verif.Spec.Fourier
import Verif.Props.RGPCMGramProps
import Verif.Props.FitProps

/-!
# What the predicted Fourier features are (C125)
-/

open Matrix Real MeasureTheory

namespace Gpcm

open Rgpcm

open Spec.R in
/-- The features are orthogonal on `[a, b]`. -/
theorem wave_orth {p : Params} (hab : p.a < p.b) (hM : 0 ≤ p.M) (m n : ℕ) :
    ∫ t in p.a..p.b, wave p m t * wave p n t =
      if m = n then (p.b - p.a) / 2 * (if m = 0 then 2 else 1) else 0 := by
  have hfreq : ∀ m, freq p m = 2 * π * (harm p.M m : ℤ) / (p.b - p.a) := fun m => by
    unfold freq harm
    split <;> simp
  have hform : ∀ m t, wave p m t =
      (if (m : ℤ) ≤ p.M then 1 else 0) * cos (2 * π * (harm p.M m : ℤ) / (p.b - p.a) * (t - p.a)) +
      (if (m : ℤ) ≤ p.M then 0 else 1) * sin (2 * π * (harm p.M m : ℤ) / (p.b - p.a) * (t - p.a)) := by
    intro m t
    rw [← hfreq, wave]
    split <;> ring
  simp_rw [hform]
  rw [period_cc hab]
  have hz : ∀ m, harm p.M m = 0 → m = 0 := fun m h => by
    unfold harm at h
    split at h <;> omega
  by_cases hmn : m = n
  · subst hmn
    rw [if_pos rfl]
    simp only [sub_self, if_true]
    by_cases h0 : m = 0
    · subst h0
      have hh : harm p.M 0 = 0 := by simp [harm, hM]
      simp only [hh, Nat.cast_zero, hM, if_true]
      norm_num
      ring
    · have h1 : ¬ harm p.M m + harm p.M m = 0 := fun h => h0 (hz m (by omega))
      rw [if_neg h1, if_neg h0]
      split <;> ring
  · rw [if_neg hmn]
    have h1 : ¬ (harm p.M m + harm p.M n = 0) := by
      unfold harm
      split <;> split <;> omega
    rw [if_neg h1]
    by_cases h2 : harm p.M m - harm p.M n = 0
    · have h4 : ((m : ℤ) ≤ p.M ∧ ¬ (n : ℤ) ≤ p.M) ∨ (¬ (m : ℤ) ≤ p.M ∧ (n : ℤ) ≤ p.M) := by
        unfold harm at h2
        split at h2 <;> split at h2 <;> omega
      rcases h4 with ⟨h5, h6⟩ | ⟨h5, h6⟩
      · simp only [h5, h6, if_true, if_false]
        ring
      · simp only [h5, h6, if_true, if_false]
        ring
    · rw [if_neg h2]
      ring

open Spec.R in
/-- The coefficient of a feature in terms of the feature. -/
theorem featureCoef_eq {p : Params} (hM : 0 ≤ p.M) (f : ℝ → ℝ) (m : ℕ) :
    Spec.featureCoef p.a p.b p.M f m =
      (if m = 0 then 1 else 2) / (p.b - p.a) * ∫ t in p.a..p.b, f t * wave p m t := by
  unfold Spec.featureCoef
  by_cases h0 : m = 0
  · subst h0
    rw [if_pos rfl, if_pos rfl, Spec.meanCoef]
    congr 1
    refine intervalIntegral.integral_congr fun t _ => ?_
    simp [wave, freq, hM]
  · rw [if_neg h0, if_neg h0]
    split
    · rename_i h
      rw [Spec.cosCoef]
      congr 1
      refine intervalIntegral.integral_congr fun t _ => ?_
      simp only [wave, freq, if_pos h]
    · rename_i h
      rw [Spec.sinCoef]
      congr 1
      refine intervalIntegral.integral_congr fun t _ => ?_
      have e : (((m : ℤ) - p.M).toNat : ℝ) = (m : ℝ) - p.M := by
        have : (((m : ℤ) - p.M).toNat : ℤ) = (m : ℤ) - p.M := Int.toNat_of_nonneg (by omega)
        exact_mod_cast this
      simp only [wave, freq, if_neg h, e]

open Spec.R in
/-- The coefficients of a combination of features. -/
theorem featureCoef_sum {p : Params} (hab : p.a < p.b) (hM : 0 ≤ p.M) {n : ℕ} {ms : Fin n → ℕ}
    (hms : Function.Injective ms) (z : Fin n → ℝ) (i : Fin n) :
    Spec.featureCoef p.a p.b p.M (fun τ => ∑ j, phi p (ms j) τ * z j) (ms i) = z i := by
  have hL : p.b - p.a ≠ 0 := (sub_pos.2 hab).ne'
  rw [featureCoef_eq hM]
  have e : ∫ t in p.a..p.b, (∑ j, phi p (ms j) t * z j) * wave p (ms i) t =
      ∫ t in p.a..p.b, ∑ j, z j * (wave p (ms j) t * wave p (ms i) t) := by
    refine intervalIntegral.integral_congr fun t ht => ?_
    rw [Set.uIcc_of_le hab.le] at ht
    simp only [Finset.sum_mul]
    refine Finset.sum_congr rfl fun j _ => ?_
    rw [phi_inside p _ ht.1 ht.2]
    ring
  have hc : ∀ m, Continuous (wave p m) := fun m =>
    continuous_iff_continuousAt.2 fun t => (wave_diff p m t).continuousAt
  rw [e, intervalIntegral.integral_finsetSum fun j _ => Continuous.intervalIntegrable (by
    have := hc (ms j); have := hc (ms i); fun_prop) _ _]
  simp_rw [intervalIntegral.integral_const_mul, wave_orth hab hM]
  rw [Finset.sum_eq_single i]
  · rw [if_pos rfl]
    split <;> field_simp
  · intro j _ hj
    rw [if_neg fun h => hj (hms h), mul_zero]
  · intro h
    exact absurd (Finset.mem_univ i) h

theorem noiseMean_eq {p : Spec.R.Params} {n : ℕ} {ms : Fin n → ℕ} {K : Matrix (Fin n) (Fin n) ℝ} (hK : K.PosDef)
    (z : Fin n → ℝ) (τ : ℝ) : Spec.noiseMean p ms K (K *ᵥ z) τ = ∑ j, Spec.R.phi p (ms j) τ * z j := by
  unfold Spec.noiseMean
  rw [mulVec_mulVec, nonsing_inv_mul _ ((isUnit_iff_isUnit_det _).1 hK.isUnit), one_mulVec]

theorem sampleVar_eq {κ : Type} (l : List (κ → ℝ)) (hl : l ≠ []) (i : κ) :
    Fit.sampleMean (l.map fun z i => z i ^ 2) i - Fit.sampleMean l i ^ 2 =
      Util.mean (l.map fun z => (z i - Fit.sampleMean l i) ^ 2) := by
  have hn : (l.length : ℝ) ≠ 0 := by exact_mod_cast fun h => hl (List.length_eq_zero_iff.1 h)
  obtain ⟨m, hm⟩ : ∃ m, m = Fit.sampleMean l i := ⟨_, rfl⟩
  have hsum : (l.map fun z => z i).sum = m * l.length := by
    rw [hm, Fit.sampleMean, div_mul_cancel₀ _ hn]
  have hexp : (l.map fun z => (z i - m) ^ 2).sum =
      (l.map fun z => z i ^ 2).sum - 2 * m * (l.map fun z => z i).sum + l.length * m ^ 2 := by
    clear hsum hm hn hl
    induction l with
    | nil => simp
    | cons z l ih =>
      simp only [List.map_cons, List.sum_cons, ih, List.length_cons]
      push_cast
      ring
  rw [← hm]
  simp only [Util.mean, Fit.sampleMean, List.length_map, List.map_map, Function.comp_def]
  rw [hexp, hsum]
  field_simp
  ring

/-- **C125** The predicted Fourier features are the mean and the variance, over the samples, of the Fourier coefficients
on `[a, b]` of the noise given the inducing variables. -/
theorem c125_coefficients {g : RgpcmModel} (hl : 0 < g.lam) (hab : g.a < g.b) (hM : 0 ≤ g.mMax) (hd : g.ms.Nodup)
    (p : Fit.PredictZ (Fin g.ms.length)) (num : ℤ) (hs : p.samples num ≠ []) :
    ∃ mean var, Fit.predictFourier .structured p num = .ok (mean, var) ∧ ∀ i,
      let coef := fun z => Spec.featureCoef g.a g.b g.mMax
        (Spec.noiseMean (specOf g) g.ms.get g.computeKz (g.computeKz *ᵥ z)) (g.ms.get i)
      mean i = Util.mean ((p.samples num).map coef) ∧
      var i = Util.mean ((p.samples num).map fun z => (coef z - mean i) ^ 2) ∧ 0 ≤ var i := by
  have hinj : Function.Injective g.ms.get := List.nodup_iff_injective_get.1 hd
  have hc : ∀ i z, Spec.featureCoef g.a g.b g.mMax
      (Spec.noiseMean (specOf g) g.ms.get g.computeKz (g.computeKz *ᵥ z)) (g.ms.get i) = z i := fun i z => by
    have e : Spec.noiseMean (specOf g) g.ms.get g.computeKz (g.computeKz *ᵥ z) =
        fun τ => ∑ j, Spec.R.phi (specOf g) (g.ms.get j) τ * z j :=
      funext fun τ => noiseMean_eq (c73_posDef hl hab) z τ
    rw [e]
    exact featureCoef_sum (p := specOf g) hab hM hinj z i
  refine ⟨Fit.sampleMean (p.samples num), fun i => Fit.sampleMean ((p.samples num).map fun z i => z i ^ 2) i -
    Fit.sampleMean (p.samples num) i ^ 2, ?_, fun i => ?_⟩
  · simp only [Fit.predictFourier, Fit.predictZ, Fit.structuredPredictZ, Option.getD_some, if_neg hs]
  · simp only [hc]
    exact ⟨by simp [Util.mean, Fit.sampleMean], sampleVar_eq _ hs i, Fit.sample_var_nonneg _ i⟩

/-- **C125** The means are the Fourier coefficients of the predicted noise: of the average over the samples. -/
theorem c125_predicted_noise {g : RgpcmModel} (hl : 0 < g.lam) (hab : g.a < g.b) (hM : 0 ≤ g.mMax) (hd : g.ms.Nodup)
    (p : Fit.PredictZ (Fin g.ms.length)) (num : ℤ) (hs : p.samples num ≠ []) :
    ∃ mean var, Fit.predictFourier .structured p num = .ok (mean, var) ∧ ∀ i,
      mean i = Spec.featureCoef g.a g.b g.mMax (fun τ => Util.mean ((p.samples num).map fun z =>
        Spec.noiseMean (specOf g) g.ms.get g.computeKz (g.computeKz *ᵥ z) τ)) (g.ms.get i) := by
  have hinj : Function.Injective g.ms.get := List.nodup_iff_injective_get.1 hd
  refine ⟨Fit.sampleMean (p.samples num), fun i => Fit.sampleMean ((p.samples num).map fun z i => z i ^ 2) i -
    Fit.sampleMean (p.samples num) i ^ 2, ?_, fun i => ?_⟩
  · simp only [Fit.predictFourier, Fit.predictZ, Fit.structuredPredictZ, Option.getD_some, if_neg hs]
  · have e : (fun τ => Util.mean ((p.samples num).map fun z =>
        Spec.noiseMean (specOf g) g.ms.get g.computeKz (g.computeKz *ᵥ z) τ)) =
        fun τ => ∑ j, Spec.R.phi (specOf g) (g.ms.get j) τ * Fit.sampleMean (p.samples num) j := by
      funext τ
      simp only [noiseMean_eq (c73_posDef hl hab), Util.mean, Fit.sampleMean, List.length_map]
      generalize p.samples num = l
      have : (l.map fun z => ∑ j, Spec.R.phi (specOf g) (g.ms.get j) τ * z j).sum =
          ∑ j, Spec.R.phi (specOf g) (g.ms.get j) τ * (l.map fun z => z j).sum := by
        induction l with
        | nil => simp
        | cons z l ih => simp only [List.map_cons, List.sum_cons, ih, mul_add, Finset.sum_add_distrib]
      rw [this, Finset.sum_div]
      exact Finset.sum_congr rfl fun j _ => by ring
    rw [e]
    exact (featureCoef_sum (p := specOf g) hab hM hinj _ i).symm

example : (0 : ℝ) < 1 ∧ (List.range 5).Nodup ∧
    (⟨fun _ => [fun i => (i : ℝ), fun _ => 2], fun _ => 0, fun _ => 1⟩ : Fit.PredictZ (Fin 5)).samples 1000 ≠ [] :=
  ⟨one_pos, List.nodup_range, by simp⟩

end Gpcm
