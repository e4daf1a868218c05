import Verif.Props.FftProps
import Verif.Lemmas.UtilLemmas
import Mathlib.Data.List.GetD

/-! # Helper lemmas: the spectrum of an autocovariance -/

open Real Finset

namespace Gpcm.Util

/-- The discrete-time Fourier transform of a symmetric sequence, given for non-negative lags. -/
noncomputable def Spec.cosSum (k : List ℝ) (θ : ℝ) : ℝ :=
  k.getD 0 0 + 2 * ∑ l ∈ range (k.length - 1), k.getD (l + 1) 0 * cos ((l + 1 : ℕ) * θ)

theorem sum_sym (a : ℕ → ℝ) {L : ℕ} (hL : 0 < L) (haL : a L = 0) (θ : ℝ) {f : ℕ} (hθ : (2 * L : ℕ) * θ = f * (2 * π)) :
    ∑ j ∈ range (2 * L), a (min j (2 * L - j)) * cos (j * θ) = a 0 + 2 * ∑ l ∈ range (L - 1), a (l + 1) * cos ((l + 1 : ℕ) * θ) := by
  obtain ⟨M, rfl⟩ : ∃ M, L = M + 1 := ⟨L - 1, by omega⟩
  rw [two_mul (M + 1), sum_range_add, sum_range_succ', sum_range_succ', Nat.add_sub_cancel, two_mul]
  have h0 : ∀ j ∈ range M, a (min (j + 1) (M + 1 + (M + 1) - (j + 1))) * cos ((j + 1 : ℕ) * θ) = a (j + 1) * cos ((j + 1 : ℕ) * θ) :=
    fun j hj => by rw [min_eq_left (by have := mem_range.1 hj; omega)]
  have h1 : ∀ j ∈ range M, a (min (M + 1 + (j + 1)) (M + 1 + (M + 1) - (M + 1 + (j + 1)))) * cos ((M + 1 + (j + 1) : ℕ) * θ) =
      a (M - 1 - j + 1) * cos ((M - 1 - j + 1 : ℕ) * θ) := fun j hj => by
    have hj := mem_range.1 hj
    rw [min_eq_right (by omega), show M + 1 + (M + 1) - (M + 1 + (j + 1)) = M - 1 - j + 1 by omega]
    congr 1
    have : ((M + 1 + (j + 1) : ℕ) : ℝ) * θ = f * (2 * π) - (M - 1 - j + 1 : ℕ) * θ := by
      rw [← hθ, ← sub_mul]
      congr 1
      have : (2 * (M + 1) : ℕ) = (M + 1 + (j + 1)) + (M - 1 - j + 1) := by omega
      rw [this]
      push_cast
      ring
    rw [this, cos_nat_mul_two_pi_sub]
  rw [sum_congr rfl h0, sum_congr rfl h1, sum_range_reflect (fun j => a (j + 1) * cos ((j + 1 : ℕ) * θ)) M]
  simp [haL]
  ring

theorem fft_re {N : ℕ} (x : Fin N → ℝ) (f : Fin N) :
    (fft (fun j => (x j : ℂ)) f).re = ∑ j, x j * cos ((j : ℕ) * (2 * π * (f : ℕ) / N)) := by
  unfold fft
  rw [Complex.re_sum]
  refine sum_congr rfl fun j _ => ?_
  have : (-2 * π * Complex.I * (j : ℕ) * (f : ℕ) / N : ℂ) = ((-((j : ℕ) * (2 * π * (f : ℕ) / N)) : ℝ) : ℂ) * Complex.I := by
    push_cast
    ring
  rw [this, Complex.re_ofReal_mul, Complex.exp_ofReal_mul_I_re, cos_neg]

theorem getD_append_zeros (k : List ℝ) (p j : ℕ) : (k ++ List.replicate p 0).getD j 0 = k.getD j 0 := by
  by_cases h : j < k.length
  · simp [List.getD_eq_getElem?_getD, List.getElem?_append_left h]
  · rw [List.getD_eq_getElem?_getD, List.getElem?_append_right (by omega), List.getD_eq_default _ _ (by omega)]
    by_cases h2 : j - k.length < p
    · simp [h2]
    · simp [h2]

/-- With zero padding, the transform in `estimate_psd` is the transform of the sequence. -/
theorem rawPsd_cosSum {k : List ℝ} (hk : k ≠ []) {nZero : ℕ} (hz : 0 < nZero) {f : ℕ} (hf : f < (symmetrise k nZero).length) :
    ((rawPsd k nZero).getD f 0).re = Spec.cosSum k (2 * π * f / (symmetrise k nZero).length) := by
  have hkl : 0 < k.length := List.length_pos_iff.2 hk
  have hl := length_symmetrise k nZero (by omega)
  obtain ⟨L, hL⟩ : ∃ L, k.length + nZero = L + 1 := ⟨k.length + nZero - 1, by omega⟩
  have hN : (symmetrise k nZero).length = 2 * L := by omega
  have e1 : ((rawPsd k nZero).getD f 0) = fft (fun j => (((symmetrise k nZero).get j : ℝ) : ℂ)) ⟨f, hf⟩ := by
    unfold rawPsd
    rw [List.getD_eq_getElem _ _ (by simpa using hf), List.getElem_ofFn]
  rw [e1, fft_re]
  obtain ⟨θ, hθ⟩ : ∃ θ : ℝ, θ = 2 * π * f / (symmetrise k nZero).length := ⟨_, rfl⟩
  rw [← hθ]
  have hθ' : ((2 * L : ℕ) : ℝ) * θ = f * (2 * π) := by
    have : ((2 * L : ℕ) : ℝ) ≠ 0 := by
      have : 2 * L ≠ 0 := by omega
      exact_mod_cast this
    rw [hθ, hN]
    field_simp
  have e2 : ∑ j, (symmetrise k nZero).get j * cos ((j : ℕ) * θ) =
      ∑ j ∈ range (2 * L), k.getD (min j (2 * L - j)) 0 * cos (j * θ) := by
    rw [← hN, ← Fin.sum_univ_eq_sum_range (fun j => k.getD (min j ((symmetrise k nZero).length - j)) 0 * cos (j * θ))]
    refine sum_congr rfl fun j _ => ?_
    congr 1
    have h1 := symmetrise_get k nZero j.2
    rw [List.getElem?_eq_getElem j.2] at h1
    rw [← getD_append_zeros k nZero, List.getD_eq_getElem?_getD, ← h1]
    rfl
  rw [e2, sum_sym (fun j => k.getD j 0) (by omega) (List.getD_eq_default _ _ (by omega)) θ hθ', Spec.cosSum]
  congr 2
  refine (sum_subset (range_mono (by omega)) fun l _ hl => ?_).symm
  have := mem_range.not.1 hl
  rw [List.getD_eq_default _ _ (by omega), zero_mul]

theorem sum_cos_lags (x : ℕ → ℝ) (θ : ℝ) : ∀ n : ℕ, (∑ i ∈ range n, x i * cos (i * θ)) ^ 2 + (∑ i ∈ range n, x i * sin (i * θ)) ^ 2 =
    ∑ i ∈ range n, x i ^ 2 + 2 * ∑ l ∈ range (n - 1), (∑ i ∈ range (n - (l + 1)), x (i + (l + 1)) * x i) * cos ((l + 1 : ℕ) * θ)
  | 0 => by simp
  | n + 1 => by
    have ih := sum_cos_lags x θ n
    have h1 : ∑ l ∈ range n, (∑ i ∈ range (n + 1 - (l + 1)), x (i + (l + 1)) * x i) * cos ((l + 1 : ℕ) * θ) =
        ∑ l ∈ range (n - 1), (∑ i ∈ range (n - (l + 1)), x (i + (l + 1)) * x i) * cos ((l + 1 : ℕ) * θ) +
        ∑ l ∈ range n, x n * x (n - (l + 1)) * cos ((l + 1 : ℕ) * θ) := by
      have h2 : ∑ l ∈ range (n - 1), (∑ i ∈ range (n - (l + 1)), x (i + (l + 1)) * x i) * cos ((l + 1 : ℕ) * θ) =
          ∑ l ∈ range n, (∑ i ∈ range (n - (l + 1)), x (i + (l + 1)) * x i) * cos ((l + 1 : ℕ) * θ) := by
        refine sum_subset (range_mono (by omega)) fun l h3 h4 => ?_
        have h3 := mem_range.1 h3
        have h4 := mem_range.not.1 h4
        rw [show n - (l + 1) = 0 by omega]
        simp
      rw [h2, ← sum_add_distrib]
      refine sum_congr rfl fun l hl => ?_
      have hl := mem_range.1 hl
      rw [show n + 1 - (l + 1) = n - (l + 1) + 1 by omega, sum_range_succ, show n - (l + 1) + (l + 1) = n by omega]
      ring
    have h5 : ∑ l ∈ range n, x n * x (n - (l + 1)) * cos ((l + 1 : ℕ) * θ) = ∑ i ∈ range n, x n * x i * cos (n * θ - i * θ) := by
      rw [← sum_range_reflect (fun i => x n * x i * cos (n * θ - i * θ)) n]
      refine sum_congr rfl fun l hl => ?_
      have hl := mem_range.1 hl
      rw [show n - 1 - l = n - (l + 1) by omega]
      congr 2
      rw [← sub_mul]
      congr 1
      have : (n : ℝ) = ((n - (l + 1) : ℕ) : ℝ) + ((l + 1 : ℕ) : ℝ) := by
        rw [← Nat.cast_add]
        congr 1
        omega
      linarith
    have h6 : ∑ i ∈ range n, x n * x i * cos (n * θ - i * θ) =
        x n * cos (n * θ) * (∑ i ∈ range n, x i * cos (i * θ)) + x n * sin (n * θ) * ∑ i ∈ range n, x i * sin (i * θ) := by
      rw [mul_sum, mul_sum, ← sum_add_distrib]
      refine sum_congr rfl fun i _ => ?_
      rw [cos_sub]
      ring
    rw [Nat.add_sub_cancel, h1, h5, h6, sum_range_succ, sum_range_succ, sum_range_succ]
    have h7 := sin_sq_add_cos_sq (n * θ)
    linear_combination ih + x n ^ 2 * h7

theorem lagSum_spectrum (x : List ℝ) (θ : ℝ) : lagSum x 0 + 2 * ∑ l ∈ range (x.length - 1), lagSum x (l + 1) * cos ((l + 1 : ℕ) * θ) =
    (∑ i ∈ range x.length, x.getD i 0 * cos (i * θ)) ^ 2 + (∑ i ∈ range x.length, x.getD i 0 * sin (i * θ)) ^ 2 := by
  rw [sum_cos_lags (fun i => x.getD i 0), lagSum_zero]
  rfl

theorem trapz_range (p x : ℕ → ℝ) : ∀ (M s : ℕ), trapz ((List.range' s (M + 1)).map p) ((List.range' s (M + 1)).map x) =
    ∑ i ∈ range M, (x (s + i + 1) - x (s + i)) * (p (s + i) + p (s + i + 1)) / 2
  | 0, s => by simp [trapz]
  | M + 1, s => by
    have ih := trapz_range p x M (s + 1)
    rw [List.range'_succ, List.map_cons, List.map_cons]
    rw [List.range'_succ, List.map_cons, List.map_cons] at ih ⊢
    rw [trapz, ih, sum_range_succ']
    have : ∀ i, s + 1 + i = s + (i + 1) := fun i => by omega
    simp only [this, add_zero]
    ring

end Gpcm.Util
