import Verif.Lemmas.Periodogram
import Verif.Model.Plots
import Verif.Model.Paper

/-!
# Property C172: the spectral density shown for the data
-/

open Real Finset

namespace Gpcm

open Util

/-- The periodogram of a series at an angular frequency per observation: the squared magnitude of the Fourier transform of the series with
its mean removed, divided by the number of observations. -/
noncomputable def Spec.periodogram (y : List ℝ) (θ : ℝ) : ℝ :=
  ((∑ i ∈ range y.length, (y.getD i 0 - y.sum / y.length) * cos (i * θ)) ^ 2 +
    (∑ i ∈ range y.length, (y.getD i 0 - y.sum / y.length) * sin (i * θ)) ^ 2) / y.length

theorem getD_centre (y : List ℝ) {i : ℕ} (hi : i < y.length) : (centre y).getD i 0 = y.getD i 0 - y.sum / y.length := by
  rw [List.getD_eq_getElem _ _ (by rw [length_centre]; exact hi), List.getD_eq_getElem _ _ hi]
  simp [centre, Util.mean]

theorem cosSum_windowed (y : List ℝ) (θ : ℝ) : Spec.cosSum (autocov y none true) θ = Spec.periodogram y θ := by
  have hl : (autocov y none true).length = y.length := by
    rw [autocov_eq]
    simp [lagCount]
  have hg : ∀ l < y.length, (autocov y none true).getD l 0 = lagSum (centre y) l / y.length := fun l h => by
    rw [List.getD_eq_getElem _ _ (by rw [hl]; exact h)]
    simp [autocov_eq, lagCount]
  rcases Nat.eq_zero_or_pos y.length with h0 | h0
  · have : y = [] := List.length_eq_zero_iff.1 h0
    subst this
    simp [Spec.cosSum, Spec.periodogram, autocov, correlateFull]
  · have h1 := lagSum_spectrum (centre y) θ
    rw [length_centre] at h1
    unfold Util.Spec.cosSum Spec.periodogram
    have h2 : ∀ g : ℕ → ℝ, ∑ i ∈ range y.length, (y.getD i 0 - y.sum / y.length) * g i =
        ∑ i ∈ range y.length, (centre y).getD i 0 * g i :=
      fun g => sum_congr rfl fun i hi => by rw [← getD_centre y (mem_range.1 hi)]
    rw [hl, hg 0 h0, h2 fun i => cos (i * θ), h2 fun i => sin (i * θ), ← h1, add_div, mul_div_assoc, sum_div]
    congr 2
    refine sum_congr rfl fun l hl => ?_
    have := mem_range.1 hl
    rw [hg (l + 1) (by omega)]
    ring

/-- What `estimate_psd` returns, in terms of the transform. -/
theorem estimatePsd_cosSum {dt : ℝ} (hdt : 0 < dt) (ts : List ℝ) {k : List ℝ} (hk : k ≠ []) {nZero N : ℕ} (hz : 0 < nZero)
    (hN : N = k.length + nZero - 1) (db : Bool) :
    estimatePsd (0 :: dt :: ts) k nZero db =
      .ok ((List.range N).map fun i : ℕ => ((i : ℝ) / (2 * N : ℕ) / dt,
        transform db (|Spec.cosSum k (2 * π * i / (2 * N : ℕ))| / (totalPower k nZero dt / k.headD 0)))) := by
  obtain ⟨k0, ks, rfl⟩ := List.exists_cons_of_ne_nil hk
  have hl : (symmetrise (k0 :: ks) nZero).length = 2 * N := by
    rw [length_symmetrise _ _ (by simp; omega)]
    simp only [List.length_cons] at hN ⊢
    omega
  have h0 : 0 < N := by
    simp only [List.length_cons] at hN
    omega
  have e : ((2 * N - 1) / 2 + 1) = N := by omega
  rw [c53_output nZero db hdt, hl, e]
  congr 1
  refine List.map_congr_left fun i hi => ?_
  have hi := List.mem_range.1 hi
  rw [rawPsd_cosSum (by simp) hz (by rw [hl]; omega), hl, List.headD_cons]

theorem autocov_length' (y : List ℝ) (w : Bool) : (autocov y none w).length = y.length := by
  rw [autocov_eq]
  simp [lagCount]

theorem autocov_ne_nil {y : List ℝ} (hy : y ≠ []) (w : Bool) : autocov y none w ≠ [] := fun h => by
  have h1 := autocov_length' y w
  rw [h] at h1
  exact hy (List.length_eq_zero_iff.1 h1.symm)

theorem dataPsd_eq (t0 dt : ℝ) (ts : List ℝ) {y : List ℝ} (hy : y ≠ []) (db : Bool) : Plots.dataPsd (t0 :: (t0 + dt) :: ts) y db =
    estimatePsd (0 :: dt :: ts.map (· - t0)) (autocov y none false) 2000 db := by
  simp only [Plots.dataPsd, autocorr, if_neg hy, if_true, List.map_cons, sub_self, add_sub_cancel_left]

/-- **C172** What the curve shows: the absolute value of the Fourier transform of the autocovariance of the data, up to one factor for all
frequencies. -/
theorem c172_shown (t0 dt : ℝ) (hdt : 0 < dt) (ts y : List ℝ) (hy : y ≠ []) (db : Bool) : ∃ c, Plots.dataPsd (t0 :: (t0 + dt) :: ts) y db =
    .ok ((List.range (y.length + 1999)).map fun i : ℕ => ((i : ℝ) / (2 * (y.length + 1999) : ℕ) / dt,
      transform db (|Spec.cosSum (autocov y none false) (2 * π * i / (2 * (y.length + 1999) : ℕ))| / c))) :=
  ⟨_, (dataPsd_eq t0 dt ts hy db).trans (estimatePsd_cosSum hdt _ (autocov_ne_nil hy false) (by norm_num)
    (by rw [autocov_length']; omega) db)⟩

/-- **C172** With a window, the absolute value does not change anything: the curve is the periodogram of the data, up to one factor.
Missing: the code calls `autocorr` without a window, see `c172_false`. -/
theorem c172_windowed_partial (dt : ℝ) (hdt : 0 < dt) (ts y : List ℝ) (hy : y ≠ []) (db : Bool) : ∃ k c, autocorr y none true true = .ok k ∧
    estimatePsd (0 :: dt :: ts) k 2000 db =
      .ok ((List.range (y.length + 1999)).map fun i : ℕ => ((i : ℝ) / (2 * (y.length + 1999) : ℕ) / dt,
        transform db (Spec.periodogram y (2 * π * i / (2 * (y.length + 1999) : ℕ)) / c))) := by
  have h0 : ∀ θ, |Spec.cosSum (autocov y none true) θ| = Spec.periodogram y θ := fun θ => by
    rw [cosSum_windowed, abs_of_nonneg]
    unfold Spec.periodogram
    positivity
  have h := estimatePsd_cosSum (N := y.length + 1999) hdt ts (autocov_ne_nil hy true) (nZero := 2000) (by norm_num)
    (by rw [autocov_length']; omega) db
  simp only [h0] at h
  exact ⟨_, _, by simp [autocorr, hy], h⟩

/-- **C172** The periodogram vanishes at frequency zero, as the mean is removed. Its logarithm, which the code would plot, is not finite
there. -/
theorem c172_zero (y : List ℝ) : Spec.periodogram y 0 = 0 := by
  unfold Spec.periodogram
  simp only [mul_zero, cos_zero, sin_zero, mul_one, sum_const_zero]
  rcases Nat.eq_zero_or_pos y.length with h0 | h0
  · simp [h0]
  have e : ∑ i ∈ range y.length, (y.getD i 0 - y.sum / y.length) = 0 := by
    have hs : ∑ i ∈ range y.length, y.getD i 0 = y.sum := by
      rw [← Fin.sum_univ_eq_sum_range (fun i => y.getD i 0), ← List.sum_ofFn]
      congr 1
      apply List.ext_getElem
      · simp
      · intro i h1 h2
        simp [List.getD_eq_getElem?_getD, h2]
    rw [sum_sub_distrib, hs, sum_const, card_range, nsmul_eq_mul]
    field_simp
    ring
  rw [e]
  simp

/-! ## A witness -/

theorem autocov_witness : autocov [1, -2, 1] none false = [2, -2, 1] := by
  rw [autocov_eq]
  norm_num [lagCount, List.range_succ, lagSum, centre, Util.mean, sum_range_succ]

theorem cosSum_witness (θ : ℝ) : Spec.cosSum [2, -2, 1] θ = 4 * cos θ * (cos θ - 1) := by
  have h := cos_two_mul θ
  rw [Spec.cosSum]
  norm_num [sum_range_succ]
  rw [h]
  ring

theorem sum_getD_re (l : List ℂ) : ∑ i ∈ range l.length, (l.getD i 0).re = l.sum.re := by
  induction l with
  | nil => simp
  | cons a l ih =>
    rw [List.length_cons, sum_range_succ', List.sum_cons, Complex.add_re, ← ih]
    simp [add_comm]

theorem fftfreq_succ {L i : ℕ} (hL : 0 < L) : fftfreq (2 * L) (i + 1) - fftfreq (2 * L) i =
    1 / (2 * L : ℕ) - if i = L - 1 then 1 else 0 := by
  have h : ((2 * L : ℕ) : ℝ) ≠ 0 := by
    have : 2 * L ≠ 0 := by omega
    exact_mod_cast this
  unfold fftfreq
  by_cases h1 : i + 1 < L
  · rw [if_pos (by omega), if_pos (by omega), if_neg (by omega)]
    push_cast
    ring
  · by_cases h2 : i = L - 1
    · rw [if_neg (by omega), if_pos (by omega), if_pos h2]
      field_simp
      push_cast
      ring
    · rw [if_neg (by omega), if_neg (by omega), if_neg h2]
      push_cast
      ring

/-- The total power that `estimate_psd` computes is negative. -/
theorem totalPower_witness {dt : ℝ} (hdt : 0 < dt) {nZero : ℕ} (hz : 0 < nZero) : totalPower [2, -2, 1] nZero dt < 0 := by
  obtain ⟨L, hL⟩ : ∃ L, L = nZero + 2 := ⟨_, rfl⟩
  have hl : (symmetrise [2, -2, 1] nZero).length = 2 * L := by
    rw [length_symmetrise _ _ (by simp; omega)]
    simp
    omega
  have hr : (rawPsd [2, -2, 1] nZero).length = 2 * L := by rw [rawPsd, List.length_ofFn, hl]
  obtain ⟨q, hq⟩ : ∃ q : ℕ → ℝ, q = fun i : ℕ => 4 * cos (2 * π * i / (2 * L : ℕ)) * (cos (2 * π * i / (2 * L : ℕ)) - 1) := ⟨_, rfl⟩
  have hraw : ∀ i < 2 * L, ((rawPsd [2, -2, 1] nZero).getD i 0).re = q i := fun i hi => by
    rw [rawPsd_cosSum (by simp) hz (by rw [hl]; exact hi), hl, cosSum_witness, hq]
  have hN : (0 : ℝ) < (2 * L : ℕ) := by
    have : 0 < 2 * L := by omega
    exact_mod_cast this
  have hsum : ∑ i ∈ range (2 * L), q i = 2 * (2 * L : ℕ) := by
    have h1 := c53_total 2 [-2, 1] nZero
    rw [hr] at h1
    have h2 := sum_getD_re (rawPsd [2, -2, 1] nZero)
    rw [hr, sum_congr rfl fun i hi => hraw i (mem_range.1 hi)] at h2
    have h3 : (rawPsd [2, -2, 1] nZero).sum = ((2 * (2 * L : ℕ) : ℝ) : ℂ) := by
      have hc : ((2 * L : ℕ) : ℂ) ≠ 0 := by exact_mod_cast hN.ne'
      rw [div_eq_iff hc] at h1
      rw [h1]
      push_cast
      ring
    rw [h2, h3, Complex.ofReal_re]
  have habs : absPsd [2, -2, 1] nZero = (List.range' 0 (2 * L - 1 + 1)).map fun i => |q i| := by
    unfold absPsd
    apply List.ext_getElem
    · simp [hr]
      omega
    · intro i h1 h2
      have h3 : i < 2 * L := by simpa [hr] using h1
      have h4 := hraw i h3
      rw [List.getD_eq_getElem _ _ (by rw [hr]; exact h3)] at h4
      simp [h4]
  have hfr : freqs (2 * L) dt = (List.range' 0 (2 * L - 1 + 1)).map fun i => fftfreq (2 * L) i / dt := by
    rw [freqs, List.range_eq_range', show 2 * L - 1 + 1 = 2 * L by omega]
  have hlen : (absPsd [2, -2, 1] nZero).length = 2 * L := by rw [length_absPsd, hl]
  unfold totalPower
  rw [hlen, hfr, habs, trapz_range]
  simp only [zero_add, ← sub_div, fftfreq_succ (show 0 < L by omega)]
  have hsplit : ∑ i ∈ range (2 * L - 1), (1 / (2 * L : ℕ) - if i = L - 1 then 1 else 0) / dt * (|q i| + |q (i + 1)|) / 2 =
      ((∑ i ∈ range (2 * L - 1), (|q i| + |q (i + 1)|) / 2) / (2 * L : ℕ) - (|q (L - 1)| + |q L|) / 2) / dt := by
    have h1 : ∑ i ∈ range (2 * L - 1), (if i = L - 1 then (1 : ℝ) else 0) * ((|q i| + |q (i + 1)|) / 2) = (|q (L - 1)| + |q L|) / 2 := by
      simp only [ite_mul, one_mul, zero_mul]
      rw [sum_ite_eq' (range (2 * L - 1)) (L - 1), if_pos (mem_range.2 (by omega)), show L - 1 + 1 = L by omega]
    rw [← h1, sum_div, ← sum_sub_distrib, sum_div]
    refine sum_congr rfl fun i _ => ?_
    ring
  rw [hsplit]
  refine div_neg_of_neg_of_pos ?_ hdt
  have h0 : q 0 = 0 := by simp [hq]
  have hmid : q L = 8 := by
    have : 2 * π * L / (2 * L : ℕ) = π := by
      have : (L : ℝ) ≠ 0 := by
        have : L ≠ 0 := by omega
        exact_mod_cast this
      push_cast
      field_simp
    simp only [hq, this, cos_pi]
    norm_num
  have hle : ∀ i, |q i| ≤ q i + 2 := fun i => by
    have h1 : -1 ≤ q i := by
      simp only [hq]
      nlinarith [sq_nonneg (2 * cos (2 * π * i / (2 * L : ℕ)) - 1)]
    rw [abs_le]
    constructor <;> linarith
  have htot : ∑ i ∈ range (2 * L - 1), (|q i| + |q (i + 1)|) / 2 ≤ 4 * (2 * L : ℕ) - 2 := by
    have e : 2 * L = 2 * L - 1 + 1 := by omega
    have h1 : ∑ i ∈ range (2 * L - 1), |q (i + 1)| = ∑ i ∈ range (2 * L), |q i| := by
      rw [e, sum_range_succ' (fun i => |q i|), h0, abs_zero, add_zero, ← e]
    have h2 : ∑ i ∈ range (2 * L - 1), |q i| ≤ ∑ i ∈ range (2 * L), |q i| :=
      sum_le_sum_of_subset_of_nonneg (range_mono (by omega)) fun _ _ _ => abs_nonneg _
    have h3 : ∑ i ∈ range (2 * L), |q i| ≤ 4 * (2 * L : ℕ) - 2 := by
      have h4 : ∑ i ∈ range (2 * L - 1), |q (i + 1)| ≤ ∑ i ∈ range (2 * L - 1), (q (i + 1) + 2) := sum_le_sum fun i _ => hle _
      have h5 : ∑ i ∈ range (2 * L - 1), q (i + 1) = 2 * (2 * L : ℕ) := by
        rw [← hsum, e, sum_range_succ' q, h0, add_zero, ← e]
      rw [← h1]
      refine h4.trans ?_
      rw [sum_add_distrib, h5, sum_const, card_range, nsmul_eq_mul, Nat.cast_sub (by omega)]
      push_cast
      linarith
    rw [← sum_div, sum_add_distrib, h1]
    linarith
  have h6 : (∑ i ∈ range (2 * L - 1), (|q i| + |q (i + 1)|) / 2) / (2 * L : ℕ) < 4 := by
    rw [div_lt_iff₀ hN]
    linarith
  have h7 := abs_nonneg (q (L - 1))
  have h8 : |q L| = 8 := by rw [hmid]; norm_num
  linarith

/-- **C172 is false**: for three equally spaced observations, which pass the check for equal spacing, the Fourier transform of the
autocovariance is negative at the lowest positive frequency, and every value that the curve is to show is negative or zero before the
logarithm is taken. -/
theorem c172_false (t0 dt : ℝ) (ht0 : 0 ≤ t0) (hdt : 0 < dt) : Paper.equallySpaced [t0, t0 + dt, t0 + 2 * dt] = .ok true ∧
    Spec.cosSum [2, -2, 1] (2 * π / 4004) < 0 ∧
    Plots.dataKernel [t0, t0 + dt, t0 + 2 * dt] [1, -2, 1] = .ok [(0, 2), (dt, -2), (2 * dt, 1)] ∧
    ∃ out, Plots.dataPsd [t0, t0 + dt, t0 + 2 * dt] [1, -2, 1] false = .ok out ∧ out.length = 2002 ∧ (∀ p ∈ out, p.2 ≤ 0) ∧
      ∃ p ∈ out, p.2 < 0 := by
  have hneg : Spec.cosSum [2, -2, 1] (2 * π / 4004) < 0 := by
    rw [cosSum_witness]
    have h1 : 0 < cos (2 * π / 4004) := cos_pos_of_mem_Ioo ⟨by linarith [pi_pos], by linarith [pi_pos]⟩
    have h2 : cos (2 * π / 4004) < 1 := by
      rw [← cos_zero]
      exact cos_lt_cos_of_nonneg_of_le_pi le_rfl (by linarith [pi_pos]) (by linarith [pi_pos])
    nlinarith
  refine ⟨?_, hneg, ?_, ?_⟩
  · have h1 : max (max |t0| |t0 + dt|) |t0 + 2 * dt| ≠ 0 := (lt_of_lt_of_le (abs_pos.2 (by linarith)) (le_max_right _ _)).ne'
    have h2 : 2 * dt - dt - dt = 0 := by ring
    simp [Paper.equallySpaced, Paper.maxOf, Paper.diff, bind1, h1, h2]
    norm_num
  · have := autocov_witness
    simp [Plots.dataKernel, autocorr, this]
  · have h := estimatePsd_cosSum (N := 2002) hdt ([t0 + 2 * dt].map (· - t0)) (k := [2, -2, 1]) (by simp) (nZero := 2000) (by norm_num)
      (by simp) false
    rw [← autocov_witness, ← dataPsd_eq t0 dt [t0 + 2 * dt] (by simp), autocov_witness] at h
    have hP := totalPower_witness hdt (nZero := 2000) (by norm_num)
    have hc : totalPower [2, -2, 1] 2000 dt / ([2, -2, 1] : List ℝ).headD 0 < 0 := by
      rw [List.headD_cons]
      exact div_neg_of_neg_of_pos hP two_pos
    refine ⟨_, h, by simp, fun p hp => ?_, ?_⟩
    · obtain ⟨i, -, rfl⟩ := List.mem_map.1 hp
      simp only [transform, Bool.false_eq_true, if_false]
      exact div_nonpos_of_nonneg_of_nonpos (abs_nonneg _) hc.le
    · refine ⟨_, List.mem_map_of_mem (List.mem_range.2 (show 1 < 2002 by norm_num)), ?_⟩
      simp only [transform, Bool.false_eq_true, if_false]
      refine div_neg_of_pos_of_neg (abs_pos.2 ?_) hc
      have : 2 * π * (1 : ℕ) / (2 * 2002 : ℕ) = 2 * π / 4004 := by norm_num
      rw [this]
      exact hneg.ne

/-- The hypotheses can be met. -/
example : ∃ c, Plots.dataPsd [3, 4, 5, 6] [1, 0, 2, 1] true =
    .ok ((List.range 2003).map fun i : ℕ => ((i : ℝ) / (4006 : ℕ) / 1,
      transform true (|Spec.cosSum (autocov [1, 0, 2, 1] none false) (2 * π * i / (4006 : ℕ))| / c))) := by
  have h := c172_shown 3 1 one_pos [5, 6] [1, 0, 2, 1] (by simp) true
  norm_num at h ⊢
  exact h

end Gpcm
