import Verif.Model.Plots
import Verif.Spec.Series
import Verif.Lemmas.UtilLemmas
import Mathlib.Analysis.Asymptotics.SpecificAsymptotics
import Mathlib.Analysis.Asymptotics.Lemmas

/-!
# The expectation of the empirical autocovariance
-/

open MeasureTheory Filter Topology

namespace Gpcm

open Util

variable {Ω : Type} [MeasurableSpace Ω] {P : Measure Ω} [IsProbabilityMeasure P] {Y : ℕ → Ω → ℝ} {m dt noise : ℝ} {k : ℝ → ℝ}

/-- The autocovariance of the observations. -/
noncomputable def acv (k : ℝ → ℝ) (dt noise : ℝ) (l : ℕ) : ℝ := k (l * dt) + if l = 0 then noise else 0

/-- The distance of two natural numbers. -/
def gap (i j : ℕ) : ℕ := (i - j) + (j - i)

theorem Spec.Series.cov' (h : Spec.Series P Y m dt noise k) (i j : ℕ) :
    ∫ ω, (Y i ω - m) * (Y j ω - m) ∂P = acv k dt noise (gap i j) := by
  rcases le_total i j with hij | hij
  · obtain ⟨l, rfl⟩ := Nat.exists_eq_add_of_le hij
    rw [h.cov i l, acv, show gap i (i + l) = l by unfold gap; omega]
  · obtain ⟨l, rfl⟩ := Nat.exists_eq_add_of_le hij
    simp only [mul_comm (Y (j + l) _ - m)]
    rw [h.cov j l, acv, show gap (j + l) j = l by unfold gap; omega]

theorem Spec.Series.integrable (h : Spec.Series P Y m dt noise k) (i j : ℕ) :
    Integrable (fun ω => (Y i ω - m) * (Y j ω - m)) P :=
  MemLp.integrable_mul ((h.memLp i).sub (memLp_const m)) ((h.memLp j).sub (memLp_const m))

/-- The covariance of an observation with the average. -/
noncomputable def acvRow (k : ℝ → ℝ) (dt noise : ℝ) (n i : ℕ) : ℝ := (∑ j ∈ Finset.range n, acv k dt noise (gap i j)) / n

/-- The variance of the average. -/
noncomputable def acvMean (k : ℝ → ℝ) (dt noise : ℝ) (n : ℕ) : ℝ := (∑ i ∈ Finset.range n, acvRow k dt noise n i) / n

theorem centre_series (Y : ℕ → ℝ) (m : ℝ) {n : ℕ} (hn : 0 < n) {i : ℕ} (hi : i < n) :
    (centre ((List.range n).map Y)).getD i 0 = (Y i - m) - (∑ j ∈ Finset.range n, (Y j - m)) / n := by
  have hn' : (n : ℝ) ≠ 0 := by exact_mod_cast hn.ne'
  have hmean : mean ((List.range n).map Y) = (∑ j ∈ Finset.range n, Y j) / n := by
    unfold mean
    rw [List.length_map, List.length_range, Finset.sum_range, ← List.sum_ofFn, List.ofFn_eq_map, ← List.map_coe_finRange_eq_range,
      List.map_map]
    rfl
  unfold centre
  rw [hmean, List.getD_eq_getElem?_getD, List.getElem?_map, List.getElem?_map, List.getElem?_range hi]
  simp only [Option.map_some, Option.getD_some]
  rw [Finset.sum_sub_distrib, Finset.sum_const, Finset.card_range, nsmul_eq_mul]
  field_simp
  ring

theorem integral_four {a b c d : Ω → ℝ} (ha : Integrable a P) (hb : Integrable b P) (hc : Integrable c P) (hd : Integrable d P) :
    ∫ ω, (a ω - b ω - c ω + d ω) ∂P = ∫ ω, a ω ∂P - ∫ ω, b ω ∂P - ∫ ω, c ω ∂P + ∫ ω, d ω ∂P := by
  have h1 : Integrable (fun ω => a ω - b ω) P := ha.sub hb
  have h2 : Integrable (fun ω => a ω - b ω - c ω) P := h1.sub hc
  rw [integral_add h2 hd, integral_sub h1 hc, integral_sub ha hb]

theorem integral_centre (h : Spec.Series P Y m dt noise k) {n : ℕ} (hn : 0 < n) {i j : ℕ} (hi : i < n) (hj : j < n) :
    Integrable (fun ω => (centre ((List.range n).map fun a => Y a ω)).getD i 0 *
      (centre ((List.range n).map fun a => Y a ω)).getD j 0) P ∧
    ∫ ω, (centre ((List.range n).map fun a => Y a ω)).getD i 0 * (centre ((List.range n).map fun a => Y a ω)).getD j 0 ∂P =
      acv k dt noise (gap i j) - acvRow k dt noise n i - acvRow k dt noise n j + acvMean k dt noise n := by
  have e : ∀ ω, (centre ((List.range n).map fun a => Y a ω)).getD i 0 * (centre ((List.range n).map fun a => Y a ω)).getD j 0 =
      (Y i ω - m) * (Y j ω - m) - (∑ a ∈ Finset.range n, (Y i ω - m) * (Y a ω - m)) / n -
        (∑ a ∈ Finset.range n, (Y j ω - m) * (Y a ω - m)) / n +
          (∑ b ∈ Finset.range n, (∑ a ∈ Finset.range n, (Y b ω - m) * (Y a ω - m)) / n) / n := fun ω => by
    rw [centre_series (fun a => Y a ω) m hn hi, centre_series (fun a => Y a ω) m hn hj]
    simp only [← Finset.mul_sum, ← Finset.sum_div, ← Finset.sum_mul]
    ring
  have i1 := h.integrable i j
  have i2 : ∀ i, Integrable (fun ω => (∑ a ∈ Finset.range n, (Y i ω - m) * (Y a ω - m)) / n) P := fun i =>
    (integrable_finsetSum _ fun a _ => h.integrable i a).div_const _
  have i3 : Integrable (fun ω => (∑ b ∈ Finset.range n, (∑ a ∈ Finset.range n, (Y b ω - m) * (Y a ω - m)) / n) / n) P :=
    (integrable_finsetSum _ fun b _ => i2 b).div_const _
  have r2 : ∀ i, ∫ ω, (∑ a ∈ Finset.range n, (Y i ω - m) * (Y a ω - m)) / n ∂P = acvRow k dt noise n i := fun i => by
    rw [integral_div, integral_finsetSum _ fun a _ => h.integrable i a]
    simp only [h.cov', acvRow]
  simp only [e]
  refine ⟨((i1.sub (i2 i)).sub (i2 j)).add i3, ?_⟩
  rw [integral_four i1 (i2 i) (i2 j) i3, h.cov', r2, r2, integral_div, integral_finsetSum _ fun b _ => i2 b]
  simp only [r2, acvMean]

/-- The expectation of an entry of the empirical autocovariance. -/
theorem integral_autocov (h : Spec.Series P Y m dt noise k) {n l : ℕ} (hl : l < n) :
    ∫ ω, (autocov ((List.range n).map fun a => Y a ω) none false).getD l 0 ∂P = acv k dt noise l -
      (∑ i ∈ Finset.range (n - l), (acvRow k dt noise n i + acvRow k dt noise n (i + l))) / (n - l : ℕ) + acvMean k dt noise n := by
  have hn : 0 < n := by omega
  have hnl : ((n - l : ℕ) : ℝ) ≠ 0 := by
    have : n - l ≠ 0 := by omega
    exact_mod_cast this
  have e : ∀ ω, (autocov ((List.range n).map fun a => Y a ω) none false).getD l 0 =
      (∑ i ∈ Finset.range (n - l), (centre ((List.range n).map fun a => Y a ω)).getD (i + l) 0 *
        (centre ((List.range n).map fun a => Y a ω)).getD i 0) / (n - l : ℕ) := fun ω => by
    rw [autocov_eq, lagCount, List.take_of_length_le (by simp), List.getD_eq_getElem?_getD, List.getElem?_map, List.length_map,
      List.length_range, List.getElem?_range hl]
    simp only [Option.map_some, Option.getD_some, lagSum, length_centre, List.length_map, List.length_range, Bool.false_eq_true,
      if_false]
  simp only [e]
  rw [integral_div, integral_finsetSum _ fun i hi =>
    (integral_centre h hn (i := i + l) (j := i) (by have := Finset.mem_range.1 hi; omega) (by have := Finset.mem_range.1 hi; omega)).1]
  rw [Finset.sum_congr rfl fun i hi => (integral_centre h hn (i := i + l) (j := i) (by have := Finset.mem_range.1 hi; omega)
    (by have := Finset.mem_range.1 hi; omega)).2]
  simp only [show ∀ i, gap (i + l) i = l from fun i => by unfold gap; omega]
  rw [Finset.sum_add_distrib, Finset.sum_const, Finset.card_range, nsmul_eq_mul, add_div, mul_div_cancel_left₀ _ hnl]
  congr 1
  rw [Finset.sum_congr rfl fun i _ => show acv k dt noise l - acvRow k dt noise n (i + l) - acvRow k dt noise n i =
    acv k dt noise l - (acvRow k dt noise n i + acvRow k dt noise n (i + l)) by ring, Finset.sum_sub_distrib, Finset.sum_const,
    Finset.card_range, nsmul_eq_mul, sub_div, mul_div_cancel_left₀ _ hnl]

theorem sum_gap_le (c : ℕ → ℝ) (hc : ∀ l, 0 ≤ c l) {n i : ℕ} (hi : i < n) :
    ∑ j ∈ Finset.range n, c (gap i j) ≤ 2 * ∑ d ∈ Finset.range n, c d := by
  have hsplit : ∑ j ∈ Finset.range n, c (gap i j) = ∑ j ∈ Finset.range i, c (gap i j) +
      ∑ j ∈ Finset.range (n - i), c (gap i (i + j)) := by
    conv_lhs => rw [show n = i + (n - i) by omega]
    rw [Finset.sum_range_add]
  have h1 : ∑ j ∈ Finset.range i, c (gap i j) ≤ ∑ d ∈ Finset.range n, c d := by
    rw [← Finset.sum_range_reflect]
    refine (Finset.sum_le_sum (g := fun j => c (j + 1)) fun j hj => ?_).trans ?_
    · rw [show gap i (i - 1 - j) = j + 1 by have := Finset.mem_range.1 hj; unfold gap; omega]
    · have : ∑ j ∈ Finset.range i, c (j + 1) ≤ ∑ j ∈ Finset.range (i + 1), c j := by
        rw [Finset.sum_range_succ']
        linarith [hc 0]
      exact this.trans (Finset.sum_le_sum_of_subset_of_nonneg (Finset.range_mono (by omega)) fun d _ _ => hc d)
  have h2 : ∑ j ∈ Finset.range (n - i), c (gap i (i + j)) ≤ ∑ d ∈ Finset.range n, c d := by
    simp only [show ∀ j, gap i (i + j) = j from fun j => by unfold gap; omega]
    exact Finset.sum_le_sum_of_subset_of_nonneg (Finset.range_mono (by omega)) fun d _ _ => hc d
  linarith

theorem abs_acvRow_le {n i : ℕ} (hi : i < n) :
    |acvRow k dt noise n i| ≤ 2 * (∑ d ∈ Finset.range n, |acv k dt noise d|) / n := by
  have hn : (0 : ℝ) < n := by exact_mod_cast (Nat.zero_le i).trans_lt hi
  rw [acvRow, abs_div, abs_of_pos hn]
  gcongr
  exact (Finset.abs_sum_le_sum_abs _ _).trans (sum_gap_le (fun l => |acv k dt noise l|) (fun l => abs_nonneg _) hi)

theorem abs_avg_le {n : ℕ} (hn : 0 < n) {f : ℕ → ℝ} {B : ℝ} (hf : ∀ i < n, |f i| ≤ B) :
    |(∑ i ∈ Finset.range n, f i) / n| ≤ B := by
  have hn' : (0 : ℝ) < n := by exact_mod_cast hn
  rw [abs_div, abs_of_pos hn', div_le_iff₀ hn']
  refine (Finset.abs_sum_le_sum_abs _ _).trans ((Finset.sum_le_sum fun i hi => hf i (Finset.mem_range.1 hi)).trans ?_)
  rw [Finset.sum_const, Finset.card_range, nsmul_eq_mul, mul_comm]

/-- The bias of the empirical autocovariance. -/
theorem autocov_bias (h : Spec.Series P Y m dt noise k) {n l : ℕ} (hl : l < n) :
    |∫ ω, (autocov ((List.range n).map fun a => Y a ω) none false).getD l 0 ∂P - acv k dt noise l| ≤
      6 * (∑ d ∈ Finset.range n, |acv k dt noise d|) / n := by
  rw [integral_autocov h hl]
  obtain ⟨B, hB⟩ : ∃ B, B = 2 * (∑ d ∈ Finset.range n, |acv k dt noise d|) / n := ⟨_, rfl⟩
  have hr : ∀ i < n, |acvRow k dt noise n i| ≤ B := fun i hi => hB ▸ abs_acvRow_le hi
  have h1 : |(∑ i ∈ Finset.range (n - l), (acvRow k dt noise n i + acvRow k dt noise n (i + l))) / (n - l : ℕ)| ≤ 2 * B :=
    abs_avg_le (by omega) fun i hi => (abs_add_le _ _).trans (by
      have := hr i (by omega)
      have := hr (i + l) (by omega)
      linarith)
  have h2 : |acvMean k dt noise n| ≤ B := abs_avg_le (by omega) hr
  have e6 : 6 * (∑ d ∈ Finset.range n, |acv k dt noise d|) / n = 3 * B := by rw [hB]; ring
  rw [e6]
  have := abs_le.1 h1
  have := abs_le.1 h2
  rw [abs_le]
  constructor <;> linarith

end Gpcm
