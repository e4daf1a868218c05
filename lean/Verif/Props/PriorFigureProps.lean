import Verif.Model.PriorFigure
import Verif.Props.UtilProps
import Verif.Lemmas.PaperLemmas

/-!
# C203: the figure of the priors
-/

namespace Gpcm

open Real PriorFigure

namespace Spec

/-- Intervals in the order of drawing are nested: each lies in the one before. -/
def Nested (l : List (ℝ × ℝ)) : Prop :=
  (∀ p ∈ l, p.1 ≤ p.2) ∧ l.Pairwise fun p q => p.1 ≤ q.1 ∧ q.2 ≤ p.2

/-- Decibels. -/
noncomputable def decibel (x : ℝ) : ℝ := 10 * logb 10 x

end Spec

theorem transform_true (x : ℝ) : Util.transform true x = Spec.decibel x := by simp [Util.transform, Spec.decibel]

theorem undo_decibel {x : ℝ} (hx : 0 < x) : (10 : ℝ) ^ (Spec.decibel x / 10) = x := by
  unfold Spec.decibel
  rw [mul_div_cancel_left₀ _ (by norm_num), rpow_logb (by norm_num) (by norm_num) hx]

theorem raw_samples {s : List ℝ} (hpos : ∀ x ∈ s, 0 < x) :
    (s.map (Util.transform true)).map (fun p => (10 : ℝ) ^ (p / 10)) = s := by
  rw [List.map_map]
  conv_rhs => rw [← List.map_id s]
  refine List.map_congr_left fun x hx => ?_
  simp only [Function.comp_apply, transform_true, id]
  exact undo_decibel (hpos x hx)

theorem applyToPsd_eq {s : List ℝ} (hpos : ∀ x ∈ s, 0 < x) (f : List ℝ → ℝ) :
    applyToPsd (s.map (Util.transform true)) f = Spec.decibel (f s) := by
  unfold applyToPsd Spec.decibel
  rw [raw_samples hpos, logb, mul_div_assoc]

theorem decibel_le {x y : ℝ} (hx : 0 < x) (h : x ≤ y) : Spec.decibel x ≤ Spec.decibel y := by
  have := logb_le_logb_of_le (b := 10) (by norm_num) hx h
  unfold Spec.decibel
  linarith

theorem decibel_le_iff {x y : ℝ} (hx : 0 < x) (hy : 0 < y) : Spec.decibel x ≤ Spec.decibel y ↔ x ≤ y := by
  unfold Spec.decibel
  rw [mul_le_mul_iff_right₀ (by norm_num), logb_le_logb (by norm_num) hx hy]

/-- **C203.** Going through decibels loses nothing: the shaded intervals of a spectral density are the quantiles of the sampled
densities, in decibels, and the black line is their mean, in decibels. -/
theorem c203_psd {s : List ℝ} (hpos : ∀ x ∈ s, 0 < x) :
    psdAt (s.map (Util.transform true)) =
      { shades := (kernelAt s).shades.map fun p => (Spec.decibel p.1, Spec.decibel p.2)
        line := Spec.decibel (kernelAt s).line } := by
  unfold psdAt kernelAt
  simp only [applyToPsd_eq hpos, List.map_map, Function.comp_def]

theorem percent_pairwise : percentages.Pairwise (· ≤ ·) := by
  unfold percentages
  simp
  norm_num

theorem percent_range {q : ℝ} (hq : q ∈ percentages) : 0 ≤ q / 100 ∧ q / 100 ≤ 1 / 2 := by
  simp only [percentages, List.mem_cons, List.not_mem_nil, or_false] at hq
  rcases hq with rfl | rfl | rfl | rfl | rfl | rfl <;> norm_num

/-- **C203.** The shaded intervals are nested, both of a kernel and of a spectral density in decibels. -/
theorem c203_nested {s : List ℝ} (hs : s ≠ []) :
    Spec.Nested (kernelAt s).shades ∧
      ((∀ x ∈ s, 0 < x) → Spec.Nested (psdAt (s.map (Util.transform true))).shades) := by
  have h1 : Spec.Nested (kernelAt s).shades := by
    refine ⟨fun p hp => ?_, ?_⟩
    · obtain ⟨q, hq, rfl⟩ := List.mem_map.1 hp
      have := percent_range hq
      exact Util.quantile_mono this.1 (by linarith)
    · refine List.pairwise_map.2 (percent_pairwise.imp_of_mem fun {a b} ha hb hab => ?_)
      have ha := percent_range ha
      have hb := percent_range hb
      exact ⟨Util.quantile_mono ha.1 (by linarith), Util.quantile_mono (by linarith) (by linarith)⟩
  refine ⟨h1, fun hpos => ?_⟩
  have hq : ∀ p ∈ (kernelAt s).shades, 0 < p.1 ∧ 0 < p.2 := fun p hp => by
    obtain ⟨q, hq, rfl⟩ := List.mem_map.1 hp
    have := percent_range hq
    exact ⟨Util.quantile_pos hs hpos this.1, Util.quantile_pos hs hpos (by linarith)⟩
  rw [c203_psd hpos]
  refine ⟨fun p hp => ?_, ?_⟩
  · obtain ⟨r, hr, rfl⟩ := List.mem_map.1 hp
    exact decibel_le (hq r hr).1 (h1.1 r hr)
  · exact List.pairwise_map.2 (h1.2.imp_of_mem fun {a b} ha hb hab =>
      ⟨decibel_le (hq a ha).1 hab.1, decibel_le (hq b hb).2 hab.2⟩)

theorem inBand_decibel {s : List ℝ} (hpos : ∀ x ∈ s, 0 < x) {lo hi : ℝ} (hlo : 0 < lo) (hhi : 0 < hi) :
    Util.inBand (s.map (Util.transform true)) (Spec.decibel lo) (Spec.decibel hi) = Util.inBand s lo hi := by
  unfold Util.inBand
  rw [List.countP_map]
  refine List.countP_congr fun x hx => ?_
  have := hpos x hx
  simp [transform_true, decibel_le_iff, hlo, hhi, this]

/-- **C203.** The interval of percentage `q` contains at least the fraction `1 - 2 q / 100` of the samples, up to rounding, in both
panels. -/
theorem c203_fraction {s : List ℝ} (hs : s ≠ []) :
    List.Forall₂ (fun q p => (1 - 2 * (q / 100)) * (s.length - 1 : ℝ) - 1 ≤ Util.inBand s p.1 p.2)
        percentages (kernelAt s).shades ∧
      ((∀ x ∈ s, 0 < x) →
        List.Forall₂ (fun q p => (1 - 2 * (q / 100)) * (s.length - 1 : ℝ) - 1 ≤
            Util.inBand (s.map (Util.transform true)) p.1 p.2)
          percentages (psdAt (s.map (Util.transform true))).shades) := by
  refine ⟨?_, fun hpos => ?_⟩
  · unfold kernelAt
    rw [List.forall₂_map_right_iff, List.forall₂_same]
    intro q hq
    have := percent_range hq
    exact Util.band_lower hs this.1 this.2
  · rw [c203_psd hpos]
    unfold kernelAt
    rw [List.forall₂_map_right_iff, List.forall₂_map_right_iff, List.forall₂_same]
    intro q hq
    have := percent_range hq
    rw [inBand_decibel hpos (Util.quantile_pos hs hpos this.1) (Util.quantile_pos hs hpos (by linarith))]
    exact Util.band_lower hs this.1 this.2

theorem log_sum_le {m : ℝ} (hm : 0 < m) (s : List ℝ) (hpos : ∀ x ∈ s, 0 < x) :
    (s.map log).sum ≤ s.length * log m + (s.sum - s.length * m) / m ∧
      ((s.map log).sum = s.length * log m + (s.sum - s.length * m) / m → ∀ x ∈ s, x = m) := by
  induction s with
  | nil => simp
  | cons x s ih =>
    obtain ⟨h1, h2⟩ := ih fun y hy => hpos y (List.mem_cons_of_mem _ hy)
    have hx : 0 < x := hpos x List.mem_cons_self
    have hxm : 0 < x / m := div_pos hx hm
    have e : log x = log m + log (x / m) := by rw [log_div hx.ne' hm.ne']; ring
    have h3 : log (x / m) ≤ x / m - 1 := log_le_sub_one_of_pos hxm
    have e2 : ((x + s.sum) - ((s.length : ℝ) + 1) * m) / m = (x / m - 1) + (s.sum - s.length * m) / m := by
      field_simp
      ring
    simp only [List.map_cons, List.sum_cons, List.length_cons, Nat.cast_add, Nat.cast_one]
    rw [e2, e]
    refine ⟨by linarith, fun h => ?_⟩
    have h4 : log (x / m) = x / m - 1 := by linarith
    have h5 : x / m = 1 := by
      by_contra hc
      exact (log_lt_sub_one_of_pos hxm hc).ne h4
    have h6 := h2 (by linarith)
    intro y hy
    rcases List.mem_cons.1 hy with rfl | hy
    · rwa [div_eq_one_iff_eq hm.ne'] at h5
    · exact h6 y hy

/-- **C203.** The black line of a spectral density lies above the mean of the curves in decibels, and strictly so unless all curves
agree: the order of mean and decibels matters. -/
theorem c203_line {s : List ℝ} (hs : s ≠ []) (hpos : ∀ x ∈ s, 0 < x) :
    Util.mean (s.map (Util.transform true)) ≤ (psdAt (s.map (Util.transform true))).line ∧
      (Util.mean (s.map (Util.transform true)) = (psdAt (s.map (Util.transform true))).line ↔
        ∀ x ∈ s, ∀ y ∈ s, x = y) := by
  have hm : 0 < Util.mean s := mean_pos hs hpos
  have hn : (0 : ℝ) < s.length := by exact_mod_cast List.length_pos_of_ne_nil hs
  have h10 : (0 : ℝ) < log 10 := log_pos (by norm_num)
  obtain ⟨h1, h2⟩ := log_sum_le hm s hpos
  have e0 : (s.sum - s.length * Util.mean s) / Util.mean s = 0 := by
    rw [_root_.div_eq_zero_iff]
    left
    unfold Util.mean
    field_simp
    ring
  rw [e0, add_zero] at h1 h2
  have e1 : Util.mean (s.map (Util.transform true)) = 10 / log 10 * ((s.map log).sum / s.length) := by
    unfold Util.mean
    rw [List.length_map]
    have : s.map (Util.transform true) = (s.map log).map (10 / log 10 * ·) := by
      rw [List.map_map]
      refine List.map_congr_left fun x _ => ?_
      simp only [transform_true, Spec.decibel, logb, Function.comp_apply]
      ring
    rw [this, List.sum_map_mul_left]
    simp only [List.map_id']
    ring
  have e2 : (psdAt (s.map (Util.transform true))).line = 10 / log 10 * log (Util.mean s) := by
    rw [c203_psd hpos]
    simp only [kernelAt, Spec.decibel, logb]
    ring
  have hc : 0 < 10 / log 10 := by positivity
  rw [e1, e2]
  refine ⟨mul_le_mul_of_nonneg_left ?_ hc.le, ?_⟩
  · rw [div_le_iff₀ hn]
    linarith
  · rw [mul_right_inj' hc.ne', div_eq_iff hn.ne']
    constructor
    · intro h x hx y hy
      have := h2 (by linarith)
      rw [this x hx, this y hy]
    · intro h
      obtain ⟨a, ha⟩ := List.exists_mem_of_ne_nil s hs
      have hr : s = List.replicate s.length a := List.eq_replicate_of_mem fun y hy => h y hy a ha
      rw [hr]
      have hl : (s.length : ℝ) ≠ 0 := hn.ne'
      simp [Util.mean, hl, mul_comm]

theorem zip_reverse_eq {α β : Type} : ∀ {a : List α} {b : List β}, b.length = a.length →
    a.reverse.zip b.reverse = (a.zip b).reverse
  | [], [], _ => rfl
  | a :: as, b :: bs, h => by
    have h' : bs.length = as.length := by simpa using h
    simp only [List.reverse_cons, List.zip_cons_cons]
    rw [List.zip_append (by simp [h']), zip_reverse_eq h']
    rfl

/-- **C203.** A panel is symmetric about zero: read from right to left it shows the same at the negated inputs. -/
theorem c203_symmetric (x : List ℝ) (rows : List (List ℝ)) (hx : x.head? = some 0) (hl : rows.length = x.length) :
    (kernelPanel x rows).reverse = (kernelPanel x rows).map (fun p => (-p.1, p.2)) ∧
      (psdPanel x rows).reverse = (psdPanel x rows).map (fun p => (-p.1, p.2)) := by
  have key : (extractRows x rows).reverse = (extractRows x rows).map fun p => (-p.1, p.2) := by
    match x, hx with
    | x0 :: x, hx =>
      obtain rfl : x0 = 0 := by simpa using hx
      match rows, hl with
      | r0 :: rows, hl =>
        have hl : rows.length = x.length := by simpa using hl
        have r : extractRows (0 :: x) (r0 :: rows) =
            ((x.map fun a => -a).zip rows).reverse ++ (0, r0) :: x.zip rows := by
          unfold extractRows
          simp only [List.reverse_cons, List.dropLast_concat]
          rw [List.zip_append (by simp [hl]), List.zip_cons_cons]
          congr 1
          rw [List.map_reverse, zip_reverse_eq (by simp [hl])]
        rw [r]
        have e : ∀ (a : List ℝ) (b : List (List ℝ)),
            ((a.map fun a => -a).zip b) = (a.zip b).map fun p => (-p.1, p.2) := fun a b => by
          rw [List.zip_map_left]
          rfl
        rw [e]
        simp [List.map_reverse, Function.comp_def]
  constructor
  · unfold kernelPanel
    rw [← List.map_reverse, key, List.map_map, List.map_map]
    rfl
  · unfold psdPanel
    rw [← List.map_reverse, key, List.map_map, List.map_map]
    rfl

/-- **C203.** To the right of zero a panel shows, at every input, the summary of the samples at that input. -/
theorem c203_inputs (x : List ℝ) (rows : List (List ℝ)) (hl : rows.length = x.length) :
    (kernelPanel x rows).drop (x.length - 1) = (x.zip rows).map (fun p => (p.1, kernelAt p.2)) ∧
      (psdPanel x rows).drop (x.length - 1) = (x.zip rows).map fun p => (p.1, psdAt p.2) := by
  have key : (extractRows x rows).drop (x.length - 1) = x.zip rows := by
    unfold extractRows
    rw [List.zip_append (by simp [hl]), List.drop_left' (by simp [hl])]
  constructor
  · unfold kernelPanel
    rw [← List.map_drop, key]
  · unfold psdPanel
    rw [← List.map_drop, key]

/-- **C203** does not say that the black line lies in the shades: it can lie above all of them, with any number of samples above a
hundred. -/
theorem c203_outside (k : ℕ) (hk : 101 ≤ k) : ∃ s : List ℝ, s.length = k + 1 ∧ (∀ x ∈ s, 0 < x) ∧
    ∀ p ∈ (kernelAt s).shades, p.2 < (kernelAt s).line := by
  refine ⟨List.replicate k 1 ++ [2], by simp, ?_, ?_⟩
  · intro x hx
    rcases List.mem_append.1 hx with h | h
    · rw [(List.mem_replicate.1 h).2]; norm_num
    · rw [List.mem_singleton.1 h]; norm_num
  · set s : List ℝ := List.replicate k 1 ++ [2] with hsdef
    have hlen : s.length = k + 1 := by simp [hsdef]
    have hsorted : s.mergeSort (fun a b => decide (a ≤ b)) = s := by
      refine List.mergeSort_of_pairwise ?_
      rw [hsdef, List.pairwise_append]
      refine ⟨List.pairwise_replicate.2 (Or.inr (by simp)), by simp, ?_⟩
      intro a ha b hb
      rw [(List.mem_replicate.1 ha).2, List.mem_singleton.1 hb]
      norm_num
    have hat : ∀ i < k, Util.sortedAt s i = 1 := fun i hi => by
      unfold Util.sortedAt
      rw [hsorted, hlen, Nat.min_eq_left (by omega), hsdef, List.getD_eq_getElem?_getD,
        List.getElem?_append_left (by simpa using hi), List.getElem?_replicate, if_pos hi]
      rfl
    have hk0 : (101 : ℝ) ≤ k := by exact_mod_cast hk
    have hmean : 1 < (kernelAt s).line := by
      show 1 < Util.mean s
      unfold Util.mean
      rw [hlen, hsdef, List.sum_append, List.sum_replicate, lt_div_iff₀ (by positivity)]
      simp
    intro p hp
    obtain ⟨q, hq, rfl⟩ := List.mem_map.1 hp
    have hq1 : 1 ≤ q := by
      simp only [percentages, List.mem_cons, List.not_mem_nil, or_false] at hq
      rcases hq with rfl | rfl | rfl | rfl | rfl | rfl <;> norm_num
    have hr := percent_range hq
    have : Util.quantile s (1 - q / 100) = 1 := by
      unfold Util.quantile Util.interp
      rw [hlen, Nat.add_sub_cancel]
      have hfl : ⌊(1 - q / 100) * (k : ℝ)⌋₊ < k - 1 := by
        rw [Nat.floor_lt (mul_nonneg (by linarith) (by linarith)), Nat.cast_sub (by omega), Nat.cast_one]
        nlinarith
      rw [hat _ (by omega), hat _ (by omega)]
      ring
    simp only [this]
    exact hmean

/-- Three samples of a spectral density. -/
example : ([3, 1, 2] : List ℝ) ≠ [] ∧ (∀ x ∈ ([3, 1, 2] : List ℝ), 0 < x) ∧
    ¬ ∀ x ∈ ([3, 1, 2] : List ℝ), ∀ y ∈ ([3, 1, 2] : List ℝ), x = y := by
  refine ⟨by simp, by intro x hx; simp at hx; rcases hx with rfl | rfl | rfl <;> norm_num, fun h => ?_⟩
  have := h 3 (by simp) 1 (by simp)
  norm_num at this

/-- Two lags and two samples of a kernel. -/
example : ([0, 1] : List ℝ).head? = some 0 ∧ ([[2, 3], [1, -1]] : List (List ℝ)).length = ([0, 1] : List ℝ).length :=
  ⟨rfl, rfl⟩

end Gpcm
