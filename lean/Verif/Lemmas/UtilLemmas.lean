import Verif.Model.Util
import Mathlib.Algebra.Order.BigOperators.Ring.Finset
import Mathlib.Tactic.Linarith
import Mathlib.Tactic.Ring
import Mathlib.Tactic.NormNum
import Mathlib.Tactic.FieldSimp
import Mathlib.Tactic.Positivity

/-! # Helper lemmas for the vector functions of `util.py` -/

open Real

namespace Gpcm.Util

theorem getD_eq {α : Type} (l : List α) (a : α) {i : ℕ} (h : i < l.length) : l.getD i a = l[i] := by
  simp [List.getD_eq_getElem?_getD, List.getElem?_eq_getElem h]

/-! ## `invert_perm` -/

theorem invertLoop_ok : ∀ (ps : List ℕ) (i : ℕ) (inv : List ℤ), (∀ p ∈ ps, p < inv.length) →
    ∃ out, invertLoop i ps inv = .ok out ∧ out.length = inv.length
  | [], i, inv, _ => ⟨inv, rfl, rfl⟩
  | p :: ps, i, inv, h => by
    rw [invertLoop, if_pos (h p (by simp))]
    obtain ⟨out, h1, h2⟩ := invertLoop_ok ps (i + 1) (inv.set p i)
      (fun q hq => by simpa using h q (by simp [hq]))
    exact ⟨out, h1, by simpa using h2⟩

theorem invertLoop_error : ∀ (ps : List ℕ) (i : ℕ) (inv : List ℤ) {p : ℕ}, p ∈ ps →
    inv.length ≤ p → invertLoop i ps inv = .error .indexError
  | q :: ps, i, inv, p, hp, hl => by
    rw [invertLoop]
    split
    · rename_i hq
      rcases List.mem_cons.1 hp with rfl | hp
      · omega
      · exact invertLoop_error ps (i + 1) _ hp (by simpa using hl)
    · rfl

/-- Entries not named in the rest of the permutation stay; the others get their positions. -/
theorem invertLoop_get : ∀ (ps : List ℕ) (i : ℕ) (inv out : List ℤ), ps.Nodup →
    invertLoop i ps inv = .ok out →
    (∀ j, j ∉ ps → out[j]? = inv[j]?) ∧ ∀ m p, ps[m]? = some p → out[p]? = some ((i + m : ℕ) : ℤ)
  | [], i, inv, out, _, h => by
    cases h
    exact ⟨fun _ _ => rfl, fun m p hp => by simp at hp⟩
  | q :: ps, i, inv, out, hn, h => by
    rw [invertLoop] at h
    split at h
    · rename_i hq
      have hn' := List.nodup_cons.1 hn
      obtain ⟨h1, h2⟩ := invertLoop_get ps (i + 1) (inv.set q i) out hn'.2 h
      constructor
      · intro j hj
        have hj' : j ≠ q ∧ j ∉ ps := by simpa using hj
        rw [h1 j hj'.2, List.getElem?_set_ne (Ne.symm hj'.1)]
      · intro m p hp
        cases m with
        | zero =>
          obtain rfl : q = p := by simpa using hp
          rw [h1 q hn'.1, List.getElem?_set_self hq]
          simp
        | succ m =>
          rw [h2 m p (by simpa using hp)]
          congr 2
          omega
    · cases h

/-! ## Autocorrelation -/

/-- Autocovariance sum at lag `k`. -/
noncomputable def lagSum (x : List ℝ) (k : ℕ) : ℝ :=
  ∑ i ∈ Finset.range (x.length - k), x.getD (i + k) 0 * x.getD i 0

theorem correlateFull_drop (x : List ℝ) :
    (correlateFull x).drop ((correlateFull x).length / 2) =
      (List.range x.length).map (lagSum x) := by
  rcases Nat.eq_zero_or_pos x.length with h0 | hpos
  · have : x = [] := List.length_eq_zero_iff.1 h0
    subst this
    simp [correlateFull]
  have hlen : (correlateFull x).length = 2 * x.length - 1 := by simp [correlateFull]
  apply List.ext_getElem?
  intro k
  rw [List.getElem?_drop, hlen]
  have hd : (2 * x.length - 1) / 2 = x.length - 1 := by omega
  rw [hd]
  by_cases hk : k < x.length
  · rw [List.getElem?_map, List.getElem?_range hk]
    unfold correlateFull
    rw [List.getElem?_map, List.getElem?_range (by omega)]
    simp only [Option.map_some]
    congr 1
    unfold lagSum
    rw [← Finset.sum_subset (s₁ := Finset.range (x.length - k))]
    · refine Finset.sum_congr rfl fun i hi => ?_
      have hi := Finset.mem_range.1 hi
      have e : i + (x.length - 1 + k) - (x.length - 1) = i + k := by omega
      rw [if_pos ⟨by omega, by omega⟩, e]
    · exact Finset.range_mono (by omega)
    · intro i _ hi2
      have := Finset.mem_range.not.1 hi2
      rw [if_neg (by omega)]
  · rw [List.getElem?_eq_none (by rw [hlen]; omega), List.getElem?_eq_none (by simp; omega)]

theorem lagSum_zero (x : List ℝ) : lagSum x 0 = ∑ i ∈ Finset.range x.length, x.getD i 0 ^ 2 := by
  unfold lagSum
  simp only [Nat.sub_zero, add_zero, sq]

theorem abs_lagSum_le (x : List ℝ) (k : ℕ) : |lagSum x k| ≤ lagSum x 0 := by
  rw [lagSum_zero]
  have h1 : ∑ i ∈ Finset.range (x.length - k), x.getD i 0 ^ 2 ≤
      ∑ i ∈ Finset.range x.length, x.getD i 0 ^ 2 :=
    Finset.sum_le_sum_of_subset_of_nonneg (Finset.range_mono (by omega)) fun _ _ _ => sq_nonneg _
  have h2 : ∑ i ∈ Finset.range (x.length - k), x.getD (i + k) 0 ^ 2 ≤
      ∑ i ∈ Finset.range x.length, x.getD i 0 ^ 2 := by
    rw [← Finset.sum_image (f := fun j => x.getD j 0 ^ 2) (g := fun i => i + k)
      (s := Finset.range (x.length - k)) (fun a _ b _ h => Nat.add_right_cancel h)]
    refine Finset.sum_le_sum_of_subset_of_nonneg ?_ fun _ _ _ => sq_nonneg _
    intro j hj
    obtain ⟨i, hi, rfl⟩ := Finset.mem_image.1 hj
    have := Finset.mem_range.1 hi
    exact Finset.mem_range.2 (by omega)
  calc |lagSum x k| ≤ ∑ i ∈ Finset.range (x.length - k), |x.getD (i + k) 0 * x.getD i 0| :=
        Finset.abs_sum_le_sum_abs _ _
    _ ≤ ∑ i ∈ Finset.range (x.length - k), (x.getD (i + k) 0 ^ 2 + x.getD i 0 ^ 2) / 2 := by
        refine Finset.sum_le_sum fun i _ => ?_
        rw [abs_mul]
        nlinarith [sq_nonneg (|x.getD (i + k) 0| - |x.getD i 0|), sq_abs (x.getD (i + k) 0),
          sq_abs (x.getD i 0)]
    _ = ((∑ i ∈ Finset.range (x.length - k), x.getD (i + k) 0 ^ 2) +
          ∑ i ∈ Finset.range (x.length - k), x.getD i 0 ^ 2) / 2 := by
        rw [← Finset.sum_div, Finset.sum_add_distrib]
    _ ≤ _ := by linarith

/-- The centred series. -/
noncomputable def centre (x : List ℝ) : List ℝ := x.map (· - mean x)

theorem length_centre (x : List ℝ) : (centre x).length = x.length := by simp [centre]

/-- Number of entries asked for. -/
def lagCount (lags : Option ℕ) (n : ℕ) : ℕ :=
  match lags with
  | some l => l + 1
  | none => n

theorem lagCount_succ {lags : Option ℕ} {n : ℕ} (h : 0 < n) : ∃ m, lagCount lags n = m + 1 := by
  cases lags with
  | some l => exact ⟨l, rfl⟩
  | none => exact ⟨n - 1, (Nat.sub_add_cancel h).symm⟩

/-- The autocovariance estimate, entry by entry. -/
theorem autocov_eq (x : List ℝ) (lags : Option ℕ) (window : Bool) :
    autocov x lags window =
      ((List.range x.length).map fun k => lagSum (centre x) k /
        (if window then (x.length : ℝ) else ((x.length - k : ℕ) : ℝ))).take
        (lagCount lags x.length) := by
  have hc : (x.map (· - mean x)) = centre x := rfl
  have hmain : (if window = true then
      ((correlateFull (centre x)).drop ((correlateFull (centre x)).length / 2)).map
        (fun a => a / ((centre x).length : ℝ))
    else List.zipWith (fun a b : ℝ => a / b)
      ((correlateFull (centre x)).drop ((correlateFull (centre x)).length / 2))
      ((List.range (centre x).length).map fun i => (((centre x).length - i : ℕ) : ℝ))) =
      (List.range x.length).map fun k => lagSum (centre x) k /
        (if window then (x.length : ℝ) else ((x.length - k : ℕ) : ℝ)) := by
    rw [correlateFull_drop, length_centre]
    cases window
    · simp [List.zipWith_map]
    · simp [Function.comp_def]
  unfold autocov
  simp only [hc]
  rw [hmain]
  cases lags with
  | some l => rfl
  | none => simp [lagCount, List.take_of_length_le]

theorem mean_affine {x : List ℝ} (hx : x ≠ []) (a b : ℝ) :
    mean (x.map fun y => a * y + b) = a * mean x + b := by
  have hn : (x.length : ℝ) ≠ 0 := by
    exact_mod_cast (List.length_pos_of_ne_nil hx).ne'
  unfold mean
  rw [List.sum_map_add, List.sum_map_mul_left]
  simp
  field_simp

theorem centre_affine {x : List ℝ} (hx : x ≠ []) (a b : ℝ) :
    centre (x.map fun y => a * y + b) = (centre x).map fun y => a * y := by
  unfold centre
  rw [mean_affine hx, List.map_map, List.map_map]
  refine List.map_congr_left fun y _ => ?_
  simp only [Function.comp]
  ring

theorem lagSum_scale (x : List ℝ) (a : ℝ) (k : ℕ) :
    lagSum (x.map fun y => a * y) k = a ^ 2 * lagSum x k := by
  unfold lagSum
  rw [Finset.mul_sum]
  simp only [List.length_map]
  refine Finset.sum_congr rfl fun i hi => ?_
  have hi := Finset.mem_range.1 hi
  have e : ∀ j, (x.map fun y => a * y).getD j 0 = a * x.getD j 0 := by
    intro j
    simp only [List.getD_eq_getElem?_getD, List.getElem?_map]
    cases x[j]? <;> simp
  rw [e, e]
  ring

/-- A series that is not constant has a positive variance. -/
theorem lagSum_centre_pos {x : List ℝ} (h : ∃ a ∈ x, ∃ b ∈ x, a ≠ b) : 0 < lagSum (centre x) 0 := by
  rw [lagSum_zero]
  obtain ⟨a, ha, b, hb, hab⟩ := h
  have hex : ∃ c ∈ centre x, c ≠ 0 := by
    by_contra hc
    push Not at hc
    have h1 := hc (a - mean x) (List.mem_map.2 ⟨a, ha, rfl⟩)
    have h2 := hc (b - mean x) (List.mem_map.2 ⟨b, hb, rfl⟩)
    exact hab (by linarith)
  obtain ⟨c, hc, hc0⟩ := hex
  obtain ⟨i, hi, rfl⟩ := List.mem_iff_getElem.1 hc
  refine Finset.sum_pos' (fun _ _ => sq_nonneg _) ⟨i, Finset.mem_range.2 hi, ?_⟩
  rw [getD_eq _ _ hi]
  positivity

/-! ## Quantiles -/

theorem interp_mono {a : ℕ → ℝ} (ha : Monotone a) {h k : ℝ} (h0 : 0 ≤ h) (hk : h ≤ k) :
    interp a h ≤ interp a k := by
  unfold interp
  have fh := Nat.floor_le h0
  have fk := Nat.floor_le (h0.trans hk)
  have lh := Nat.lt_floor_add_one h
  have lk := Nat.lt_floor_add_one k
  have dh : 0 ≤ a (⌊h⌋₊ + 1) - a ⌊h⌋₊ := by linarith [ha (Nat.le_succ ⌊h⌋₊)]
  have dk : 0 ≤ a (⌊k⌋₊ + 1) - a ⌊k⌋₊ := by linarith [ha (Nat.le_succ ⌊k⌋₊)]
  rcases (Nat.floor_mono hk).eq_or_lt with he | hlt
  · rw [← he]
    rw [← he] at fk lk
    nlinarith
  · have h1 : a (⌊h⌋₊ + 1) ≤ a ⌊k⌋₊ := ha hlt
    have h2 : (h - ⌊h⌋₊) * (a (⌊h⌋₊ + 1) - a ⌊h⌋₊) ≤ a (⌊h⌋₊ + 1) - a ⌊h⌋₊ := by nlinarith
    have h3 : 0 ≤ (k - ⌊k⌋₊) * (a (⌊k⌋₊ + 1) - a ⌊k⌋₊) := mul_nonneg (by linarith) dk
    linarith

theorem interp_nat (a : ℕ → ℝ) (i : ℕ) : interp a i = a i := by simp [interp]

theorem sorted_pairwise (s : List ℝ) :
    (s.mergeSort (fun a b => decide (a ≤ b))).Pairwise (· ≤ ·) := by
  have := List.pairwise_mergeSort (le := fun a b : ℝ => decide (a ≤ b))
    (fun a b c h1 h2 => by
      simp only [decide_eq_true_eq] at *
      exact h1.trans h2)
    (fun a b => by simpa using le_total a b) s
  simpa using this

theorem sortedAt_mono (s : List ℝ) : Monotone (sortedAt s) := by
  intro i j hij
  unfold sortedAt
  rcases Nat.eq_zero_or_pos s.length with h0 | hpos
  · have : s = [] := List.length_eq_zero_iff.1 h0
    subst this
    simp
  have hl : (s.mergeSort (fun a b => decide (a ≤ b))).length = s.length := List.length_mergeSort s
  rw [getD_eq _ _ (by rw [hl]; omega), getD_eq _ _ (by rw [hl]; omega)]
  rcases (Nat.le_iff_lt_or_eq.1 (min_le_min_right (s.length - 1) hij)) with hlt | he
  · exact List.pairwise_iff_getElem.1 (sorted_pairwise s) _ _ _ _ hlt
  · simp [he]

theorem sortedAt_mem {s : List ℝ} (h : s ≠ []) (i : ℕ) : sortedAt s i ∈ s := by
  unfold sortedAt
  have hpos := List.length_pos_of_ne_nil h
  have hl : (s.mergeSort (fun a b => decide (a ≤ b))).length = s.length := List.length_mergeSort s
  rw [getD_eq _ _ (by rw [hl]; omega)]
  exact (List.mergeSort_perm s _).mem_iff.1 (List.getElem_mem _)

theorem quantile_mono {s : List ℝ} {p q : ℝ} (hp : 0 ≤ p) (hpq : p ≤ q) :
    quantile s p ≤ quantile s q := by
  unfold quantile
  refine interp_mono (sortedAt_mono s) (by positivity) ?_
  exact mul_le_mul_of_nonneg_right hpq (Nat.cast_nonneg _)

theorem quantile_pos {s : List ℝ} (h : s ≠ []) (hs : ∀ x ∈ s, 0 < x) {q : ℝ} (hq : 0 ≤ q) :
    0 < quantile s q := by
  have h1 : quantile s 0 ≤ quantile s q := quantile_mono le_rfl hq
  have h2 : quantile s 0 = sortedAt s 0 := by
    unfold quantile
    rw [zero_mul]
    exact_mod_cast interp_nat (sortedAt s) 0
  have := hs _ (sortedAt_mem h 0)
  linarith

theorem transform_mono {db : Bool} {x y : ℝ} (hx : db = true → 0 < x) (h : x ≤ y) :
    transform db x ≤ transform db y := by
  unfold transform
  cases db
  · simpa using h
  · have := Real.logb_le_logb_of_le (b := 10) (by norm_num) (hx rfl) h
    simp only [if_true]
    linarith

end Gpcm.Util
