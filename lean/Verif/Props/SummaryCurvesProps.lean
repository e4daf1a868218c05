import Verif.Model.SummaryCurves
import Mathlib.Analysis.Convex.SpecificFunctions.Basic
import Mathlib.Analysis.Convex.Jensen

/-!
# Property C196: the curves in a summary of samples
-/

open Real

namespace Gpcm

/-- **C196** At every input, `all_samples` has the value of every sample, in the order of the samples. -/
theorem c196_all (n : ℕ) (samples : List (List ℝ)) (db : Bool) : (allCurves n samples db).length = n ∧
    ∀ i < n, (allCurves n samples db)[i]? = some (samples.map fun s => Util.transform db (s.getD i 0)) := by
  refine ⟨by simp [allCurves, atInputs], fun i hi => ?_⟩
  simp [allCurves, atInputs, hi, List.getElem?_range, Function.comp_def]

/-- **C196** The curves to show are three different samples, or all of them if there are fewer, the same ones at all inputs, whatever the
random permutation. -/
theorem c196_shown {perm : List ℕ} {samples : List (List ℝ)} (hp : perm.Perm (List.range samples.length)) (n : ℕ) (db : Bool) :
    ∃ inds : List ℕ, inds.length = min 3 samples.length ∧ inds.Nodup ∧ (∀ j ∈ inds, j < samples.length) ∧
      (shownCurves perm n samples db).length = n ∧
      ∀ i < n, (shownCurves perm n samples db)[i]? = some (inds.map fun j => Util.transform db ((samples.getD j []).getD i 0)) := by
  have hlt : ∀ j ∈ perm.take 3, j < samples.length := fun j hj => List.mem_range.1 (hp.mem_iff.1 (List.mem_of_mem_take hj))
  refine ⟨perm.take 3, ?_, ?_, hlt, by simp [shownCurves, atInputs], fun i hi => ?_⟩
  · rw [List.length_take, hp.length_eq, List.length_range]
  · exact (hp.nodup_iff.2 List.nodup_range).sublist (List.take_sublist 3 perm)
  · simp only [shownCurves, atInputs, List.getElem?_map, List.getElem?_range hi, Option.map_some, List.map_map, Option.some.injEq]
    refine List.map_congr_left fun j hj => ?_
    have hj := hlt j hj
    simp [List.getD_eq_getElem?_getD, List.getElem?_eq_getElem hj]

theorem sum_map_log {l : List ℝ} : ∀ (_ : ∀ x ∈ l, 0 < x), 0 < l.length → (l.map log).sum / l.length ≤ log (l.sum / l.length) := by
  intro hl hn
  have hn' : (0 : ℝ) < l.length := by exact_mod_cast hn
  have h := strictConcaveOn_log_Ioi.concaveOn.le_map_sum (t := Finset.univ) (w := fun _ : Fin l.length => (l.length : ℝ)⁻¹)
    (p := fun i => l.get i) (fun i _ => by positivity) (by simp [hn'.ne']) fun i _ => hl _ (List.get_mem l i)
  simp only [smul_eq_mul, ← Finset.mul_sum] at h
  rw [← List.sum_ofFn (f := fun i => log (l.get i)), ← List.sum_ofFn (f := fun i => l.get i), List.ofFn_get] at h
  have e : List.ofFn (fun i => log (l.get i)) = l.map log := by
    rw [List.ofFn_eq_map]
    conv_rhs => rw [← List.ofFn_get l, List.ofFn_eq_map, List.map_map]
    rfl
  rw [e] at h
  rw [div_eq_inv_mul, div_eq_inv_mul]
  exact h

/-- **C196** Without decibels the mean is the average of all curves. In decibels it lies on or above this average, because the samples
are averaged first. -/
theorem c196_mean {s : List ℝ} (hs : s ≠ []) : (summariseAt false s).mean = Util.mean (s.map (Util.transform false)) ∧
    ((∀ x ∈ s, 0 < x) → Util.mean (s.map (Util.transform true)) ≤ (summariseAt true s).mean) := by
  have hid : s.map (Util.transform false) = s := by
    conv_rhs => rw [← List.map_id s]
    exact List.map_congr_left fun x _ => by simp [Util.transform]
  refine ⟨by rw [hid]; simp [summariseAt, Util.transform], fun hp => ?_⟩
  have hn := List.length_pos_of_ne_nil hs
  have h := sum_map_log hp hn
  have h10 : 0 < log 10 := log_pos (by norm_num)
  have e : (s.map (Util.transform true)).sum = 10 / log 10 * (s.map log).sum := by
    rw [← List.sum_map_mul_left]
    congr 1
    refine List.map_congr_left fun x _ => ?_
    simp only [Util.transform, if_true, logb]
    ring
  simp only [summariseAt, Util.mean, List.length_map, e]
  simp only [Util.transform, if_true, logb]
  calc 10 / log 10 * (s.map log).sum / s.length = 10 / log 10 * ((s.map log).sum / s.length) := by ring
    _ ≤ 10 / log 10 * log (s.sum / s.length) := by gcongr
    _ = _ := by ring

/-- Four samples at two inputs. -/
example : [2, 0, 3, 1].Perm (List.range ([[1, 2], [3, 4], [5, 6], [7, 8]] : List (List ℝ)).length) := by
  simp only [List.length_cons, List.length_nil]
  decide

example : shownCurves [2, 0, 3, 1] 2 [[1, 2], [3, 4], [5, 6], [7, 8]] false = [[5, 1, 7], [6, 2, 8]] := by
  simp [shownCurves, atInputs, Util.transform, List.range_succ]

/-- In decibels the mean of one and 100 is above 10, the average of 0 and 20. -/
example : Util.mean ([1, 100].map (Util.transform true)) ≤ (summariseAt true [1, 100]).mean :=
  (c196_mean (by simp)).2 (by intro x hx; simp at hx; rcases hx with rfl | rfl <;> norm_num)

end Gpcm
