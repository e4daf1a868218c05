import Verif.Model.Paper
import Verif.Spec.Paper
import Verif.Lemmas.UtilLemmas
import Verif.Lemmas.PyLemmas
import Mathlib.MeasureTheory.Integral.IntegralEqImproper
import Mathlib.MeasureTheory.Integral.ExpDecay
import Mathlib.Analysis.SpecialFunctions.ImproperIntegrals
import Mathlib.Tactic.Linarith
import Mathlib.Tactic.Ring
import Mathlib.Tactic.FieldSimp

/-! # Helper lemmas for the post-processing of predictions -/

open Real MeasureTheory

namespace Gpcm

/-! ## Scaling of samples -/

theorem mean_map_mul (c : ℝ) (s : List ℝ) : Util.mean (s.map (c * ·)) = c * Util.mean s := by
  unfold Util.mean
  rw [List.length_map, List.sum_map_mul_left, List.map_id', mul_div_assoc]

theorem mean_map_affine {c d : ℝ} {s : List ℝ} (hs : s ≠ []) :
    Util.mean (s.map fun x => c * x + d) = c * Util.mean s + d := by
  unfold Util.mean
  have hl : (s.length : ℝ) ≠ 0 := by simpa using hs
  rw [List.length_map, List.sum_map_add, List.sum_map_mul_left, List.map_id', List.map_const', List.sum_replicate,
    nsmul_eq_mul]
  field_simp

theorem std_map_mul (c : ℝ) (s : List ℝ) : std (s.map (c * ·)) = |c| * std s := by
  unfold std
  rw [mean_map_mul, List.map_map]
  have e : ((fun x => (x - c * Util.mean s) ^ 2) ∘ fun x => c * x) =
      (fun x => c ^ 2 * x) ∘ fun x => (x - Util.mean s) ^ 2 := by
    funext x
    simp only [Function.comp_apply]
    ring
  rw [e, ← List.map_map, mean_map_mul, sqrt_mul (sq_nonneg c), sqrt_sq_eq_abs]

theorem sortedAt_map_mul {c : ℝ} (hc : 0 < c) (s : List ℝ) (i : ℕ) :
    Util.sortedAt (s.map (c * ·)) i = c * Util.sortedAt s i := by
  unfold Util.sortedAt
  have e : (s.map (c * ·)).mergeSort (fun a b => decide (a ≤ b)) =
      (s.mergeSort (fun a b => decide (a ≤ b))).map (c * ·) := by
    rw [List.map_mergeSort]
    intro a _ b _
    simp [mul_le_mul_iff_right₀ hc]
  rw [e, List.length_map]
  rcases lt_or_ge (min i (s.length - 1)) (s.mergeSort (fun a b => decide (a ≤ b))).length with h | h
  · rw [Util.getD_eq _ _ (by simpa using h), Util.getD_eq _ _ h, List.getElem_map]
  · rw [List.getD_eq_getElem?_getD, List.getD_eq_getElem?_getD, List.getElem?_eq_none (by simpa using h),
      List.getElem?_eq_none h]
    simp

theorem quantile_map_mul {c : ℝ} (hc : 0 < c) (s : List ℝ) (q : ℝ) :
    Util.quantile (s.map (c * ·)) q = c * Util.quantile s q := by
  unfold Util.quantile Util.interp
  rw [List.length_map]
  simp only [sortedAt_map_mul hc]
  ring

theorem transform_mul {c x : ℝ} (hc : 0 < c) (hx : 0 < x) :
    Util.transform true (c * x) = Util.transform true x + 10 * logb 10 c := by
  simp only [Util.transform, if_true]
  rw [logb_mul hc.ne' hx.ne']
  ring

theorem mean_pos {s : List ℝ} (hs : s ≠ []) (h : ∀ x ∈ s, 0 < x) : 0 < Util.mean s := by
  unfold Util.mean
  have hl : 0 < s.length := List.length_pos_of_ne_nil hs
  exact div_pos (List.sum_pos _ h hs) (by exact_mod_cast hl)

/-! ## `estimate_psd` is linear in positive factors -/

theorem symmetrise_map_mul (c : ℝ) (k : List ℝ) (n : ℕ) :
    Util.symmetrise (k.map (c * ·)) n = (Util.symmetrise k n).map (c * ·) := by
  unfold Util.symmetrise
  have e : k.map (c * ·) ++ List.replicate n 0 = (k ++ List.replicate n 0).map (c * ·) := by
    simp
  simp only [e]
  generalize k ++ List.replicate n 0 = l
  simp [List.map_reverse, List.map_dropLast]

theorem fft_mul {N : ℕ} (c : ℂ) (x : Fin N → ℂ) (f : Fin N) : Util.fft (fun j => c * x j) f = c * Util.fft x f := by
  unfold Util.fft
  rw [Finset.mul_sum]
  exact Finset.sum_congr rfl fun j _ => by ring

theorem fft_map_mul (c : ℝ) (s s' : List ℝ) (h : s' = s.map (c * ·)) :
    List.ofFn (Util.fft fun j => ((s'.get j : ℝ) : ℂ)) =
      (List.ofFn (Util.fft fun j => ((s.get j : ℝ) : ℂ))).map ((c : ℂ) * ·) := by
  subst h
  apply List.ext_getElem
  · simp
  intro i h1 h2
  simp only [List.getElem_map, List.getElem_ofFn]
  rw [← fft_mul]
  unfold Util.fft
  refine Fintype.sum_equiv (finCongr (by simp)) _ _ fun j => ?_
  simp

theorem absPsd_map_mul {c : ℝ} (hc : 0 < c) (k : List ℝ) (n : ℕ) :
    Util.absPsd (k.map (c * ·)) n = (Util.absPsd k n).map (c * ·) := by
  unfold Util.absPsd Util.rawPsd
  rw [fft_map_mul c _ _ (symmetrise_map_mul c k n), List.map_map, List.map_map]
  refine List.map_congr_left fun z _ => ?_
  simp [abs_mul, abs_of_pos hc]

theorem trapz_map_mul (c : ℝ) : ∀ y x : List ℝ, Util.trapz (y.map (c * ·)) x = c * Util.trapz y x
  | [], x => by simp [Util.trapz]
  | [a], x => by simp [Util.trapz]
  | a :: b :: l, [] => by simp [Util.trapz]
  | a :: b :: l, [x] => by simp [Util.trapz]
  | a :: b :: l, x :: x' :: m => by
    have := trapz_map_mul c (b :: l) (x' :: m)
    simp only [List.map_cons, Util.trapz] at this ⊢
    rw [this]
    ring

theorem scaledPsd_map_mul {c : ℝ} (hc : 0 < c) (k : List ℝ) (n : ℕ) (dt k0 : ℝ) :
    Util.scaledPsd (k.map (c * ·)) n dt (c * k0) = (Util.scaledPsd k n dt k0).map fun p => (p.1, c * p.2) := by
  unfold Util.scaledPsd Util.totalPower
  rw [absPsd_map_mul hc, List.length_map, trapz_map_mul, mul_div_mul_left _ _ hc.ne', List.map_map]
  have e : (fun x => x / (Util.trapz (Util.absPsd k n) (Util.freqs (Util.absPsd k n).length dt) / k0)) ∘ (fun x => c * x) =
      (fun x => c * x) ∘
        fun x => x / (Util.trapz (Util.absPsd k n) (Util.freqs (Util.absPsd k n).length dt) / k0) := by
    funext x
    simp only [Function.comp_apply]
    ring
  rw [e, ← List.map_map, List.zip_map_right]
  rfl

theorem estimatePsd_map_mul {c : ℝ} (hc : 0 < c) (t k : List ℝ) (n : ℕ) :
    Util.estimatePsd t (k.map (c * ·)) n false =
      (Util.estimatePsd t k n false).map fun l => l.map fun p => (p.1, c * p.2) := by
  unfold Util.estimatePsd
  have e : k.map (c * ·) ++ List.replicate n 0 = (k ++ List.replicate n 0).map (c * ·) := by simp
  rcases t with _ | ⟨t0, ts⟩
  · rfl
  simp only [e]
  split
  · rfl
  rcases hk : k ++ List.replicate n 0 with _ | ⟨k0, kt⟩
  · rfl
  rcases ts with _ | ⟨t1, tt⟩
  · rfl
  simp only [List.map_cons]
  rw [scaledPsd_map_mul hc]
  simp only [Util.transform, Bool.false_eq_true, if_false, Except.map, List.map_map, List.filter_map]
  rfl

/-! ## Windows of sorted data -/

theorem mem_window {data : List (ℤ × ℝ)} {a b : ℤ} {r : ℤ × ℝ} :
    r ∈ Spec.window data a b ↔ r ∈ data ∧ a ≤ r.1 ∧ r.1 < b := by
  simp [Spec.window]

theorem window_append {data : List (ℤ × ℝ)} (h : data.Pairwise fun r s => r.1 ≤ s.1) {a b c : ℤ} (hab : a ≤ b)
    (hbc : b ≤ c) : Spec.window data a b ++ Spec.window data b c = Spec.window data a c := by
  unfold Spec.window
  induction data with
  | nil => rfl
  | cons r l ih =>
    have hl := List.pairwise_cons.1 h
    specialize ih hl.2
    rcases lt_or_ge r.1 b with hr | hr
    · have h1 : (decide (b ≤ r.1) && decide (r.1 < c)) = false := by simp; omega
      have h2 : (decide (a ≤ r.1) && decide (r.1 < b)) = (decide (a ≤ r.1) && decide (r.1 < c)) := by
        have : r.1 < c := by omega
        simp [hr, this]
      rw [List.filter_cons, List.filter_cons, List.filter_cons, h1, h2]
      split
      · simp only [Bool.false_eq_true, if_false, List.cons_append, ih]
      · simp only [Bool.false_eq_true, if_false, ih]
    · have h0 : ∀ r' ∈ r :: l, (decide (a ≤ r'.1) && decide (r'.1 < b)) = false := by
        intro r' hr'
        have : b ≤ r'.1 := by
          rcases List.mem_cons.1 hr' with rfl | h'
          · exact hr
          · exact hr.trans (hl.1 r' h')
        simp; omega
      rw [List.filter_eq_nil_iff.2 (by intro r' hr'; simp only [h0 r' hr']; simp), List.nil_append]
      refine List.filter_congr fun r' hr' => ?_
      have : b ≤ r'.1 := by
        rcases List.mem_cons.1 hr' with rfl | h'
        · exact hr
        · exact hr.trans (hl.1 r' h')
      have ha : a ≤ r'.1 := by omega
      simp [this, ha]

theorem windows_flatten {data : List (ℤ × ℝ)} (h : data.Pairwise fun r s => r.1 ≤ s.1) (a : ℤ) {w : ℤ} (hw : 0 ≤ w) :
    ∀ n : ℕ, ((List.range n).flatMap fun i : ℕ => Spec.window data (a + (i : ℤ) * w) (a + ((i : ℤ) + 1) * w)) =
      Spec.window data a (a + n * w)
  | 0 => by
    simp only [List.range_zero, List.flatMap_nil, Nat.cast_zero, zero_mul, add_zero]
    symm
    rw [List.eq_nil_iff_forall_not_mem]
    intro r hr
    have := mem_window.1 hr
    omega
  | n + 1 => by
    rw [List.range_succ, List.flatMap_append, windows_flatten h a hw n]
    simp only [List.flatMap_cons, List.flatMap_nil, List.append_nil]
    rw [window_append h (by have : 0 ≤ (n : ℤ) * w := by positivity
                            linarith) (by nlinarith)]
    push_cast
    rfl

/-! ## Second differences -/

open Paper

theorem diff_map_add (c : ℝ) : ∀ t : List ℝ, diff (t.map (· + c)) = diff t
  | [] => rfl
  | [a] => rfl
  | a :: b :: l => by
    have := diff_map_add c (b :: l)
    simp only [List.map_cons, diff] at this ⊢
    rw [this, add_sub_add_right_eq_sub]

theorem diff_map_mul (c : ℝ) : ∀ t : List ℝ, diff (t.map (c * ·)) = (diff t).map (c * ·)
  | [] => rfl
  | [a] => rfl
  | a :: b :: l => by
    have := diff_map_mul c (b :: l)
    simp only [List.map_cons, diff] at this ⊢
    rw [this, mul_sub]

theorem diff_length : ∀ t : List ℝ, (diff t).length = t.length - 1
  | [] => rfl
  | [a] => rfl
  | a :: b :: l => by
    have := diff_length (b :: l)
    simp only [diff, List.length_cons] at this ⊢
    omega

theorem foldl_max_mul {c : ℝ} (hc : 0 ≤ c) : ∀ (l : List ℝ) (a : ℝ),
    (l.map (c * ·)).foldl max (c * a) = c * l.foldl max a
  | [], a => rfl
  | b :: l, a => by
    simp only [List.map_cons, List.foldl_cons]
    rw [← mul_max_of_nonneg _ _ hc, foldl_max_mul hc l]

theorem maxOf_map_mul {c : ℝ} (hc : 0 ≤ c) (l : List ℝ) : maxOf (l.map (c * ·)) = (maxOf l).map (c * ·) := by
  cases l with
  | nil => rfl
  | cons a l => simp [maxOf, Except.map, foldl_max_mul hc]

theorem le_foldl_max : ∀ (l : List ℝ) (a : ℝ), a ≤ l.foldl max a ∧ ∀ x ∈ l, x ≤ l.foldl max a
  | [], a => by simp
  | b :: l, a => by
    have := le_foldl_max l (max a b)
    simp only [List.foldl_cons, List.mem_cons, forall_eq_or_imp]
    exact ⟨(le_max_left a b).trans this.1, (le_max_right a b).trans this.1, this.2⟩

theorem foldl_max_mem : ∀ (l : List ℝ) (a : ℝ), l.foldl max a = a ∨ l.foldl max a ∈ l
  | [], a => by simp
  | b :: l, a => by
    simp only [List.foldl_cons, List.mem_cons]
    rcases foldl_max_mem l (max a b) with h | h
    · rw [h]
      rcases max_choice a b with h' | h' <;> simp [h']
    · exact Or.inr (Or.inr h)

theorem maxOf_spec {l : List ℝ} {b : ℝ} (h : maxOf l = .ok b) : b ∈ l ∧ ∀ x ∈ l, x ≤ b := by
  cases l with
  | nil => cases h
  | cons a l =>
    obtain rfl := Except.ok.inj h
    have := le_foldl_max l a
    refine ⟨?_, by simpa using this⟩
    rcases foldl_max_mem l a with h | h
    · rw [h]; simp
    · exact List.mem_cons_of_mem _ h

theorem maxOf_ok {l : List ℝ} (h : l ≠ []) : ∃ b, maxOf l = .ok b := by
  cases l with
  | nil => exact absurd rfl h
  | cons a l => exact ⟨_, rfl⟩

theorem diff_arith (d : ℝ) : ∀ (n : ℕ) (a : ℝ),
    diff ((List.range n).map fun i : ℕ => a + i * d) = List.replicate (n - 1) d
  | 0, a => rfl
  | 1, a => rfl
  | n + 2, a => by
    have ih := diff_arith d (n + 1) (a + d)
    have e : ∀ m : ℕ, ((List.range (m + 1)).map fun i : ℕ => a + i * d) =
        a :: (List.range m).map fun i : ℕ => a + d + i * d := fun m => by
      rw [List.range_succ_eq_map, List.map_cons, List.map_map]
      simp only [Nat.cast_zero, zero_mul, add_zero, List.cons.injEq, true_and]
      refine List.map_congr_left fun i _ => ?_
      simp only [Function.comp_apply, Nat.cast_succ]
      ring
    rw [e]
    have e2 : ((List.range (n + 1)).map fun i : ℕ => a + d + i * d) =
        (a + d) :: (List.range n).map fun i : ℕ => a + d + d + i * d := by
      rw [List.range_succ_eq_map, List.map_cons, List.map_map]
      simp only [Nat.cast_zero, zero_mul, add_zero, List.cons.injEq, true_and]
      refine List.map_congr_left fun i _ => ?_
      simp only [Function.comp_apply, Nat.cast_succ]
      ring
    rw [e2] at ih ⊢
    simp only [diff, add_sub_cancel_left] at ih ⊢
    rw [ih]
    simp [List.replicate_succ]

theorem diff_replicate (d : ℝ) : ∀ n : ℕ, diff (List.replicate n d) = List.replicate (n - 1) 0
  | 0 => rfl
  | 1 => rfl
  | n + 2 => by
    have ih := diff_replicate d (n + 1)
    simp only [List.replicate_succ, diff, sub_self, Nat.add_sub_cancel] at ih ⊢
    rw [ih]
    rfl

end Gpcm
