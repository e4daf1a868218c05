import Verif.Lemmas.RgpcmInt
import Verif.Props.UtilProps
import Verif.Props.KernelProps

/-! # Sorting frequencies, computing blocks and undoing the sorting -/

open Real

namespace Gpcm.Rgpcm

theorem mapE_of_getElem {α β : Type} {f : α → Except PyErr β} : ∀ {l : List α} {out : List β},
    l.length = out.length → (∀ (i : ℕ) x y, l[i]? = some x → out[i]? = some y → f x = .ok y) →
    mapE f l = .ok out
  | [], [], _, _ => rfl
  | [], _ :: _, h, _ => by simp at h
  | _ :: _, [], h, _ => by simp at h
  | x :: l, y :: out, h, hf => by
    have h1 := hf 0 x y rfl rfl
    have h2 := mapE_of_getElem (l := l) (out := out) (by simpa using h) (fun i => hf (i + 1))
    simp [mapE, h1, h2]

theorem sorted_split (p : ℕ → Bool) (hp : ∀ a b, a ≤ b → p b = true → p a = true) :
    ∀ {l : List ℕ}, l.Pairwise (· ≤ ·) → l.filter p ++ l.filter (fun x => !p x) = l
  | [], _ => rfl
  | x :: l, h => by
    rw [List.pairwise_cons] at h
    have ih := sorted_split p hp h.2
    cases hx : p x with
    | true =>
      rw [List.filter_cons_of_pos hx, List.filter_cons_of_neg (by simp [hx]), List.cons_append, ih]
    | false =>
      have h0 : l.filter p = [] := by
        rw [List.filter_eq_nil_iff]
        intro y hy hpy
        rw [hp x y (h.1 y hy) hpy] at hx
        cases hx
      rw [h0, List.nil_append] at ih
      rw [List.filter_cons_of_neg (by simp [hx]), h0, List.filter_cons_of_pos (by simp [hx]), ih, List.nil_append]

variable (g : RgpcmModel)

theorem low_append_high {S : List ℕ} (h : S.Pairwise (· ≤ ·)) : g.low S ++ g.high S = S := by
  have := sorted_split (fun m : ℕ => decide ((m : ℤ) ≤ g.mMax)) (fun a b hab hb => by
    simp only [decide_eq_true_eq] at hb ⊢
    omega) h
  rw [← this]
  simp only [this]
  unfold RgpcmModel.low RgpcmModel.high
  nth_rw 3 [← this]
  congr 1
  refine List.filter_congr fun x _ => ?_
  by_cases hx : (x : ℤ) ≤ g.mMax
  · simp [hx]
  · simp [hx, lt_of_not_ge hx]

theorem zeros_append_mid {S : List ℕ} (h : S.Pairwise (· ≤ ·)) (hM : 0 ≤ g.mMax) :
    RgpcmModel.zeros S ++ g.mid S = g.low S := by
  have hs : (g.low S).Pairwise (· ≤ ·) := h.sublist List.filter_sublist
  have := sorted_split (fun m : ℕ => decide (m = 0)) (fun a b hab hb => by
    simp only [decide_eq_true_eq] at hb ⊢
    omega) hs
  rw [← this]
  unfold RgpcmModel.low RgpcmModel.zeros RgpcmModel.mid
  rw [List.filter_filter, List.filter_filter]
  congr 1
  · refine List.filter_congr fun x _ => ?_
    by_cases hx : x = 0
    · subst hx
      simp [hM]
    · simp [hx]
  · refine List.filter_congr fun x _ => ?_
    by_cases hx : x = 0 <;> simp [hx, Nat.pos_iff_ne_zero]

/-- What `compute_I_hz` should hold for frequencies `m` and `n`, in terms of the helper functions. -/
noncomputable def hzEntry (m n : ℕ) (t : ℝ) : ℝ :=
  if (m : ℤ) ≤ g.mMax then
    if (n : ℤ) ≤ g.mMax then 0.5 * (g.hxCos (-(m : ℝ) + (n : ℝ)) t + g.hxCos ((m : ℝ) + (n : ℝ)) t)
    else if m = 0 then g.hxSin ((m : ℝ) + (n : ℝ)) t
    else 0.5 * (g.hxSin ((m : ℝ) + (n : ℝ)) t + g.hxSin (-(m : ℝ) + (n : ℝ)) t)
  else
    if (n : ℤ) ≤ g.mMax then
      if n = 0 then g.hxSin ((n : ℝ) + (m : ℝ)) t
      else 0.5 * (g.hxSin ((n : ℝ) + (m : ℝ)) t + g.hxSin (-(n : ℝ) + (m : ℝ)) t)
    else 0.5 * (g.hxCos (-((m : ℝ) - g.mMax) + ((n : ℝ) - g.mMax)) t -
      g.hxCos (((m : ℝ) - g.mMax) + ((n : ℝ) - g.mMax)) t)

/-- What `compute_I_uz` should hold, up to the factor, in terms of the helper functions. -/
noncomputable def uzEntry (tu : ℝ) (m : ℕ) (t : ℝ) : ℝ :=
  if (m : ℤ) ≤ g.mMax then
    if m = 0 then g.integralLu0 (t - tu) t + (m : ℝ) else g.integralLukLeqM (t - tu) t m
  else g.integralLukGM (t - tu) t m

theorem mem_low {S : List ℕ} {m : ℕ} (h : m ∈ g.low S) : (m : ℤ) ≤ g.mMax := by
  simpa using (List.mem_filter.1 h).2

theorem mem_high {S : List ℕ} {m : ℕ} (h : m ∈ g.high S) : ¬ (m : ℤ) ≤ g.mMax := by
  simpa using (List.mem_filter.1 h).2

theorem transpose_map {hi : List ℕ} {lo : List ℕ} (e : ℕ → ℕ → ℝ) :
    ((List.range hi.length).map fun j => (lo.map fun m => hi.map (e m)).map fun row => row.getD j 0) =
      hi.map fun n => lo.map fun m => e m n := by
  apply List.ext_getElem (by simp)
  intro i h1 h2
  simp only [List.getElem_map, List.getElem_range, List.map_map]
  refine List.map_congr_left fun m _ => ?_
  have : i < hi.length := by simpa using h2
  simp [List.getD_eq_getElem?_getD, this]

theorem ihzSorted_eq {S : List ℕ} (h : S.Pairwise (· ≤ ·)) (hM : 0 ≤ g.mMax) (t : ℝ) :
    g.ihzSorted S t = .ok (S.map fun m => S.map fun n => hzEntry g m n t) := by
  have hS := low_append_high g h
  have hz := zeros_append_mid g h hM
  have hB : ((RgpcmModel.zeros S).map fun m : ℕ => (g.high S).map fun n : ℕ => g.hxSin ((m : ℝ) + (n : ℝ)) t) ++
      ((g.mid S).map fun m : ℕ => (g.high S).map fun n : ℕ =>
        0.5 * (g.hxSin ((m : ℝ) + (n : ℝ)) t + g.hxSin (-(m : ℝ) + (n : ℝ)) t)) =
      (g.low S).map fun m => (g.high S).map fun n => hzEntry g m n t := by
    rw [← hz, List.map_append]
    congr 1
    · refine List.map_congr_left fun m hm => List.map_congr_left fun n hn => ?_
      have h0 : m = 0 := by simpa using (List.mem_filter.1 hm).2
      have h1 := mem_high g hn
      subst h0
      simp [hzEntry, hM, lt_of_not_ge h1]
    · refine List.map_congr_left fun m hm => List.map_congr_left fun n hn => ?_
      have h0 : 0 < m ∧ (m : ℤ) ≤ g.mMax := by simpa using (List.mem_filter.1 hm).2
      have h1 := mem_high g hn
      rw [hzEntry, if_pos h0.2, if_neg h1, if_neg h0.1.ne']
  have hA : ((g.low S).map fun m : ℕ => (g.low S).map fun n : ℕ =>
      0.5 * (g.hxCos (-(m : ℝ) + (n : ℝ)) t + g.hxCos ((m : ℝ) + (n : ℝ)) t)) =
      (g.low S).map fun m => (g.low S).map fun n => hzEntry g m n t := by
    refine List.map_congr_left fun m hm => List.map_congr_left fun n hn => ?_
    rw [hzEntry, if_pos (mem_low g hm), if_pos (mem_low g hn)]
  have hD : (((g.high S).map fun m : ℕ => (m : ℝ) - (g.mMax : ℝ)).map fun m =>
      ((g.high S).map fun m : ℕ => (m : ℝ) - (g.mMax : ℝ)).map fun n =>
        0.5 * (g.hxCos (-m + n) t - g.hxCos (m + n) t)) =
      (g.high S).map fun m => (g.high S).map fun n => hzEntry g m n t := by
    rw [List.map_map]
    refine List.map_congr_left fun m hm => ?_
    simp only [Function.comp_apply, List.map_map]
    refine List.map_congr_left fun n hn => ?_
    simp only [Function.comp_apply]
    rw [hzEntry, if_neg (mem_high g hm), if_neg (mem_high g hn)]
  have hC : ((g.high S).map fun n => (g.low S).map fun m => hzEntry g m n t) =
      (g.high S).map fun m => (g.low S).map fun n => hzEntry g m n t := by
    refine List.map_congr_left fun m hm => List.map_congr_left fun n hn => ?_
    rw [hzEntry, hzEntry, if_pos (mem_low g hn), if_neg (mem_high g hm), if_neg (mem_high g hm),
      if_pos (mem_low g hn)]
  unfold RgpcmModel.ihzSorted
  simp only
  rw [hB, hA, hD, transpose_map, hC, if_neg (by simp)]
  congr 1
  simp only [List.zipWith_map, List.zipWith_self]
  have hsplit : ∀ F : ℕ → List ℝ, S.map F = (g.low S).map F ++ (g.high S).map F := fun F => by
    rw [← List.map_append, hS]
  rw [hsplit]
  congr 1 <;> refine List.map_congr_left fun m _ => ?_ <;> rw [← List.map_append, hS]

/-- Undoing the sorting. -/
theorem takeE_perm {perm ms : List ℕ} (h : perm.Perm (List.range ms.length)) :
    RgpcmModel.takeE ms (perm.map Int.ofNat) = .ok (perm.map fun i => ms.getD i 0) := by
  unfold RgpcmModel.takeE
  refine mapE_of_getElem (by simp) fun i x y hx hy => ?_
  rw [List.getElem?_map] at hx hy
  obtain ⟨j, hj, rfl⟩ := Option.map_eq_some_iff.1 hx
  rw [hj] at hy
  obtain rfl : ms.getD j 0 = y := by simpa using hy
  have hlt : j < ms.length := List.mem_range.1 (h.mem_iff.1 (List.mem_of_getElem? hj))
  simp [hlt]

theorem takeE_inv {perm ms : List ℕ} (h : perm.Perm (List.range ms.length)) {inv : List ℤ}
    (hi : Util.invertPerm perm = .ok inv) {β : Type} (F : ℕ → β) :
    RgpcmModel.takeE ((perm.map fun i => ms.getD i 0).map F) inv = .ok (ms.map F) := by
  have hl : perm.length = ms.length := by simpa using h.length_eq
  obtain ⟨out, ho, hlen, _, hback, hsurj⟩ := Util.c48_inverse perm (by rwa [hl])
  obtain rfl : out = inv := Except.ok.inj (ho.symm.trans hi)
  unfold RgpcmModel.takeE
  refine mapE_of_getElem (by simp [hlen, hl]) fun j x y hx hy => ?_
  have hj : j < perm.length := by
    rw [← hlen]
    exact (List.getElem?_eq_some_iff.1 hx).1
  obtain ⟨i, hi', he⟩ := hsurj j hj
  rw [hx] at he
  obtain rfl : x = (i : ℤ) := Option.some.inj he
  have hp := hback j i hx
  rw [List.getElem?_map] at hy
  have hjm : j < ms.length := hl ▸ hj
  rw [List.getElem?_eq_getElem hjm] at hy
  obtain rfl : F ms[j] = y := by simpa using hy
  rw [Int.toNat_natCast, List.getElem?_map, List.getElem?_map, hp]
  simp [hjm]

theorem invertPerm_ok {perm ms : List ℕ} (h : perm.Perm (List.range ms.length)) :
    ∃ inv, Util.invertPerm perm = .ok inv := by
  have hl : perm.length = ms.length := by simpa using h.length_eq
  obtain ⟨out, ho, _⟩ := Util.c48_inverse perm (by rwa [hl])
  exact ⟨out, ho⟩

theorem computeIhz_eq {perm : List ℕ} (h : IsArgsort perm g.ms) (hM : 0 ≤ g.mMax) (t : ℝ) :
    g.computeIhz perm t = .ok (g.ms.map fun m => g.ms.map fun n => hzEntry g m n t) := by
  obtain ⟨inv, hi⟩ := invertPerm_ok h.isPerm
  unfold RgpcmModel.computeIhz
  rw [hi, bind1, takeE_perm h.isPerm, bind1, ihzSorted_eq g h.sorted hM, bind1,
    takeE_inv h.isPerm hi, bind1]
  refine mapE_of_getElem (by simp) fun i x y hx hy => ?_
  rw [List.getElem?_map] at hx hy
  obtain ⟨m, hm, rfl⟩ := Option.map_eq_some_iff.1 hx
  rw [hm] at hy
  obtain rfl := Option.some.inj hy
  exact takeE_inv h.isPerm hi _

theorem computeIuz_eq {perm : List ℕ} (h : IsArgsort perm g.ms) (hM : 0 ≤ g.mMax) (t : ℝ) :
    g.computeIuz perm t = .ok (g.tU.map fun tu => g.ms.map fun m =>
      g.alphaT * g.gammaT * exp (-g.gamma * tu) * uzEntry g tu m t) := by
  obtain ⟨inv, hi⟩ := invertPerm_ok h.isPerm
  unfold RgpcmModel.computeIuz
  rw [hi, bind1, takeE_perm h.isPerm, bind1]
  refine mapE_eq_map fun tu _ => ?_
  obtain ⟨S, hS⟩ : ∃ S, S = perm.map fun i => g.ms.getD i 0 := ⟨_, rfl⟩
  have hs := h.sorted
  rw [← hS] at hs
  have key : ((RgpcmModel.zeros S).map fun k : ℕ => g.integralLu0 (t - tu) t + (k : ℝ)) ++
      ((g.mid S).map fun k : ℕ => g.integralLukLeqM (t - tu) t k) ++
      ((g.high S).map fun k : ℕ => g.integralLukGM (t - tu) t k) = S.map fun m => uzEntry g tu m t := by
    nth_rw 4 [← low_append_high g hs]
    rw [← zeros_append_mid g hs hM, List.map_append, List.map_append]
    congr 1
    · congr 1
      · refine List.map_congr_left fun m hm => ?_
        have h0 : m = 0 := by simpa using (List.mem_filter.1 hm).2
        subst h0
        simp [uzEntry, hM]
      · refine List.map_congr_left fun m hm => ?_
        have h0 : 0 < m ∧ (m : ℤ) ≤ g.mMax := by simpa using (List.mem_filter.1 hm).2
        rw [uzEntry, if_pos h0.2, if_neg h0.1.ne']
    · refine List.map_congr_left fun m hm => ?_
      rw [uzEntry, if_neg (mem_high g hm)]
  rw [← hS]
  simp only
  rw [key, hS, takeE_inv h.isPerm hi, bind1, List.map_map]
  rfl

end Gpcm.Rgpcm
