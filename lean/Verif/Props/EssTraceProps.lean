import Verif.Model.EssTrace
import Verif.Spec.Effective
import Verif.Props.ESSProps
import Verif.Props.UtilProps

/-!
# Properties C194, C195: what is shown while sampling
-/

open Real

namespace Gpcm.Ess

variable {V : Type} [AddCommGroup V] [Module ℝ V] {T : Tape V} {L : V → LL} {first : V → Except PyErr ℝ}

/-! ## C194 -/

theorem mapE_total {α β : Type} {f : α → Except PyErr β} (hf : ∀ x, ∃ v, f x = .ok v) : ∀ l : List α, ∃ v, mapE f l = .ok v
  | [] => ⟨_, rfl⟩
  | a :: as => by
    obtain ⟨v, hv⟩ := hf a
    obtain ⟨vs, hvs⟩ := mapE_total hf as
    exact ⟨v :: vs, by simp [mapE, hv, hvs]⟩

theorem mapE_length {α β : Type} {f : α → Except PyErr β} : ∀ {l : List α} {v : List β}, mapE f l = .ok v → v.length = l.length
  | [], v, h => by cases h; rfl
  | a :: as, v, h => by
    unfold mapE at h
    split at h
    · cases h
    · split at h
      · cases h
      · rename_i bs hbs
        cases h
        simp [mapE_length hbs]

omit [AddCommGroup V] [Module ℝ V] in
/-- If tensors are not empty, then computing the effective sample size raises nothing. -/
theorem essOf_total (hf : ∀ x, ∃ v, first x = .ok v) (xs : List V) : ∃ v, essOf first xs = .ok v := by
  unfold essOf
  dsimp only
  split
  · rename_i hlen
    obtain ⟨c, hc⟩ := mapE_total hf (xs.drop 20)
    have hcl := mapE_length hc
    have hne : c ≠ [] := by
      rintro rfl
      simp at hcl
      omega
    rw [hc]
    unfold effectiveSize
    simp only [Util.autocorr, if_neg hne, Bool.false_eq_true, if_false]
    split <;> exact ⟨_, rfl⟩
  · exact ⟨_, rfl⟩

theorem traceLoop_sample (hf : ∀ x, ∃ v, first x = .ok v) (fuel : ℕ) : ∀ (num : ℕ) (s : State V) (xs : List V) (rs : List Report),
    (traceLoop T L first fuel num s xs rs).map (fun r => (r.1, r.2.1)) =
      (sample T L fuel num s).map fun r => (r.1, r.2.map (xs ++ ·))
  | 0, s, xs, rs => by simp [traceLoop, sample, Except.map]
  | num + 1, s, xs, rs => by
    unfold traceLoop sample
    cases h1 : sample1 T L fuel s with
    | none => rfl
    | some p =>
      obtain ⟨s', r⟩ := p
      cases r with
      | error e => rfl
      | ok n =>
        obtain ⟨v, hv⟩ := essOf_total hf (xs ++ [s'.x])
        simp only [hv]
        rw [traceLoop_sample hf fuel num s']
        cases h2 : sample T L fuel num s' with
        | none => rfl
        | some q =>
          obtain ⟨s2, r2⟩ := q
          cases r2 with
          | error e => rfl
          | ok ys => simp [Except.map]

/-- **C194** Showing progress changes nothing: the samples, the final state of the sampler and all calls to the likelihood, the prior and the
random number generator are those without showing progress. -/
theorem c194_same (hf : ∀ x, ∃ v, first x = .ok v) (fuel num : ℕ) (s : State V) :
    (sampleTrace T L first fuel num s).map (fun r => (r.1, r.2.1)) = sample T L fuel num s := by
  unfold sampleTrace
  rw [traceLoop_sample hf]
  cases sample T L fuel num s with
  | none => rfl
  | some q =>
    obtain ⟨s2, r2⟩ := q
    cases r2 <;> rfl

/-- What is shown for the samples so far. -/
def Shown (T : Tape V) (L : V → LL) (first : V → Except PyErr ℝ) (fuel : ℕ) (xs : List V) (rs : List Report) : Prop :=
  rs.length = xs.length ∧ ∀ i r x, rs[i]? = some r → xs[i]? = some x → r.logLik = L x ∧
    essOf first (xs.take (i + 1)) = .ok r.ess ∧ ∃ s s', Reach T L s ∧ sample1 T L fuel s = some (s', .ok r.attempts) ∧ s'.x = x

theorem shown_nil (fuel : ℕ) : Shown T L first fuel [] [] := ⟨rfl, by simp⟩

theorem traceLoop_shown (fuel : ℕ) : ∀ (num : ℕ) {s s' : State V} {xs ys : List V} {rs qs : List Report}, Reach T L s →
    Shown T L first fuel xs rs → traceLoop T L first fuel num s xs rs = some (s', .ok ys, qs) →
    Shown T L first fuel ys qs ∧ ys.length = xs.length + num
  | 0, s, s', xs, ys, rs, qs, _, hi, h => by
    cases h
    exact ⟨hi, rfl⟩
  | num + 1, s, s', xs, ys, rs, qs, hs, hi, h => by
    unfold traceLoop at h
    split at h
    · cases h
    · cases h
    · rename_i s1 n h1
      have hs1 := sample1_reach fuel hs h1
      split at h
      · cases h
      · rename_i v hv
        obtain ⟨hl, hi⟩ := hi
        have := traceLoop_shown fuel num hs1 (xs := xs ++ [s1.x]) (rs := rs ++ [⟨s1.logLikX, n, v⟩]) ⟨by simp [hl], ?_⟩ h
        · refine ⟨this.1, ?_⟩
          rw [this.2]
          simp
          omega
        · intro i r x hr hx
          by_cases hil : i < xs.length
          · rw [List.getElem?_append_left (by omega)] at hr hx
            rw [List.take_append_of_le_length (by omega)]
            exact hi i r x hr hx
          · have hb := (List.getElem?_eq_some_iff.1 hx).1
            simp only [List.length_append, List.length_singleton] at hb
            obtain rfl : i = xs.length := by omega
            rw [List.getElem?_append_right le_rfl] at hx
            rw [List.getElem?_append_right (by omega), ← hl] at hr
            simp only [Nat.sub_self, List.getElem?_cons_zero, Option.some.injEq] at hr hx
            subst hr hx
            refine ⟨(c43_in_step hs1).1, ?_, s, s1, hs, h1, rfl⟩
            rw [List.take_of_length_le (by simp)]
            exact hv

/-- **C194** There is one report per sample. It shows the log-likelihood of that sample and the number of attempts of the call that
produced it, and no effective sample size for the first 21 samples. -/
theorem c194_reports {fuel num : ℕ} {s s' : State V} {xs : List V} {rs : List Report} (hs : Reach T L s)
    (h : sampleTrace T L first fuel num s = some (s', .ok xs, rs)) :
    xs.length = num ∧ rs.length = num ∧ ∀ i r x, rs[i]? = some r → xs[i]? = some x → r.logLik = L x ∧
      (∃ s s', Reach T L s ∧ sample1 T L fuel s = some (s', .ok r.attempts) ∧ s'.x = x) ∧ (i < 21 → r.ess = none) := by
  obtain ⟨⟨hl, hi⟩, hn⟩ := traceLoop_shown fuel num hs (shown_nil fuel) h
  simp only [List.length_nil, zero_add] at hn
  refine ⟨hn, by omega, fun i r x hr hx => ?_⟩
  obtain ⟨h1, h2, h3⟩ := hi i r x hr hx
  refine ⟨h1, h3, fun hi => ?_⟩
  have hb := (List.getElem?_eq_some_iff.1 hx).1
  have hlen : (xs.take (i + 1)).length = i + 1 := by rw [List.length_take]; omega
  unfold essOf at h2
  dsimp only at h2
  split at h2
  · split at h2
    · cases h2
    · rename_i c hc
      have hcl := mapE_length hc
      rw [List.length_drop, hlen] at hcl
      have hc1 : c.length = 1 := by omega
      obtain ⟨a, rfl⟩ := List.length_eq_one_iff.1 hc1
      unfold effectiveSize at h2
      split at h2
      · cases h2
      · rw [if_pos (.inl (by simp))] at h2
        exact (Except.ok.inj h2).symm
  · exact (Except.ok.inj h2).symm

/-! ## C195 -/

theorem lagSum_eq (c : List ℝ) (k : ℕ) : Util.lagSum (Util.centre c) k = Spec.lagged c k := by
  unfold Util.lagSum Spec.lagged
  rw [Util.length_centre]
  refine Finset.sum_congr rfl fun i hi => ?_
  have hi := Finset.mem_range.1 hi
  have e : ∀ j < c.length, (Util.centre c).getD j 0 = c.getD j 0 - Spec.chainMean c := fun j hj => by
    simp only [Util.centre, List.getD_eq_getElem?_getD, List.getElem?_map, List.getElem?_eq_getElem hj, Option.map_some, Option.getD_some]
    rfl
  rw [e _ (by omega), e _ (by omega)]

theorem lagged_beyond {c : List ℝ} {k : ℕ} (h : c.length ≤ k) : Spec.lagged c k = 0 := by
  unfold Spec.lagged
  rw [Nat.sub_eq_zero_of_le h]
  simp

theorem lagged_zero_pos {c : List ℝ} (h : ∃ a ∈ c, ∃ b ∈ c, a ≠ b) : 0 < Spec.lagged c 0 := by
  rw [← lagSum_eq]
  exact Util.lagSum_centre_pos h

/-- The sum of the autocorrelations that the code adds up. -/
theorem autocorr_sum {c : List ℝ} (h : ∃ a ∈ c, ∃ b ∈ c, a ≠ b) :
    ∃ k, Util.autocorr c (some 5) false true = .ok k ∧ k.sum = 1 + ∑ j ∈ Finset.range 5, Spec.correlation c (j + 1) := by
  have hne : c ≠ [] := by
    rintro rfl
    obtain ⟨a, ha, _⟩ := h
    simp at ha
  have hn : (c.length : ℝ) ≠ 0 := by exact_mod_cast (List.length_pos_of_ne_nil hne).ne'
  have hv := lagged_zero_pos h
  refine ⟨_, Util.autocorr_eq hne (some 5) true, ?_⟩
  rw [Util.autocov_eq]
  simp only [if_true, Util.lagCount, lagSum_eq, ← List.map_take, List.map_map, Function.comp_def, div_div_div_cancel_right₀ hn]
  have key : ∀ m : ℕ, (((List.range c.length).take m).map fun j => Spec.lagged c j / Spec.lagged c 0).sum =
      ∑ j ∈ Finset.range m, Spec.correlation c j := by
    intro m
    rw [List.take_range]
    have : ∀ n : ℕ, ((List.range n).map fun j => Spec.lagged c j / Spec.lagged c 0).sum =
        ∑ j ∈ Finset.range n, Spec.correlation c j := fun n => by
      rw [Finset.sum_range, ← List.sum_ofFn, List.ofFn_eq_map, ← List.map_coe_finRange_eq_range, List.map_map]
      rfl
    rw [this]
    refine Finset.sum_subset (Finset.range_mono (by omega)) fun j hj hj' => ?_
    have hj := Finset.mem_range.1 hj
    have hj' := Finset.mem_range.not.1 hj'
    unfold Spec.correlation
    rw [lagged_beyond (by omega), zero_div]
  rw [key, Finset.sum_range_succ', add_comm]
  congr 1
  exact div_self hv.ne'

/-- **C195, what is shown**: the number of samples over three plus twice the autocorrelations at the lags one to five of the samples after
the first twenty, because the autocorrelation at lag zero is added too. The full statement, with one in place of three, is refuted
below. -/
theorem c195_shown_partial {c : List ℝ} (h : ∃ a ∈ c, ∃ b ∈ c, a ≠ b)
    (h0 : 3 + 2 * ∑ k ∈ Finset.range 5, Spec.correlation c (k + 1) ≠ 0) (n : ℕ) :
    effectiveSize n c = .ok (some (n / (3 + 2 * ∑ k ∈ Finset.range 5, Spec.correlation c (k + 1)))) := by
  obtain ⟨k, hk, hs⟩ := autocorr_sum h
  have e : 1 + 2 * k.sum = 3 + 2 * ∑ k ∈ Finset.range 5, Spec.correlation c (k + 1) := by rw [hs]; ring
  unfold effectiveSize
  simp only [hk, e]
  rw [if_neg]
  rintro (h1 | h1)
  · obtain ⟨a, ha, b, hb, hab⟩ := h
    exact hab (h1 a ha b hb)
  · exact h0 h1

/-- The square of a sum, by lags. -/
theorem sq_sum_lags (d : ℕ → ℝ) : ∀ n : ℕ, (∑ i ∈ Finset.range n, d i) ^ 2 =
    ∑ i ∈ Finset.range n, d i * d i + 2 * ∑ k ∈ Finset.range n, ∑ i ∈ Finset.range (n - (k + 1)), d (i + (k + 1)) * d i
  | 0 => by simp
  | n + 1 => by
    have e : ∀ k ∈ Finset.range n, ∑ i ∈ Finset.range (n + 1 - (k + 1)), d (i + (k + 1)) * d i =
        ∑ i ∈ Finset.range (n - (k + 1)), d (i + (k + 1)) * d i + d n * d (n - 1 - k) := fun k hk => by
      have hk := Finset.mem_range.1 hk
      rw [show n + 1 - (k + 1) = (n - (k + 1)) + 1 by omega, Finset.sum_range_succ,
        show n - (k + 1) + (k + 1) = n by omega, show n - (k + 1) = n - 1 - k by omega]
    rw [Finset.sum_range_succ, add_sq, sq_sum_lags d n, Finset.sum_range_succ, Finset.sum_range_succ _ n, Finset.sum_congr rfl e,
      Finset.sum_add_distrib, ← Finset.mul_sum, Finset.sum_range_reflect]
    simp
    ring

/-- **C195** For 22 to 26 samples half their number is shown, whatever the chain. -/
theorem c195_short_partial {c : List ℝ} (h : ∃ a ∈ c, ∃ b ∈ c, a ≠ b) (hl : c.length ≤ 6) (n : ℕ) :
    effectiveSize n c = .ok (some (n / 2)) := by
  have hv := lagged_zero_pos h
  have hne : (c.length : ℝ) ≠ 0 := by
    obtain ⟨a, ha, -⟩ := h
    exact_mod_cast (List.length_pos_of_mem ha).ne'
  have hsum : ∑ i ∈ Finset.range c.length, (c.getD i 0 - Spec.chainMean c) = 0 := by
    rw [Finset.sum_sub_distrib, Finset.sum_const, Finset.card_range, nsmul_eq_mul, Spec.chainMean, mul_div_cancel₀ _ hne, sub_eq_zero,
      Finset.sum_range, ← List.sum_ofFn]
    congr 1
    refine List.ext_getElem (by simp) fun i h1 h2 => ?_
    simp [List.getD_eq_getElem?_getD]
  have hsq := sq_sum_lags (fun i => c.getD i 0 - Spec.chainMean c) c.length
  rw [hsum] at hsq
  have h0 : ∑ i ∈ Finset.range c.length, (c.getD i 0 - Spec.chainMean c) * (c.getD i 0 - Spec.chainMean c) = Spec.lagged c 0 := by
    simp [Spec.lagged]
  have h1 : ∑ k ∈ Finset.range c.length, ∑ i ∈ Finset.range (c.length - (k + 1)), (c.getD (i + (k + 1)) 0 - Spec.chainMean c) *
      (c.getD i 0 - Spec.chainMean c) = ∑ k ∈ Finset.range 5, Spec.lagged c (k + 1) := by
    show ∑ k ∈ Finset.range c.length, Spec.lagged c (k + 1) = _
    have : ∀ m, c.length ≤ m + 1 → ∑ k ∈ Finset.range m, Spec.lagged c (k + 1) = ∑ k ∈ Finset.range 6, Spec.lagged c (k + 1) :=
      fun m hm => by
      rcases le_total m 6 with h6 | h6
      · refine Finset.sum_subset (Finset.range_mono h6) fun k _ hk => lagged_beyond ?_
        have := Finset.mem_range.not.1 hk
        omega
      · refine (Finset.sum_subset (Finset.range_mono h6) fun k _ hk => lagged_beyond ?_).symm
        have := Finset.mem_range.not.1 hk
        omega
    rw [this _ (by omega), this 5 (by omega)]
  rw [h0, h1] at hsq
  have hc : ∑ k ∈ Finset.range 5, Spec.correlation c (k + 1) = -1 / 2 := by
    unfold Spec.correlation
    rw [← Finset.sum_div, div_eq_iff hv.ne']
    linarith
  rw [c195_shown_partial h (by rw [hc]; norm_num), hc]
  norm_num

/-- **C195** For a chain without correlations a third of the number of samples is shown. -/
theorem c195_third_partial {c : List ℝ} (h : ∃ a ∈ c, ∃ b ∈ c, a ≠ b) (h0 : ∀ k, 1 ≤ k → k ≤ 5 → Spec.correlation c k = 0) (n : ℕ) :
    effectiveSize n c = .ok (some (n / 3)) ∧ Spec.effective n c = n := by
  have hc : ∑ k ∈ Finset.range 5, Spec.correlation c (k + 1) = 0 :=
    Finset.sum_eq_zero fun k hk => h0 _ (by omega) (by have := Finset.mem_range.1 hk; omega)
  rw [c195_shown_partial h (by rw [hc]; norm_num), Spec.effective, hc]
  norm_num

/-- A tape for which, with a constant likelihood, the samples are the given numbers. -/
noncomputable def tapeOf (c : ℕ → ℝ) : Tape ℝ where
  unit n := if n % 2 = 0 then 1 / 2 else 3 / 4
  unit_nonneg n := by split <;> norm_num
  unit_lt_one n := by split <;> norm_num
  expo _ := 1
  expo_nonneg _ := by norm_num
  prior := c

theorem pass_tapeOf (c : ℕ → ℝ) (s : State ℝ) (hu : s.iU % 2 = 0) (hl : s.logLikX = some 0) :
    ∃ s', sample1 (tapeOf c) (fun _ => some 0) 1 s = some (s', .ok 2) ∧ s'.x = c s.iP ∧ s'.iP = s.iP + 1 ∧ s'.iU % 2 = 0 ∧
      s'.logLikX = some 0 := by
  have h1 : (s.iU + 1) % 2 ≠ 0 := by omega
  have hθ : (2 * π) * 2⁻¹ - 2 * π + ((2 * π) * 2⁻¹ - ((2 * π) * 2⁻¹ - 2 * π)) * (3 / 4) = π / 2 := by ring
  have hgt : LL.gt (some 0) (LL.sub s.logLikX 1) := by
    rw [hl]
    change (0 : EReal) - ((1 : ℝ) : EReal) < 0
    rw [zero_sub, ← EReal.coe_neg]
    exact_mod_cast (by norm_num : (-1 : ℝ) < 0)
  have hp : (samplePass (tapeOf c) (fun _ => some 0) s) = ({ (samplePass (tapeOf c) (fun _ => some 0) s).1 with
      x := c s.iP, logLikX := some 0, iU := s.iU + 2, iP := s.iP + 1 }, .done 2) := by
    unfold samplePass
    rw [draw]
    simp only [prepare, drawHeight, drawBracket, establishEllipse, uniform, drawProposal, tapeOf, hu, h1, if_true, if_false, sub_zero, zero_add,
      one_div, hθ, hgt, finishPass]
    simp
  obtain ⟨q, hq⟩ : ∃ q : State ℝ, samplePass (tapeOf c) (fun _ => some 0) s = ({ q with
      x := c s.iP, logLikX := some 0, iU := s.iU + 2, iP := s.iP + 1 }, .done 2) := ⟨_, hp⟩
  refine ⟨_, by unfold sample1; rw [hq], rfl, rfl, ?_, rfl⟩
  show (s.iU + 2) % 2 = 0
  omega

theorem sample_tapeOf (c : ℕ → ℝ) : ∀ (num : ℕ) (s : State ℝ), s.iU % 2 = 0 → s.logLikX = some 0 →
    ∃ s', sample (tapeOf c) (fun _ => some 0) 1 num s = some (s', .ok ((List.range num).map fun i => c (s.iP + i)))
  | 0, s, _, _ => ⟨s, rfl⟩
  | num + 1, s, hu, hl => by
    obtain ⟨s1, h1, hx, hp, hu', hl'⟩ := pass_tapeOf c s hu hl
    obtain ⟨s2, h2⟩ := sample_tapeOf c num s1 hu' hl'
    refine ⟨s2, ?_⟩
    unfold sample
    simp only [h1, h2]
    rw [hx, hp, List.range_succ_eq_map, List.map_cons, List.map_map]
    simp [Function.comp_def, add_assoc, add_comm 1]

theorem mapE_id {α : Type} : ∀ l : List α, mapE (ε := PyErr) (fun x => .ok x) l = .ok l
  | [] => rfl
  | a :: as => by simp [mapE, mapE_id as]

/-- The last report of a run that visits the given numbers. -/
theorem run_tapeOf (c : ℕ → ℝ) (num : ℕ) {e : ℝ}
    (he : effectiveSize (num + 21) ((List.range (num + 1)).map fun i => c (20 + i)) = .ok (some e)) :
    ∃ s' rs r, sampleTrace (tapeOf c) (fun _ => some 0) (fun x => .ok x) 1 (num + 21) (init (tapeOf c) (fun _ => some 0) (some 0)) =
      some (s', .ok ((List.range (num + 21)).map c), rs) ∧ rs.getLast? = some r ∧ r.ess = some e := by
  obtain ⟨s', hs⟩ := sample_tapeOf c (num + 21) (init (tapeOf c) (fun _ => some 0) (some 0)) rfl rfl
  have h0 : (init (tapeOf c) (fun _ => some 0) (some 0)).iP = 0 := rfl
  simp only [h0, zero_add] at hs
  rw [← c194_same (first := fun x => .ok x) fun x => ⟨x, rfl⟩] at hs
  obtain ⟨⟨s1, r1, rs⟩, ht, h1⟩ := Option.map_eq_some_iff.1 hs
  simp only [Prod.mk.injEq] at h1
  obtain ⟨rfl, rfl⟩ := h1
  have ht' := ht
  unfold sampleTrace at ht'
  obtain ⟨⟨hl, hi⟩, -⟩ := traceLoop_shown 1 (num + 21) (.init (some 0)) (shown_nil 1) ht'
  simp only [List.length_map, List.length_range] at hl
  obtain ⟨r, hr⟩ : ∃ r, rs[num + 20]? = some r := ⟨_, List.getElem?_eq_getElem (by omega)⟩
  obtain ⟨-, h2, -⟩ := hi (num + 20) _ (c (num + 20)) hr (by simp)
  refine ⟨s1, rs, r, ht, ?_, ?_⟩
  · rw [List.getLast?_eq_getElem?, hl]
    exact hr
  · rw [List.take_of_length_le (by simp)] at h2
    unfold essOf at h2
    dsimp only at h2
    rw [if_pos (by simp), mapE_id] at h2
    simp only [List.length_map, List.length_range] at h2
    have hd : ((List.range (num + 21)).map c).drop 20 = (List.range (num + 1)).map fun i => c (20 + i) := by
      refine List.ext_getElem (by simp) fun i h1 h2 => ?_
      simp
    rw [hd, he] at h2
    exact (Except.ok.inj h2).symm

/-- A chain without correlations. -/
noncomputable def spikes (i : ℕ) : ℝ := if i = 20 then 1 else if i = 26 then -1 else 0

/-- **C195 is false**: there is a run of 27 samples whose effective number of samples is 27, but 9 is shown. -/
theorem c195_false : ∃ s' rs r, sampleTrace (tapeOf spikes) (fun _ => some 0) (fun x => .ok x) 1 27
      (init (tapeOf spikes) (fun _ => some 0) (some 0)) = some (s', .ok ((List.range 27).map spikes), rs) ∧
    rs.getLast? = some r ∧ r.ess = some 9 ∧ Spec.effective 27 (((List.range 27).map spikes).drop 20) = 27 := by
  have hl : (List.range 7).map (fun i => spikes (20 + i)) = [1, 0, 0, 0, 0, 0, -1] := by
    simp [List.range_succ, spikes]
  have hm : Spec.chainMean [1, 0, 0, 0, 0, 0, -1] = 0 := by norm_num [Spec.chainMean]
  have hd : ((List.range 27).map spikes).drop 20 = [1, 0, 0, 0, 0, 0, -1] := by
    simp [List.range_succ, spikes]
  have h0 : ∀ k, 1 ≤ k → k ≤ 5 → Spec.correlation [1, 0, 0, 0, 0, 0, -1] k = 0 := by
    intro k h1 h5
    have : Spec.lagged [1, 0, 0, 0, 0, 0, -1] k = 0 := by
      unfold Spec.lagged
      rw [hm]
      rcases (by omega : k = 1 ∨ k = 2 ∨ k = 3 ∨ k = 4 ∨ k = 5) with rfl | rfl | rfl | rfl | rfl <;> simp [Finset.sum_range_succ]
    rw [Spec.correlation, this, zero_div]
  have h := c195_third_partial (c := [1, 0, 0, 0, 0, 0, -1]) ⟨1, by simp, 0, by simp, by norm_num⟩ h0 27
  obtain ⟨s', rs, r, h1, h2, h3⟩ := run_tapeOf spikes 6 (e := 9) (by
    rw [hl, h.1]
    norm_num)
  exact ⟨s', rs, r, h1, h2, h3, by rw [hd]; exact h.2⟩

/-- A chain that oscillates. -/
def wave : List ℤ := [1, 0, -1, -2, -1, 0, 2, 3, 2, -1, -3, -3, -1, 1, 3, 3, 1, -2, -3, -2, 0, 1, 2, 1, 0, -1]

/-- The same chain after twenty samples. -/
noncomputable def waveAt (i : ℕ) : ℝ := (wave.getD (i - 20) 0 : ℤ)

/-- **C195 is false**: there is a run of 46 samples for which the effective sample size shown is negative. -/
theorem c195_negative_false : ∃ s' rs r, sampleTrace (tapeOf waveAt) (fun _ => some 0) (fun x => .ok x) 1 46
      (init (tapeOf waveAt) (fun _ => some 0) (some 0)) = some (s', .ok ((List.range 46).map waveAt), rs) ∧
    rs.getLast? = some r ∧ r.ess = some (-2024) := by
  have hl : (List.range 26).map (fun i => waveAt (20 + i)) = wave.map fun z : ℤ => (z : ℝ) := by
    simp [List.range_succ, waveAt, wave]
  have hm : Spec.chainMean (wave.map fun z : ℤ => (z : ℝ)) = 0 := by
    norm_num [Spec.chainMean, wave]
  have hg : ∀ k, Spec.lagged (wave.map fun z : ℤ => (z : ℝ)) k =
      ((∑ i ∈ Finset.range (26 - k), wave.getD (i + k) 0 * wave.getD i 0 : ℤ) : ℝ) := fun k => by
    unfold Spec.lagged
    have e : ∀ j : ℕ, (wave.map fun z : ℤ => (z : ℝ)).getD j 0 = ((wave.getD j 0 : ℤ) : ℝ) := fun j => by
      simp only [List.getD_eq_getElem?_getD, List.getElem?_map]
      cases wave[j]? <;> simp
    simp only [hm, sub_zero, e, List.length_map]
    push_cast
    rfl
  have h0 : Spec.lagged (wave.map fun z : ℤ => (z : ℝ)) 0 = 88 := by
    rw [hg]; exact_mod_cast (by decide : (∑ i ∈ Finset.range (26 - 0), wave.getD (i + 0) 0 * wave.getD i 0 : ℤ) = 88)
  have h1 : Spec.lagged (wave.map fun z : ℤ => (z : ℝ)) 1 = 57 := by
    rw [hg]; exact_mod_cast (by decide : (∑ i ∈ Finset.range (26 - 1), wave.getD (i + 1) 0 * wave.getD i 0 : ℤ) = 57)
  have h2 : Spec.lagged (wave.map fun z : ℤ => (z : ℝ)) 2 = -8 := by
    rw [hg]; exact_mod_cast (by decide : (∑ i ∈ Finset.range (26 - 2), wave.getD (i + 2) 0 * wave.getD i 0 : ℤ) = -8)
  have h3 : Spec.lagged (wave.map fun z : ℤ => (z : ℝ)) 3 = -65 := by
    rw [hg]; exact_mod_cast (by decide : (∑ i ∈ Finset.range (26 - 3), wave.getD (i + 3) 0 * wave.getD i 0 : ℤ) = -65)
  have h4 : Spec.lagged (wave.map fun z : ℤ => (z : ℝ)) 4 = -76 := by
    rw [hg]; exact_mod_cast (by decide : (∑ i ∈ Finset.range (26 - 4), wave.getD (i + 4) 0 * wave.getD i 0 : ℤ) = -76)
  have h5 : Spec.lagged (wave.map fun z : ℤ => (z : ℝ)) 5 = -41 := by
    rw [hg]; exact_mod_cast (by decide : (∑ i ∈ Finset.range (26 - 5), wave.getD (i + 5) 0 * wave.getD i 0 : ℤ) = -41)
  have hs : ∑ k ∈ Finset.range 5, Spec.correlation (wave.map fun z : ℤ => (z : ℝ)) (k + 1) = -133 / 88 := by
    simp only [Spec.correlation, Finset.sum_range_succ, Finset.sum_range_zero, h0, h1, h2, h3, h4, h5]
    norm_num [h0, h1, h2, h3, h4, h5]
  obtain ⟨s', rs, r, h1, h2, h3⟩ := run_tapeOf waveAt 25 (e := -2024) (by
    rw [hl, c195_shown_partial ⟨1, by simp [wave], 0, by simp [wave], by norm_num⟩ (by rw [hs]; norm_num), hs]
    norm_num)
  exact ⟨s', rs, r, h1, h2, h3⟩

/-- A chain of two samples after the first twenty: 11 is shown for 22 samples. -/
example : effectiveSize 22 [0, 1] = .ok (some (22 / 2)) := by
  simpa using c195_short_partial (c := [0, 1]) ⟨0, by simp, 1, by simp, by norm_num⟩ (by simp) 22

/-- The first coordinate of a number is the number. -/
example : ∀ x : ℝ, ∃ v, (fun x : ℝ => (.ok x : Except PyErr ℝ)) x = .ok v := fun x => ⟨x, rfl⟩

end Gpcm.Ess
