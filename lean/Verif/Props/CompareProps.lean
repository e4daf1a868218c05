import Verif.Model.CompareInference
import Verif.Props.ApproxProps
import Verif.Lemmas.IntTotal

/-!
# The comparison of inference methods (C128 to C130)
-/

namespace Gpcm.Compare

variable {ι κ : Type} [Fintype ι] [DecidableEq ι] [Fintype κ] [DecidableEq κ]

/-! ## C128 -/

/-- The total duration of the pauses. -/
def paused : List Event → ℝ
  | [] => 0
  | .track _ _ :: es => paused es
  | .pause a b :: es => (b - a) + paused es

/-- The readings of the clock never go back, starting from `t`. -/
def Chrono : ℝ → List Event → Prop
  | _, [] => True
  | t, .track now _ :: es => t ≤ now ∧ Chrono now es
  | t, .pause a b :: es => t ≤ a ∧ a ≤ b ∧ Chrono b es

theorem run_append (tr : Tracker) (es es' : List Event) : tr.run (es ++ es') = (tr.run es).run es' :=
  List.foldl_append

theorem run_ref (tr : Tracker) (es : List Event) : (tr.run es).ref = tr.ref + paused es := by
  induction es generalizing tr with
  | nil => simp [Tracker.run, paused]
  | cons e es ih =>
    have : tr.run (e :: es) = (tr.step e).run es := rfl
    rw [this, ih]
    cases e with
    | track now v => simp [Tracker.step, Tracker.track, paused]
    | pause a b =>
      simp only [Tracker.step, Tracker.pause, paused]
      ring

/-- **C128** A tracked time is the time since the tracker was made without the pauses since then, and comes with the
tracked value. -/
theorem c128_times (t0 : ℝ) (es : List Event) (now v : ℝ) :
    ((Tracker.new t0).run (es ++ [.track now v])).times =
        ((Tracker.new t0).run es).times ++ [now - t0 - paused es] ∧
      ((Tracker.new t0).run (es ++ [.track now v])).values = ((Tracker.new t0).run es).values ++ [v] := by
  rw [run_append]
  have e : ∀ tr : Tracker, tr.run [.track now v] = tr.track now v := fun _ => rfl
  rw [e]
  refine ⟨?_, rfl⟩
  simp only [Tracker.track, run_ref, Tracker.new]
  rw [sub_sub]

/-- **C128** A pause alone tracks nothing, and it moves all later times. -/
theorem c128_pause (t0 : ℝ) (es : List Event) (a b : ℝ) :
    ((Tracker.new t0).run (es ++ [.pause a b])).times = ((Tracker.new t0).run es).times ∧
      ((Tracker.new t0).run (es ++ [.pause a b])).values = ((Tracker.new t0).run es).values ∧
      paused (es ++ [.pause a b]) = paused es + (b - a) := by
  rw [run_append]
  refine ⟨rfl, rfl, ?_⟩
  induction es with
  | nil => simp [paused]
  | cons e es ih =>
    cases e with
    | track _ _ => simpa [paused] using ih
    | pause c d =>
      simp only [List.cons_append, paused, ih]
      ring

theorem run_sorted (tr : Tracker) (t : ℝ) (es : List Event) (hc : Chrono t es)
    (h : tr.times.Pairwise (· ≤ ·) ∧ (∀ x ∈ tr.times, 0 ≤ x ∧ x ≤ t - tr.ref) ∧ 0 ≤ t - tr.ref ∧
      tr.times.length = tr.values.length) :
    (tr.run es).times.Pairwise (· ≤ ·) ∧ (∀ x ∈ (tr.run es).times, 0 ≤ x) ∧
      (tr.run es).times.length = (tr.run es).values.length := by
  induction es generalizing tr t with
  | nil => exact ⟨h.1, fun x hx => (h.2.1 x hx).1, h.2.2.2⟩
  | cons e es ih =>
    have e' : tr.run (e :: es) = (tr.step e).run es := rfl
    rw [e']
    obtain ⟨h1, h2, h3, h4⟩ := h
    cases e with
    | track now v =>
      refine ih _ now hc.2 ⟨?_, ?_, ?_, ?_⟩
      · simp only [Tracker.step, Tracker.track]
        rw [List.pairwise_append]
        refine ⟨h1, List.pairwise_singleton _ _, fun x hx y hy => ?_⟩
        rw [List.mem_singleton.1 hy]
        linarith [(h2 x hx).2, hc.1]
      · intro x hx
        simp only [Tracker.step, Tracker.track] at hx ⊢
        rcases List.mem_append.1 hx with hx | hx
        · exact ⟨(h2 x hx).1, by linarith [(h2 x hx).2, hc.1]⟩
        · rw [List.mem_singleton.1 hx]
          exact ⟨by linarith [hc.1], le_rfl⟩
      · simp only [Tracker.step, Tracker.track]
        linarith [hc.1]
      · simp [Tracker.step, Tracker.track, h4]
    | pause a b =>
      obtain ⟨hc1, hc2, hc3⟩ := hc
      refine ih _ b hc3 ⟨h1, ?_, ?_, h4⟩
      · intro x hx
        have := h2 x hx
        simp only [Tracker.step, Tracker.pause]
        exact ⟨this.1, by linarith [this.2]⟩
      · simp only [Tracker.step, Tracker.pause]
        linarith

/-- **C128** If the clock never goes back, the horizontal coordinates of a curve start at zero and never decrease, one for
every value. Asking for the curve fails exactly when there are not enough tracked values. -/
theorem c128_curve (t0 : ℝ) (es : List Event) (hc : Chrono t0 es) (start : ℕ) :
    (((Tracker.new t0).run es).values.length ≤ start ∧
      ((Tracker.new t0).run es).getXY start = .error .indexError) ∨
    ∃ x y, ((Tracker.new t0).run es).getXY start = .ok (x, y) ∧ x.head? = some 0 ∧ x.Pairwise (· ≤ ·) ∧
      (∀ a ∈ x, 0 ≤ a) ∧ y = ((Tracker.new t0).run es).values.drop start ∧ x.length = y.length := by
  obtain ⟨h1, h2, h3⟩ := run_sorted (Tracker.new t0) t0 es hc
    ⟨List.Pairwise.nil, by simp [Tracker.new], by simp [Tracker.new], rfl⟩
  generalize (Tracker.new t0).run es = tr at *
  unfold Tracker.getXY
  rcases lt_or_ge start tr.times.length with h | h
  · right
    rw [List.getElem?_eq_getElem h]
    have hd : tr.times.drop start = tr.times[start] :: tr.times.drop (start + 1) := List.drop_eq_getElem_cons h
    have hp : (tr.times.drop start).Pairwise (· ≤ ·) := h1.sublist (List.drop_sublist _ _)
    refine ⟨_, _, rfl, by rw [hd, List.map_cons, List.head?_cons, sub_self], ?_, ?_, rfl, by simp [h3]⟩
    · rw [List.pairwise_map]
      exact hp.imp fun hab => by linarith
    · intro a ha
      obtain ⟨x, hx, rfl⟩ := List.mem_map.1 ha
      rw [hd] at hp hx
      rcases List.mem_cons.1 hx with rfl | hx
      · simp
      · exact sub_nonneg.2 (List.rel_of_pairwise_cons hp hx)
  · left
    rw [List.getElem?_eq_none h]
    exact ⟨h3 ▸ h, rfl⟩

example : Chrono 0 [.track 1 (-5), .pause 2 10, .track 11 (-4), .track 13 (-3)] := by
  norm_num [Chrono]

example : ((Tracker.new 0).run [.track 1 (-5), .pause 2 10, .track 11 (-4), .track 13 (-3)]).getXY 0 =
    .ok ([0, 2, 4], [-5, -4, -3]) := by
  norm_num [Tracker.run, Tracker.new, Tracker.step, Tracker.track, Tracker.pause, Tracker.getXY]

/-! ## C129 -/

variable (C : Chols ι κ) {m : Inst ι κ}

theorem caLoopStore_fst {σ τ : Type} (step : σ → σ) (diff : σ → σ → ℝ) (cb : σ → τ → τ) (k : ℕ) (p : σ) (s : τ) :
    (caLoopStore step diff cb k p s).1 = (caLoop step diff k p).1 := by
  induction k generalizing p s with
  | zero => rfl
  | succ k ih =>
    by_cases h : diff (step p) p < 1e-6
    · simp [caLoopStore, caLoop, h]
    · simp [caLoopStore, caLoop, h, ih]

theorem caLoopStore_inv {σ τ : Type} {step : σ → σ} {diff : σ → σ → ℝ} {cb : σ → τ → τ} {P : τ → Prop}
    (hP : ∀ q s, P s → P (cb q s)) (k : ℕ) (p : σ) (s : τ) (h : P s) : P (caLoopStore step diff cb k p s).2 := by
  induction k generalizing p s with
  | zero => exact h
  | succ k ih =>
    by_cases hd : diff (step p) p < 1e-6
    · simp only [caLoopStore, hd, if_true]
      exact hP _ _ h
    · simp only [caLoopStore, hd, if_false]
      exact ih _ _ (hP _ _ h)

/-- **C129** The callback is called once for every iterate that coordinate ascent computes, in order, with that iterate; what it
stores is used by the next call. -/
theorem c129_calls {σ τ : Type} (step : σ → σ) (diff : σ → σ → ℝ) (cb : σ → τ → τ) (k : ℕ) (p : σ) (s : τ) :
    (caLoopStore step diff cb k p s).2 = (caLoop step diff k p).2.foldl (fun s q => cb q s) s := by
  induction k generalizing p s with
  | zero => rfl
  | succ k ih =>
    by_cases h : diff (step p) p < 1e-6
    · simp [caLoopStore, caLoop, h]
    · simp [caLoopStore, caLoop, h, ih]

/-- Three iterates, collected by the callback. -/
example : (caLoopStore (fun n : ℕ => n + 1) (fun _ _ => 1) (fun q l => l ++ [q]) 3 0 []).2 = [1, 2, 3] := by
  norm_num [caLoopStore]

omit [Fintype ι] [DecidableEq ι] [Fintype κ] [DecidableEq κ] in
theorem setU_setZ (s : Posts ι κ) (a : NatNormal ι) (b : NatNormal κ) : (s.setU a).setZ b =
    ⟨s.qi, fun i => if i = s.qi then a else s.qu i, fun i => if i = s.qi then b else s.qz i⟩ := rfl

/-- **C129** The callback that evaluates the bound overwrites what is stored in the model while coordinate ascent runs, but
what is stored at the end is the same as without a callback. -/
theorem c129_callback (s : Posts ι κ) (d : List (ℝ × ℝ)) (iters : ℤ) :
    fitWithCallback C m s d iters = (fitMeanFieldCA C m s d iters).1 := by
  have hinv := caLoopStore_inv (step := caStep C m (constructDataTerms C m d)) (diff := Pair.diff)
    (cb := callbackCA) (P := fun r : Posts ι κ × ℕ => r.1.qi = s.qi ∧ ∀ i, i ≠ s.qi →
      r.1.qu i = s.qu i ∧ r.1.qz i = s.qz i) (fun q r h => by
      unfold callbackCA
      by_cases ht : tracked (r.2 + 1) = true
      · simp only [ht, if_true]
        rw [setU_setZ]
        refine ⟨h.1, fun i hi => ?_⟩
        have hi' : i ≠ r.1.qi := h.1 ▸ hi
        simp only [if_neg hi']
        exact h.2 i hi
      · simp only [ht]
        exact h) iters.toNat ⟨s.qU, s.qZ⟩ (s, 1) ⟨rfl, fun _ _ => ⟨rfl, rfl⟩⟩
  simp only [fitWithCallback, fitMeanFieldCA, caLoopStore_fst]
  generalize (caLoopStore _ _ _ _ _ _).2 = r at *
  obtain ⟨h1, h2⟩ := hinv
  simp only [setU_setZ, Posts.mk.injEq]
  refine ⟨h1, funext fun i => ?_, funext fun i => ?_⟩
  · by_cases hi : i = s.qi
    · rw [if_pos (hi.trans h1.symm), if_pos hi]
    · rw [if_neg fun h => hi (h.trans h1), if_neg hi]
      exact (h2 i hi).1
  · by_cases hi : i = s.qi
    · rw [if_pos (hi.trans h1.symm), if_pos hi]
    · rw [if_neg fun h => hi (h.trans h1), if_neg hi]
      exact (h2 i hi).2

/-- **C129** The bound is tracked in the first eighteen iterations and then in every fifth. -/
theorem c129_tracked {α : Type} (calls : List α) :
    trackedCalls calls = (calls.zipIdx.filter fun c => decide (c.2 < 18 ∨ (c.2 + 2) % 5 = 0)).map Prod.fst := by
  unfold trackedCalls
  have : calls.zipIdx 2 = (calls.zipIdx 0).map fun c => (c.1, c.2 + 2) := by
    rw [List.zipIdx_eq_map_add]
    refine List.map_congr_left fun c _ => ?_
    rw [add_comm]
  rw [this, List.filter_map, List.map_map]
  have e : ∀ c : α × ℕ, (fun c : α × ℕ => tracked c.2) (c.1, c.2 + 2) = decide (c.2 < 18 ∨ (c.2 + 2) % 5 = 0) := by
    intro c
    simp only [tracked, Bool.decide_or]
    congr 1
    exact decide_eq_decide.2 (by omega)
  exact congrArg (List.map Prod.fst) (List.filter_congr fun c _ => e c)

theorem trackedCalls_sublist {α : Type} (calls : List α) : (trackedCalls calls).Sublist calls := by
  unfold trackedCalls
  have := (List.filter_sublist (l := calls.zipIdx 2) (p := fun c => tracked c.2)).map Prod.fst
  rwa [List.zipIdx_map_fst] at this

theorem iterates_sorted {σ : Type} {step : σ → σ} {P : σ → Prop} {B : σ → ℝ} (h1 : ∀ p, P p → P (step p))
    (h2 : ∀ p, P p → B p ≤ B (step p)) {p : σ} (hp : P p) (j : ℕ) :
    ((List.range j).map fun i => B (step^[i + 1] p)).Pairwise (· ≤ ·) ∧ ∀ i, B p ≤ B (step^[i] p) := by
  have hpd : ∀ i, P (step^[i] p) := fun i => by
    induction i with
    | zero => exact hp
    | succ i ih =>
      rw [Function.iterate_succ_apply']
      exact h1 _ ih
  have hmono : Monotone fun i => B (step^[i] p) := by
    refine monotone_nat_of_le_succ fun i => ?_
    simp only [Function.iterate_succ_apply']
    exact h2 _ (hpd i)
  refine ⟨?_, fun i => hmono (Nat.zero_le i)⟩
  rw [List.pairwise_map]
  exact List.pairwise_lt_range.imp fun hij => hmono (by omega)

/-- **C129** The curve of coordinate ascent never decreases and never falls below the bound of the initialisation. -/
theorem c129_curve (h : m.Valid) (s : Posts ι κ) (hs : s.qi = 0) (hp : s.Proper) (d : List (ℝ × ℝ)) (iters : ℤ) :
    ∃ b0 : ℝ, ∃ vals : List ℝ, MeanField.elbo C m s d none = .ok b0 ∧ caCurve C m s d iters = vals.map .ok ∧
      vals.Pairwise (· ≤ ·) ∧ ∀ v ∈ vals, b0 ≤ v := by
  have he : ∀ p : Pair ι κ, MeanField.elbo C m ((s.setU p.u).setZ p.z) d none =
      .ok (meanFieldBound C m (constructDataTerms C m d) ⟨0, m.Ku⟩ p.u ⟨0, m.Kz⟩ p.z) := fun p => by
    simp [MeanField.elbo, Posts.pU, Posts.pZ, Posts.qU, Posts.qZ, Posts.setU, Posts.setZ, hs]
  have h0 : MeanField.elbo C m s d none =
      .ok (meanFieldBound C m (constructDataTerms C m d) ⟨0, m.Ku⟩ s.qU ⟨0, m.Kz⟩ s.qZ) := by
    simp [MeanField.elbo, Posts.pU, Posts.pZ, hs]
  obtain ⟨j, -, hj, -⟩ := c23_loop C (m := m) s d iters
  obtain ⟨h1, h2⟩ := iterates_sorted (step := caStep C m (constructDataTerms C m d))
    (P := fun p => p.u.prec.PosDef ∧ p.z.prec.PosDef)
    (B := fun q => meanFieldBound C m (constructDataTerms C m d) ⟨0, m.Ku⟩ q.u ⟨0, m.Kz⟩ q.z)
    (fun p hp => ⟨(caStep_bound C h d p hp.1 hp.2).1, (caStep_bound C h d p hp.1 hp.2).2.1⟩)
    (fun p hp => (caStep_bound C h d p hp.1 hp.2).2.2) (p := ⟨s.qU, s.qZ⟩) hp j
  have hsub := trackedCalls_sublist (fitMeanFieldCA C m s d iters).2
  refine ⟨_, (trackedCalls (fitMeanFieldCA C m s d iters).2).map fun p =>
    meanFieldBound C m (constructDataTerms C m d) ⟨0, m.Ku⟩ p.u ⟨0, m.Kz⟩ p.z, h0, ?_, ?_, ?_⟩
  · unfold caCurve
    rw [List.map_map]
    exact List.map_congr_left fun p _ => he p
  · refine List.Pairwise.sublist (hsub.map _) ?_
    rw [hj, List.map_map]
    exact h1
  · intro v hv
    obtain ⟨p, hp', rfl⟩ := List.mem_map.1 hv
    have := hsub.subset hp'
    rw [hj] at this
    obtain ⟨i, -, rfl⟩ := List.mem_map.1 this
    exact h2 (i + 1)

theorem runningMaxFrom_spec (a : ℝ) (l : List ℝ) :
    (runningMaxFrom a l).length = l.length ∧ (runningMaxFrom a l).Pairwise (· ≤ ·) ∧
      (∀ x ∈ runningMaxFrom a l, a ≤ x) ∧
      ∀ i (h : i < (runningMaxFrom a l).length), (∀ x ∈ l.take (i + 1), x ≤ (runningMaxFrom a l)[i]) ∧
        ((runningMaxFrom a l)[i] = a ∨ (runningMaxFrom a l)[i] ∈ l.take (i + 1)) := by
  induction l generalizing a with
  | nil => simp [runningMaxFrom]
  | cons y l ih =>
    obtain ⟨h1, h2, h3, h4⟩ := ih (max a y)
    refine ⟨by simp [runningMaxFrom, h1], ?_, ?_, ?_⟩
    · exact List.pairwise_cons.2 ⟨h3, h2⟩
    · intro x hx
      rcases List.mem_cons.1 hx with rfl | hx
      · exact le_max_left _ _
      · exact (le_max_left _ _).trans (h3 x hx)
    · intro i hi
      cases i with
      | zero =>
        simp only [runningMaxFrom, List.getElem_cons_zero, zero_add, List.take_succ_cons, List.take_zero,
          List.mem_singleton, forall_eq]
        exact ⟨le_max_right _ _, max_choice a y⟩
      | succ i =>
        simp only [runningMaxFrom, List.getElem_cons_succ, List.take_succ_cons, List.mem_cons, forall_eq_or_imp]
        have hi' : i < (runningMaxFrom (max a y) l).length := by simpa [runningMaxFrom] using hi
        obtain ⟨h5, h6⟩ := h4 i hi'
        refine ⟨⟨(le_max_right a y).trans (h3 _ (List.getElem_mem hi')), h5⟩, ?_⟩
        rcases h6 with h6 | h6
        · rcases max_choice a y with h7 | h7
          · exact .inl (h6.trans h7)
          · exact .inr (.inl (h6.trans h7))
        · exact .inr (.inr h6)

/-- **C129** The curves of the gradient methods show the best bound so far: the largest of the values up to that time. They
never decrease. -/
theorem c129_best (l : List ℝ) :
    (runningMax l).length = l.length ∧ (runningMax l).Pairwise (· ≤ ·) ∧
      ∀ i (h : i < (runningMax l).length), IsGreatest {x | x ∈ l.take (i + 1)} (runningMax l)[i] := by
  cases l with
  | nil => simp [runningMax]
  | cons y l =>
    obtain ⟨h1, h2, h3, h4⟩ := runningMaxFrom_spec y l
    refine ⟨by simp [runningMax, h1], List.pairwise_cons.2 ⟨h3, h2⟩, fun i hi => ?_⟩
    cases i with
    | zero => simp [runningMax, IsGreatest, upperBounds]
    | succ i =>
      have hi' : i < (runningMaxFrom y l).length := by simpa [runningMax] using hi
      obtain ⟨h5, h6⟩ := h4 i hi'
      simp only [runningMax, List.getElem_cons_succ, List.take_succ_cons, List.mem_cons]
      refine ⟨h6, fun x hx => ?_⟩
      rcases hx with rfl | hx
      · exact h3 _ (List.getElem_mem hi')
      · exact h5 x hx

example : exInst.Valid ∧ (exPosts 0).qi = 0 ∧ (exPosts 0).Proper :=
  ⟨exInst_valid, rfl, Matrix.PosDef.one, Matrix.PosDef.one⟩

example : runningMax [-5, -7, -3, -4] = [-5, -5, -3, -3] := by norm_num [runningMax, runningMaxFrom]

/-! ## C130 -/

theorem foldl_max_spec (x : ℝ) (l : List ℝ) : x ≤ l.foldl max x ∧ (∀ y ∈ l, y ≤ l.foldl max x) ∧
    (l.foldl max x = x ∨ l.foldl max x ∈ l) := by
  induction l generalizing x with
  | nil => simp
  | cons y l ih =>
    obtain ⟨h1, h2, h3⟩ := ih (max x y)
    simp only [List.foldl_cons, List.mem_cons, forall_eq_or_imp]
    refine ⟨(le_max_left x y).trans h1, ⟨(le_max_right x y).trans h1, h2⟩, ?_⟩
    rcases h3 with h3 | h3
    · rcases max_choice x y with h | h
      · exact .inl (h3.trans h)
      · exact .inr (.inl (h3.trans h))
    · exact .inr (.inr h3)

theorem maxE_spec {l : List ℝ} (hl : l ≠ []) : ∃ a, maxE l = .ok a ∧ IsGreatest {x | x ∈ l} a := by
  cases l with
  | nil => exact absurd rfl hl
  | cons x l =>
    obtain ⟨h1, h2, h3⟩ := foldl_max_spec x l
    refine ⟨_, rfl, ?_, fun y hy => ?_⟩
    · rcases h3 with h | h
      · exact List.mem_cons.2 (.inl h)
      · exact List.mem_cons_of_mem _ h
    · rcases List.mem_cons.1 hy with rfl | hy
      · exact h1
      · exact h2 y hy

/-- **C130** The axis of times is a multiple of five seconds and contains the curves of the gradient methods and the
measured times of the structured scheme, with at most five seconds to spare. -/
theorem c130_partial {tMf tCmf tS : List ℝ} (h1 : tMf ≠ []) (h2 : tCmf ≠ []) (h3 : tS ≠ []) :
    ∃ x, xLimit tMf tCmf tS = .ok x ∧ (∃ n : ℤ, x = 5 * n) ∧ (∀ t ∈ tMf ++ tCmf ++ tS, t < x) ∧
      ∃ t ∈ tMf ++ tCmf ++ tS, x ≤ t + 5 := by
  obtain ⟨a, ha, ha'⟩ := maxE_spec h1
  obtain ⟨b, hb, hb'⟩ := maxE_spec h2
  obtain ⟨c, hc, hc'⟩ := maxE_spec h3
  obtain ⟨M, hM⟩ : ∃ M, M = max (max a b) c := ⟨_, rfl⟩
  have hM' : M ∈ tMf ++ tCmf ++ tS := by
    rw [hM]
    rcases max_choice (max a b) c with h | h
    · rw [h]
      rcases max_choice a b with h | h
      · rw [h]
        exact List.mem_append_left _ (List.mem_append_left _ ha'.1)
      · rw [h]
        exact List.mem_append_left _ (List.mem_append_right _ hb'.1)
    · rw [h]
      exact List.mem_append_right _ hc'.1
  have hle : ∀ t ∈ tMf ++ tCmf ++ tS, t ≤ M := fun t ht => by
    rw [hM]
    rcases List.mem_append.1 ht with ht | ht
    · rcases List.mem_append.1 ht with ht | ht
      · exact (ha'.2 ht).trans ((le_max_left a b).trans (le_max_left _ c))
      · exact (hb'.2 ht).trans ((le_max_right a b).trans (le_max_left _ c))
    · exact (hc'.2 ht).trans (le_max_right _ _)
  have hf1 := Int.lt_floor_add_one (M / 5)
  have hf2 := Int.floor_le (M / 5)
  refine ⟨5 * ((⌊M / 5⌋ : ℝ) + 1), ?_, ⟨⌊M / 5⌋ + 1, by push_cast; ring⟩, fun t ht => ?_, M, hM', ?_⟩
  · simp only [xLimit, ha, hb, hc, bind1_val, ← hM]
  · have := hle t ht
    linarith
  · linarith

/-- **C130 is false**: the times of coordinate ascent do not enter the limit of the axis, so that its curve, and that of the
structured scheme, which is stretched to end at the same time, can be cut off. -/
theorem c130_refuted : ∃ tMf tCmf tS tCa sTimes : List ℝ, ∃ x, xLimit tMf tCmf tS = .ok x ∧
    structuredTimes tS tCa = .ok sTimes ∧ (∃ t ∈ tCa, x < t) ∧ ∃ t ∈ sTimes, x < t := by
  refine ⟨[0, 1], [0, 2], [0, 3], [0, 7], [0, 7], 5, ?_, ?_, ⟨7, by simp, by norm_num⟩, 7, by simp, by norm_num⟩
  · have : ⌊(3 : ℝ) / 5⌋ = 0 := by
      rw [Int.floor_eq_iff]
      norm_num
    norm_num [xLimit, maxE, bind1_val, this]
  · norm_num [structuredTimes, maxE, bind1_val]

/-- The stretched times end where those of coordinate ascent end. -/
theorem c130_aligned {tS tCa : List ℝ} (h1 : tS ≠ []) (h2 : tCa ≠ []) (hpos : ∃ t ∈ tS, 0 < t)
    (hn : ∀ t ∈ tCa, 0 ≤ t) :
    ∃ sTimes b, structuredTimes tS tCa = .ok sTimes ∧ IsGreatest {x | x ∈ sTimes} b ∧ IsGreatest {x | x ∈ tCa} b := by
  obtain ⟨a, ha, ha'⟩ := maxE_spec h1
  obtain ⟨b, hb, hb'⟩ := maxE_spec h2
  obtain ⟨t, ht, htp⟩ := hpos
  have ha0 : 0 < a := htp.trans_le (ha'.2 ht)
  refine ⟨tS.map fun x => x / a * b, b, by simp only [structuredTimes, ha, hb, bind1_val], ⟨?_, ?_⟩, hb'⟩
  · exact List.mem_map.2 ⟨a, ha'.1, by field_simp⟩
  · intro x hx
    obtain ⟨y, hy, rfl⟩ := List.mem_map.1 hx
    have : y / a ≤ 1 := (div_le_one ha0).2 (ha'.2 hy)
    exact mul_le_of_le_one_left (hn b hb'.1) this

example : ([0, 3] : List ℝ) ≠ [] ∧ ([0, 7] : List ℝ) ≠ [] ∧ (∃ t ∈ ([0, 3] : List ℝ), 0 < t) ∧
    ∀ t ∈ ([0, 7] : List ℝ), 0 ≤ t :=
  ⟨List.cons_ne_nil _ _, List.cons_ne_nil _ _, by norm_num, by norm_num⟩

end Gpcm.Compare
