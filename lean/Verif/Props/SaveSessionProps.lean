import Verif.Model.SaveSession
import Verif.Props.SessionProps

/-!
# C145: what a loaded model predicts
-/

open Matrix Real

namespace Gpcm.Session

variable {ι κ : Type} [Fintype ι] [DecidableEq ι] [Fintype κ] [DecidableEq κ]

/-- The data sets of the conditionings of a history. -/
def _root_.Gpcm.Spec.conditionings (ops : List Op) : List (List (ℝ × ℝ)) :=
  ops.filterMap fun
    | .condition d => some d
    | _ => none

/-- The approximate posteriors that a history has used: a fit or a bound after `i` conditionings uses the `i`th one. -/
def _root_.Gpcm.Spec.Used (ops : List Op) (i : ℕ) : Prop :=
  ∃ pre o post, ops = pre ++ o :: post ∧ (∀ d, o ≠ .condition d) ∧ (Spec.conditionings pre).length = i

variable (C : Chols ι κ) (m : Inst ι κ)

/-- What an operation other than conditioning leaves as it is. -/
structure Scheme (step : Session ι κ → Op → Session ι κ) : Prop where
  condition : ∀ s d, step s (.condition d) = s.condition C m d
  qi : ∀ s o, (∀ d, o ≠ .condition d) → (step s o).posts.qi = s.posts.qi
  ts : ∀ s o, (∀ d, o ≠ .condition d) → (step s o).ts = s.ts
  qu : ∀ s o, (∀ d, o ≠ .condition d) → ∀ i, i ≠ s.posts.qi → (step s o).posts.qu i = s.posts.qu i
  qz : ∀ s o, (∀ d, o ≠ .condition d) → ∀ i, i ≠ s.posts.qi → (step s o).posts.qz i = s.posts.qz i

theorem fitCA_other (s : Session ι κ) (d : List (ℝ × ℝ)) (iters : ℤ) (i : ℕ) (hi : i ≠ s.posts.qi) :
    (s.fitCA C m d iters).posts.qu i = s.posts.qu i ∧ (s.fitCA C m d iters).posts.qz i = s.posts.qz i := by
  simp only [fitCA, fitMeanFieldCA, Posts.setU, Posts.setZ, hi, if_false, and_self]

theorem fitStructured_posts (W : ℕ → (ι → ℝ) × (κ → ℝ)) (s : Session ι κ) (d : List (ℝ × ℝ)) (iters : ℤ) :
    (s.fitStructured C m W d iters).1.posts = s.posts ∧ (s.fitStructured C m W d iters).1.ts = s.ts := by
  by_cases h : 2 ≤ iters
  · rw [fitStructured_eq C m W d iters h]
    exact ⟨rfl, rfl⟩
  · rw [fitStructured_few C m W d iters (by omega)]
    exact ⟨rfl, rfl⟩

theorem scheme_structured (W : ℕ → (ι → ℝ) × (κ → ℝ)) : Scheme C m (run C m W) := by
  refine ⟨fun s d => rfl, fun s o h => ?_, fun s o h => ?_, fun s o h i hi => ?_, fun s o h i hi => ?_⟩ <;> cases o with
  | condition d => exact absurd rfl (h d)
  | fit d iters =>
    have := fitStructured_posts C m W s d iters
    first | exact this.2 | (simp only [run]; rw [this.1])
  | elbo d =>
    have := fitCA_other C m s d 5000
    first | rfl | exact (this i hi).1 | exact (this i hi).2

theorem scheme_ca : Scheme C m (runCA C m) := by
  refine ⟨fun s d => rfl, fun s o h => ?_, fun s o h => ?_, fun s o h i hi => ?_, fun s o h i hi => ?_⟩ <;> cases o with
  | condition d => exact absurd rfl (h d)
  | fit d iters =>
    have := fitCA_other C m s d iters
    first | rfl | exact (this i hi).1 | exact (this i hi).2
  | elbo d => rfl

variable {C m}

theorem conditionings_append (ops : List Op) (o : Op) :
    Spec.conditionings (ops ++ [o]) = Spec.conditionings ops ++ Spec.conditionings [o] := List.filterMap_append

theorem conditionings_other {o : Op} (h : ∀ d, o ≠ .condition d) : Spec.conditionings [o] = [] := by
  cases o with
  | condition d => exact absurd rfl (h d)
  | fit d iters => rfl
  | elbo d => rfl

theorem used_append {ops : List Op} {o : Op} {i : ℕ} (h : Spec.Used ops i) : Spec.Used (ops ++ [o]) i := by
  obtain ⟨pre, o', post, rfl, h1, h2⟩ := h
  exact ⟨pre, o', post ++ [o], by simp, h1, h2⟩

/-- The state after a history. -/
theorem Scheme.state {step : Session ι κ → Op → Session ι κ} (h : Scheme C m step) (qu : ℕ → NatNormal ι)
    (qz : ℕ → NatNormal κ) (ops : List Op) :
    let s := ops.foldl step (fresh qu qz)
    s.posts.qi = (Spec.conditionings ops).length ∧
      s.ts = (Spec.conditionings ops).getLast?.map (constructDataTerms C m) ∧
      ∀ i, ¬ Spec.Used ops i → s.posts.qu i = qu i ∧ s.posts.qz i = qz i := by
  induction ops using List.reverseRecOn with
  | nil => exact ⟨rfl, rfl, fun i _ => ⟨rfl, rfl⟩⟩
  | append_singleton ops o ih =>
    obtain ⟨h1, h2, h3⟩ := ih
    simp only [List.foldl_append, List.foldl_cons, List.foldl_nil]
    generalize ops.foldl step (fresh qu qz) = s at h1 h2 h3
    by_cases ho : ∀ d, o ≠ .condition d
    · refine ⟨?_, ?_, fun i hi => ?_⟩
      · rw [h.qi s o ho, h1, conditionings_append, conditionings_other ho, List.append_nil]
      · rw [h.ts s o ho, h2, conditionings_append, conditionings_other ho, List.append_nil]
      · have hne : i ≠ s.posts.qi := by
          rintro rfl
          exact hi ⟨ops, o, [], rfl, ho, h1.symm⟩
        rw [h.qu s o ho i hne, h.qz s o ho i hne]
        exact h3 i fun hu => hi (used_append hu)
    · simp only [ne_eq, not_forall, not_not] at ho
      obtain ⟨d, rfl⟩ := ho
      rw [h.condition, conditionings_append]
      refine ⟨?_, ?_, fun i hi => ?_⟩
      · rw [List.length_append, ← h1]
        rfl
      · rw [show Spec.conditionings [.condition d] = [d] from rfl, List.getLast?_append]
        rfl
      · exact h3 i fun hu => hi (used_append hu)

/-- Conditioning several times. -/
theorem foldl_condition (ds : List (List (ℝ × ℝ))) (s : Session ι κ) :
    ds.foldl (fun s d => s.condition C m d) s =
      { s with
        posts := ⟨s.posts.qi + ds.length, s.posts.qu, s.posts.qz⟩
        ts := (ds.getLast?.map (constructDataTerms C m)).or s.ts } := by
  induction ds using List.reverseRecOn with
  | nil => rfl
  | append_singleton ds d ih =>
    rw [List.foldl_append, ih]
    simp only [List.foldl_cons, List.foldl_nil, condition, Posts.condition, List.length_append, List.length_cons,
      List.length_nil, List.getLast?_append, List.getLast?_singleton]
    rfl

/-- A model that is loaded and conditioned again on the data sets of the history. -/
noncomputable def _root_.Gpcm.Spec.restore (C : Chols ι κ) (m : Inst ι κ) (E : ℕ → Bool) (ops : List Op) (s new : Session ι κ) :
    Session ι κ := (Spec.conditionings ops).foldl (fun s d => s.condition C m d) (new.load (s.save E))

/-- **C145** After saving, loading into a new model and conditioning again on the same data sets, the state is exactly what it
was, if the variables that did not exist are initialised with the same values. -/
theorem c145_restored_partial {step : Session ι κ → Op → Session ι κ} (h : Scheme C m step) (qu : ℕ → NatNormal ι)
    (qz : ℕ → NatNormal κ) (ops : List Op) (E : ℕ → Bool) (hE : ∀ i, Spec.Used ops i → E i = true) :
    Spec.restore C m E ops (ops.foldl step (fresh qu qz)) (fresh qu qz) = ops.foldl step (fresh qu qz) := by
  obtain ⟨h1, h2, h3⟩ := h.state qu qz ops
  generalize ops.foldl step (fresh qu qz) = s at h1 h2 h3
  rw [Spec.restore, foldl_condition]
  obtain ⟨⟨qi, su, sz⟩, sU, sZ, ts⟩ := s
  simp only at h1 h2 h3
  have e : ∀ i, E i = false → su i = qu i ∧ sz i = qz i := fun i hi =>
    h3 i fun hu => by simp [hE i hu] at hi
  simp only [load, save, fresh, Session.mk.injEq, Posts.mk.injEq, Option.or_none, h1, h2, zero_add, true_and, and_true]
  constructor <;> funext i <;> cases hi : E i
  · exact (e i hi).1.symm
  · rfl
  · exact (e i hi).2.symm
  · rfl

/-- **C145** The structured scheme: the restored model predicts as before, whatever the initial values of the new model. -/
theorem c145_structured_partial (W : ℕ → (ι → ℝ) × (κ → ℝ)) (qu qu' : ℕ → NatNormal ι) (qz qz' : ℕ → NatNormal κ) (ops : List Op)
    (E : ℕ → Bool) (t : List ℝ) (ws : List (ι → ℝ)) :
    (Spec.restore C m E ops (ops.foldl (run C m W) (fresh qu qz)) (fresh qu' qz')).predictStructured C m t ws =
      (ops.foldl (run C m W) (fresh qu qz)).predictStructured C m t ws := by
  obtain ⟨h1, h2, -⟩ := (scheme_structured C m W).state qu qz ops
  generalize ops.foldl (run C m W) (fresh qu qz) = s at h1 h2
  rw [Spec.restore, foldl_condition]
  simp only [predictStructured, Session.samplePU, load, save, fresh, Option.or_none, zero_add, h1, h2]

/-- **C145** Coordinate ascent: the restored model predicts as before, whatever the initial values of the new model, if the last
posterior existed when the model was saved. -/
theorem c145_ca_partial (qu qu' : ℕ → NatNormal ι) (qz qz' : ℕ → NatNormal κ) (ops : List Op)
    (E : ℕ → Bool) (hE : Spec.conditionings ops ≠ [] → E ((Spec.conditionings ops).length - 1) = true) (t : List ℝ) :
    (Spec.restore C m E ops (ops.foldl (runCA C m) (fresh qu qz)) (fresh qu' qz')).predictMeanField C m t =
      (ops.foldl (runCA C m) (fresh qu qz)).predictMeanField C m t := by
  obtain ⟨h1, h2, -⟩ := (scheme_ca C m).state qu qz ops
  generalize ops.foldl (runCA C m) (fresh qu qz) = s at h1 h2
  rw [Spec.restore, foldl_condition]
  by_cases h0 : Spec.conditionings ops = []
  · simp only [predictMeanField, MeanField.predict, Posts.pU, Posts.pZ, load, save, fresh, h1, h0, List.length_nil, zero_add,
      if_true]
  · have h0' : (Spec.conditionings ops).length ≠ 0 := by rwa [ne_eq, List.length_eq_zero_iff]
    simp only [predictMeanField, MeanField.predict, Posts.pU, Posts.pZ, load, save, fresh, h1, zero_add, h0', if_false, hE h0,
      if_true, Option.getD_some]

/-- **C145** (refuted) Without conditioning again, a model with the structured scheme raises, whatever was saved. -/
theorem c145_structured_false (E : ℕ → Bool) (s : Session ι κ) (qu : ℕ → NatNormal ι) (qz : ℕ → NatNormal κ) (t : List ℝ)
    (ws : List (ι → ℝ)) (hws : ws ≠ []) :
    ((fresh qu qz).load (s.save E)).predictStructured C m t ws = .error .attributeError := by
  cases ws with
  | nil => exact absurd rfl hws
  | cons w ws =>
    simp only [predictStructured, Session.samplePU, load, save, fresh, if_true, bind1, Gpcm.samplePU, List.map_cons,
      Structured.predict, columns, Option.getD_none, List.length_cons, Nat.min_self, List.take_succ_cons]

/-- **C145** (refuted) Without conditioning again, a model with a mean-field scheme predicts from the prior, whatever was saved. -/
theorem c145_ca_false (E : ℕ → Bool) (s : Session ι κ) (qu : ℕ → NatNormal ι) (qz : ℕ → NatNormal κ) (t : List ℝ) :
    ((fresh qu qz).load (s.save E)).predictMeanField C m t = (fresh qu qz).predictMeanField C m t := rfl

/-- **C145** (refuted) A model that was fitted to and conditioned on two observations predicts a positive value. Saved and loaded,
it raises an exception; with coordinate ascent it predicts zero. -/
theorem c145_refuted (C : Chols (Fin 1) (Fin 1)) (E : ℕ → Bool) (ws : List (Fin 1 → ℝ)) (hws : ws ≠ []) :
    let ops : List Op := [.fit [(0, 3), (π / 2, 0)] 4, .condition [(0, 3), (π / 2, 0)]]
    let s := ops.foldl (run C exInst fun _ => 0) exSession
    let s' := ops.foldl (runCA C exInst) exSession
    (∃ b v, 0 < b ∧ s.predictStructured C exInst [0] ws = .ok [(b, v)]) ∧
      (exSession.load (s.save E)).predictStructured C exInst [0] ws = .error .attributeError ∧
      (∃ b v, 0 < b ∧ s'.predictMeanField C exInst [0] = [(b, v)]) ∧
      ∃ v, (exSession.load (s'.save E)).predictMeanField C exInst [0] = [(0, v)] := by
  intro ops s s'
  refine ⟨(c123_refuted C 0 4 (by norm_num) ws hws).2.1, c145_structured_false E s _ _ [0] ws hws,
    (c123_ca_refuted C 0 4 (by norm_num)).2, ?_⟩
  have e : (exSession.load (s'.save E)).predictMeanField C exInst [0] = exSession.predictMeanField C exInst [0] := rfl
  rw [e]
  simp only [predictMeanField, MeanField.predict]
  rw [predictMoments_eq, List.map_map, List.map_cons, List.map_nil]
  refine (pair_zero _ ?_).imp fun _ => Except.ok.inj
  simp only [Function.comp_apply, toMeanVar, ptMoments]
  have h0 : (exSession.posts.pU exInst).mean C.u = 0 :=
    mean_zero_lam C.u (q := exSession.posts.pU exInst) exInst_valid.Ku rfl
  rw [h0]
  simp

/-- A history with two conditionings, and which posteriors it used. -/
example : Spec.conditionings [.fit [(0, 1)] 4, .condition [(0, 1)], .elbo [(2, 1)], .condition [(2, 1)]] = [[(0, 1)], [(2, 1)]] ∧
    Spec.Used [.fit [(0, 1)] 4, .condition [(0, 1)], .elbo [(2, 1)], .condition [(2, 1)]] 1 :=
  ⟨rfl, [.fit [(0, 1)] 4, .condition [(0, 1)]], .elbo [(2, 1)], [.condition [(2, 1)]], rfl, fun _ => by simp, rfl⟩

end Gpcm.Session
