import Verif.Model.JitObjective

/-!
# C218: compiling an objective does not change its values
-/

namespace Gpcm.Jit

/-- Two containers have the same variables, of the same shapes, and agree where the minimiser cannot see them. -/
def Alike (a b : Store) : Prop :=
  List.Forall₂ (fun p q => p.1 = q.1 ∧ p.2.constraint = q.2.constraint ∧ p.2.visible = q.2.visible ∧
    p.2.latent.length = q.2.latent.length ∧ (p.2.visible = false → p.2.latent = q.2.latent)) a b

theorem Alike.refl (a : Store) : Alike a a := by
  unfold Alike
  exact List.forall₂_same.2 fun _ _ => ⟨rfl, rfl, rfl, rfl, fun _ => rfl⟩

theorem Alike.symm {a b : Store} (h : Alike a b) : Alike b a := by
  unfold Alike at *
  induction h with
  | nil => exact .nil
  | cons h _ ih => exact .cons ⟨h.1.symm, h.2.1.symm, h.2.2.1.symm, h.2.2.2.1.symm, fun hv => (h.2.2.2.2 (h.2.2.1.trans hv)).symm⟩ ih

theorem Alike.trans {a b c : Store} (h : Alike a b) (h' : Alike b c) : Alike a c := by
  unfold Alike at *
  induction h generalizing c with
  | nil => exact h'
  | cons h _ ih =>
    cases h' with
    | cons g t => exact .cons ⟨h.1.trans g.1, h.2.1.trans g.2.1, h.2.2.1.trans g.2.2.1, h.2.2.2.1.trans g.2.2.2.1,
        fun hv => (h.2.2.2.2 hv).trans (g.2.2.2.2 (h.2.2.1.symm.trans hv))⟩ (ih t)

theorem setLatent_alike {a b : Store} (h : Alike a b) : setLatent a (latentVector b) = .ok b := by
  unfold Alike at h
  induction h with
  | nil => rfl
  | @cons p q as bs h _ ih =>
    obtain ⟨n, v⟩ := p
    obtain ⟨n', v'⟩ := q
    obtain ⟨c, l, vis⟩ := v
    obtain ⟨c', l', vis'⟩ := v'
    obtain ⟨h1, h2, h3, h4, h5⟩ := h
    simp only at h1 h2 h3 h4 h5
    subst h1 h2 h3
    have e : latentVector ((n, ⟨c, l', vis⟩) :: bs) = (if vis then l' else []) ++ latentVector bs := by
      simp [latentVector]
    rw [e]
    cases vis with
    | true =>
      have hl : ¬ (l' ++ latentVector bs).length < l.length := by rw [List.length_append]; omega
      simp only [setLatent, if_true, if_neg hl]
      rw [h4, List.drop_left, List.take_left, ih]
    | false =>
      simp only [setLatent, Bool.false_eq_true, if_false, List.nil_append]
      rw [ih, h5 rfl]

theorem calls_eq (f : Objective) (ref : Store) (cs : List (Store × Store)) (tr : Traces)
    (htr : ∀ k s, tr k = some s → Alike ref s) (h : ∀ c ∈ cs, Alike ref c.1 ∧ Alike ref c.2) :
    calls f cs tr = cs.map fun c => (f c.2).1 := by
  induction cs generalizing tr with
  | nil => rfl
  | cons c cs ih =>
    obtain ⟨h1, h2⟩ := h c (by simp)
    have hcopy : Alike ref ((tr (latentVector c.2).length).getD c.1) := by
      rcases hx : tr (latentVector c.2).length with _ | s
      · exact h1
      · exact htr _ _ hx
    have hv : vectorised f ((tr (latentVector c.2).length).getD c.1) (latentVector c.2) = (f c.2).1 := by
      rw [vectorised, setLatent_alike (hcopy.symm.trans h2)]
    simp only [calls, List.map_cons]
    have hw : (wrapped f c.1 tr c.2).1 = (f c.2).1 := by
      simp only [wrapped, hv]
      rcases (f c.2).1 with e | x <;> rfl
    rw [hw, ih _ _ fun c hc => h c (List.mem_cons_of_mem _ hc)]
    intro k s hs
    simp only [wrapped, hv] at hs
    rcases hf : (f c.2).1 with e | x
    · rw [hf] at hs; exact htr _ _ hs
    · rw [hf] at hs
      simp only at hs
      split at hs
      · cases hs; exact hcopy
      · exact htr _ _ hs

theorem train_alike (vs : Store) (steps : List ((String → Bool) × (String → List ℝ)))
    (h : ∀ s ∈ steps, ∀ p ∈ vs, (s.2 p.1).length = p.2.latent.length) : Alike vs (vs.train steps) := by
  have one : ∀ (a : Store) (s : (String → Bool) × (String → List ℝ)), (∀ p ∈ a, (s.2 p.1).length = p.2.latent.length) →
      Alike a (a.optimise s.1 s.2) := by
    intro a s ha
    unfold Alike Vars.optimise
    rw [List.forall₂_map_right_iff]
    refine List.forall₂_same.2 fun p hp => ?_
    by_cases hc : (p.2.visible && s.1 p.1) = true
    · rw [if_pos hc]
      refine ⟨rfl, rfl, rfl, (ha p hp).symm, fun hv => ?_⟩
      rw [hv] at hc
      simp at hc
    · rw [if_neg hc]
      exact ⟨rfl, rfl, rfl, rfl, fun _ => rfl⟩
  have shape : ∀ (a b : Store), Alike a b → ∀ (x : String → List ℝ), (∀ p ∈ a, (x p.1).length = p.2.latent.length) →
      ∀ p ∈ b, (x p.1).length = p.2.latent.length := by
    intro a b hab x
    unfold Alike at hab
    induction hab with
    | nil => intro _ p hp; cases hp
    | cons g _ ih =>
      intro ha p hp
      rcases List.mem_cons.1 hp with rfl | hp
      · rw [← g.1, ← g.2.2.2.1]; exact ha _ (by simp)
      · exact ih (fun p hp => ha p (List.mem_cons_of_mem _ hp)) p hp
  unfold Vars.train
  have gen : ∀ (steps : List ((String → Bool) × (String → List ℝ))) (a : Store), Alike vs a →
      (∀ s ∈ steps, ∀ p ∈ vs, (s.2 p.1).length = p.2.latent.length) →
      Alike vs (steps.foldl (fun vs s => Vars.optimise vs s.1 s.2) a) := by
    intro steps
    induction steps with
    | nil => intro a ha _; exact ha
    | cons s ss ih =>
      intro a ha hs
      rw [List.foldl_cons]
      exact ih _ (ha.trans (one a s (shape vs a ha s.2 (hs s (by simp))))) fun s hs' => hs s (List.mem_cons_of_mem _ hs')
  exact gen steps vs (Alike.refl vs) h

/-- Whatever values the minimiser writes, before and after every call, into the container of the model and into the one that it passes to
the objective: the compiled objective returns what the objective itself would, and raises when it would. Both containers start as the
first run leaves them. -/
theorem c218_minimise (f : Objective) (vs : Store)
    (hist : List (List ((String → Bool) × (String → List ℝ)) × List ((String → Bool) × (String → List ℝ))))
    (h : ∀ c ∈ hist, ∀ s ∈ c.1 ++ c.2, ∀ p ∈ firstRun f vs, (s.2 p.1).length = p.2.latent.length) :
    calls f (hist.map fun c => ((firstRun f vs).train c.1, (firstRun f vs).train c.2)) (fun _ => none) =
      hist.map fun c => (f ((firstRun f vs).train c.2)).1 := by
  rw [calls_eq f (firstRun f vs) _ _ (by intro k s hs; cases hs), List.map_map]
  · rfl
  · intro c hc
    obtain ⟨x, hx, rfl⟩ := List.mem_map.1 hc
    exact ⟨train_alike _ _ fun s hs => h x hx s (List.mem_append_left _ hs),
      train_alike _ _ fun s hs => h x hx s (List.mem_append_right _ hs)⟩

/-- The same for any containers with the variables of `ref`, of the same shapes, that agree with it where the minimiser cannot see
them. -/
theorem c218_alike (f : Objective) (ref : Store) (cs : List (Store × Store)) (h : ∀ c ∈ cs, Alike ref c.1 ∧ Alike ref c.2) :
    calls f cs (fun _ => none) = cs.map fun c => (f c.2).1 :=
  calls_eq f ref cs _ (by intro k s hs; cases hs) h

/-- The objective of the witnesses: it creates a variable if it does not exist, and returns the sum of all latent values. -/
noncomputable def sumObjective : Objective := fun vs =>
  let vs := if vs.names.contains "x" then vs else vs ++ [("x", ⟨.unbounded, [1], true⟩)]
  (.ok ((vs.map fun p => p.2.latent.sum).sum), vs)

/-- The first run is needed: without it, the container has no variables to set, and a call with variables raises although the objective
does not. After it, the call gives the value. -/
theorem c218_first_needed :
    calls sumObjective [([], [("x", ⟨.unbounded, [3], true⟩)])] (fun _ => none) = [.error .valueError] ∧
      (sumObjective [("x", ⟨.unbounded, [3], true⟩)]).1 = .ok 3 ∧
      calls sumObjective [(firstRun sumObjective [], [("x", ⟨.unbounded, [3], true⟩)])] (fun _ => none) = [.ok 3] := by
  refine ⟨?_, ?_, ?_⟩ <;>
    simp [calls, wrapped, vectorised, latentVector, setLatent, sumObjective, firstRun, Vars.names]

/-- Variables that the minimiser cannot see, such as loaded values and stored samples, are those of the container of the model at the first
call: if they change, or if the argument has others, the compiled objective still returns the value for the old ones. -/
theorem c218_invisible :
    let a : Store := [("x", ⟨.unbounded, [1], true⟩), ("y", ⟨.unbounded, [2], false⟩)]
    let b : Store := [("x", ⟨.unbounded, [1], true⟩), ("y", ⟨.unbounded, [5], false⟩)]
    calls sumObjective [(a, a), (b, b)] (fun _ => none) = [.ok 3, .ok 3] ∧
      calls sumObjective [(a, b), (b, b)] (fun _ => none) = [.ok 3, .ok 3] ∧
      [(sumObjective a).1, (sumObjective b).1] = [.ok 3, .ok 6] := by
  refine ⟨?_, ?_, ?_⟩ <;>
    norm_num [calls, wrapped, vectorised, latentVector, setLatent, sumObjective, Vars.names]

/-- Not vacuous: two variables, one of which the minimiser changes twice, while the container of the model changes too. -/
example : ∃ (vs : Store) (hist : List (List ((String → Bool) × (String → List ℝ)) × List ((String → Bool) × (String → List ℝ)))),
    (∀ c ∈ hist, ∀ s ∈ c.1 ++ c.2, ∀ p ∈ firstRun sumObjective vs, (s.2 p.1).length = p.2.latent.length) ∧
      (hist.map fun c => (sumObjective ((firstRun sumObjective vs).train c.2)).1) = [.ok 6, .ok 9] := by
  refine ⟨[("y", ⟨.unbounded, [2], false⟩)],
    [([], [(fun _ => true, fun _ => [4])]), ([(fun _ => true, fun _ => [8])], [(fun _ => true, fun _ => [7])])], ?_, ?_⟩
  · simp only [firstRun, sumObjective, Vars.names]
    simp
    rintro a b (⟨_, rfl⟩ | ⟨_, rfl⟩) <;> exact ⟨rfl, rfl⟩
  · have h : firstRun sumObjective [("y", ⟨.unbounded, [2], false⟩)] =
        [("y", ⟨.unbounded, [2], false⟩), ("x", ⟨.unbounded, [1], true⟩)] := by
      simp [firstRun, sumObjective, Vars.names]
    rw [h]
    norm_num [sumObjective, Vars.names, Vars.train, Vars.optimise]

end Gpcm.Jit
