import Verif.Model.CompareStart
import Verif.Props.GlobalStateProps
import Verif.Props.CompareBoundsProps
import Verif.Props.MonteCarloProps

/-!
# Property C217: the schemes that are compared start from the same point
-/

set_option linter.unusedSectionVars false

open Matrix Real MeasureTheory

namespace Gpcm.Compare

open Global

variable {σ ι κ : Type} [Fintype ι] [DecidableEq ι] [Fintype κ] [DecidableEq κ]

/-- **C217** Whatever the global random state is when the models are built, all of them start from the same distributions, which are
those that the first model is initialised with: means that were drawn at random once, and precision one tenth. -/
theorem c217_start (G : Gen σ ι κ) (g g' : σ) :
    let first := firstModel G g
    let later := laterModel G first.1 g'
    first.1.u = Global.Spec.initial (G.randnU g).1 ∧ first.1.z = Global.Spec.initial (G.randnZ (G.randnU g).2).1 ∧
      first.2.depth = 0 ∧ first.2.qu 0 = some first.1.u ∧ first.2.qz 0 = some first.1.z ∧
      later.depth = 0 ∧ later.qu 0 = some first.1.u ∧ later.qz 0 = some first.1.z := by
  refine ⟨?_, ?_, rfl, rfl, rfl, rfl, rfl, rfl⟩
  · simp [firstModel, World.readU, World.new, parametrise_eq]
  · simp [firstModel, World.readU, World.readZ, World.new, parametrise_eq]

/-- **C217** These distributions are proper, so that all curves are defined. -/
theorem c217_proper (G : Gen σ ι κ) (g : σ) : (firstModel G g).1.u.prec.PosDef ∧ (firstModel G g).1.z.prec.PosDef := by
  obtain ⟨h1, h2, -⟩ := c217_start G g g
  rw [h1, h2]
  exact ⟨Matrix.PosDef.smul Matrix.PosDef.one (by norm_num), Matrix.PosDef.smul Matrix.PosDef.one (by norm_num)⟩

variable (C : Chols ι κ) (m : Inst ι κ)

/-- **C217** The structured scheme ends with the posteriors of coordinate ascent, although its callback stores only one of them. -/
theorem c217_stored (s : Posts ι κ) (d : List (ℝ × ℝ)) (iters : ℤ) :
    fitWithCallbackS C m s d iters = (fitMeanFieldCA C m s d iters).1 ∧ fitWithCallbackS C m s d iters = fitWithCallback C m s d iters := by
  have key : fitWithCallbackS C m s d iters = (fitMeanFieldCA C m s d iters).1 := by
    have hinv := caLoopStore_inv (step := caStep C m (constructDataTerms C m d)) (diff := Pair.diff)
      (cb := callbackS) (P := fun r : Posts ι κ × ℕ => r.1.qi = s.qi ∧ ∀ i, i ≠ s.qi →
        r.1.qu i = s.qu i ∧ r.1.qz i = s.qz i) (fun q r h => by
        unfold callbackS
        by_cases ht : tracked (r.2 + 1) = true
        · simp only [ht, if_true]
          refine ⟨h.1, fun i hi => ?_⟩
          have hi' : i ≠ r.1.qi := h.1 ▸ hi
          simp only [Posts.setU, if_neg hi']
          exact h.2 i hi
        · simp only [ht]
          exact h) iters.toNat ⟨s.qU, s.qZ⟩ (s, 1) ⟨rfl, fun _ _ => ⟨rfl, rfl⟩⟩
    simp only [fitWithCallbackS, fitMeanFieldCA, caLoopStore_fst]
    generalize (caLoopStore _ _ _ _ _ _).2 = r at *
    obtain ⟨h1, h2⟩ := hinv
    simp only [setU_setZ, Posts.mk.injEq]
    refine ⟨h1, funext fun i => ?_, funext fun i => ?_⟩
    · by_cases hi : i = s.qi
      · rw [if_pos (hi.trans h1.symm), if_pos hi]
      · rw [if_neg fun h => hi (h.trans h1), if_neg hi]
        exact (h2 i hi).1
    · by_cases hi : i = s.qi
      · rw [if_pos (hi.trans h1.symm), if_pos hi]
      · rw [if_neg fun h => hi (h.trans h1), if_neg hi]
        exact (h2 i hi).2
  exact ⟨key, key.trans (c129_callback C s d iters).symm⟩

theorem caLoopStore_snd {α τ : Type} (step : α → α) (diff : α → α → ℝ) (cb : α → τ → τ) (k : ℕ) (p : α) (s : τ) :
    (caLoopStore step diff cb k p s).2 = (caLoop step diff k p).2.foldl (fun s q => cb q s) s := by
  induction k generalizing p s with
  | zero => rfl
  | succ k ih =>
    simp only [caLoopStore, caLoop]
    by_cases h : diff (step p) p < 1e-6
    · rw [if_pos h, if_pos h]; rfl
    · rw [if_neg h, if_neg h, ih]; rfl

theorem trackedCalls_snoc {α : Type} (l : List α) (x : α) :
    trackedCalls (l ++ [x]) = trackedCalls l ++ if tracked (l.length + 2) then [x] else [] := by
  unfold trackedCalls
  rw [List.zipIdx_append, List.filter_append, List.map_append]
  congr 1
  have e : 2 + l.length = l.length + 2 := Nat.add_comm _ _
  by_cases h : tracked (l.length + 2) = true <;> simp [e, h]

/-- **C217** While coordinate ascent runs, the model of the structured scheme holds the filter of the last iterate that was recorded, and the
excitation it started with; that of coordinate ascent holds both distributions of that iterate. Both have counted all iterates. -/
theorem c217_during (step : Pair ι κ → Pair ι κ) (diff : Pair ι κ → Pair ι κ → ℝ) (n : ℕ) (p : Pair ι κ) (s : Posts ι κ) :
    let calls := (caLoop step diff n p).2
    let last := (trackedCalls calls).getLast?
    (caLoopStore step diff callbackS n p (s, 1)).2.2 = 1 + calls.length ∧
    (caLoopStore step diff callbackCA n p (s, 1)).2.2 = 1 + calls.length ∧
    (caLoopStore step diff callbackS n p (s, 1)).2.1.qU = (last.map Pair.u).getD s.qU ∧
    (caLoopStore step diff callbackS n p (s, 1)).2.1.qZ = s.qZ ∧
    (caLoopStore step diff callbackCA n p (s, 1)).2.1.qU = (last.map Pair.u).getD s.qU ∧
    (caLoopStore step diff callbackCA n p (s, 1)).2.1.qZ = (last.map Pair.z).getD s.qZ := by
  intro calls last
  simp only [caLoopStore_snd, last]
  change _ ∧ _
  have e : (caLoop step diff n p).2 = calls := rfl
  rw [e]
  clear_value calls
  clear e last
  induction calls using List.reverseRecOn with
  | nil => simp [trackedCalls]
  | append_singleton l x ih =>
    obtain ⟨h1, h2, h3, h4, h5, h6⟩ := ih
    rw [List.foldl_append, List.foldl_append, trackedCalls_snoc]
    simp only [List.foldl_cons, List.foldl_nil, List.length_append, List.length_singleton]
    generalize l.foldl (fun s q => callbackS q s) (s, 1) = a at *
    generalize l.foldl (fun s q => callbackCA q s) (s, 1) = b at *
    have ea : a.2 + 1 = l.length + 2 := by omega
    have eb : b.2 + 1 = l.length + 2 := by omega
    simp only [callbackS, callbackCA, ea, eb]
    by_cases h : tracked (l.length + 2) = true
    · simp only [h, if_true, List.getLast?_append, List.getLast?_singleton, Option.some_or, Option.map_some, Option.getD_some]
      exact ⟨by omega, by omega, if_pos rfl, h4, if_pos rfl, if_pos rfl⟩
    · simp only [h, List.append_nil, Bool.false_eq_true, if_false]
      exact ⟨by omega, by omega, h3, h4, h5, h6⟩

/-- **C217** The curves of coordinate ascent and of the structured scheme have the same number of points, and the points belong to the same
iterates. Each point of coordinate ascent is at most the bound that the structured scheme estimates there: this is at most
the logarithm of the evidence, and the mean square error of the estimate is inversely proportional to the number of samples. -/
theorem c217_curves (h : m.Valid) (s : Posts ι κ) (hs : s.qi = 0) (hp : s.Proper) (d : List (ℝ × ℝ)) (iters : ℤ) (ws : ℕ → List (ι → ℝ)) :
    (caCurve C m s d iters).length = (structuredCurve C m s d iters ws).length ∧
    ∀ i < (caCurve C m s d iters).length, ∃ (q : NatNormal ι) (r : NatNormal κ) (v V : ℝ),
      (trackedCalls (fitMeanFieldCA C m s d iters).2)[i]? = some ⟨q, r⟩ ∧
      (caCurve C m s d iters)[i]? = some (.ok v) ∧ MeanField.elbo C m ((s.setU q).setZ r) d none = .ok v ∧
      (structuredCurve C m s d iters ws)[i]? = some (elboCollapsedZ C m (s.setU q) d ((ws i).map (q.sample C.u))) ∧
      v ≤ structuredBound C m d q ∧ structuredBound C m d q ≤ log (evidence m d) ∧
      ∀ k : ℕ, k ≠ 0 → ∃ b : (Fin k → ι → ℝ) → ℝ,
        (∀ W, elboCollapsedZ C m (s.setU q) d (List.ofFn fun i => q.sample C.u (W i)) = .ok (b W)) ∧
        Integrable (fun W => (b W - structuredBound C m d q) ^ 2) (Spec.iid ι k) ∧
        ∫ W, (b W - structuredBound C m d q) ^ 2 ∂Spec.iid ι k = V / k := by
  have hl : (caCurve C m s d iters).length = (trackedCalls (fitMeanFieldCA C m s d iters).2).length := by rw [caCurve, List.length_map]
  refine ⟨by rw [hl, structuredCurve, List.length_map, List.length_zipIdx], fun i hi => ?_⟩
  rw [hl] at hi
  obtain ⟨p, hpi⟩ : ∃ p, (trackedCalls (fitMeanFieldCA C m s d iters).2)[i]? = some p := ⟨_, List.getElem?_eq_getElem hi⟩
  have hpp : p.u.prec.PosDef ∧ p.z.prec.PosDef := by
    have hmem : p ∈ (fitMeanFieldCA C m s d iters).2 := by
      have := List.mem_of_getElem? hpi
      obtain ⟨⟨x, n⟩, hx, rfl⟩ := List.mem_map.1 this
      exact List.fst_mem_of_mem_zipIdx (List.mem_filter.1 hx).1
    obtain ⟨j, -, hj, -⟩ := c23_loop C (m := m) s d iters
    rw [hj] at hmem
    obtain ⟨n, -, rfl⟩ := List.mem_map.1 hmem
    have it : ∀ (k : ℕ) (p : Pair ι κ), p.u.prec.PosDef ∧ p.z.prec.PosDef →
        ((caStep C m (constructDataTerms C m d))^[k] p).u.prec.PosDef ∧ ((caStep C m (constructDataTerms C m d))^[k] p).z.prec.PosDef := by
      intro k
      induction k with
      | zero => exact fun p hp => hp
      | succ k ih => exact fun p hp => ih _ ⟨(caStep_bound C h d p hp.1 hp.2).1, (caStep_bound C h d p hp.1 hp.2).2.1⟩
    exact it (n + 1) _ hp
  have e1 : ((s.setU p.u).setZ p.z).qU = p.u := if_pos rfl
  have e2 : (s.setU p.u).qU = p.u := if_pos rfl
  obtain ⟨v, h1, h2, h3⟩ := c171_structured C h ((s.setU p.u).setZ p.z) hs ⟨by rw [e1]; exact hpp.1, by
    rw [show ((s.setU p.u).setZ p.z).qZ = p.z from if_pos rfl]; exact hpp.2⟩ d
  obtain ⟨-, -, V, -, -, h4⟩ := c188_elbo C h (s.setU p.u) hs d (by rw [e2]; exact hpp.1)
  rw [e1] at h2 h3
  rw [e2] at h4
  refine ⟨p.u, p.z, v, V, hpi, ?_, h1, ?_, h2, h3, fun k hk => ?_⟩
  · rw [caCurve, List.getElem?_map, hpi, Option.map_some, h1]
  · rw [structuredCurve, List.getElem?_map, List.getElem?_zipIdx, hpi]
    simp
  · obtain ⟨b, a1, a2, a3, -⟩ := h4 k hk
    exact ⟨b, a1, a2, a3⟩

/-- The curves of the script, for a model with one inducing variable each, from any global random state. -/
example (C : Chols (Fin 1) (Fin 1)) (G : Gen σ (Fin 1) (Fin 1)) (g : σ) (d : List (ℝ × ℝ)) (ws : ℕ → List (Fin 1 → ℝ)) :
    let s : Posts (Fin 1) (Fin 1) := ⟨0, fun _ => (firstModel G g).1.u, fun _ => (firstModel G g).1.z⟩
    (caCurve C exInst s d 5000).length = (structuredCurve C exInst s d 5000 ws).length :=
  (c217_curves C exInst exInst_valid ⟨0, fun _ => (firstModel G g).1.u, fun _ => (firstModel G g).1.z⟩ rfl (c217_proper G g) d 5000 ws).1

end Gpcm.Compare
