import Verif.Props.CompareProps
import Verif.Props.SameOptimumProps

/-!
# Property C171: what the compared curves are bounds on
-/

open Matrix Real

namespace Gpcm.Compare

variable {ι κ : Type} [Fintype ι] [DecidableEq ι] [Fintype κ] [DecidableEq κ] (C : Chols ι κ) {m : Inst ι κ} {Θ : Type}

theorem evidence_le (C : Chols ι κ) (h : m.Valid) (d : List (ℝ × ℝ)) :
    log (evidence m d) ≤ d.length * (-(1 / 2) * log (2 * π * m.noise)) := by
  obtain ⟨g1, g2⟩ := integral_margU C h d
  obtain ⟨c, hc⟩ : ∃ c : ℝ, c = d.length * (-(1 / 2) * log (2 * π * m.noise)) := ⟨_, rfl⟩
  have hp : (⟨0, m.Ku⟩ : NatNormal ι).prec.PosDef := h.Ku
  obtain ⟨o1, o2⟩ := NatNormal.expect_one C.u hp
  have hle : evidence m d ≤ exp c := by
    rw [← g2, ← mul_one (exp c), ← o2, ← MeasureTheory.integral_const_mul]
    refine MeasureTheory.integral_mono g1 (o1.const_mul _) fun u => ?_
    have h1 := logZu_le C h d u
    rw [← hc] at h1
    beta_reduce
    rw [logMargU, logPrior_eq C.u h.Ku, ← exp_add]
    exact exp_le_exp.2 (by linarith)
  rw [← hc]
  exact (log_le_iff_le_exp (evidence_pos h d)).2 hle

theorem runningMax_le (l : List ℝ) (b : ℝ) (h : ∀ x ∈ l, x ≤ b) : ∀ x ∈ runningMax l, x ≤ b := by
  intro x hx
  obtain ⟨i, hi, rfl⟩ := List.getElem_of_mem hx
  exact h _ (List.mem_of_mem_take ((c129_best l).2.2 i hi).1)

/-- **C171** Every value of the curve of coordinate ascent is at most the best mean-field bound of the model, and this is at most the
logarithm of its evidence. -/
theorem c171_ca (h : m.Valid) (d : List (ℝ × ℝ)) : ∃ b : ℝ, b ≤ log (evidence m d) ∧
    (∃ p : Pair ι κ, p.u.prec.PosDef ∧ p.z.prec.PosDef ∧
      ∀ s : Posts ι κ, s.qi = 0 → s.qU = p.u → s.qZ = p.z → MeanField.elbo C m s d none = .ok b) ∧
    ∀ s : Posts ι κ, s.qi = 0 → s.Proper → ∀ iters, ∃ vals : List ℝ, caCurve C m s d iters = vals.map .ok ∧ ∀ v ∈ vals, v ≤ b := by
  obtain ⟨p, b, hp, hb, hmax, hev⟩ := c164_best C h d
  refine ⟨b, hev, ⟨p, hp.1, hp.2, fun s hs hu hz => (hb s hs hu hz).1⟩, fun s hs hps iters => ?_⟩
  obtain ⟨-, vals, -, hv, -, -⟩ := c129_curve C h s hs hps d iters
  refine ⟨vals, hv, fun v hmem => ?_⟩
  have : (Except.ok v : Except PyErr ℝ) ∈ caCurve C m s d iters := by
    rw [hv]
    exact List.mem_map_of_mem hmem
  obtain ⟨q, hq, he⟩ := List.mem_map.1 this
  obtain ⟨j, -, hj, -⟩ := c23_loop C (m := m) s d iters
  have hq' := (trackedCalls_sublist (fitMeanFieldCA C m s d iters).2).subset hq
  rw [hj] at hq'
  obtain ⟨i, -, rfl⟩ := List.mem_map.1 hq'
  have hprop : ∀ k, ((caStep C m (constructDataTerms C m d))^[k] ⟨s.qU, s.qZ⟩).Proper := fun k => by
    induction k with
    | zero => exact hps
    | succ k ih =>
      rw [Function.iterate_succ_apply']
      exact ⟨(caStep_bound C h d _ ih.1 ih.2).1, (caStep_bound C h d _ ih.1 ih.2).2.1⟩
  refine hmax _ ?_ ?_ none v he
  · exact hs
  · exact ⟨by rw [setZ_qU, setU_qU]; exact (hprop _).1, by rw [setZ_qZ]; exact (hprop _).2⟩

/-- **C171** If a gradient method never changed the hyper-parameters, then no value of its curve would exceed the best mean-field bound
of the model, neither for the bound itself nor for the collapsed bound. Missing: the script also trains the hyper-parameters, see
`c171_gradient_false`. -/
theorem c171_gradient_partial (M : Θ → Inst ι κ) (θ : Θ) (h : (M θ).Valid) (d : List (ℝ × ℝ)) : ∃ b : ℝ, b ≤ log (evidence (M θ) d) ∧
    (∃ s : Posts ι κ, s.qi = 0 ∧ s.Proper ∧ MeanField.elbo C (M θ) s d none = .ok b) ∧
    ∀ (collapsed : Option String) (points : List (Θ × Posts ι κ)), (∀ p ∈ points, p.1 = θ ∧ p.2.qi = 0 ∧ p.2.Proper) →
      ∀ vals : List ℝ, gradCurve C M d collapsed points = vals.map .ok → ∀ v ∈ runningMax vals, v ≤ b := by
  obtain ⟨p, b, hp, hb, hmax, hev⟩ := c164_best C h d
  refine ⟨b, hev, ⟨⟨0, fun _ => p.u, fun _ => p.z⟩, rfl, hp, (hb _ rfl rfl rfl).1⟩, fun c points hpts vals hv => ?_⟩
  refine runningMax_le _ _ fun v hmem => ?_
  have : (Except.ok v : Except PyErr ℝ) ∈ gradCurve C M d c points := by
    rw [hv]
    exact List.mem_map_of_mem hmem
  obtain ⟨q, hq, he⟩ := List.mem_map.1 this
  obtain ⟨h1, h2, h3⟩ := hpts q hq
  rw [h1] at he
  exact hmax _ h2 h3 c v he

/-- **C171** The structured curve: in expectation over its samples, the value shown for an iterate is at least the value that the curve of
coordinate ascent shows for the same iterate, and at most the logarithm of the evidence. -/
theorem c171_structured (h : m.Valid) (s : Posts ι κ) (hs : s.qi = 0) (hp : s.Proper) (d : List (ℝ × ℝ)) :
    ∃ v, MeanField.elbo C m s d none = .ok v ∧ v ≤ structuredBound C m d s.qU ∧ structuredBound C m d s.qU ≤ log (evidence m d) := by
  have eu : s.pU m = ⟨0, m.Ku⟩ := if_pos hs
  have ez : s.pZ m = ⟨0, m.Kz⟩ := if_pos hs
  exact ⟨_, rfl, by rw [eu, ez]; exact meanFieldBound_le C h d hp.1 hp.2, c97_structured C h d _ hp.1⟩

/-- **C171** As the script trains the hyper-parameters in the gradient methods but not in coordinate ascent, the curves are not bounds on
the same quantity. For every model and all data there is a noise to start from such that a curve that ends at the original noise, with
any posteriors whatever, ends above the logarithm of the evidence of the model it started from. Hence it is also above every value that
coordinate ascent and the structured scheme can show. -/
theorem c171_gradient_false (h : m.Valid) (d : List (ℝ × ℝ)) (hd : d ≠ []) (s : Posts ι κ) (hs : s.qi = 0) (hp : s.Proper)
    (collapsed : Option String) (hc : collapsed = none ∨ collapsed = some "z") :
    ∃ v0 : ℝ, 0 < v0 ∧ (m.withNoise v0).Valid ∧
      ∃ a b, gradCurve C m.withNoise d collapsed [(v0, s), (m.noise, s)] = [a, b].map .ok ∧
        log (evidence (m.withNoise v0) d) < b ∧ runningMax [a, b] = [a, b] := by
  have hb : ∀ w, ∃ b, MeanField.elbo C (m.withNoise w) s d collapsed = .ok b := fun w => by
    rcases hc with rfl | rfl
    · exact ⟨_, rfl⟩
    · exact ⟨_, rfl⟩
  obtain ⟨b, hb0⟩ := hb m.noise
  have hn : (0 : ℝ) < d.length := by exact_mod_cast List.length_pos_iff.2 hd
  have hpos : (0 : ℝ) < exp (2 * (|b| + 1) / d.length) / (2 * π) := by positivity
  obtain ⟨v0, hv0⟩ : ∃ v0, v0 = exp (2 * (|b| + 1) / d.length) / (2 * π) := ⟨_, rfl⟩
  rw [← hv0] at hpos
  have hval := Inst.Valid.withNoise h hpos
  obtain ⟨a, ha⟩ := hb v0
  have hlt : log (evidence (m.withNoise v0) d) < b := by
    refine (evidence_le C hval d).trans_lt ?_
    rw [show (m.withNoise v0).noise = v0 from rfl, hv0, mul_div_cancel₀ _ (by positivity), log_exp]
    have : (d.length : ℝ) * (-(1 / 2) * (2 * (|b| + 1) / d.length)) = -(|b| + 1) := by field_simp
    rw [this]
    linarith [neg_abs_le b]
  obtain ⟨b', hb', -, hall⟩ := c171_gradient_partial C m.withNoise v0 hval d
  have hab : a ≤ b := by
    obtain ⟨p, b1, -, -, hmax, hev⟩ := c164_best C hval d
    exact ((hmax s hs hp collapsed a ha).trans hev).trans hlt.le
  exact ⟨v0, hpos, hval, a, b, by simp [gradCurve, ha, hb0], hlt, by simp [runningMax, runningMaxFrom, hab]⟩

/-- The hypotheses can be met. -/
example (D : Chols (Fin 1) (Fin 1)) : ∃ v0 : ℝ, 0 < v0 ∧ (exInst.withNoise v0).Valid ∧
    ∃ a b, gradCurve D exInst.withNoise [(0, 1), (1, -1)] (some "z") [(v0, exPosts 0), (exInst.noise, exPosts 0)] = [a, b].map .ok ∧
      log (evidence (exInst.withNoise v0) [(0, 1), (1, -1)]) < b ∧ runningMax [a, b] = [a, b] :=
  c171_gradient_false D exInst_valid _ (by simp) (exPosts 0) rfl ⟨Matrix.PosDef.one, Matrix.PosDef.one⟩ _ (.inr rfl)

example (D : Chols (Fin 1) (Fin 1)) : ∃ b : ℝ, b ≤ log (evidence exInst [(0, 1), (1, -1)]) ∧
    ∃ vals : List ℝ, gradCurve D (fun _ : Unit => exInst) [(0, 1), (1, -1)] none [((), exPosts 0), ((), exPosts 0)] = vals.map .ok ∧
      vals.length = 2 ∧ ∀ v ∈ runningMax vals, v ≤ b := by
  obtain ⟨b, h1, -, h2⟩ := c171_gradient_partial D (fun _ : Unit => exInst) () exInst_valid [(0, 1), (1, -1)]
  obtain ⟨w, hw⟩ : ∃ w, MeanField.elbo D exInst (exPosts 0) [(0, 1), (1, -1)] none = .ok w := ⟨_, rfl⟩
  have he : gradCurve D (fun _ : Unit => exInst) [(0, 1), (1, -1)] none [((), exPosts 0), ((), exPosts 0)] = [w, w].map .ok := by
    simp [gradCurve, hw]
  refine ⟨b, h1, [w, w], he, rfl, h2 none _ (fun p hp => ?_) _ he⟩
  obtain rfl : p = ((), exPosts 0) := by simpa using hp
  exact ⟨rfl, rfl, Matrix.PosDef.one, Matrix.PosDef.one⟩

end Gpcm.Compare
