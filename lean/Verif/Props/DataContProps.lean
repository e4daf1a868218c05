import Verif.Lemmas.DataLimit
import Verif.Lemmas.CholCont
import Verif.Props.SessionProps

/-!
# Property C192: nearly equal data give nearly equal results
-/

set_option linter.unusedSectionVars false

open Matrix Real Filter Topology

namespace Gpcm

open Spec Reg

section
variable {ι κ : Type} [Fintype ι] [DecidableEq ι] [Fintype κ] [DecidableEq κ] (C : Chols ι κ) {α β : Type} {m : α → Inst ι κ}
  {m' : Inst ι κ} {l : Filter α}

namespace Lim

section
variable (h : Near l m m') {s : α → Posts ι κ} {s' : Posts ι κ} (hs : Approach l s s')
include h hs

theorem priorU : (∀ a, ((s a).pU (m a)).prec.PosDef) ∧ (s'.pU m').prec.PosDef ∧ Conv l (fun a => (s a).pU (m a)) (s'.pU m') := by
  by_cases h0 : s'.qi = 0
  · have e : ∀ a, (s a).pU (m a) = ⟨0, (m a).Ku⟩ := fun a => if_pos ((hs.depth a).trans h0)
    have e' : s'.pU m' = ⟨0, m'.Ku⟩ := if_pos h0
    simp only [e, e']
    exact ⟨fun a => (h.valid a).Ku, h.limit.Ku, tendsto_const_nhds, h.Ku⟩
  · have e : ∀ a, (s a).pU (m a) = (s a).qu (s'.qi - 1) := fun a => by
      rw [Posts.pU, if_neg (by rw [hs.depth a]; exact h0), hs.depth a]
    have e' : s'.pU m' = s'.qu (s'.qi - 1) := if_neg h0
    simp only [e, e']
    exact ⟨fun a => (hs.proper a _).1, (hs.limit _).1, hs.u _⟩

theorem priorZ : (∀ a, ((s a).pZ (m a)).prec.PosDef) ∧ (s'.pZ m').prec.PosDef ∧ Conv l (fun a => (s a).pZ (m a)) (s'.pZ m') := by
  by_cases h0 : s'.qi = 0
  · have e : ∀ a, (s a).pZ (m a) = ⟨0, (m a).Kz⟩ := fun a => if_pos ((hs.depth a).trans h0)
    have e' : s'.pZ m' = ⟨0, m'.Kz⟩ := if_pos h0
    simp only [e, e']
    exact ⟨fun a => (h.valid a).Kz, h.limit.Kz, tendsto_const_nhds, h.Kz⟩
  · have e : ∀ a, (s a).pZ (m a) = (s a).qz (s'.qi - 1) := fun a => by
      rw [Posts.pZ, if_neg (by rw [hs.depth a]; exact h0), hs.depth a]
    have e' : s'.pZ m' = s'.qz (s'.qi - 1) := if_neg h0
    simp only [e, e']
    exact ⟨fun a => (hs.proper a _).2, (hs.limit _).2, hs.z _⟩

end

theorem map_times {γ δ : Type} [TopologicalSpace δ] (xs : List γ) {f : α → γ → δ} {f' : γ → δ}
    (hf : ∀ i ∈ xs, Tendsto (fun a => f a i) l (𝓝 (f' i))) : Tendsto (fun a => xs.map (f a)) l (𝓝 (xs.map f')) := by
  induction xs with
  | nil => exact tendsto_const_nhds
  | cons i xs ih => exact (hf i (by simp)).cons (ih fun j hj => hf j (by simp [hj]))

theorem toMeanVar (h : Near l m m') {f : α → ℝ × ℝ} {f' : ℝ × ℝ} (hf : Tendsto f l (𝓝 f')) :
    Tendsto (fun a => Gpcm.toMeanVar (m a) (f a)) l (𝓝 (Gpcm.toMeanVar m' f')) := by
  have h1 := (continuous_fst.tendsto _).comp hf
  have h2 := (continuous_snd.tendsto _).comp hf
  exact h1.prodMk_nhds ((h2.sub (h1.pow 2)).add h.noise)

end Lim

section
variable (h : Near l m m') {idx : List β} {t : α → β → ℝ} {t' : β → ℝ} (ht : ∀ i ∈ idx, NearAt l m m' (fun a => t a i) (t' i))
  {y : α → β → ℝ} {y' : β → ℝ} (hy : ∀ i ∈ idx, Tendsto (fun a => y a i) l (𝓝 (y' i)))
include h ht hy

namespace Lim

theorem bound {pu qu : α → NatNormal ι} {pu' qu' : NatNormal ι} {pz qz : α → NatNormal κ}
    {pz' qz' : NatNormal κ} (a1 : ∀ a, (pu a).prec.PosDef) (a2 : pu'.prec.PosDef) (a3 : Conv l pu pu')
    (b1 : ∀ a, (qu a).prec.PosDef) (b2 : qu'.prec.PosDef) (b3 : Conv l qu qu')
    (c1 : ∀ a, (pz a).prec.PosDef) (c2 : pz'.prec.PosDef) (c3 : Conv l pz pz')
    (d1 : ∀ a, (qz a).prec.PosDef) (d2 : qz'.prec.PosDef) (d3 : Conv l qz qz') :
    Tendsto (fun a => Gpcm.meanFieldBound C (m a) (constructDataTerms C (m a) (data idx (t a) (y a))) (pu a) (qu a) (pz a) (qz a)) l
      (𝓝 (Gpcm.meanFieldBound C m' (constructDataTerms C m' (data idx t' y')) pu' qu' pz' qz')) := by
  simp only [meanFieldBound_eq]
  exact (Tendsto.sub (sumEll C h ht hy (mean C.u b1 b2 b3) (m2 C.u b1 b2 b3) (mean C.z d1 d2 d3) (m2 C.z d1 d2 d3))
    (kl C.u b1 b2 b3 a1 a2 a3)).sub (kl C.z d1 d2 d3 c1 c2 c3)

theorem logZu {u : α → ι → ℝ} {u' : ι → ℝ} (hu : Tendsto u l (𝓝 u')) :
    Tendsto (fun a => Gpcm.logZu C (m a) (constructDataTerms C (m a) (data idx (t a) (y a))) (u a)) l
      (𝓝 (Gpcm.logZu C m' (constructDataTerms C m' (data idx t' y')) u')) := by
  have hq := qzOptimal C h ht hy hu
  have p1 := fun a => qzOptimal_posDef C (h.valid a) (data idx (t a) (y a)) (u a)
  have p2 := qzOptimal_posDef C h.limit (data idx t' y') u'
  have hA : Tendsto (fun a => (constructDataTerms C (m a) (data idx (t a) (y a))).ASum) l
      (𝓝 (constructDataTerms C m' (data idx t' y')).ASum) := by
    have e : ∀ (m : Inst ι κ) (t y : β → ℝ), (constructDataTerms C m (data idx t y)).ASum = (idx.map fun i => Gpcm.ptA C m (t i)).sum :=
      fun m t y => by
        rw [show (constructDataTerms C m (data idx t y)).ASum = _ from constructTerms_ASum C m _, data, List.map_map, List.map_map]
        rfl
    simp only [e]
    exact _root_.tendsto_list_sum idx fun i hi => ptA C h (ht i hi)
  have hc : Tendsto (fun a => (constructDataTerms C (m a) (data idx (t a) (y a))).cSum) l
      (𝓝 (constructDataTerms C m' (data idx t' y')).cSum) := by
    have e : ∀ (m : Inst ι κ) (t y : β → ℝ), (constructDataTerms C m (data idx t y)).cSum = (idx.map fun i => Gpcm.ptC C m (t i)).sum :=
      fun m t y => by
        rw [show (constructDataTerms C m (data idx t y)).cSum = _ from constructTerms_cSum C m _, data, List.map_map, List.map_map]
        rfl
    simp only [e]
    exact _root_.tendsto_list_sum idx fun i hi => ptC C h (ht i hi)
  have hn : ∀ (m : Inst ι κ) (t y : β → ℝ), (constructDataTerms C m (data idx t y)).n = idx.length := fun m t y => by
    simp [constructDataTerms, constructTerms, data]
  have hy2 : Tendsto (fun a => ((constructDataTerms C (m a) (data idx (t a) (y a))).y.map fun y => y ^ 2).sum) l
      (𝓝 ((constructDataTerms C m' (data idx t' y')).y.map fun y => y ^ 2).sum) := by
    simp only [constructDataTerms, data, List.map_map, Function.comp_def]
    exact _root_.tendsto_list_sum idx fun i hi => (hy i hi).pow 2
  simp only [Gpcm.logZu, hn]
  have hpos := h.limit.noise
  refine Tendsto.const_mul _ (Tendsto.add (Tendsto.sub (Tendsto.add (Tendsto.sub ?_ ?_) ?_) (logdet hq p2)) (iqf C.z p1 p2 hq))
  · exact ((h.noise.const_mul _).log (by positivity)).const_mul _
  · exact ((hy2.add (tendsto_dot hu (tendsto_mulVec hA hu))).add hc).div h.noise hpos.ne'
  · exact (tendsto_det h.Kz).log h.limit.Kz.det_pos.ne'

end Lim

/-- **C192** If models, posteriors, times and observations approach limits, then so do the mean-field bounds, collapsed or not. -/
theorem c192_mean_field_bound {s : α → Posts ι κ} {s' : Posts ι κ} (hs : Approach l s s') {c : Option String}
    (hc : c = none ∨ c = some "z" ∨ c = some "u") :
    ∃ (v : α → ℝ) (v' : ℝ), (∀ a, MeanField.elbo C (m a) (s a) (data idx (t a) (y a)) c = .ok (v a)) ∧
      MeanField.elbo C m' s' (data idx t' y') c = .ok v' ∧ Tendsto v l (𝓝 v') := by
  obtain ⟨a1, a2, a3⟩ := Lim.priorU h hs
  obtain ⟨b1, b2, b3⟩ := Lim.priorZ h hs
  obtain ⟨c1, c2, c3⟩ := hs.postU
  obtain ⟨d1, d2, d3⟩ := hs.postZ
  rcases hc with rfl | rfl | rfl
  · exact ⟨_, _, fun _ => rfl, rfl, Lim.bound C h ht hy a1 a2 a3 c1 c2 c3 b1 b2 b3 d1 d2 d3⟩
  · exact ⟨_, _, fun _ => rfl, rfl, Lim.bound C h ht hy a1 a2 a3 c1 c2 c3 b1 b2 b3
      (fun a => qzOptimalMF_posDef C (h.valid a) _ (c1 a)) (qzOptimalMF_posDef C h.limit _ c2) (Lim.qzOptimalMF C h ht hy c1 c2 c3)⟩
  · exact ⟨_, _, fun _ => rfl, rfl, Lim.bound C h ht hy a1 a2 a3
      (fun a => quOptimalMF_posDef C (h.valid a) _ (d1 a)) (quOptimalMF_posDef C h.limit _ d2)
      (Lim.quOptimalMF C h ht hy d1 d2 d3) b1 b2 b3 d1 d2 d3⟩

/-- **C192** So does the bound of the structured approximation, for given samples. -/
theorem c192_structured_bound {s : α → Posts ι κ} {s' : Posts ι κ} (hs : Approach l s s') {γ : Type} {js : List γ} (hj : js ≠ [])
    {u : α → γ → ι → ℝ} {u' : γ → ι → ℝ} (hu : ∀ j ∈ js, Tendsto (fun a => u a j) l (𝓝 (u' j))) :
    ∃ (v : α → ℝ) (v' : ℝ), (∀ a, elboCollapsedZ C (m a) (s a) (data idx (t a) (y a)) (js.map (u a)) = .ok (v a)) ∧
      elboCollapsedZ C m' s' (data idx t' y') (js.map u') = .ok v' ∧ Tendsto v l (𝓝 v') := by
  obtain ⟨a1, a2, a3⟩ := Lim.priorU h hs
  obtain ⟨c1, c2, c3⟩ := hs.postU
  have hl : ∀ u : γ → ι → ℝ, ¬(js.map u).length = 0 := fun u => by simpa using hj
  refine ⟨_, _, fun _ => if_neg (hl _), if_neg (hl _), ?_⟩
  simp only [List.map_map, List.length_map, Function.comp_def]
  exact ((_root_.tendsto_list_sum js fun j hj => Lim.logZu C h ht hy (hu j hj)).div_const _).sub (Lim.kl C.u c1 c2 c3 a1 a2 a3)

/-- **C192** So do the predictions of the structured approximation, for given samples. -/
theorem c192_structured_predict {γ : Type} {js : List γ} (hj : js ≠ [])
    {u : α → γ → ι → ℝ} {u' : γ → ι → ℝ} (hu : ∀ j ∈ js, Tendsto (fun a => u a j) l (𝓝 (u' j)))
    {δ : Type} {xs : List δ} {x : α → δ → ℝ} {x' : δ → ℝ} (hx : ∀ i ∈ xs, NearAt l m m' (fun a => x a i) (x' i)) :
    ∃ (v : α → List (ℝ × ℝ)) (v' : List (ℝ × ℝ)),
      (∀ a, Structured.predict C (m a) (some (constructDataTerms C (m a) (data idx (t a) (y a)))) (xs.map (x a)) (js.map (u a)) =
        .ok (v a)) ∧
      Structured.predict C m' (some (constructDataTerms C m' (data idx t' y'))) (xs.map x') (js.map u') = .ok v' ∧
      Tendsto v l (𝓝 v') := by
  have hl : ∀ u : γ → ι → ℝ, js.map u ≠ [] := fun u => by simpa using hj
  refine ⟨_, _, fun a => structured_predict_map C (m a) _ (hl _) _, structured_predict_map C m' _ (hl _) _, ?_⟩
  simp only [List.map_map, Function.comp_def]
  refine Lim.map_times xs fun i hi => Lim.toMeanVar h ?_
  have hm := fun j (hj : j ∈ js) => Lim.ptMoments C h (hx i hi) (hu j hj) (tendsto_vecMulVec (hu j hj))
    (Lim.mean C.z (fun a => qzOptimal_posDef C (h.valid a) _ (u a j)) (qzOptimal_posDef C h.limit _ (u' j)) (Lim.qzOptimal C h ht hy (hu j hj)))
    (Lim.m2 C.z (fun a => qzOptimal_posDef C (h.valid a) _ (u a j)) (qzOptimal_posDef C h.limit _ (u' j)) (Lim.qzOptimal C h ht hy (hu j hj)))
  have h1 := _root_.tendsto_list_sum js fun j hj => (continuous_fst.tendsto _).comp (hm j hj)
  have h2 := _root_.tendsto_list_sum js fun j hj => (continuous_snd.tendsto _).comp (hm j hj)
  simp only [List.length_map]
  exact (h1.div_const _).prodMk_nhds (h2.div_const _)

theorem ConvPair.caStep {p : α → Pair ι κ} {p' : Pair ι κ} (hp : ConvPair l p p') :
    ConvPair l (fun a => Gpcm.caStep C (m a) (constructDataTerms C (m a) (data idx (t a) (y a))) (p a))
      (Gpcm.caStep C m' (constructDataTerms C m' (data idx t' y')) p') := by
  have h1 := fun a => quOptimalMF_posDef C (h.valid a) (data idx (t a) (y a)) (hp.proper a).2
  have h2 := quOptimalMF_posDef C h.limit (data idx t' y') hp.limit.2
  have h3 := Lim.quOptimalMF C h ht hy (fun a => (hp.proper a).2) hp.limit.2 hp.z
  exact ⟨fun a => ⟨h1 a, qzOptimalMF_posDef C (h.valid a) _ (h1 a)⟩, ⟨h2, qzOptimalMF_posDef C h.limit _ h2⟩, h3,
    Lim.qzOptimalMF C h ht hy h1 h2 h3⟩

/-- **C192** So do the fits by coordinate ascent, unless the fit of the limit is at the threshold of its stopping rule. -/
theorem c192_fit_partial {s : α → Posts ι κ} {s' : Posts ι κ} (hs : Approach l s s') (iters : ℤ)
    (hd : ∀ j < iters.toNat, Pair.diff ((caStep C m' (constructDataTerms C m' (data idx t' y')))^[j + 1] ⟨s'.qU, s'.qZ⟩)
      ((caStep C m' (constructDataTerms C m' (data idx t' y')))^[j] ⟨s'.qU, s'.qZ⟩) ≠ 1e-6) :
    Approach l (fun a => (fitMeanFieldCA C (m a) (s a) (data idx (t a) (y a)) iters).1)
      (fitMeanFieldCA C m' s' (data idx t' y') iters).1 := by
  obtain ⟨c1, c2, c3⟩ := hs.postU
  obtain ⟨d1, d2, d3⟩ := hs.postZ
  have hp : ConvPair l (fun a => (⟨(s a).qU, (s a).qZ⟩ : Pair ι κ)) ⟨s'.qU, s'.qZ⟩ := ⟨fun a => ⟨c1 a, d1 a⟩, ⟨c2, d2⟩, c3, d3⟩
  have hl := ConvPair.loop (fun h' => ConvPair.caStep C h ht hy h') iters.toNat hp hd
  have eu : ∀ a i, (fitMeanFieldCA C (m a) (s a) (data idx (t a) (y a)) iters).1.qu i = if i = s'.qi then (caLoop (caStep C (m a)
      (constructDataTerms C (m a) (data idx (t a) (y a)))) Pair.diff iters.toNat ⟨(s a).qU, (s a).qZ⟩).1.u else (s a).qu i := fun a i => by
    rw [← hs.depth a]
    rfl
  have ez : ∀ a i, (fitMeanFieldCA C (m a) (s a) (data idx (t a) (y a)) iters).1.qz i = if i = s'.qi then (caLoop (caStep C (m a)
      (constructDataTerms C (m a) (data idx (t a) (y a)))) Pair.diff iters.toNat ⟨(s a).qU, (s a).qZ⟩).1.z else (s a).qz i := fun a i => by
    rw [← hs.depth a]
    rfl
  have eu' : ∀ i, (fitMeanFieldCA C m' s' (data idx t' y') iters).1.qu i = if i = s'.qi then (caLoop (caStep C m'
      (constructDataTerms C m' (data idx t' y'))) Pair.diff iters.toNat ⟨s'.qU, s'.qZ⟩).1.u else s'.qu i := fun i => rfl
  have ez' : ∀ i, (fitMeanFieldCA C m' s' (data idx t' y') iters).1.qz i = if i = s'.qi then (caLoop (caStep C m'
      (constructDataTerms C m' (data idx t' y'))) Pair.diff iters.toNat ⟨s'.qU, s'.qZ⟩).1.z else s'.qz i := fun i => rfl
  refine ⟨hs.depth, fun a i => ?_, fun i => ?_, fun i => ?_, fun i => ?_, fun i => ?_, fun i => ?_⟩
  all_goals simp only [eu, ez, eu', ez']; by_cases hi : i = s'.qi
  all_goals simp only [hi, if_true, if_false]
  · exact hl.proper a
  · exact hs.proper a i
  · exact hl.limit
  · exact hs.limit i
  · exact hl.u.lam
  · exact hs.quLam i
  · exact hl.u.prec
  · exact hs.quPrec i
  · exact hl.z.lam
  · exact hs.qzLam i
  · exact hl.z.prec
  · exact hs.qzPrec i

end

/-- **C192** So do the predictions of the mean-field approximations. -/
theorem c192_mean_field_predict (h : Near l m m') {s : α → Posts ι κ} {s' : Posts ι κ} (hs : Approach l s s')
    {δ : Type} {xs : List δ} {x : α → δ → ℝ} {x' : δ → ℝ} (hx : ∀ i ∈ xs, NearAt l m m' (fun a => x a i) (x' i)) :
    Tendsto (fun a => MeanField.predict C (m a) (s a) (xs.map (x a))) l (𝓝 (MeanField.predict C m' s' (xs.map x'))) := by
  obtain ⟨a1, a2, a3⟩ := Lim.priorU h hs
  obtain ⟨b1, b2, b3⟩ := Lim.priorZ h hs
  simp only [meanField_predict_map, List.map_map, Function.comp_def]
  exact Lim.map_times xs fun i hi => Lim.toMeanVar h (Lim.ptMoments C h (hx i hi) (Lim.mean C.u a1 a2 a3) (Lim.m2 C.u a1 a2 a3)
    (Lim.mean C.z b1 b2 b3) (Lim.m2 C.z b1 b2 b3))

/-! ## Sampling -/

/-- **C192** The Cholesky factor of a matrix depends continuously on the matrix. -/
theorem c192_cholesky {n : ℕ} (c : CholOracle (Fin n)) (hc : Scripts.IsCholesky c) : ContinuousOn c.chol {A | A.PosDef} :=
  cholesky_continuous c hc

theorem Lim.sample {n : Type} [Fintype n] [DecidableEq n] (c : CholOracle n) (hc : ContinuousOn c.chol {A | A.PosDef})
    {q : α → NatNormal n} {q' : NatNormal n} (hq : ∀ a, (q a).prec.PosDef) (hq' : q'.prec.PosDef) (h : Conv l q q') (w : n → ℝ) :
    Tendsto (fun a => (q a).sample c w) l (𝓝 (q'.sample c w)) := by
  have h1 : Tendsto (fun a => c.chol (q a).prec) l (𝓝 (c.chol q'.prec)) :=
    (hc q'.prec hq').tendsto.comp (tendsto_nhdsWithin_iff.2 ⟨h.prec, Eventually.of_forall hq⟩)
  simp only [NatNormal.sample, cholsolveVec_eq c hq', fun a => cholsolveVec_eq c (hq a)]
  exact tendsto_mulVec (tendsto_inv h.prec hq') ((tendsto_mulVec h1 tendsto_const_nhds).add h.lam)

section
variable (hu : ContinuousOn C.u.chol {A | A.PosDef}) (hz : ContinuousOn C.z.chol {A | A.PosDef}) (h : Near l m m') {idx : List β}
  {t : α → β → ℝ} {t' : β → ℝ} (ht : ∀ i ∈ idx, NearAt l m m' (fun a => t a i) (t' i))
  {y : α → β → ℝ} {y' : β → ℝ} (hy : ∀ i ∈ idx, Tendsto (fun a => y a i) l (𝓝 (y' i)))
include hu hz h ht hy

theorem Lim.sweep (w : (ι → ℝ) × (κ → ℝ)) {x : α → (ι → ℝ) × (κ → ℝ)} {x' : (ι → ℝ) × (κ → ℝ)} (hx : Tendsto x l (𝓝 x')) :
    Tendsto (fun a => gibbsSweep C (m a) (constructDataTerms C (m a) (data idx (t a) (y a))) w (x a)) l
      (𝓝 (gibbsSweep C m' (constructDataTerms C m' (data idx t' y')) w x')) := by
  have h1 := (continuous_snd.tendsto _).comp hx
  have h2 := Lim.sample C.u hu (fun a => quOptimal_posDef C (h.valid a) (data idx (t a) (y a)) (x a).2)
    (quOptimal_posDef C h.limit (data idx t' y') x'.2) (Lim.quOptimal C h ht hy h1) w.1
  exact h2.prodMk_nhds (Lim.sample C.z hz (fun a => qzOptimal_posDef C (h.valid a) (data idx (t a) (y a)) _)
    (qzOptimal_posDef C h.limit (data idx t' y') _) (Lim.qzOptimal C h ht hy h2) w.2)

/-- **C192** So does every state of the Gibbs chain, for given random numbers. -/
theorem c192_gibbs (W : ℕ → (ι → ℝ) × (κ → ℝ)) {x : α → (ι → ℝ) × (κ → ℝ)} {x' : (ι → ℝ) × (κ → ℝ)} (hx : Tendsto x l (𝓝 x')) (k : ℕ) :
    Tendsto (fun a => gibbsChain C (m a) (constructDataTerms C (m a) (data idx (t a) (y a))) W (x a) k) l
      (𝓝 (gibbsChain C m' (constructDataTerms C m' (data idx t' y')) W x' k)) := by
  induction k with
  | zero => exact hx
  | succ k ih => exact Lim.sweep C hu hz h ht hy _ ih

theorem Lim.session (W : ℕ → (ι → ℝ) × (κ → ℝ)) (n : ℕ) {x : α → (ι → ℝ) × (κ → ℝ)} {x' : (ι → ℝ) × (κ → ℝ)} (hx : Tendsto x l (𝓝 x'))
    (k : ℕ) : Tendsto (fun a => ((sessionSweep C (m a) W (data idx (t a) (y a)))^[k] (n, x a)).2) l
      (𝓝 ((sessionSweep C m' W (data idx t' y'))^[k] (n, x')).2) := by
  have e : ∀ (m : Inst ι κ) (d : List (ℝ × ℝ)) (k n : ℕ) (x : (ι → ℝ) × (κ → ℝ)),
      (sessionSweep C m W d)^[k] (n, x) = (n + k, gibbsChain C m (constructDataTerms C m d) (fun i => W (n + i)) x k) := by
    intro m d k n x
    induction k with
    | zero => rfl
    | succ k ih =>
      rw [Function.iterate_succ_apply', ih]
      rfl
  simp only [e]
  exact c192_gibbs C hu hz h ht hy _ hx k

/-- **C192** So do the predictions that the structured scheme makes after fitting and conditioning, for given random numbers. -/
theorem c192_structured_fit (W : ℕ → (ι → ℝ) × (κ → ℝ)) {s : α → Session ι κ} {s' : Session ι κ}
    (hs : Approach l (fun a => (s a).posts) s'.posts) (iters : ℤ) (hi : 2 ≤ iters) {ws : List (ι → ℝ)} (hw : ws ≠ [])
    {δ : Type} {xs : List δ} {x : α → δ → ℝ} {x' : δ → ℝ} (hx : ∀ i ∈ xs, NearAt l m m' (fun a => x a i) (x' i)) :
    ∃ (v : α → List (ℝ × ℝ)) (v' : List (ℝ × ℝ)),
      (∀ a, (((s a).fitStructured C (m a) W (data idx (t a) (y a)) iters).1.condition C (m a) (data idx (t a) (y a))).predictStructured
        C (m a) (xs.map (x a)) ws = .ok (v a)) ∧
      ((s'.fitStructured C m' W (data idx t' y') iters).1.condition C m' (data idx t' y')).predictStructured
        C m' (xs.map x') ws = .ok v' ∧ Tendsto v l (𝓝 v') := by
  obtain ⟨c1, c2, c3⟩ := hs.postU
  obtain ⟨d1, d2, d3⟩ := hs.postZ
  simp only [predict_fit_condition _ _ _ _ _ iters hi]
  have hx0 := (Lim.sample C.u hu c1 c2 c3 (W 0).1).prodMk_nhds (Lim.sample C.z hz d1 d2 d3 (W 0).2)
  have e : ∀ (m : Inst ι κ) (d : List (ℝ × ℝ)) (s : Session ι κ),
      ((storedSamples C m W d iters s.posts.qU s.posts.qZ).map Prod.fst).take (min 1000 ws.length) =
        ((List.range 1000).take (min 1000 ws.length)).map fun j => ((sessionSweep C m W d)^[(iters / 2).toNat +
          (j * (if 1000 < iters then iters / 1000 else 1 : ℤ).toNat + 1)] (1, s.posts.qU.sample C.u (W 0).1, s.posts.qZ.sample C.z (W 0).2)).2.1 :=
    fun m d s => by rw [storedSamples, List.map_map, ← List.map_take]; rfl
  simp only [e]
  have hlen : 0 < ws.length := List.length_pos_iff.2 hw
  have hne : (List.range 1000).take (min 1000 ws.length) ≠ [] := by
    rw [← List.length_pos_iff, List.length_take, List.length_range]
    omega
  exact c192_structured_predict C h ht hy hne (fun j _ => (continuous_fst.tendsto _).comp (Lim.session C hu hz h ht hy W 1 hx0 _)) hx

end

end

end Gpcm
