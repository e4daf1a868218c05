import Verif.Model.FitBound
import Verif.Props.SameOptimumProps
import Verif.Props.PredictProps

/-!
# Property C175: a mean-field fit never makes the bound worse
-/

open Matrix Real

namespace Gpcm

variable {ι κ : Type} [Fintype ι] [DecidableEq ι] [Fintype κ] [DecidableEq κ] (C : Chols ι κ) {Θ : Type}

/-- What is asked of a minimiser: it returns admissible values, and they are no worse than those that it started from. -/
def Spec.NeverWorse (min : Minimiser Θ ι) : Prop :=
  ∀ (F : Θ × NatNormal ι → Except PyErr ℝ) (n : ℤ) (p : Θ × NatNormal ι) (a : ℝ), p.2.prec.PosDef → F p = .ok a →
    (min F n p).2.prec.PosDef ∧ ∃ b, F (min F n p) = .ok b ∧ b ≤ a

/-- A fit took a model from `(θ, s)` to `r`: the posteriors are still admissible ones of a model that has not been conditioned, and the
bound did not decrease. -/
def Spec.Improved (M : Θ → Inst ι κ) (d : List (ℝ × ℝ)) (θ : Θ) (s : Posts ι κ) (r : Θ × Posts ι κ) : Prop :=
  r.2.qi = 0 ∧ r.2.Proper ∧
    ∃ a b, MeanField.elbo C (M θ) s d none = .ok a ∧ MeanField.elbo C (M r.1) r.2 d none = .ok b ∧ a ≤ b

variable {M : Θ → Inst ι κ}

theorem Spec.Improved.trans {d : List (ℝ × ℝ)} {θ : Θ} {s : Posts ι κ} {r q : Θ × Posts ι κ} (h1 : Spec.Improved C M d θ s r)
    (h2 : Spec.Improved C M d r.1 r.2 q) : Spec.Improved C M d θ s q := by
  obtain ⟨-, -, a, b, ha, hb, hab⟩ := h1
  obtain ⟨h3, h4, a', b', ha', hb', hab'⟩ := h2
  exact ⟨h3, h4, a, b', ha, hb', hab.trans ((Except.ok.inj (hb.symm.trans ha')).le.trans hab')⟩

theorem fitMeanFieldCA_proper {m : Inst ι κ} (h : m.Valid) {s : Posts ι κ} (hp : s.Proper) (d : List (ℝ × ℝ)) (k : ℤ) :
    (fitMeanFieldCA C m s d k).1.Proper := by
  have hinv := caLoop_inv (step := caStep C m (constructDataTerms C m d)) Pair.diff (P := fun p => p.u.prec.PosDef ∧ p.z.prec.PosDef)
    (fun p hp => ⟨(caStep_bound C h d p hp.1 hp.2).1, (caStep_bound C h d p hp.1 hp.2).2.1⟩) k.toNat (p := ⟨s.qU, s.qZ⟩) hp
  simp only [fitMeanFieldCA, Posts.Proper, setZ_qU, setU_qU, setZ_qZ]
  exact hinv

theorem improved_ca (h : ∀ θ, (M θ).Valid) (d : List (ℝ × ℝ)) (k : ℤ) (θ : Θ) (s : Posts ι κ) (hs : s.qi = 0) (hp : s.Proper) :
    Spec.Improved C M d θ s (θ, (fitMeanFieldCA C (M θ) s d k).1) :=
  ⟨hs, fitMeanFieldCA_proper C (h θ) hp d k, c22_improves C (h θ) s hs hp d k⟩

theorem collapsedPhase_value (h : ∀ θ, (M θ).Valid) {min : Minimiser Θ ι} (hmin : Spec.NeverWorse min) (d : List (ℝ × ℝ)) (k : ℤ) (θ : Θ)
    (s : Posts ι κ) (hs : s.qi = 0) (hp : s.Proper) :
    let r := collapsedPhase C M min d k θ s
    let e := min (collapsedObjective C M d s) (k / 5) (θ, s.qU)
    e.2.prec.PosDef ∧ r.2.qi = 0 ∧ r.2.Proper ∧ ∃ v w, collapsedObjective C M d s (θ, s.qU) = .ok (-v) ∧
      collapsedObjective C M d s e = .ok (-w) ∧ v ≤ w ∧ MeanField.elbo C (M r.1) r.2 d none = .ok w ∧
      MeanField.elbo C (M θ) s d (some "z") = .ok v := by
  intro r e
  have e0 : s.setU s.qU = s := by
    obtain ⟨qi, qu, qz⟩ := s
    simp only [Posts.setU, Posts.qU]
    congr 1
    funext i
    split_ifs with hi <;> simp [hi]
  have hobj : ∀ p : Θ × NatNormal ι, ∃ v, MeanField.elbo C (M p.1) (s.setU p.2) d (some "z") = .ok v := fun p => ⟨_, rfl⟩
  obtain ⟨v, hv⟩ := hobj (θ, s.qU)
  obtain ⟨w, hw⟩ := hobj e
  have hFv : collapsedObjective C M d s (θ, s.qU) = .ok (-v) := by
    unfold collapsedObjective
    rw [hv]
    rfl
  have hFw : collapsedObjective C M d s e = .ok (-w) := by
    unfold collapsedObjective
    rw [hw]
    rfl
  obtain ⟨hpd, b, hb, hle⟩ := hmin _ (k / 5) _ _ hp.1 hFv
  have hbw : b = -w := Except.ok.inj (hb.symm.trans hFw)
  have hpe : (s.setU e.2).Proper := ⟨by rw [setU_qU]; exact hpd, hp.2⟩
  have hval := elbo_collapse_z C (h e.1) (s := s.setU e.2) hs hpe d
  refine ⟨hpd, hs, ⟨hpe.1, ?_⟩, v, w, hFv, hFw, by linarith, ?_, ?_⟩
  · exact (setZ_qZ (s.setU e.2) _).symm ▸ qzOptimalMF_posDef C (h e.1) d hpe.1
  · exact hval.trans hw
  · rw [← hv]
    show _ = MeanField.elbo C (M θ) (s.setU s.qU) d (some "z")
    rw [e0]

theorem improved_collapsed (h : ∀ θ, (M θ).Valid) {min : Minimiser Θ ι} (hmin : Spec.NeverWorse min) (d : List (ℝ × ℝ)) (k : ℤ) (θ : Θ)
    (s : Posts ι κ) (hs : s.qi = 0) (hp : s.Proper) : Spec.Improved C M d θ s (collapsedPhase C M min d k θ s) := by
  obtain ⟨-, h1, h2, v, w, -, -, hvw, hw, hv⟩ := collapsedPhase_value C h hmin d k θ s hs hp
  obtain ⟨a, b, ha, hb, hab, -⟩ := c24_z C (h θ) s hs hp d
  exact ⟨h1, h2, a, w, ha, hw, hab.trans ((Except.ok.inj (hb.symm.trans hv)).le.trans hvw)⟩

/-- **C175** For a model that has not been conditioned, a mean-field fit that finishes never lowers the bound, for every scheme, every number
of iterations, every start and all data. Missing: conditioned models, see `c175_ca_false` and `c175_collapsed_false`. -/
theorem c175_never_worse_partial (h : ∀ θ, (M θ).Valid) {min : Minimiser Θ ι} (hmin : Spec.NeverWorse min) (f : Fit.MF) (d : List (ℝ × ℝ))
    (k : ℤ) (θ : Θ) (s : Posts ι κ) (hs : s.qi = 0) (hp : s.Proper) (r : Θ × Posts ι κ) (hr : fitMeanField C M min f d k θ s = .ok r) :
    Spec.Improved C M d θ s r := by
  cases f with
  | ca => exact Except.ok.inj hr ▸ improved_ca C h d k θ s hs hp
  | bfgs => simp [fitMeanField] at hr
  | caBfgs => simp [fitMeanField] at hr
  | collapsedBfgs => exact Except.ok.inj hr ▸ improved_collapsed C h hmin d k θ s hs hp
  | caCollapsedBfgs =>
    have h1 := improved_ca C h d k θ s hs hp
    have h2 := improved_collapsed C h hmin d k θ _ h1.1 h1.2.1
    exact Except.ok.inj hr ▸ (h1.trans C h2).trans C (improved_ca C h d k _ _ h2.1 h2.2.1)

/-- **C175** Nor does any sequence of fits to the same data, with any minimisers and any schemes. -/
theorem c175_sequence_partial (h : ∀ θ, (M θ).Valid) (d : List (ℝ × ℝ)) (l : List (Minimiser Θ ι × Fit.MF × ℤ))
    (hl : ∀ c ∈ l, Spec.NeverWorse c.1) (x r : Θ × Posts ι κ) (hs : x.2.qi = 0) (hp : x.2.Proper)
    (hr : l.foldlM (fun x c => fitMeanField C M c.1 c.2.1 d c.2.2 x.1 x.2) x = .ok r) : Spec.Improved C M d x.1 x.2 r := by
  induction l generalizing x with
  | nil =>
    obtain rfl : x = r := Except.ok.inj hr
    exact ⟨hs, hp, _, _, rfl, rfl, le_rfl⟩
  | cons c l ih =>
    rw [List.foldlM_cons] at hr
    cases hc : fitMeanField C M c.1 c.2.1 d c.2.2 x.1 x.2 with
    | error e =>
      rw [hc] at hr
      exact absurd hr (by rintro ⟨⟩)
    | ok y =>
      rw [hc] at hr
      have h1 := c175_never_worse_partial C h (hl c (by simp)) c.2.1 d c.2.2 x.1 x.2 hs hp y hc
      exact h1.trans C (ih (fun c hc => hl c (by simp [hc])) y h1.1 h1.2.1 hr)

/-- **C175** Nothing that the gradient phase reached is lost: after a collapsed scheme the bound of the model is the collapsed bound at the
values that the minimiser returned. -/
theorem c175_reached_partial (h : ∀ θ, (M θ).Valid) {min : Minimiser Θ ι} (hmin : Spec.NeverWorse min) (d : List (ℝ × ℝ)) (k : ℤ) (θ : Θ)
    (s : Posts ι κ) (hs : s.qi = 0) (hp : s.Proper) : ∃ r w, fitMeanField C M min .collapsedBfgs d k θ s = .ok r ∧
      collapsedObjective C M d s (min (collapsedObjective C M d s) (k / 5) (θ, s.qU)) = .ok (-w) ∧
      MeanField.elbo C (M r.1) r.2 d none = .ok w := by
  obtain ⟨-, -, -, v, w, -, h2, -, h4, -⟩ := collapsedPhase_value C h hmin d k θ s hs hp
  exact ⟨_, w, rfl, h2, h4⟩

/-- **C175** With coordinate ascent before and after, as by default, the bound is at least the collapsed bound there. -/
theorem c175_reached_default_partial (h : ∀ θ, (M θ).Valid) {min : Minimiser Θ ι} (hmin : Spec.NeverWorse min) (d : List (ℝ × ℝ)) (k : ℤ)
    (θ : Θ) (s : Posts ι κ) (hs : s.qi = 0) (hp : s.Proper) :
    let s1 := (fitMeanFieldCA C (M θ) s d k).1
    ∃ r w b, fitMeanField C M min .caCollapsedBfgs d k θ s = .ok r ∧
      collapsedObjective C M d s1 (min (collapsedObjective C M d s1) (k / 5) (θ, s1.qU)) = .ok (-w) ∧
      MeanField.elbo C (M r.1) r.2 d none = .ok b ∧ w ≤ b := by
  intro s1
  have h1 := improved_ca C h d k θ s hs hp
  obtain ⟨-, h3, h4, v, w, -, h2, -, h5, -⟩ := collapsedPhase_value C h hmin d k θ s1 h1.1 h1.2.1
  obtain ⟨-, -, a, b, ha, hb, hab⟩ := improved_ca C h d k _ _ h3 h4
  exact ⟨_, w, b, rfl, h2, hb, (Except.ok.inj (h5.symm.trans ha)).le.trans hab⟩

/-- The true maximiser over `q(u)` after conditioning starts from the current prior. -/
theorem bound_optimum_u {m : Inst ι κ} (h : m.Valid) (s : Posts ι κ) (hz : s.qZ.prec.PosDef) (hu : (s.pU m).prec.PosDef) (d : List (ℝ × ℝ)) :
    let ts := constructDataTerms C m d
    let o : NatNormal ι := (s.pU m).tilt m.noise (uQuad ts (s.qZ.m2 C.z)) (ts.iUzSum *ᵥ s.qZ.mean C.z)
    o.prec.PosDef ∧ ∀ q : NatNormal ι, q.prec.PosDef → ∃ a b,
      MeanField.elbo C m (s.setU q) d none = .ok a ∧ MeanField.elbo C m (s.setU o) d none = .ok b ∧ b - a = q.kl C.u o := by
  intro ts o
  have ho : o.prec.PosDef := tilt_posDef _ hu h.noise (uQuad_psd (ASum_psd C h d) (NatNormal.m2_psd C.z hz))
  have e : ∀ q, MeanField.elbo C m (s.setU q) d none = .ok (meanFieldBound C m ts (s.pU m) q (s.pZ m) s.qZ) := fun q => by
    have h2 : (s.setU q).pU m = s.pU m := by
      by_cases h0 : s.qi = 0
      · simp [Posts.pU, Posts.setU, h0]
      · simp [Posts.pU, Posts.setU, h0, show s.qi - 1 ≠ s.qi by omega]
    simp only [MeanField.elbo, h2, setU_qU]
    rfl
  exact ⟨ho, fun q hq => ⟨_, _, e _, e _, bound_gap_u C ts rfl hu hq ho⟩⟩

/-- A pair of posteriors that coordinate ascent does not change. -/
theorem exists_fixed {m : Inst ι κ} (h : m.Valid) (d : List (ℝ × ℝ)) : ∃ r : Pair ι κ, r.Proper ∧
    quOptimalMF C m (constructDataTerms C m d) r.z = r.u ∧ qzOptimalMF C m (constructDataTerms C m d) r.u = r.z := by
  obtain ⟨r, hr, hmax⟩ := pairBound_max C h d
  exact ⟨r, hr, best_fixed C h d hr hmax⟩

/-- Coordinate ascent from the second half of such a pair ends in the pair. -/
theorem fitCA_fixed {m : Inst ι κ} (d : List (ℝ × ℝ)) {r : Pair ι κ}
    (h1 : quOptimalMF C m (constructDataTerms C m d) r.z = r.u) (h2 : qzOptimalMF C m (constructDataTerms C m d) r.u = r.z)
    (s : Posts ι κ) (u : NatNormal ι) {k : ℤ} (hk : 0 < k) :
    (fitMeanFieldCA C m ((s.setZ r.z).setU u) d k).1 = (s.setZ r.z).setU r.u := by
  have hstep : ∀ u, caStep C m (constructDataTerms C m d) ⟨u, r.z⟩ = r := fun u => by
    unfold caStep
    simp only
    rw [h1, h2]
  obtain ⟨j, hj⟩ : ∃ j : ℕ, k.toNat = j + 1 := ⟨k.toNat - 1, by omega⟩
  have hloop : ∀ j : ℕ, (caLoop (caStep C m (constructDataTerms C m d)) Pair.diff j r).1 = r := fun j =>
    caLoop_inv (P := fun p => p = r) Pair.diff (fun p hp => by rw [hp]; exact hstep r.u) _ rfl
  have e : (caLoop (caStep C m (constructDataTerms C m d)) Pair.diff (j + 1) ⟨u, r.z⟩).1 = r := by
    simp only [caLoop, hstep]
    split_ifs
    · rfl
    · exact hloop j
  have eU : ((s.setZ r.z).setU u).qU = u := setU_qU _ _
  have eZ : ((s.setZ r.z).setU u).qZ = r.z := setZ_qZ s _
  unfold fitMeanFieldCA
  simp only [hj, eU, eZ, e]
  simp only [Posts.setU, Posts.setZ]
  congr 1 <;> funext i <;> by_cases hi : i = s.qi <;> simp [hi]

/-- **C175 is false** for conditioned models: whatever the data and the number of iterations, if the previous posterior over `u` is not the
original prior, then there are posteriors from which a fit by coordinate ascent lowers the bound. The same holds for the default scheme
with a minimiser that returns its start. -/
theorem c175_ca_false (h : ∀ θ, (M θ).Valid) (d : List (ℝ × ℝ)) {k : ℤ} (hk : 0 < k) (θ : Θ) (s : Posts ι κ)
    (hu : (s.pU (M θ)).prec.PosDef) (hne : s.pU (M θ) ≠ ⟨0, (M θ).Ku⟩) : ∃ (qu : NatNormal ι) (qz : NatNormal κ) (a b : ℝ),
      qu.prec.PosDef ∧ qz.prec.PosDef ∧ MeanField.elbo C (M θ) ((s.setZ qz).setU qu) d none = .ok a ∧ b < a ∧
      ∀ f, f = .ca ∨ f = .caCollapsedBfgs → ∃ r, fitMeanField C M (fun _ _ p => p) f d k θ ((s.setZ qz).setU qu) = .ok r ∧
        MeanField.elbo C (M r.1) r.2 d none = .ok b := by
  obtain ⟨r, hr, h1, h2⟩ := exists_fixed C (h θ) d
  have hpU : (s.setZ r.z).pU (M θ) = s.pU (M θ) := rfl
  obtain ⟨ho, hgap⟩ := bound_optimum_u C (h θ) (s.setZ r.z) (by rw [setZ_qZ]; exact hr.2) (by rw [hpU]; exact hu) d
  rw [hpU, setZ_qZ] at ho hgap
  obtain ⟨o, hoe⟩ : ∃ o, o = (s.pU (M θ)).tilt (M θ).noise (uQuad (constructDataTerms C (M θ) d) (r.z.m2 C.z))
    ((constructDataTerms C (M θ) d).iUzSum *ᵥ r.z.mean C.z) := ⟨_, rfl⟩
  rw [← hoe] at ho hgap
  obtain ⟨b, a, hb, ha, hk'⟩ := hgap r.u hr.1
  have hlt : b < a := by
    have h0 := c18_nonneg C.u hr.1 ho
    refine lt_of_le_of_ne (by linarith) fun hab => hne ?_
    have e := (c18_zero_iff C.u hr.1 ho).1 (by linarith)
    rw [← h1, quOptimalMF_eq, hoe] at e
    have l := congrArg NatNormal.lam e
    have p := congrArg NatNormal.prec e
    simp only [NatNormal.tilt] at l p
    exact (NatNormal.ext (add_right_cancel l) (add_right_cancel p)).symm
  refine ⟨o, r.z, a, b, ho, hr.2, ha, hlt, fun f hf => ?_⟩
  have hca := fitCA_fixed C d h1 h2 s o hk
  rcases hf with rfl | rfl
  · exact ⟨_, rfl, by rw [← hb]; simp only [hca]⟩
  · refine ⟨_, rfl, ?_⟩
    have hset : ∀ q : NatNormal ι, (((s.setZ r.z).setU r.u).setU q).setZ r.z = (s.setZ r.z).setU q := fun q => by
      simp only [Posts.setU, Posts.setZ]
      congr 1 <;> funext i <;> by_cases hi : i = s.qi <;> simp [hi]
    have e1 : collapsedPhase C M (fun _ _ p => p) d k θ ((s.setZ r.z).setU r.u) = (θ, (s.setZ r.z).setU r.u) := by
      unfold collapsedPhase
      simp only [setU_qU, h2, hset]
    rw [← hb]
    simp only [hca, e1, fitCA_fixed C d h1 h2 s r.u hk]

/-- **C175 is false** for conditioned models: the collapsed scheme replaces `q(z)` by a value that ignores the previous posterior over `z`.
From any posterior over `u`, if the previous posterior over `z` is not the original prior, there is a posterior over `z` from which the fit
lowers the bound when the minimiser returns its start. -/
theorem c175_collapsed_false (h : ∀ θ, (M θ).Valid) (d : List (ℝ × ℝ)) (k : ℤ) (θ : Θ) (s : Posts ι κ) (hp : s.qU.prec.PosDef)
    (hz : (s.pZ (M θ)).prec.PosDef) (hne : s.pZ (M θ) ≠ ⟨0, (M θ).Kz⟩) : ∃ (qz : NatNormal κ) (a b : ℝ) (r : Θ × Posts ι κ),
      qz.prec.PosDef ∧ MeanField.elbo C (M θ) (s.setZ qz) d none = .ok a ∧ b < a ∧
      fitMeanField C M (fun _ _ p => p) .collapsedBfgs d k θ (s.setZ qz) = .ok r ∧ MeanField.elbo C (M r.1) r.2 d none = .ok b := by
  have hn := mt (c36_optimal_iff_partial C (h θ) s hp hz d).1 hne
  push Not at hn
  obtain ⟨q, hq, hn⟩ := hn
  obtain ⟨b, hb⟩ : ∃ b, MeanField.elbo C (M θ) (s.setZ (qzOptimalMF C (M θ) (constructDataTerms C (M θ) d) s.qU)) d none = .ok b :=
    ⟨_, rfl⟩
  refine ⟨q, _, b, _, hq, rfl, hn _ _ rfl hb, rfl, ?_⟩
  rw [← hb]
  have hset : ((s.setZ q).setU s.qU).setZ (qzOptimalMF C (M θ) (constructDataTerms C (M θ) d) s.qU) =
      s.setZ (qzOptimalMF C (M θ) (constructDataTerms C (M θ) d) s.qU) := by
    obtain ⟨qi, qu, qz⟩ := s
    simp only [Posts.setU, Posts.setZ, Posts.qU]
    congr 1 <;> funext i <;> split_ifs with hi <;> simp [hi]
  unfold collapsedPhase
  simp only [setU_qU, setZ_qU, hset]

theorem stay_neverWorse : Spec.NeverWorse (fun _ _ p => p : Minimiser Θ ι) := fun _ _ _ a hp ha => ⟨hp, a, ha, le_rfl⟩

/-- The hypotheses can be met. -/
example (D : Chols (Fin 1) (Fin 1)) : ∃ r, fitMeanField D (fun _ : Unit => exInst) (fun _ _ p => p) .caCollapsedBfgs [(0, 1), (1, -1)] 5000 ()
    (exPosts 0) = .ok r ∧ Spec.Improved D (fun _ : Unit => exInst) [(0, 1), (1, -1)] () (exPosts 0) r :=
  ⟨_, rfl, c175_never_worse_partial D (fun _ => exInst_valid) stay_neverWorse .caCollapsedBfgs _ _ () (exPosts 0) rfl
    ⟨Matrix.PosDef.one, Matrix.PosDef.one⟩ _ rfl⟩

/-- So can those of the refutations. -/
example (D : Chols (Fin 1) (Fin 1)) : ∃ (qu qz : NatNormal (Fin 1)) (a b : ℝ), qu.prec.PosDef ∧ qz.prec.PosDef ∧
    MeanField.elbo D exInst (((exPosts 1).setZ qz).setU qu) [(0, 3)] none = .ok a ∧ b < a ∧
    ∀ f, f = .ca ∨ f = .caCollapsedBfgs → ∃ r, fitMeanField D (fun _ : Unit => exInst) (fun _ _ p => p) f [(0, 3)] 5000 ()
      (((exPosts 1).setZ qz).setU qu) = .ok r ∧ MeanField.elbo D exInst r.2 [(0, 3)] none = .ok b :=
  c175_ca_false D (fun _ => exInst_valid) [(0, 3)] (by norm_num) () (exPosts 1) Matrix.PosDef.one fun e => by
    have := congrFun (congrArg NatNormal.lam e) 0
    simp [Posts.pU, exPosts] at this

example (D : Chols (Fin 1) (Fin 1)) : ∃ (qz : NatNormal (Fin 1)) (a b : ℝ) (r : Unit × Posts (Fin 1) (Fin 1)), qz.prec.PosDef ∧
    MeanField.elbo D exInst ((exPosts 1).setZ qz) [(0, 3)] none = .ok a ∧ b < a ∧
    fitMeanField D (fun _ : Unit => exInst) (fun _ _ p => p) .collapsedBfgs [(0, 3)] 5000 () ((exPosts 1).setZ qz) = .ok r ∧
    MeanField.elbo D exInst r.2 [(0, 3)] none = .ok b :=
  c175_collapsed_false D (fun _ => exInst_valid) [(0, 3)] 5000 () (exPosts 1) Matrix.PosDef.one Matrix.PosDef.one fun e => by
    have := congrFun (congrArg NatNormal.lam e) 0
    simp [Posts.pZ, exPosts] at this

end Gpcm
