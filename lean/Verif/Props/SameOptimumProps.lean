import Verif.Props.LearnedNoiseProps
import Verif.Props.BestProps

/-!
# Property C169: collapsing does not change what is best
-/

open Matrix Real

namespace Gpcm

variable {ι κ : Type} [Fintype ι] [DecidableEq ι] [Fintype κ] [DecidableEq κ] (C : Chols ι κ) {Θ : Type}

/-- The hyper-parameters `θ` and the posteriors `s` are best for the bound with the argument `collapsed`, among all admissible
hyper-parameters and all normal posteriors of a model that has not been conditioned. -/
def Spec.Best (M : Θ → Inst ι κ) (d : List (ℝ × ℝ)) (collapsed : Option String) (θ : Θ) (s : Posts ι κ) : Prop :=
  ∃ b, MeanField.elbo C (M θ) s d collapsed = .ok b ∧
    ∀ (θ' : Θ) (s' : Posts ι κ), s'.qi = 0 → s'.Proper → ∃ a, MeanField.elbo C (M θ') s' d collapsed = .ok a ∧ a ≤ b

variable {M : Θ → Inst ι κ}

theorem elbo_setZ (m : Inst ι κ) {s : Posts ι κ} (hs : s.qi = 0) (q : NatNormal κ) (d : List (ℝ × ℝ)) :
    MeanField.elbo C m (s.setZ q) d (some "z") = MeanField.elbo C m s d (some "z") := by
  have hs' : (s.setZ q).qi = 0 := hs
  simp [MeanField.elbo, setZ_qU, Posts.pU, Posts.pZ, hs, hs']

theorem elbo_setU (m : Inst ι κ) {s : Posts ι κ} (hs : s.qi = 0) (q : NatNormal ι) (d : List (ℝ × ℝ)) :
    MeanField.elbo C m (s.setU q) d (some "u") = MeanField.elbo C m s d (some "u") := by
  have hs' : (s.setU q).qi = 0 := hs
  simp [MeanField.elbo, setU_qZ, Posts.pU, Posts.pZ, hs, hs']

theorem elbo_collapse_z {m : Inst ι κ} (h : m.Valid) {s : Posts ι κ} (hs : s.qi = 0) (hp : s.Proper) (d : List (ℝ × ℝ)) :
    MeanField.elbo C m (s.setZ (qzOptimalMF C m (constructDataTerms C m d) s.qU)) d none = MeanField.elbo C m s d (some "z") := by
  obtain ⟨a, b, ha, hb, -, hiff⟩ := c24_z C h (s.setZ (qzOptimalMF C m (constructDataTerms C m d) s.qU)) hs
    ⟨hp.1, by rw [setZ_qZ]; exact qzOptimalMF_posDef C h d hp.1⟩ d
  rw [ha, hiff.2 (by rw [setZ_qZ, setZ_qU]), ← hb, elbo_setZ C m hs]

theorem elbo_collapse_u {m : Inst ι κ} (h : m.Valid) {s : Posts ι κ} (hs : s.qi = 0) (hp : s.Proper) (d : List (ℝ × ℝ)) :
    MeanField.elbo C m (s.setU (quOptimalMF C m (constructDataTerms C m d) s.qZ)) d none = MeanField.elbo C m s d (some "u") := by
  obtain ⟨a, b, ha, hb, -, hiff⟩ := c24_u C h (s.setU (quOptimalMF C m (constructDataTerms C m d) s.qZ)) hs
    ⟨by rw [setU_qU]; exact quOptimalMF_posDef C h d hp.2, hp.2⟩ d
  rw [ha, hiff.2 (by rw [setU_qZ, setU_qU]), ← hb, elbo_setU C m hs]

/-- **C169** Hyper-parameters and posterior over `u` are best for the bound collapsed over `z` if and only if they are best for the bound
itself together with the optimal posterior over `z`. -/
theorem c169_collapsed_z (h : ∀ θ, (M θ).Valid) (d : List (ℝ × ℝ)) (θ : Θ) (s : Posts ι κ) (hs : s.qi = 0) (hp : s.Proper) :
    Spec.Best C M d (some "z") θ s ↔
      Spec.Best C M d none θ (s.setZ (qzOptimalMF C (M θ) (constructDataTerms C (M θ) d) s.qU)) := by
  unfold Spec.Best
  rw [elbo_collapse_z C (h θ) hs hp]
  refine exists_congr fun b => and_congr_right fun _ => ⟨fun hb θ' s' hs' hp' => ?_, fun hb θ' s' hs' hp' => ?_⟩
  · obtain ⟨a, ha, hab⟩ := hb θ' s' hs' hp'
    obtain ⟨a1, b1, ha1, hb1, hle, -⟩ := c24_z C (h θ') s' hs' hp' d
    exact ⟨a1, ha1, hle.trans ((Except.ok.inj (hb1.symm.trans ha)).le.trans hab)⟩
  · rw [← elbo_collapse_z C (h θ') hs' hp']
    exact hb θ' _ hs' ⟨hp'.1, by rw [setZ_qZ]; exact qzOptimalMF_posDef C (h θ') d hp'.1⟩

/-- **C169** Likewise for `u`. -/
theorem c169_collapsed_u (h : ∀ θ, (M θ).Valid) (d : List (ℝ × ℝ)) (θ : Θ) (s : Posts ι κ) (hs : s.qi = 0) (hp : s.Proper) :
    Spec.Best C M d (some "u") θ s ↔
      Spec.Best C M d none θ (s.setU (quOptimalMF C (M θ) (constructDataTerms C (M θ) d) s.qZ)) := by
  unfold Spec.Best
  rw [elbo_collapse_u C (h θ) hs hp]
  refine exists_congr fun b => and_congr_right fun _ => ⟨fun hb θ' s' hs' hp' => ?_, fun hb θ' s' hs' hp' => ?_⟩
  · obtain ⟨a, ha, hab⟩ := hb θ' s' hs' hp'
    obtain ⟨a1, b1, ha1, hb1, hle, -⟩ := c24_u C (h θ') s' hs' hp' d
    exact ⟨a1, ha1, hle.trans ((Except.ok.inj (hb1.symm.trans ha)).le.trans hab)⟩
  · rw [← elbo_collapse_u C (h θ') hs' hp']
    exact hb θ' _ hs' ⟨by rw [setU_qU]; exact quOptimalMF_posDef C (h θ') d hp'.2, hp'.2⟩

/-- **C169** What is best for the bound itself is best for both collapsed bounds, and its posteriors are each other's optimal ones. -/
theorem c169_uncollapsed (h : ∀ θ, (M θ).Valid) (d : List (ℝ × ℝ)) (θ : Θ) (s : Posts ι κ) (hs : s.qi = 0) (hp : s.Proper)
    (hb : Spec.Best C M d none θ s) :
    s.qZ = qzOptimalMF C (M θ) (constructDataTerms C (M θ) d) s.qU ∧ s.qU = quOptimalMF C (M θ) (constructDataTerms C (M θ) d) s.qZ ∧
      Spec.Best C M d (some "z") θ s ∧ Spec.Best C M d (some "u") θ s := by
  obtain ⟨b, hb, hmax⟩ := hb
  obtain ⟨a1, b1, ha1, hb1, hle1, hi1⟩ := c24_z C (h θ) s hs hp d
  obtain ⟨a2, b2, ha2, hb2, hle2, hi2⟩ := c24_u C (h θ) s hs hp d
  have e1 : a1 = b := Except.ok.inj (ha1.symm.trans hb)
  have e2 : a2 = b := Except.ok.inj (ha2.symm.trans hb)
  obtain ⟨c1, hc1, hl1⟩ := hmax θ (s.setZ (qzOptimalMF C (M θ) (constructDataTerms C (M θ) d) s.qU)) hs
    ⟨hp.1, by rw [setZ_qZ]; exact qzOptimalMF_posDef C (h θ) d hp.1⟩
  obtain ⟨c2, hc2, hl2⟩ := hmax θ (s.setU (quOptimalMF C (M θ) (constructDataTerms C (M θ) d) s.qZ)) hs
    ⟨by rw [setU_qU]; exact quOptimalMF_posDef C (h θ) d hp.2, hp.2⟩
  rw [elbo_collapse_z C (h θ) hs hp] at hc1
  rw [elbo_collapse_u C (h θ) hs hp] at hc2
  have f1 : b1 = c1 := Except.ok.inj (hb1.symm.trans hc1)
  have f2 : b2 = c2 := Except.ok.inj (hb2.symm.trans hc2)
  have g1 := hi1.1 (by linarith)
  have g2 := hi2.1 (by linarith)
  have k1 : b1 = b := by linarith
  have k2 : b2 = b := by linarith
  refine ⟨g1, g2, ⟨b, by rw [hb1, k1], fun θ' s' hs' hp' => ?_⟩, ⟨b, by rw [hb2, k2], fun θ' s' hs' hp' => ?_⟩⟩
  · rw [← elbo_collapse_z C (h θ') hs' hp']
    exact hmax θ' _ hs' ⟨hp'.1, by rw [setZ_qZ]; exact qzOptimalMF_posDef C (h θ') d hp'.1⟩
  · rw [← elbo_collapse_u C (h θ') hs' hp']
    exact hmax θ' _ hs' ⟨by rw [setU_qU]; exact quOptimalMF_posDef C (h θ') d hp'.2, hp'.2⟩

/-- Something best exists, here with a single admissible value of the hyper-parameters. -/
example (D : Chols (Fin 1) (Fin 1)) : ∃ s : Posts (Fin 1) (Fin 1), s.qi = 0 ∧ s.Proper ∧
    Spec.Best D (fun _ : Unit => exInst) [(0, 3)] none () s := by
  obtain ⟨p, b, hp, h1, h2, -⟩ := c164_best D exInst_valid [(0, 3)]
  refine ⟨⟨0, fun _ => p.u, fun _ => p.z⟩, rfl, hp, b, (h1 _ rfl rfl rfl).1, fun _ s' hs' hp' => ⟨_, rfl, h2 s' hs' hp' none _ rfl⟩⟩

end Gpcm
