import Verif.Props.ConvergeProps

/-!
# Property C164: a best mean-field approximation exists

The schemes `mean-field-gradient`, `mean-field-ca` and the collapsed ones maximise different functions of different
parameters. They have the same maximum, which is attained.
-/

set_option linter.unusedSectionVars false

open Matrix Real Topology Filter Set

namespace Gpcm

variable {ι κ : Type} [Fintype ι] [DecidableEq ι] [Fintype κ] [DecidableEq κ]
variable (C : Chols ι κ) {m : Inst ι κ}

section

variable {n : Type} [Fintype n] [DecidableEq n]

theorem tendsto_frob {α β : Type} [Fintype α] [Fintype β] {X Y : ℕ → Matrix α β ℝ} {X' Y' : Matrix α β ℝ}
    (hX : Tendsto X atTop (𝓝 X')) (hY : Tendsto Y atTop (𝓝 Y')) : Tendsto (fun k => frob (X k) (Y k)) atTop (𝓝 (frob X' Y')) := by
  unfold frob
  exact tendsto_finsetSum _ fun i _ => tendsto_finsetSum _ fun j _ =>
    (tendsto_pi_nhds.1 (tendsto_pi_nhds.1 hX i) j).mul (tendsto_pi_nhds.1 (tendsto_pi_nhds.1 hY i) j)

theorem tendsto_dot {x y : ℕ → n → ℝ} {x' y' : n → ℝ} (hx : Tendsto x atTop (𝓝 x')) (hy : Tendsto y atTop (𝓝 y')) :
    Tendsto (fun k => x k ⬝ᵥ y k) atTop (𝓝 (x' ⬝ᵥ y')) :=
  tendsto_finsetSum _ fun i _ => (tendsto_pi_nhds.1 hx i).mul (tendsto_pi_nhds.1 hy i)

/-- The divergence is continuous in its first argument. -/
theorem ConvTo.kl (D : CholOracle n) {P : Matrix n n ℝ} (hP : P.PosDef) {q : ℕ → NatNormal n} {r : NatNormal n} (h : ConvTo q r)
    (hq : ∀ k, (q k).prec.PosDef) (hr : r.prec.PosDef) :
    Tendsto (fun k => (q k).kl D ⟨0, P⟩) atTop (𝓝 (r.kl D ⟨0, P⟩)) := by
  obtain ⟨h1, h2⟩ := h.moments D hq hr
  rw [NatNormal.kl_nat D hr (p := ⟨0, P⟩) hP]
  simp only [NatNormal.kl_nat D (hq _) (p := ⟨0, P⟩) hP]
  have hd : Tendsto (fun k => log (q k).prec.det) atTop (𝓝 (log r.prec.det)) :=
    ((continuous_id.matrix_det.tendsto r.prec).comp h.prec).log hr.det_pos.ne'
  exact ((((tendsto_frob tendsto_const_nhds h2).sub ((tendsto_dot tendsto_const_nhds h1).const_mul 2)).add_const _).add
    hd |>.sub_const _).const_mul _

end

theorem tendsto_sumEll (ts : DataTerms ι κ) (s : ℝ) {u : ℕ → ι → ℝ} {u' : ι → ℝ} {u2 : ℕ → Matrix ι ι ℝ} {u2' : Matrix ι ι ℝ}
    {z : ℕ → κ → ℝ} {z' : κ → ℝ} {z2 : ℕ → Matrix κ κ ℝ} {z2' : Matrix κ κ ℝ} (hu : Tendsto u atTop (𝓝 u'))
    (hu2 : Tendsto u2 atTop (𝓝 u2')) (hz : Tendsto z atTop (𝓝 z')) (hz2 : Tendsto z2 atTop (𝓝 z2')) :
    Tendsto (fun k => sumEll ts s (u k) (u2 k) (z k) (z2 k)) atTop (𝓝 (sumEll ts s u' u2' z' z2')) := by
  unfold sumEll
  have hl : Tendsto (fun k => (ts.iUz.map fun I => frob (I * z2 k * Iᵀ) (u2 k)).sum) atTop
      (𝓝 (ts.iUz.map fun I => frob (I * z2' * Iᵀ) u2').sum) :=
    tendsto_list_sum _ fun I _ => tendsto_frob
      (((continuous_const.matrix_mul continuous_id).matrix_mul continuous_const).tendsto z2' |>.comp hz2) hu2
  exact ((((((tendsto_frob tendsto_const_nhds hu2).const_add _).add (tendsto_frob tendsto_const_nhds hz2)).add hl).add_const _).sub
    ((tendsto_dot hu (tendsto_mulVec tendsto_const_nhds hz)).const_mul 2)).const_mul _ |>.const_sub _

theorem tendsto_pairBound (h : m.Valid) (d : List (ℝ × ℝ)) {it : ℕ → Pair ι κ} {r : Pair ι κ} (hp : ∀ k, (it k).Proper)
    (hr : r.Proper) (hu : ConvTo (fun k => (it k).u) r.u) (hz : ConvTo (fun k => (it k).z) r.z) :
    Tendsto (fun k => pairBound C m d (it k)) atTop (𝓝 (pairBound C m d r)) := by
  unfold pairBound
  simp only [meanFieldBound_eq]
  obtain ⟨a1, a2⟩ := hu.moments C.u (fun k => (hp k).1) hr.1
  obtain ⟨b1, b2⟩ := hz.moments C.z (fun k => (hp k).2) hr.2
  exact ((tendsto_sumEll _ _ a1 a2 b1 b2).sub (hu.kl C.u h.Ku (fun k => (hp k).1) hr.1)).sub
    (hz.kl C.z h.Kz (fun k => (hp k).2) hr.2)

/-- The bound attains its maximum. -/
theorem pairBound_max (h : m.Valid) (d : List (ℝ × ℝ)) :
    ∃ r : Pair ι κ, r.Proper ∧ ∀ q : Pair ι κ, q.Proper → pairBound C m d q ≤ pairBound C m d r := by
  obtain ⟨S, hS⟩ : ∃ S, S = {b | ∃ q : Pair ι κ, q.Proper ∧ pairBound C m d q = b} := ⟨_, rfl⟩
  obtain ⟨p₀, hp₀⟩ : ∃ p : Pair ι κ, p = ⟨⟨0, 1⟩, ⟨0, 1⟩⟩ := ⟨_, rfl⟩
  have hP₀ : p₀.Proper := by rw [hp₀]; exact ⟨Matrix.PosDef.one, Matrix.PosDef.one⟩
  have hne : S.Nonempty := ⟨_, by rw [hS]; exact ⟨p₀, hP₀, rfl⟩⟩
  have hbd : BddAbove S := by
    refine ⟨d.length * (-(1 / 2) * log (2 * π * m.noise)), ?_⟩
    rw [hS]
    rintro _ ⟨q, hq, rfl⟩
    have h1 := c18_nonneg C.u hq.1 (p := ⟨0, m.Ku⟩) h.Ku
    have h2 := c18_nonneg C.z hq.2 (p := ⟨0, m.Kz⟩) h.Kz
    have := pairBound_le C h d hq
    linarith
  obtain ⟨v, -, hv, hvS⟩ := exists_seq_tendsto_sSup hne hbd
  have hmax : ∀ q : Pair ι κ, q.Proper → pairBound C m d q ≤ sSup S := fun q hq =>
    le_csSup hbd (by rw [hS]; exact ⟨q, hq, rfl⟩)
  have hvS' : ∀ k, ∃ q : Pair ι κ, q.Proper ∧ pairBound C m d q = v k := fun k => by
    have := hvS k
    rw [hS] at this
    exact this
  choose q hq hqv using hvS'
  -- improve every element, so that it is at least as good as the prior
  by_cases hs : sSup S ≤ pairBound C m d p₀
  · exact ⟨p₀, hP₀, fun q hq => (hmax q hq).trans hs⟩
  rw [not_le] at hs
  obtain ⟨N, hN⟩ := eventually_atTop.1 (hv.eventually (lt_mem_nhds hs))
  obtain ⟨R, hR⟩ := kl_bounded C h d p₀
  obtain ⟨r, φ, hφ, c1, c2⟩ := limit_exists C h (it := fun k => q (k + N)) (fun k => hq _) fun k => hR _ (hq _) (by
    rw [hqv]
    exact (hN _ (Nat.le_add_left N k)).le)
  have hkl : ∀ k, (q (k + N)).u.kl C.u ⟨0, m.Ku⟩ ≤ R ∧ (q (k + N)).z.kl C.z ⟨0, m.Kz⟩ ≤ R := fun k => hR _ (hq _) (by
    rw [hqv]
    exact (hN _ (Nat.le_add_left N k)).le)
  have hr : r.Proper := ⟨c1.posDef C.u h.Ku (fun k => (hq _).1) fun k => (hkl (φ k)).1,
    c2.posDef C.z h.Kz (fun k => (hq _).2) fun k => (hkl (φ k)).2⟩
  have ht := tendsto_pairBound C h d (it := fun k => q (φ k + N)) (fun k => hq _) hr c1 c2
  have ht' : Tendsto (fun k => pairBound C m d (q (φ k + N))) atTop (𝓝 (sSup S)) := by
    simp only [hqv]
    exact hv.comp ((tendsto_add_atTop_nat N).comp hφ.tendsto_atTop)
  have e := tendsto_nhds_unique ht ht'
  exact ⟨r, hr, fun q hq => (hmax q hq).trans e.ge⟩

theorem elbo_le_pair (h : m.Valid) (s : Posts ι κ) (hs : s.qi = 0) (hp : s.Proper) (d : List (ℝ × ℝ)) (c : Option String) (v : ℝ)
    (hv : MeanField.elbo C m s d c = .ok v) : ∃ q : Pair ι κ, q.Proper ∧ v = pairBound C m d q := by
  have eu : s.pU m = ⟨0, m.Ku⟩ := if_pos hs
  have ez : s.pZ m = ⟨0, m.Kz⟩ := if_pos hs
  simp only [MeanField.elbo, eu, ez] at hv
  split at hv
  · exact ⟨⟨s.qU, s.qZ⟩, hp, (Except.ok.inj hv).symm⟩
  · split at hv
    · exact ⟨⟨s.qU, _⟩, ⟨hp.1, qzOptimalMF_posDef C h d hp.1⟩, (Except.ok.inj hv).symm⟩
    · split at hv
      · exact ⟨⟨_, s.qZ⟩, ⟨quOptimalMF_posDef C h d hp.2, hp.2⟩, (Except.ok.inj hv).symm⟩
      · exact absurd hv (by simp)

/-- A best pair is not changed by coordinate ascent. -/
theorem best_fixed (h : m.Valid) (d : List (ℝ × ℝ)) {r : Pair ι κ} (hr : r.Proper)
    (hmax : ∀ q : Pair ι κ, q.Proper → pairBound C m d q ≤ pairBound C m d r) :
    quOptimalMF C m (constructDataTerms C m d) r.z = r.u ∧ qzOptimalMF C m (constructDataTerms C m d) r.u = r.z := by
  have hou := quOptimalMF_posDef C h d hr.2
  have hoz := qzOptimalMF_posDef C h d hr.1
  have g1 := bound_gap_u C (m := m) (constructDataTerms C m d) (pu := ⟨0, m.Ku⟩) (qu := r.u) (pz := ⟨0, m.Kz⟩)
    (qz := r.z) (quOptimalMF_eq C m _ _) h.Ku hr.1 hou
  have g2 := bound_gap_z C (m := m) (constructDataTerms C m d) (pu := ⟨0, m.Ku⟩) (qu := r.u) (pz := ⟨0, m.Kz⟩)
    (qz := r.z) (qzOptimalMF_eq C m _ _) h.Kz hr.2 hoz
  have m1 := hmax ⟨quOptimalMF C m (constructDataTerms C m d) r.z, r.z⟩ ⟨hou, hr.2⟩
  have m2 := hmax ⟨r.u, qzOptimalMF C m (constructDataTerms C m d) r.u⟩ ⟨hr.1, hoz⟩
  unfold pairBound at m1 m2
  have n1 := c18_nonneg C.u hr.1 hou
  have n2 := c18_nonneg C.z hr.2 hoz
  constructor
  · exact ((c18_zero_iff C.u hr.1 hou).1 (by linarith)).symm
  · exact ((c18_zero_iff C.z hr.2 hoz).1 (by linarith)).symm

/-- **C164** There is a best mean-field approximation. All variants of the bound agree on its value, none of them ever exceeds
that value, whatever the approximate posteriors, and the value is at most the logarithm of the evidence. -/
theorem c164_best (h : m.Valid) (d : List (ℝ × ℝ)) : ∃ (p : Pair ι κ) (b : ℝ), (p.u.prec.PosDef ∧ p.z.prec.PosDef) ∧
    (∀ s : Posts ι κ, s.qi = 0 → s.qU = p.u → s.qZ = p.z →
      MeanField.elbo C m s d none = .ok b ∧ MeanField.elbo C m s d (some "u") = .ok b ∧ MeanField.elbo C m s d (some "z") = .ok b) ∧
    (∀ s : Posts ι κ, s.qi = 0 → s.Proper → ∀ c v, MeanField.elbo C m s d c = .ok v → v ≤ b) ∧ b ≤ log (evidence m d) := by
  obtain ⟨r, hr, hmax⟩ := pairBound_max C h d
  obtain ⟨f1, f2⟩ := best_fixed C h d hr hmax
  refine ⟨r, pairBound C m d r, hr, fun s hs hu hz => ?_, fun s hs hp c v hv => ?_, ?_⟩
  · have eu : s.pU m = ⟨0, m.Ku⟩ := if_pos hs
    have ez : s.pZ m = ⟨0, m.Kz⟩ := if_pos hs
    simp [MeanField.elbo, eu, ez, hu, hz, f1, f2, pairBound]
  · obtain ⟨q, hq, rfl⟩ := elbo_le_pair C h s hs hp d c v hv
    exact hmax q hq
  · exact (meanFieldBound_le C h d hr.1 hr.2).trans (c97_structured C h d _ hr.1)

/-- **C164** Coordinate ascent does not change a best approximation. -/
theorem c164_fixed (h : m.Valid) (s : Posts ι κ) (hs : s.qi = 0) (hp : s.Proper) (d : List (ℝ × ℝ)) {b : ℝ}
    (hb : MeanField.elbo C m s d none = .ok b)
    (hmax : ∀ s' : Posts ι κ, s'.qi = 0 → s'.Proper → ∀ v, MeanField.elbo C m s' d none = .ok v → v ≤ b) (iters : ℤ) :
    (fitMeanFieldCA C m s d iters).1 = s := by
  have eu : s.pU m = ⟨0, m.Ku⟩ := if_pos hs
  have ez : s.pZ m = ⟨0, m.Kz⟩ := if_pos hs
  have hb' : b = pairBound C m d ⟨s.qU, s.qZ⟩ := by
    simp only [MeanField.elbo, eu, ez] at hb
    exact (Except.ok.inj hb).symm
  obtain ⟨f1, f2⟩ := best_fixed C h d (r := ⟨s.qU, s.qZ⟩) hp fun q hq => by
    rw [← hb']
    refine hmax ⟨0, fun _ => q.u, fun _ => q.z⟩ rfl hq _ ?_
    simp [MeanField.elbo, Posts.pU, Posts.pZ, Posts.qU, Posts.qZ, pairBound]
  have hfix : caStep C m (constructDataTerms C m d) ⟨s.qU, s.qZ⟩ = ⟨s.qU, s.qZ⟩ := by
    unfold caStep
    simp only
    rw [f1, f2]
  have e : (caLoop (caStep C m (constructDataTerms C m d)) Pair.diff iters.toNat ⟨s.qU, s.qZ⟩).1 = ⟨s.qU, s.qZ⟩ :=
    caLoop_inv (P := fun p => p = ⟨s.qU, s.qZ⟩) Pair.diff (fun p hp => by rw [hp, hfix]) _ rfl
  simp only [fitMeanFieldCA, e]
  obtain ⟨qi, qu, qz⟩ := s
  simp only [Posts.setU, Posts.setZ, Posts.qU, Posts.qZ]
  congr 1 <;> funext i <;> split_ifs with hi <;> simp [hi]

/-- How the bound for one observation depends on the observation. -/
theorem pairBound_single (t y : ℝ) (p : Pair ι κ) : pairBound C m [(t, y)] p =
    pairBound C m [(t, 0)] p - y ^ 2 / (2 * m.noise) + y / m.noise * (p.u.mean C.u ⬝ᵥ (m.iUz t *ᵥ p.z.mean C.z)) := by
  unfold pairBound
  simp only [meanFieldBound_eq]
  unfold sumEll
  simp only [constructDataTerms, List.map_cons, List.map_nil, List.sum_cons, List.sum_nil, add_zero, zero_smul, zero_mulVec,
    dotProduct_zero, smul_mulVec, dotProduct_smul, smul_eq_mul]
  ring

theorem mean_of_lam {n : Type} [Fintype n] [DecidableEq n] (D : CholOracle n) {q : NatNormal n} (h : q.lam = 0) : q.mean D = 0 := by
  simp [NatNormal.mean, cholsolveVec, h]

/-- **C164** A fit by coordinate ascent need not find it: for a fit that starts from zero means, and one observation that is far
enough from zero, the bound after any number of iterations is below the bound of other approximations. -/
theorem c164_stuck (h : m.Valid) (t : ℝ) (ht : m.iUz t ≠ 0) : ∃ Y : ℝ, ∀ y, Y < y → ∃ b : ℝ,
    (∃ s' : Posts ι κ, s'.qi = 0 ∧ s'.Proper ∧ MeanField.elbo C m s' [(t, y)] none = .ok b) ∧
    ∀ s : Posts ι κ, s.qi = 0 → s.Proper → s.qU.lam = 0 → s.qZ.lam = 0 → ∀ (iters : ℤ) (v : ℝ),
      MeanField.elbo C m (fitMeanFieldCA C m s [(t, y)] iters).1 [(t, y)] none = .ok v → v < b := by
  obtain ⟨i, j, hij⟩ : ∃ i j, m.iUz t i j ≠ 0 := by
    by_contra hc
    push Not at hc
    exact ht (Matrix.ext hc)
  obtain ⟨r, hr⟩ : ∃ r : Pair ι κ, r = ⟨⟨Pi.single i (m.iUz t i j)⁻¹, 1⟩, ⟨Pi.single j 1, 1⟩⟩ := ⟨_, rfl⟩
  have hP : r.Proper := by rw [hr]; exact ⟨Matrix.PosDef.one, Matrix.PosDef.one⟩
  have h1 : r.u.mean C.u ⬝ᵥ (m.iUz t *ᵥ r.z.mean C.z) = 1 := by
    rw [NatNormal.mean_eq C.u hP.1, NatNormal.mean_eq C.z hP.2, hr]
    simp only [inv_one]
    rw [one_mulVec, one_mulVec, mulVec_single_one, single_dotProduct, col_apply]
    exact inv_mul_cancel₀ hij
  refine ⟨m.noise * (-(1 / 2) * log (2 * π * m.noise) - pairBound C m [(t, 0)] r), fun y hy => ⟨pairBound C m [(t, y)] r,
    ⟨⟨0, fun _ => r.u, fun _ => r.z⟩, rfl, hP, ?_⟩, fun s hs hp hu hz iters v hv => ?_⟩⟩
  · simp [MeanField.elbo, Posts.pU, Posts.pZ, Posts.qU, Posts.qZ, pairBound]
  obtain ⟨q, hq⟩ : ∃ q, q = (caLoop (caStep C m (constructDataTerms C m [(t, y)])) Pair.diff iters.toNat ⟨s.qU, s.qZ⟩).1 := ⟨_, rfl⟩
  have hq0 := hq
  simp only [Posts.qU, Posts.qZ, hs] at hq0
  have hq' : q.Proper ∧ q.u.lam = 0 ∧ q.z.lam = 0 := by
    rw [hq]
    refine caLoop_inv (P := fun p => p.Proper ∧ p.u.lam = 0 ∧ p.z.lam = 0) Pair.diff (fun p hp => ?_) _ ⟨hp, hu, hz⟩
    refine ⟨caStep_proper C h _ hp.1, ?_⟩
    have e1 : (quOptimalMF C m (constructDataTerms C m [(t, y)]) p.z).lam = 0 := by
      simp [quOptimalMF, qOptimal, mean_of_lam C.z hp.2.2]
    refine ⟨e1, ?_⟩
    simp [caStep, qzOptimalMF, qOptimal, mean_of_lam C.u e1]
  have hv' : v = pairBound C m [(t, y)] q := by
    simp only [MeanField.elbo, fitMeanFieldCA, Posts.setU, Posts.setZ, Posts.pU, Posts.pZ, Posts.qU, Posts.qZ, hs, if_true, ← hq0] at hv
    exact (Except.ok.inj hv).symm
  have h2 := pairBound_le C h [(t, 0)] hq'.1
  have n1 := c18_nonneg C.u hq'.1.1 (p := ⟨0, m.Ku⟩) h.Ku
  have n2 := c18_nonneg C.z hq'.1.2 (p := ⟨0, m.Kz⟩) h.Kz
  have h3 : -(1 / 2) * log (2 * π * m.noise) - pairBound C m [(t, 0)] r < y / m.noise := by
    rw [lt_div_iff₀ h.noise, mul_comm]
    exact hy
  rw [hv', pairBound_single, pairBound_single C t y r, h1, mean_of_lam C.u hq'.2.1, zero_dotProduct]
  simp only [List.length_cons, List.length_nil, zero_add, Nat.cast_one, one_mul] at h2
  linarith

/-- The hypotheses hold for an instance with two data points, and the value is finite and at most the evidence. -/
example (C : Chols (Fin 1) (Fin 1)) : ∃ b : ℝ, b ≤ log (evidence exInst [(0, 1), (1, -1)]) ∧
    ∀ v, MeanField.elbo C exInst (exPosts 0) [(0, 1), (1, -1)] none = .ok v → v ≤ b := by
  obtain ⟨p, b, -, -, h1, h2⟩ := c164_best C exInst_valid [(0, 1), (1, -1)]
  exact ⟨b, h2, h1 (exPosts 0) rfl ⟨Matrix.PosDef.one, Matrix.PosDef.one⟩ none⟩

/-- Some state meets the hypotheses of `c164_fixed`. -/
example (C : Chols (Fin 1) (Fin 1)) : ∃ s : Posts (Fin 1) (Fin 1), s.qi = 0 ∧ s.Proper ∧
    (fitMeanFieldCA C exInst s [(0, 1), (1, -1)] 5).1 = s := by
  obtain ⟨p, b, hp, h0, h1, -⟩ := c164_best C exInst_valid [(0, 1), (1, -1)]
  exact ⟨⟨0, fun _ => p.u, fun _ => p.z⟩, rfl, hp, c164_fixed C exInst_valid ⟨0, fun _ => p.u, fun _ => p.z⟩ rfl hp _ (h0 _ rfl rfl rfl).1
    (fun s' a b => h1 s' a b none) 5⟩

/-- The hypothesis of `c164_stuck` holds. -/
example (C : Chols (Fin 1) (Fin 1)) : ∃ y b : ℝ, ∀ v,
    MeanField.elbo C exInst (fitMeanFieldCA C exInst ⟨0, fun _ => ⟨0, 1⟩, fun _ => ⟨0, 1⟩⟩ [(0, y)] 7).1 [(0, y)] none = .ok v → v < b := by
  obtain ⟨Y, hY⟩ := c164_stuck C exInst_valid 0 (by
    intro h
    have := congrFun (congrFun h 0) 0
    simp [exInst] at this)
  obtain ⟨b, -, hb⟩ := hY (Y + 1) (by linarith)
  exact ⟨Y + 1, b, hb ⟨0, fun _ => ⟨0, 1⟩, fun _ => ⟨0, 1⟩⟩ rfl ⟨Matrix.PosDef.one, Matrix.PosDef.one⟩ rfl rfl 7⟩

end Gpcm
