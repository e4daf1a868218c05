import Verif.Lemmas.Converge
import Verif.Props.EvidenceProps

/-! # Property C115: coordinate ascent converges -/

set_option linter.unusedSectionVars false

open Matrix Real Topology Filter Set

namespace Gpcm

variable {ι κ : Type} [Fintype ι] [DecidableEq ι] [Fintype κ] [DecidableEq κ]
variable (C : Chols ι κ) {m : Inst ι κ}

/-- The bound of a pair of posteriors under the prior. -/
noncomputable def pairBound (m : Inst ι κ) (d : List (ℝ × ℝ)) (p : Pair ι κ) : ℝ :=
  meanFieldBound C m (constructDataTerms C m d) ⟨0, m.Ku⟩ p.u ⟨0, m.Kz⟩ p.z

def Pair.Proper (p : Pair ι κ) : Prop := p.u.prec.PosDef ∧ p.z.prec.PosDef

theorem caStep_proper (h : m.Valid) (d : List (ℝ × ℝ)) {p : Pair ι κ} (hp : p.Proper) :
    (caStep C m (constructDataTerms C m d) p).Proper :=
  ⟨(caStep_bound C h d p hp.1 hp.2).1, (caStep_bound C h d p hp.1 hp.2).2.1⟩

theorem iterate_proper (h : m.Valid) (d : List (ℝ × ℝ)) {p : Pair ι κ} (hp : p.Proper) (k : ℕ) :
    ((caStep C m (constructDataTerms C m d))^[k] p).Proper := by
  induction k with
  | zero => exact hp
  | succ k ih => rw [Function.iterate_succ_apply']; exact caStep_proper C h d ih

/-- One iteration improves the bound by the divergences between the old and the new posteriors. -/
theorem caStep_gap (h : m.Valid) (d : List (ℝ × ℝ)) {p : Pair ι κ} (hp : p.Proper) :
    let q := caStep C m (constructDataTerms C m d) p
    pairBound C m d q - pairBound C m d p = p.u.kl C.u q.u + p.z.kl C.z q.z := by
  intro q
  have hq := caStep_proper C h d hp
  have g1 := bound_gap_u C (m := m) (constructDataTerms C m d) (pu := ⟨0, m.Ku⟩) (qu := p.u) (pz := ⟨0, m.Kz⟩)
    (qz := p.z) (o := q.u) (quOptimalMF_eq C m _ _) h.Ku hp.1 hq.1
  have g2 := bound_gap_z C (m := m) (constructDataTerms C m d) (pu := ⟨0, m.Ku⟩) (qu := q.u) (pz := ⟨0, m.Kz⟩)
    (qz := p.z) (o := q.z) (qzOptimalMF_eq C m _ _) h.Kz hp.2 hq.2
  unfold pairBound
  linarith

theorem pairBound_le (h : m.Valid) (d : List (ℝ × ℝ)) {p : Pair ι κ} (hp : p.Proper) :
    pairBound C m d p ≤ d.length * (-(1 / 2) * log (2 * π * m.noise)) - p.u.kl C.u ⟨0, m.Ku⟩ -
      p.z.kl C.z ⟨0, m.Kz⟩ := by
  unfold pairBound
  rw [meanFieldBound_eq, sumEll_expLogLik C h]
  have := expLogLik_le h d (m2_sub_outer C.u hp.1) (m2_sub_outer C.z hp.2)
  linarith

theorem pairDiff_eq (a b : Pair ι κ) : Pair.diff a b = paramDiff a.u b.u + paramDiff a.z b.z := by
  unfold Pair.diff paramDiff
  ring

theorem paramDiff_nonneg {n : Type} [Fintype n] (a b : NatNormal n) : 0 ≤ paramDiff a b :=
  add_nonneg (sqrt_nonneg _) (sqrt_nonneg _)

/-- The bounds of the iterates increase to a limit. -/
theorem pairBound_tendsto (h : m.Valid) (d : List (ℝ × ℝ)) {p : Pair ι κ} (hp : p.Proper) :
    Monotone (fun k => pairBound C m d ((caStep C m (constructDataTerms C m d))^[k] p)) ∧
    ∃ L, Tendsto (fun k => pairBound C m d ((caStep C m (constructDataTerms C m d))^[k] p)) atTop (𝓝 L) := by
  have hmono : Monotone (fun k => pairBound C m d ((caStep C m (constructDataTerms C m d))^[k] p)) := by
    refine monotone_nat_of_le_succ fun k => ?_
    have hk := iterate_proper C h d hp k
    have hq := caStep_proper C h d hk
    have := caStep_gap C h d hk
    rw [Function.iterate_succ_apply']
    have h1 := c18_nonneg C.u hk.1 hq.1
    have h2 := c18_nonneg C.z hk.2 hq.2
    simp only at this
    linarith
  refine ⟨hmono, _, tendsto_atTop_ciSup hmono ⟨d.length * (-(1 / 2) * log (2 * π * m.noise)), ?_⟩⟩
  rintro _ ⟨k, rfl⟩
  have hk := iterate_proper C h d hp k
  have h1 := c18_nonneg C.u hk.1 (p := ⟨0, m.Ku⟩) h.Ku
  have h2 := c18_nonneg C.z hk.2 (p := ⟨0, m.Kz⟩) h.Kz
  have := pairBound_le C h d hk
  simp only
  linarith

/-- The divergences from the prior stay bounded. -/
theorem kl_bounded (h : m.Valid) (d : List (ℝ × ℝ)) (p : Pair ι κ) : ∃ R, ∀ q : Pair ι κ, q.Proper →
    pairBound C m d p ≤ pairBound C m d q → q.u.kl C.u ⟨0, m.Ku⟩ ≤ R ∧ q.z.kl C.z ⟨0, m.Kz⟩ ≤ R := by
  refine ⟨d.length * (-(1 / 2) * log (2 * π * m.noise)) - pairBound C m d p, fun q hq hb => ?_⟩
  have h1 := c18_nonneg C.u hq.1 (p := ⟨0, m.Ku⟩) h.Ku
  have h2 := c18_nonneg C.z hq.2 (p := ⟨0, m.Kz⟩) h.Kz
  have h3 := pairBound_le C h d hq
  constructor <;> linarith

theorem diff_small (h : m.Valid) (R : ℝ) {ε : ℝ} (hε : 0 < ε) : ∃ δ > 0, ∀ p q : Pair ι κ, p.Proper → q.Proper →
    (p.u.kl C.u ⟨0, m.Ku⟩ ≤ R ∧ p.z.kl C.z ⟨0, m.Kz⟩ ≤ R) → (q.u.kl C.u ⟨0, m.Ku⟩ ≤ R ∧ q.z.kl C.z ⟨0, m.Kz⟩ ≤ R) →
    p.u.kl C.u q.u + p.z.kl C.z q.z < δ → |Pair.diff q p| < ε := by
  obtain ⟨δu, hδu, hu⟩ := kl_controls C.u h.Ku R (half_pos hε)
  obtain ⟨δz, hδz, hz⟩ := kl_controls C.z h.Kz R (half_pos hε)
  refine ⟨min δu δz, lt_min hδu hδz, fun p q hp hq hpR hqR hlt => ?_⟩
  have k1 := c18_nonneg C.u hp.1 hq.1
  have k2 := c18_nonneg C.z hp.2 hq.2
  have d1 := hu _ _ hp.1 hq.1 hpR.1 hqR.1 (by linarith [min_le_left δu δz])
  have d2 := hz _ _ hp.2 hq.2 hpR.2 hqR.2 (by linarith [min_le_right δu δz])
  rw [pairDiff_eq, abs_of_nonneg (add_nonneg (paramDiff_nonneg _ _) (paramDiff_nonneg _ _))]
  linarith

/-- **C115** The difference between successive iterates of coordinate ascent goes to zero. -/
theorem c115_differences (h : m.Valid) (d : List (ℝ × ℝ)) {p : Pair ι κ} (hp : p.u.prec.PosDef ∧ p.z.prec.PosDef) :
    let it := fun k => (caStep C m (constructDataTerms C m d))^[k] p
    Tendsto (fun k => Pair.diff (it (k + 1)) (it k)) atTop (𝓝 0) := by
  obtain ⟨it, hit⟩ : ∃ it : ℕ → Pair ι κ, it = fun k => (caStep C m (constructDataTerms C m d))^[k] p := ⟨_, rfl⟩
  obtain ⟨hmono, L, hL⟩ := pairBound_tendsto C h d (p := p) hp
  have hit0 : it 0 = p := by rw [hit]; rfl
  have hp' : ∀ k, (it k).Proper := by rw [hit]; exact iterate_proper C h d hp
  have hsucc : ∀ k, caStep C m (constructDataTerms C m d) (it k) = it (k + 1) := fun k => by
    rw [hit]
    exact (Function.iterate_succ_apply' _ _ _).symm
  have hb : ∀ k, pairBound C m d (it (k + 1)) - pairBound C m d (it k) =
      (it k).u.kl C.u (it (k + 1)).u + (it k).z.kl C.z (it (k + 1)).z := fun k => by
    rw [← hsucc]
    exact caStep_gap C h d (hp' k)
  replace hL : Tendsto (fun k => pairBound C m d (it k)) atTop (𝓝 L) := by rw [hit]; exact hL
  replace hmono : Monotone fun k => pairBound C m d (it k) := by rw [hit]; exact hmono
  show Tendsto (fun k => Pair.diff ((fun k => (caStep C m (constructDataTerms C m d))^[k] p) (k + 1))
    ((fun k => (caStep C m (constructDataTerms C m d))^[k] p) k)) atTop (𝓝 0)
  rw [← hit]
  clear hit
  obtain ⟨R, hR⟩ := kl_bounded C h d p
  have hkl := fun k => hR (it k) (hp' k) (hit0 ▸ hmono (Nat.zero_le k))
  have hgap : Tendsto (fun k => pairBound C m d (it (k + 1)) - pairBound C m d (it k)) atTop (𝓝 0) := by
    have := ((tendsto_add_atTop_iff_nat 1).2 hL).sub hL
    rwa [sub_self] at this
  rw [Metric.tendsto_atTop]
  intro ε hε
  obtain ⟨δ, hδ, hd⟩ := diff_small C h R hε
  obtain ⟨N, hN⟩ := (Metric.tendsto_atTop.1 hgap) δ hδ
  refine ⟨N, fun k hk => ?_⟩
  have h1 := hN k hk
  rw [Real.dist_eq, sub_zero, hb] at h1
  rw [Real.dist_eq, sub_zero]
  exact hd _ _ (hp' k) (hp' (k + 1)) (hkl k) (hkl (k + 1)) ((le_abs_self _).trans_lt h1)

/-- **C115** Coordinate ascent always reaches its tolerance: given enough iterations, the fit stops by itself, and
further iterations make no difference. -/
theorem c115_stops (h : m.Valid) (s : Posts ι κ) (hp : s.Proper) (d : List (ℝ × ℝ)) :
    ∃ N : ℕ, 0 < N ∧ (∀ iters : ℤ, N ≤ iters → fitMeanFieldCA C m s d iters = fitMeanFieldCA C m s d N) ∧
      let it := fun i => (caStep C m (constructDataTerms C m d))^[i] ⟨s.qU, s.qZ⟩
      (fitMeanFieldCA C m s d N).2 = (List.range N).map (fun i => it (i + 1)) ∧
      Pair.diff (it N) (it (N - 1)) < 1e-6 := by
  have ht := c115_differences C h d (p := ⟨s.qU, s.qZ⟩) hp
  obtain ⟨p, hpd⟩ : ∃ p : Pair ι κ, p = ⟨s.qU, s.qZ⟩ := ⟨_, rfl⟩
  obtain ⟨step, hstep⟩ : ∃ step, step = caStep C m (constructDataTerms C m d) := ⟨_, rfl⟩
  rw [← hpd, ← hstep] at ht
  have hex : ∃ k, Pair.diff (step^[k + 1] p) (step^[k] p) < 1e-6 := by
    obtain ⟨N, hN⟩ := (Metric.tendsto_atTop.1 ht) 1e-6 (by norm_num)
    have := hN N le_rfl
    rw [Real.dist_eq, sub_zero] at this
    exact ⟨N, (le_abs_self _).trans_lt this⟩
  classical
  have hmin := fun i (hi : i < Nat.find hex) => Nat.find_min hex hi
  have hfind := Nat.find_spec hex
  obtain ⟨k, hk⟩ : ∃ k, k = Nat.find hex := ⟨_, rfl⟩
  rw [← hk] at hmin hfind
  have key : ∀ n, k + 1 ≤ n → caLoop step Pair.diff n p =
      (step^[k + 1] p, (List.range (k + 1)).map fun i => step^[i + 1] p) := fun n hn => by
    obtain ⟨j, hj, h1, h2, h3, h4⟩ := caLoop_spec step Pair.diff n p
    have hj1 : j = k + 1 := by
      rcases Nat.lt_trichotomy j (k + 1) with hlt | heq | hgt
      · obtain ⟨i, hi, hd⟩ := h4 (by omega)
        exact absurd hd (hmin i (by omega))
      · exact heq
      · exact absurd hfind (h3 k (by omega))
    rw [← hj1]
    exact Prod.ext h1 h2
  have fit : ∀ iters : ℤ, ((k + 1 : ℕ) : ℤ) ≤ iters → fitMeanFieldCA C m s d iters =
      ((s.setU (step^[k + 1] p).u).setZ (step^[k + 1] p).z, (List.range (k + 1)).map fun i => step^[i + 1] p) :=
    fun iters hi => by
      unfold fitMeanFieldCA
      simp only
      rw [← hpd, ← hstep, key iters.toNat (by omega)]
  refine ⟨k + 1, Nat.succ_pos k, fun iters hi => by rw [fit iters hi, fit _ le_rfl], ?_, ?_⟩
  · rw [fit _ le_rfl, ← hpd, ← hstep]
  · rw [← hpd, ← hstep]
    exact hfind

/-- **C115** The ELBO of the iterates converges, to a limit of at most the log-evidence. -/
theorem c115_elbo (h : m.Valid) (s : Posts ι κ) (hs : s.qi = 0) (hp : s.Proper) (d : List (ℝ × ℝ)) :
    let it := fun i => (caStep C m (constructDataTerms C m d))^[i] ⟨s.qU, s.qZ⟩
    ∃ v : ℕ → ℝ, (∀ k, MeanField.elbo C m ((s.setU (it k).u).setZ (it k).z) d none = .ok (v k)) ∧ Monotone v ∧
      ∃ L ≤ log (evidence m d), Tendsto v atTop (𝓝 L) := by
  intro it
  obtain ⟨hmono, L, hL⟩ := pairBound_tendsto C h d (p := ⟨s.qU, s.qZ⟩) hp
  refine ⟨_, fun k => ?_, hmono, L, ?_, hL⟩
  · simp [MeanField.elbo, Posts.pU, Posts.pZ, Posts.qU, Posts.qZ, Posts.setZ, Posts.setU, hs, pairBound, it]
  · refine le_of_tendsto' hL fun k => ?_
    have hk := iterate_proper C h d (p := ⟨s.qU, s.qZ⟩) hp k
    exact (meanFieldBound_le C h d hk.1 hk.2).trans (c97_structured C h d _ hk.1)

/-! ## Limit points -/

section

variable {n : Type} [Fintype n] [DecidableEq n]

/-- Convergence of the natural parameters. -/
def ConvTo (q : ℕ → NatNormal n) (r : NatNormal n) : Prop :=
  (∀ i, Tendsto (fun k => (q k).lam i) atTop (𝓝 (r.lam i))) ∧
    ∀ i j, Tendsto (fun k => (q k).prec i j) atTop (𝓝 (r.prec i j))

theorem ConvTo.lam {q : ℕ → NatNormal n} {r : NatNormal n} (h : ConvTo q r) :
    Tendsto (fun k => (q k).lam) atTop (𝓝 r.lam) := tendsto_pi_nhds.2 h.1

theorem ConvTo.prec {q : ℕ → NatNormal n} {r : NatNormal n} (h : ConvTo q r) :
    Tendsto (fun k => (q k).prec) atTop (𝓝 r.prec) := tendsto_pi_nhds.2 fun i => tendsto_pi_nhds.2 (h.2 i)

theorem ConvTo.mk {q : ℕ → NatNormal n} {r : NatNormal n} (h1 : Tendsto (fun k => (q k).lam) atTop (𝓝 r.lam))
    (h2 : Tendsto (fun k => (q k).prec) atTop (𝓝 r.prec)) : ConvTo q r :=
  ⟨tendsto_pi_nhds.1 h1, fun i => tendsto_pi_nhds.1 (tendsto_pi_nhds.1 h2 i)⟩

theorem ConvTo.unique {q : ℕ → NatNormal n} {r r' : NatNormal n} (h : ConvTo q r) (h' : ConvTo q r') : r = r' := by
  ext i j
  · exact tendsto_nhds_unique (h.1 i) (h'.1 i)
  · exact tendsto_nhds_unique (h.2 i j) (h'.2 i j)

theorem abs_le_rmsVec (x y : n → ℝ) (i : n) : |x i - y i| ≤ √(Fintype.card n) * rmsVec x y := by
  have hc : (0 : ℝ) < Fintype.card n := by
    have := Fintype.card_pos_iff.2 ⟨i⟩
    positivity
  unfold rmsVec
  rw [← sqrt_mul hc.le, mul_div_cancel₀ _ hc.ne', ← sqrt_sq_eq_abs]
  exact sqrt_le_sqrt (Finset.single_le_sum (f := fun i => (x i - y i) ^ 2) (fun _ _ => sq_nonneg _) (Finset.mem_univ i))

theorem abs_le_rmsMat (x y : Matrix n n ℝ) (i j : n) : |x i j - y i j| ≤ Fintype.card n * rmsMat x y := by
  have hc : (0 : ℝ) < Fintype.card n := by
    have := Fintype.card_pos_iff.2 ⟨i⟩
    positivity
  unfold rmsMat
  rw [← sqrt_mul_self hc.le, ← sqrt_mul (mul_self_nonneg _), sqrt_mul_self hc.le,
    mul_div_cancel₀ _ (mul_self_pos.2 hc.ne').ne', ← sqrt_sq_eq_abs]
  refine sqrt_le_sqrt (le_trans ?_ (Finset.single_le_sum (f := fun i => ∑ j, (x i j - y i j) ^ 2)
    (fun _ _ => Finset.sum_nonneg fun _ _ => sq_nonneg _) (Finset.mem_univ i)))
  exact Finset.single_le_sum (f := fun j => (x i j - y i j) ^ 2) (fun _ _ => sq_nonneg _) (Finset.mem_univ j)

/-- The root of the mean of the squares. -/
noncomputable def Spec.rootMeanSquare {α : Type} [Fintype α] (x : α → ℝ) : ℝ := √((∑ i, x i ^ 2) / Fintype.card α)

/-- **C23** The change that is compared with the tolerance: the sum, over the four natural parameters, of the roots of the mean
squared differences. It bounds the change of every entry, and vanishes only if nothing changed. -/
theorem c23_change (a b : Pair ι κ) :
    Pair.diff a b = Spec.rootMeanSquare (a.u.lam - b.u.lam) +
        Spec.rootMeanSquare (fun p : ι × ι => a.u.prec p.1 p.2 - b.u.prec p.1 p.2) +
        Spec.rootMeanSquare (a.z.lam - b.z.lam) +
        Spec.rootMeanSquare (fun p : κ × κ => a.z.prec p.1 p.2 - b.z.prec p.1 p.2) ∧
      (∀ i, |a.u.lam i - b.u.lam i| ≤ √(Fintype.card ι) * Pair.diff a b) ∧
      (∀ i j, |a.u.prec i j - b.u.prec i j| ≤ Fintype.card ι * Pair.diff a b) ∧
      (∀ i, |a.z.lam i - b.z.lam i| ≤ √(Fintype.card κ) * Pair.diff a b) ∧
      (∀ i j, |a.z.prec i j - b.z.prec i j| ≤ Fintype.card κ * Pair.diff a b) ∧
      (Pair.diff a b = 0 ↔ a = b) := by
  have p1 : 0 ≤ rmsVec a.u.lam b.u.lam := sqrt_nonneg _
  have p2 : 0 ≤ rmsMat a.u.prec b.u.prec := sqrt_nonneg _
  have p3 : 0 ≤ rmsVec a.z.lam b.z.lam := sqrt_nonneg _
  have p4 : 0 ≤ rmsMat a.z.prec b.z.prec := sqrt_nonneg _
  have e1 : ∀ i, |a.u.lam i - b.u.lam i| ≤ √(Fintype.card ι) * Pair.diff a b := fun i =>
    (abs_le_rmsVec _ _ i).trans (mul_le_mul_of_nonneg_left (by unfold Pair.diff; linarith) (sqrt_nonneg _))
  have e2 : ∀ i j, |a.u.prec i j - b.u.prec i j| ≤ Fintype.card ι * Pair.diff a b := fun i j =>
    (abs_le_rmsMat _ _ i j).trans (mul_le_mul_of_nonneg_left (by unfold Pair.diff; linarith) (Nat.cast_nonneg _))
  have e3 : ∀ i, |a.z.lam i - b.z.lam i| ≤ √(Fintype.card κ) * Pair.diff a b := fun i =>
    (abs_le_rmsVec _ _ i).trans (mul_le_mul_of_nonneg_left (by unfold Pair.diff; linarith) (sqrt_nonneg _))
  have e4 : ∀ i j, |a.z.prec i j - b.z.prec i j| ≤ Fintype.card κ * Pair.diff a b := fun i j =>
    (abs_le_rmsMat _ _ i j).trans (mul_le_mul_of_nonneg_left (by unfold Pair.diff; linarith) (Nat.cast_nonneg _))
  refine ⟨?_, e1, e2, e3, e4, fun h => ?_, fun h => ?_⟩
  · simp only [Pair.diff, rmsVec, rmsMat, Spec.rootMeanSquare, Pi.sub_apply, Fintype.sum_prod_type, Fintype.card_prod,
      Nat.cast_mul]
  · rw [h] at e1 e2 e3 e4
    simp only [mul_zero, abs_nonpos_iff, sub_eq_zero] at e1 e2 e3 e4
    obtain ⟨⟨l, A⟩, ⟨k, B⟩⟩ := a
    obtain ⟨⟨l', A'⟩, ⟨k', B'⟩⟩ := b
    obtain rfl : l = l' := funext e1
    obtain rfl : A = A' := Matrix.ext e2
    obtain rfl : k = k' := funext e3
    obtain rfl : B = B' := Matrix.ext e4
    rfl
  · subst h
    simp [Pair.diff, rmsVec, rmsMat]

/-- Sequences whose difference goes to zero have the same limits. -/
theorem ConvTo.of_diff {q q' : ℕ → NatNormal n} {r : NatNormal n} (h : ConvTo q r)
    (hd : Tendsto (fun k => paramDiff (q' k) (q k)) atTop (𝓝 0)) : ConvTo q' r := by
  have key : ∀ (f g : ℕ → ℝ) (c l : ℝ), Tendsto f atTop (𝓝 l) →
      (∀ k, |g k - f k| ≤ c * paramDiff (q' k) (q k)) → Tendsto g atTop (𝓝 l) := fun f g c l hf hg => by
    have h1 : Tendsto (fun k => g k - f k) atTop (𝓝 0) :=
      squeeze_zero_norm (a := fun k => c * paramDiff (q' k) (q k))
        (fun k => by rw [Real.norm_eq_abs]; exact hg k) (by simpa using hd.const_mul c)
    simpa using h1.add hf
  refine ⟨fun i => key _ _ (√(Fintype.card n)) _ (h.1 i) fun k => ?_,
    fun i j => key _ _ (Fintype.card n) _ (h.2 i j) fun k => ?_⟩
  · refine (abs_le_rmsVec _ _ i).trans (mul_le_mul_of_nonneg_left ?_ (sqrt_nonneg _))
    exact le_add_of_nonneg_right (sqrt_nonneg _)
  · refine (abs_le_rmsMat _ _ i j).trans (mul_le_mul_of_nonneg_left ?_ (Nat.cast_nonneg _))
    exact le_add_of_nonneg_left (sqrt_nonneg _)

theorem ConvTo.inv {q : ℕ → NatNormal n} {r : NatNormal n} (h : ConvTo q r) (hr : r.prec.PosDef) :
    Tendsto (fun k => (q k).prec⁻¹) atTop (𝓝 r.prec⁻¹) :=
  (continuousAt_inv hr).tendsto.comp h.prec

theorem tendsto_mulVec {l n : Type} [Fintype n] {A : ℕ → Matrix l n ℝ} {B : Matrix l n ℝ} {v : ℕ → n → ℝ} {w : n → ℝ}
    (hA : Tendsto A atTop (𝓝 B)) (hv : Tendsto v atTop (𝓝 w)) : Tendsto (fun k => A k *ᵥ v k) atTop (𝓝 (B *ᵥ w)) :=
  (Continuous.matrix_mulVec (A := fun p : Matrix l n ℝ × (n → ℝ) => p.1) (B := fun p => p.2) continuous_fst
    continuous_snd).continuousAt.tendsto.comp (hA.prodMk_nhds hv)

theorem ConvTo.moments (D : CholOracle n) {q : ℕ → NatNormal n} {r : NatNormal n} (h : ConvTo q r)
    (hq : ∀ k, (q k).prec.PosDef) (hr : r.prec.PosDef) :
    Tendsto (fun k => (q k).mean D) atTop (𝓝 (r.mean D)) ∧ Tendsto (fun k => (q k).m2 D) atTop (𝓝 (r.m2 D)) := by
  have h1 : Tendsto (fun k => (q k).mean D) atTop (𝓝 (r.mean D)) := by
    rw [NatNormal.mean_eq D hr]
    simp only [NatNormal.mean_eq D (hq _)]
    exact tendsto_mulVec (h.inv hr) h.lam
  refine ⟨h1, ?_⟩
  rw [NatNormal.m2_eq D hr, NatNormal.var_eq D hr]
  simp only [NatNormal.m2_eq D (hq _), NatNormal.var_eq D (hq _)]
  refine (h.inv hr).add ?_
  exact (Continuous.matrix_vecMulVec (A := fun x : n → ℝ => x) (B := fun x => x) continuous_id
    continuous_id).continuousAt.tendsto.comp h1

/-- The optimal update is continuous in the moments. -/
theorem ConvTo.qOptimal {l : Type} [Fintype l] [DecidableEq l] (s : ℝ) (A : Matrix l l ℝ) (I : List (Matrix l n ℝ))
    (S : Matrix l n ℝ) (K : Matrix l l ℝ) {x : ℕ → n → ℝ} {x' : n → ℝ} {y : ℕ → Matrix n n ℝ} {y' : Matrix n n ℝ}
    (hx : Tendsto x atTop (𝓝 x')) (hy : Tendsto y atTop (𝓝 y')) :
    ConvTo (fun k => qOptimal s A I S K (x k) (some (y k))) (qOptimal s A I S K x' (some y')) := by
  refine ConvTo.mk ?_ ?_
  · exact (tendsto_mulVec tendsto_const_nhds hx).const_smul _
  · have hS : Continuous fun y : Matrix n n ℝ => (I.map fun I => I * y * Iᵀ).sum := by
      clear hx hy
      induction I with
      | nil => exact continuous_const
      | cons a I ih =>
        simp only [List.map_cons, List.sum_cons]
        exact ((continuous_const.matrix_mul continuous_id).matrix_mul continuous_const).add ih
    have hc : Continuous fun y : Matrix n n ℝ => K + (1 / s) • (A + (I.map fun I => I * y * Iᵀ).sum) :=
      continuous_const.add ((continuous_const.add hS).const_smul (1 / s))
    exact hc.continuousAt.tendsto.comp hy

/-- Limits of distributions with bounded divergence are proper. -/
theorem ConvTo.posDef (D : CholOracle n) {P : Matrix n n ℝ} (hP : P.PosDef) {R : ℝ} {q : ℕ → NatNormal n}
    {r : NatNormal n} (h : ConvTo q r) (hq : ∀ k, (q k).prec.PosDef) (hR : ∀ k, (q k).kl D ⟨0, P⟩ ≤ R) :
    r.prec.PosDef := by
  obtain ⟨a, b, c, hc, hbox⟩ := kl_le_box hP R
  have hK : IsCompact ((fun x : (n → ℝ) × Matrix n n ℝ => x.2⁻¹) '' box n a b c) :=
    (isCompact_box a b c).image_of_continuousOn fun x hx =>
      ((continuousAt_inv (box_posDef hc hx)).comp (f := fun x : (n → ℝ) × Matrix n n ℝ => x.2)
        continuous_snd.continuousAt).continuousWithinAt
  have : r.prec ∈ (fun x : (n → ℝ) × Matrix n n ℝ => x.2⁻¹) '' box n a b c :=
    hK.isClosed.mem_of_tendsto h.prec (.of_forall fun k => by
      obtain ⟨x, hx, e⟩ := hbox D _ (hq k) (hR k)
      exact ⟨x, hx, by rw [e]; rfl⟩)
  obtain ⟨x, hx, e⟩ := this
  rw [← e]
  exact (box_posDef hc hx).inv

end

/-- The iterates as an opaque sequence. -/
theorem iterates (h : m.Valid) (d : List (ℝ × ℝ)) {p : Pair ι κ} (hp : p.Proper) : ∃ (it : ℕ → Pair ι κ) (R : ℝ),
    (∀ k, (caStep C m (constructDataTerms C m d))^[k] p = it k) ∧ (∀ k, (it k).Proper) ∧
    (∀ k, (it k).u.kl C.u ⟨0, m.Ku⟩ ≤ R ∧ (it k).z.kl C.z ⟨0, m.Kz⟩ ≤ R) ∧
    (∀ k, it (k + 1) = caStep C m (constructDataTerms C m d) (it k)) ∧
    Tendsto (fun k => Pair.diff (it (k + 1)) (it k)) atTop (𝓝 0) := by
  obtain ⟨it, hit⟩ : ∃ it : ℕ → Pair ι κ, ∀ k, (caStep C m (constructDataTerms C m d))^[k] p = it k := ⟨_, fun _ => rfl⟩
  have hd := c115_differences C h d hp
  obtain ⟨hmono, -⟩ := pairBound_tendsto C h d (p := p) hp
  have hp' := iterate_proper C h d (p := p) hp
  obtain ⟨R, hR⟩ := kl_bounded C h d p
  have hsucc : ∀ k, (caStep C m (constructDataTerms C m d))^[k + 1] p =
    caStep C m (constructDataTerms C m d) ((caStep C m (constructDataTerms C m d))^[k] p) :=
      fun k => Function.iterate_succ_apply' _ _ _
  have h0 : it 0 = p := (hit 0).symm
  simp only [hit] at hd hmono hp' hsucc
  refine ⟨it, R, hit, hp', fun k => hR _ (hp' k) ?_, hsucc, hd⟩
  have := hmono (Nat.zero_le k)
  simp only [h0] at this
  exact this

theorem limit_fixed (h : m.Valid) (d : List (ℝ × ℝ)) {R : ℝ} {it : ℕ → Pair ι κ} (hp : ∀ k, (it k).Proper)
    (hkl : ∀ k, (it k).u.kl C.u ⟨0, m.Ku⟩ ≤ R ∧ (it k).z.kl C.z ⟨0, m.Kz⟩ ≤ R)
    (hsucc : ∀ k, it (k + 1) = caStep C m (constructDataTerms C m d) (it k))
    (hd : Tendsto (fun k => Pair.diff (it (k + 1)) (it k)) atTop (𝓝 0)) {φ : ℕ → ℕ} (hφ : Tendsto φ atTop atTop)
    {r : Pair ι κ} (hu : ConvTo (fun k => (it (φ k)).u) r.u) (hz : ConvTo (fun k => (it (φ k)).z) r.z) :
    r.Proper ∧ caStep C m (constructDataTerms C m d) r = r := by
  have ru : r.u.prec.PosDef := hu.posDef C.u h.Ku (fun k => (hp (φ k)).1) fun k => (hkl (φ k)).1
  have rz : r.z.prec.PosDef := hz.posDef C.z h.Kz (fun k => (hp (φ k)).2) fun k => (hkl (φ k)).2
  have hd' := hd.comp hφ
  have hdu : Tendsto (fun k => paramDiff (it (φ k + 1)).u (it (φ k)).u) atTop (𝓝 0) :=
    squeeze_zero (fun k => paramDiff_nonneg _ _) (fun k => by
      show _ ≤ Pair.diff (it (φ k + 1)) (it (φ k))
      rw [pairDiff_eq]
      exact le_add_of_nonneg_right (paramDiff_nonneg _ _)) hd'
  have hdz : Tendsto (fun k => paramDiff (it (φ k + 1)).z (it (φ k)).z) atTop (𝓝 0) :=
    squeeze_zero (fun k => paramDiff_nonneg _ _) (fun k => by
      show _ ≤ Pair.diff (it (φ k + 1)) (it (φ k))
      rw [pairDiff_eq]
      exact le_add_of_nonneg_left (paramDiff_nonneg _ _)) hd'
  have hu' := hu.of_diff hdu
  have hz' := hz.of_diff hdz
  have eu : quOptimalMF C m (constructDataTerms C m d) r.z = r.u := by
    obtain ⟨k1, k2⟩ := hz.moments C.z (fun k => (hp (φ k)).2) rz
    refine ConvTo.unique (ConvTo.qOptimal _ _ _ _ _ k1 k2) ?_
    simp only [hsucc] at hu'
    exact hu'
  have ez : qzOptimalMF C m (constructDataTerms C m d) r.u = r.z := by
    obtain ⟨k1, k2⟩ := hu'.moments C.u (fun k => (hp (φ k + 1)).1) ru
    refine ConvTo.unique (ConvTo.qOptimal _ _ _ _ _ k1 k2) ?_
    simp only [hsucc] at hz' ⊢
    exact hz'
  refine ⟨⟨ru, rz⟩, ?_⟩
  unfold caStep
  simp only
  rw [eu, ez]

theorem limit_exists (h : m.Valid) {R : ℝ} {it : ℕ → Pair ι κ} (hp : ∀ k, (it k).Proper)
    (hkl : ∀ k, (it k).u.kl C.u ⟨0, m.Ku⟩ ≤ R ∧ (it k).z.kl C.z ⟨0, m.Kz⟩ ≤ R) :
    ∃ (r : Pair ι κ) (φ : ℕ → ℕ), StrictMono φ ∧ ConvTo (fun k => (it (φ k)).u) r.u ∧
      ConvTo (fun k => (it (φ k)).z) r.z := by
  obtain ⟨a, b, c, hc, hbox⟩ := kl_le_box h.Ku R
  obtain ⟨a', b', c', hc', hbox'⟩ := kl_le_box h.Kz R
  choose x hx ex using fun k => hbox C.u _ (hp k).1 (hkl k).1
  choose y hy ey using fun k => hbox' C.z _ (hp k).2 (hkl k).2
  have : FirstCountableTopology (Matrix ι ι ℝ) := inferInstanceAs (FirstCountableTopology (ι → ι → ℝ))
  have : FirstCountableTopology (Matrix κ κ ℝ) := inferInstanceAs (FirstCountableTopology (κ → κ → ℝ))
  obtain ⟨w, hw, φ, hφ, ht⟩ := ((isCompact_box a b c).prod (isCompact_box a' b' c')).tendsto_subseq
    (x := fun k => (x k, y k)) fun k => ⟨hx k, hy k⟩
  have conv : ∀ {l : Type} [Fintype l] [DecidableEq l] (v : ℕ → (l → ℝ) × Matrix l l ℝ) (v' : (l → ℝ) × Matrix l l ℝ),
      v'.2.PosDef → Tendsto v atTop (𝓝 v') → ConvTo (fun k => ofMeanVar (v k)) (ofMeanVar v') :=
    fun v v' hv' hv => by
      have h1 := (continuous_fst.tendsto v').comp hv
      have h2 := (continuousAt_inv hv').tendsto.comp ((continuous_snd.tendsto v').comp hv)
      exact ConvTo.mk (tendsto_mulVec h2 h1) h2
  have c1 := conv _ _ (box_posDef hc hw.1) ((continuous_fst.tendsto w).comp ht)
  have c2 := conv _ _ (box_posDef hc' hw.2) ((continuous_snd.tendsto w).comp ht)
  have e1 : (fun k => (it (φ k)).u) = fun k => ofMeanVar ((Prod.fst ∘ (fun k => (x k, y k)) ∘ φ) k) :=
    funext fun k => ex (φ k)
  have e2 : (fun k => (it (φ k)).z) = fun k => ofMeanVar ((Prod.snd ∘ (fun k => (x k, y k)) ∘ φ) k) :=
    funext fun k => ey (φ k)
  rw [← e1] at c1
  rw [← e2] at c2
  exact ⟨⟨ofMeanVar w.1, ofMeanVar w.2⟩, φ, hφ, c1, c2⟩

/-- **C115** Every limit of a subsequence of the iterates is a pair of proper posteriors that coordinate ascent does not
change, so that neither posterior alone can be improved. -/
theorem c115_limit_points (h : m.Valid) (d : List (ℝ × ℝ)) {p r : Pair ι κ} (hp : p.u.prec.PosDef ∧ p.z.prec.PosDef)
    {φ : ℕ → ℕ} (hφ : Tendsto φ atTop atTop) :
    let it := fun k => (caStep C m (constructDataTerms C m d))^[k] p
    (∀ i, Tendsto (fun k => (it (φ k)).u.lam i) atTop (𝓝 (r.u.lam i))) →
    (∀ i j, Tendsto (fun k => (it (φ k)).u.prec i j) atTop (𝓝 (r.u.prec i j))) →
    (∀ i, Tendsto (fun k => (it (φ k)).z.lam i) atTop (𝓝 (r.z.lam i))) →
    (∀ i j, Tendsto (fun k => (it (φ k)).z.prec i j) atTop (𝓝 (r.z.prec i j))) →
    (r.u.prec.PosDef ∧ r.z.prec.PosDef) ∧ caStep C m (constructDataTerms C m d) r = r := by
  obtain ⟨it, R, hit, h1, h2, h3, h4⟩ := iterates C h d (p := p) hp
  simp only [hit]
  exact fun k1 k2 k3 k4 => limit_fixed C h d h1 h2 h3 h4 hφ ⟨k1, k2⟩ ⟨k3, k4⟩

/-- **C115** Such limits exist. -/
theorem c115_limit_exists (h : m.Valid) (d : List (ℝ × ℝ)) {p : Pair ι κ} (hp : p.u.prec.PosDef ∧ p.z.prec.PosDef) :
    let it := fun k => (caStep C m (constructDataTerms C m d))^[k] p
    ∃ (r : Pair ι κ) (φ : ℕ → ℕ), StrictMono φ ∧
    (∀ i, Tendsto (fun k => (it (φ k)).u.lam i) atTop (𝓝 (r.u.lam i))) ∧
    (∀ i j, Tendsto (fun k => (it (φ k)).u.prec i j) atTop (𝓝 (r.u.prec i j))) ∧
    (∀ i, Tendsto (fun k => (it (φ k)).z.lam i) atTop (𝓝 (r.z.lam i))) ∧
    (∀ i j, Tendsto (fun k => (it (φ k)).z.prec i j) atTop (𝓝 (r.z.prec i j))) := by
  obtain ⟨it, R, hit, h1, h2, h3, h4⟩ := iterates C h d (p := p) hp
  simp only [hit]
  obtain ⟨r, φ, hφ, c1, c2⟩ := limit_exists C h h1 h2
  exact ⟨r, φ, hφ, c1.1, c1.2, c2.1, c2.2⟩

example (D : Chols (Fin 1) (Fin 1)) : ∃ N : ℕ, 0 < N ∧ ∀ iters : ℤ, N ≤ iters →
    fitMeanFieldCA D exInst (exPosts 0) [(0, 1), (1, -2)] iters = fitMeanFieldCA D exInst (exPosts 0) [(0, 1), (1, -2)] N := by
  obtain ⟨N, h0, h1, -⟩ := c115_stops D exInst_valid (exPosts 0) ⟨Matrix.PosDef.one, Matrix.PosDef.one⟩ [(0, 1), (1, -2)]
  exact ⟨N, h0, h1⟩

end Gpcm
