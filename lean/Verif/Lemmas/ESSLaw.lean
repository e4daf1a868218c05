import Verif.Lemmas.ESSRing
import Verif.Lemmas.ESSLemmas
import Verif.Spec.ESSLaw
import Mathlib.MeasureTheory.Function.Jacobian
import Mathlib.MeasureTheory.Function.JacobianOneDim
import Mathlib.Probability.Independence.InfinitePi

/-!
# The law of a pass of elliptical slice sampling

The model reads the random numbers of a pass off the tape; here the result of the pass is a function of these
numbers, and its expectation is computed.
-/

open MeasureTheory ProbabilityTheory Set Real
open scoped ENNReal

namespace Gpcm.Ess

/-! ## Results as functions of the random numbers -/

open Classical in
/-- The accepted angle as a function of the uniform numbers. -/
noncomputable def angles (S : Set ℝ) : (n : ℕ) → (Fin n → ℝ) → ℝ → ℝ → Option ℝ
  | 0, _, _, _ => none
  | n + 1, w, lo, hi =>
    if lo + (hi - lo) * w 0 ∈ S then some (lo + (hi - lo) * w 0)
    else if 0 < lo + (hi - lo) * w 0 then angles S n (Fin.tail w) lo (lo + (hi - lo) * w 0)
    else angles S n (Fin.tail w) (lo + (hi - lo) * w 0) hi

theorem angles_accept {S : Set ℝ} {n : ℕ} {w : Fin (n + 1) → ℝ} {lo hi θ : ℝ} (hθ : lo + (hi - lo) * w 0 = θ)
    (h : θ ∈ S) : angles S (n + 1) w lo hi = some θ := by
  rw [angles, hθ, if_pos h]

theorem angles_right {S : Set ℝ} {n : ℕ} {w : Fin (n + 1) → ℝ} {lo hi θ : ℝ} (hθ : lo + (hi - lo) * w 0 = θ)
    (h : θ ∉ S) (h0 : 0 < θ) : angles S (n + 1) w lo hi = angles S n (Fin.tail w) lo θ := by
  rw [angles, hθ, if_neg h, if_pos h0]

theorem angles_left {S : Set ℝ} {n : ℕ} {w : Fin (n + 1) → ℝ} {lo hi θ : ℝ} (hθ : lo + (hi - lo) * w 0 = θ)
    (h : θ ∉ S) (h0 : ¬ 0 < θ) : angles S (n + 1) w lo hi = angles S n (Fin.tail w) θ hi := by
  rw [angles, hθ, if_neg h, if_neg h0]

section model

variable {V : Type} [AddCommGroup V] [Module ℝ V] {T : Tape V} {L : V → LL}

theorem draw_angles (n : ℕ) : ∀ {lo hi : ℝ} {u : LL} {att : ℕ} {s : State V} {y : V},
    att + n = 101 → s.y = some y →
    (draw T L lo hi u att 100 s).1.x = s.x ∧ (draw T L lo hi u att 100 s).1.logLikX = s.logLikX ∧
    (draw T L lo hi u att 100 s).1.iE = s.iE ∧ (draw T L lo hi u att 100 s).1.iP = s.iP ∧
    match angles {θ | (L (point s.x y θ)).gt u} n (fun k => T.unit (s.iU + k)) lo hi with
    | none => (draw T L lo hi u att 100 s).2 = .error .sampleFailed ∧
        (draw T L lo hi u att 100 s).1.iU = s.iU + n
    | some θ => ∃ k, (draw T L lo hi u att 100 s).2 = .ok (point s.x y θ, L (point s.x y θ), k) := by
  induction n with
  | zero =>
    intro lo hi u att s y hatt hy
    rw [draw, if_pos (by omega)]
    exact ⟨rfl, rfl, rfl, rfl, rfl, rfl⟩
  | succ n ih =>
    intro lo hi u att s y hatt hy
    have hprop := drawProposal_eq (T := T) (L := L) (lo := lo) (hi := hi) hy
    simp only at hprop
    rw [draw, if_neg (by omega), hprop]
    simp only
    have htail : Fin.tail (fun k : Fin (n + 1) => T.unit (s.iU + k)) = fun k : Fin n => T.unit (s.iU + 1 + k) := by
      funext k
      simp only [Fin.tail, Fin.val_succ]
      congr 1
      ring
    have h0 : lo + (hi - lo) * T.unit (s.iU + ((0 : Fin (n + 1)) : ℕ)) = lo + (hi - lo) * T.unit s.iU := by simp
    by_cases hgt : (L (point s.x y (lo + (hi - lo) * T.unit s.iU))).gt u
    · rw [if_pos hgt, angles_accept h0 hgt]
      exact ⟨rfl, rfl, rfl, rfl, _, rfl⟩
    · rw [if_neg hgt]
      by_cases hpos : 0 < lo + (hi - lo) * T.unit s.iU
      · rw [if_pos hpos, angles_right h0 hgt hpos, htail]
        obtain ⟨h1, h2, h3, h4, h5⟩ := ih (lo := lo) (hi := lo + (hi - lo) * T.unit s.iU) (u := u)
          (att := att + 1) (y := y) (s := { s with
            iU := s.iU + 1, theta := some (lo + (hi - lo) * T.unit s.iU)
            xProposed := some (point s.x y (lo + (hi - lo) * T.unit s.iU))
            llProposed := some (L (point s.x y (lo + (hi - lo) * T.unit s.iU)))
            trace := s.trace ++ [.uniform lo hi (lo + (hi - lo) * T.unit s.iU)] ++
              [.lik (point s.x y (lo + (hi - lo) * T.unit s.iU))
                (L (point s.x y (lo + (hi - lo) * T.unit s.iU)))] }) (by omega) hy
        refine ⟨h1, h2, h3, h4, ?_⟩
        simp only at h5
        split at h5
        · exact ⟨h5.1, by rw [h5.2]; omega⟩
        · exact h5
      · rw [if_neg hpos, angles_left h0 hgt hpos, htail]
        obtain ⟨h1, h2, h3, h4, h5⟩ := ih (lo := lo + (hi - lo) * T.unit s.iU) (hi := hi) (u := u)
          (att := att + 1) (y := y) (s := { s with
            iU := s.iU + 1, theta := some (lo + (hi - lo) * T.unit s.iU)
            xProposed := some (point s.x y (lo + (hi - lo) * T.unit s.iU))
            llProposed := some (L (point s.x y (lo + (hi - lo) * T.unit s.iU)))
            trace := s.trace ++ [.uniform lo hi (lo + (hi - lo) * T.unit s.iU)] ++
              [.lik (point s.x y (lo + (hi - lo) * T.unit s.iU))
                (L (point s.x y (lo + (hi - lo) * T.unit s.iU)))] }) (by omega) hy
        refine ⟨h1, h2, h3, h4, ?_⟩
        simp only at h5
        split at h5
        · exact ⟨h5.1, by rw [h5.2]; omega⟩
        · exact h5

/-- The random numbers of a pass: exponential number, prior sample, uniform numbers. -/
abbrev Block (V : Type) := ℝ × V × (Fin 101 → ℝ)

/-- The new state as a function of the random numbers of the pass. -/
noncomputable def outcome (L : V → LL) (x : V) (b : Block V) : Option V :=
  (angles {θ | (L (point x b.2.1 θ)).gt ((L x).sub b.1)} 100 (Fin.tail b.2.2) (2 * π * b.2.2 0 - 2 * π)
    (2 * π * b.2.2 0)).map (point x b.2.1)

/-- The random numbers that the `j`-th pass from now on reads if all passes before it fail. -/
def block (T : Tape V) (iE iP iU j : ℕ) : Block V :=
  (T.expo (iE + j), T.prior (iP + j), fun k => T.unit (iU + 101 * j + k))

theorem samplePass_outcome {s : State V} (hs : s.logLikX = L s.x) :
    match outcome L s.x (block T s.iE s.iP s.iU 0) with
    | none => (samplePass T L s).2 = .again ∧ (samplePass T L s).1.x = s.x ∧
        (samplePass T L s).1.logLikX = s.logLikX ∧ (samplePass T L s).1.iE = s.iE + 1 ∧
        (samplePass T L s).1.iP = s.iP + 1 ∧ (samplePass T L s).1.iU = s.iU + 101
    | some x' => (∃ k, (samplePass T L s).2 = .done k) ∧ (samplePass T L s).1.x = x' := by
  obtain ⟨θ, hθ⟩ : ∃ θ, θ = 2 * π * T.unit s.iU := ⟨_, rfl⟩
  obtain ⟨s2, hs2⟩ : ∃ s2 : State V, s2 = { s with
      iE := s.iE + 1, y := some (T.prior s.iP), iP := s.iP + 1, iU := s.iU + 1
      trace := s.trace ++ [.expo (T.expo s.iE)] ++ [.prior (T.prior s.iP)] ++
        [.uniform 0 (2 * π) θ] } := ⟨_, rfl⟩
  have hb : prepare T s = (s.logLikX.sub (T.expo s.iE), (θ - 2 * π, θ), s2) := by
    simp only [prepare, drawHeight, drawBracket, uniform, establishEllipse, hs2, hθ, sub_zero, zero_add]
  obtain ⟨h1, h2, h3, h4, h5⟩ := draw_angles (T := T) (L := L) 100 (lo := θ - 2 * π) (hi := θ)
    (u := s.logLikX.sub (T.expo s.iE)) (att := 1) (s := s2) (y := T.prior s.iP) rfl (by rw [hs2])
  have hx2 : s2.x = s.x := by rw [hs2]
  have hl2 : s2.logLikX = s.logLikX := by rw [hs2]
  have hE2 : s2.iE = s.iE + 1 := by rw [hs2]
  have hP2 : s2.iP = s.iP + 1 := by rw [hs2]
  have hU2 : s2.iU = s.iU + 1 := by rw [hs2]
  rw [hx2] at h1 h5
  rw [hl2] at h2
  rw [hE2] at h3
  rw [hP2] at h4
  rw [hU2] at h5
  unfold samplePass
  rw [hb]
  have htail : Fin.tail (fun k : Fin 101 => T.unit (s.iU + 101 * 0 + k)) = fun k : Fin 100 =>
      T.unit (s.iU + 1 + k) := by
    funext k
    simp only [Fin.tail, Fin.val_succ]
    congr 1
    ring
  have h0 : T.unit (s.iU + 101 * 0 + ((0 : Fin 101) : ℕ)) = T.unit s.iU := by simp
  simp only [outcome, block, htail, h0, add_zero, ← hθ, ← hs]
  generalize draw T L (θ - 2 * π) θ (s.logLikX.sub (T.expo s.iE)) 1 100 s2 = d at h1 h2 h3 h4 h5 ⊢
  obtain ⟨s3, res⟩ := d
  simp only at h1 h2 h3 h4 h5
  split at h5
  · rename_i heq
    obtain ⟨h5, h6⟩ := h5
    subst h5
    rw [heq]
    exact ⟨rfl, h1, h2, h3, h4, by change s3.iU = _; rw [h6]⟩
  · rename_i θ' heq
    obtain ⟨k, h5⟩ := h5
    subst h5
    rw [heq]
    exact ⟨⟨_, rfl⟩, rfl⟩

/-- The first success in a sequence of passes. -/
noncomputable def outcomes (L : V → LL) (x : V) : (n : ℕ) → (Fin n → Block V) → Option V
  | 0, _ => none
  | n + 1, b => (outcome L x (b 0)).or (outcomes L x n (Fin.tail b))

theorem sample1_outcomes (fuel : ℕ) : ∀ {s : State V}, s.logLikX = L s.x → ∀ φ : V → ℝ≥0∞,
    returned φ (sample1 T L fuel s) =
      (outcomes L s.x fuel fun j => block T s.iE s.iP s.iU j).elim 0 φ := by
  induction fuel with
  | zero => intro s hs φ; rfl
  | succ n ih =>
    intro s hs φ
    have h := samplePass_outcome (T := T) hs
    rw [sample1, outcomes]
    generalize hp : samplePass T L s = p at h ⊢
    obtain ⟨s', r⟩ := p
    have hb0 : block T s.iE s.iP s.iU ((0 : Fin (n + 1)) : ℕ) = block T s.iE s.iP s.iU 0 := by simp
    rw [hb0]
    cases ho : outcome L s.x (block T s.iE s.iP s.iU 0) with
    | none =>
      rw [ho] at h
      obtain ⟨h1, h2, h3, h4, h5, h6⟩ := h
      simp only at h1 h2 h3 h4 h5 h6
      subst h1
      simp only [Option.none_or]
      rw [ih (by rw [h3, h2, hs]), h2, h4, h5, h6]
      congr 2
      funext j
      simp only [Fin.tail, Fin.val_succ, block]
      refine congrArg₂ _ (by congr 1; ring) (congrArg₂ _ (by congr 1; ring) ?_)
      funext k
      congr 1
      ring
    | some x' =>
      rw [ho] at h
      obtain ⟨⟨k, h1⟩, h2⟩ := h
      simp only at h1 h2
      subst h1
      simp only [Option.some_or, Option.elim_some, returned, h2]

end model

/-! ## Expectations -/

theorem lintegral_unit {lo hi : ℝ} (h : lo < hi) (f : ℝ → ℝ≥0∞) :
    ∫⁻ w, f (lo + (hi - lo) * w) ∂unitLaw = (ENNReal.ofReal (hi - lo))⁻¹ * ∫⁻ θ in Ico lo hi, f θ := by
  have hpos : 0 < hi - lo := sub_pos.2 h
  have himg : (fun w => lo + (hi - lo) * w) '' Ico 0 1 = Ico lo hi := by
    ext θ
    constructor
    · rintro ⟨w, ⟨h0, h1⟩, rfl⟩
      constructor
      · change lo ≤ lo + (hi - lo) * w
        nlinarith
      · change lo + (hi - lo) * w < hi
        nlinarith
    · rintro ⟨h0, h1⟩
      refine ⟨(θ - lo) / (hi - lo), ⟨div_nonneg (by linarith) hpos.le, by rw [div_lt_one hpos]; linarith⟩, ?_⟩
      change lo + (hi - lo) * ((θ - lo) / (hi - lo)) = θ
      field_simp
      ring
  have hd : ∀ w ∈ Ico (0 : ℝ) 1, HasDerivWithinAt (fun w => lo + (hi - lo) * w) (hi - lo) (Ico 0 1) w := fun w _ => by
    have := ((hasDerivAt_id w).const_mul (hi - lo)).const_add lo
    simpa using this.hasDerivWithinAt
  have hinj : InjOn (fun w => lo + (hi - lo) * w) (Ico 0 1) := fun a _ b _ hab => by
    have hab : lo + (hi - lo) * a = lo + (hi - lo) * b := hab
    exact mul_left_cancel₀ hpos.ne' (add_left_cancel hab)
  have hcv := lintegral_image_eq_lintegral_abs_deriv_mul measurableSet_Ico hd hinj f
  rw [himg] at hcv
  rw [hcv, abs_of_pos hpos, lintegral_const_mul' _ _ ENNReal.ofReal_ne_top, ← mul_assoc,
    ENNReal.inv_mul_cancel (by simpa using hpos) ENNReal.ofReal_ne_top, one_mul]
  rfl

theorem lintegral_pi_succ {α : Type} [MeasurableSpace α] {μ : Measure α} [SigmaFinite μ] {n : ℕ}
    (F : α × (Fin n → α) → ℝ≥0∞) :
    ∫⁻ w, F (w 0, Fin.tail w) ∂(Measure.pi fun _ : Fin (n + 1) => μ) =
      ∫⁻ p, F p ∂(μ.prod (Measure.pi fun _ : Fin n => μ)) := by
  have h := measurePreserving_piFinSuccAbove (fun _ : Fin (n + 1) => μ) 0
  have := h.lintegral_comp_emb (MeasurableEquiv.measurableEmbedding _) F
  rw [← this]
  rfl

theorem measurable_tail {α : Type} [MeasurableSpace α] {n : ℕ} :
    Measurable fun w : Fin (n + 1) → α => Fin.tail w :=
  measurable_pi_iff.2 fun _ => measurable_pi_apply _

theorem measurable_cons {α : Type} [MeasurableSpace α] {n : ℕ} :
    Measurable fun p : α × (Fin n → α) => (Fin.cons p.1 p.2 : Fin (n + 1) → α) :=
  measurable_pi_iff.2 fun i => by
    refine Fin.cases ?_ (fun j => ?_) i
    · exact measurable_fst
    · exact (measurable_pi_apply j).comp measurable_snd

theorem measurable_angles {Ω : Type} [MeasurableSpace Ω] {S : Ω → Set ℝ}
    (hS : MeasurableSet {q : Ω × ℝ | q.2 ∈ S q.1}) {φ : Ω → ℝ → ℝ≥0∞}
    (hφ : Measurable fun q : Ω × ℝ => φ q.1 q.2) (n : ℕ) :
    Measurable fun q : Ω × (Fin n → ℝ) × ℝ × ℝ =>
      (angles (S q.1) n q.2.1 q.2.2.1 q.2.2.2).elim 0 (φ q.1) := by
  classical
  induction n with
  | zero => exact measurable_const
  | succ n ih =>
    have hθ : Measurable fun q : Ω × (Fin (n + 1) → ℝ) × ℝ × ℝ => q.2.2.1 + (q.2.2.2 - q.2.2.1) * q.2.1 0 := by
      fun_prop
    have e : (fun q : Ω × (Fin (n + 1) → ℝ) × ℝ × ℝ =>
        (angles (S q.1) (n + 1) q.2.1 q.2.2.1 q.2.2.2).elim 0 (φ q.1)) = fun q =>
        if q.2.2.1 + (q.2.2.2 - q.2.2.1) * q.2.1 0 ∈ S q.1 then φ q.1 (q.2.2.1 + (q.2.2.2 - q.2.2.1) * q.2.1 0)
        else if 0 < q.2.2.1 + (q.2.2.2 - q.2.2.1) * q.2.1 0 then
          (angles (S q.1) n (Fin.tail q.2.1) q.2.2.1 (q.2.2.1 + (q.2.2.2 - q.2.2.1) * q.2.1 0)).elim 0 (φ q.1)
        else (angles (S q.1) n (Fin.tail q.2.1) (q.2.2.1 + (q.2.2.2 - q.2.2.1) * q.2.1 0) q.2.2.2).elim 0 (φ q.1) := by
      funext q
      split_ifs with h1 h2
      · rw [angles_accept rfl h1]; rfl
      · rw [angles_right rfl h1 h2]
      · rw [angles_left rfl h1 h2]
    rw [e]
    have ht : Measurable fun q : Ω × (Fin (n + 1) → ℝ) × ℝ × ℝ => Fin.tail q.2.1 :=
      measurable_tail.comp (by fun_prop)
    refine Measurable.ite (hS.preimage (measurable_fst.prodMk hθ)) (hφ.comp (measurable_fst.prodMk hθ))
      (Measurable.ite (measurableSet_lt measurable_const hθ) ?_ ?_)
    · exact ih.comp (measurable_fst.prodMk (ht.prodMk ((by fun_prop : Measurable
        fun q : Ω × (Fin (n + 1) → ℝ) × ℝ × ℝ => q.2.2.1).prodMk hθ)))
    · exact ih.comp (measurable_fst.prodMk (ht.prodMk (hθ.prodMk (by fun_prop))))

theorem lintegral_angles {S : Set ℝ} (hS : MeasurableSet S) {φ : ℝ → ℝ≥0∞} (hφ : Measurable φ) (n : ℕ) :
    ∀ {lo hi : ℝ}, lo < hi → lo ≤ 0 → 0 ≤ hi →
    ∫⁻ w, (angles S n w lo hi).elim 0 φ ∂(Measure.pi fun _ : Fin n => unitLaw) = acc S φ n 0 lo hi := by
  classical
  have hm := fun n => measurable_angles (Ω := Unit) (S := fun _ => S) (φ := fun _ => φ) (hS.preimage measurable_snd)
    (hφ.comp measurable_snd) n
  induction n with
  | zero => intro lo hi _ _ _; simp [angles, acc]
  | succ n ih =>
    intro lo hi h hlo hhi
    have e : ∀ w : Fin (n + 1) → ℝ, (angles S (n + 1) w lo hi).elim 0 φ =
        (fun p : ℝ × (Fin n → ℝ) => (angles S (n + 1) (Fin.cons p.1 p.2) lo hi).elim 0 φ) (w 0, Fin.tail w) :=
      fun w => by simp only [Fin.cons_self_tail]
    rw [lintegral_congr e, lintegral_pi_succ (μ := unitLaw)
      (fun p : ℝ × (Fin n → ℝ) => (angles S (n + 1) (Fin.cons p.1 p.2) lo hi).elim 0 φ), lintegral_prod]
    · rw [acc, ← lintegral_unit h]
      refine setLIntegral_congr_fun measurableSet_Ico fun a ha => ?_
      have hθ : lo + (hi - lo) * a < hi := by nlinarith [ha.2]
      by_cases h1 : lo + (hi - lo) * a ∈ S
      · have : ∀ w : Fin n → ℝ, angles S (n + 1) (Fin.cons a w) lo hi = some (lo + (hi - lo) * a) := fun w =>
          angles_accept rfl h1
        simp [this, h1]
      · by_cases h2 : 0 < lo + (hi - lo) * a
        · have : ∀ w : Fin n → ℝ, angles S (n + 1) (Fin.cons a w) lo hi = angles S n w lo (lo + (hi - lo) * a) :=
            fun w => angles_right rfl h1 h2
          simp only [this, if_neg h1, if_pos h2]
          exact ih (by linarith) hlo h2.le
        · have : ∀ w : Fin n → ℝ, angles S (n + 1) (Fin.cons a w) lo hi = angles S n w (lo + (hi - lo) * a) hi :=
            fun w => angles_left rfl h1 h2
          simp only [this, if_neg h1, if_neg h2]
          exact ih hθ (not_lt.1 h2) hhi
    · refine Measurable.aemeasurable ?_
      exact (hm (n + 1)).comp (f := fun p : ℝ × (Fin n → ℝ) => ((), Fin.cons p.1 p.2, lo, hi))
        (measurable_const.prodMk (measurable_cons.prodMk (by fun_prop)))

section law

variable {V : Type} [NormedAddCommGroup V] [NormedSpace ℝ V] [MeasurableSpace V] [BorelSpace V]
  [SecondCountableTopology V] {γ : Measure V} [IsProbabilityMeasure γ] {L : V → LL}

/-- The law of the random numbers of a pass. -/
noncomputable def passLaw (γ : Measure V) : Measure (Block V) :=
  (expMeasure 1).prod (γ.prod (Measure.pi fun _ : Fin 101 => unitLaw))

omit [NormedAddCommGroup V] [NormedSpace ℝ V] [BorelSpace V] [SecondCountableTopology V] in
instance : IsProbabilityMeasure (passLaw γ) := by unfold passLaw; infer_instance

/-- The expectation of `φ` at the new state when a pass succeeds, and zero otherwise. -/
noncomputable def hop (γ : Measure V) (L : V → LL) (φ : V → ℝ≥0∞) (x : V) : ℝ≥0∞ :=
  ∫⁻ b, (outcome L x b).elim 0 φ ∂passLaw γ

omit [NormedAddCommGroup V] [NormedSpace ℝ V] [MeasurableSpace V] [BorelSpace V] [SecondCountableTopology V] in
/-- The log-likelihood with NaN replaced by minus infinity. -/
noncomputable def logLik (L : V → LL) (x : V) : EReal := (L x).getD ⊥

omit [NormedAddCommGroup V] [NormedSpace ℝ V] [MeasurableSpace V] [BorelSpace V] [SecondCountableTopology V] in
theorem gt_iff (L : V → LL) (x : V) (c : ℝ) : (L x).gt (some (c : EReal)) ↔ (c : EReal) < logLik L x := by
  unfold logLik
  cases L x with
  | none => exact ⟨False.elim, fun h => (not_lt_bot h).elim⟩
  | some l => exact Iff.rfl

omit [NormedAddCommGroup V] [NormedSpace ℝ V] [MeasurableSpace V] [BorelSpace V] [SecondCountableTopology V] in
theorem lik_eq (L : V → LL) (x : V) : lik L x = EReal.exp (logLik L x) := by
  unfold lik logLik
  cases L x with
  | none => exact EReal.exp_bot.symm
  | some l => rfl

omit [NormedAddCommGroup V] [NormedSpace ℝ V] [BorelSpace V] [SecondCountableTopology V] in
theorem LogLik.measurable_logLik (h : LogLik L) : Measurable (logLik L) := by
  refine measurable_of_Ioi fun c => ?_
  induction c with
  | top => simp
  | bot =>
    have : logLik L ⁻¹' Ioi ⊥ = ⋃ n : ℕ, {x | (L x).gt (some ((-(n : ℝ) : ℝ) : EReal))} := by
      ext x
      simp only [mem_preimage, mem_Ioi, mem_iUnion, mem_ofPred_eq, gt_iff]
      constructor
      · intro hx
        induction hl : logLik L x with
        | bot => rw [hl] at hx; exact (lt_irrefl _ hx).elim
        | top => exact ⟨0, EReal.coe_lt_top _⟩
        | coe r =>
          obtain ⟨n, hn⟩ := exists_nat_gt (-r)
          exact ⟨n, by exact_mod_cast (by linarith : -(n : ℝ) < r)⟩
      · rintro ⟨n, hn⟩
        exact (EReal.bot_lt_coe _).trans hn
    rw [this]
    exact MeasurableSet.iUnion fun n => h.measurable _
  | coe c =>
    have : logLik L ⁻¹' Ioi (c : EReal) = {x | (L x).gt (some (c : EReal))} := by
      ext x
      exact (gt_iff L x c).symm
    rw [this]
    exact h.measurable c

omit [NormedAddCommGroup V] [NormedSpace ℝ V] [BorelSpace V] [SecondCountableTopology V] in
theorem LogLik.measurable_lik (h : LogLik L) : Measurable (lik L) := by
  have : lik L = fun x => EReal.exp (logLik L x) := funext (lik_eq L)
  rw [this]
  exact EReal.exp_monotone.measurable.comp h.measurable_logLik

omit [NormedAddCommGroup V] [NormedSpace ℝ V] [BorelSpace V] [SecondCountableTopology V] in
theorem LogLik.lik_ne_top (h : LogLik L) (x : V) : lik L x ≠ ∞ := by
  rw [lik_eq, Ne, EReal.exp_eq_top_iff]
  unfold logLik
  intro hx
  cases hl : L x with
  | none => rw [hl] at hx; cases hx
  | some l => rw [hl] at hx; exact h.ne_top x (by rw [hl]; exact congrArg some hx)

omit [NormedAddCommGroup V] [NormedSpace ℝ V] [BorelSpace V] [SecondCountableTopology V] in
theorem LogLik.finite (h : LogLik L) {x : V} (hx : lik L x ≠ 0) : ∃ r : ℝ, L x = some (r : EReal) := by
  unfold lik at hx
  cases hl : L x with
  | none => rw [hl] at hx; exact (hx rfl).elim
  | some l =>
    rw [hl] at hx
    induction l with
    | bot => exact (hx EReal.exp_bot).elim
    | top => exact (h.ne_top x hl).elim
    | coe r => exact ⟨r, rfl⟩

omit [MeasurableSpace V] [BorelSpace V] [SecondCountableTopology V] in
theorem outcome_eq {x : V} {r : ℝ} (hx : L x = some (r : EReal)) (φ : V → ℝ≥0∞) (b : Block V) :
    (outcome L x b).elim 0 φ = (angles (slice (logLik L) (x, b.2.1) (r - b.1)) 100 (Fin.tail b.2.2)
      (2 * π * b.2.2 0 - 2 * π) (2 * π * b.2.2 0)).elim 0 fun θ => φ (point x b.2.1 θ) := by
  have hS : {θ | (L (point x b.2.1 θ)).gt ((L x).sub b.1)} = slice (logLik L) (x, b.2.1) (r - b.1) := by
    ext θ
    rw [hx]
    exact gt_iff L _ (r - b.1)
  unfold outcome
  rw [hS]
  cases angles (slice (logLik L) (x, b.2.1) (r - b.1)) 100 (Fin.tail b.2.2) (2 * π * b.2.2 0 - 2 * π)
    (2 * π * b.2.2 0) <;> rfl

theorem measurable_outcome (h : LogLik L) {x : V} {r : ℝ} (hx : L x = some (r : EReal)) {φ : V → ℝ≥0∞}
    (hφ : Measurable φ) : Measurable fun b : Block V => (outcome L x b).elim 0 φ := by
  simp only [outcome_eq hx]
  have := measurable_angles (Ω := (V × V) × ℝ) (S := fun q => slice (logLik L) q.1 q.2)
    (φ := fun q θ => φ (point q.1.1 q.1.2 θ)) (measurableSet_slice h.measurable_logLik)
    (hφ.comp (measurable_point.comp (f := fun q : ((V × V) × ℝ) × ℝ => (q.1.1, q.2)) (by fun_prop))) 100
  have h1 : Measurable fun b : Block V => (((x, b.2.1), r - b.1) : (V × V) × ℝ) := by fun_prop
  have h2 : Measurable fun b : Block V => (Fin.tail b.2.2 : Fin 100 → ℝ) := measurable_tail.comp (by fun_prop)
  exact this.comp (h1.prodMk (h2.prodMk (by fun_prop :
    Measurable fun b : Block V => (2 * π * b.2.2 0 - 2 * π, 2 * π * b.2.2 0))))

theorem hop_eq (h : LogLik L) {x : V} {r : ℝ} (hx : L x = some (r : EReal)) {φ : V → ℝ≥0∞} (hφ : Measurable φ) :
    hop γ L φ x = ∫⁻ e, ∫⁻ y, ring (logLik L) φ 100 (x, y) (r - e) ∂γ ∂expMeasure 1 := by
  have hm := measurable_outcome h hx hφ
  unfold hop passLaw
  rw [lintegral_prod _ hm.aemeasurable]
  refine lintegral_congr fun e => ?_
  have hm1 : Measurable fun b : V × (Fin 101 → ℝ) => (outcome L x (e, b)).elim 0 φ :=
    hm.comp measurable_prodMk_left
  rw [lintegral_prod _ hm1.aemeasurable]
  refine lintegral_congr fun y => ?_
  have hSm : MeasurableSet (slice (logLik L) (x, y) (r - e)) :=
    (measurableSet_slice h.measurable_logLik).preimage (f := fun θ : ℝ => (((x, y), r - e), θ)) (by fun_prop)
  have hp : Measurable fun θ : ℝ => φ (point x y θ) :=
    hφ.comp (measurable_point.comp (f := fun θ : ℝ => ((x, y), θ)) (by fun_prop))
  have e1 : ∀ w : Fin 101 → ℝ, (outcome L x (e, y, w)).elim 0 φ =
      (fun p : ℝ × (Fin 100 → ℝ) => (angles (slice (logLik L) (x, y) (r - e)) 100 p.2 (2 * π * p.1 - 2 * π)
        (2 * π * p.1)).elim 0 fun θ => φ (point x y θ)) (w 0, Fin.tail w) := fun w => outcome_eq hx φ _
  have hm2 : Measurable fun p : ℝ × (Fin 100 → ℝ) => (angles (slice (logLik L) (x, y) (r - e)) 100 p.2
      (2 * π * p.1 - 2 * π) (2 * π * p.1)).elim 0 fun θ => φ (point x y θ) := by
    have := measurable_angles (Ω := Unit) (S := fun _ => slice (logLik L) (x, y) (r - e))
      (φ := fun _ θ => φ (point x y θ)) (hSm.preimage measurable_snd) (hp.comp measurable_snd) 100
    exact this.comp (f := fun p : ℝ × (Fin 100 → ℝ) => ((), p.2, 2 * π * p.1 - 2 * π, 2 * π * p.1)) (by fun_prop)
  rw [lintegral_congr e1, lintegral_pi_succ (μ := unitLaw) (fun p : ℝ × (Fin 100 → ℝ) =>
    (angles (slice (logLik L) (x, y) (r - e)) 100 p.2 (2 * π * p.1 - 2 * π)
        (2 * π * p.1)).elim 0 fun θ => φ (point x y θ)), lintegral_prod _ hm2.aemeasurable]
  have hpi : (0 : ℝ) < 2 * π := by positivity
  have e2 : ∀ a ∈ Ico (0 : ℝ) 1, ∫⁻ w, (angles (slice (logLik L) (x, y) (r - e)) 100 w (2 * π * a - 2 * π)
        (2 * π * a)).elim 0 (fun θ => φ (point x y θ)) ∂(Measure.pi fun _ : Fin 100 => unitLaw) =
      (fun θ₀ => acc (slice (logLik L) (x, y) (r - e)) (fun θ => φ (point x y θ)) 100 0 (θ₀ - 2 * π) θ₀)
        (0 + (2 * π - 0) * a) := fun a ha => by
    rw [lintegral_angles hSm hp 100 (by linarith) (by nlinarith [ha.2]) (by nlinarith [ha.1])]
    simp only [zero_add, sub_zero]
  have e3 := lintegral_unit hpi
    (fun θ₀ => acc (slice (logLik L) (x, y) (r - e)) (fun θ => φ (point x y θ)) 100 0 (θ₀ - 2 * π) θ₀)
  rw [sub_zero] at e3
  unfold ring
  rw [← e3]
  refine setLIntegral_congr_fun measurableSet_Ico fun a ha => ?_
  rw [← sub_zero (2 * π)]
  simpa using e2 a ha

/-- Likelihood times expected new value is the flow out of the state. -/
theorem lik_hop (h : LogLik L) {ψ φ : V → ℝ≥0∞} (hφ : Measurable φ) (x : V) :
    lik L x * (ψ x * hop γ L φ x) = ∫⁻ y, flow (logLik L) ψ φ 100 (x, y) ∂γ := by
  have hℓ := h.measurable_logLik
  have hp0 : ∀ y, point x y 0 = x := fun y => by simp [point]
  have hmem : ∀ y u, (0 : ℝ) ∈ slice (logLik L) (x, y) u ↔ (u : EReal) < logLik L x := fun y u => by
    change (u : EReal) < logLik L (point x y 0) ↔ _
    rw [hp0]
  by_cases h0 : lik L x = 0
  · rw [h0, zero_mul]
    rw [lik_eq, EReal.exp_eq_zero_iff] at h0
    have : ∀ y u, (slice (logLik L) (x, y) u).indicator (fun θ => ψ (point x y θ)) 0 = 0 := fun y u =>
      indicator_of_notMem (fun hm => by rw [hmem, h0] at hm; exact not_lt_bot hm) _
    simp [flow, this]
  · obtain ⟨r, hr⟩ := h.finite h0
    have hlr : logLik L x = r := by simp [logLik, hr]
    have hl : lik L x = ENNReal.ofReal (exp r) := by rw [lik_eq, hlr]; rfl
    have hring : Measurable fun q : V × ℝ => ring (logLik L) φ 100 (x, q.1) q.2 :=
      (measurable_ring hℓ hφ 100).comp (f := fun q : V × ℝ => ((x, q.1), q.2)) (by fun_prop)
    have hR : Measurable fun u : ℝ => ∫⁻ y, ring (logLik L) φ 100 (x, y) u ∂γ :=
      (hring.comp measurable_swap).lintegral_prod_right'
    have hind : ∀ y u, (slice (logLik L) (x, y) u).indicator (fun θ => ψ (point x y θ)) 0 =
        (Iio r).indicator (fun _ => ψ x) u := fun y u => by
      by_cases hu : u < r
      · rw [indicator_of_mem (show u ∈ Iio r from hu), indicator_of_mem ((hmem y u).2
          (by rw [hlr]; exact_mod_cast hu)), hp0]
      · rw [indicator_of_notMem (show u ∉ Iio r from hu), indicator_of_notMem fun hm =>
          hu (by rw [hmem, hlr] at hm; exact_mod_cast hm)]
    have hI : Measurable fun u : ℝ => (Iio r).indicator (fun _ => ψ x) u :=
      measurable_const.indicator measurableSet_Iio
    have e1 : ∫⁻ y, flow (logLik L) ψ φ 100 (x, y) ∂γ = ∫⁻ u, ENNReal.ofReal (exp u) *
        ((Iio r).indicator (fun _ => ψ x) u * ∫⁻ y, ring (logLik L) φ 100 (x, y) u ∂γ) := by
      unfold flow
      simp only [hind]
      rw [lintegral_lintegral_swap]
      · refine lintegral_congr fun u => ?_
        have hru : Measurable fun y => ring (logLik L) φ 100 (x, y) u :=
          hring.comp (measurable_id.prodMk measurable_const)
        rw [← lintegral_const_mul _ hru, ← lintegral_const_mul _ (hru.const_mul _)]
      · refine Measurable.aemeasurable ?_
        exact (by fun_prop : Measurable fun q : V × ℝ => ENNReal.ofReal (exp q.2)).mul
          ((hI.comp measurable_snd).mul hring)
    rw [e1, hop_eq h hr hφ, hl, expMeasure, gammaMeasure]
    have hpdf : Measurable (gammaPDF 1 1) := by
      unfold gammaPDF
      exact (measurable_gammaPDFReal 1 1).ennreal_ofReal
    have hRr : Measurable fun e : ℝ => ∫⁻ y, ring (logLik L) φ 100 (x, y) (r - e) ∂γ :=
      hR.comp (by fun_prop)
    rw [lintegral_withDensity_eq_lintegral_mul _ hpdf hRr, mul_left_comm,
      ← lintegral_const_mul' _ _ ENNReal.ofReal_ne_top, ← lintegral_const_mul _
        ((hpdf.mul hRr).const_mul _), ← lintegral_sub_left_eq_self (fun u => ENNReal.ofReal (exp u) *
        ((Iio r).indicator (fun _ => ψ x) u * ∫⁻ y, ring (logLik L) φ 100 (x, y) u ∂γ)) r]
    have hae : ∀ᵐ e : ℝ, e ≠ 0 := by
      simp [ae_iff]
    refine lintegral_congr_ae ?_
    filter_upwards [hae] with e he
    simp only [Pi.mul_apply]
    by_cases hpos : 0 < e
    · rw [indicator_of_mem (show r - e ∈ Iio r from sub_lt_self r hpos)]
      have : gammaPDF 1 1 e = ENNReal.ofReal (exp (-e)) := by
        have := exponentialPDF_of_nonneg (r := 1) hpos.le
        simp only [one_mul] at this
        exact this
      rw [this, ← mul_assoc (ENNReal.ofReal (exp r)), ← ENNReal.ofReal_mul (exp_pos _).le, ← exp_add,
        ← sub_eq_add_neg, mul_left_comm]
    · have hneg : e < 0 := lt_of_le_of_ne (not_lt.1 hpos) he
      rw [indicator_of_notMem (show r - e ∉ Iio r from fun hm => by
        have : r - e < r := hm
        linarith)]
      have : gammaPDF 1 1 e = 0 := gammaPDF_of_neg hneg
      simp [this]

/-- **Detailed balance** of successful passes with respect to prior times likelihood. -/
theorem hop_symm (hγ : ∀ α, (γ.prod γ).map (ContinuousLinearMap.rotation α) = γ.prod γ) (h : LogLik L)
    {ψ φ : V → ℝ≥0∞} (hψ : Measurable ψ) (hφ : Measurable φ) :
    ∫⁻ x, lik L x * (ψ x * hop γ L φ x) ∂γ = ∫⁻ x, lik L x * (φ x * hop γ L ψ x) ∂γ := by
  have hℓ := h.measurable_logLik
  simp only [lik_hop h hφ, lik_hop h hψ]
  rw [← lintegral_prod _ (measurable_flow hℓ hψ hφ 100).aemeasurable,
    ← lintegral_prod _ (measurable_flow hℓ hφ hψ 100).aemeasurable]
  exact flow_symm hγ hℓ hψ hφ 100

/-! ## Several passes -/

theorem measurable_outcomes (h : LogLik L) {x : V} {r : ℝ} (hx : L x = some (r : EReal)) {φ : V → ℝ≥0∞}
    (hφ : Measurable φ) (n : ℕ) : Measurable fun b : Fin n → Block V => (outcomes L x n b).elim 0 φ := by
  induction n with
  | zero => exact measurable_const
  | succ n ih =>
    have e : (fun b : Fin (n + 1) → Block V => (outcomes L x (n + 1) b).elim 0 φ) = fun b =>
        (outcome L x (b 0)).elim 0 φ + (1 - (outcome L x (b 0)).elim 0 fun _ => 1) *
          (outcomes L x n (Fin.tail b)).elim 0 φ := by
      funext b
      rw [outcomes]
      cases outcome L x (b 0) <;> simp
    rw [e]
    have h0 : Measurable fun b : Fin (n + 1) → Block V => b 0 := measurable_pi_apply 0
    exact ((measurable_outcome h hx hφ).comp h0).add ((measurable_const.sub
      ((measurable_outcome h hx measurable_const).comp h0)).mul (ih.comp measurable_tail))

omit [BorelSpace V] [SecondCountableTopology V] in
theorem hop_le_one (φ : V → ℝ≥0∞) (hφ : ∀ x, φ x ≤ 1) (x : V) : hop γ L φ x ≤ 1 := by
  have h1 : hop γ L φ x ≤ ∫⁻ _, 1 ∂passLaw γ := lintegral_mono fun b => by
    cases outcome L x b with
    | none => exact zero_le_one
    | some x' => exact hφ x'
  refine h1.trans ?_
  rw [lintegral_const, measure_univ, mul_one]

theorem lintegral_outcomes (h : LogLik L) {x : V} {r : ℝ} (hx : L x = some (r : EReal)) {φ : V → ℝ≥0∞}
    (hφ : Measurable φ) (n : ℕ) :
    ∫⁻ b, (outcomes L x n b).elim 0 φ ∂(Measure.pi fun _ : Fin n => passLaw γ) =
      (∑ k ∈ Finset.range n, (1 - hop γ L (fun _ => 1) x) ^ k) * hop γ L φ x := by
  induction n with
  | zero => simp [outcomes]
  | succ n ih =>
    have e : ∀ b : Fin (n + 1) → Block V, (outcomes L x (n + 1) b).elim 0 φ =
        (fun p : Block V × (Fin n → Block V) => (outcome L x p.1).elim 0 φ +
          (1 - (outcome L x p.1).elim 0 fun _ => 1) * (outcomes L x n p.2).elim 0 φ) (b 0, Fin.tail b) := fun b => by
      rw [outcomes]
      beta_reduce
      cases outcome L x (b 0) <;> simp
    have m1 := measurable_outcome h hx hφ
    have m1' : Measurable fun p : Block V × (Fin n → Block V) => (outcome L x p.1).elim 0 φ := m1.comp measurable_fst
    have m2 : Measurable fun b : Block V => 1 - (outcome L x b).elim (0 : ℝ≥0∞) fun _ => 1 :=
      measurable_const.sub (measurable_outcome h hx measurable_const)
    have m3 := measurable_outcomes h hx hφ n
    rw [lintegral_congr e, lintegral_pi_succ (μ := passLaw γ) (fun p : Block V × (Fin n → Block V) =>
      (outcome L x p.1).elim 0 φ +
          (1 - (outcome L x p.1).elim 0 fun _ => 1) * (outcomes L x n p.2).elim 0 φ),
      lintegral_add_left m1', lintegral_prod _ m1'.aemeasurable,
      lintegral_prod_mul m2.aemeasurable m3.aemeasurable, ih]
    simp only [lintegral_const, measure_univ, mul_one]
    rw [lintegral_sub (measurable_outcome h hx measurable_const)]
    · simp only [lintegral_const, measure_univ, mul_one]
      rw [Finset.sum_range_succ', pow_zero, add_mul, one_mul, add_comm]
      congr 1
      rw [← mul_assoc, Finset.mul_sum]
      congr 1
      exact Finset.sum_congr rfl fun k _ => (pow_succ' _ _).symm
    · exact ne_top_of_le_ne_top ENNReal.one_ne_top (hop_le_one (γ := γ) (L := L) (fun _ => 1) (fun _ => le_rfl) x)
    · refine Filter.Eventually.of_forall fun b => ?_
      beta_reduce
      cases outcome L x b <;> simp

/-! ## Random tapes -/

theorem map_infinitePi_reindex {α ι κ : Type} [MeasurableSpace α] [Fintype κ] (μ : Measure α)
    [IsProbabilityMeasure μ] {f : κ → ι} (hf : Function.Injective f) :
    (Measure.infinitePi fun _ : ι => μ).map (fun w k => w (f k)) = Measure.pi fun _ : κ => μ := by
  have hi : iIndepFun (fun (i : ι) (w : ι → α) => w i) (Measure.infinitePi fun _ : ι => μ) :=
    iIndepFun_infinitePi (P := fun _ : ι => μ) (X := fun _ a => a) fun _ => measurable_id
  have hk := (hi.precomp hf).map_fun_eq_infinitePi_map fun k => measurable_pi_apply (f k)
  have he : (fun k : κ => (Measure.infinitePi fun _ : ι => μ).map fun w : ι → α => w (f k)) = fun _ => μ :=
    funext fun k => Measure.infinitePi_map_eval (fun _ : ι => μ) (f k)
  rw [hk, he, Measure.infinitePi_eq_pi]

theorem map_arrow_prod {α β : Type} [MeasurableSpace α] [MeasurableSpace β] (μ : Measure α) (ν : Measure β)
    [SigmaFinite μ] [SigmaFinite ν] (n : ℕ) :
    ((Measure.pi fun _ : Fin n => μ).prod (Measure.pi fun _ : Fin n => ν)).map (fun p j => (p.1 j, p.2 j)) =
      Measure.pi fun _ : Fin n => μ.prod ν :=
  ((measurePreserving_arrowProdEquivProdArrow α β (Fin n) (fun _ => μ) (fun _ => ν)).symm _).map_eq

variable {Ω : Type} [MeasurableSpace Ω] {P : Measure Ω} {T : Ω → Tape V}

omit [NormedAddCommGroup V] [NormedSpace ℝ V] [BorelSpace V] [SecondCountableTopology V] in
theorem measurable_blocks (iE iP iU n : ℕ) :
    Measurable fun (t : (ℕ → ℝ) × (ℕ → V) × (ℕ → ℝ)) (j : Fin n) =>
      ((t.1 (iE + j), t.2.1 (iP + j), fun k : Fin 101 => t.2.2 (iU + 101 * j + k)) : Block V) := by
  refine measurable_pi_iff.2 fun j => ?_
  refine Measurable.prodMk ((measurable_pi_apply _).comp measurable_fst) (Measurable.prodMk
    ((measurable_pi_apply _).comp (measurable_fst.comp measurable_snd)) (measurable_pi_iff.2 fun k => ?_))
  exact (measurable_pi_apply _).comp (measurable_snd.comp measurable_snd)

omit [NormedSpace ℝ V] [BorelSpace V] in
/-- The random numbers of successive passes are independent and have the law of a pass. -/
theorem RandomTape.blocks (hT : RandomTape γ P T) (iE iP iU n : ℕ) :
    P.map (fun ω (j : Fin n) => block (T ω) iE iP iU j) = Measure.pi fun _ : Fin n => passLaw γ := by
  have h1 : (fun ω (j : Fin n) => block (T ω) iE iP iU j) =
      (fun (t : (ℕ → ℝ) × (ℕ → V) × (ℕ → ℝ)) (j : Fin n) =>
        ((t.1 (iE + j), t.2.1 (iP + j), fun k : Fin 101 => t.2.2 (iU + 101 * j + k)) : Block V)) ∘
      fun ω => ((T ω).expo, (T ω).prior, (T ω).unit) := rfl
  rw [h1, ← Measure.map_map (measurable_blocks iE iP iU n) hT.measurable, hT.law]
  have iE' : Function.Injective fun j : Fin n => iE + (j : ℕ) := fun a b hab => Fin.ext (by simpa using hab)
  have iP' : Function.Injective fun j : Fin n => iP + (j : ℕ) := fun a b hab => Fin.ext (by simpa using hab)
  have iU' : Function.Injective fun q : Fin n × Fin 101 => iU + 101 * (q.1 : ℕ) + (q.2 : ℕ) := fun a b hab => by
    obtain ⟨a1, a2⟩ := a
    obtain ⟨b1, b2⟩ := b
    have hab : iU + 101 * (a1 : ℕ) + (a2 : ℕ) = iU + 101 * (b1 : ℕ) + (b2 : ℕ) := hab
    have := a2.2
    have := b2.2
    have e1 : a1 = b1 := Fin.ext (by omega)
    have e2 : a2 = b2 := Fin.ext (by omega)
    rw [e1, e2]
  have hE := map_infinitePi_reindex (expMeasure 1) iE'
  have hP := map_infinitePi_reindex γ iP'
  have hU : (Measure.infinitePi fun _ : ℕ => unitLaw).map
      (fun w (j : Fin n) (k : Fin 101) => w (iU + 101 * (j : ℕ) + (k : ℕ))) =
      Measure.pi fun _ : Fin n => Measure.pi fun _ : Fin 101 => unitLaw := by
    have e : (fun (w : ℕ → ℝ) (j : Fin n) (k : Fin 101) => w (iU + 101 * (j : ℕ) + (k : ℕ))) =
        MeasurableEquiv.curry (Fin n) (Fin 101) ℝ ∘
          fun w (q : Fin n × Fin 101) => w (iU + 101 * (q.1 : ℕ) + (q.2 : ℕ)) := rfl
    have mq : Measurable fun (w : ℕ → ℝ) (q : Fin n × Fin 101) => w (iU + 101 * (q.1 : ℕ) + (q.2 : ℕ)) :=
      measurable_pi_iff.2 fun _ => measurable_pi_apply _
    rw [e, ← Measure.map_map (MeasurableEquiv.measurable _) mq,
      map_infinitePi_reindex unitLaw iU', ← Measure.infinitePi_eq_pi,
      Measure.infinitePi_map_curry (fun (_ : Fin n) (_ : Fin 101) => unitLaw), Measure.infinitePi_eq_pi]
    simp only [Measure.infinitePi_eq_pi]
  have mE : Measurable fun (w : ℕ → ℝ) (j : Fin n) => w (iE + j) := measurable_pi_iff.2 fun _ => measurable_pi_apply _
  have mP : Measurable fun (w : ℕ → V) (j : Fin n) => w (iP + j) := measurable_pi_iff.2 fun _ => measurable_pi_apply _
  have mU : Measurable fun (w : ℕ → ℝ) (j : Fin n) (k : Fin 101) => w (iU + 101 * (j : ℕ) + (k : ℕ)) :=
    measurable_pi_iff.2 fun _ => measurable_pi_iff.2 fun _ => measurable_pi_apply _
  have e : (fun (t : (ℕ → ℝ) × (ℕ → V) × (ℕ → ℝ)) (j : Fin n) =>
        ((t.1 (iE + j), t.2.1 (iP + j), fun k : Fin 101 => t.2.2 (iU + 101 * j + k)) : Block V)) =
      (fun (p : (Fin n → ℝ) × (Fin n → V × (Fin 101 → ℝ))) (j : Fin n) => (p.1 j, p.2 j)) ∘
      (Prod.map id fun (p : (Fin n → V) × (Fin n → Fin 101 → ℝ)) (j : Fin n) => (p.1 j, p.2 j)) ∘
      (Prod.map (fun (w : ℕ → ℝ) (j : Fin n) => w (iE + j)) (Prod.map (fun (w : ℕ → V) (j : Fin n) => w (iP + j))
        fun (w : ℕ → ℝ) (j : Fin n) (k : Fin 101) => w (iU + 101 * (j : ℕ) + (k : ℕ)))) := rfl
  have mz : ∀ {α β : Type} [MeasurableSpace α] [MeasurableSpace β],
      Measurable fun (p : (Fin n → α) × (Fin n → β)) (j : Fin n) => (p.1 j, p.2 j) := by
    intro α β _ _
    exact measurable_pi_iff.2 fun j => ((measurable_pi_apply j).comp measurable_fst).prodMk
      ((measurable_pi_apply j).comp measurable_snd)
  rw [e, ← Measure.map_map mz ((measurable_id.prodMap mz).comp (mE.prodMap (mP.prodMap mU))),
    ← Measure.map_map (measurable_id.prodMap mz) (mE.prodMap (mP.prodMap mU)),
    ← Measure.map_prod_map _ _ mE (mP.prodMap mU), ← Measure.map_prod_map _ _ mP mU, hE, hP, hU,
    ← Measure.map_prod_map _ _ measurable_id mz, Measure.map_id, map_arrow_prod, map_arrow_prod]
  rfl

/-- The expectation of what `_sample` returns. -/
theorem lintegral_sample1 (hT : RandomTape γ P T) (h : LogLik L) {s : State V} (hs : s.logLikX = L s.x) {r : ℝ}
    (hx : L s.x = some (r : EReal)) {φ : V → ℝ≥0∞} (hφ : Measurable φ) (fuel : ℕ) :
    ∫⁻ ω, returned φ (sample1 (T ω) L fuel s) ∂P =
      (∑ k ∈ Finset.range fuel, (1 - hop γ L (fun _ => 1) s.x) ^ k) * hop γ L φ s.x := by
  rw [← lintegral_outcomes h hx hφ fuel, ← hT.blocks s.iE s.iP s.iU fuel, lintegral_map]
  · exact lintegral_congr fun ω => sample1_outcomes fuel hs φ
  · exact measurable_outcomes h hx hφ fuel
  · exact (measurable_blocks s.iE s.iP s.iU fuel).comp hT.measurable

omit [NormedSpace ℝ V] [BorelSpace V] in
theorem lintegral_block (hT : RandomTape γ P T) {F : Block V → ℝ≥0∞} (hF : Measurable F) (iE iP iU : ℕ) :
    ∫⁻ ω, F (block (T ω) iE iP iU 0) ∂P = ∫⁻ b, F b ∂passLaw γ := by
  have h1 := hT.blocks iE iP iU 1
  have h2 : (Measure.pi fun _ : Fin 1 => passLaw γ).map (fun b => b 0) = passLaw γ := by
    have := Measure.infinitePi_map_eval (fun _ : Fin 1 => passLaw γ) 0
    rwa [Measure.infinitePi_eq_pi] at this
  have hF0 : Measurable fun b : Fin 1 → Block V => F (b 0) := hF.comp (measurable_pi_apply 0)
  have hB : Measurable fun ω (j : Fin 1) => block (T ω) iE iP iU j :=
    (measurable_blocks iE iP iU 1).comp hT.measurable
  rw [← h2, ← h1, lintegral_map hF (measurable_pi_apply 0), lintegral_map hF0 hB]
  rfl

/-- The expectation of what a pass does. -/
theorem lintegral_pass (hT : RandomTape γ P T) (h : LogLik L) {s : State V} (hs : s.logLikX = L s.x) {r : ℝ}
    (hx : L s.x = some (r : EReal)) {φ : V → ℝ≥0∞} (hφ : Measurable φ) :
    ∫⁻ ω, moved φ (samplePass (T ω) L s) ∂P = hop γ L φ s.x ∧
    ∫⁻ ω, φ (samplePass (T ω) L s).1.x ∂P =
      hop γ L φ s.x + (1 - hop γ L (fun _ => 1) s.x) * φ s.x := by
  constructor
  · rw [hop, ← lintegral_block hT (measurable_outcome h hx hφ) s.iE s.iP s.iU]
    refine lintegral_congr fun ω => ?_
    have := samplePass_outcome (T := T ω) hs
    generalize samplePass (T ω) L s = p at this
    obtain ⟨s', r'⟩ := p
    cases ho : outcome L s.x (block (T ω) s.iE s.iP s.iU 0) with
    | none => rw [ho] at this; obtain ⟨h1, -⟩ := this; simp only at h1; subst h1; rfl
    | some x' =>
      rw [ho] at this
      obtain ⟨⟨k, h1⟩, h2⟩ := this
      simp only at h1 h2
      subst h1
      simp [moved, h2]
  · have m1 := measurable_outcome h hx hφ
    have m0 : Measurable fun b : Block V => 1 - (outcome L s.x b).elim (0 : ℝ≥0∞) fun _ => 1 :=
      measurable_const.sub (measurable_outcome h hx measurable_const)
    have m2 : Measurable fun b : Block V => (1 - (outcome L s.x b).elim (0 : ℝ≥0∞) fun _ => 1) * φ s.x :=
      m0.mul_const _
    have m3 : Measurable fun b : Block V => (outcome L s.x b).elim 0 φ +
        (1 - (outcome L s.x b).elim (0 : ℝ≥0∞) fun _ => 1) * φ s.x := m1.add m2
    have e : hop γ L φ s.x + (1 - hop γ L (fun _ => 1) s.x) * φ s.x = ∫⁻ b, ((outcome L s.x b).elim 0 φ +
        (1 - (outcome L s.x b).elim (0 : ℝ≥0∞) fun _ => 1) * φ s.x) ∂passLaw γ := by
      rw [lintegral_add_left m1, lintegral_mul_const _ m0, lintegral_sub (measurable_outcome h hx measurable_const)]
      · simp only [lintegral_const, measure_univ, mul_one]
        rfl
      · exact ne_top_of_le_ne_top ENNReal.one_ne_top (hop_le_one (γ := γ) (L := L) (fun _ => 1) (fun _ => le_rfl) _)
      · refine Filter.Eventually.of_forall fun b => ?_
        beta_reduce
        cases outcome L s.x b <;> simp
    rw [e, ← lintegral_block hT m3 s.iE s.iP s.iU]
    refine lintegral_congr fun ω => ?_
    have := samplePass_outcome (T := T ω) hs
    cases ho : outcome L s.x (block (T ω) s.iE s.iP s.iU 0) with
    | none => rw [ho] at this; simp [this.2.1]
    | some x' => rw [ho] at this; simp [this.2]

end law

end Gpcm.Ess
