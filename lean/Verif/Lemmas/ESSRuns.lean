import Verif.Lemmas.ESSTape
import Verif.Spec.ESSLimit
import Verif.Lemmas.MarkovPaths

/-!
# The law of several samples of elliptical slice sampling

`ESS.sample` as a function of the random numbers that are left, and its expectation over random tapes.
-/

set_option linter.unusedSectionVars false

open MeasureTheory ProbabilityTheory Set Real
open scoped ENNReal

namespace Gpcm.Ess

/-- The random numbers that are left: exponential numbers, prior samples, uniform numbers. -/
abbrev Trip (V : Type) := (ℕ → ℝ) × (ℕ → V) × (ℕ → ℝ)

section model

variable {V : Type} [AddCommGroup V] [Module ℝ V] {T : Tape V} {L : V → LL}

/-- `draw` as a function of the numbers that are left. -/
theorem draw_anglesK (n : ℕ) : ∀ {lo hi : ℝ} {u : LL} {att : ℕ} {s : State V} {y : V},
    att + n = 101 → s.y = some y →
    (draw T L lo hi u att 100 s).1.x = s.x ∧ (draw T L lo hi u att 100 s).1.logLikX = s.logLikX ∧
    (draw T L lo hi u att 100 s).1.iE = s.iE ∧ (draw T L lo hi u att 100 s).1.iP = s.iP ∧
    ((∃ θ k, (L (point s.x y θ)).gt u ∧
        (draw T L lo hi u att 100 s).2 = .ok (point s.x y θ, L (point s.x y θ), k) ∧ ∀ K F,
        anglesK {θ | (L (point s.x y θ)).gt u} K F n (fun k => T.unit (s.iU + k)) lo hi =
          K θ fun k => T.unit ((draw T L lo hi u att 100 s).1.iU + k)) ∨
      ((draw T L lo hi u att 100 s).2 = .error .sampleFailed ∧ ∀ K F,
        anglesK {θ | (L (point s.x y θ)).gt u} K F n (fun k => T.unit (s.iU + k)) lo hi =
          F fun k => T.unit ((draw T L lo hi u att 100 s).1.iU + k))) := by
  induction n with
  | zero =>
    intro lo hi u att s y hatt hy
    rw [draw, if_pos (by omega)]
    exact ⟨rfl, rfl, rfl, rfl, Or.inr ⟨rfl, fun K F => rfl⟩⟩
  | succ n ih =>
    intro lo hi u att s y hatt hy
    have hprop := drawProposal_eq (T := T) (L := L) (lo := lo) (hi := hi) hy
    simp only at hprop
    rw [draw, if_neg (by omega), hprop]
    simp only
    have hrest : rest (fun k => T.unit (s.iU + k)) = fun k => T.unit (s.iU + 1 + k) := by
      funext k
      simp only [rest]
      congr 1
      ring
    obtain ⟨θ, hθ⟩ : ∃ θ, θ = lo + (hi - lo) * T.unit s.iU := ⟨_, rfl⟩
    rw [← hθ]
    by_cases hgt : (L (point s.x y θ)).gt u
    · rw [if_pos hgt]
      refine ⟨rfl, rfl, rfl, rfl, Or.inl ⟨θ, att + 1, hgt, rfl, fun K F => ?_⟩⟩
      rw [anglesK, Nat.add_zero, ← hθ, if_pos (by exact hgt), hrest]
    · rw [if_neg hgt]
      by_cases hpos : 0 < θ
      · rw [if_pos hpos]
        obtain ⟨h1, h2, h3, h4, h5⟩ := ih (lo := lo) (hi := θ) (u := u)
          (att := att + 1) (y := y) (s := { s with
            iU := s.iU + 1, theta := some θ
            xProposed := some (point s.x y θ)
            llProposed := some (L (point s.x y θ))
            trace := s.trace ++ [.uniform lo hi θ] ++ [.lik (point s.x y θ) (L (point s.x y θ))] }) (by omega) hy
        refine ⟨h1, h2, h3, h4, ?_⟩
        simp only at h5
        have e : ∀ K F, anglesK {θ | (L (point s.x y θ)).gt u} K F (n + 1) (fun k => T.unit (s.iU + k)) lo hi =
            anglesK {θ | (L (point s.x y θ)).gt u} K F n (fun k => T.unit (s.iU + 1 + k)) lo θ := fun K F => by
          rw [anglesK, Nat.add_zero, ← hθ, if_neg (by exact hgt), if_pos hpos, hrest]
        simp only [e]
        exact h5
      · rw [if_neg hpos]
        obtain ⟨h1, h2, h3, h4, h5⟩ := ih (lo := θ) (hi := hi) (u := u)
          (att := att + 1) (y := y) (s := { s with
            iU := s.iU + 1, theta := some θ
            xProposed := some (point s.x y θ)
            llProposed := some (L (point s.x y θ))
            trace := s.trace ++ [.uniform lo hi θ] ++ [.lik (point s.x y θ) (L (point s.x y θ))] }) (by omega) hy
        refine ⟨h1, h2, h3, h4, ?_⟩
        simp only at h5
        have e : ∀ K F, anglesK {θ | (L (point s.x y θ)).gt u} K F (n + 1) (fun k => T.unit (s.iU + k)) lo hi =
            anglesK {θ | (L (point s.x y θ)).gt u} K F n (fun k => T.unit (s.iU + 1 + k)) θ hi := fun K F => by
          rw [anglesK, Nat.add_zero, ← hθ, if_neg (by exact hgt), if_neg hpos, hrest]
        simp only [e]
        exact h5

/-- The random numbers that are left in a state. -/
def left (T : Tape V) (s : State V) : Trip V :=
  (fun k => T.expo (s.iE + k), fun k => T.prior (s.iP + k), fun k => T.unit (s.iU + k))

/-- What happens after a pass: `K` at the new state or `F`, with the numbers that are left. -/
noncomputable def passK (L : V → LL) (K : V → Trip V → ℝ≥0∞) (F : Trip V → ℝ≥0∞) (x : V) (t : Trip V) : ℝ≥0∞ :=
  anglesK {θ | (((logLik L x).toReal - t.1 0 : ℝ) : EReal) < logLik L (point x (t.2.1 0) θ)}
    (fun θ w => K (point x (t.2.1 0) θ) (rest t.1, rest t.2.1, w)) (fun w => F (rest t.1, rest t.2.1, w)) 100 (rest t.2.2)
    (2 * π * t.2.2 0 - 2 * π) (2 * π * t.2.2 0)

theorem samplePass_passK {s : State V} (hs : s.logLikX = L s.x) {r : ℝ} (hr : L s.x = some (r : EReal)) :
    (∃ x' k, (logLik L x' ≠ ⊥) ∧ (samplePass T L s).2 = .done k ∧ (samplePass T L s).1.x = x' ∧
        (samplePass T L s).1.logLikX = L x' ∧ ∀ K F, passK L K F s.x (left T s) = K x' (left T (samplePass T L s).1)) ∨
      ((samplePass T L s).2 = .again ∧ (samplePass T L s).1.x = s.x ∧ (samplePass T L s).1.logLikX = s.logLikX ∧
        ∀ K F, passK L K F s.x (left T s) = F (left T (samplePass T L s).1)) := by
  obtain ⟨θ, hθ⟩ : ∃ θ, θ = 2 * π * T.unit s.iU := ⟨_, rfl⟩
  obtain ⟨s2, hs2⟩ : ∃ s2 : State V, s2 = { s with
      iE := s.iE + 1, y := some (T.prior s.iP), iP := s.iP + 1, iU := s.iU + 1
      trace := s.trace ++ [.expo (T.expo s.iE)] ++ [.prior (T.prior s.iP)] ++
        [.uniform 0 (2 * π) θ] } := ⟨_, rfl⟩
  have hb : prepare T s = (s.logLikX.sub (T.expo s.iE), (θ - 2 * π, θ), s2) := by
    simp only [prepare, drawHeight, drawBracket, uniform, establishEllipse, hs2, hθ, sub_zero, zero_add]
  obtain ⟨h1, h2, h3, h4, h5⟩ := draw_anglesK (T := T) (L := L) 100 (lo := θ - 2 * π) (hi := θ)
    (u := s.logLikX.sub (T.expo s.iE)) (att := 1) (s := s2) (y := T.prior s.iP) rfl (by rw [hs2])
  have hx2 : s2.x = s.x := by rw [hs2]
  have hl2 : s2.logLikX = s.logLikX := by rw [hs2]
  have hE2 : s2.iE = s.iE + 1 := by rw [hs2]
  have hP2 : s2.iP = s.iP + 1 := by rw [hs2]
  have hU2 : s2.iU = s.iU + 1 := by rw [hs2]
  rw [hx2] at h1 h5
  rw [hl2] at h2
  rw [hE2] at h3
  rw [hP2] at h4
  rw [hU2] at h5
  unfold samplePass
  rw [hb]
  simp only
  have hlr : (logLik L s.x).toReal = r := by rw [logLik, hr]; rfl
  have hsub : s.logLikX.sub (T.expo s.iE) = some ((r - T.expo s.iE : ℝ) : EReal) := by
    rw [hs, hr]
    simp [LL.sub]
  have hS : {θ | (L (point s.x (T.prior s.iP) θ)).gt (s.logLikX.sub (T.expo s.iE))} =
      {θ | ((r - T.expo s.iE : ℝ) : EReal) < logLik L (point s.x (T.prior s.iP) θ)} := by
    ext θ
    rw [hsub]
    exact gt_iff L _ _
  have hsh : ∀ {α : Type} (f : ℕ → α) (n : ℕ), rest (fun k => f (n + k)) = fun k => f (n + 1 + k) := fun f n => by
    funext k
    simp only [rest]
    congr 1
    ring
  have hpass : ∀ K F, passK L K F s.x (left T s) =
      anglesK {θ | (L (point s.x (T.prior s.iP) θ)).gt (s.logLikX.sub (T.expo s.iE))}
        (fun θ w => K (point s.x (T.prior s.iP) θ) (fun k => T.expo (s.iE + 1 + k), fun k => T.prior (s.iP + 1 + k), w))
        (fun w => F (fun k => T.expo (s.iE + 1 + k), fun k => T.prior (s.iP + 1 + k), w)) 100
        (fun k => T.unit (s.iU + 1 + k)) (θ - 2 * π) θ := fun K F => by
    unfold passK
    simp only [left, hsh, Nat.add_zero, ← hθ, hlr, hS]
  simp only [hpass]
  generalize draw T L (θ - 2 * π) θ (s.logLikX.sub (T.expo s.iE)) 1 100 s2 = d at h1 h2 h3 h4 h5 ⊢
  obtain ⟨s3, res⟩ := d
  simp only at h1 h2 h3 h4 h5
  rcases h5 with ⟨θ', k, hgt, h5, h6⟩ | ⟨h5, h6⟩
  · subst h5
    refine Or.inl ⟨point s.x (T.prior s.iP) θ', k, ?_, rfl, rfl, rfl, fun K F => ?_⟩
    · rw [hsub, gt_iff] at hgt
      exact fun hb => not_lt_bot (hb ▸ hgt)
    · rw [h6]
      simp only [finishPass, left, h3, h4]
  · subst h5
    refine Or.inr ⟨rfl, h1, h2, fun K F => ?_⟩
    rw [h6]
    simp only [finishPass, left, h3, h4]

/-- What happens after a call of `_sample`. -/
noncomputable def run1 (L : V → LL) (K : V → Trip V → ℝ≥0∞) : ℕ → V → Trip V → ℝ≥0∞
  | 0, _, _ => 0
  | f + 1, x, t => passK L K (run1 L K f x) x t

/-- What happens after a call of `sample`. -/
noncomputable def runs (L : V → LL) (f : ℕ) : ℕ → (List V → ℝ≥0∞) → V → Trip V → ℝ≥0∞
  | 0, G, _, _ => G []
  | n + 1, G, x, t => run1 L (fun x' t' => runs L f n (fun xs => G (x' :: xs)) x' t') f x t

theorem sample1_run1 (f : ℕ) : ∀ {s : State V}, s.logLikX = L s.x → ∀ {r : ℝ}, L s.x = some (r : EReal) →
    (∃ s' k, sample1 T L f s = some (s', .ok k) ∧ s'.logLikX = L s'.x ∧ logLik L s'.x ≠ ⊥ ∧
        ∀ K, run1 L K f s.x (left T s) = K s'.x (left T s')) ∨
      (sample1 T L f s = none ∧ ∀ K, run1 L K f s.x (left T s) = 0) := by
  induction f with
  | zero => intro s hs r hr; exact Or.inr ⟨rfl, fun K => rfl⟩
  | succ f ih =>
    intro s hs r hr
    have h := samplePass_passK (T := T) hs hr
    simp only [sample1, run1]
    generalize hp : samplePass T L s = p at h ⊢
    obtain ⟨s', res⟩ := p
    simp only at h
    rcases h with ⟨x', k, hb, h1, h2, h3, h4⟩ | ⟨h1, h2, h3, h4⟩
    · subst h1
      subst h2
      exact Or.inl ⟨s', k, rfl, h3, hb, fun K => h4 K _⟩
    · subst h1
      simp only [h4]
      have := ih (s := s') (by rw [h3, h2, hs]) (r := r) (by rw [h2, hr])
      rw [h2] at this
      exact this

theorem finite_of_ne_bot (hL : ∀ x, L x ≠ some ⊤) {x : V} (hx : logLik L x ≠ ⊥) : ∃ r : ℝ, L x = some (r : EReal) := by
  unfold logLik at hx
  cases hl : L x with
  | none => rw [hl] at hx; exact (hx rfl).elim
  | some l =>
    rw [hl] at hx
    induction l with
    | bot => exact (hx rfl).elim
    | top => exact (hL x hl).elim
    | coe r => exact ⟨r, rfl⟩

theorem sample_runs (hL : ∀ x, L x ≠ some ⊤) (f n : ℕ) : ∀ {s : State V}, s.logLikX = L s.x → logLik L s.x ≠ ⊥ →
    ∀ G : List V → ℝ≥0∞, collected G (sample T L f n s) = runs L f n G s.x (left T s) := by
  induction n with
  | zero => intro s hs hx G; rfl
  | succ n ih =>
    intro s hs hx G
    obtain ⟨r, hr⟩ := finite_of_ne_bot hL hx
    rw [sample, runs]
    rcases sample1_run1 (T := T) f hs hr with ⟨s', k, h1, h2, h3, h4⟩ | ⟨h1, h2⟩
    · rw [h1, h4, ← ih h2 h3]
      simp only
      cases sample T L f n s' with
      | none => rfl
      | some p =>
        obtain ⟨s'', res⟩ := p
        cases res <;> rfl
    · rw [h1, h2]
      rfl

end model

/-! ## Expectations -/

section law

variable {V : Type} [NormedAddCommGroup V] [NormedSpace ℝ V] [MeasurableSpace V] [BorelSpace V]
  [SecondCountableTopology V] {γ : Measure V} [IsProbabilityMeasure γ] {L : V → LL}

theorem measurable_passK (h : LogLik L) {Θ : Type} [MeasurableSpace Θ] {K : Θ → V → Trip V → ℝ≥0∞}
    (hK : Measurable fun q : Θ × V × Trip V => K q.1 q.2.1 q.2.2) {F : Θ → V → Trip V → ℝ≥0∞}
    (hF : Measurable fun q : Θ × V × Trip V => F q.1 q.2.1 q.2.2) :
    Measurable fun q : Θ × V × Trip V => passK L (K q.1) (F q.1 q.2.1) q.2.1 q.2.2 := by
  unfold passK
  have h0 : Measurable fun q : ((V × V) × ℝ) × ℝ => point q.1.1.1 q.1.1.2 q.2 :=
    measurable_point.comp (f := fun q : ((V × V) × ℝ) × ℝ => (q.1.1, q.2)) (by fun_prop)
  have hℓ : Measurable fun q : (Θ × V × (ℕ → ℝ) × (ℕ → V)) => (logLik L q.2.1).toReal - q.2.2.1 0 := by
    refine Measurable.sub ?_ ?_
    · exact measurable_ereal_toReal.comp (h.measurable_logLik.comp (by fun_prop))
    · exact (measurable_pi_apply 0).comp (by fun_prop)
  have hy : Measurable fun q : (Θ × V × (ℕ → ℝ) × (ℕ → V)) × ℝ => point q.1.2.1 (q.1.2.2.2 0) q.2 :=
    measurable_point.comp (f := fun q : (Θ × V × (ℕ → ℝ) × (ℕ → V)) × ℝ => ((q.1.2.1, q.1.2.2.2 0), q.2))
      ((Measurable.prodMk (by fun_prop) ((measurable_pi_apply 0).comp (by fun_prop))).prodMk measurable_snd)
  have := measurable_anglesK (Ω := Θ × V × (ℕ → ℝ) × (ℕ → V))
    (S := fun q => {θ | (((logLik L q.2.1).toReal - q.2.2.1 0 : ℝ) : EReal) < logLik L (point q.2.1 (q.2.2.2 0) θ)})
    (K := fun q θ w => K q.1 (point q.2.1 (q.2.2.2 0) θ) (rest q.2.2.1, rest q.2.2.2, w))
    (F := fun q w => F q.1 q.2.1 (rest q.2.2.1, rest q.2.2.2, w))
    (measurableSet_lt (measurable_coe_real_ereal.comp (hℓ.comp measurable_fst)) (h.measurable_logLik.comp hy))
    (hK.comp (f := fun q : (Θ × V × (ℕ → ℝ) × (ℕ → V)) × ℝ × (ℕ → ℝ) =>
      (q.1.1, point q.1.2.1 (q.1.2.2.2 0) q.2.1, rest q.1.2.2.1, rest q.1.2.2.2, q.2.2)) (by
        refine Measurable.prodMk (by fun_prop) (Measurable.prodMk (hy.comp (f := fun q :
          (Θ × V × (ℕ → ℝ) × (ℕ → V)) × ℝ × (ℕ → ℝ) => (q.1, q.2.1)) (by fun_prop)) (Measurable.prodMk ?_
            (Measurable.prodMk ?_ (by fun_prop))))
        · exact measurable_rest.comp (by fun_prop)
        · exact measurable_rest.comp (by fun_prop)))
    (hF.comp (f := fun q : (Θ × V × (ℕ → ℝ) × (ℕ → V)) × (ℕ → ℝ) =>
      (q.1.1, q.1.2.1, rest q.1.2.2.1, rest q.1.2.2.2, q.2)) (by
        refine Measurable.prodMk (by fun_prop) (Measurable.prodMk (by fun_prop) (Measurable.prodMk ?_
            (Measurable.prodMk ?_ (by fun_prop))))
        · exact measurable_rest.comp (by fun_prop)
        · exact measurable_rest.comp (by fun_prop))) 100
  refine this.comp (f := fun q : Θ × V × Trip V => ((q.1, q.2.1, q.2.2.1, q.2.2.2.1), rest q.2.2.2.2,
    2 * π * q.2.2.2.2 0 - 2 * π, 2 * π * q.2.2.2.2 0)) ?_
  have hu : Measurable fun q : Θ × V × Trip V => q.2.2.2.2 0 := (measurable_pi_apply 0).comp (by fun_prop)
  refine Measurable.prodMk (by fun_prop) (Measurable.prodMk (measurable_rest.comp (by fun_prop)) (Measurable.prodMk ?_ ?_))
  · exact (hu.const_mul _).sub_const _
  · exact hu.const_mul _

theorem measurable_run1 (h : LogLik L) {Θ : Type} [MeasurableSpace Θ] {K : Θ → V → Trip V → ℝ≥0∞}
    (hK : Measurable fun q : Θ × V × Trip V => K q.1 q.2.1 q.2.2) (f : ℕ) :
    Measurable fun q : Θ × V × Trip V => run1 L (K q.1) f q.2.1 q.2.2 := by
  induction f with
  | zero => exact measurable_const
  | succ f ih => exact measurable_passK h hK (F := fun q x t => run1 L (K q) f x t) ih

theorem range_cons {α : Type} (n : ℕ) (a : α) (l : ℕ → α) :
    (List.range (n + 1)).map (Markov.cons a l) = a :: (List.range n).map l := by
  rw [List.range_succ_eq_map, List.map_cons, List.map_map]
  rfl

theorem measurable_runs (h : LogLik L) (f n : ℕ) : ∀ {Θ : Type} [MeasurableSpace Θ] {G : Θ → List V → ℝ≥0∞},
    (Measurable fun q : Θ × (ℕ → V) => G q.1 ((List.range n).map q.2)) →
    Measurable fun q : Θ × V × Trip V => runs L f n (G q.1) q.2.1 q.2.2 := by
  induction n with
  | zero =>
    intro Θ _ G hG
    exact hG.comp (f := fun q : Θ × V × Trip V => (q.1, fun _ => q.2.1)) (by fun_prop)
  | succ n ih =>
    intro Θ _ G hG
    have h1 := ih (Θ := Θ × V) (G := fun q xs => G q.1 (q.2 :: xs)) (by
      simp only [← range_cons]
      exact hG.comp (f := fun q : (Θ × V) × (ℕ → V) => (q.1.1, Markov.cons q.1.2 q.2)) (Measurable.prodMk (by fun_prop)
        (Markov.measurable_cons.comp (f := fun q : (Θ × V) × (ℕ → V) => (q.1.2, q.2)) (by fun_prop))))
    exact measurable_run1 h (K := fun q x t => runs L f n (fun xs => G q (x :: xs)) x t)
      (h1.comp (f := fun q : Θ × V × Trip V => ((q.1, q.2.1), q.2)) (by fun_prop)) f

theorem lintegral_trip {F : Trip V → ℝ≥0∞} (hF : Measurable F) :
    ∫⁻ t, F t ∂tapeLaw γ = ∫⁻ e, ∫⁻ y, ∫⁻ u, F (e, y, u) ∂seqLaw unitLaw ∂seqLaw γ ∂seqLaw (expMeasure 1) := by
  unfold tapeLaw
  rw [lintegral_prod _ hF.aemeasurable]
  refine lintegral_congr fun e => ?_
  have h1 : Measurable fun q : (ℕ → V) × (ℕ → ℝ) => F (e, q) := hF.comp measurable_prodMk_left
  rw [lintegral_prod _ h1.aemeasurable]

theorem lintegral_two {F : Trip V → ℝ≥0∞} (hF : Measurable F) :
    ∫⁻ q : (ℕ → ℝ) × (ℕ → V), ∫⁻ u, F (q.1, q.2, u) ∂seqLaw unitLaw ∂((seqLaw (expMeasure 1)).prod (seqLaw γ)) =
      ∫⁻ t, F t ∂tapeLaw γ := by
  have h1 : Measurable fun q : (ℕ → ℝ) × (ℕ → V) => ∫⁻ u, F (q.1, q.2, u) ∂seqLaw unitLaw :=
    (hF.comp (f := fun q : ((ℕ → ℝ) × (ℕ → V)) × (ℕ → ℝ) => (q.1.1, q.1.2, q.2)) (by fun_prop)).lintegral_prod_right'
  rw [lintegral_trip hF, lintegral_prod _ h1.aemeasurable]

/-- The first exponential number and the first prior sample are independent of the others. -/
theorem lintegral_first {G : Block V × ((ℕ → ℝ) × (ℕ → V)) → ℝ≥0∞} (hG : Measurable G) :
    ∫⁻ e, ∫⁻ y, ∫⁻ w, G ((e 0, y 0, w), (rest e, rest y)) ∂(Measure.pi fun _ : Fin 101 => unitLaw) ∂seqLaw γ
        ∂seqLaw (expMeasure 1) =
      ∫⁻ b, ∫⁻ q, G (b, q) ∂((seqLaw (expMeasure 1)).prod (seqLaw γ)) ∂passLaw γ := by
  have m1 : Measurable fun q : ((ℝ × (ℕ → ℝ)) × (V × (ℕ → V))) × (Fin 101 → ℝ) =>
      G ((q.1.1.1, q.1.2.1, q.2), (q.1.1.2, q.1.2.2)) := hG.comp (by fun_prop)
  have m2 : Measurable fun q : (ℝ × (ℕ → ℝ)) × (V × (ℕ → V)) => ∫⁻ w, G ((q.1.1, q.2.1, w), (q.1.2, q.2.2))
      ∂(Measure.pi fun _ : Fin 101 => unitLaw) := m1.lintegral_prod_right'
  have e1 : ∀ e : ℕ → ℝ, ∫⁻ y, ∫⁻ w, G ((e 0, y 0, w), (rest e, rest y)) ∂(Measure.pi fun _ : Fin 101 => unitLaw) ∂seqLaw γ =
      ∫⁻ y0, ∫⁻ y, ∫⁻ w, G ((e 0, y0, w), (rest e, y)) ∂(Measure.pi fun _ : Fin 101 => unitLaw) ∂seqLaw γ ∂γ := fun e =>
    lintegral_seqLaw γ (G := fun q : V × (ℕ → V) => ∫⁻ w, G ((e 0, q.1, w), (rest e, q.2))
      ∂(Measure.pi fun _ : Fin 101 => unitLaw)) (m2.comp (f := fun q : V × (ℕ → V) => ((e 0, rest e), q)) (by fun_prop))
  have m3 : Measurable fun q : (ℝ × (ℕ → ℝ)) × V => ∫⁻ y, ∫⁻ w, G ((q.1.1, q.2, w), (q.1.2, y))
      ∂(Measure.pi fun _ : Fin 101 => unitLaw) ∂seqLaw γ :=
    (m2.comp (f := fun q : ((ℝ × (ℕ → ℝ)) × V) × (ℕ → V) => (q.1.1, (q.1.2, q.2))) (by fun_prop)).lintegral_prod_right'
  rw [lintegral_congr e1, lintegral_seqLaw (expMeasure 1) (G := fun q : ℝ × (ℕ → ℝ) => ∫⁻ y0, ∫⁻ y, ∫⁻ w,
    G ((q.1, y0, w), (q.2, y)) ∂(Measure.pi fun _ : Fin 101 => unitLaw) ∂seqLaw γ ∂γ) m3.lintegral_prod_right']
  unfold passLaw
  have m4 : Measurable fun b : Block V => ∫⁻ q, G (b, q) ∂((seqLaw (expMeasure 1)).prod (seqLaw γ)) :=
    hG.lintegral_prod_right'
  rw [lintegral_prod _ m4.aemeasurable]
  refine lintegral_congr fun a => ?_
  have m5 : Measurable fun q : V × (Fin 101 → ℝ) => ∫⁻ p, G ((a, q), p) ∂((seqLaw (expMeasure 1)).prod (seqLaw γ)) :=
    m4.comp measurable_prodMk_left
  rw [lintegral_prod _ m5.aemeasurable, lintegral_lintegral_swap]
  · refine lintegral_congr fun y0 => ?_
    have m6 : Measurable fun q : (Fin 101 → ℝ) × ((ℕ → ℝ) × (ℕ → V)) => G ((a, y0, q.1), q.2) :=
      hG.comp (by fun_prop)
    refine Eq.trans ?_ (lintegral_lintegral_swap (f := fun w q => G ((a, y0, w), q)) m6.aemeasurable).symm
    have m7 : Measurable fun q : (ℕ → ℝ) × (ℕ → V) => ∫⁻ w, G ((a, y0, w), q) ∂(Measure.pi fun _ : Fin 101 => unitLaw) :=
      m6.lintegral_prod_left'
    rw [lintegral_prod _ m7.aemeasurable]
  · exact (m3.comp (f := fun q : (ℕ → ℝ) × V => ((a, q.1), q.2)) (by fun_prop)).aemeasurable

theorem measurable_outcome_elim (h : LogLik L) {x : V} {r : ℝ} (hx : L x = some (r : EReal)) {Θ : Type} [MeasurableSpace Θ]
    {F : Θ → ℝ≥0∞} (hF : Measurable F) {K : V → Θ → ℝ≥0∞} (hK : Measurable fun q : V × Θ => K q.1 q.2) :
    Measurable fun q : Block V × Θ => (outcome L x q.1).elim (F q.2) fun x' => K x' q.2 := by
  have h0 := measurable_outcome h hx (measurable_const (a := (1 : ℝ≥0∞)))
  have h1 := measurable_angles (Ω := ((V × V) × ℝ) × Θ) (S := fun q => slice (logLik L) q.1.1 q.1.2)
    (φ := fun q θ => K (point q.1.1.1 q.1.1.2 θ) q.2)
    ((measurableSet_slice h.measurable_logLik).preimage (f := fun q : (((V × V) × ℝ) × Θ) × ℝ => (q.1.1, q.2)) (by fun_prop))
    (hK.comp ((measurable_point.comp (f := fun q : (((V × V) × ℝ) × Θ) × ℝ => (q.1.1.1, q.2)) (by fun_prop)).prodMk
      (by fun_prop : Measurable fun q : (((V × V) × ℝ) × Θ) × ℝ => q.1.2))) 100
  have h2 : Measurable fun q : Block V × Θ => ((((x, q.1.2.1), r - q.1.1), q.2) : ((V × V) × ℝ) × Θ) := by fun_prop
  have h3 : Measurable fun q : Block V × Θ => (Fin.tail q.1.2.2 : Fin 100 → ℝ) := measurable_tail.comp (by fun_prop)
  have h4 : Measurable fun q : Block V × Θ => (outcome L x q.1).elim 0 fun x' => K x' q.2 := by
    have := h1.comp (h2.prodMk (h3.prodMk (by fun_prop :
      Measurable fun q : Block V × Θ => (2 * π * q.1.2.2 0 - 2 * π, 2 * π * q.1.2.2 0))))
    convert this using 1
    funext q
    exact outcome_eq hx (fun x' => K x' q.2) q.1
  have h5 := h4.add (((measurable_const (a := (1 : ℝ≥0∞))).sub (h0.comp measurable_fst)).mul (hF.comp measurable_snd))
  convert h5 using 1
  funext q
  simp only [Pi.add_apply, Pi.mul_apply, Pi.sub_apply, Function.comp]
  cases outcome L x q.1 <;> simp

/-- After a pass, the numbers that are left are as good as fresh ones. -/
theorem lintegral_passK (h : LogLik L) {x : V} {r : ℝ} (hx : L x = some (r : EReal)) {K : V → Trip V → ℝ≥0∞}
    (hK : Measurable fun q : V × Trip V => K q.1 q.2) {F : Trip V → ℝ≥0∞} (hF : Measurable F) :
    ∫⁻ t, passK L K F x t ∂tapeLaw γ =
      ∫⁻ b, (outcome L x b).elim (∫⁻ t, F t ∂tapeLaw γ) (fun x' => ∫⁻ t, K x' t ∂tapeLaw γ) ∂passLaw γ := by
  have hlr : (logLik L x).toReal = r := by rw [logLik, hx]; rfl
  have hm : Measurable fun t : Trip V => passK L K F x t :=
    (measurable_passK h (Θ := Unit) (K := fun _ => K) (F := fun _ _ => F) (hK.comp measurable_snd)
      (hF.comp (f := fun q : Unit × V × Trip V => q.2.2) (by fun_prop))).comp (f := fun t : Trip V => ((), x, t)) (by fun_prop)
  have hF2 : Measurable fun q : (ℕ → ℝ) × (ℕ → V) => ∫⁻ u, F (q.1, q.2, u) ∂seqLaw unitLaw :=
    (hF.comp (f := fun q : ((ℕ → ℝ) × (ℕ → V)) × (ℕ → ℝ) => (q.1.1, q.1.2, q.2)) (by fun_prop)).lintegral_prod_right'
  have hK2 : Measurable fun q : V × ((ℕ → ℝ) × (ℕ → V)) => ∫⁻ u, K q.1 (q.2.1, q.2.2, u) ∂seqLaw unitLaw :=
    (hK.comp (f := fun q : (V × ((ℕ → ℝ) × (ℕ → V))) × (ℕ → ℝ) => (q.1.1, (q.1.2.1, q.1.2.2, q.2)))
      (by fun_prop)).lintegral_prod_right'
  obtain ⟨G, hG⟩ : ∃ G : Block V × ((ℕ → ℝ) × (ℕ → V)) → ℝ≥0∞, G = fun q => (outcome L x q.1).elim
    (∫⁻ u, F (q.2.1, q.2.2, u) ∂seqLaw unitLaw) fun x' => ∫⁻ u, K x' (q.2.1, q.2.2, u) ∂seqLaw unitLaw := ⟨_, rfl⟩
  have hGm : Measurable G := by
    rw [hG]
    exact measurable_outcome_elim h hx hF2 (K := fun x' q => ∫⁻ u, K x' (q.1, q.2, u) ∂seqLaw unitLaw) hK2
  have e1 : ∀ (e : ℕ → ℝ) (y : ℕ → V), ∫⁻ u, passK L K F x (e, y, u) ∂seqLaw unitLaw =
      ∫⁻ w, G ((e 0, y 0, w), (rest e, rest y)) ∂(Measure.pi fun _ : Fin 101 => unitLaw) := fun e y => by
    have hSm : MeasurableSet (slice (logLik L) (x, y 0) (r - e 0)) :=
      (measurableSet_slice h.measurable_logLik).preimage (f := fun θ : ℝ => (((x, y 0), r - e 0), θ)) (by fun_prop)
    obtain ⟨K', hK'⟩ : ∃ K' : ℝ → (ℕ → ℝ) → ℝ≥0∞, K' = fun θ w => K (point x (y 0) θ) (rest e, rest y, w) := ⟨_, rfl⟩
    obtain ⟨F', hF'⟩ : ∃ F' : (ℕ → ℝ) → ℝ≥0∞, F' = fun w => F (rest e, rest y, w) := ⟨_, rfl⟩
    have hp : Measurable fun θ : ℝ => point x (y 0) θ :=
      measurable_point.comp (f := fun θ : ℝ => ((x, y 0), θ)) (by fun_prop)
    have hK'm : Measurable fun q : ℝ × (ℕ → ℝ) => K' q.1 q.2 := by
      rw [hK']
      exact hK.comp (f := fun q : ℝ × (ℕ → ℝ) => (point x (y 0) q.1, (rest e, rest y, q.2)))
        ((hp.comp measurable_fst).prodMk (by fun_prop))
    have hF'm : Measurable F' := by
      rw [hF']
      exact hF.comp (f := fun w : ℕ → ℝ => (rest e, rest y, w)) (by fun_prop)
    have hA := measurable_anglesK (Ω := Unit) (S := fun _ => slice (logLik L) (x, y 0) (r - e 0)) (K := fun _ => K')
      (F := fun _ => F') (hSm.preimage measurable_snd) (hK'm.comp measurable_snd) (hF'm.comp measurable_snd) 100
    have h1 : ∀ u : ℕ → ℝ, passK L K F x (e, y, u) = (fun q : ℝ × (ℕ → ℝ) => anglesK (slice (logLik L) (x, y 0) (r - e 0))
        K' F' 100 q.2 (2 * π * q.1 - 2 * π) (2 * π * q.1)) (u 0, rest u) := fun u => by
      unfold passK
      rw [hlr, hK', hF']
      rfl
    rw [lintegral_congr h1, lintegral_seqLaw unitLaw (G := fun q : ℝ × (ℕ → ℝ) => anglesK (slice (logLik L) (x, y 0)
      (r - e 0)) K' F' 100 q.2 (2 * π * q.1 - 2 * π) (2 * π * q.1))
      (hA.comp (f := fun q : ℝ × (ℕ → ℝ) => ((), q.2, 2 * π * q.1 - 2 * π, 2 * π * q.1)) (by fun_prop))]
    simp only [lintegral_anglesK hSm hK'm hF'm]
    have h2 : ∀ w : Fin 101 → ℝ, G ((e 0, y 0, w), (rest e, rest y)) = (fun p : ℝ × (Fin 100 → ℝ) =>
        G ((e 0, y 0, (Fin.cons p.1 p.2 : Fin 101 → ℝ)), (rest e, rest y))) (w 0, Fin.tail w) := fun w => by
      simp only [Fin.cons_self_tail]
    have h3 : Measurable fun p : ℝ × (Fin 100 → ℝ) => G ((e 0, y 0, (Fin.cons p.1 p.2 : Fin 101 → ℝ)), (rest e, rest y)) :=
      hGm.comp (Measurable.prodMk (Measurable.prodMk measurable_const (Measurable.prodMk measurable_const measurable_cons))
        measurable_const)
    rw [lintegral_congr h2, lintegral_pi_succ (μ := unitLaw) (fun p : ℝ × (Fin 100 → ℝ) =>
        G ((e 0, y 0, (Fin.cons p.1 p.2 : Fin 101 → ℝ)), (rest e, rest y))), lintegral_prod _ h3.aemeasurable]
    refine lintegral_congr fun a => lintegral_congr fun w => ?_
    rw [hG]
    have hS : {θ | (L (point x (y 0) θ)).gt ((L x).sub (e 0))} = slice (logLik L) (x, y 0) (r - e 0) := by
      ext θ
      rw [hx]
      exact gt_iff L _ (r - e 0)
    simp only [outcome, hS, Fin.cons_zero, Fin.tail_cons]
    rw [hK', hF']
    cases angles (slice (logLik L) (x, y 0) (r - e 0)) 100 w (2 * π * a - 2 * π) (2 * π * a) <;> rfl
  rw [lintegral_trip hm]
  simp only [e1]
  rw [lintegral_first hGm]
  refine lintegral_congr fun b => ?_
  rw [hG]
  simp only
  generalize outcome L x b = o
  cases o with
  | none => exact lintegral_two hF
  | some x' => exact lintegral_two (F := K x') (hK.comp measurable_prodMk_left)

theorem lintegral_elim (h : LogLik L) {x : V} {r : ℝ} (hx : L x = some (r : EReal)) {φ : V → ℝ≥0∞} (hφ : Measurable φ)
    (c : ℝ≥0∞) : ∫⁻ b, (outcome L x b).elim c φ ∂passLaw γ = hop γ L φ x + (1 - hop γ L (fun _ => 1) x) * c := by
  have m1 := measurable_outcome h hx hφ
  have m0 : Measurable fun b : Block V => 1 - (outcome L x b).elim (0 : ℝ≥0∞) fun _ => 1 :=
    measurable_const.sub (measurable_outcome h hx measurable_const)
  have e : ∀ b : Block V, (outcome L x b).elim c φ = (outcome L x b).elim 0 φ +
      (1 - (outcome L x b).elim (0 : ℝ≥0∞) fun _ => 1) * c := fun b => by
    cases outcome L x b <;> simp
  rw [lintegral_congr e, lintegral_add_left m1, lintegral_mul_const _ m0, lintegral_sub (measurable_outcome h hx measurable_const)]
  · simp only [lintegral_const, measure_univ, mul_one]
    rfl
  · exact ne_top_of_le_ne_top ENNReal.one_ne_top (hop_le_one (γ := γ) (L := L) (fun _ => 1) (fun _ => le_rfl) _)
  · refine Filter.Eventually.of_forall fun b => ?_
    beta_reduce
    cases outcome L x b <;> simp

theorem lintegral_run1 (h : LogLik L) {x : V} {r : ℝ} (hx : L x = some (r : EReal)) {K : V → Trip V → ℝ≥0∞}
    (hK : Measurable fun q : V × Trip V => K q.1 q.2) (f : ℕ) :
    ∫⁻ t, run1 L K f x t ∂tapeLaw γ = (∑ k ∈ Finset.range f, (1 - hop γ L (fun _ => 1) x) ^ k) *
      hop γ L (fun x' => ∫⁻ t, K x' t ∂tapeLaw γ) x := by
  have : SFinite (tapeLaw γ) := by unfold tapeLaw; infer_instance
  induction f with
  | zero => simp [run1]
  | succ f ih =>
    have hm : Measurable fun t : Trip V => run1 L K f x t :=
      (measurable_run1 h (Θ := Unit) (K := fun _ => K) (hK.comp measurable_snd) f).comp
        (f := fun t : Trip V => ((), x, t)) (by fun_prop)
    simp only [run1]
    rw [lintegral_passK h hx hK hm, lintegral_elim h hx hK.lintegral_prod_right', ih, Finset.sum_range_succ', pow_zero,
      add_mul, one_mul, add_comm]
    congr 1
    rw [← mul_assoc, Finset.mul_sum]
    congr 1
    exact Finset.sum_congr rfl fun k _ => (pow_succ' _ _).symm

/-- The expectation of `G` of the samples when every call of `_sample` makes at most `f` passes. -/
noncomputable def reach (γ : Measure V) [IsProbabilityMeasure γ] (L : V → LL) (f n : ℕ) (G : List V → ℝ≥0∞) (x : V) : ℝ≥0∞ :=
  ∫⁻ t, runs L f n G x t ∂tapeLaw γ

theorem reach_zero (f : ℕ) (G : List V → ℝ≥0∞) (x : V) : reach γ L f 0 G x = G [] := by
  have : IsProbabilityMeasure (tapeLaw γ) := by unfold tapeLaw; infer_instance
  simp [reach, runs]

theorem measurable_reach_cons (h : LogLik L) (f n : ℕ) {G : List V → ℝ≥0∞}
    (hG : Measurable fun l : ℕ → V => G ((List.range (n + 1)).map l)) :
    Measurable fun q : V × Trip V => runs L f n (fun xs => G (q.1 :: xs)) q.1 q.2 := by
  refine (measurable_runs h f n (Θ := V) (G := fun x xs => G (x :: xs)) ?_).comp
    (f := fun q : V × Trip V => (q.1, q)) (by fun_prop)
  simp only [← range_cons]
  exact hG.comp Markov.measurable_cons

theorem reach_succ (h : LogLik L) {x : V} {r : ℝ} (hx : L x = some (r : EReal)) (f n : ℕ) {G : List V → ℝ≥0∞}
    (hG : Measurable fun l : ℕ → V => G ((List.range (n + 1)).map l)) :
    reach γ L f (n + 1) G x = (∑ k ∈ Finset.range f, (1 - hop γ L (fun _ => 1) x) ^ k) *
      hop γ L (fun x' => reach γ L f n (fun xs => G (x' :: xs)) x') x :=
  lintegral_run1 h hx (K := fun x' t' => runs L f n (fun xs => G (x' :: xs)) x' t') (measurable_reach_cons h f n hG) f

variable {Ω : Type} [MeasurableSpace Ω] {P : Measure Ω} {T : Ω → Tape V}

theorem RandomTape.lintegral_left (hT : RandomTape γ P T) {H : Trip V → ℝ≥0∞} (hH : Measurable H) (s : State V) :
    ∫⁻ ω, H (left (T ω) s) ∂P = ∫⁻ t, H t ∂tapeLaw γ := by
  have mE : Measurable fun (w : ℕ → ℝ) (k : ℕ) => w (s.iE + k) := measurable_pi_iff.2 fun _ => measurable_pi_apply _
  have mP : Measurable fun (w : ℕ → V) (k : ℕ) => w (s.iP + k) := measurable_pi_iff.2 fun _ => measurable_pi_apply _
  have mU : Measurable fun (w : ℕ → ℝ) (k : ℕ) => w (s.iU + k) := measurable_pi_iff.2 fun _ => measurable_pi_apply _
  have e : (tapeLaw γ).map (Prod.map (fun (w : ℕ → ℝ) (k : ℕ) => w (s.iE + k)) (Prod.map (fun (w : ℕ → V) (k : ℕ) => w (s.iP + k))
      fun (w : ℕ → ℝ) (k : ℕ) => w (s.iU + k))) = tapeLaw γ := by
    rw [tapeLaw, ← Measure.map_prod_map _ _ mE (mP.prodMap mU), ← Measure.map_prod_map _ _ mP mU, map_seqLaw_drop,
      map_seqLaw_drop, map_seqLaw_drop]
  rw [← e, lintegral_map hH (mE.prodMap (mP.prodMap mU)), tapeLaw, ← hT.law]
  exact (lintegral_map (hH.comp (mE.prodMap (mP.prodMap mU))) hT.measurable).symm

/-- The expectation over a random tape of what `sample` returns. -/
theorem lintegral_sample (hT : RandomTape γ P T) (h : LogLik L) {s : State V} (hs : s.logLikX = L s.x)
    (hx : logLik L s.x ≠ ⊥) (f n : ℕ) {G : List V → ℝ≥0∞} (hG : Measurable fun l : ℕ → V => G ((List.range n).map l)) :
    ∫⁻ ω, collected G (sample (T ω) L f n s) ∂P = reach γ L f n G s.x := by
  simp only [sample_runs h.ne_top f n hs hx]
  refine hT.lintegral_left (H := fun t => runs L f n G s.x t) ?_ s
  exact (measurable_runs h f n (Θ := Unit) (G := fun _ => G) (hG.comp measurable_snd)).comp
    (f := fun t : Trip V => ((), s.x, t)) (by fun_prop)

/-! ## However many passes -/

/-- A successful pass ends where the likelihood is positive. -/
theorem outcome_ne_bot {x : V} {r : ℝ} (hx : L x = some (r : EReal)) {b : Block V} {x' : V} (ho : outcome L x b = some x') :
    logLik L x' ≠ ⊥ := by
  have key : ∀ (S : Set ℝ) (n : ℕ) (w : Fin n → ℝ) (lo hi θ : ℝ), angles S n w lo hi = some θ → θ ∈ S := by
    intro S n
    induction n with
    | zero => intro w lo hi θ hθ; cases hθ
    | succ n ih =>
      intro w lo hi θ hθ
      by_cases h1 : lo + (hi - lo) * w 0 ∈ S
      · rw [angles_accept rfl h1] at hθ
        cases hθ
        exact h1
      · by_cases h2 : 0 < lo + (hi - lo) * w 0
        · rw [angles_right rfl h1 h2] at hθ
          exact ih _ _ _ _ hθ
        · rw [angles_left rfl h1 h2] at hθ
          exact ih _ _ _ _ hθ
  unfold outcome at ho
  obtain ⟨θ, hθ, rfl⟩ := Option.map_eq_some_iff.1 ho
  have h1 := key _ _ _ _ _ _ hθ
  have h2 : (L (point x b.2.1 θ)).gt ((L x).sub b.1) := h1
  rw [hx, show LL.sub (some (r : EReal)) b.1 = some ((r - b.1 : ℝ) : EReal) by simp [LL.sub], gt_iff] at h2
  exact fun hb => not_lt_bot (hb ▸ h2)

theorem hop_congr {x : V} {r : ℝ} (hx : L x = some (r : EReal)) {φ ψ : V → ℝ≥0∞}
    (he : ∀ x', logLik L x' ≠ ⊥ → φ x' = ψ x') : hop γ L φ x = hop γ L ψ x := by
  refine lintegral_congr fun b => ?_
  cases ho : outcome L x b with
  | none => rfl
  | some x' => exact he x' (outcome_ne_bot hx ho)

theorem hop_iSup (h : LogLik L) {x : V} {r : ℝ} (hx : L x = some (r : EReal)) {φ : ℕ → V → ℝ≥0∞} (hφ : ∀ f, Measurable (φ f))
    (hmono : ∀ x', logLik L x' ≠ ⊥ → Monotone fun f => φ f x') :
    ⨆ f, hop γ L (φ f) x = hop γ L (fun x' => ⨆ f, φ f x') x := by
  unfold hop
  rw [← lintegral_iSup (fun f => measurable_outcome h hx (hφ f))]
  · refine lintegral_congr fun b => ?_
    cases outcome L x b with
    | none => simp
    | some x' => rfl
  · intro f g hfg b
    beta_reduce
    cases ho : outcome L x b with
    | none => exact le_rfl
    | some x' => exact hmono x' (outcome_ne_bot hx ho) hfg

theorem iSup_geometric (x : V) : ⨆ f : ℕ, ∑ k ∈ Finset.range f, (1 - hop γ L (fun _ => 1) x) ^ k =
    (hop γ L (fun _ => 1) x)⁻¹ := by
  rw [← ENNReal.tsum_eq_iSup_nat, ENNReal.tsum_geometric,
    ENNReal.sub_sub_cancel ENNReal.one_ne_top (hop_le_one _ (fun _ => le_rfl) _)]

theorem measurable_reach (h : LogLik L) (f n : ℕ) {G : List V → ℝ≥0∞}
    (hG : Measurable fun l : ℕ → V => G ((List.range (n + 1)).map l)) :
    Measurable fun x => reach γ L f n (fun xs => G (x :: xs)) x := by
  have : SFinite (tapeLaw γ) := by unfold tapeLaw; infer_instance
  exact (measurable_reach_cons h f n hG).lintegral_prod_right'

theorem reach_mono (h : LogLik L) (n : ℕ) : ∀ {G : List V → ℝ≥0∞}, (Measurable fun l : ℕ → V => G ((List.range n).map l)) →
    ∀ x, logLik L x ≠ ⊥ → Monotone fun f => reach γ L f n G x := by
  induction n with
  | zero => intro G _ x _ f g _; simp only [reach_zero]; exact le_rfl
  | succ n ih =>
    intro G hG x hx f g hfg
    obtain ⟨r, hr⟩ := finite_of_ne_bot h.ne_top hx
    simp only [reach_succ h hr _ _ hG]
    refine mul_le_mul' (Finset.sum_le_sum_of_subset (Finset.range_mono hfg)) ?_
    refine lintegral_mono fun b => ?_
    cases ho : outcome L x b with
    | none => exact le_rfl
    | some x' =>
      refine ih (G := fun xs => G (x' :: xs)) ?_ x' (outcome_ne_bot hr ho) hfg
      simp only [← range_cons]
      exact hG.comp (Markov.measurable_cons_left x')

theorem reach_iSup (h : LogLik L) (n : ℕ) {G : List V → ℝ≥0∞} (hG : Measurable fun l : ℕ → V => G ((List.range (n + 1)).map l))
    {x : V} {r : ℝ} (hr : L x = some (r : EReal)) :
    ⨆ f, reach γ L f (n + 1) G x = (hop γ L (fun _ => 1) x)⁻¹ *
      hop γ L (fun x' => ⨆ f, reach γ L f n (fun xs => G (x' :: xs)) x') x := by
  have hmono : ∀ x', logLik L x' ≠ ⊥ → Monotone fun f => reach γ L f n (fun xs => G (x' :: xs)) x' := fun x' hx' => by
    refine reach_mono h n (G := fun xs => G (x' :: xs)) ?_ x' hx'
    simp only [← range_cons]
    exact hG.comp (Markov.measurable_cons_left x')
  simp only [reach_succ h hr _ _ hG]
  rw [← iSup_geometric, ← hop_iSup h hr (fun f => measurable_reach h f n hG) hmono, ENNReal.iSup_mul]
  simp only [ENNReal.mul_iSup]
  refine le_antisymm (iSup_le fun f => le_iSup₂_of_le f f le_rfl) (iSup₂_le fun f g => le_iSup_of_le (max f g) ?_)
  refine mul_le_mul' (Finset.sum_le_sum_of_subset (Finset.range_mono (le_max_left _ _))) ?_
  refine lintegral_mono fun b => ?_
  cases ho : outcome L x b with
  | none => exact le_rfl
  | some x' => exact hmono x' (outcome_ne_bot hr ho) (le_max_right _ _)

end law

end Gpcm.Ess
