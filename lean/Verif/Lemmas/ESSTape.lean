import Verif.Lemmas.ESSInv

/-!
# Elliptical slice sampling as a function of the remaining random numbers

A successful pass reads a random number of uniform numbers, so what the next pass reads depends on the first. The functions
below take what happens next as a function of the result and of the random numbers that are left, and the theorems say that these
are as good as fresh ones.
-/

set_option linter.unusedSectionVars false

open MeasureTheory ProbabilityTheory Set Real
open scoped ENNReal

namespace Gpcm.Ess

/-! ## Sequences of independent numbers -/

/-- A sequence without its first element. -/
def rest {α : Type} (w : ℕ → α) : ℕ → α := fun n => w (n + 1)

theorem measurable_rest {α : Type} [MeasurableSpace α] : Measurable fun w : ℕ → α => rest w :=
  measurable_pi_iff.2 fun _ => measurable_pi_apply _

/-- The law of a sequence of independent numbers. -/
noncomputable abbrev seqLaw {α : Type} [MeasurableSpace α] (μ : Measure α) : Measure (ℕ → α) := Measure.infinitePi fun _ : ℕ => μ

theorem map_seqLaw_drop {α : Type} [MeasurableSpace α] (μ : Measure α) [IsProbabilityMeasure μ] (n : ℕ) :
    (seqLaw μ).map (fun w k => w (n + k)) = seqLaw μ := by
  have hi : iIndepFun (fun (i : ℕ) (w : ℕ → α) => w i) (seqLaw μ) :=
    iIndepFun_infinitePi (P := fun _ : ℕ => μ) (X := fun _ a => a) fun _ => measurable_id
  have hk := (hi.precomp (g := fun k : ℕ => n + k) (add_right_injective n)).map_fun_eq_infinitePi_map
    fun k => measurable_pi_apply (n + k)
  have he : (fun k : ℕ => (seqLaw μ).map fun w : ℕ → α => w (n + k)) = fun _ => μ :=
    funext fun k => Measure.infinitePi_map_eval (fun _ : ℕ => μ) (n + k)
  rw [hk, he]

/-- The first number is independent of the others. -/
theorem map_seqLaw {α : Type} [MeasurableSpace α] (μ : Measure α) [IsProbabilityMeasure μ] :
    (seqLaw μ).map (fun w => (w 0, rest w)) = μ.prod (seqLaw μ) := by
  have hi : iIndepFun (fun (i : ℕ) (w : ℕ → α) => w i) (seqLaw μ) :=
    iIndepFun_infinitePi (P := fun _ : ℕ => μ) (X := fun _ a => a) fun _ => measurable_id
  have hind : IndepFun (fun w : ℕ → α => w 0) (fun w : ℕ → α => rest w) (seqLaw μ) := by
    have h1 := indep_iSup_of_disjoint (m := fun i : ℕ => MeasurableSpace.comap (fun w : ℕ → α => w i) inferInstance)
      (fun i => (measurable_pi_apply i).comap_le) hi.iIndep (S := {0}) (T := Ici 1) (by simp)
    rw [IndepFun_iff_Indep]
    refine indep_of_indep_of_le_left (indep_of_indep_of_le_right h1 ?_) ?_
    · refine Measurable.comap_le (m₁ := ⨆ i ∈ Ici 1, MeasurableSpace.comap (fun w : ℕ → α => w i) inferInstance)
        (@measurable_pi_iff _ _ _ (_) _ _ |>.2 fun n => ?_)
      refine (comap_measurable (fun w : ℕ → α => w (n + 1))).mono ?_ le_rfl
      exact le_iSup₂_of_le (n + 1) (show 1 ≤ n + 1 by omega) le_rfl
    · exact le_iSup₂_of_le (f := fun (i : ℕ) (_ : i ∈ ({0} : Set ℕ)) =>
        MeasurableSpace.comap (fun w : ℕ → α => w i) inferInstance) 0 rfl le_rfl
  rw [(indepFun_iff_map_prod_eq_prod_map_map (measurable_pi_apply 0).aemeasurable measurable_rest.aemeasurable).1 hind,
    Measure.infinitePi_map_eval (fun _ : ℕ => μ) 0]
  congr 1
  have := map_seqLaw_drop μ 1
  simp only [add_comm 1] at this
  exact this

theorem lintegral_seqLaw {α : Type} [MeasurableSpace α] (μ : Measure α) [IsProbabilityMeasure μ] {G : α × (ℕ → α) → ℝ≥0∞}
    (hG : Measurable G) : ∫⁻ w, G (w 0, rest w) ∂seqLaw μ = ∫⁻ a, ∫⁻ w, G (a, w) ∂seqLaw μ ∂μ := by
  rw [← lintegral_prod _ hG.aemeasurable, ← map_seqLaw, lintegral_map hG ((measurable_pi_apply 0).prodMk measurable_rest)]

/-! ## Proposals -/

open Classical in
/-- What happens after the proposals: `K` at the accepted angle, `F` if all are rejected, both with the numbers that are left. -/
noncomputable def anglesK (S : Set ℝ) (K : ℝ → (ℕ → ℝ) → ℝ≥0∞) (F : (ℕ → ℝ) → ℝ≥0∞) : ℕ → (ℕ → ℝ) → ℝ → ℝ → ℝ≥0∞
  | 0, w, _, _ => F w
  | n + 1, w, lo, hi =>
    if lo + (hi - lo) * w 0 ∈ S then K (lo + (hi - lo) * w 0) (rest w)
    else if 0 < lo + (hi - lo) * w 0 then anglesK S K F n (rest w) lo (lo + (hi - lo) * w 0)
    else anglesK S K F n (rest w) (lo + (hi - lo) * w 0) hi

theorem measurable_anglesK {Ω : Type} [MeasurableSpace Ω] {S : Ω → Set ℝ} (hS : MeasurableSet {q : Ω × ℝ | q.2 ∈ S q.1})
    {K : Ω → ℝ → (ℕ → ℝ) → ℝ≥0∞} (hK : Measurable fun q : Ω × ℝ × (ℕ → ℝ) => K q.1 q.2.1 q.2.2)
    {F : Ω → (ℕ → ℝ) → ℝ≥0∞} (hF : Measurable fun q : Ω × (ℕ → ℝ) => F q.1 q.2) (n : ℕ) :
    Measurable fun q : Ω × (ℕ → ℝ) × ℝ × ℝ => anglesK (S q.1) (K q.1) (F q.1) n q.2.1 q.2.2.1 q.2.2.2 := by
  classical
  induction n with
  | zero => exact hF.comp (f := fun q : Ω × (ℕ → ℝ) × ℝ × ℝ => (q.1, q.2.1)) (by fun_prop)
  | succ n ih =>
    have hw : Measurable fun q : Ω × (ℕ → ℝ) × ℝ × ℝ => q.2.1 0 := (measurable_pi_apply 0).comp (by fun_prop)
    have hr : Measurable fun q : Ω × (ℕ → ℝ) × ℝ × ℝ => rest q.2.1 := measurable_rest.comp (by fun_prop)
    have hθ : Measurable fun q : Ω × (ℕ → ℝ) × ℝ × ℝ => q.2.2.1 + (q.2.2.2 - q.2.2.1) * q.2.1 0 := by
      fun_prop
    simp only [anglesK]
    refine Measurable.ite (hS.preimage (measurable_fst.prodMk hθ)) (hK.comp (measurable_fst.prodMk (hθ.prodMk hr)))
      (Measurable.ite (measurableSet_lt measurable_const hθ) ?_ ?_)
    · exact ih.comp (measurable_fst.prodMk (hr.prodMk ((by fun_prop : Measurable
        fun q : Ω × (ℕ → ℝ) × ℝ × ℝ => q.2.2.1).prodMk hθ)))
    · exact ih.comp (measurable_fst.prodMk (hr.prodMk (hθ.prodMk (by fun_prop))))

/-- The numbers that are left after the proposals are as good as fresh ones. -/
theorem lintegral_anglesK {S : Set ℝ} (hS : MeasurableSet S) {K : ℝ → (ℕ → ℝ) → ℝ≥0∞}
    (hK : Measurable fun q : ℝ × (ℕ → ℝ) => K q.1 q.2) {F : (ℕ → ℝ) → ℝ≥0∞} (hF : Measurable F) (n : ℕ) : ∀ lo hi : ℝ,
    ∫⁻ w, anglesK S K F n w lo hi ∂seqLaw unitLaw = ∫⁻ w, (angles S n w lo hi).elim (∫⁻ w, F w ∂seqLaw unitLaw)
      (fun θ => ∫⁻ w, K θ w ∂seqLaw unitLaw) ∂(Measure.pi fun _ : Fin n => unitLaw) := by
  classical
  have hm := fun n => measurable_anglesK (Ω := Unit) (S := fun _ => S) (K := fun _ => K) (F := fun _ => F)
    (hS.preimage measurable_snd) (hK.comp measurable_snd) (hF.comp measurable_snd) n
  have hKi : Measurable fun θ => ∫⁻ w, K θ w ∂seqLaw unitLaw := hK.lintegral_prod_right'
  induction n with
  | zero => intro lo hi; simp [angles, anglesK]
  | succ n ih =>
    intro lo hi
    obtain ⟨G, hG⟩ : ∃ G : ℝ × (ℕ → ℝ) → ℝ≥0∞, G = fun p => if lo + (hi - lo) * p.1 ∈ S then K (lo + (hi - lo) * p.1) p.2
      else if 0 < lo + (hi - lo) * p.1 then anglesK S K F n p.2 lo (lo + (hi - lo) * p.1)
      else anglesK S K F n p.2 (lo + (hi - lo) * p.1) hi := ⟨_, rfl⟩
    have hθ : Measurable fun p : ℝ × (ℕ → ℝ) => lo + (hi - lo) * p.1 := by fun_prop
    have hGm : Measurable G := by
      rw [hG]
      refine Measurable.ite (hS.preimage hθ) (hK.comp (hθ.prodMk measurable_snd))
        (Measurable.ite (measurableSet_lt measurable_const hθ) ?_ ?_)
      · exact (hm n).comp (f := fun p : ℝ × (ℕ → ℝ) => ((), p.2, lo, lo + (hi - lo) * p.1)) (by fun_prop)
      · exact (hm n).comp (f := fun p : ℝ × (ℕ → ℝ) => ((), p.2, lo + (hi - lo) * p.1, hi)) (by fun_prop)
    have e : ∀ w, anglesK S K F (n + 1) w lo hi = G (w 0, rest w) := fun w => by rw [hG]; rfl
    obtain ⟨H, hH⟩ : ∃ H : ℝ × (Fin n → ℝ) → ℝ≥0∞, H = fun p => (angles S (n + 1) (Fin.cons p.1 p.2) lo hi).elim
      (∫⁻ w, F w ∂seqLaw unitLaw) fun θ => ∫⁻ w, K θ w ∂seqLaw unitLaw := ⟨_, rfl⟩
    have hHm : Measurable H := by
      have h1 := (measurable_angles (Ω := Unit) (S := fun _ => S) (φ := fun _ θ => ∫⁻ w, K θ w ∂seqLaw unitLaw)
        (hS.preimage measurable_snd) (hKi.comp measurable_snd) (n + 1)).comp
        (f := fun p : ℝ × (Fin n → ℝ) => ((), Fin.cons p.1 p.2, lo, hi))
        (measurable_const.prodMk (measurable_cons.prodMk (by fun_prop)))
      have h2 := (measurable_angles (Ω := Unit) (S := fun _ => S) (φ := fun _ _ => 1)
        (hS.preimage measurable_snd) measurable_const (n + 1)).comp
        (f := fun p : ℝ × (Fin n → ℝ) => ((), Fin.cons p.1 p.2, lo, hi))
        (measurable_const.prodMk (measurable_cons.prodMk (by fun_prop)))
      have h3 := h1.add ((measurable_const (a := (1 : ℝ≥0∞))).sub h2 |>.mul_const (∫⁻ w, F w ∂seqLaw unitLaw))
      convert h3 using 1
      rw [hH]
      funext p
      simp only [Pi.add_apply, Pi.sub_apply, Function.comp]
      cases angles S (n + 1) (Fin.cons p.1 p.2) lo hi <;> simp
    have e2 : ∀ w : Fin (n + 1) → ℝ, (angles S (n + 1) w lo hi).elim (∫⁻ w, F w ∂seqLaw unitLaw)
        (fun θ => ∫⁻ w, K θ w ∂seqLaw unitLaw) = H (w 0, Fin.tail w) := fun w => by
      rw [hH]
      simp only [Fin.cons_self_tail]
    rw [lintegral_congr e, lintegral_congr e2, lintegral_seqLaw _ hGm, lintegral_pi_succ, lintegral_prod _ hHm.aemeasurable]
    refine lintegral_congr fun a => ?_
    rw [hG, hH]
    simp only
    by_cases h1 : lo + (hi - lo) * a ∈ S
    · have : ∀ w : Fin n → ℝ, angles S (n + 1) (Fin.cons a w) lo hi = some (lo + (hi - lo) * a) := fun w =>
        angles_accept rfl h1
      simp [this, h1]
    · by_cases h2 : 0 < lo + (hi - lo) * a
      · have : ∀ w : Fin n → ℝ, angles S (n + 1) (Fin.cons a w) lo hi = angles S n w lo (lo + (hi - lo) * a) :=
          fun w => angles_right rfl h1 h2
        simp only [this, if_neg h1, if_pos h2]
        exact ih _ _
      · have : ∀ w : Fin n → ℝ, angles S (n + 1) (Fin.cons a w) lo hi = angles S n w (lo + (hi - lo) * a) hi :=
          fun w => angles_left rfl h1 h2
        simp only [this, if_neg h1, if_neg h2]
        exact ih _ _

end Gpcm.Ess
