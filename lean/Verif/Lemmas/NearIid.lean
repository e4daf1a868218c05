import Verif.Lemmas.Doeblin
import Mathlib.Probability.Moments.Variance

/-!
# States of a Markov chain that are far apart are nearly independent

The joint distribution of `n` states that are at least `T` steps apart is compared with that of `n` independent draws from
the limit.
-/

open MeasureTheory ProbabilityTheory ENNReal Filter Topology

namespace Gpcm.Markov

variable {S : Type} [MeasurableSpace S] {Q : Kernel S S} [IsMarkovKernel Q] {p : Measure S} [IsProbabilityMeasure p]

theorem ofReal_integral_bounded {X : Type} [MeasurableSpace X] (μ : Measure X) [IsFiniteMeasure μ] {g : X → ℝ}
    (hg : Measurable g) (h : ∀ x, 0 ≤ g x ∧ g x ≤ 1) : ∫⁻ x, ENNReal.ofReal (g x) ∂μ = ENNReal.ofReal (∫ x, g x ∂μ) :=
  (ofReal_integral_eq_lintegral_ofReal (Integrable.of_bound hg.aestronglyMeasurable 1 (Eventually.of_forall fun x => by
    rw [Real.norm_eq_abs, abs_of_nonneg (h x).1]; exact (h x).2)) (Eventually.of_forall fun x => (h x).1)).symm

theorem integral_unit {X : Type} [MeasurableSpace X] (μ : Measure X) [IsProbabilityMeasure μ] {g : X → ℝ}
    (hg : Measurable g) (h : ∀ x, 0 ≤ g x ∧ g x ≤ 1) : 0 ≤ ∫ x, g x ∂μ ∧ ∫ x, g x ∂μ ≤ 1 :=
  integral_mem hg (fun x => (h x).1) fun x => (h x).2

theorem measurable_integral_cons {G : (ℕ → S) → ℝ} (hG : Measurable G) (N : ℕ) :
    Measurable fun y => ∫ l, G (cons y l) ∂traj Q N y := by
  have h1 : StronglyMeasurable (Function.uncurry fun (y : S) (l : ℕ → S) => G (cons y l)) :=
    (hG.comp measurable_cons).stronglyMeasurable
  exact (h1.integral_kernel_prod_right' (κ := traj Q N)).measurable

/-- The states after the first `b + 1`. -/
theorem integral_traj_split {G : (ℕ → S) → ℝ} (hG : Measurable G) (h : ∀ l, 0 ≤ G l ∧ G l ≤ 1) (b N : ℕ) (x : S) :
    ∫ l, G (fun i => l (b + i)) ∂traj Q (b + (N + 1)) x = ∫ y, ∫ l, G (cons y l) ∂traj Q N y ∂pw Q (b + 1) x := by
  have hc : ∀ y, Measurable fun l : ℕ → S => G (cons y l) := fun y => hG.comp (measurable_cons_left y)
  have hH := measurable_integral_cons (Q := Q) hG N
  have hH1 : ∀ y, 0 ≤ ∫ l, G (cons y l) ∂traj Q N y ∧ ∫ l, G (cons y l) ∂traj Q N y ≤ 1 := fun y =>
    integral_unit _ (hc y) fun l => h _
  have hL : Measurable fun l : ℕ → S => G fun i => l (b + i) := hG.comp (measurable_pi_iff.2 fun i => measurable_pi_apply _)
  have e : ENNReal.ofReal (∫ l, G (fun i => l (b + i)) ∂traj Q (b + (N + 1)) x) =
      ENNReal.ofReal (∫ y, ∫ l, G (cons y l) ∂traj Q N y ∂pw Q (b + 1) x) := by
    rw [← ofReal_integral_bounded _ hL fun l => h _, ← ofReal_integral_bounded _ hH hH1,
      lintegral_traj_drop Q b (N + 1) x (F := fun l => ENNReal.ofReal (G l)) hG.ennreal_ofReal,
      lintegral_pw_add Q b 1 x hH.ennreal_ofReal]
    refine lintegral_congr fun y => ?_
    rw [lintegral_traj_succ Q N y hG.ennreal_ofReal, lintegral_pw_succ Q 0 y hH.ennreal_ofReal]
    refine lintegral_congr fun z => ?_
    rw [lintegral_pw_zero Q z hH.ennreal_ofReal, ofReal_integral_bounded _ (hc z) fun l => h _]
  rwa [ENNReal.ofReal_eq_ofReal_iff (integral_unit _ hL fun l => h _).1 (integral_unit _ hH hH1).1] at e

/-- One more independent draw. -/
theorem integral_pi_succ {n : ℕ} {G : (Fin (n + 1) → S) → ℝ} (hG : Measurable G) (h : ∀ v, 0 ≤ G v ∧ G v ≤ 1) :
    ∫ v, G v ∂Measure.pi (fun _ : Fin (n + 1) => p) = ∫ y, ∫ v, G (Fin.cons y v) ∂Measure.pi (fun _ : Fin n => p) ∂p := by
  have mp := (measurePreserving_piFinSuccAbove (fun _ : Fin (n + 1) => p) 0).symm
  have e : ∫ v, G v ∂Measure.pi (fun _ : Fin (n + 1) => p) =
      ∫ q, G ((MeasurableEquiv.piFinSuccAbove (fun _ : Fin (n + 1) => S) 0).symm q) ∂p.prod (Measure.pi fun _ : Fin n => p) :=
    (mp.integral_comp' (g := G)).symm
  have hm : Measurable fun q : S × (Fin n → S) => G ((MeasurableEquiv.piFinSuccAbove (fun _ : Fin (n + 1) => S) 0).symm q) :=
    hG.comp (MeasurableEquiv.measurable _)
  rw [e, integral_prod _ (Integrable.of_bound hm.aestronglyMeasurable 1 (Eventually.of_forall fun q => by
    rw [Real.norm_eq_abs, abs_of_nonneg (h _).1]; exact (h _).2))]
  refine integral_congr_ae (Eventually.of_forall fun y => ?_)
  refine integral_congr_ae (Eventually.of_forall fun v => ?_)
  show G (Fin.insertNth 0 y v) = G (Fin.cons y v)
  rw [Fin.insertNth_zero']

theorem near_iid {T : ℕ} (hT : 0 < T) {ρ : ℝ} (hρ : ∀ k, T ≤ k → ∀ g : S → ℝ, Measurable g → (∀ x, 0 ≤ g x ∧ g x ≤ 1) →
      ∀ x, |∫ y, g y ∂pw Q k x - ∫ y, g y ∂p| ≤ ρ) (n : ℕ) {G : (Fin n → S) → ℝ} (hG : Measurable G)
    (h : ∀ v, 0 ≤ G v ∧ G v ≤ 1) (b N : ℕ) (hb : T ≤ b + 1) (hN : ∀ j < n, b + j * T < N) (x : S) :
    |∫ l, G (fun i => l (b + i * T)) ∂traj Q N x - ∫ v, G v ∂Measure.pi (fun _ : Fin n => p)| ≤ n * ρ := by
  induction n generalizing b N x with
  | zero =>
    have e : ∀ v w : Fin 0 → S, G v = G w := fun v w => congrArg G (Subsingleton.elim _ _)
    have e1 : ∀ l : ℕ → S, G (fun i => l (b + i * T)) = G (fun i => i.elim0) := fun l => e _ _
    have e2 : ∀ v, G v = G (fun i => i.elim0) := fun v => e _ _
    simp only [e1]
    rw [integral_congr_ae (Eventually.of_forall e2)]
    simp
  | succ n ih =>
    have h0 := hN 0 (by omega)
    obtain ⟨N', rfl⟩ : ∃ N', N = b + (N' + 1) := ⟨N - b - 1, by omega⟩
    have hF : Measurable fun l : ℕ → S => G (fun i => l (i * T)) := hG.comp (measurable_pi_iff.2 fun i => measurable_pi_apply _)
    have e1 := integral_traj_split (Q := Q) (G := fun l : ℕ → S => G (fun i => l (i * T))) hF (fun l => h _) b N' x
    simp only at e1
    rw [e1, integral_pi_succ hG h]
    have hcm : Measurable fun q : S × (Fin n → S) => (Fin.cons q.1 q.2 : Fin (n + 1) → S) := by
      refine measurable_pi_iff.2 fun i => ?_
      refine Fin.cases ?_ (fun i => ?_) i
      · exact measurable_fst
      · exact (measurable_pi_apply i).comp measurable_snd
    obtain ⟨g, hg⟩ : ∃ g : S → ℝ, g = fun y => ∫ v, G (Fin.cons y v) ∂Measure.pi (fun _ : Fin n => p) := ⟨_, rfl⟩
    have hGc : ∀ y, Measurable fun v : Fin n → S => G (Fin.cons y v) := fun y => hG.comp (hcm.comp measurable_prodMk_left)
    have hgm : Measurable g := by
      rw [hg]
      exact ((hG.comp hcm).stronglyMeasurable.integral_prod_right' (ν := Measure.pi fun _ : Fin n => p)).measurable
    have hg1 : ∀ y, 0 ≤ g y ∧ g y ≤ 1 := fun y => by
      rw [hg]
      exact integral_unit _ (hGc y) fun v => h _
    have hin : ∀ y, |∫ l, G (fun i => cons y l (i * T)) ∂traj Q N' y - g y| ≤ n * ρ := fun y => by
      have e2 : ∀ l : ℕ → S, (fun i : Fin (n + 1) => cons y l (i * T)) =
          (Fin.cons y fun i : Fin n => l (T - 1 + i * T) : Fin (n + 1) → S) := fun l => by
        funext i
        refine Fin.cases ?_ (fun i => ?_) i
        · simp [cons]
        · rw [Fin.cons_succ, Fin.val_succ, show ((i : ℕ) + 1) * T = (T - 1 + i * T) + 1 by rw [Nat.succ_mul]; omega]
          rfl
      simp only [e2]
      rw [hg]
      refine ih (hGc y) (fun v => h _) (T - 1) N' (by omega) (fun j hj => ?_) y
      have := hN (j + 1) (by omega)
      rw [Nat.succ_mul] at this
      omega
    have hHm := measurable_integral_cons (Q := Q) hF N'
    have hH1 : ∀ y, 0 ≤ ∫ l, G (fun i => cons y l (i * T)) ∂traj Q N' y ∧
        ∫ l, G (fun i => cons y l (i * T)) ∂traj Q N' y ≤ 1 := fun y =>
      integral_unit _ (hF.comp (measurable_cons_left y)) fun l => h _
    have h2 := hρ (b + 1) hb g hgm hg1 x
    rw [← hg]
    have i1 : Integrable (fun y => ∫ l, G (fun i => cons y l (i * T)) ∂traj Q N' y) (pw Q (b + 1) x) :=
      integrable_of_le hHm fun y => by rw [abs_of_nonneg (hH1 y).1]; exact (hH1 y).2
    have i2 : Integrable g (pw Q (b + 1) x) := integrable_of_le hgm fun y => by rw [abs_of_nonneg (hg1 y).1]; exact (hg1 y).2
    have h3 : |∫ y, (∫ l, G (fun i => cons y l (i * T)) ∂traj Q N' y) ∂pw Q (b + 1) x - ∫ y, g y ∂pw Q (b + 1) x| ≤ n * ρ := by
      rw [← integral_sub i1 i2]
      exact abs_integral_le hin
    have h4 := abs_sub_le (∫ y, (∫ l, G (fun i => cons y l (i * T)) ∂traj Q N' y) ∂pw Q (b + 1) x)
      (∫ y, g y ∂pw Q (b + 1) x) (∫ y, g y ∂p)
    push_cast
    linarith

/-- The mean squared error of an average over independent draws. -/
theorem iid_mse {f : S → ℝ} (hf : Measurable f) {M : ℝ} (hM : ∀ x, |f x| ≤ M) {n : ℕ} (hn : n ≠ 0) :
    ∫ v, ((∑ i, f (v i)) / n - ∫ x, f x ∂p) ^ 2 ∂Measure.pi (fun _ : Fin n => p) = Var[f; p] / n := by
  have hl : MemLp f 2 p := MemLp.of_bound hf.aestronglyMeasurable M (Eventually.of_forall hM)
  have hn' : (n : ℝ) ≠ 0 := by exact_mod_cast hn
  have mp : ∀ i : Fin n, MeasurePreserving (fun v : Fin n → S => v i) (Measure.pi fun _ : Fin n => p) p := fun i =>
    measurePreserving_eval _ i
  have hmi : ∀ i : Fin n, ∫ v, f (v i) ∂Measure.pi (fun _ : Fin n => p) = ∫ x, f x ∂p := fun i => by
    rw [← (mp i).map_eq, integral_map (mp i).measurable.aemeasurable]
    · rw [(mp i).map_eq]
    · rw [(mp i).map_eq]
      exact hl.1
  have hli : ∀ i : Fin n, MemLp (fun v : Fin n → S => f (v i)) 2 (Measure.pi fun _ : Fin n => p) := fun i =>
    hl.comp_measurePreserving (mp i)
  have hvs := variance_sum_pi (μ := fun _ : Fin n => p) (X := fun _ => f) fun _ => hl
  rw [Finset.sum_const, Finset.card_univ, Fintype.card_fin, nsmul_eq_mul,
    variance_eq_integral (Finset.aemeasurable_sum _ fun i _ => (hli i).1.aemeasurable)] at hvs
  simp only [Finset.sum_apply] at hvs
  have hms : ∫ v, ∑ i, f (v i) ∂Measure.pi (fun _ : Fin n => p) = n * ∫ x, f x ∂p := by
    rw [integral_finsetSum _ fun i _ => (hli i).integrable (by norm_num)]
    simp [hmi]
  rw [hms] at hvs
  have e : ∀ v : Fin n → S, ((∑ i, f (v i)) / n - ∫ x, f x ∂p) ^ 2 =
      (n ^ 2 : ℝ)⁻¹ * (∑ i, f (v i) - n * ∫ x, f x ∂p) ^ 2 := fun v => by
    field_simp
  simp only [e]
  rw [integral_const_mul, hvs]
  field_simp

end Gpcm.Markov
