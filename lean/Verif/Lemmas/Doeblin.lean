import Verif.Lemmas.MarkovLLN
import Mathlib.Algebra.Order.Field.GeomSum

/-!
# Markov chains that forget their start at a geometric rate

If some measure lies below the distribution after two steps for every starting point, then the expectation of a bounded
function after `n` steps is within a geometrically small distance of the limit, uniformly over the starting points.
-/

open MeasureTheory ProbabilityTheory ENNReal Filter Topology

namespace Gpcm.Markov

variable {S : Type} [MeasurableSpace S] {Q : Kernel S S} [IsMarkovKernel Q] {p : Measure S} [IsProbabilityMeasure p]
variable {nu : Measure S} [IsFiniteMeasure nu]

theorem abs_le_of_mem {a b t : ℝ} (ha : a ≤ t) (hb : t ≤ b) : |t| ≤ |a| + |b| := by
  rw [abs_le]
  constructor
  · linarith [neg_abs_le a, abs_nonneg b]
  · linarith [le_abs_self b, abs_nonneg a]

/-- Two steps shrink the range of a function. -/
theorem doeblin_step (hnu : ∀ x, nu ≤ pw Q 2 x) {g : S → ℝ} (hg : Measurable g) {a b : ℝ} (ha : ∀ x, a ≤ g x)
    (hb : ∀ x, g x ≤ b) : ∃ a' b', b' - a' = (1 - nu.real Set.univ) * (b - a) ∧
      ∀ x, a' ≤ ∫ y, g y ∂pw Q 2 x ∧ ∫ y, g y ∂pw Q 2 x ≤ b' := by
  have hM : ∀ x, |g x| ≤ |a| + |b| := fun x => abs_le_of_mem (ha x) (hb x)
  have hi : ∀ (μ : Measure S) [IsFiniteMeasure μ], Integrable g μ := fun μ _ => integrable_of_le hg hM
  have e1 : ∫ y, (g y - a) ∂nu = ∫ y, g y ∂nu - nu.real Set.univ * a := by
    rw [integral_sub (hi nu) (integrable_const _), integral_const, smul_eq_mul]
  have e2 : ∫ y, (b - g y) ∂nu = nu.real Set.univ * b - ∫ y, g y ∂nu := by
    rw [integral_sub (integrable_const _) (hi nu), integral_const, smul_eq_mul]
  refine ⟨a + ∫ y, (g y - a) ∂nu, b - ∫ y, (b - g y) ∂nu, ?_, fun x => ⟨?_, ?_⟩⟩
  · rw [e1, e2]
    ring
  · have := integral_mono_measure (hnu x) (f := fun y => g y - a) (Eventually.of_forall fun y => sub_nonneg.2 (ha y))
      ((hi _).sub (integrable_const _))
    rw [integral_sub (μ := pw Q 2 x) (hi _) (integrable_const _), integral_const, smul_eq_mul, probReal_univ, one_mul] at this
    linarith
  · have := integral_mono_measure (hnu x) (f := fun y => b - g y) (Eventually.of_forall fun y => sub_nonneg.2 (hb y))
      ((integrable_const _).sub (hi _))
    rw [integral_sub (μ := pw Q 2 x) (integrable_const _) (hi _), integral_const, smul_eq_mul, probReal_univ, one_mul] at this
    linarith

theorem integral_mem {μ : Measure S} [IsProbabilityMeasure μ] {g : S → ℝ} (hg : Measurable g) {a b : ℝ} (ha : ∀ x, a ≤ g x)
    (hb : ∀ x, g x ≤ b) : a ≤ ∫ x, g x ∂μ ∧ ∫ x, g x ∂μ ≤ b := by
  have hi : Integrable g μ := integrable_of_le hg fun x => abs_le_of_mem (ha x) (hb x)
  have h1 := integral_mono (μ := μ) (integrable_const a) hi ha
  have h2 := integral_mono (μ := μ) hi (integrable_const b) hb
  simp only [integral_const, probReal_univ, smul_eq_mul, one_mul] at h1 h2
  exact ⟨h1, h2⟩

theorem doeblin_iter (hnu : ∀ x, nu ≤ pw Q 2 x) {g : S → ℝ} (hg : Measurable g) {a b : ℝ} (ha : ∀ x, a ≤ g x)
    (hb : ∀ x, g x ≤ b) (k : ℕ) : ∃ a' b', b' - a' = (1 - nu.real Set.univ) ^ k * (b - a) ∧
      ∀ n, 2 * k ≤ n → ∀ x, a' ≤ ∫ y, g y ∂pw Q n x ∧ ∫ y, g y ∂pw Q n x ≤ b' := by
  have hM : ∀ x, |g x| ≤ |a| + |b| := fun x => abs_le_of_mem (ha x) (hb x)
  suffices hs : ∃ a' b', b' - a' = (1 - nu.real Set.univ) ^ k * (b - a) ∧
      ∀ x, a' ≤ ∫ y, g y ∂pw Q (2 * k) x ∧ ∫ y, g y ∂pw Q (2 * k) x ≤ b' by
    obtain ⟨a', b', e, hx⟩ := hs
    refine ⟨a', b', e, fun n hn x => ?_⟩
    obtain ⟨r, rfl⟩ : ∃ r, n = r + 2 * k := ⟨n - 2 * k, by omega⟩
    rw [integral_pw_add Q r (2 * k) x hg hM]
    exact integral_mem (measurable_integral_pw Q _ hg) (fun y => (hx y).1) fun y => (hx y).2
  induction k with
  | zero =>
    refine ⟨a, b, by simp, fun x => ?_⟩
    exact integral_mem hg ha hb
  | succ k ih =>
    obtain ⟨a', b', e, hx⟩ := ih
    obtain ⟨a'', b'', e', hx'⟩ := doeblin_step hnu (measurable_integral_pw Q (2 * k) hg) (fun y => (hx y).1) fun y => (hx y).2
    refine ⟨a'', b'', by rw [e', e, pow_succ]; ring, fun x => ?_⟩
    rw [show 2 * (k + 1) = 2 + 2 * k by ring, integral_pw_add Q 2 (2 * k) x hg hM]
    exact hx' x

/-- The distance to the limit is geometrically small. -/
theorem Erg.geometric (h : Erg Q p) (hnu : ∀ x, nu ≤ pw Q 2 x) {g : S → ℝ} (hg : Measurable g) {a b : ℝ}
    (ha : ∀ x, a ≤ g x) (hb : ∀ x, g x ≤ b) (n : ℕ) (x : S) :
    |∫ y, g y ∂pw Q n x - ∫ y, g y ∂p| ≤ (b - a) * (1 - nu.real Set.univ) ^ (n / 2) := by
  obtain ⟨a', b', e, hx⟩ := doeblin_iter hnu hg ha hb (n / 2)
  have hM : ∀ x, |g x| ≤ |a| + |b| := fun x => abs_le_of_mem (ha x) (hb x)
  have hl := h.real hg hM x
  have h1 := ge_of_tendsto hl (eventually_atTop.2 ⟨2 * (n / 2), fun k hk => (hx k hk x).1⟩)
  have h2 := le_of_tendsto hl (eventually_atTop.2 ⟨2 * (n / 2), fun k hk => (hx k hk x).2⟩)
  have h3 := hx n (by omega) x
  rw [mul_comm, ← e, abs_le]
  constructor <;> linarith [h3.1, h3.2]

theorem doeblin_le_one [Nonempty S] (hnu : ∀ x, nu ≤ pw Q 2 x) : nu.real Set.univ ≤ 1 := by
  obtain ⟨x⟩ := ‹Nonempty S›
  have h1 : nu Set.univ ≤ 1 := (hnu x Set.univ).trans (by rw [measure_univ])
  exact ENNReal.toReal_le_of_le_ofReal zero_le_one (by rwa [ENNReal.ofReal_one])

theorem sum_geometric {r : ℝ} (h0 : 0 ≤ r) (h1 : r < 1) (N : ℕ) : ∑ k ∈ Finset.range N, r ^ (k / 2) ≤ 2 / (1 - r) := by
  have e : ∀ N, ∑ k ∈ Finset.range (2 * N), r ^ (k / 2) = 2 * ∑ j ∈ Finset.range N, r ^ j := fun N => by
    induction N with
    | zero => simp
    | succ N ih =>
      rw [show 2 * (N + 1) = 2 * N + 1 + 1 by ring, Finset.sum_range_succ, Finset.sum_range_succ, ih, Finset.sum_range_succ,
        show (2 * N + 1) / 2 = N by omega, show 2 * N / 2 = N by omega]
      ring
  have hr : 0 < 1 - r := by linarith
  have h2 : (∑ j ∈ Finset.range N, r ^ j) * (1 - r) = 1 - r ^ N := by
    rw [geom_sum_mul_neg]
  calc _ ≤ ∑ k ∈ Finset.range (2 * N), r ^ (k / 2) :=
        Finset.sum_le_sum_of_subset_of_nonneg (Finset.range_mono (by omega)) fun _ _ _ => pow_nonneg h0 _
    _ = 2 * ∑ j ∈ Finset.range N, r ^ j := e N
    _ ≤ 2 / (1 - r) := by
        rw [le_div_iff₀ hr, mul_assoc, h2]
        linarith [pow_nonneg h0 N]

/-- The mean squared error of an average is at most a constant divided by the number of steps. -/
theorem Erg.mse_rate [Nonempty S] (h : Erg Q p) (hnu : ∀ x, nu ≤ pw Q 2 x) (h0 : nu.real Set.univ ≠ 0) {g : S → ℝ}
    (hg : Measurable g) {M : ℝ} (hM : ∀ x, |g x| ≤ M) {n : ℕ} (hn : n ≠ 0) (x : S) :
    ∫⁻ l, ENNReal.ofReal (((n : ℝ)⁻¹ * ∑ i ∈ Finset.range n, g (l i) - ∫ z, g z ∂p) ^ 2) ∂traj Q n x ≤
      ENNReal.ofReal (M ^ 2 * (4 + 16 / nu.real Set.univ) / n) := by
  obtain ⟨r, hr⟩ : ∃ r, r = 1 - nu.real Set.univ := ⟨_, rfl⟩
  have hr0 : 0 ≤ r := by rw [hr]; linarith [doeblin_le_one hnu]
  have hr1 : r < 1 := by
    rw [hr]
    have : 0 < nu.real Set.univ := lt_of_le_of_ne measureReal_nonneg (Ne.symm h0)
    linarith
  have er : nu.real Set.univ = 1 - r := by rw [hr]; ring
  obtain ⟨mu, hmu⟩ : ∃ mu, mu = ∫ z, g z ∂p := ⟨_, rfl⟩
  have hM0 : 0 ≤ M := (abs_nonneg _).trans (hM x)
  have hmuM : |mu| ≤ M := by rw [hmu]; exact abs_integral_le hM
  obtain ⟨f, hf⟩ : ∃ f : S → ℝ, f = fun y => g y - mu := ⟨_, rfl⟩
  have hfm : Measurable f := by rw [hf]; exact hg.sub_const _
  have hfM : ∀ y, |f y| ≤ 2 * M := fun y => by
    rw [hf]
    have := abs_sub (g y) mu
    have := hM y
    simp only
    linarith
  have hdev : ∀ k y, ‖∫ z, f z ∂pw Q (k + 1) y‖ₑ ≤ ENNReal.ofReal (2 * M * r ^ (k / 2)) := fun k y => by
    rw [hf, integral_sub (integrable_of_le hg hM) (integrable_const _), Real.enorm_eq_ofReal_abs, integral_const,
      probReal_univ, one_smul, hmu]
    refine ENNReal.ofReal_le_ofReal ((h.geometric hnu hg (fun y => (abs_le.1 (hM y)).1) (fun y => (abs_le.1 (hM y)).2)
      (k + 1) y).trans ?_)
    rw [← hr, sub_neg_eq_add, ← two_mul]
    exact mul_le_mul_of_nonneg_left (pow_le_pow_of_le_one hr0 hr1.le (Nat.div_le_div_right (Nat.le_succ k))) (by linarith)
  have hn0 : (0 : ℝ) < n := by exact_mod_cast Nat.pos_of_ne_zero hn
  have hsum : sumSq Q f n x ≤ ENNReal.ofReal (n * (2 * M) ^ 2 + 2 * (2 * M) * (n * (2 * M * (2 / (1 - r))))) := by
    refine (sumSq_le hfm hfM n n le_rfl x).trans ?_
    have h1 : ∀ i ∈ Finset.range n, ∑ k ∈ Finset.range n, ∫⁻ y, ‖∫ z, f z ∂pw Q (k + 1) y‖ₑ ∂pw Q (i + 1) x ≤
        ENNReal.ofReal (2 * M * (2 / (1 - r))) := fun i _ => by
      calc _ ≤ ∑ k ∈ Finset.range n, ENNReal.ofReal (2 * M * r ^ (k / 2)) :=
            Finset.sum_le_sum fun k _ => lintegral_le_of_le fun y => hdev k y
        _ = ENNReal.ofReal (∑ k ∈ Finset.range n, 2 * M * r ^ (k / 2)) :=
            (ENNReal.ofReal_sum_of_nonneg fun k _ => by positivity).symm
        _ ≤ _ := by
            rw [← Finset.mul_sum]
            exact ENNReal.ofReal_le_ofReal (mul_le_mul_of_nonneg_left (sum_geometric hr0 hr1 n) (by linarith))
    have h2 := Finset.sum_le_sum h1
    rw [Finset.sum_const, Finset.card_range, nsmul_eq_mul] at h2
    have hr2 : 0 ≤ 2 / (1 - r) := div_nonneg zero_le_two (by linarith)
    have e3 : ENNReal.ofReal (n * (2 * M) ^ 2 + 2 * (2 * M) * (n * (2 * M * (2 / (1 - r))))) =
        n * ENNReal.ofReal ((2 * M) ^ 2) + ENNReal.ofReal (2 * (2 * M)) * (n * ENNReal.ofReal (2 * M * (2 / (1 - r)))) := by
      rw [ENNReal.ofReal_add (by positivity) (by positivity), ENNReal.ofReal_mul (p := (n : ℝ)) (q := (2 * M) ^ 2) (by positivity),
        ENNReal.ofReal_natCast, ENNReal.ofReal_mul (p := 2 * (2 * M)) (q := n * (2 * M * (2 / (1 - r)))) (by positivity),
        ENNReal.ofReal_mul (p := (n : ℝ)) (q := 2 * M * (2 / (1 - r))) (by positivity), ENNReal.ofReal_natCast]
    rw [e3]
    exact add_le_add le_rfl (mul_le_mul_right h2 _)
  have e1 : ∀ l : ℕ → S, ENNReal.ofReal (((n : ℝ)⁻¹ * ∑ i ∈ Finset.range n, g (l i) - mu) ^ 2) =
      ENNReal.ofReal ((n : ℝ)⁻¹ ^ 2) * ENNReal.ofReal ((∑ i ∈ Finset.range n, f (l i)) ^ 2) := fun l => by
    rw [← ENNReal.ofReal_mul (by positivity), ← mul_pow, hf]
    congr 2
    rw [Finset.sum_sub_distrib, mul_sub]
    congr 1
    rw [Finset.sum_const, Finset.card_range, nsmul_eq_mul, inv_mul_cancel_left₀ hn0.ne']
  rw [← hmu]
  simp only [e1]
  rw [lintegral_const_mul' _ _ ENNReal.ofReal_ne_top]
  refine (mul_le_mul_right hsum _).trans ?_
  rw [← ENNReal.ofReal_mul (by positivity), er]
  refine ENNReal.ofReal_le_ofReal (le_of_eq ?_)
  have : (1 - r) ≠ 0 := by linarith
  field_simp
  ring

end Gpcm.Markov
