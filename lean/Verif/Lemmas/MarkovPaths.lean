import Verif.Lemmas.MarkovLemmas
import Verif.Lemmas.GibbsConv
import Verif.Spec.Noise

/-!
# Expectations of functions of several states of a Markov chain

`traj Q n x` is the distribution of the next `n` states after `x`, as a sequence whose further elements are irrelevant.
-/

set_option linter.unusedSectionVars false

open MeasureTheory ProbabilityTheory ENNReal Filter Topology

namespace Gpcm.Markov

variable {S : Type} [MeasurableSpace S]

theorem measurable_cons : Measurable fun q : S × (ℕ → S) => cons q.1 q.2 := by
  refine measurable_pi_iff.2 fun i => ?_
  cases i with
  | zero => exact measurable_fst
  | succ i => exact (measurable_pi_apply i).comp measurable_snd

theorem measurable_cons_left (a : S) : Measurable fun l : ℕ → S => cons a l :=
  measurable_cons.comp measurable_prodMk_left

variable (Q : Kernel S S) [IsMarkovKernel Q]

/-- The distribution of the next `n` states. -/
noncomputable def traj : ℕ → Kernel S (ℕ → S)
  | 0 => Kernel.deterministic (fun x _ => x) (measurable_pi_iff.2 fun _ => measurable_id)
  | n + 1 => (Q ⊗ₖ (traj n).prodMkLeft S).map fun q => cons q.1 q.2

instance traj_markov (n : ℕ) : IsMarkovKernel (traj Q n) := by
  induction n with
  | zero => unfold traj; infer_instance
  | succ n ih => unfold traj; exact Kernel.IsMarkovKernel.map _ measurable_cons

theorem lintegral_traj_succ (n : ℕ) (x : S) {F : (ℕ → S) → ℝ≥0∞} (hF : Measurable F) :
    ∫⁻ l, F l ∂traj Q (n + 1) x = ∫⁻ y, ∫⁻ l, F (cons y l) ∂traj Q n y ∂Q x := by
  rw [traj, Kernel.map_apply _ measurable_cons, lintegral_map hF measurable_cons,
    Kernel.lintegral_compProd (f := fun a : S × (ℕ → S) => F (cons a.1 a.2)) _ _ _ (hF.comp measurable_cons)]
  rfl

/-- The distribution of one of the states. -/
theorem lintegral_traj_eval {n i : ℕ} (hi : i < n) (x : S) {f : S → ℝ≥0∞} (hf : Measurable f) :
    ∫⁻ l, f (l i) ∂traj Q n x = ∫⁻ y, f y ∂pw Q (i + 1) x := by
  induction n generalizing i x with
  | zero => omega
  | succ n ih =>
    rw [lintegral_traj_succ Q n x (F := fun l => f (l i)) (hf.comp (measurable_pi_apply i)), lintegral_pw_succ Q i x hf]
    refine lintegral_congr fun y => ?_
    cases i with
    | zero =>
      rw [lintegral_pw_zero Q y hf]
      show ∫⁻ _, f y ∂traj Q n y = f y
      simp
    | succ i => exact ih (by omega) y

/-- States can be skipped. -/
theorem lintegral_traj_drop (b n : ℕ) (x : S) {F : (ℕ → S) → ℝ≥0∞} (hF : Measurable F) :
    ∫⁻ l, F (fun i => l (b + i)) ∂traj Q (b + n) x = ∫⁻ y, ∫⁻ l, F l ∂traj Q n y ∂pw Q b x := by
  induction b generalizing x with
  | zero =>
    rw [lintegral_pw_zero Q x hF.lintegral_kernel]
    simp only [Nat.zero_add]
  | succ b ih =>
    rw [show b + 1 + n = (b + n) + 1 by omega, lintegral_traj_succ, lintegral_pw_succ _ _ _ hF.lintegral_kernel]
    · refine lintegral_congr fun y => ?_
      rw [← ih y]
      refine lintegral_congr fun l => ?_
      congr 1
      funext i
      rw [show b + 1 + i = (b + i) + 1 by omega]
      rfl
    · exact hF.comp (measurable_pi_iff.2 fun i => measurable_pi_apply _)

/-- The expectation of a product of functions of states at distance `T`, the first of which is the given one. -/
noncomputable def prodExpect (T : ℕ) : List (S → ℝ≥0∞) → S → ℝ≥0∞
  | [] => fun _ => 1
  | f :: fs => fun y => f y * ∫⁻ z, prodExpect T fs z ∂pw Q T y

/-- The product of functions of the elements `b`, `b + T`, `b + 2 T` and so on of a sequence. -/
noncomputable def prodAt (T : ℕ) : List (S → ℝ≥0∞) → ℕ → (ℕ → S) → ℝ≥0∞
  | [], _, _ => 1
  | f :: fs, b, l => f (l b) * prodAt T fs (b + T) l

theorem prodAt_add (T : ℕ) (fs : List (S → ℝ≥0∞)) (c b : ℕ) (l : ℕ → S) :
    prodAt T fs (c + b) l = prodAt T fs b fun i => l (c + i) := by
  induction fs generalizing b with
  | nil => rfl
  | cons f fs ih => rw [prodAt, prodAt, ← ih, Nat.add_assoc]

theorem prodAt_measurable (T : ℕ) {fs : List (S → ℝ≥0∞)} (hfs : ∀ f ∈ fs, Measurable f) (b : ℕ) :
    Measurable (prodAt T fs b) := by
  induction fs generalizing b with
  | nil => exact measurable_const
  | cons f fs ih =>
    exact ((hfs f (by simp)).comp (measurable_pi_apply b)).mul (ih (fun f hf => hfs f (by simp [hf])) _)

theorem prodExpect_measurable (T : ℕ) {fs : List (S → ℝ≥0∞)} (hfs : ∀ f ∈ fs, Measurable f) :
    Measurable (prodExpect Q T fs) := by
  induction fs with
  | nil => exact measurable_const
  | cons f fs ih => exact (hfs f (by simp)).mul (ih fun f hf => hfs f (by simp [hf])).lintegral_kernel

/-- The expectation of a product of functions of states at distance `T`. -/
theorem lintegral_prodAt {T : ℕ} (hT : 0 < T) {fs : List (S → ℝ≥0∞)} (hfs : ∀ f ∈ fs, Measurable f) (b n : ℕ)
    (hn : ∀ j < fs.length, b + j * T < n) (x : S) :
    ∫⁻ l, prodAt T fs b l ∂traj Q n x = ∫⁻ y, prodExpect Q T fs y ∂pw Q (b + 1) x := by
  induction fs generalizing b n x with
  | nil => simp [prodAt, prodExpect]
  | cons f fs ih =>
    have hf : Measurable f := hfs f (by simp)
    have hfs' : ∀ f ∈ fs, Measurable f := fun f hf => hfs f (by simp [hf])
    obtain ⟨n', rfl⟩ : ∃ n', n = b + (n' + 1) := ⟨n - b - 1, by
      have := hn 0 (by simp)
      omega⟩
    have e : ∀ l : ℕ → S, prodAt T (f :: fs) b l = prodAt T (f :: fs) 0 fun i => l (b + i) := fun l => by
      rw [← prodAt_add, Nat.add_zero]
    simp only [e]
    rw [lintegral_traj_drop Q b (n' + 1) x (prodAt_measurable T hfs 0), lintegral_pw_add Q b 1 x
      (prodExpect_measurable Q T hfs)]
    refine lintegral_congr fun y => ?_
    rw [lintegral_traj_succ Q n' y (prodAt_measurable T hfs 0), lintegral_pw_succ Q 0 y (prodExpect_measurable Q T hfs)]
    refine lintegral_congr fun y' => ?_
    rw [lintegral_pw_zero Q y' (prodExpect_measurable Q T hfs), prodExpect]
    simp only [prodAt]
    show ∫⁻ l, f y' * prodAt T fs (0 + T) (cons y' l) ∂traj Q n' y' = _
    rw [lintegral_const_mul (f := fun l => prodAt T fs (0 + T) (cons y' l)) _
      ((prodAt_measurable T hfs' _).comp (measurable_cons_left y'))]
    congr 1
    obtain ⟨T, rfl⟩ : ∃ t, T = t + 1 := ⟨T - 1, by omega⟩
    rw [← ih hfs' T n' (fun j hj => ?_) y']
    · refine lintegral_congr fun l => ?_
      rw [show 0 + (T + 1) = 1 + T by omega, prodAt_add]
      congr 1
      funext i
      rw [Nat.add_comm]
      rfl
    · have := hn (j + 1) (by simp; omega)
      rw [Nat.succ_mul] at this
      omega

variable {Q} {p : Measure S} [IsProbabilityMeasure p]

theorem lintegral_le_of_le {μ : Measure S} [IsProbabilityMeasure μ] {f : S → ℝ≥0∞} {M : ℝ≥0∞} (h : ∀ x, f x ≤ M) :
    ∫⁻ x, f x ∂μ ≤ M :=
  (lintegral_mono h).trans (by simp)

theorem Erg.uniform_absd (h : Erg Q p) {f : S → ℝ≥0∞} (hf : Measurable f) {M : ℝ≥0∞} (hM : M ≠ ∞)
    (hfM : ∀ x, f x ≤ M) (x : S) {e : ℝ≥0∞} (he : 0 < e) :
    ∃ N, ∀ k, N ≤ k → ∀ l, ∫⁻ y, absd (∫⁻ z, f z ∂pw Q k y) (∫⁻ z, f z ∂p) ∂pw Q l x ≤ e := by
  have hfin : ∀ x, f x ≠ ∞ := fun x => ne_top_of_le_ne_top hM (hfM x)
  obtain ⟨N, hN⟩ := h.uniform (g := fun x => (f x).toReal) hf.ennreal_toReal (M := M.toReal) (fun x => by
    rw [abs_of_nonneg ENNReal.toReal_nonneg]
    exact ENNReal.toReal_mono hM (hfM x)) x he
  refine ⟨N, fun k hk l => (le_of_eq (lintegral_congr fun y => ?_)).trans (hN k hk l)⟩
  have e : ∀ (μ : Measure S) [IsProbabilityMeasure μ], ∫ z, (f z).toReal ∂μ = (∫⁻ z, f z ∂μ).toReal := fun μ _ =>
    integral_toReal hf.aemeasurable (Eventually.of_forall fun z => lt_top_iff_ne_top.2 (hfin z))
  have ht : ∀ (μ : Measure S) [IsProbabilityMeasure μ], ∫⁻ z, f z ∂μ ≠ ∞ := fun μ _ =>
    ne_top_of_le_ne_top hM (lintegral_le_of_le hfM)
  rw [dev, e, e, ← edist_eq_enorm_sub, edist_dist, dist_toReal (ht _) (ht _), ENNReal.ofReal_toReal]
  exact ne_top_of_le_ne_top hM (absd_le_max (lintegral_le_of_le hfM) (lintegral_le_of_le hfM))

theorem absd_measurable {f : S → ℝ≥0∞} (hf : Measurable f) (c : ℝ≥0∞) : Measurable fun y => absd (f y) c :=
  (hf.sub_const c).add (measurable_const.sub hf)

theorem absd_lintegral_mul {μ : Measure S} {f g : S → ℝ≥0∞} (hf : Measurable f) (hg : Measurable g) (a c : ℝ≥0∞) :
    absd (∫⁻ z, f z * g z ∂μ) (a * c) ≤ ∫⁻ z, f z * absd (g z) c ∂μ + absd (∫⁻ z, f z ∂μ) a * c := by
  have hd : Measurable fun z => f z * absd (g z) c := hf.mul (absd_measurable hg c)
  refine absd_le ?_ ?_
  · calc ∫⁻ z, f z * g z ∂μ ≤ ∫⁻ z, (f z * c + f z * absd (g z) c) ∂μ := lintegral_mono fun z => by
          rw [← mul_add]
          exact mul_le_mul_right (le_add_absd _ _) _
      _ = (∫⁻ z, f z ∂μ) * c + ∫⁻ z, f z * absd (g z) c ∂μ := by
          rw [lintegral_add_right _ hd, lintegral_mul_const _ hf]
      _ ≤ (a + absd (∫⁻ z, f z ∂μ) a) * c + ∫⁻ z, f z * absd (g z) c ∂μ := by
          gcongr
          exact le_add_absd _ _
      _ = _ := by ring
  · calc a * c ≤ (∫⁻ z, f z ∂μ + absd (∫⁻ z, f z ∂μ) a) * c := by
          gcongr
          rw [absd_comm]
          exact le_add_absd _ _
      _ = ∫⁻ z, f z * c ∂μ + absd (∫⁻ z, f z ∂μ) a * c := by rw [add_mul, lintegral_mul_const _ hf]
      _ ≤ ∫⁻ z, (f z * g z + f z * absd (g z) c) ∂μ + absd (∫⁻ z, f z ∂μ) a * c := by
          gcongr with z
          rw [← mul_add]
          refine mul_le_mul_right ?_ _
          rw [absd_comm]
          exact le_add_absd _ _
      _ = _ := by rw [lintegral_add_right _ hd, add_assoc]

/-- States that are far apart and far from the start are independent draws from the limit. -/
theorem Erg.prodExpect_limit (h : Erg Q p) {fs : List (S → ℝ≥0∞)} (hfs : ∀ f ∈ fs, Measurable f) {M : ℝ≥0∞}
    (hM : M ≠ ∞) (hfM : ∀ f ∈ fs, ∀ x, f x ≤ M) (x : S) {e : ℝ≥0∞} (he : 0 < e) :
    ∃ N, ∀ T, N ≤ T → ∀ b, N ≤ b → ∀ l,
      ∫⁻ y, absd (∫⁻ z, prodExpect Q T fs z ∂pw Q b y) (fs.map fun f => ∫⁻ z, f z ∂p).prod ∂pw Q l x ≤ e := by
  induction fs generalizing e with
  | nil => exact ⟨0, fun T _ b _ l => by simp [prodExpect, absd]⟩
  | cons f fs ih =>
    have hf : Measurable f := hfs f (by simp)
    have hfs' : ∀ f ∈ fs, Measurable f := fun f hf => hfs f (by simp [hf])
    obtain ⟨c, hc⟩ : ∃ c, c = (fs.map fun f => ∫⁻ z, f z ∂p).prod := ⟨_, rfl⟩
    have hcM : c ≠ ∞ := by
      rw [hc]
      refine (List.prod_induction (fun a : ℝ≥0∞ => a < ∞) (fun a b ha hb => ENNReal.mul_lt_top ha hb) one_lt_top
        fun a ha => ?_).ne
      obtain ⟨f', hf', rfl⟩ := List.mem_map.1 ha
      exact (lintegral_le_of_le (hfM f' (by simp [hf']))).trans_lt (lt_top_iff_ne_top.2 hM)
    obtain ⟨e', he', hb⟩ : ∃ e' : ℝ≥0∞, 0 < e' ∧ M * e' + e' * c ≤ e := by
      by_cases ht : e = ∞
      · exact ⟨1, one_pos, by rw [ht]; exact le_top⟩
      refine ⟨e / (M + c + 1), ENNReal.div_pos he.ne' (by simp [hM, hcM]), ?_⟩
      have : M * (e / (M + c + 1)) + e / (M + c + 1) * c ≤ e / (M + c + 1) * (M + c + 1) := by
        rw [mul_comm M, ← mul_add]
        exact mul_le_mul_right le_self_add _
      exact this.trans (le_of_eq (ENNReal.div_mul_cancel (by simp) (by simp [hM, hcM])))
    obtain ⟨N1, hN1⟩ := ih hfs' (fun f hf => hfM f (by simp [hf])) he'
    obtain ⟨N2, hN2⟩ := h.uniform_absd hf hM (hfM f (by simp)) x he'
    refine ⟨max N1 N2, fun T hT b hb' l => ?_⟩
    obtain ⟨g, hg⟩ : ∃ g : S → ℝ≥0∞, g = fun y => ∫⁻ z, prodExpect Q T fs z ∂pw Q T y := ⟨_, rfl⟩
    have hgm : Measurable g := by rw [hg]; exact (prodExpect_measurable Q T hfs').lintegral_kernel
    have hI := hN1 T (le_trans (le_max_left _ _) hT) T (le_trans (le_max_left _ _) hT) (l + b)
    have hJ := hN2 b (le_trans (le_max_right _ _) hb') l
    rw [← hc, lintegral_pw_add _ _ _ _ (absd_measurable (prodExpect_measurable Q T hfs').lintegral_kernel c)] at hI
    rw [List.map_cons, List.prod_cons, ← hc]
    have hF : Measurable fun y => ∫⁻ z, f z * absd (g z) c ∂pw Q b y :=
      (hf.mul (absd_measurable hgm c)).lintegral_kernel
    have hD : Measurable fun y => absd (∫⁻ z, f z ∂pw Q b y) (∫⁻ z, f z ∂p) := absd_measurable hf.lintegral_kernel _
    calc ∫⁻ y, absd (∫⁻ z, prodExpect Q T (f :: fs) z ∂pw Q b y) ((∫⁻ z, f z ∂p) * c) ∂pw Q l x
        ≤ ∫⁻ y, (∫⁻ z, f z * absd (g z) c ∂pw Q b y + absd (∫⁻ z, f z ∂pw Q b y) (∫⁻ z, f z ∂p) * c) ∂pw Q l x := by
          refine lintegral_mono fun y => ?_
          simp only [prodExpect]
          rw [hg]
          exact absd_lintegral_mul hf (hg ▸ hgm) _ _
      _ = ∫⁻ y, ∫⁻ z, f z * absd (g z) c ∂pw Q b y ∂pw Q l x +
          (∫⁻ y, absd (∫⁻ z, f z ∂pw Q b y) (∫⁻ z, f z ∂p) ∂pw Q l x) * c := by
          rw [lintegral_add_left hF, lintegral_mul_const _ hD]
      _ ≤ M * ∫⁻ y, ∫⁻ z, absd (g z) c ∂pw Q b y ∂pw Q l x + e' * c := by
          gcongr
          rw [← lintegral_const_mul _ (absd_measurable hgm c).lintegral_kernel]
          refine lintegral_mono fun y => ?_
          show _ ≤ M * ∫⁻ z, absd (g z) c ∂pw Q b y
          rw [← lintegral_const_mul _ (absd_measurable hgm c)]
          exact lintegral_mono fun z => mul_le_mul_left (hfM f (by simp) z) _
      _ ≤ M * e' + e' * c := by
          gcongr
          rw [hg]
          exact hI
      _ ≤ e := hb

theorem prodExpect_le {fs : List (S → ℝ≥0∞)} {M : ℝ≥0∞} (hfM : ∀ f ∈ fs, ∀ x, f x ≤ M) (T : ℕ) (y : S) :
    prodExpect Q T fs y ≤ M ^ fs.length := by
  induction fs generalizing y with
  | nil => simp [prodExpect]
  | cons f fs ih =>
    rw [prodExpect, List.length_cons, pow_succ']
    exact mul_le_mul' (hfM f (by simp) y) (lintegral_le_of_le (ih fun f hf => hfM f (by simp [hf])))

theorem tendsto_of_absd {A : Type} {l : Filter A} {g : A → ℝ≥0∞} {c : ℝ≥0∞} (hc : c ≠ ∞)
    (h : ∀ e : ℝ≥0∞, 0 < e → ∀ᶠ a in l, absd (g a) c ≤ e) : Tendsto g l (𝓝 c) := by
  refine (ENNReal.tendsto_nhds hc).2 fun e he => (h e he).mono fun a ha => ⟨?_, ?_⟩
  · refine tsub_le_iff_right.2 (le_trans (le_add_absd c (g a)) ?_)
    rw [absd_comm]
    gcongr
  · exact (le_add_absd _ _).trans (by gcongr)

theorem prod_integrals_ne_top {fs : List (S → ℝ≥0∞)} {M : ℝ≥0∞} (hM : M ≠ ∞) (hfM : ∀ f ∈ fs, ∀ x, f x ≤ M) :
    (fs.map fun f => ∫⁻ z, f z ∂p).prod ≠ ∞ := by
  refine (List.prod_induction (fun a : ℝ≥0∞ => a < ∞) (fun a b ha hb => ENNReal.mul_lt_top ha hb) one_lt_top
    fun a ha => ?_).ne
  obtain ⟨f', hf', rfl⟩ := List.mem_map.1 ha
  exact (lintegral_le_of_le (hfM f' hf')).trans_lt (lt_top_iff_ne_top.2 hM)

/-- Independence in the limit, for a chain whose start is random. -/
theorem Erg.independent (h : Erg Q p) {fs : List (S → ℝ≥0∞)} (hfs : ∀ f ∈ fs, Measurable f) {M : ℝ≥0∞}
    (hM : M ≠ ∞) (hfM : ∀ f ∈ fs, ∀ x, f x ≤ M) (ν : Measure S) [IsProbabilityMeasure ν] {b T : ℤ → ℕ}
    (hbT : ∀ N, ∀ᶠ i in atTop, N ≤ b i ∧ N ≤ T i) :
    Tendsto (fun i => ∫⁻ x, ∫⁻ y, prodExpect Q (T i) fs y ∂pw Q (b i + 1) x ∂ν) atTop
      (𝓝 (fs.map fun f => ∫⁻ z, f z ∂p).prod) := by
  obtain ⟨c, hc⟩ : ∃ c, c = (fs.map fun f => ∫⁻ z, f z ∂p).prod := ⟨_, rfl⟩
  have hcM : c ≠ ∞ := by rw [hc]; exact prod_integrals_ne_top hM hfM
  rw [← hc]
  have e : c = ∫⁻ _, c ∂ν := by simp
  rw [e]
  refine tendsto_lintegral_filter_of_dominated_convergence (fun _ => M ^ fs.length)
    (Eventually.of_forall fun i => (prodExpect_measurable Q (T i) hfs).lintegral_kernel)
    (Eventually.of_forall fun i => Eventually.of_forall fun x => lintegral_le_of_le (prodExpect_le hfM _)) ?_
    (Eventually.of_forall fun x => ?_)
  · rw [lintegral_const, measure_univ, mul_one]
    exact ENNReal.pow_ne_top hM
  · refine tendsto_of_absd hcM fun e he => ?_
    obtain ⟨N, hN⟩ := h.prodExpect_limit hfs hM hfM x he
    refine (hbT N).mono fun i hi => ?_
    have := hN (T i) hi.2 (b i + 1) (by omega) 0
    rwa [← hc, lintegral_pw_zero _ _ (absd_measurable (prodExpect_measurable Q _ hfs).lintegral_kernel c)] at this

end Gpcm.Markov
