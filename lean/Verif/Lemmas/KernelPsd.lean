import Verif.Lemmas.GpcmValid
import Verif.Lemmas.ApproxLemmas

/-! # Helper lemmas: sampled kernels as Gram matrices -/

set_option linter.unusedSectionVars false

open MeasureTheory Matrix

namespace Gpcm

variable {T S : Type*} [MeasurableSpace T] [MeasurableSpace S] {μ : Measure T} {ν : Measure S}
variable [SFinite μ] [SFinite ν]
variable {ι κ : Type} [Fintype ι] [Fintype κ] [DecidableEq ι] [DecidableEq κ]

theorem BiL2.sum {F : κ → T → S → ℝ} (h : ∀ k, BiL2 μ ν (F k)) (v : κ → ℝ) :
    BiL2 μ ν fun τ s => ∑ k, v k * F k τ s :=
  ⟨memLp_sum (fun k => (h k).prod) v, fun τ => memLp_sum (fun k => (h k).right τ) v,
    fun s => memLp_sum (fun k => (h k).left s) v⟩

theorem BiL2.sum_sq {F : κ → T → S → ℝ} (h : ∀ k, BiL2 μ ν (F k)) (v : κ → ℝ) :
    ∫ τ, ∫ s, (∑ k, v k * F k τ s) ^ 2 ∂ν ∂μ =
      ∑ i, ∑ j, v i * v j * ∫ τ, ∫ s, F i τ s * F j τ s ∂ν ∂μ := by
  have h1 : ∀ τ, ∫ s, (∑ k, v k * F k τ s) ^ 2 ∂ν = ∑ i, ∑ j, v i * v j * ∫ s, F i τ s * F j τ s ∂ν := fun τ => by
    simp only [sq]
    rw [integral_sum_mul_sum (fun k => (h k).right τ) (fun k => (h k).right τ)]
    simp only [dotProduct, mulVec, gram, of_apply, Finset.mul_sum]
    exact Finset.sum_congr rfl fun i _ => Finset.sum_congr rfl fun j _ => by ring
  have hi : ∀ i j, Integrable (fun τ => v i * v j * ∫ s, F i τ s * F j τ s ∂ν) μ := fun i j => by
    have h2 := (integrable_mul_L2 (h i).prod (h j).prod).integral_prod_left
    exact h2.const_mul _
  simp only [h1]
  rw [integral_finsetSum _ fun i _ => integrable_finsetSum _ fun j _ => hi i j]
  refine Finset.sum_congr rfl fun i _ => ?_
  rw [integral_finsetSum _ fun j _ => hi i j]
  exact Finset.sum_congr rfl fun j _ => integral_const_mul _ _

/-- The residual covariance of several functions of two variables. -/
theorem BiL2.residual_gram {F : κ → T → S → ℝ} (h : ∀ k, BiL2 μ ν (F k)) {β : ι → S → ℝ}
    (hβ : ∀ i, MemLp (β i) 2 ν) (hK : (gram ν β β).PosDef) (v : κ → ℝ) :
    ∑ i, ∑ j, v i * v j * (∫ τ, ∫ s, F i τ s * F j τ s ∂ν ∂μ -
      Spec.inner (gram ν β β)⁻¹
        (gram μ (fun u τ => ∫ s, F i τ s * β u s ∂ν) fun u τ => ∫ s, F j τ s * β u s ∂ν)) =
      ∫ τ, ∫ s, Gpcm.residual ν β (fun τ s => ∑ k, v k * F k τ s) τ s ^ 2 ∂ν ∂μ := by
  have h1 := (BiL2.sum h v).residual_sq hβ hK
  rw [h1, BiL2.sum_sq h]
  have h3 : ∀ u τ, ∫ s, (∑ k, v k * F k τ s) * β u s ∂ν = ∑ k, v k * ∫ s, F k τ s * β u s ∂ν := fun u τ => by
    simp only [mul_comm _ (β u _)]
    exact integral_mul_sum (hβ u) (fun k => (h k).right τ) v
  have h4 : Spec.inner (gram ν β β)⁻¹ (gram μ (fun u τ => ∫ s, (∑ k, v k * F k τ s) * β u s ∂ν)
      fun u τ => ∫ s, (∑ k, v k * F k τ s) * β u s ∂ν) = ∑ i, ∑ j, v i * v j *
      Spec.inner (gram ν β β)⁻¹
        (gram μ (fun u τ => ∫ s, F i τ s * β u s ∂ν) fun u τ => ∫ s, F j τ s * β u s ∂ν) := by
    have h5 : ∀ a b, gram μ (fun u τ => ∫ s, (∑ k, v k * F k τ s) * β u s ∂ν)
        (fun u τ => ∫ s, (∑ k, v k * F k τ s) * β u s ∂ν) a b = ∑ i, ∑ j, v i * v j *
        gram μ (fun u τ => ∫ s, F i τ s * β u s ∂ν) (fun u τ => ∫ s, F j τ s * β u s ∂ν) a b := fun a b => by
      simp only [gram, of_apply, h3]
      rw [integral_sum_mul_sum (fun k => (h k).memLp_integral (hβ a)) fun k => (h k).memLp_integral (hβ b)]
      simp only [dotProduct, mulVec, gram, of_apply, Finset.mul_sum]
      exact Finset.sum_congr rfl fun i _ => Finset.sum_congr rfl fun j _ => by ring
    simp only [Spec.inner, h5, Finset.mul_sum]
    have e : ∀ f : ι → ι → κ → κ → ℝ, ∑ a, ∑ b, ∑ i, ∑ j, f a b i j = ∑ i, ∑ j, ∑ a, ∑ b, f a b i j :=
      fun f => by
        calc _ = ∑ a, ∑ i, ∑ j, ∑ b, f a b i j := Finset.sum_congr rfl fun a _ => by
                rw [Finset.sum_comm]
                exact Finset.sum_congr rfl fun i _ => Finset.sum_comm
          _ = _ := by
                rw [Finset.sum_comm]
                exact Finset.sum_congr rfl fun i _ => Finset.sum_comm
    rw [e]
    exact Finset.sum_congr rfl fun i _ => Finset.sum_congr rfl fun j _ => Finset.sum_congr rfl fun a _ =>
      Finset.sum_congr rfl fun b _ => by ring
  rw [h4]
  simp only [mul_sub, Finset.sum_sub_distrib]

/-- The part of the covariance that the inducing variables determine is positive semi-definite. -/
theorem gram_quad {φ : κ → ι → T → ℝ} (hφ : ∀ k u, MemLp (φ k u) 2 μ) (w : ι → ℝ) (v : κ → ℝ) :
    0 ≤ ∑ i, ∑ j, v i * v j * (w ⬝ᵥ (gram μ (φ i) (φ j) *ᵥ w)) := by
  have h1 : ∀ k, MemLp (fun τ => ∑ u, w u * φ k u τ) 2 μ := fun k => memLp_sum (hφ k) w
  have h2 := integral_sum_mul_sum h1 h1 v v
  have h3 : 0 ≤ ∫ τ, (∑ k, v k * ∑ u, w u * φ k u τ) * ∑ k, v k * ∑ u, w u * φ k u τ ∂μ :=
    integral_nonneg fun τ => mul_self_nonneg _
  rw [h2] at h3
  have h4 : ∀ i j, gram μ (fun k τ => ∑ u, w u * φ k u τ) (fun k τ => ∑ u, w u * φ k u τ) i j =
      w ⬝ᵥ (gram μ (φ i) (φ j) *ᵥ w) := fun i j => integral_sum_mul_sum (hφ i) (hφ j) w w
  calc _ ≤ _ := h3
    _ = _ := by
      have h5 : ∀ i, (gram μ (fun k τ => ∑ u, w u * φ k u τ) (fun k τ => ∑ u, w u * φ k u τ) *ᵥ v) i =
          ∑ j, (w ⬝ᵥ (gram μ (φ i) (φ j) *ᵥ w)) * v j := fun i => by
        simp only [← h4]
        rfl
      show ∑ i, v i * _ = _
      simp only [h5, Finset.mul_sum]
      exact Finset.sum_congr rfl fun i _ => Finset.sum_congr rfl fun j _ => by ring

/-! ## The GPCM -/

open Real

variable {p : Spec.Params} {m n : ℕ} {u : Fin m → ℝ} {t : Fin n → ℝ}

theorem ihx_factF_mul (h : 0 < p.gamma) (a b : ℝ) :
    ∫ τ, ∫ s, factF p a τ s * factF p b τ s = Spec.ihx p a b := by
  unfold Spec.ihx
  congr 1
  funext τ
  rw [integral_factF h]

theorem gram_iux2 (h : 0 < p.gamma) (a b : ℝ) :
    gram volume (fun i τ => ∫ s, factF p a τ s * factU p (u i) s)
      (fun i τ => ∫ s, factF p b τ s * factU p (u i) s) = .of fun i j => Spec.iux p a b (u i) (u j) := by
  ext i j
  show ∫ τ, _ = Spec.iux p a b (u i) (u j)
  unfold Spec.iux
  congr 1
  funext τ
  beta_reduce
  rw [integral_factF_factU h, integral_factF_factU h, kH_symm p (u j)]
  ring

theorem gate_of_nonneg {x : ℝ} (hx : 0 ≤ x) : Spec.gate p x = 1 :=
  if_neg fun h => by linarith [h.2]

/-- A combination of the signal at distinct times is not determined by the inducing points. -/
theorem residual_pos (ha : 0 < p.alpha) (hγ : 0 < p.gamma) (hk : p.alphaT ≠ 0) (hu : Function.Injective u)
    (ht : Function.Injective t) {v : Fin n → ℝ} (hv : v ≠ 0) :
    0 < ∫ τ, ∫ s, residual volume (fun i => factU p (u i)) (fun τ s => ∑ k, v k * factF p (t k) τ s) τ s ^ 2 := by
  have hF := BiL2.sum (fun k => biL2_factF ha hγ (t k)) v
  have hβ : ∀ i, MemLp (factU p (u i)) 2 := fun i => memLp_factU hγ _
  have hr := hF.residual hβ
  have h0 : ∀ τ, 0 ≤ ∫ s, residual volume (fun i => factU p (u i))
      (fun τ s => ∑ k, v k * factF p (t k) τ s) τ s ^ 2 := fun τ => integral_nonneg fun s => sq_nonneg _
  refine (integral_nonneg h0).lt_of_ne fun h => hv ?_
  have h1 := (integral_eq_zero_iff_of_nonneg h0 hr.prod.integrable_sq.integral_prod_left).1 h.symm
  -- a time before all others, at which no factor coincides with one of an inducing point
  obtain ⟨b, hb⟩ : ∃ b : ℝ, ∀ k, b ≤ t k := by
    obtain ⟨b, hb⟩ := (Set.finite_range t).bddBelow
    exact ⟨b, fun k => hb ⟨k, rfl⟩⟩
  have hfin : (⋃ k : Fin n, ⋃ i : Fin m, {t k - u i}).Countable :=
    Set.countable_iUnion fun k => Set.countable_iUnion fun i => Set.countable_singleton _
  have hpos : 0 < volume (Set.Iio b) := by simp
  have h2 : ∀ᵐ τ : ℝ, τ ∉ ⋃ k : Fin n, ⋃ i : Fin m, {t k - u i} := hfin.ae_notMem volume
  obtain ⟨τ, hτ, hτ1, hτ2⟩ : ∃ τ ∈ Set.Iio b, (∫ s, residual volume (fun i => factU p (u i))
      (fun τ s => ∑ k, v k * factF p (t k) τ s) τ s ^ 2) = 0 ∧ τ ∉ ⋃ k : Fin n, ⋃ i : Fin m, {t k - u i} := by
    have h3 := h1.and h2
    obtain ⟨τ, hτ, hτb⟩ := (h3.and_frequently (frequently_ae_mem_iff.2 hpos.ne')).exists
    exact ⟨τ, hτb, hτ.1, hτ.2⟩
  have hτ : τ < b := hτ
  obtain ⟨c, hc⟩ : ∃ c : Fin m → ℝ, ∀ s, residual volume (fun i => factU p (u i))
      (fun τ s => ∑ k, v k * factF p (t k) τ s) τ s =
        ∑ k, v k * factU p (t k - τ) s - ∑ i, c i * factU p (u i) s := by
    refine ⟨(gram volume (fun i => factU p (u i)) fun i => factU p (u i))⁻¹ *ᵥ
      fun i => ∫ s, (∑ k, v k * factF p (t k) τ s) * factU p (u i) s, fun s => ?_⟩
    unfold residual
    congr 1
    refine Finset.sum_congr rfl fun k _ => ?_
    unfold factF
    rw [gate_of_nonneg (by linarith [hb k]), one_mul]
  have h3 : ∀ s, ∑ k, v k * factU p (t k - τ) s - ∑ i, c i * factU p (u i) s = 0 := by
    have hcont : Continuous fun s => (∑ k, v k * factU p (t k - τ) s - ∑ i, c i * factU p (u i) s) ^ 2 := by
      unfold factU
      fun_prop
    have h4 : (fun s => (∑ k, v k * factU p (t k - τ) s - ∑ i, c i * factU p (u i) s) ^ 2) =ᵐ[volume] 0 := by
      refine (integral_eq_zero_iff_of_nonneg (fun s => sq_nonneg _) ?_).1 ?_
      · have := (hr.right τ).integrable_sq
        simpa only [hc] using this
      · simpa only [hc] using hτ1
    have h5 := Continuous.ae_eq_iff_eq volume hcont continuous_const |>.1 h4
    exact fun s => pow_eq_zero_iff (two_ne_zero) |>.1 (congrFun h5 s)
  have hs : factScale p ≠ 0 := mul_ne_zero hk (rpow_pos_of_pos (by positivity) _).ne'
  have h4 := gauss_independent (ι := Fin n ⊕ Fin m) (w := 2 * p.gamma) (by linarith)
    (x := Sum.elim (fun k => t k - τ) u)
    (Function.Injective.sumElim (fun i j h => ht (sub_left_injective h)) hu fun k i h => hτ2 (by
      simp only [Set.mem_iUnion, Set.mem_singleton_iff]
      exact ⟨k, i, by linarith⟩))
    (k := Sum.elim (fun k => factScale p * exp (-(p.alpha * (t k - τ) ^ 2)))
      fun i => factScale p * exp (-(p.alpha * u i ^ 2)))
    (by rintro (i | i) <;> exact mul_ne_zero hs (exp_ne_zero _))
    (v := Sum.elim v fun i => -c i) fun s => by
      rw [Fintype.sum_sum_type]
      simp only [Sum.elim_inl, Sum.elim_inr, neg_mul, Finset.sum_neg_distrib, ← sub_eq_add_neg]
      exact h3 s
  funext k
  exact congrFun h4 (.inl k)

/-- The covariance of the signal at distinct times given the inducing points, plus what they determine. -/
theorem kernel_posDef (ha : 0 < p.alpha) (hγ : 0 < p.gamma) (hk : p.alphaT ≠ 0) (hu : Function.Injective u)
    (ht : Function.Injective t) (w : Fin m → ℝ) {Ku : Matrix (Fin m) (Fin m) ℝ}
    (hKu : Ku = .of fun i j => Spec.kH p (u i) (u j)) {I : ℝ → ℝ → Matrix (Fin m) (Fin m) ℝ}
    (hI : I = fun a b => .of fun i j => Spec.iux p a b (u i) (u j)) (v : Fin n → ℝ) (hv : v ≠ 0) :
    0 < ∑ i, ∑ j, v i * v j * (Spec.ihx p (t i) (t j) - Spec.inner Ku⁻¹ (I (t i) (t j)) +
      w ⬝ᵥ (I (t i) (t j) *ᵥ w)) := by
  have hβ : ∀ i, MemLp (factU p (u i)) 2 := fun i => memLp_factU hγ _
  have hK : (gram volume (fun i => factU p (u i)) fun i => factU p (u i)).PosDef := by
    rw [gram_ku u hγ]
    exact ku_posDef u hγ hk hu
  have h1 := residual_pos ha hγ hk hu ht hv
  rw [← BiL2.residual_gram (fun k => biL2_factF ha hγ (t k)) hβ hK, gram_ku u hγ, ← hKu] at h1
  simp only [ihx_factF_mul hγ, gram_iux2 hγ] at h1
  have h2 := gram_quad (φ := fun k i τ => ∫ s, factF p (t k) τ s * factU p (u i) s)
    (fun k i => (biL2_factF ha hγ (t k)).memLp_integral (hβ i)) w v
  simp only [gram_iux2 hγ] at h2
  have e : ∀ a b, (Matrix.of fun i j => Spec.iux p a b (u i) (u j)) = I a b := fun a b => by rw [hI]
  simp only [e] at h1 h2
  have e2 : ∀ a b c d : ℝ, a * b * (c + d) = a * b * c + a * b * d := fun a b c d => by ring
  simp only [e2, Finset.sum_add_distrib]
  linarith

end Gpcm
