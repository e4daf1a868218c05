import Verif.Lemmas.RegularisedLemmas
import Verif.Props.OrderProps

/-! # Lemmas about regularised factorisations: limits as the regularisation vanishes -/

open Matrix Real Filter Topology

namespace Gpcm.Reg

variable {n : Type} [Fintype n] [DecidableEq n] {α : Type} {l : Filter α} {ε : α → ℝ}

/-- Convergence of the natural parameters. -/
structure Conv (l : Filter α) (q : α → NatNormal n) (r : NatNormal n) : Prop where
  lam : Tendsto (fun a => (q a).lam) l (𝓝 r.lam)
  prec : Tendsto (fun a => (q a).prec) l (𝓝 r.prec)

theorem tendsto_mulVec {k n : Type} [Fintype n] {A : α → Matrix k n ℝ} {B : Matrix k n ℝ} {v : α → n → ℝ} {w : n → ℝ}
    (hA : Tendsto A l (𝓝 B)) (hv : Tendsto v l (𝓝 w)) : Tendsto (fun a => A a *ᵥ v a) l (𝓝 (B *ᵥ w)) :=
  (Continuous.matrix_mulVec (A := fun p : Matrix k n ℝ × (n → ℝ) => p.1) (B := fun p => p.2) continuous_fst
    continuous_snd).continuousAt.tendsto.comp (hA.prodMk_nhds hv)

theorem tendsto_mul {i j k : Type} [Fintype j] {A : α → Matrix i j ℝ} {A' : Matrix i j ℝ} {B : α → Matrix j k ℝ}
    {B' : Matrix j k ℝ} (hA : Tendsto A l (𝓝 A')) (hB : Tendsto B l (𝓝 B')) : Tendsto (fun a => A a * B a) l (𝓝 (A' * B')) :=
  (Continuous.matrix_mul (A := fun p : Matrix i j ℝ × Matrix j k ℝ => p.1) (B := fun p => p.2) continuous_fst
    continuous_snd).continuousAt.tendsto.comp (hA.prodMk_nhds hB)

theorem tendsto_transpose {i j : Type} {A : α → Matrix i j ℝ} {A' : Matrix i j ℝ} (hA : Tendsto A l (𝓝 A')) :
    Tendsto (fun a => (A a)ᵀ) l (𝓝 A'ᵀ) :=
  (Continuous.matrix_transpose (A := fun p : Matrix i j ℝ => p) continuous_id).continuousAt.tendsto.comp hA

theorem tendsto_dot {n : Type} [Fintype n] {v v' : α → n → ℝ} {w w' : n → ℝ} (hv : Tendsto v l (𝓝 w))
    (hv' : Tendsto v' l (𝓝 w')) : Tendsto (fun a => v a ⬝ᵥ v' a) l (𝓝 (w ⬝ᵥ w')) :=
  tendsto_finsetSum _ fun i _ => (tendsto_pi_nhds.1 hv i).mul (tendsto_pi_nhds.1 hv' i)

theorem tendsto_frob {i j : Type} [Fintype i] [Fintype j] {A B : α → Matrix i j ℝ} {A' B' : Matrix i j ℝ}
    (hA : Tendsto A l (𝓝 A')) (hB : Tendsto B l (𝓝 B')) : Tendsto (fun a => frob (A a) (B a)) l (𝓝 (frob A' B')) :=
  tendsto_finsetSum _ fun i _ => tendsto_finsetSum _ fun j _ =>
    (tendsto_pi_nhds.1 (tendsto_pi_nhds.1 hA i) j).mul (tendsto_pi_nhds.1 (tendsto_pi_nhds.1 hB i) j)

theorem tendsto_vecMulVec {n : Type} {v : α → n → ℝ} {w : n → ℝ} (hv : Tendsto v l (𝓝 w)) :
    Tendsto (fun a => vecMulVec (v a) (v a)) l (𝓝 (vecMulVec w w)) :=
  (Continuous.matrix_vecMulVec (A := fun x : n → ℝ => x) (B := fun x => x) continuous_id
    continuous_id).continuousAt.tendsto.comp hv

theorem tendsto_det {A : α → Matrix n n ℝ} {A' : Matrix n n ℝ} (hA : Tendsto A l (𝓝 A')) :
    Tendsto (fun a => (A a).det) l (𝓝 A'.det) :=
  (Continuous.matrix_det (A := fun p : Matrix n n ℝ => p) continuous_id).continuousAt.tendsto.comp hA

theorem tendsto_inv {A : α → Matrix n n ℝ} {A' : Matrix n n ℝ} (hA : Tendsto A l (𝓝 A')) (h : A'.PosDef) :
    Tendsto (fun a => (A a)⁻¹) l (𝓝 A'⁻¹) := (continuousAt_inv h).tendsto.comp hA

variable {f : α → Fac n}

theorem gram_tendsto (hε : Tendsto ε l (𝓝 0)) (hf : ∀ a, Regularised (ε a) (f a)) {A : α → Matrix n n ℝ} {A' : Matrix n n ℝ}
    (hA : ∀ a, (A a).PosDef) (h : Tendsto A l (𝓝 A')) : Tendsto (fun a => gram (f a) (A a)) l (𝓝 A') := by
  choose e h0 h1 h2 h3 using fun a => (hf a).gram (hA a)
  have he : Tendsto e l (𝓝 0) := squeeze_zero h0 h1 hε
  simp only [h2]
  simpa using h.add (he.smul_const (1 : Matrix n n ℝ))

theorem gram_exact (C : CholOracle n) {A : Matrix n n ℝ} (hA : A.PosDef) : gram C.chol A = A := C.spec A hA

section
variable (hε : Tendsto ε l (𝓝 0)) (hf : ∀ a, Regularised (ε a) (f a)) {q p : α → NatNormal n} {q' p' : NatNormal n}
  (hq : ∀ a, (q a).prec.PosDef) (hq' : q'.prec.PosDef) (h : Conv l q q')
include hε hf hq hq' h

theorem tendsto_gram_inv : Tendsto (fun a => (gram (f a) (q a).prec)⁻¹) l (𝓝 q'.prec⁻¹) :=
  tendsto_inv (gram_tendsto hε hf hq h.prec) hq'

theorem tendsto_mean (C : CholOracle n) : Tendsto (fun a => mean (f a) (q a)) l (𝓝 (q'.mean C)) := by
  simp only [mean_gram]
  rw [show q'.mean C = mean C.chol q' from rfl, mean_gram, gram_exact C hq']
  exact tendsto_mulVec (tendsto_gram_inv hε hf hq hq' h) h.lam

theorem tendsto_m2 (C : CholOracle n) : Tendsto (fun a => m2 (f a) (q a)) l (𝓝 (q'.m2 C)) := by
  simp only [m2_gram]
  rw [show q'.m2 C = m2 C.chol q' from rfl, m2_gram, gram_exact C hq']
  have h1 := tendsto_gram_inv hε hf hq hq' h
  exact tendsto_mul h1 (tendsto_transpose (tendsto_mul h1 (h.prec.add (tendsto_vecMulVec h.lam))))

theorem tendsto_logdet : Tendsto (fun a => logdet (f a) (q a).prec) l (𝓝 (log q'.prec.det)) :=
  (tendsto_det (gram_tendsto hε hf hq h.prec)).log hq'.det_pos.ne'

theorem tendsto_iqf (C : CholOracle n) : Tendsto (fun a => iqf (f a) (q a).prec (q a).lam) l (𝓝 (Gpcm.iqf C q'.prec q'.lam)) := by
  simp only [iqf_gram]
  rw [Gpcm.iqf_eq C hq']
  exact tendsto_dot h.lam (tendsto_mulVec (tendsto_gram_inv hε hf hq hq' h) h.lam)

theorem tendsto_kl (hp : ∀ a, (p a).prec.PosDef) (hp' : p'.prec.PosDef) (h' : Conv l p p') (C : CholOracle n) :
    Tendsto (fun a => kl (f a) (q a) (p a)) l (𝓝 (q'.kl C p')) := by
  have hr : ∀ a, ((ratio (f a) (q a) (p a))ᵀ * ratio (f a) (q a) (p a)).PosDef := fun a =>
    ratio_posDef ((hf a).gram (hq a)).choose_spec.2.2.2 ((hf a).gram (hp a)).choose_spec.2.2.2
  choose e h0 h1 h2 h3 using fun a => (hf a).gram (hr a)
  have he : Tendsto e l (𝓝 0) := squeeze_zero h0 h1 hε
  have hg := tendsto_mul (gram_tendsto hε hf hp h'.prec) (tendsto_gram_inv hε hf hq hq' h)
  have hd : (p'.prec * q'.prec⁻¹).det = p'.prec.det / q'.prec.det := by
    rw [det_mul, det_nonsing_inv, Ring.inverse_eq_inv', div_eq_mul_inv]
  have e2 : ∀ a, (gram (f a) ((ratio (f a) (q a) (p a))ᵀ * ratio (f a) (q a) (p a))).det =
      (gram (f a) (p a).prec * (gram (f a) (q a).prec)⁻¹ + e a • 1).det := fun a => by
    rw [h2, ratio_det_add ((hf a).gram (hp a)).choose_spec.2.2.2]
  have e3 : q'.kl C p' = 1 / 2 * ((p'.prec * q'.prec⁻¹).trace - log (p'.prec * q'.prec⁻¹).det +
      (q'.mean C - p'.mean C) ⬝ᵥ (p'.prec *ᵥ (q'.mean C - p'.mean C)) - Fintype.card n) := by
    rw [NatNormal.kl_formula C hq' hp', NatNormal.var_eq C hq', hd, log_div hp'.det_pos.ne' hq'.det_pos.ne']
    ring
  simp only [kl_def, ratio_trace, e2]
  rw [e3]
  have hm := (tendsto_mean hε hf hq hq' h C).sub (tendsto_mean hε hf hp hp' h' C)
  refine ((((?_ : Tendsto _ _ _).sub ?_).add ?_).sub_const _).const_mul _
  · exact (Continuous.matrix_trace (A := fun x : Matrix n n ℝ => x) continuous_id).continuousAt.tendsto.comp hg
  · refine (tendsto_det ?_).log ?_
    · simpa using hg.add (he.smul_const (1 : Matrix n n ℝ))
    · rw [hd]
      exact (div_pos hp'.det_pos hq'.det_pos).ne'
  · exact tendsto_dot hm (tendsto_mulVec h'.prec hm)

end

theorem tendsto_map {β γ : Type} [TopologicalSpace γ] {g : α → β → γ} {g' : β → γ} (t : List β)
    (hg : ∀ s, Tendsto (fun a => g a s) l (𝓝 (g' s))) : Tendsto (fun a => t.map (g a)) l (𝓝 (t.map g')) := by
  induction t with
  | nil => exact tendsto_const_nhds
  | cons s t ih => exact (hg s).cons ih

/-! ## Terms -/

variable {ι κ : Type} [Fintype ι] [DecidableEq ι] [Fintype κ] [DecidableEq κ] {F : α → Facs ι κ} {m : Inst ι κ}

section
variable (C : Chols ι κ) (h : m.Valid) (hε : Tendsto ε l (𝓝 0)) (hu : ∀ a, Regularised (ε a) (F a).u)
  (hz : ∀ a, Regularised (ε a) (F a).z)
include h hε hu

theorem tendsto_KuInv : Tendsto (fun a => (regInst (F a) m).KuInv C) l (𝓝 (m.KuInv C)) := by
  rw [Inst.KuInv, pdInv_eq C.u h.Ku]
  have e : ∀ a, (regInst (F a) m).KuInv C = (gram (F a).u m.Ku)⁻¹ := fun a => by
    rw [← KuInv_eq (F a) m C h.Ku (hu a), KuInv, pdInv_gram]
  simp only [e]
  exact tendsto_inv (gram_tendsto hε hu (fun _ => h.Ku) tendsto_const_nhds) h.Ku

omit hu in
include hz in
theorem tendsto_KzInv : Tendsto (fun a => (regInst (F a) m).KzInv C) l (𝓝 (m.KzInv C)) := by
  rw [Inst.KzInv, pdInv_eq C.z h.Kz]
  have e : ∀ a, (regInst (F a) m).KzInv C = (gram (F a).z m.Kz)⁻¹ := fun a => by
    rw [← KzInv_eq (F a) m C h.Kz (hz a), KzInv, pdInv_gram]
  simp only [e]
  exact tendsto_inv (gram_tendsto hε hz (fun _ => h.Kz) tendsto_const_nhds) h.Kz

theorem tendsto_ptB (s : ℝ) : Tendsto (fun a => ptB C (regInst (F a) m) s) l (𝓝 (ptB C m s)) :=
  tendsto_const_nhds.sub (tendsto_mul (tendsto_mul tendsto_const_nhds (tendsto_KuInv C h hε hu)) tendsto_const_nhds)

omit hu in
include hz in
theorem tendsto_ptA (s : ℝ) : Tendsto (fun a => ptA C (regInst (F a) m) s) l (𝓝 (ptA C m s)) :=
  tendsto_const_nhds.sub (tendsto_mul (tendsto_mul tendsto_const_nhds (tendsto_KzInv C h hε hz)) tendsto_const_nhds)

include hz

theorem tendsto_ptC (s : ℝ) : Tendsto (fun a => ptC C (regInst (F a) m) s) l (𝓝 (ptC C m s)) := by
  have h1 := tendsto_KuInv C h hε hu
  have h2 := tendsto_KzInv C h hε hz
  exact ((tendsto_const_nhds.sub (tendsto_frob h1 tendsto_const_nhds)).sub (tendsto_frob h2 tendsto_const_nhds)).add
    (tendsto_frob h1 (tendsto_mul (tendsto_mul tendsto_const_nhds h2) tendsto_const_nhds))

theorem tendsto_ptMoments {u : α → ι → ℝ} {u' : ι → ℝ} {u2 : α → Matrix ι ι ℝ} {u2' : Matrix ι ι ℝ} {z : α → κ → ℝ} {z' : κ → ℝ}
    {z2 : α → Matrix κ κ ℝ} {z2' : Matrix κ κ ℝ} (h1 : Tendsto u l (𝓝 u')) (h2 : Tendsto u2 l (𝓝 u2')) (h3 : Tendsto z l (𝓝 z'))
    (h4 : Tendsto z2 l (𝓝 z2')) (s : ℝ) :
    Tendsto (fun a => ptMoments C (regInst (F a) m) (u a) (u2 a) (z a) (z2 a) s) l (𝓝 (ptMoments C m u' u2' z' z2' s)) := by
  refine Tendsto.prodMk_nhds ?_ ?_
  · exact tendsto_dot h1 (tendsto_mulVec tendsto_const_nhds h3)
  · exact (((tendsto_frob (tendsto_ptA C h hε hz s) h2).add (tendsto_frob (tendsto_ptB C h hε hu s) h4)).add
      (tendsto_ptC C h hε hu hz s)).add
      (tendsto_frob h2 (tendsto_mul (tendsto_mul tendsto_const_nhds h4) tendsto_const_nhds))

end

/-! ## Optimal updates -/

section
variable (C : Chols ι κ) (h : m.Valid) (hε : Tendsto ε l (𝓝 0)) (hu : ∀ a, Regularised (ε a) (F a).u)
  (hz : ∀ a, Regularised (ε a) (F a).z)

theorem m2_sub_outer {ε : ℝ} {f : Fac n} (hf : Regularised ε f) {q : NatNormal n} (hq : q.prec.PosDef) :
    (m2 f q - vecMulVec (mean f q) (mean f q)).PosSemidef := by
  obtain ⟨e, -, -, -, hG⟩ := hf.gram hq
  have hi : ((gram f q.prec)⁻¹)ᵀ = (gram f q.prec)⁻¹ := inv_symm hG
  have h1 : m2 f q - vecMulVec (mean f q) (mean f q) = (gram f q.prec)⁻¹ * q.prec * ((gram f q.prec)⁻¹)ᵀ := by
    rw [m2_gram, mean_gram, transpose_mul, transpose_add, posDef_symm hq, transpose_vecMulVec, Matrix.add_mul, Matrix.mul_add,
      vecMulVec_mul, mul_vecMulVec, ← mulVec_transpose, transpose_transpose, ← Matrix.mul_assoc, add_sub_cancel_right]
  rw [h1]
  have := hq.posSemidef.mul_mul_conjTranspose_same (gram f q.prec)⁻¹
  rwa [conjTranspose_eq_transpose_of_trivial] at this

theorem m2_psd {ε : ℝ} {f : Fac n} (hf : Regularised ε f) {q : NatNormal n} (hq : q.prec.PosDef) : (m2 f q).PosSemidef := by
  have := (m2_sub_outer hf hq).add (outer_psd (mean f q))
  rwa [sub_add_cancel] at this

theorem quOptimalMF_tilt (F : Facs ι κ) (ts : DataTerms ι κ) (q : NatNormal κ) : quOptimalMF F m ts q =
    NatNormal.tilt ⟨0, m.Ku⟩ m.noise (uQuad ts (m2 F.z q)) (ts.iUzSum *ᵥ mean F.z q) := by
  unfold quOptimalMF qOptimal NatNormal.tilt uQuad
  simp only [zero_add]

theorem qzOptimalMF_tilt (F : Facs ι κ) (ts : DataTerms ι κ) (q : NatNormal ι) : qzOptimalMF F m ts q =
    NatNormal.tilt ⟨0, m.Kz⟩ m.noise (zQuad ts (m2 F.u q)) (ts.iUzSumᵀ *ᵥ mean F.u q) := by
  unfold qzOptimalMF qOptimal NatNormal.tilt zQuad
  simp only [zero_add, List.map_map, Function.comp_def, transpose_transpose]

theorem tilt_conv {p : NatNormal n} {s : ℝ} {D : α → Matrix n n ℝ} {D' : Matrix n n ℝ} {b : α → n → ℝ} {b' : n → ℝ}
    (hD : Tendsto D l (𝓝 D')) (hb : Tendsto b l (𝓝 b')) : Conv l (fun a => p.tilt s (D a) (b a)) (p.tilt s D' b') :=
  ⟨tendsto_const_nhds.add (hb.const_smul _), tendsto_const_nhds.add (hD.const_smul _)⟩

theorem quOptimalMF_posDef (C : Chols ι κ) (h : m.Valid) {ε : ℝ} {F : Facs ι κ} (hu : Regularised ε F.u) (hz : Regularised ε F.z)
    (d : List (ℝ × ℝ)) {q : NatNormal κ} (hq : q.prec.PosDef) : (quOptimalMF F m (constructDataTerms F m d) q).prec.PosDef := by
  rw [quOptimalMF_tilt, constructDataTerms_eq F m C h hu hz]
  exact tilt_posDef _ h.Ku h.noise (uQuad_psd (ASum_psd C (regInst_valid h hu hz) d) (m2_psd hz hq))

theorem qzOptimalMF_posDef (C : Chols ι κ) (h : m.Valid) {ε : ℝ} {F : Facs ι κ} (hu : Regularised ε F.u) (hz : Regularised ε F.z)
    (d : List (ℝ × ℝ)) {q : NatNormal ι} (hq : q.prec.PosDef) : (qzOptimalMF F m (constructDataTerms F m d) q).prec.PosDef := by
  rw [qzOptimalMF_tilt, constructDataTerms_eq F m C h hu hz]
  exact tilt_posDef _ h.Kz h.noise (zQuad_psd (BSum_psd C (regInst_valid h hu hz) d) (m2_psd hu hq))

theorem qzOptimal_posDef (C : Chols ι κ) (h : m.Valid) {ε : ℝ} {F : Facs ι κ} (hu : Regularised ε F.u) (hz : Regularised ε F.z)
    (d : List (ℝ × ℝ)) (u : ι → ℝ) : (qzOptimal m (constructDataTerms F m d) u).prec.PosDef := by
  rw [qzOptimal_eq, constructDataTerms_eq F m C h hu hz]
  exact tilt_posDef _ h.Kz h.noise (zQuad_psd (BSum_psd C (regInst_valid h hu hz) d) (outer_psd u))

theorem meanFieldBound_sumEll (F : Facs ι κ) (ts : DataTerms ι κ) (pu qu : NatNormal ι) (pz qz : NatNormal κ) :
    meanFieldBound F m ts pu qu pz qz = sumEll ts m.noise (mean F.u qu) (m2 F.u qu) (mean F.z qz) (m2 F.z qz)
      - kl F.u qu pu - kl F.z qz pz := by
  unfold meanFieldBound sumEll
  have : ∑ i, mean F.u qu i * (ts.iUzSum *ᵥ mean F.z qz) i = mean F.u qu ⬝ᵥ (ts.iUzSum *ᵥ mean F.z qz) := rfl
  rw [this]
  norm_num
  ring

include h hε hu hz

theorem tendsto_zQuad (d : List (ℝ × ℝ)) {u2 : α → Matrix ι ι ℝ} {u2' : Matrix ι ι ℝ} (h2 : Tendsto u2 l (𝓝 u2')) :
    Tendsto (fun a => zQuad (constructDataTerms (F a) m d) (u2 a)) l (𝓝 (zQuad (Gpcm.constructDataTerms C m d) u2')) := by
  have e : ∀ a, zQuad (constructDataTerms (F a) m d) (u2 a) = (d.map fun p => ptZ C (regInst (F a) m) (u2 a) p.1).sum := fun a => by
    rw [constructDataTerms_eq (F a) m C h (hu a) (hz a), zQuad_sum]
  simp only [e]
  rw [zQuad_sum]
  exact _root_.tendsto_list_sum d fun p _ => (tendsto_ptB C h hε hu p.1).add
    (tendsto_mul (tendsto_mul tendsto_const_nhds h2) tendsto_const_nhds)

theorem tendsto_uQuad (d : List (ℝ × ℝ)) {z2 : α → Matrix κ κ ℝ} {z2' : Matrix κ κ ℝ} (h2 : Tendsto z2 l (𝓝 z2')) :
    Tendsto (fun a => uQuad (constructDataTerms (F a) m d) (z2 a)) l (𝓝 (uQuad (Gpcm.constructDataTerms C m d) z2')) := by
  have e : ∀ a, uQuad (constructDataTerms (F a) m d) (z2 a) = (d.map fun p => ptU C (regInst (F a) m) (z2 a) p.1).sum := fun a => by
    rw [constructDataTerms_eq (F a) m C h (hu a) (hz a), uQuad_sum]
  simp only [e]
  rw [uQuad_sum]
  exact _root_.tendsto_list_sum d fun p _ => (tendsto_ptA C h hε hz p.1).add
    (tendsto_mul (tendsto_mul tendsto_const_nhds h2) tendsto_const_nhds)

theorem conv_quOptimalMF (d : List (ℝ × ℝ)) {q : α → NatNormal κ} {q' : NatNormal κ} (hq : ∀ a, (q a).prec.PosDef)
    (hq' : q'.prec.PosDef) (hc : Conv l q q') :
    Conv l (fun a => quOptimalMF (F a) m (constructDataTerms (F a) m d) (q a))
      (Gpcm.quOptimalMF C m (Gpcm.constructDataTerms C m d) q') := by
  simp only [quOptimalMF_tilt]
  rw [Gpcm.quOptimalMF_eq]
  exact tilt_conv (tendsto_uQuad C h hε hu hz d (tendsto_m2 hε hz hq hq' hc C.z))
    (tendsto_mulVec tendsto_const_nhds (tendsto_mean hε hz hq hq' hc C.z))

theorem conv_qzOptimalMF (d : List (ℝ × ℝ)) {q : α → NatNormal ι} {q' : NatNormal ι} (hq : ∀ a, (q a).prec.PosDef)
    (hq' : q'.prec.PosDef) (hc : Conv l q q') :
    Conv l (fun a => qzOptimalMF (F a) m (constructDataTerms (F a) m d) (q a))
      (Gpcm.qzOptimalMF C m (Gpcm.constructDataTerms C m d) q') := by
  simp only [qzOptimalMF_tilt]
  rw [Gpcm.qzOptimalMF_eq]
  exact tilt_conv (tendsto_zQuad C h hε hu hz d (tendsto_m2 hε hu hq hq' hc C.u))
    (tendsto_mulVec tendsto_const_nhds (tendsto_mean hε hu hq hq' hc C.u))

theorem conv_qzOptimal (d : List (ℝ × ℝ)) (u : ι → ℝ) :
    Conv l (fun a => qzOptimal m (constructDataTerms (F a) m d) u) (qzOptimal m (Gpcm.constructDataTerms C m d) u) := by
  simp only [qzOptimal_eq]
  exact tilt_conv (tendsto_zQuad C h hε hu hz d tendsto_const_nhds) tendsto_const_nhds

/-! ## Bounds -/

theorem tendsto_bound (d : List (ℝ × ℝ)) {pu qu : α → NatNormal ι} {pu' qu' : NatNormal ι} {pz qz : α → NatNormal κ}
    {pz' qz' : NatNormal κ} (a1 : ∀ a, (pu a).prec.PosDef) (a2 : pu'.prec.PosDef) (a3 : Conv l pu pu')
    (b1 : ∀ a, (qu a).prec.PosDef) (b2 : qu'.prec.PosDef) (b3 : Conv l qu qu')
    (c1 : ∀ a, (pz a).prec.PosDef) (c2 : pz'.prec.PosDef) (c3 : Conv l pz pz')
    (d1 : ∀ a, (qz a).prec.PosDef) (d2 : qz'.prec.PosDef) (d3 : Conv l qz qz') :
    Tendsto (fun a => meanFieldBound (F a) m (constructDataTerms (F a) m d) (pu a) (qu a) (pz a) (qz a)) l
      (𝓝 (Gpcm.meanFieldBound C m (Gpcm.constructDataTerms C m d) pu' qu' pz' qz')) := by
  have e : ∀ a, meanFieldBound (F a) m (constructDataTerms (F a) m d) (pu a) (qu a) (pz a) (qz a) =
      (d.map fun p => Spec.ell m.noise p.2
        (ptMoments C (regInst (F a) m) (mean (F a).u (qu a)) (m2 (F a).u (qu a)) (mean (F a).z (qz a)) (m2 (F a).z (qz a)) p.1).1
        (ptMoments C (regInst (F a) m) (mean (F a).u (qu a)) (m2 (F a).u (qu a)) (mean (F a).z (qz a)) (m2 (F a).z (qz a)) p.1).2).sum
        - kl (F a).u (qu a) (pu a) - kl (F a).z (qz a) (pz a) := fun a => by
    rw [meanFieldBound_sumEll, constructDataTerms_eq (F a) m C h (hu a) (hz a), sumEll_eq]
  simp only [e]
  rw [meanFieldBound_eq, sumEll_eq]
  refine (Tendsto.sub ?_ (tendsto_kl hε hu b1 b2 b3 a1 a2 a3 C.u)).sub (tendsto_kl hε hz d1 d2 d3 c1 c2 c3 C.z)
  refine _root_.tendsto_list_sum d fun p _ => ?_
  have hm := tendsto_ptMoments C h hε hu hz (tendsto_mean hε hu b1 b2 b3 C.u) (tendsto_m2 hε hu b1 b2 b3 C.u)
    (tendsto_mean hε hz d1 d2 d3 C.z) (tendsto_m2 hε hz d1 d2 d3 C.z) p.1
  have h1 := (continuous_fst.tendsto _).comp hm
  have h2 := (continuous_snd.tendsto _).comp hm
  exact tendsto_const_nhds.sub (((tendsto_const_nhds.sub (h1.const_mul _)).add h2).div_const _)

theorem tendsto_logZu (d : List (ℝ × ℝ)) (u : ι → ℝ) : Tendsto (fun a => logZu (F a) m (constructDataTerms (F a) m d) u) l
    (𝓝 (Gpcm.logZu C m (Gpcm.constructDataTerms C m d) u)) := by
  have hq := fun a => qzOptimal_posDef C h (hu a) (hz a) d u
  have hq' := Gpcm.qzOptimal_posDef C h d u
  have hc := conv_qzOptimal C h hε hu hz d u
  have hA : Tendsto (fun a => (constructDataTerms (F a) m d).ASum) l (𝓝 (Gpcm.constructDataTerms C m d).ASum) := by
    have e : ∀ a, (constructDataTerms (F a) m d).ASum = ((d.map Prod.fst).map (ptA C (regInst (F a) m))).sum := fun a => by
      rw [constructDataTerms_eq (F a) m C h (hu a) (hz a)]
      exact constructTerms_ASum C _ _
    simp only [e]
    rw [show (Gpcm.constructDataTerms C m d).ASum = _ from constructTerms_ASum C m _]
    exact _root_.tendsto_list_sum _ fun s _ => tendsto_ptA C h hε hz s
  have hC : Tendsto (fun a => (constructDataTerms (F a) m d).cSum) l (𝓝 (Gpcm.constructDataTerms C m d).cSum) := by
    have e : ∀ a, (constructDataTerms (F a) m d).cSum = ((d.map Prod.fst).map (ptC C (regInst (F a) m))).sum := fun a => by
      rw [constructDataTerms_eq (F a) m C h (hu a) (hz a)]
      exact constructTerms_cSum C _ _
    simp only [e]
    rw [show (Gpcm.constructDataTerms C m d).cSum = _ from constructTerms_cSum C m _]
    exact _root_.tendsto_list_sum _ fun s _ => tendsto_ptC C h hε hu hz s
  have hK : Tendsto (fun a => logdet (F a).z m.Kz) l (𝓝 (log m.Kz.det)) :=
    tendsto_logdet (q := fun _ => ⟨0, m.Kz⟩) (q' := ⟨0, m.Kz⟩) hε hz (fun _ => h.Kz) h.Kz ⟨tendsto_const_nhds, tendsto_const_nhds⟩
  have hQ : Tendsto (fun a => ((d.map Prod.snd).map fun y => y ^ 2).sum +
      (u ⬝ᵥ ((constructDataTerms (F a) m d).ASum *ᵥ u)) + (constructDataTerms (F a) m d).cSum) l
      (𝓝 (((d.map Prod.snd).map fun y => y ^ 2).sum +
        (u ⬝ᵥ ((Gpcm.constructDataTerms C m d).ASum *ᵥ u)) + (Gpcm.constructDataTerms C m d).cSum)) :=
    (tendsto_const_nhds.add (tendsto_dot tendsto_const_nhds (tendsto_mulVec hA tendsto_const_nhds))).add hC
  have e1 : ∀ a, logZu (F a) m (constructDataTerms (F a) m d) u = 0.5 * (-((d.map Prod.fst).length : ℝ) * log (2 * π * m.noise) -
      (((d.map Prod.snd).map fun y => y ^ 2).sum + (u ⬝ᵥ ((constructDataTerms (F a) m d).ASum *ᵥ u)) +
        (constructDataTerms (F a) m d).cSum) / m.noise + logdet (F a).z m.Kz -
      logdet (F a).z (qzOptimal m (constructDataTerms (F a) m d) u).prec +
      iqf (F a).z (qzOptimal m (constructDataTerms (F a) m d) u).prec (qzOptimal m (constructDataTerms (F a) m d) u).lam) := fun a => rfl
  have e2 : Gpcm.logZu C m (Gpcm.constructDataTerms C m d) u = 0.5 * (-((d.map Prod.fst).length : ℝ) * log (2 * π * m.noise) -
      (((d.map Prod.snd).map fun y => y ^ 2).sum + (u ⬝ᵥ ((Gpcm.constructDataTerms C m d).ASum *ᵥ u)) +
        (Gpcm.constructDataTerms C m d).cSum) / m.noise + log m.Kz.det -
      log (qzOptimal m (Gpcm.constructDataTerms C m d) u).prec.det +
      Gpcm.iqf C.z (qzOptimal m (Gpcm.constructDataTerms C m d) u).prec (qzOptimal m (Gpcm.constructDataTerms C m d) u).lam) := rfl
  have h5 := tendsto_logdet hε hz hq hq' hc
  have h6 := tendsto_iqf hε hz hq hq' hc C.z
  simp only [e1]
  rw [e2]
  exact ((((hQ.div_const m.noise).const_sub _).add hK |>.sub h5).add h6).const_mul _

end

end Gpcm.Reg
