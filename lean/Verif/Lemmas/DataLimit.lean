import Verif.Props.RegularisedProps

/-! # Lemmas about limits of instances and data -/

set_option linter.unusedSectionVars false

open Matrix Real Filter Topology

namespace Gpcm

namespace Spec

/-- Models that approach a model. -/
structure Near {α ι κ : Type} [Fintype ι] [DecidableEq ι] [Fintype κ] [DecidableEq κ] (l : Filter α) (m : α → Inst ι κ)
    (m' : Inst ι κ) : Prop where
  valid : ∀ a, (m a).Valid
  limit : m'.Valid
  Ku : Tendsto (fun a => (m a).Ku) l (𝓝 m'.Ku)
  Kz : Tendsto (fun a => (m a).Kz) l (𝓝 m'.Kz)
  noise : Tendsto (fun a => (m a).noise) l (𝓝 m'.noise)
  iUx : Tendsto (fun a => (m a).iUx) l (𝓝 m'.iUx)

/-- What the models use about a time approaches what the limit uses about a time. -/
structure NearAt {α ι κ : Type} (l : Filter α) (m : α → Inst ι κ) (m' : Inst ι κ) (t : α → ℝ) (t' : ℝ) : Prop where
  iHx : Tendsto (fun a => (m a).iHx (t a) (t a)) l (𝓝 (m'.iHx t' t'))
  iHz : Tendsto (fun a => (m a).iHz (t a)) l (𝓝 (m'.iHz t'))
  iUz : Tendsto (fun a => (m a).iUz (t a)) l (𝓝 (m'.iUz t'))

/-- The observations with the numbers `idx`. -/
def data {β : Type} (idx : List β) (t y : β → ℝ) : List (ℝ × ℝ) := idx.map fun i => (t i, y i)

end Spec

open Spec Reg

variable {ι κ : Type} [Fintype ι] [DecidableEq ι] [Fintype κ] [DecidableEq κ] (C : Chols ι κ) {α β : Type} {m : α → Inst ι κ}
  {m' : Inst ι κ} {l : Filter α}

theorem exact_regularised {n : Type} [Fintype n] [DecidableEq n] (c : CholOracle n) : Regularised 0 c.chol := fun A _ hA =>
  ⟨0, le_rfl, le_rfl, by simpa using hA.resolve_right (lt_irrefl _), by simpa using c.spec A (hA.resolve_right (lt_irrefl _))⟩

namespace Lim

section
variable {n : Type} [Fintype n] [DecidableEq n] (c : CholOracle n) {q p : α → NatNormal n} {q' p' : NatNormal n}
  (hq : ∀ a, (q a).prec.PosDef) (hq' : q'.prec.PosDef) (h : Conv l q q')
include hq hq' h

theorem mean : Tendsto (fun a => (q a).mean c) l (𝓝 (q'.mean c)) :=
  tendsto_mean (f := fun _ => c.chol) (ε := fun _ => 0) tendsto_const_nhds (fun _ => exact_regularised c) hq hq' h c

theorem m2 : Tendsto (fun a => (q a).m2 c) l (𝓝 (q'.m2 c)) :=
  tendsto_m2 (f := fun _ => c.chol) (ε := fun _ => 0) tendsto_const_nhds (fun _ => exact_regularised c) hq hq' h c

theorem kl (hp : ∀ a, (p a).prec.PosDef) (hp' : p'.prec.PosDef) (h' : Conv l p p') :
    Tendsto (fun a => (q a).kl c (p a)) l (𝓝 (q'.kl c p')) := by
  simp only [NatNormal.kl_formula c hq' hp', fun a => NatNormal.kl_formula c (hq a) (hp a), NatNormal.var_eq c hq',
    fun a => NatNormal.var_eq c (hq a)]
  have hm := (mean c hq hq' h).sub (mean c hp hp' h')
  refine Tendsto.const_mul _ (((Tendsto.add (Tendsto.sub ?_ ((tendsto_det h'.prec).log hp'.det_pos.ne'))
    ((tendsto_det h.prec).log hq'.det_pos.ne')).add (tendsto_dot hm (tendsto_mulVec h'.prec hm))).sub_const _)
  exact (Continuous.matrix_trace (A := fun x : Matrix n n ℝ => x) continuous_id).continuousAt.tendsto.comp
    (tendsto_mul h'.prec (tendsto_inv h.prec hq'))

theorem iqf : Tendsto (fun a => Gpcm.iqf c (q a).prec (q a).lam) l (𝓝 (Gpcm.iqf c q'.prec q'.lam)) :=
  tendsto_iqf (f := fun _ => c.chol) (ε := fun _ => 0) tendsto_const_nhds (fun _ => exact_regularised c) hq hq' h c

omit hq hq' in
theorem logdet (hq' : q'.prec.PosDef) : Tendsto (fun a => log (q a).prec.det) l (𝓝 (log q'.prec.det)) :=
  (tendsto_det h.prec).log hq'.det_pos.ne'

end

section
variable (h : Near l m m')
include h

theorem KuInv : Tendsto (fun a => (m a).KuInv C) l (𝓝 (m'.KuInv C)) := by
  simp only [Inst.KuInv, pdInv_eq C.u h.limit.Ku, fun a => pdInv_eq C.u (h.valid a).Ku]
  exact tendsto_inv h.Ku h.limit.Ku

theorem KzInv : Tendsto (fun a => (m a).KzInv C) l (𝓝 (m'.KzInv C)) := by
  simp only [Inst.KzInv, pdInv_eq C.z h.limit.Kz, fun a => pdInv_eq C.z (h.valid a).Kz]
  exact tendsto_inv h.Kz h.limit.Kz

variable {t : α → ℝ} {t' : ℝ} (ht : NearAt l m m' t t')
include ht

theorem ptA : Tendsto (fun a => Gpcm.ptA C (m a) (t a)) l (𝓝 (Gpcm.ptA C m' t')) :=
  h.iUx.sub (tendsto_mul (tendsto_mul ht.iUz (KzInv C h)) (tendsto_transpose ht.iUz))

theorem ptB : Tendsto (fun a => Gpcm.ptB C (m a) (t a)) l (𝓝 (Gpcm.ptB C m' t')) :=
  ht.iHz.sub (tendsto_mul (tendsto_mul (tendsto_transpose ht.iUz) (KuInv C h)) ht.iUz)

theorem ptC : Tendsto (fun a => Gpcm.ptC C (m a) (t a)) l (𝓝 (Gpcm.ptC C m' t')) := by
  have h1 := KuInv C h
  have h2 := KzInv C h
  exact ((ht.iHx.sub (tendsto_frob h1 h.iUx)).sub (tendsto_frob h2 ht.iHz)).add
    (tendsto_frob h1 (tendsto_mul (tendsto_mul ht.iUz h2) (tendsto_transpose ht.iUz)))

theorem ptMoments {u : α → ι → ℝ} {u' : ι → ℝ} {u2 : α → Matrix ι ι ℝ} {u2' : Matrix ι ι ℝ} {z : α → κ → ℝ} {z' : κ → ℝ}
    {z2 : α → Matrix κ κ ℝ} {z2' : Matrix κ κ ℝ} (h1 : Tendsto u l (𝓝 u')) (h2 : Tendsto u2 l (𝓝 u2')) (h3 : Tendsto z l (𝓝 z'))
    (h4 : Tendsto z2 l (𝓝 z2')) :
    Tendsto (fun a => Gpcm.ptMoments C (m a) (u a) (u2 a) (z a) (z2 a) (t a)) l (𝓝 (Gpcm.ptMoments C m' u' u2' z' z2' t')) := by
  refine Tendsto.prodMk_nhds ?_ ?_
  · exact tendsto_dot h1 (tendsto_mulVec ht.iUz h3)
  · exact (((tendsto_frob (ptA C h ht) h2).add (tendsto_frob (ptB C h ht) h4)).add (ptC C h ht)).add
      (tendsto_frob h2 (tendsto_mul (tendsto_mul ht.iUz h4) (tendsto_transpose ht.iUz)))

end

section
variable (h : Near l m m') {idx : List β} {t : α → β → ℝ} {t' : β → ℝ} (ht : ∀ i ∈ idx, NearAt l m m' (fun a => t a i) (t' i))
  {y : α → β → ℝ} {y' : β → ℝ} (hy : ∀ i ∈ idx, Tendsto (fun a => y a i) l (𝓝 (y' i)))
include h ht

theorem zQuad {u2 : α → Matrix ι ι ℝ} {u2' : Matrix ι ι ℝ} (h2 : Tendsto u2 l (𝓝 u2')) :
    Tendsto (fun a => Gpcm.zQuad (constructDataTerms C (m a) (data idx (t a) (y a))) (u2 a)) l
      (𝓝 (Gpcm.zQuad (constructDataTerms C m' (data idx t' y')) u2')) := by
  simp only [zQuad_sum, data, List.map_map, Function.comp_def]
  exact _root_.tendsto_list_sum idx fun i hi => (ptB C h (ht i hi)).add
    (tendsto_mul (tendsto_mul (tendsto_transpose (ht i hi).iUz) h2) (ht i hi).iUz)

theorem uQuad {z2 : α → Matrix κ κ ℝ} {z2' : Matrix κ κ ℝ} (h2 : Tendsto z2 l (𝓝 z2')) :
    Tendsto (fun a => Gpcm.uQuad (constructDataTerms C (m a) (data idx (t a) (y a))) (z2 a)) l
      (𝓝 (Gpcm.uQuad (constructDataTerms C m' (data idx t' y')) z2')) := by
  simp only [uQuad_sum, data, List.map_map, Function.comp_def]
  exact _root_.tendsto_list_sum idx fun i hi => (ptA C h (ht i hi)).add
    (tendsto_mul (tendsto_mul (ht i hi).iUz h2) (tendsto_transpose (ht i hi).iUz))

include hy

theorem iUzSum : Tendsto (fun a => (constructDataTerms C (m a) (data idx (t a) (y a))).iUzSum) l
    (𝓝 (constructDataTerms C m' (data idx t' y')).iUzSum) := by
  have e : ∀ (m : Inst ι κ) (t y : β → ℝ), (constructDataTerms C m (data idx t y)).iUzSum = (idx.map fun i => y i • m.iUz (t i)).sum := by
    intro m t y
    simp only [constructDataTerms, data]
    congr 1
    induction idx with
    | nil => rfl
    | cons i idx ih => simp_all
  simp only [e]
  exact _root_.tendsto_list_sum idx fun i hi => (hy i hi).smul (ht i hi).iUz

theorem tilt {n : Type} [Fintype n] [DecidableEq n] {K : α → Matrix n n ℝ} {K' : Matrix n n ℝ} (hK : Tendsto K l (𝓝 K'))
    {D : α → Matrix n n ℝ} {D' : Matrix n n ℝ} {b : α → n → ℝ} {b' : n → ℝ} (hD : Tendsto D l (𝓝 D')) (hb : Tendsto b l (𝓝 b')) :
    Conv l (fun a => NatNormal.tilt ⟨0, K a⟩ (m a).noise (D a) (b a)) (NatNormal.tilt ⟨0, K'⟩ m'.noise D' b') := by
  have hi := h.noise.inv₀ h.limit.noise.ne'
  constructor
  · simp only [NatNormal.tilt]
    exact tendsto_const_nhds.add (Tendsto.smul (by simpa only [one_div] using hi) hb)
  · simp only [NatNormal.tilt]
    exact hK.add (Tendsto.smul (by simpa only [one_div] using hi) hD)

theorem quOptimalMF {q : α → NatNormal κ} {q' : NatNormal κ} (hq : ∀ a, (q a).prec.PosDef) (hq' : q'.prec.PosDef)
    (hc : Conv l q q') : Conv l (fun a => Gpcm.quOptimalMF C (m a) (constructDataTerms C (m a) (data idx (t a) (y a))) (q a))
      (Gpcm.quOptimalMF C m' (constructDataTerms C m' (data idx t' y')) q') := by
  simp only [Gpcm.quOptimalMF_eq]
  exact tilt h ht hy h.Ku (uQuad C h ht (m2 C.z hq hq' hc)) (tendsto_mulVec (iUzSum C h ht hy) (mean C.z hq hq' hc))

theorem qzOptimalMF {q : α → NatNormal ι} {q' : NatNormal ι} (hq : ∀ a, (q a).prec.PosDef) (hq' : q'.prec.PosDef)
    (hc : Conv l q q') : Conv l (fun a => Gpcm.qzOptimalMF C (m a) (constructDataTerms C (m a) (data idx (t a) (y a))) (q a))
      (Gpcm.qzOptimalMF C m' (constructDataTerms C m' (data idx t' y')) q') := by
  simp only [Gpcm.qzOptimalMF_eq]
  exact tilt h ht hy h.Kz (zQuad C h ht (m2 C.u hq hq' hc))
    (tendsto_mulVec (tendsto_transpose (iUzSum C h ht hy)) (mean C.u hq hq' hc))

theorem qzOptimal {u : α → ι → ℝ} {u' : ι → ℝ} (hu : Tendsto u l (𝓝 u')) :
    Conv l (fun a => Gpcm.qzOptimal (m a) (constructDataTerms C (m a) (data idx (t a) (y a))) (u a))
      (Gpcm.qzOptimal m' (constructDataTerms C m' (data idx t' y')) u') := by
  simp only [Gpcm.qzOptimal_eq]
  exact tilt h ht hy h.Kz (zQuad C h ht (tendsto_vecMulVec hu)) (tendsto_mulVec (tendsto_transpose (iUzSum C h ht hy)) hu)

theorem quOptimal {z : α → κ → ℝ} {z' : κ → ℝ} (hz : Tendsto z l (𝓝 z')) :
    Conv l (fun a => Gpcm.quOptimal (m a) (constructDataTerms C (m a) (data idx (t a) (y a))) (z a))
      (Gpcm.quOptimal m' (constructDataTerms C m' (data idx t' y')) z') := by
  simp only [Gpcm.quOptimal_eq]
  exact tilt h ht hy h.Ku (uQuad C h ht (tendsto_vecMulVec hz)) (tendsto_mulVec (iUzSum C h ht hy) hz)

theorem sumEll {u : α → ι → ℝ} {u' : ι → ℝ} {u2 : α → Matrix ι ι ℝ} {u2' : Matrix ι ι ℝ} {z : α → κ → ℝ} {z' : κ → ℝ}
    {z2 : α → Matrix κ κ ℝ} {z2' : Matrix κ κ ℝ} (h1 : Tendsto u l (𝓝 u')) (h2 : Tendsto u2 l (𝓝 u2')) (h3 : Tendsto z l (𝓝 z'))
    (h4 : Tendsto z2 l (𝓝 z2')) :
    Tendsto (fun a => Gpcm.sumEll (constructDataTerms C (m a) (data idx (t a) (y a))) (m a).noise (u a) (u2 a) (z a) (z2 a)) l
      (𝓝 (Gpcm.sumEll (constructDataTerms C m' (data idx t' y')) m'.noise u' u2' z' z2')) := by
  simp only [sumEll_eq, data, List.map_map, Function.comp_def]
  refine _root_.tendsto_list_sum idx fun i hi => ?_
  have hm := ptMoments C h (ht i hi) h1 h2 h3 h4
  have g1 := (continuous_fst.tendsto _).comp hm
  have g2 := (continuous_snd.tendsto _).comp hm
  have hn := h.limit.noise
  exact Tendsto.sub (((h.noise.const_mul _).log (by positivity)).const_mul _)
    (((((hy i hi).pow 2).sub (((hy i hi).const_mul _).mul g1)).add g2).div (h.noise.const_mul _) (by positivity))

end

end Lim

end Gpcm
