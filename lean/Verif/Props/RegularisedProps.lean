import Verif.Lemmas.RegularisedLimit
import Verif.Props.FarProps

/-!
# Properties C181, C182 and C183: regularised factorisations

The libraries add a small multiple of the identity to matrices that they factorise.
-/

set_option linter.unusedSectionVars false

open Matrix Real Filter Topology

namespace Gpcm

namespace Spec

/-- Libraries that regularise ever less. -/
def Vanishing {α ι κ : Type} [Fintype ι] [DecidableEq ι] [Fintype κ] [DecidableEq κ] (l : Filter α) (F : α → Reg.Facs ι κ) : Prop :=
  ∃ ε : α → ℝ, Tendsto ε l (𝓝 0) ∧ ∀ a, Reg.Regularised (ε a) (F a).u ∧ Reg.Regularised (ε a) (F a).z

/-- Proper posteriors at every depth. -/
def AllProper {ι κ : Type} (s : Posts ι κ) : Prop := ∀ i, (s.qu i).prec.PosDef ∧ (s.qz i).prec.PosDef

/-- The stored posteriors approach those of `s'`, at the same depth. -/
structure Approach {α ι κ : Type} (l : Filter α) (s : α → Posts ι κ) (s' : Posts ι κ) : Prop where
  depth : ∀ a, (s a).qi = s'.qi
  proper : ∀ a, AllProper (s a)
  limit : AllProper s'
  quLam : ∀ i, Tendsto (fun a => ((s a).qu i).lam) l (𝓝 (s'.qu i).lam)
  quPrec : ∀ i, Tendsto (fun a => ((s a).qu i).prec) l (𝓝 (s'.qu i).prec)
  qzLam : ∀ i, Tendsto (fun a => ((s a).qz i).lam) l (𝓝 (s'.qz i).lam)
  qzPrec : ∀ i, Tendsto (fun a => ((s a).qz i).prec) l (𝓝 (s'.qz i).prec)

end Spec

open Spec Reg

variable {ι κ : Type} [Fintype ι] [DecidableEq ι] [Fintype κ] [DecidableEq κ] (C : Chols ι κ) {m : Inst ι κ} {α : Type} {l : Filter α}
  {F : α → Facs ι κ}

theorem Spec.Approach.u {s : α → Posts ι κ} {s' : Posts ι κ} (h : Approach l s s') (i : ℕ) :
    Conv l (fun a => (s a).qu i) (s'.qu i) := ⟨h.quLam i, h.quPrec i⟩

theorem Spec.Approach.z {s : α → Posts ι κ} {s' : Posts ι κ} (h : Approach l s s') (i : ℕ) :
    Conv l (fun a => (s a).qz i) (s'.qz i) := ⟨h.qzLam i, h.qzPrec i⟩

theorem Spec.Approach.priorU (hm : m.Valid) {s : α → Posts ι κ} {s' : Posts ι κ} (h : Approach l s s') :
    (∀ a, ((s a).pU m).prec.PosDef) ∧ (s'.pU m).prec.PosDef ∧ Conv l (fun a => (s a).pU m) (s'.pU m) := by
  by_cases h0 : s'.qi = 0
  · have e : ∀ a, (s a).pU m = ⟨0, m.Ku⟩ := fun a => if_pos ((h.depth a).trans h0)
    have e' : s'.pU m = ⟨0, m.Ku⟩ := if_pos h0
    simp only [e, e']
    exact ⟨fun _ => hm.Ku, hm.Ku, tendsto_const_nhds, tendsto_const_nhds⟩
  · have e : ∀ a, (s a).pU m = (s a).qu (s'.qi - 1) := fun a => by
      rw [Posts.pU, if_neg (by rw [h.depth a]; exact h0), h.depth a]
    have e' : s'.pU m = s'.qu (s'.qi - 1) := if_neg h0
    simp only [e, e']
    exact ⟨fun a => (h.proper a _).1, (h.limit _).1, h.u _⟩

theorem Spec.Approach.priorZ (hm : m.Valid) {s : α → Posts ι κ} {s' : Posts ι κ} (h : Approach l s s') :
    (∀ a, ((s a).pZ m).prec.PosDef) ∧ (s'.pZ m).prec.PosDef ∧ Conv l (fun a => (s a).pZ m) (s'.pZ m) := by
  by_cases h0 : s'.qi = 0
  · have e : ∀ a, (s a).pZ m = ⟨0, m.Kz⟩ := fun a => if_pos ((h.depth a).trans h0)
    have e' : s'.pZ m = ⟨0, m.Kz⟩ := if_pos h0
    simp only [e, e']
    exact ⟨fun _ => hm.Kz, hm.Kz, tendsto_const_nhds, tendsto_const_nhds⟩
  · have e : ∀ a, (s a).pZ m = (s a).qz (s'.qi - 1) := fun a => by
      rw [Posts.pZ, if_neg (by rw [h.depth a]; exact h0), h.depth a]
    have e' : s'.pZ m = s'.qz (s'.qi - 1) := if_neg h0
    simp only [e, e']
    exact ⟨fun a => (h.proper a _).2, (h.limit _).2, h.z _⟩

theorem Spec.Approach.postU {s : α → Posts ι κ} {s' : Posts ι κ} (h : Approach l s s') :
    (∀ a, (s a).qU.prec.PosDef) ∧ s'.qU.prec.PosDef ∧ Conv l (fun a => (s a).qU) s'.qU := by
  have e : ∀ a, (s a).qU = (s a).qu s'.qi := fun a => by rw [Posts.qU, h.depth a]
  simp only [e]
  exact ⟨fun a => (h.proper a _).1, (h.limit _).1, h.u _⟩

theorem Spec.Approach.postZ {s : α → Posts ι κ} {s' : Posts ι κ} (h : Approach l s s') :
    (∀ a, (s a).qZ.prec.PosDef) ∧ s'.qZ.prec.PosDef ∧ Conv l (fun a => (s a).qZ) s'.qZ := by
  have e : ∀ a, (s a).qZ = (s a).qz s'.qi := fun a => by rw [Posts.qZ, h.depth a]
  simp only [e]
  exact ⟨fun a => (h.proper a _).2, (h.limit _).2, h.z _⟩

/-! ## C181 -/

/-- **C181** Exact factorisations are those without regularisation, and with them the model is that of the other properties. -/
theorem c181_exact (C : Chols ι κ) (m : Inst ι κ) (s : Posts ι κ) (t : List ℝ) (d : List (ℝ × ℝ)) (iters : ℤ) :
    let F : Facs ι κ := ⟨C.u.chol, C.z.chol⟩
    Regularised 0 F.u ∧ Regularised 0 F.z ∧ Reg.MeanField.predict F m s t = MeanField.predict C m s t ∧
      Reg.fitMeanFieldCA F m s d iters = (fitMeanFieldCA C m s d iters).1 := by
  have h : ∀ {n : Type} [Fintype n] [DecidableEq n] (c : CholOracle n), Regularised 0 c.chol := fun c A _ hA =>
    ⟨0, le_rfl, le_rfl, by simpa using hA.resolve_right (lt_irrefl _), by
      simpa using c.spec A (hA.resolve_right (lt_irrefl _))⟩
  exact ⟨h C.u, h C.z, rfl, rfl⟩

/-- **C181** As the regularisation vanishes, everything that a normal distribution reports approaches what exact linear algebra gives;
samples are the mean plus a matrix times standard normals, and the square of that matrix approaches the variance. -/
theorem c181_normal {n : Type} [Fintype n] [DecidableEq n] (c : CholOracle n) {ε : α → ℝ} (hε : Tendsto ε l (𝓝 0)) {f : α → Fac n}
    (hf : ∀ a, Regularised (ε a) (f a)) (q p : NatNormal n) (hq : q.prec.PosDef) (hp : p.prec.PosDef) (x : n → ℝ) :
    Tendsto (fun a => mean (f a) q) l (𝓝 (q.mean c)) ∧ Tendsto (fun a => var (f a) q) l (𝓝 (q.var c)) ∧
      Tendsto (fun a => m2 (f a) q) l (𝓝 (q.m2 c)) ∧ Tendsto (fun a => Reg.kl (f a) q p) l (𝓝 (q.kl c p)) ∧
      Tendsto (fun a => Reg.logpdf (f a) q x) l (𝓝 (q.logpdf c x)) ∧
      ∃ S : α → Matrix n n ℝ, (∀ a z, Reg.sample (f a) q z = mean (f a) q + S a *ᵥ z) ∧
        Tendsto (fun a => S a * (S a)ᵀ) l (𝓝 (q.var c)) := by
  have hc : ∀ q : NatNormal n, Conv l (fun _ => q) q := fun q => ⟨tendsto_const_nhds, tendsto_const_nhds⟩
  have h1 := tendsto_mean hε hf (fun _ => hq) hq (hc q) c
  have h2 : Tendsto (fun a => (Reg.gram (f a) q.prec)⁻¹) l (𝓝 (q.var c)) := by
    rw [NatNormal.var, pdInv_eq c hq]
    exact tendsto_gram_inv hε hf (fun _ => hq) hq (hc q)
  refine ⟨h1, ?_, tendsto_m2 hε hf (fun _ => hq) hq (hc q) c, tendsto_kl hε hf (fun _ => hq) hq (hc q) (fun _ => hp) hp (hc p) c, ?_, ?_⟩
  · simp only [var, Reg.pdInv_gram]
    exact h2
  · have h3 := tendsto_const_nhds.sub h1 (a := x)
    have h4 := tendsto_dot (tendsto_mulVec (tendsto_const_nhds (x := q.prec)) h3) h3
    exact (((tendsto_logdet hε hf (fun _ => hq) hq (hc q)).neg.add tendsto_const_nhds).add h4).const_mul _
  · refine ⟨fun a => (Reg.gram (f a) q.prec)⁻¹ * f a q.prec, fun a z => ?_, h2.congr fun a => ?_⟩
    · rw [Reg.sample, Reg.cholsolveVec_gram, mulVec_add, mulVec_mulVec, mean_gram, add_comm]
      rfl
    · obtain ⟨e, -, -, -, hG⟩ := (hf a).gram hq
      have hi : ((Reg.gram (f a) q.prec)⁻¹)ᵀ = (Reg.gram (f a) q.prec)⁻¹ := inv_symm hG
      rw [transpose_mul, hi, Matrix.mul_assoc, ← Matrix.mul_assoc (f a q.prec), show f a q.prec * (f a q.prec)ᵀ = Reg.gram (f a) q.prec from rfl,
        mul_nonsing_inv _ hG.det_pos.ne'.isUnit, Matrix.mul_one]

/-- **C181** As the regularisation vanishes, the mean-field predictions approach those of exact linear algebra. -/
theorem c181_mean_field_predict (h : m.Valid) (hF : Vanishing l F) {s : α → Posts ι κ} {s' : Posts ι κ} (hs : Approach l s s')
    (t : List ℝ) : Tendsto (fun a => Reg.MeanField.predict (F a) m (s a) t) l (𝓝 (MeanField.predict C m s' t)) := by
  obtain ⟨ε, hε, hr⟩ := hF
  have hu := fun a => (hr a).1
  have hz := fun a => (hr a).2
  obtain ⟨a1, a2, a3⟩ := hs.priorU h
  obtain ⟨b1, b2, b3⟩ := hs.priorZ h
  rw [meanField_predict_map]
  have e : ∀ a, Reg.MeanField.predict (F a) m (s a) t = t.map fun x => toMeanVar m (ptMoments C (regInst (F a) m)
      (mean (F a).u ((s a).pU m)) (m2 (F a).u ((s a).pU m)) (mean (F a).z ((s a).pZ m)) (m2 (F a).z ((s a).pZ m)) x) := fun a => by
    rw [Reg.MeanField.predict, Reg.predictMoments_eq (F a) m C h (hu a) (hz a), List.map_map]
    rfl
  simp only [e]
  have hc : Continuous (toMeanVar m) := by unfold toMeanVar; fun_prop
  exact tendsto_map t fun x => (hc.tendsto _).comp (tendsto_ptMoments C h hε hu hz (tendsto_mean hε hu a1 a2 a3 C.u)
    (tendsto_m2 hε hu a1 a2 a3 C.u) (tendsto_mean hε hz b1 b2 b3 C.z) (tendsto_m2 hε hz b1 b2 b3 C.z) x)

/-- **C181** So do the mean-field bounds, collapsed or not. -/
theorem c181_mean_field_bound (h : m.Valid) (hF : Vanishing l F) {s : α → Posts ι κ} {s' : Posts ι κ} (hs : Approach l s s')
    (d : List (ℝ × ℝ)) {c : Option String} (hc : c = none ∨ c = some "z" ∨ c = some "u") :
    ∃ (v : α → ℝ) (v' : ℝ), (∀ a, Reg.MeanField.elbo (F a) m (s a) d c = .ok (v a)) ∧ MeanField.elbo C m s' d c = .ok v' ∧
      Tendsto v l (𝓝 v') := by
  obtain ⟨ε, hε, hr⟩ := hF
  have hu := fun a => (hr a).1
  have hz := fun a => (hr a).2
  obtain ⟨a1, a2, a3⟩ := hs.priorU h
  obtain ⟨b1, b2, b3⟩ := hs.priorZ h
  obtain ⟨c1, c2, c3⟩ := hs.postU
  obtain ⟨d1, d2, d3⟩ := hs.postZ
  rcases hc with rfl | rfl | rfl
  · exact ⟨_, _, fun _ => rfl, rfl, tendsto_bound C h hε hu hz d a1 a2 a3 c1 c2 c3 b1 b2 b3 d1 d2 d3⟩
  · exact ⟨_, _, fun _ => rfl, rfl, tendsto_bound C h hε hu hz d a1 a2 a3 c1 c2 c3 b1 b2 b3
      (fun a => Reg.qzOptimalMF_posDef C h (hu a) (hz a) d (c1 a)) (Gpcm.qzOptimalMF_posDef C h d c2)
      (conv_qzOptimalMF C h hε hu hz d c1 c2 c3)⟩
  · exact ⟨_, _, fun _ => rfl, rfl, tendsto_bound C h hε hu hz d a1 a2 a3
      (fun a => Reg.quOptimalMF_posDef C h (hu a) (hz a) d (d1 a)) (Gpcm.quOptimalMF_posDef C h d d2)
      (conv_quOptimalMF C h hε hu hz d d1 d2 d3) b1 b2 b3 d1 d2 d3⟩

/-- **C181** So does the bound of the structured approximation, for given samples. -/
theorem c181_structured_bound (h : m.Valid) (hF : Vanishing l F) {s : α → Posts ι κ} {s' : Posts ι κ} (hs : Approach l s s')
    (d : List (ℝ × ℝ)) {us : List (ι → ℝ)} (hus : us ≠ []) :
    ∃ (v : α → ℝ) (v' : ℝ), (∀ a, Reg.elboCollapsedZ (F a) m (s a) d us = .ok (v a)) ∧ elboCollapsedZ C m s' d us = .ok v' ∧
      Tendsto v l (𝓝 v') := by
  obtain ⟨ε, hε, hr⟩ := hF
  have hu := fun a => (hr a).1
  have hz := fun a => (hr a).2
  obtain ⟨a1, a2, a3⟩ := hs.priorU h
  obtain ⟨c1, c2, c3⟩ := hs.postU
  have hl : ¬us.length = 0 := by simpa using hus
  refine ⟨_, _, fun _ => if_neg hl, if_neg hl, ?_⟩
  exact ((_root_.tendsto_list_sum us fun u _ => tendsto_logZu C h hε hu hz d u).div_const _).sub
    (tendsto_kl hε hu c1 c2 c3 a1 a2 a3 C.u)

theorem regStructured_predict_map (C : Chols ι κ) (h : m.Valid) {ε : ℝ} {F : Facs ι κ} (hu : Regularised ε F.u)
    (hz : Regularised ε F.z) (d : List (ℝ × ℝ)) (t : List ℝ) {us : List (ι → ℝ)} (hus : us ≠ []) :
    Reg.Structured.predict F m (some (Reg.constructDataTerms F m d)) t us = .ok (t.map fun x =>
      let G := fun u => ptMoments C (regInst F m) u (vecMulVec u u)
        (mean F.z (qzOptimal m (Reg.constructDataTerms F m d) u))
        (m2 F.z (qzOptimal m (Reg.constructDataTerms F m d) u)) x
      toMeanVar m ((us.map fun u => (G u).1).sum / us.length, (us.map fun u => (G u).2).sum / us.length)) := by
  obtain ⟨u, us, rfl⟩ := List.exists_cons_of_ne_nil hus
  simp only [Reg.Structured.predict, Reg.predictMoments_eq F m C h hu hz, List.map_cons, meanMoments,
    foldl_addMoments_map, List.map_map, List.length_map, List.length_cons, foldl_add_pairs, List.sum_cons, Nat.cast_add,
    Nat.cast_one]
  rfl

/-- **C181** So do its predictions. -/
theorem c181_structured_predict (h : m.Valid) (hF : Vanishing l F) (d : List (ℝ × ℝ)) {us : List (ι → ℝ)} (hus : us ≠ [])
    (t : List ℝ) :
    ∃ (v : α → List (ℝ × ℝ)) (v' : List (ℝ × ℝ)),
      (∀ a, Reg.Structured.predict (F a) m (some (Reg.constructDataTerms (F a) m d)) t us = .ok (v a)) ∧
      Structured.predict C m (some (constructDataTerms C m d)) t us = .ok v' ∧ Tendsto v l (𝓝 v') := by
  obtain ⟨ε, hε, hr⟩ := hF
  have hu := fun a => (hr a).1
  have hz := fun a => (hr a).2
  refine ⟨_, _, fun a => regStructured_predict_map C h (hu a) (hz a) d t hus, structured_predict_map C m _ hus t, tendsto_map t fun x => ?_⟩
  have hm := fun u : ι → ℝ => tendsto_ptMoments C h hε hu hz (tendsto_const_nhds (x := u)) (tendsto_const_nhds (x := vecMulVec u u))
    (tendsto_mean hε hz (fun a => Reg.qzOptimal_posDef C h (hu a) (hz a) d u) (Gpcm.qzOptimal_posDef C h d u)
      (conv_qzOptimal C h hε hu hz d u) C.z)
    (tendsto_m2 hε hz (fun a => Reg.qzOptimal_posDef C h (hu a) (hz a) d u) (Gpcm.qzOptimal_posDef C h d u)
      (conv_qzOptimal C h hε hu hz d u) C.z) x
  have h1 := _root_.tendsto_list_sum us fun u _ => (continuous_fst.tendsto _).comp (hm u)
  have h2 := _root_.tendsto_list_sum us fun u _ => (continuous_snd.tendsto _).comp (hm u)
  have hc : Continuous (toMeanVar m) := by unfold toMeanVar; fun_prop
  exact (hc.tendsto _).comp ((h1.div_const _).prodMk_nhds (h2.div_const _))

theorem tendsto_rmsVec {n : Type} [Fintype n] {x y : α → n → ℝ} {x' y' : n → ℝ} (hx : Tendsto x l (𝓝 x')) (hy : Tendsto y l (𝓝 y')) :
    Tendsto (fun a => rmsVec (x a) (y a)) l (𝓝 (rmsVec x' y')) :=
  ((tendsto_finsetSum _ fun i _ => ((tendsto_pi_nhds.1 hx i).sub (tendsto_pi_nhds.1 hy i)).pow 2).div_const _).sqrt

theorem tendsto_rmsMat {n : Type} [Fintype n] {x y : α → Matrix n n ℝ} {x' y' : Matrix n n ℝ} (hx : Tendsto x l (𝓝 x'))
    (hy : Tendsto y l (𝓝 y')) : Tendsto (fun a => rmsMat (x a) (y a)) l (𝓝 (rmsMat x' y')) :=
  ((tendsto_finsetSum _ fun i _ => tendsto_finsetSum _ fun j _ => ((tendsto_pi_nhds.1 (tendsto_pi_nhds.1 hx i) j).sub
    (tendsto_pi_nhds.1 (tendsto_pi_nhds.1 hy i) j)).pow 2).div_const _).sqrt

/-- Convergence of pairs of proper posteriors. -/
structure ConvPair (l : Filter α) (p : α → Pair ι κ) (p' : Pair ι κ) : Prop where
  proper : ∀ a, (p a).u.prec.PosDef ∧ (p a).z.prec.PosDef
  limit : p'.u.prec.PosDef ∧ p'.z.prec.PosDef
  u : Conv l (fun a => (p a).u) p'.u
  z : Conv l (fun a => (p a).z) p'.z

theorem ConvPair.congr {p q : α → Pair ι κ} {p' : Pair ι κ} (h : ConvPair l p p')
    (hq : ∀ a, (q a).u.prec.PosDef ∧ (q a).z.prec.PosDef) (he : ∀ᶠ a in l, q a = p a) : ConvPair l q p' where
  proper := hq
  limit := h.limit
  u := ⟨h.u.lam.congr' (he.mono fun a ha => by simp only [ha]), h.u.prec.congr' (he.mono fun a ha => by simp only [ha])⟩
  z := ⟨h.z.lam.congr' (he.mono fun a ha => by simp only [ha]), h.z.prec.congr' (he.mono fun a ha => by simp only [ha])⟩

theorem ConvPair.step (h : m.Valid) {ε : α → ℝ} (hε : Tendsto ε l (𝓝 0)) (hu : ∀ a, Regularised (ε a) (F a).u)
    (hz : ∀ a, Regularised (ε a) (F a).z) (d : List (ℝ × ℝ)) {p : α → Pair ι κ} {p' : Pair ι κ} (hp : ConvPair l p p') :
    ConvPair l (fun a => Reg.caStep (F a) m (Reg.constructDataTerms (F a) m d) (p a))
      (caStep C m (constructDataTerms C m d) p') := by
  have h1 := fun a => Reg.quOptimalMF_posDef C h (hu a) (hz a) d (hp.proper a).2
  have h2 := Gpcm.quOptimalMF_posDef C h d hp.limit.2
  have h3 := conv_quOptimalMF C h hε hu hz d (fun a => (hp.proper a).2) hp.limit.2 hp.z
  exact ⟨fun a => ⟨h1 a, Reg.qzOptimalMF_posDef C h (hu a) (hz a) d (h1 a)⟩, ⟨h2, Gpcm.qzOptimalMF_posDef C h d h2⟩, h3,
    conv_qzOptimalMF C h hε hu hz d h1 h2 h3⟩

theorem ConvPair.diff {p q : α → Pair ι κ} {p' q' : Pair ι κ} (hp : ConvPair l p p') (hq : ConvPair l q q') :
    Tendsto (fun a => Pair.diff (p a) (q a)) l (𝓝 (Pair.diff p' q')) :=
  (((tendsto_rmsVec hp.u.lam hq.u.lam).add (tendsto_rmsMat hp.u.prec hq.u.prec)).add
    (tendsto_rmsVec hp.z.lam hq.z.lam)).add (tendsto_rmsMat hp.z.prec hq.z.prec)

theorem ConvPair.loop {f : α → Pair ι κ → Pair ι κ} {g : Pair ι κ → Pair ι κ}
    (hs : ∀ {p : α → Pair ι κ} {p' : Pair ι κ}, ConvPair l p p' → ConvPair l (fun a => f a (p a)) (g p')) (k : ℕ)
    {p : α → Pair ι κ} {p' : Pair ι κ} (hp : ConvPair l p p') (hd : ∀ j < k, Pair.diff (g^[j + 1] p') (g^[j] p') ≠ 1e-6) :
    ConvPair l (fun a => (caLoop (f a) Pair.diff k (p a)).1) (caLoop g Pair.diff k p').1 := by
  induction k generalizing p p' with
  | zero => exact hp
  | succ k ih =>
    have hq := hs hp
    have hl := ih hq fun j hj => by
      have := hd (j + 1) (by omega)
      rwa [Function.iterate_succ_apply, Function.iterate_succ_apply (n := j)] at this
    have ht := hq.diff hp
    have h0 : Pair.diff (g p') p' ≠ 1e-6 := hd 0 (by omega)
    have e1 : ∀ (f : Pair ι κ → Pair ι κ) (p : Pair ι κ), Pair.diff (f p) p < 1e-6 → (caLoop f Pair.diff (k + 1) p).1 = f p :=
      fun f p hf => by
        unfold caLoop
        dsimp only
        rw [if_pos hf]
    have e2 : ∀ (f : Pair ι κ → Pair ι κ) (p : Pair ι κ), ¬Pair.diff (f p) p < 1e-6 →
        (caLoop f Pair.diff (k + 1) p).1 = (caLoop f Pair.diff k (f p)).1 := fun f p hf => by
      rw [caLoop]
      dsimp only
      rw [if_neg hf]
    have hpos : ∀ a, (caLoop (f a) Pair.diff (k + 1) (p a)).1.u.prec.PosDef ∧
        (caLoop (f a) Pair.diff (k + 1) (p a)).1.z.prec.PosDef := fun a => by
      by_cases hf : Pair.diff (f a (p a)) (p a) < 1e-6
      · rw [e1 _ _ hf]
        exact hq.proper a
      · rw [e2 _ _ hf]
        exact hl.proper a
    rcases lt_or_gt_of_ne h0 with h1 | h1
    · rw [e1 _ _ h1]
      exact hq.congr hpos ((ht.eventually_lt_const h1).mono fun a ha => e1 _ _ ha)
    · rw [e2 _ _ (not_lt.2 h1.le)]
      exact hl.congr hpos ((ht.eventually_const_lt h1).mono fun a ha => e2 _ _ (not_lt.2 ha.le))

/-- **C181** So do the fits, unless the exact fit is at the threshold of its stopping rule. -/
theorem c181_fit (h : m.Valid) (hF : Vanishing l F) {s : α → Posts ι κ} {s' : Posts ι κ} (hs : Approach l s s') (d : List (ℝ × ℝ))
    (iters : ℤ) (hd : ∀ j < iters.toNat, Pair.diff ((caStep C m (constructDataTerms C m d))^[j + 1] ⟨s'.qU, s'.qZ⟩)
      ((caStep C m (constructDataTerms C m d))^[j] ⟨s'.qU, s'.qZ⟩) ≠ 1e-6) :
    Approach l (fun a => Reg.fitMeanFieldCA (F a) m (s a) d iters) (fitMeanFieldCA C m s' d iters).1 := by
  obtain ⟨ε, hε, hr⟩ := hF
  have hu := fun a => (hr a).1
  have hz := fun a => (hr a).2
  obtain ⟨c1, c2, c3⟩ := hs.postU
  obtain ⟨d1, d2, d3⟩ := hs.postZ
  have hp : ConvPair l (fun a => (⟨(s a).qU, (s a).qZ⟩ : Pair ι κ)) ⟨s'.qU, s'.qZ⟩ := ⟨fun a => ⟨c1 a, d1 a⟩, ⟨c2, d2⟩, c3, d3⟩
  have hl := ConvPair.loop (fun h' => ConvPair.step C h hε hu hz d h') iters.toNat hp hd
  have eu : ∀ a i, (Reg.fitMeanFieldCA (F a) m (s a) d iters).qu i = if i = s'.qi then (caLoop (Reg.caStep (F a) m
      (Reg.constructDataTerms (F a) m d)) Pair.diff iters.toNat ⟨(s a).qU, (s a).qZ⟩).1.u else (s a).qu i := fun a i => by
    rw [← hs.depth a]
    rfl
  have ez : ∀ a i, (Reg.fitMeanFieldCA (F a) m (s a) d iters).qz i = if i = s'.qi then (caLoop (Reg.caStep (F a) m
      (Reg.constructDataTerms (F a) m d)) Pair.diff iters.toNat ⟨(s a).qU, (s a).qZ⟩).1.z else (s a).qz i := fun a i => by
    rw [← hs.depth a]
    rfl
  have eu' : ∀ i, (fitMeanFieldCA C m s' d iters).1.qu i = if i = s'.qi then (caLoop (caStep C m
      (constructDataTerms C m d)) Pair.diff iters.toNat ⟨s'.qU, s'.qZ⟩).1.u else s'.qu i := fun i => rfl
  have ez' : ∀ i, (fitMeanFieldCA C m s' d iters).1.qz i = if i = s'.qi then (caLoop (caStep C m
      (constructDataTerms C m d)) Pair.diff iters.toNat ⟨s'.qU, s'.qZ⟩).1.z else s'.qz i := fun i => rfl
  refine ⟨hs.depth, fun a i => ?_, fun i => ?_, fun i => ?_, fun i => ?_, fun i => ?_, fun i => ?_⟩
  all_goals simp only [eu, ez, eu', ez']; by_cases hi : i = s'.qi
  all_goals simp only [hi, if_true, if_false]
  · exact hl.proper a
  · exact hs.proper a i
  · exact hl.limit
  · exact hs.limit i
  · exact hl.u.lam
  · exact hs.quLam i
  · exact hl.u.prec
  · exact hs.quPrec i
  · exact hl.z.lam
  · exact hs.qzLam i
  · exact hl.z.prec
  · exact hs.qzPrec i

/-- A library which adds `ε` to the diagonal of everything that it factorises. -/
theorem exists_facs {ε : ℝ} (hε : 0 ≤ ε) : ∃ F : Facs ι κ, Regularised ε F.u ∧ Regularised ε F.z ∧
    (∀ A, A.PosDef → F.u A * (F.u A)ᵀ = A + ε • 1) ∧ ∀ A, A.PosDef → F.z A * (F.z A)ᵀ = A + ε • 1 := by
  have key : ∀ {n : Type} [Fintype n] [DecidableEq n] (c : CholOracle n),
      Regularised ε (fun A => c.chol (A + ε • 1)) ∧
        ∀ A, A.PosDef → c.chol (A + ε • 1) * (c.chol (A + ε • 1))ᵀ = A + ε • 1 := fun {n} _ _ c => by
    have h0 : ∀ A : Matrix n n ℝ, A.PosDef → (A + ε • (1 : Matrix n n ℝ)).PosDef := fun A hA =>
      hA.add_posSemidef (Matrix.PosSemidef.one.smul hε)
    refine ⟨fun A hA h => ?_, fun A hA => c.spec _ (h0 A hA)⟩
    have h1 : (A + ε • (1 : Matrix n n ℝ)).PosDef := by
      rcases h with h | h
      · exact h0 A h
      · exact Matrix.PosDef.posSemidef_add hA (Matrix.PosDef.one.smul h)
    exact ⟨ε, hε, le_rfl, h1, c.spec _ h1⟩
  obtain ⟨Cu⟩ := cholOracle_nonempty (n := ι)
  obtain ⟨Cz⟩ := cholOracle_nonempty (n := κ)
  exact ⟨⟨_, _⟩, (key Cu).1, (key Cz).1, (key Cu).2, (key Cz).2⟩

example (D : Chols (Fin 1) (Fin 1)) : ∃ F : ℕ → Facs (Fin 1) (Fin 1), Vanishing atTop F ∧
    Approach atTop (fun _ : ℕ => exPosts 0) (exPosts 0) ∧
    Tendsto (fun a => Reg.MeanField.predict (F a) exInst (exPosts 0) [0, 1]) atTop (𝓝 (MeanField.predict D exInst (exPosts 0) [0, 1])) := by
  have hF := fun k : ℕ => exists_facs (ι := Fin 1) (κ := Fin 1) (ε := 1 / ((k : ℝ) + 1)) (by positivity)
  choose F h1 h2 _ using hF
  have hv : Vanishing atTop F := ⟨_, tendsto_one_div_add_atTop_nhds_zero_nat, fun a => ⟨h1 a, h2 a⟩⟩
  have ha : Approach atTop (fun _ : ℕ => exPosts 0) (exPosts 0) := ⟨fun _ => rfl, fun _ _ => ⟨Matrix.PosDef.one, Matrix.PosDef.one⟩,
    fun _ => ⟨Matrix.PosDef.one, Matrix.PosDef.one⟩, fun _ => tendsto_const_nhds, fun _ => tendsto_const_nhds,
    fun _ => tendsto_const_nhds, fun _ => tendsto_const_nhds⟩
  exact ⟨F, hv, ha, c181_mean_field_predict D exInst_valid hv ha _⟩

/-! ## C182 -/

/-- **C182** However strongly matrices are regularised, mean-field predictions have at least the noise variance. -/
theorem c182_mean_field (C : Chols ι κ) (h : m.Valid) {ε : ℝ} {F : Facs ι κ} (hu : Regularised ε F.u) (hz : Regularised ε F.z)
    (s : Posts ι κ) (hpu : (s.pU m).prec.PosDef) (hpz : (s.pZ m).prec.PosDef) (t : List ℝ) :
    (Reg.MeanField.predict F m s t).length = t.length ∧ ∀ p ∈ Reg.MeanField.predict F m s t, m.noise ≤ p.2 := by
  rw [Reg.MeanField.predict, Reg.predictMoments_eq F m C h hu hz, List.map_map]
  refine ⟨by simp, fun p hp => ?_⟩
  obtain ⟨x, -, rfl⟩ := List.mem_map.1 hp
  have := ptMoments_var C (regInst_valid h hu hz) (Reg.m2_sub_outer hu hpu) (Reg.m2_sub_outer hz hpz) x
  simp only [Function.comp_apply, toMeanVar]
  linarith

/-- The square of an average is at most the average of squares. -/
theorem sq_avg_le {β : Type} (us : List β) (hus : us ≠ []) (f g : β → ℝ) (h : ∀ u, f u ^ 2 ≤ g u) :
    ((us.map f).sum / us.length) ^ 2 ≤ (us.map g).sum / us.length := by
  have hl : (0 : ℝ) < us.length := by exact_mod_cast List.length_pos_of_ne_nil hus
  have key : ∀ us : List β, (us.map f).sum ^ 2 ≤ us.length * (us.map g).sum := by
    intro us
    have h0 : ∀ (us : List β) (c : ℝ), 0 ≤ (us.map g).sum - 2 * c * (us.map f).sum + us.length * c ^ 2 := by
      intro us c
      induction us with
      | nil => simp
      | cons u us ih =>
        simp only [List.map_cons, List.sum_cons, List.length_cons, Nat.cast_add, Nat.cast_one]
        nlinarith [h u, sq_nonneg (f u - c)]
    rcases us with _ | ⟨u, us⟩
    · simp
    · have hn : (0 : ℝ) < (u :: us).length := by simp; positivity
      have := h0 (u :: us) (((u :: us).map f).sum / (u :: us).length)
      generalize ((u :: us).map f).sum = a at *
      generalize ((u :: us).map g).sum = b at *
      generalize ((u :: us).length : ℝ) = n at *
      have e : b - 2 * (a / n) * a + n * (a / n) ^ 2 = (n * b - a ^ 2) / n := by field_simp; ring
      rw [e] at this
      have h1 := mul_nonneg this hn.le
      rw [div_mul_cancel₀ _ hn.ne'] at h1
      linarith
  rw [div_pow, div_le_div_iff₀ (by positivity) hl]
  nlinarith [key us]

/-- **C182** So do structured predictions. -/
theorem c182_structured (C : Chols ι κ) (h : m.Valid) {ε : ℝ} {F : Facs ι κ} (hu : Regularised ε F.u) (hz : Regularised ε F.z)
    (d : List (ℝ × ℝ)) (t : List ℝ) {us : List (ι → ℝ)} (hus : us ≠ []) :
    ∃ v, Reg.Structured.predict F m (some (Reg.constructDataTerms F m d)) t us = .ok v ∧ v.length = t.length ∧
      ∀ p ∈ v, m.noise ≤ p.2 := by
  refine ⟨_, regStructured_predict_map C h hu hz d t hus, by simp, fun p hp => ?_⟩
  obtain ⟨x, -, rfl⟩ := List.mem_map.1 hp
  have := sq_avg_le us hus _ _ fun u => ptMoments_var C (regInst_valid h hu hz) (u := u) (u2 := vecMulVec u u)
    (by rw [sub_self]; exact Matrix.PosSemidef.zero) (Reg.m2_sub_outer hz (Reg.qzOptimal_posDef C h hu hz d u)) x
  simp only [toMeanVar]
  linarith

example (D : Chols (Fin 1) (Fin 1)) : ∃ F : Facs (Fin 1) (Fin 1), Regularised 1 F.u ∧ Regularised 1 F.z ∧
    ∀ p ∈ Reg.MeanField.predict F exInst (exPosts 0) [0, 1], 1 ≤ p.2 := by
  obtain ⟨F, h1, h2, -⟩ := exists_facs (ι := Fin 1) (κ := Fin 1) (ε := 1) (by norm_num)
  exact ⟨F, h1, h2, (c182_mean_field D exInst_valid h1 h2 _ (c28_prior exInst_valid _ rfl).1 (c28_prior exInst_valid _ rfl).2 _).2⟩

/-! ## C183 -/

variable {n : Type} [Fintype n] [DecidableEq n]

/-- **C183, refuted** A library which adds `ε` to what it factorises reports that a distribution diverges from itself by less than zero. -/
theorem c183_false {ε : ℝ} (hε : 0 < ε) {f : Fac n} (hf : ∀ A : Matrix n n ℝ, A.PosDef → f A * (f A)ᵀ = A + ε • 1)
    (q : NatNormal n) (hq : q.prec.PosDef) : Reg.kl f q q = -(Fintype.card n / 2 * log (1 + ε)) := by
  have h1 : (Reg.gram f q.prec).PosDef := by
    rw [Reg.gram, hf _ hq]
    exact hq.add_posSemidef (Matrix.PosSemidef.one.smul hε.le)
  have hu := isUnit_fac h1
  have hr : ratio f q q = 1 := nonsing_inv_mul _ hu
  have h2 : Reg.gram f (1 : Matrix n n ℝ) = (1 + ε) • 1 := by
    rw [Reg.gram, hf _ Matrix.PosDef.one, add_smul, one_smul]
  rw [kl_def, hr, transpose_one, Matrix.one_mul, trace_one, h2, det_smul, det_one, mul_one, log_pow, sub_self, zero_dotProduct]
  ring

/-- **C183, refuted** Hence it reports a bound on the evidence of no observations that is greater than the evidence. -/
theorem c183_bound_false [Nonempty ι] {ε : ℝ} (hε : 0 < ε) {F : Facs ι κ} (hu : ∀ A : Matrix ι ι ℝ, A.PosDef → F.u A * (F.u A)ᵀ = A + ε • 1)
    (hz : ∀ A : Matrix κ κ ℝ, A.PosDef → F.z A * (F.z A)ᵀ = A + ε • 1) (h : m.Valid) (s : Posts ι κ)
    (hsu : s.qU = s.pU m) (hsz : s.qZ = s.pZ m) (hs : s.qi = 0) :
    ∃ v, Reg.MeanField.elbo F m s [] none = .ok v ∧ 0 < v := by
  have hpu : (s.pU m).prec.PosDef := (c28_prior h s hs).1
  have hpz : (s.pZ m).prec.PosDef := (c28_prior h s hs).2
  refine ⟨_, rfl, ?_⟩
  have hl := log_pos (x := 1 + ε) (by linarith)
  have hc : (0 : ℝ) < Fintype.card ι := by exact_mod_cast Fintype.card_pos
  rw [Reg.meanFieldBound, hsu, hsz, c183_false hε hu _ hpu, c183_false hε hz _ hpz]
  simp only [Reg.constructDataTerms, Reg.constructTerms, List.map_nil, List.sum_nil, List.length_nil, Nat.cast_zero, zero_smul, sub_zero,
    frob_zero_left, frob_zero_right, add_zero, zero_mulVec, Pi.zero_apply, mul_zero, Finset.sum_const_zero, zero_mul, zero_sub]
  have h1 := mul_pos hc hl
  have h2 := mul_nonneg (Nat.cast_nonneg (α := ℝ) (Fintype.card κ)) hl.le
  linarith

/-- **C183, partial** A divergence is reported to be at least minus half the regularisation per dimension. -/
theorem c183_partial {ε : ℝ} {f : Fac n} (hf : Regularised ε f) (q p : NatNormal n) (hq : q.prec.PosDef) (hp : p.prec.PosDef) :
    -(Fintype.card n * ε / 2) ≤ Reg.kl f q p := by
  obtain ⟨e1, -, -, hq1, hq2⟩ := hf _ hq.posSemidef (.inl hq)
  obtain ⟨e2, -, -, hp1, hp2⟩ := hf _ hp.posSemidef (.inl hp)
  have hR := ratio_posDef (f := f) (q := q) (p := p) (by rw [Reg.gram, hq2]; exact hq1) (by rw [Reg.gram, hp2]; exact hp1)
  obtain ⟨e, he, he', hM, hM2⟩ := hf _ hR.posSemidef (.inl hR)
  have h1 := (NatNormal.trace_log_det hM).1
  have h2 : 0 ≤ (mean f q - mean f p) ⬝ᵥ (p.prec *ᵥ (mean f q - mean f p)) := by
    simpa using hp.posSemidef.dotProduct_mulVec_nonneg (mean f q - mean f p)
  have h3 : (Fintype.card n : ℝ) * e ≤ Fintype.card n * ε := mul_le_mul_of_nonneg_left he' (Nat.cast_nonneg _)
  rw [kl_def, Reg.gram, hM2]
  rw [trace_add, trace_smul, trace_one, smul_eq_mul] at h1
  linarith

/-- **C183, partial** Without regularisation a divergence is never reported to be negative. -/
theorem c183_partial_exact (c : CholOracle n) (q p : NatNormal n) (hq : q.prec.PosDef) (hp : p.prec.PosDef) :
    0 ≤ Reg.kl c.chol q p := by
  have h : Regularised 0 c.chol := fun A _ hA => ⟨0, le_rfl, le_rfl, by simpa using hA.resolve_right (lt_irrefl _), by
    simpa using c.spec A (hA.resolve_right (lt_irrefl _))⟩
  simpa using c183_partial h q p hq hp

/-- The refutation is not vacuous: the divergence of the standard normal from itself is reported as negative, and consequently a
bound without observations is reported to be positive, although the evidence of no observations is zero. -/
example : ∃ F : Facs (Fin 1) (Fin 1), Regularised 1e-6 F.u ∧ Regularised 1e-6 F.z ∧ Reg.kl F.u ⟨0, 1⟩ ⟨0, 1⟩ < 0 ∧
    ∃ v, Reg.MeanField.elbo F exInst ⟨0, fun _ => ⟨0, 1⟩, fun _ => ⟨0, 1⟩⟩ [] none = .ok v ∧ 0 < v := by
  obtain ⟨F, h1, h2, h3, h4⟩ := exists_facs (ι := Fin 1) (κ := Fin 1) (ε := 1e-6) (by norm_num)
  refine ⟨F, h1, h2, ?_, c183_bound_false (by norm_num) h3 h4 exInst_valid _ rfl rfl rfl⟩
  rw [c183_false (by norm_num) h3 _ Matrix.PosDef.one]
  have := log_pos (x := 1 + 1e-6) (by norm_num)
  simp only [Fintype.card_fin, Nat.cast_one]
  linarith

end Gpcm
