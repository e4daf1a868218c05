import Verif.Props.FactorProps
import Verif.Props.TimeProps
import Verif.Props.KernelProps
import Mathlib.Data.List.NodupEquivFin
import Mathlib.Data.List.FinRange
import Mathlib.Data.List.Perm.Basic

/-!
# C142, C143, C144: the order of the inducing inputs, the sign of the filter, and the direction of time
-/

open Matrix Real MeasureTheory

namespace Gpcm

/-! ## Lists that are permutations of each other -/

theorem exists_perm_map {α β : Type} (f : α → β) {l : List β} {xs : List α} (h : l.Perm (xs.map f)) :
    ∃ ys : List α, ys.Perm xs ∧ l = ys.map f := by
  have e := congrFun (congrFun (List.eq_map_comp_perm f) l) xs
  obtain ⟨ys, h1, h2⟩ := (iff_of_eq e).2 h
  exact ⟨ys, h2, h1⟩

/-- Positions of the same elements. -/
theorem exists_equiv_of_perm {α : Type} {l l' : List α} (h : l'.Perm l) :
    ∃ σ : Fin l'.length ≃ Fin l.length, ∀ i, l'.get i = l.get (σ i) := by
  obtain ⟨ys, h1, h2⟩ := exists_perm_map l.get (l := l') (xs := List.finRange l.length)
    (by rwa [List.map_get_finRange])
  subst h2
  have hn : ys.Nodup := h1.nodup_iff.2 (List.nodup_finRange _)
  have hm : ∀ x, x ∈ ys := fun x => h1.mem_iff.2 (List.mem_finRange x)
  refine ⟨(finCongr (List.length_map _)).trans (hn.getEquivOfForallMemList ys hm), fun i => ?_⟩
  simp

/-! ## Permutation matrices -/

section perm
variable {n' n k' k : Type} [Fintype n] [DecidableEq n] [Fintype n'] [DecidableEq n'] [Fintype k] [DecidableEq k] [Fintype k']
  [DecidableEq k'] (σ : n' ≃ n) (ρ : k' ≃ k)

/-- The matrix that lists the components of a vector in another order. -/
def permMat : Matrix n' n ℝ := (1 : Matrix n n ℝ).submatrix σ id

omit [Fintype n'] [DecidableEq n'] in
theorem permMat_mulVec (x : n → ℝ) : permMat σ *ᵥ x = x ∘ σ := by
  funext i
  simp only [permMat, mulVec, dotProduct, submatrix_apply, one_apply, id, ite_mul, one_mul, zero_mul, Finset.sum_ite_eq,
    Finset.mem_univ, if_true, Function.comp_apply]

omit [Fintype n'] [DecidableEq n'] [Fintype k'] [DecidableEq k'] in
theorem permMat_conj (A : Matrix n k ℝ) : permMat σ * A * (permMat ρ)ᵀ = A.submatrix σ ρ := by
  ext i j
  simp only [permMat, Matrix.mul_apply, submatrix_apply, transpose_apply, one_apply, id, ite_mul, one_mul, zero_mul,
    Finset.sum_ite_eq, Finset.mem_univ, if_true, mul_ite, mul_one, mul_zero]

theorem permMat_orthogonal : Spec.Orthogonal (permMat σ) := by
  have h : permMat σ * (permMat σ)ᵀ = 1 := by
    have := permMat_conj σ σ (1 : Matrix n n ℝ)
    rwa [Matrix.mul_one, submatrix_one_equiv] at this
  refine ⟨?_, h⟩
  ext i j
  simp only [permMat, Matrix.mul_apply, submatrix_apply, transpose_apply, one_apply, id]
  rw [Finset.sum_eq_single (σ.symm i)]
  · simp only [Equiv.apply_symm_apply, if_true, one_mul]
  · intro b _ hb
    rw [if_neg, zero_mul]
    exact fun e => hb (by rw [← e, Equiv.symm_apply_apply])
  · exact fun h => absurd (Finset.mem_univ _) h

/-- The same distribution with the variables listed in another order. -/
def NatNormal.relabel (q : NatNormal n) : NatNormal n' := ⟨q.lam ∘ σ, q.prec.submatrix σ σ⟩

omit [Fintype n'] [DecidableEq n'] in
theorem NatNormal.rotate_permMat (q : NatNormal n) : q.rotate (permMat σ) = q.relabel σ := by
  simp only [NatNormal.rotate, NatNormal.relabel, permMat_mulVec, permMat_conj]

/-- The factor of a matrix with rows and columns in another order. -/
def Spec.CholRelabelled (C : CholOracle n) (C' : CholOracle n') : Prop :=
  ∀ A, C'.chol (A.submatrix σ σ) = (C.chol A).submatrix σ σ

theorem Spec.CholRelabelled.rotated {C : CholOracle n} {C' : CholOracle n'} (h : Spec.CholRelabelled σ C C') :
    Spec.CholRotated (permMat σ) C C' := fun A => by
  rw [permMat_conj, permMat_conj, h]

theorem exists_cholRelabelled (C : CholOracle n) : ∃ C' : CholOracle n', Spec.CholRelabelled σ C C' := by
  obtain ⟨C', h⟩ := exists_cholRotated (permMat_orthogonal σ) C
  refine ⟨C', fun A => ?_⟩
  have := h A
  rwa [permMat_conj, permMat_conj] at this

theorem exists_cholRelabelled' (C' : CholOracle n') : ∃ C : CholOracle n, Spec.CholRelabelled σ C C' := by
  obtain ⟨C, h⟩ := exists_cholRelabelled σ.symm C'
  refine ⟨C, fun A => ?_⟩
  have := h (A.submatrix σ σ)
  simp only [submatrix_submatrix, Equiv.self_comp_symm, submatrix_id_id] at this
  rw [this]
  simp only [submatrix_submatrix, Equiv.symm_comp_self, submatrix_id_id]

end perm

section relabel
variable {ι κ ι' κ' : Type} [Fintype ι] [DecidableEq ι] [Fintype κ] [DecidableEq κ] [Fintype ι'] [DecidableEq ι'] [Fintype κ']
  [DecidableEq κ'] (σ : ι' ≃ ι) (ρ : κ' ≃ κ)

/-- The same quantities with the inducing inputs listed in another order. -/
def Spec.relabel (m : Inst ι κ) : Inst ι' κ' where
  Ku := m.Ku.submatrix σ σ
  Kz := m.Kz.submatrix ρ ρ
  noise := m.noise
  iHx := m.iHx
  iUx := m.iUx.submatrix σ σ
  iHz t := (m.iHz t).submatrix ρ ρ
  iUz t := (m.iUz t).submatrix σ ρ

/-- The same posteriors with the inducing inputs listed in another order. -/
def Posts.relabel (s : Posts ι κ) : Posts ι' κ' := ⟨s.qi, fun i => (s.qu i).relabel σ, fun i => (s.qz i).relabel ρ⟩

omit [Fintype ι'] [DecidableEq ι'] [Fintype κ'] [DecidableEq κ'] in
theorem Spec.rotate_permMat (m : Inst ι κ) : Spec.rotate (permMat σ) (permMat ρ) m = Spec.relabel σ ρ m := by
  simp only [Spec.rotate, Spec.relabel, permMat_conj]

omit [Fintype ι'] [DecidableEq ι'] [Fintype κ'] [DecidableEq κ'] in
theorem Posts.rotate_permMat (s : Posts ι κ) : s.rotate (permMat σ) (permMat ρ) = s.relabel σ ρ := by
  simp only [Posts.rotate, Posts.relabel, NatNormal.rotate_permMat]

omit [DecidableEq ι] [DecidableEq κ] [Fintype ι'] [DecidableEq ι'] [Fintype κ'] [DecidableEq κ'] in
theorem Session.rotate_fresh (P : Matrix ι' ι ℝ) (Q : Matrix κ' κ ℝ) (qu : ℕ → NatNormal ι) (qz : ℕ → NatNormal κ) :
    (Session.fresh qu qz).rotate P Q = Session.fresh (fun i => (qu i).rotate P) fun i => (qz i).rotate Q := rfl

variable (C : Chols ι κ) (m : Inst ι κ) (C' : Chols ι' κ') (m' : Inst ι' κ') (ψ : ℝ → ℝ)

/-- What the mean-field scheme reports for `m'`, whose inducing inputs are those of `m` in another order and with another
clock, is what it reports for `m`. -/
structure Spec.SameMeanField : Prop where
  /-- Predictions after coordinate ascent. -/
  ca : ∀ (s : Posts ι κ), Spec.Proper s → ∀ (d : List (ℝ × ℝ)) (iters : ℤ) (t : List ℝ),
    MeanField.predict C' m' (fitMeanFieldCA C' m' (s.relabel σ ρ) (Spec.reclockData ψ d) iters).1.condition (t.map ψ) =
      MeanField.predict C m (fitMeanFieldCA C m s d iters).1.condition t
  /-- The fitted distributions. -/
  fit : ∀ (s : Posts ι κ), Spec.Proper s → ∀ (d : List (ℝ × ℝ)) (iters : ℤ),
    (fitMeanFieldCA C' m' (s.relabel σ ρ) (Spec.reclockData ψ d) iters).1 = (fitMeanFieldCA C m s d iters).1.relabel σ ρ
  /-- The bounds. -/
  bound : ∀ (s : Posts ι κ), Spec.Proper s → ∀ (d : List (ℝ × ℝ)) (c : Option String),
    MeanField.elbo C' m' (s.relabel σ ρ) (Spec.reclockData ψ d) c = MeanField.elbo C m s d c
  /-- The bound of the structured scheme, for samples with the components in the other order. -/
  collapsed : ∀ (s : Posts ι κ), Spec.Proper s → ∀ (d : List (ℝ × ℝ)) (us : List (ι → ℝ)),
    elboCollapsedZ C' m' (s.relabel σ ρ) (Spec.reclockData ψ d) (us.map fun u => u ∘ σ) = elboCollapsedZ C m s d us

/-- Whatever is done with a new model under the structured scheme, the predictions for `m'` are those for `m`, if the random
numbers are listed in the order of the inducing inputs. -/
def Spec.SameStructured : Prop :=
  ∀ (W : ℕ → (ι → ℝ) × (κ → ℝ)) (qu : ℕ → NatNormal ι) (qz : ℕ → NatNormal κ) (ops : List Session.Op) (t : List ℝ)
    (ws : List (ι → ℝ)),
    ((ops.map (Spec.reclockOp ψ)).foldl (Session.run C' m' fun i => ((W i).1 ∘ σ, (W i).2 ∘ ρ))
      (Session.fresh (fun i => (qu i).relabel σ) fun i => (qz i).relabel ρ)).predictStructured C' m' (t.map ψ)
        (ws.map fun w => w ∘ σ) =
      (ops.foldl (Session.run C m W) (Session.fresh qu qz)).predictStructured C m t ws

variable {ψ} {φ : ℝ → ℝ} (hφ : ∀ t, φ (ψ t) = t)
include hφ

theorem sameMeanField_of_factors (hu : Spec.CholRelabelled σ C.u C'.u) (hz : Spec.CholRelabelled ρ C.z C'.z) :
    Spec.SameMeanField σ ρ C m C' (Spec.relabel σ ρ (Spec.reclock φ m)) ψ := by
  have hP := permMat_orthogonal σ
  have hQ := permMat_orthogonal ρ
  have hu := hu.rotated
  have hz := hz.rotated
  have hf : ∀ (s : Posts ι κ) (d : List (ℝ × ℝ)) (iters : ℤ),
    (fitMeanFieldCA C' (Spec.relabel σ ρ (Spec.reclock φ m)) (s.relabel σ ρ) (Spec.reclockData ψ d) iters).1 =
      (fitMeanFieldCA C m s d iters).1.relabel σ ρ := fun s d iters => by
    rw [← Spec.rotate_permMat, ← Posts.rotate_permMat, fitMeanFieldCA_rotate hP hQ C C' hu hz, fitMeanFieldCA_reclock C m hφ,
      ← Posts.rotate_permMat]
  refine ⟨fun s _ d iters t => ?_, fun s _ => hf s, fun s _ d c => ?_, fun s _ d us => ?_⟩
  · rw [hf s]
    have e : ((fitMeanFieldCA C m s d iters).1.relabel σ ρ).condition = (fitMeanFieldCA C m s d iters).1.condition.relabel σ ρ :=
      rfl
    rw [e, ← Spec.rotate_permMat, ← Posts.rotate_permMat, meanField_predict_rotate hP hQ C C' hu hz,
      meanField_predict_reclock C m hφ]
  · rw [← Spec.rotate_permMat, ← Posts.rotate_permMat, meanField_elbo_rotate hP hQ C C' hu hz, (bounds_reclock C m hφ s d).1]
  · have e : (us.map fun u => u ∘ σ) = us.map fun u => permMat σ *ᵥ u := by simp only [permMat_mulVec]
    rw [e, ← Spec.rotate_permMat, ← Posts.rotate_permMat, elboCollapsedZ_rotate hP hQ C C' hu hz, (bounds_reclock C m hφ s d).2]

theorem sameMeanField (h : m.Valid) : Spec.SameMeanField σ ρ C m C' (Spec.relabel σ ρ (Spec.reclock φ m)) ψ := by
  obtain ⟨Cu, hu⟩ := exists_cholRelabelled' σ C'.u
  obtain ⟨Cz, hz⟩ := exists_cholRelabelled' ρ C'.z
  obtain ⟨h1, h2, h3, h4⟩ := sameMeanField_of_factors σ ρ ⟨Cu, Cz⟩ m C' hφ hu hz
  refine ⟨fun s hs d iters t => ?_, fun s hs d iters => ?_, fun s hs d c => ?_, fun s hs d us => ?_⟩
  · rw [h1 s hs, c141_fit ⟨Cu, Cz⟩ C h hs, c141_predict ⟨Cu, Cz⟩ C h]
    exact c141_proper C h hs d iters
  · rw [h2 s hs, c141_fit ⟨Cu, Cz⟩ C h hs]
  · rw [h3 s hs, c141_elbo ⟨Cu, Cz⟩ C h hs]
  · rw [h4 s hs, c141_collapsed ⟨Cu, Cz⟩ C h hs]

theorem sameStructured (hu : Spec.CholRelabelled σ C.u C'.u) (hz : Spec.CholRelabelled ρ C.z C'.z) :
    Spec.SameStructured σ ρ C m C' (Spec.relabel σ ρ (Spec.reclock φ m)) ψ := by
  intro W qu qz ops t ws
  have hP := permMat_orthogonal σ
  have hQ := permMat_orthogonal ρ
  have hu := hu.rotated
  have hz := hz.rotated
  have e1 : (ws.map fun w => w ∘ σ) = ws.map fun w => permMat σ *ᵥ w := by simp only [permMat_mulVec]
  have e2 : (fun i => ((W i).1 ∘ σ, (W i).2 ∘ ρ)) = Spec.rotateTape (permMat σ) (permMat ρ) W := by
    funext i
    simp only [Spec.rotateTape, permMat_mulVec]
  have e3 : Session.fresh (fun i => (qu i).relabel σ) (fun i => (qz i).relabel ρ) =
      (Session.fresh qu qz).rotate (permMat σ) (permMat ρ) := by
    simp only [Session.rotate_fresh, NatNormal.rotate_permMat]
  rw [e1, e2, e3, ← Spec.rotate_permMat, Session.ops_rotate hP hQ C C' hu hz, Session.predict_rotate hP hQ C C' hu hz,
    Session.ops_reclock C m hφ, Session.predict_reclock C m hφ]

end relabel

/-! ## C142 and C144: the inducing inputs of the GPCM in another order, and reversed time -/

section spec
variable {p : Spec.Params} (hp : p.causal = false)

theorem Spec.kH_neg (p : Spec.Params) (x y : ℝ) : Spec.kH p (-x) (-y) = Spec.kH p x y := by
  have e : (-x - -y) ^ 2 = (x - y) ^ 2 := by ring
  simp only [Spec.kH, neg_sq, e]

theorem Spec.kXS_neg (p : Spec.Params) (x y : ℝ) : Spec.kXS p (-x) (-y) = Spec.kXS p x y := by
  have e : (-x - -y) ^ 2 = (x - y) ^ 2 := by ring
  simp only [Spec.kXS, e]

theorem Spec.kz_neg (p : Spec.Params) (x y : ℝ) : Spec.kz p (-x) (-y) = Spec.kz p x y := by
  unfold Spec.kz
  rw [← integral_neg_eq_self]
  simp only [Spec.kXS_neg]

include hp

theorem Spec.gate_one (x : ℝ) : Spec.gate p x = 1 := by
  unfold Spec.gate
  rw [if_neg]
  rintro ⟨h, -⟩
  rw [hp] at h
  exact Bool.false_ne_true h

theorem Spec.ihx_neg (a b : ℝ) : Spec.ihx p (-a) (-b) = Spec.ihx p a b := by
  unfold Spec.ihx
  rw [← integral_neg_eq_self]
  simp only [Spec.gate_one hp, ← neg_sub', Spec.kH_neg]

theorem Spec.iux_neg (a b u v : ℝ) : Spec.iux p (-a) (-b) (-u) (-v) = Spec.iux p a b u v := by
  unfold Spec.iux
  rw [← integral_neg_eq_self]
  simp only [Spec.gate_one hp, ← neg_sub', Spec.kH_neg]

theorem Spec.ihz_neg (t x y : ℝ) : Spec.ihz p (-t) (-x) (-y) = Spec.ihz p t x y := by
  unfold Spec.ihz
  rw [← integral_neg_eq_self]
  congr 1
  funext τ
  rw [← integral_neg_eq_self]
  simp only [Spec.gate_one hp, ← neg_sub', Spec.kH_neg, Spec.kXS_neg]

theorem Spec.iuz_neg (t u z : ℝ) : Spec.iuz p (-t) (-u) (-z) = Spec.iuz p t u z := by
  unfold Spec.iuz
  rw [← integral_neg_eq_self]
  simp only [Spec.gate_one hp, ← neg_sub', Spec.kH_neg, Spec.kXS_neg]

end spec

/-- The same model with its inducing inputs listed in another order and, if `ν` is minus one, reflected at zero. -/
structure GpcmModel.Relisted (ν : ℝ) (g g' : GpcmModel) : Prop where
  causal : g'.causal = g.causal
  noise : g'.noise = g.noise
  alpha : g'.alpha = g.alpha
  alphaT : g'.alphaT = g.alphaT
  gamma : g'.gamma = g.gamma
  omega : g'.omega = g.omega
  omegaT : g'.omegaT = g.omegaT
  tU : g'.tU.Perm (g.tU.map (ν * ·))
  tZ : g'.tZ.Perm (g.tZ.map (ν * ·))

/-- The direction of time may be reversed unless the model is causal. -/
def Spec.Direction (ν : ℝ) (g : GpcmModel) : Prop := ν = 1 ∨ ν = -1 ∧ g.causal = false

variable {ν : ℝ} {g g' : GpcmModel}

theorem GpcmModel.Relisted.params (h : g.Relisted ν g') : g'.params = g.params := by
  unfold GpcmModel.params
  rw [h.causal, h.alpha, h.alphaT, h.gamma, h.omega, h.omegaT]

theorem GpcmModel.Relisted.moderate (h : g.Relisted ν g') (hm : g.Moderate) : g'.Moderate := by
  obtain ⟨h1, h2, h3, h4, h5, h6, h7, h8⟩ := hm
  exact ⟨by rwa [h.alphaT], by rwa [h.omegaT], by rwa [h.alpha], by rwa [h.alpha], by rwa [h.alpha, h.gamma],
    by rwa [h.alpha, h.gamma], by rwa [h.omega], by rwa [h.omega]⟩

theorem exists_equiv_scaled {l l' : List ℝ} (h : l'.Perm (l.map (ν * ·))) :
    ∃ σ : Fin l'.length ≃ Fin l.length, ∀ i, l'.get i = ν * l.get (σ i) := by
  obtain ⟨σ, h⟩ := exists_equiv_of_perm h
  refine ⟨σ.trans (finCongr (List.length_map _)), fun i => ?_⟩
  rw [h]
  simp

/-- Where the inducing inputs of `g'` are in the list of those of `g`. -/
theorem GpcmModel.Relisted.positions (h : g.Relisted ν g') :
    ∃ (σ : Fin g'.tU.length ≃ Fin g.tU.length) (ρ : Fin g'.tZ.length ≃ Fin g.tZ.length),
      (∀ i, g'.tU.get i = ν * g.tU.get (σ i)) ∧ ∀ i, g'.tZ.get i = ν * g.tZ.get (ρ i) := by
  obtain ⟨σ, hσ⟩ := exists_equiv_scaled h.tU
  obtain ⟨ρ, hρ⟩ := exists_equiv_scaled h.tZ
  exact ⟨σ, ρ, hσ, hρ⟩

theorem Spec.Direction.sq (h : Spec.Direction ν g) (t : ℝ) : ν * (ν * t) = t := by
  rcases h with rfl | ⟨rfl, -⟩ <;> ring

theorem GpcmModel.Relisted.specInst (h : g.Relisted ν g') (hν : Spec.Direction ν g)
    {σ : Fin g'.tU.length ≃ Fin g.tU.length} {ρ : Fin g'.tZ.length ≃ Fin g.tZ.length}
    (hσ : ∀ i, g'.tU.get i = ν * g.tU.get (σ i)) (hρ : ∀ i, g'.tZ.get i = ν * g.tZ.get (ρ i)) :
    g'.specInst = Spec.relabel σ ρ (Spec.reclock (ν * ·) g.specInst) := by
  simp only [GpcmModel.specInst, Spec.relabel, Spec.reclock, h.params, h.noise, hσ, hρ, Inst.mk.injEq, true_and]
  rcases hν with rfl | ⟨rfl, hc⟩
  · simp only [one_mul]
    refine ⟨?_, ?_, trivial, ?_, ?_, ?_⟩ <;> rfl
  · have hp : g.params.causal = false := hc
    have e : ∀ i j, Spec.iux g.params 0 0 (-i) (-j) = Spec.iux g.params 0 0 i j := fun i j => by
      have := Spec.iux_neg hp 0 0 i j
      rwa [neg_zero] at this
    have e2 : ∀ t x y, Spec.ihz g.params t (-x) (-y) = Spec.ihz g.params (-t) x y := fun t x y => by
      rw [← Spec.ihz_neg hp, neg_neg, neg_neg]
    have e3 : ∀ t x y, Spec.iuz g.params t (-x) (-y) = Spec.iuz g.params (-t) x y := fun t x y => by
      rw [← Spec.iuz_neg hp, neg_neg, neg_neg]
    simp only [neg_one_mul, Spec.kH_neg, Spec.kz_neg, Spec.ihx_neg hp, e, e2, e3]
    refine ⟨?_, ?_, trivial, ?_, ?_, ?_⟩ <;> rfl

variable (R : Runtime ℝ)

/-- **C142** (`ν = 1`), **C144** (`ν = -1`) The mean-field scheme reports the same, with any factors of the matrices. -/
theorem c142_mean_field (h : g.Relisted ν g') (hν : Spec.Direction ν g) (hm : g.Moderate) (hγ : 0 < g.gamma) (hn : 0 < g.noise)
    (hu : g.tU.Nodup) (hz : g.tZ.Nodup) {m : Inst (Fin g.tU.length) (Fin g.tZ.length)} (hi : g.IsInst R m)
    {m' : Inst (Fin g'.tU.length) (Fin g'.tZ.length)} (hi' : g'.IsInst R m')
    {σ : Fin g'.tU.length ≃ Fin g.tU.length} {ρ : Fin g'.tZ.length ≃ Fin g.tZ.length}
    (hσ : ∀ i, g'.tU.get i = ν * g.tU.get (σ i)) (hρ : ∀ i, g'.tZ.get i = ν * g.tZ.get (ρ i))
    (C : Chols (Fin g.tU.length) (Fin g.tZ.length)) (C' : Chols (Fin g'.tU.length) (Fin g'.tZ.length)) :
    Spec.SameMeanField σ ρ C m C' m' (ν * ·) := by
  obtain rfl := (c98_instance R g hm).unique hi (g.specInst_isInst R hm)
  obtain rfl := (c98_instance R g' (h.moderate hm)).unique hi' (g'.specInst_isInst R (h.moderate hm))
  rw [h.specInst hν hσ hρ]
  exact sameMeanField σ ρ C _ C' hν.sq ((c98_valid_iff R g hm hγ hn _ (g.specInst_isInst R hm)).2 ⟨hu, hz⟩)

/-- **C142** (`ν = 1`), **C144** (`ν = -1`) The structured scheme predicts the same, with the corresponding random numbers. -/
theorem c142_structured (h : g.Relisted ν g') (hν : Spec.Direction ν g) (hm : g.Moderate)
    {m : Inst (Fin g.tU.length) (Fin g.tZ.length)} (hi : g.IsInst R m)
    {m' : Inst (Fin g'.tU.length) (Fin g'.tZ.length)} (hi' : g'.IsInst R m')
    {σ : Fin g'.tU.length ≃ Fin g.tU.length} {ρ : Fin g'.tZ.length ≃ Fin g.tZ.length}
    (hσ : ∀ i, g'.tU.get i = ν * g.tU.get (σ i)) (hρ : ∀ i, g'.tZ.get i = ν * g.tZ.get (ρ i))
    (C : Chols (Fin g.tU.length) (Fin g.tZ.length)) (C' : Chols (Fin g'.tU.length) (Fin g'.tZ.length))
    (hCu : Spec.CholRelabelled σ C.u C'.u) (hCz : Spec.CholRelabelled ρ C.z C'.z) :
    Spec.SameStructured σ ρ C m C' m' (ν * ·) := by
  obtain rfl := (c98_instance R g hm).unique hi (g.specInst_isInst R hm)
  obtain rfl := (c98_instance R g' (h.moderate hm)).unique hi' (g'.specInst_isInst R (h.moderate hm))
  rw [h.specInst hν hσ hρ]
  exact sameStructured σ ρ C _ C' hν.sq hCu hCz

theorem kernelEntry_relabel {ι ι' : Type} [Fintype ι] [DecidableEq ι] [Fintype ι'] [DecidableEq ι'] (σ : ι' ≃ ι)
    (C : CholOracle ι) (C' : CholOracle ι') {Ku : Matrix ι ι ℝ} (hK : Ku.PosDef) (x : ℝ) (I : Matrix ι ι ℝ) (u : ι → ℝ) :
    kernelEntry C' (Ku.submatrix σ σ) x (I.submatrix σ σ) (u ∘ σ) = kernelEntry C Ku x I u := by
  have hK' : (Ku.submatrix σ σ).PosDef := hK.submatrix σ.injective
  rw [c41_formula C hK, c41_formula C' hK', inv_submatrix_equiv, submatrix_mul_equiv Ku⁻¹ I σ σ σ]
  have e : ∀ (A : Matrix ι ι ℝ) (v : ι → ℝ), A.submatrix σ σ *ᵥ (v ∘ σ) = (A *ᵥ v) ∘ σ := fun A v => by
    rw [submatrix_mulVec_equiv]
    simp only [Function.comp_assoc, Equiv.self_comp_symm, Function.comp_id]
  rw [e, e, e, comp_equiv_dotProduct_comp_equiv]
  congr 2
  simp only [Matrix.trace, diag_apply, submatrix_apply]
  exact Equiv.sum_comp σ fun i => (Ku⁻¹ * I) i i

/-- **C142** (`ν = 1`), **C144** (`ν = -1`) The kernel that belongs to values of the filter is the same. -/
theorem c142_kernel (h : g.Relisted ν g') (hν : Spec.Direction ν g) (hm : g.Moderate) (hγ : 0 < g.gamma)
    (hu : g.tU.Nodup) {σ : Fin g'.tU.length ≃ Fin g.tU.length} (hσ : ∀ i, g'.tU.get i = ν * g.tU.get (σ i))
    (C : CholOracle (Fin g.tU.length)) (C' : CholOracle (Fin g'.tU.length)) (t1 t2 : List ℝ) (u : Fin g.tU.length → ℝ) :
    g'.kernelApprox R C' (t1.map (ν * ·)) (t2.map (ν * ·)) (u ∘ σ) = g.kernelApprox R C t1 t2 u := by
  have hp := h.params
  have hK : (Matrix.of fun i j => Spec.kH g.params (g.tU.get i) (g.tU.get j)).PosDef :=
    ku_posDef g.tU.get hγ hm.alphaT (List.nodup_iff_injective_get.1 hu)
  have e1 : (Matrix.of fun i j => Spec.kH g'.params (g'.tU.get i) (g'.tU.get j)) =
      (Matrix.of fun i j => Spec.kH g.params (g.tU.get i) (g.tU.get j)).submatrix σ σ := by
    ext i j
    simp only [of_apply, submatrix_apply, hp, hσ]
    rcases hν with rfl | ⟨rfl, -⟩
    · simp only [one_mul]
    · simp only [neg_one_mul, Spec.kH_neg]
  have e2 : ∀ a b, Spec.ihx g'.params (ν * a) (ν * b) = Spec.ihx g.params a b := fun a b => by
    rw [hp]
    rcases hν with rfl | ⟨rfl, hc⟩
    · simp only [one_mul]
    · have hc : g.params.causal = false := hc
      simp only [neg_one_mul, Spec.ihx_neg hc]
  have e3 : ∀ a b, (Matrix.of fun i j => Spec.iux g'.params (ν * a) (ν * b) (g'.tU.get i) (g'.tU.get j)) =
      (Matrix.of fun i j => Spec.iux g.params a b (g.tU.get i) (g.tU.get j)).submatrix σ σ := fun a b => by
    ext i j
    simp only [of_apply, submatrix_apply, hp, hσ]
    rcases hν with rfl | ⟨rfl, hc⟩
    · simp only [one_mul]
    · have hc : g.params.causal = false := hc
      simp only [neg_one_mul, Spec.iux_neg hc]
  rw [g.kernelApprox_eq R hm, g'.kernelApprox_eq R (h.moderate hm)]
  simp only [Gpcm.kernelApprox, List.map_map, Function.comp_def]
  congr 1
  refine List.map_congr_left fun a _ => List.map_congr_left fun b _ => ?_
  rw [e1, e2, e3]
  exact kernelEntry_relabel σ C C' hK _ _ _

/-! ## C142: the RGPCM -/

/-- The same RGPCM with its inducing inputs and its frequencies listed in another order. -/
structure RgpcmModel.Relisted (g g' : RgpcmModel) : Prop where
  rest : g' = { g with tU := g'.tU, ms := g'.ms }
  tU : g'.tU.Perm g.tU
  ms : g'.ms.Perm g.ms

theorem RgpcmModel.Relisted.listInst {g g' : RgpcmModel} (h : g.Relisted g')
    {σ : Fin g'.tU.length ≃ Fin g.tU.length} {ρ : Fin g'.ms.length ≃ Fin g.ms.length}
    (hσ : ∀ i, g'.tU.get i = g.tU.get (σ i)) (hρ : ∀ i, g'.ms.get i = g.ms.get (ρ i)) :
    g'.listInst = Spec.relabel σ ρ g.listInst := by
  obtain ⟨hr, -, -⟩ := h
  obtain ⟨x1, x2, x3, x4, x5, x6, x7, x8, ms', x10, x11, tU', x13, x14⟩ := g'
  obtain ⟨y1, y2, y3, y4, y5, y6, y7, y8, ms, y10, y11, tU, y13, y14⟩ := g
  simp only [RgpcmModel.mk.injEq, true_and] at hr
  obtain ⟨rfl, rfl, rfl, rfl, rfl, rfl, rfl, rfl, rfl, rfl, rfl, rfl⟩ := hr
  simp only at hσ hρ σ ρ
  simp only [RgpcmModel.listInst, Spec.relabel, hσ, hρ, Inst.mk.injEq, true_and]
  refine ⟨rfl, ?_, rfl, ?_, ?_, ?_⟩
  · ext i j
    simp only [RgpcmModel.computeKz, of_apply, submatrix_apply, hρ, EmbeddingLike.apply_eq_iff_eq]
    rfl
  · rfl
  · rfl
  · rfl

/-- **C142** The order of the inducing inputs and of the frequencies of the RGPCM does not matter either. -/
theorem c142_rgpcm {g g' : RgpcmModel} (h : g.Relisted g') (hM : 0 ≤ g.mMax) {perm perm' : List ℕ} (hp : IsArgsort perm g.ms)
    (hp' : IsArgsort perm' g'.ms) (h1 : g.gamma ≠ g.alpha) (h2 : (g.gamma - g.alpha) ^ 2 ≠ g.lam ^ 2)
    {m : Inst (Fin g.tU.length) (Fin g.ms.length)} (hi : g.Returns perm m)
    {m' : Inst (Fin g'.tU.length) (Fin g'.ms.length)} (hi' : g'.Returns perm' m')
    {σ : Fin g'.tU.length ≃ Fin g.tU.length} {ρ : Fin g'.ms.length ≃ Fin g.ms.length}
    (hσ : ∀ i, g'.tU.get i = g.tU.get (σ i)) (hρ : ∀ i, g'.ms.get i = g.ms.get (ρ i))
    (C : Chols (Fin g.tU.length) (Fin g.ms.length)) (C' : Chols (Fin g'.tU.length) (Fin g'.ms.length))
    (hCu : Spec.CholRelabelled σ C.u C'.u) (hCz : Spec.CholRelabelled ρ C.z C'.z) :
    Spec.SameMeanField σ ρ C m C' m' id ∧ Spec.SameStructured σ ρ C m C' m' id := by
  have e1 : g'.mMax = g.mMax := by rw [h.rest]
  have e2 : g'.gamma = g.gamma := by rw [h.rest]
  have e3 : g'.alpha = g.alpha := by rw [h.rest]
  have e4 : g'.lam = g.lam := by rw [h.rest]
  obtain rfl := hi.unique (g.listInst_returns hM hp h1 h2)
  obtain rfl := hi'.unique (g'.listInst_returns (by rwa [e1]) hp' (by rwa [e2, e3]) (by rwa [e2, e3, e4]))
  have e : Spec.relabel σ ρ g.listInst = Spec.relabel σ ρ (Spec.reclock id g.listInst) := rfl
  rw [h.listInst hσ hρ, e]
  exact ⟨sameMeanField_of_factors σ ρ C _ C' (fun t => rfl) hCu hCz, sameStructured σ ρ C _ C' (fun t => rfl) hCu hCz⟩

/-- Such positions and factors exist. -/
theorem RgpcmModel.Relisted.positions {g g' : RgpcmModel} (h : g.Relisted g')
    (C : Chols (Fin g.tU.length) (Fin g.ms.length)) :
    ∃ (σ : Fin g'.tU.length ≃ Fin g.tU.length) (ρ : Fin g'.ms.length ≃ Fin g.ms.length)
      (C' : Chols (Fin g'.tU.length) (Fin g'.ms.length)), (∀ i, g'.tU.get i = g.tU.get (σ i)) ∧
      (∀ i, g'.ms.get i = g.ms.get (ρ i)) ∧ Spec.CholRelabelled σ C.u C'.u ∧ Spec.CholRelabelled ρ C.z C'.z := by
  obtain ⟨σ, hσ⟩ := exists_equiv_of_perm h.tU
  obtain ⟨ρ, hρ⟩ := exists_equiv_of_perm h.ms
  obtain ⟨Cu, hu⟩ := exists_cholRelabelled σ C.u
  obtain ⟨Cz, hz⟩ := exists_cholRelabelled ρ C.z
  exact ⟨σ, ρ, ⟨Cu, Cz⟩, hσ, hρ, hu, hz⟩

/-! ## C144: constructing the model for reversed time -/

/-- The arguments with all times reflected at zero. -/
def GpcmArgs.mirror (a : GpcmArgs) : GpcmArgs :=
  { a with t := a.t.map fun l => l.map (-1 * ·), tZ := a.tZ.map fun l => l.map (-1 * ·), tU := a.tU.map fun l => l.map (-1 * ·) }

theorem foldl_max_neg (l : List ℝ) (x : ℝ) : (l.map (-1 * ·)).foldl max (-1 * x) = -1 * l.foldl min x := by
  induction l generalizing x with
  | nil => rfl
  | cons y l ih =>
    simp only [List.map_cons, List.foldl_cons]
    rw [← ih]
    congr 1
    simp only [neg_one_mul, max_neg_neg]

theorem foldl_min_neg (l : List ℝ) (x : ℝ) : (l.map (-1 * ·)).foldl min (-1 * x) = -1 * l.foldl max x := by
  induction l generalizing x with
  | nil => rfl
  | cons y l ih =>
    simp only [List.map_cons, List.foldl_cons]
    rw [← ih]
    congr 1
    simp only [neg_one_mul, min_neg_neg]

theorem pyMax_neg (l : List ℝ) : pyMax (l.map (-1 * ·)) = (pyMin l).map (-1 * ·) := by
  cases l with
  | nil => rfl
  | cons x l => simp only [List.map_cons, pyMax, pyMin, foldl_max_neg, Except.map]

theorem pyMin_neg (l : List ℝ) : pyMin (l.map (-1 * ·)) = (pyMax l).map (-1 * ·) := by
  cases l with
  | nil => rfl
  | cons x l => simp only [List.map_cons, pyMax, pyMin, foldl_min_neg, Except.map]

/-- Both raise the same exception, or both return and the results are related. -/
def Spec.Both {α : Type} (r : α → α → Prop) : Except PyErr α → Except PyErr α → Prop
  | .error e, .error e' => e = e'
  | .ok x, .ok y => r x y
  | _, _ => False

theorem Spec.Both.refl {α : Type} {r : α → α → Prop} (h : ∀ x, r x x) (x : Except PyErr α) : Spec.Both r x x := by
  cases x with
  | error e => rfl
  | ok x => exact h x

theorem Spec.Both.bind {α β : Type} {r : α → α → Prop} {r' : β → β → Prop} {x y : Except PyErr α} (h : Spec.Both r x y)
    {f f' : α → Except PyErr β} (hf : ∀ a b, r a b → Spec.Both r' (f a) (f' b)) : Spec.Both r' (bind1 x f) (bind1 y f') := by
  match x, y, h with
  | .error e, .error e', h => exact h
  | .ok a, .ok b, h => exact hf a b h

/-- Two lists of inducing inputs that are reflections of each other, as long as there is more than one. The first two have the
same distance. -/
structure Spec.Reflected (x y : ℤ × List ℝ) : Prop where
  n : y.1 = x.1
  length : y.2.length = x.2.length
  perm : x.2.length ≠ 1 → y.2.Perm (x.2.map (-1 * ·))
  spacing : ∀ z0 z1 l w0 w1 l', x.2 = z0 :: z1 :: l → y.2 = w0 :: w1 :: l' → (w1 - w0) ^ 2 = (z1 - z0) ^ 2

theorem Spec.Reflected.given (n : ℤ) (l : List ℝ) : Spec.Reflected (n, l) (n, l.map (-1 * ·)) where
  n := rfl
  length := List.length_map _
  perm _ := List.Perm.refl _
  spacing z0 z1 l w0 w1 l' h h' := by
    simp only at h h'
    rw [h] at h'
    simp only [List.map_cons, List.cons.injEq] at h'
    rw [← h'.1, ← h'.2.1]
    ring

theorem linspace_neg {a b : ℝ} {n : ℤ} (hn : n ≠ 1) {l l' : List ℝ} (h : linspace a b n = .ok l)
    (h' : linspace (-1 * b) (-1 * a) n = .ok l') : l' = (l.map (-1 * ·)).reverse := by
  unfold linspace at h h'
  split_ifs at h h' with h0
  obtain rfl := Except.ok.inj h
  obtain rfl := Except.ok.inj h'
  rw [List.map_map, ← List.map_reverse]
  apply List.ext_getElem
  · simp
  · intro i h1 h2
    simp only [List.length_map, List.length_range] at h1
    simp only [List.getElem_map, List.getElem_range, List.getElem_reverse, List.length_range, Function.comp_apply]
    have e : ((n.toNat - 1 - i : ℕ) : ℝ) = (n : ℝ) - 1 - i := by
      rw [Nat.cast_sub (by omega), Nat.cast_sub (by omega), Nat.cast_one]
      have : ((n.toNat : ℤ) : ℝ) = (n : ℝ) := by rw [Int.toNat_of_nonneg (by omega)]
      rw [← this]
      rfl
    have hne : (n : ℝ) - 1 ≠ 0 := sub_ne_zero.2 (by exact_mod_cast hn)
    rw [e]
    field_simp
    ring

theorem linspace_both (a b : ℝ) (n : ℤ) :
    Spec.Both (fun l l' => Spec.Reflected (n, l) (n, l')) (linspace a b n) (linspace (-1 * b) (-1 * a) n) := by
  rcases h : linspace a b n with e | l <;> rcases h' : linspace (-1 * b) (-1 * a) n with e' | l'
  · unfold linspace at h h'
    split_ifs at h h'
    exact (Except.error.inj h).symm.trans (Except.error.inj h')
  · unfold linspace at h h'
    split_ifs at h h'
  · unfold linspace at h h'
    split_ifs at h h'
  · have hl := (linspace_ok h).2
    have hl' := (linspace_ok h').2
    refine ⟨rfl, by have := hl.1; have := hl'.1; simp only; omega, fun h1 => ?_, fun z0 z1 k w0 w1 k' e e' => ?_⟩
    · rw [linspace_neg (fun e => h1 (by have := hl.1; simp only; omega)) h h']
      exact List.reverse_perm _
    · simp only at e e'
      have hn : (2 : ℤ) ≤ n := by
        rw [← hl.1, e]
        simp only [List.length_cons]
        omega
      have a0 := hl.2 0 (by omega)
      have a1 := hl.2 1 (by omega)
      have b0 := hl'.2 0 (by omega)
      have b1 := hl'.2 1 (by omega)
      rw [e] at a0 a1
      rw [e'] at b0 b1
      simp only [List.getElem?_cons_zero, List.getElem?_cons_succ, Option.some.injEq, Nat.cast_zero, Nat.cast_one] at a0 a1 b0 b1
      rw [a0, a1, b0, b1]
      ring

theorem initTU_mirror (a : GpcmArgs) (hc : a.causal = false) (alpha : ℝ) :
    Spec.Both Spec.Reflected (initTU a alpha) (initTU a.mirror alpha) := by
  unfold initTU
  have e0 : a.mirror.causal = a.causal := rfl
  have e1 : autoNU a.mirror = autoNU a := rfl
  have e2 : a.mirror.tU = a.tU.map fun l => l.map (-1 * ·) := rfl
  have e3 : a.mirror.nU = a.nU := rfl
  rw [e0, e1, e2, e3, hc]
  cases a.tU with
  | some l =>
    simp only [Option.map_some, List.length_map]
    exact Spec.Reflected.given _ _
  | none =>
    simp only [Option.map_none]
    refine Spec.Both.bind (Spec.Both.refl (r := Eq) (fun _ => rfl) _) ?_
    rintro n _ rfl
    simp only [Bool.false_eq_true, if_false]
    have := linspace_both (-(2 * factorToScale alpha)) (2 * factorToScale alpha) (if n % 2 = 0 then n + 1 else n)
    rw [neg_one_mul, neg_one_mul, neg_neg] at this
    exact Spec.Both.bind this fun l l' h => h

/-- The extremes of the data. -/
theorem extremes_mirror {β : Type} {r : β → β → Prop} (t : Option (List ℝ)) {f f' : ℝ → ℝ → Except PyErr β}
    (h : ∀ lo hi, Spec.Both r (f lo hi) (f' (-1 * hi) (-1 * lo))) :
    Spec.Both r (bind1 (need t) fun t => bind1 (pyMax t) fun hi => bind1 (pyMin t) fun lo => f lo hi)
      (bind1 (need (t.map fun l => l.map (-1 * ·))) fun t => bind1 (pyMax t) fun hi => bind1 (pyMin t) fun lo => f' lo hi) := by
  cases t with
  | none => rfl
  | some t =>
    simp only [Option.map_some, need, bind1, pyMax_neg, pyMin_neg]
    cases t with
    | nil => rfl
    | cons x t =>
      simp only [pyMin, pyMax, Except.map]
      exact h _ _

theorem extremes_mirror' {β : Type} {r : β → β → Prop} (t : Option (List ℝ)) {f f' : ℝ → ℝ → Except PyErr β}
    (h : ∀ lo hi, Spec.Both r (f lo hi) (f' (-1 * hi) (-1 * lo))) :
    Spec.Both r (bind1 (need t) fun t => bind1 (pyMin t) fun lo => bind1 (pyMax t) fun hi => f lo hi)
      (bind1 (need (t.map fun l => l.map (-1 * ·))) fun t => bind1 (pyMin t) fun lo => bind1 (pyMax t) fun hi => f' lo hi) := by
  cases t with
  | none => rfl
  | some t =>
    simp only [Option.map_some, need, bind1, pyMax_neg, pyMin_neg]
    cases t with
    | nil => rfl
    | cons x t =>
      simp only [pyMin, pyMax, Except.map]
      exact h _ _

theorem autoNZ_mirror (a : GpcmArgs) : Spec.Both (fun n n' => n' = n) (autoNZ a) (autoNZ a.mirror) := by
  unfold autoNZ
  have e0 : a.mirror.nZ = a.nZ := rfl
  have e1 : a.mirror.scale = a.scale := rfl
  have e2 : a.mirror.nZCap = a.nZCap := rfl
  have e3 : a.mirror.t = a.t.map fun l => l.map (-1 * ·) := rfl
  rw [e0, e1, e2, e3]
  cases a.nZ with
  | some n => rfl
  | none =>
    refine extremes_mirror a.t fun lo hi => ?_
    rw [show -1 * lo - -1 * hi = hi - lo by ring]
    exact Spec.Both.refl (r := fun n n' => n' = n) (fun _ => rfl) _

theorem initTZ_mirror (a : GpcmArgs) : Spec.Both Spec.Reflected (initTZ a) (initTZ a.mirror) := by
  unfold initTZ
  have e0 : a.mirror.nZ = a.nZ := rfl
  have e2 : a.mirror.tZ = a.tZ.map fun l => l.map (-1 * ·) := rfl
  have e3 : a.mirror.t = a.t.map fun l => l.map (-1 * ·) := rfl
  rw [e0, e2, e3]
  cases a.tZ with
  | some l =>
    simp only [Option.map_some, List.length_map]
    exact Spec.Reflected.given _ _
  | none =>
    simp only [Option.map_none]
    refine Spec.Both.bind (autoNZ_mirror a) fun n n' hn => ?_
    subst hn
    exact extremes_mirror' a.t fun lo hi => Spec.Both.bind (linspace_both lo hi _) fun l l' h => h

theorem extendTZ_mirror (a : GpcmArgs) (hc : a.causal = false) (alpha : ℝ) (s s' : ℤ × List ℝ) (h : Spec.Reflected s s') :
    Spec.Both Spec.Reflected (extendTZ a alpha s) (extendTZ a.mirror alpha s') := by
  unfold extendTZ
  have e0 : a.mirror.causal = a.causal := rfl
  have e2 : a.mirror.extendTZ = a.extendTZ := rfl
  have e3 : a.mirror.t = a.t.map fun l => l.map (-1 * ·) := rfl
  rw [e0, e2, e3, h.n, hc]
  by_cases h1 : a.extendTZ = false
  · rw [if_pos h1, if_pos h1]
    exact h
  · rw [if_neg h1, if_neg h1]
    refine extremes_mirror a.t fun lo hi => ?_
    simp only [show -1 * lo - -1 * hi = hi - lo by ring, Bool.false_eq_true, if_false]
    split_ifs with h2 h3
    · rfl
    · rfl
    · have key : ∀ (x : ℝ) (n : ℤ), Spec.Both (fun l l' => Spec.Reflected (n, l) (n, l')) (linspace (lo - x) (hi + x) n)
          (linspace (-1 * hi - x) (-1 * lo + x) n) := fun x n => by
        have := linspace_both (lo - x) (hi + x) n
        rwa [show -1 * (hi + x) = -1 * hi - x by ring, show -1 * (lo - x) = -1 * lo + x by ring] at this
      exact Spec.Both.bind (key _ _) fun l l' h => h

theorem initOmega_mirror (a : GpcmArgs) (s s' : ℤ × List ℝ) (h : Spec.Reflected s s') :
    initOmega a.mirror s'.2 = initOmega a s.2 := by
  unfold initOmega
  have e0 : a.mirror.omega = a.omega := rfl
  rw [e0]
  cases a.omega with
  | some x => rfl
  | none =>
    obtain ⟨n, l⟩ := s
    obtain ⟨n', l'⟩ := s'
    have hl := h.length
    have hs := h.spacing
    simp only at hl hs
    match l, l', hl, hs with
    | [], [], _, _ => rfl
    | [_], [_], _, _ => rfl
    | z0 :: z1 :: l, w0 :: w1 :: l', _, hs =>
      simp only [scaleToFactor]
      rw [mul_pow, mul_pow, hs z0 z1 l w0 w1 l' rfl rfl]
    | [], _ :: _, hl, _ => simp at hl
    | _ :: _, [], hl, _ => simp at hl
    | [_], _ :: _ :: _, hl, _ => simp at hl
    | _ :: _ :: _, [_], hl, _ => simp at hl

/-- **C144** For reversed times, the constructor of the GPCM raises the same exception or returns the reflected model, as long as
it does not place a single inducing point. -/
theorem c144_new (a : GpcmArgs) (hc : a.causal = false) :
    Spec.Both (fun g g' => g.tU.length ≠ 1 → g.tZ.length ≠ 1 → g.Relisted (-1) g') (GpcmModel.new a) (GpcmModel.new a.mirror) := by
  unfold GpcmModel.new
  have e0 : initAlpha a.mirror = initAlpha a := rfl
  have e1 : ∀ x, initGamma a.mirror x = initGamma a x := fun _ => rfl
  have e2 : ∀ x, initAlphaT a.mirror x = initAlphaT a x := fun _ => rfl
  have e3 : a.mirror.causal = a.causal := rfl
  have e4 : a.mirror.noise = a.noise := rfl
  simp only [e0, e1, e2, e3, e4]
  refine Spec.Both.bind (Spec.Both.refl (r := Eq) (fun _ => rfl) _) ?_
  rintro alpha _ rfl
  refine Spec.Both.bind (Spec.Both.refl (r := Eq) (fun _ => rfl) _) ?_
  rintro gamma _ rfl
  refine Spec.Both.bind (initTU_mirror a hc alpha) fun u u' hu => ?_
  refine Spec.Both.bind (Spec.Both.bind (initTZ_mirror a) fun s s' h => extendTZ_mirror a hc alpha s s' h) fun z z' hz => ?_
  rw [initOmega_mirror a z z' hz]
  refine Spec.Both.bind (Spec.Both.refl (r := Eq) (fun _ => rfl) _) ?_
  rintro omega _ rfl
  exact fun h1 h2 => ⟨rfl, rfl, rfl, rfl, rfl, rfl, rfl, hu.perm h1, hz.perm h2⟩

/-- **C144** The model for reversed times predicts at the reversed times what the model predicts at the times, from reversed data
and initial distributions that correspond. -/
theorem c144_mean_field {a : GpcmArgs} (hc : a.causal = false) {g g' : GpcmModel} (hg : GpcmModel.new a = .ok g)
    (hg' : GpcmModel.new a.mirror = .ok g') (h1 : g.tU.length ≠ 1) (h2 : g.tZ.length ≠ 1) (hm : g.Moderate) (hγ : 0 < g.gamma)
    (hn : 0 < g.noise) (hu : g.tU.Nodup) (hz : g.tZ.Nodup) {m : Inst (Fin g.tU.length) (Fin g.tZ.length)} (hi : g.IsInst R m)
    {m' : Inst (Fin g'.tU.length) (Fin g'.tZ.length)} (hi' : g'.IsInst R m') :
    ∃ (σ : Fin g'.tU.length ≃ Fin g.tU.length) (ρ : Fin g'.tZ.length ≃ Fin g.tZ.length),
      (∀ i, g'.tU.get i = -1 * g.tU.get (σ i)) ∧ (∀ i, g'.tZ.get i = -1 * g.tZ.get (ρ i)) ∧
        ∀ C C', Spec.SameMeanField σ ρ C m C' m' (-1 * ·) := by
  have h := c144_new a hc
  rw [hg, hg'] at h
  have h : g.Relisted (-1) g' := h h1 h2
  obtain ⟨σ, ρ, hσ, hρ⟩ := h.positions
  have hd : Spec.Direction (-1) g := Or.inr ⟨rfl, by rw [(GpcmModel.new_ok hg).2.2.2.2.2.2.2.1, hc]⟩
  exact ⟨σ, ρ, hσ, hρ, fun C C' => c142_mean_field R h hd hm hγ hn hu hz hi hi' hσ hρ C C'⟩

/-- A single inducing point for the filter is placed at the far edge of the window, for both directions of time: then the model
for the reversed times is not the reflected model. -/
theorem c144_single : ∃ a : GpcmArgs, a.causal = false ∧ ∃ g g', GpcmModel.new a = .ok g ∧ GpcmModel.new a.mirror = .ok g' ∧
    g.tU = [-2] ∧ g'.tU = [-2] ∧ ¬ g.Relisted (-1) g' := by
  have hu : ∀ a : GpcmArgs, a.tU = none → a.nU = some 1 → a.causal = false → initTU a (scaleToFactor 1) = .ok (1, [-2]) :=
    fun a h1 h2 h3 => by
      simp [initTU, autoNU, h1, h2, h3, bind1]
      norm_num [linspace, List.range_succ, c58_inverse.2.2.1]
  obtain ⟨a, ha⟩ : ∃ a : GpcmArgs, a = { window := some 1, scale := some 1, nU := some 1, tZ := some [0, 1] } := ⟨_, rfl⟩
  have hg := GpcmModel.new_of (a := a) (al := scaleToFactor 1) (ga := scaleToFactor 1 - 0.5 * scaleToFactor 1)
    (om := scaleToFactor 0.5) (u := (1, [-2])) (z := (2, [0, 1])) (z0 := (2, [0, 1])) (by rw [ha]; rfl) (by rw [ha]; rfl)
    (hu a (by rw [ha]) (by rw [ha]) (by rw [ha])) (by rw [ha]; rfl) (by rw [ha]; rfl) (by rw [ha]; simp [initOmega])
  have hg' := GpcmModel.new_of (a := a.mirror) (al := scaleToFactor 1) (ga := scaleToFactor 1 - 0.5 * scaleToFactor 1)
    (om := scaleToFactor (0.5 * (-1 * 1 - -1 * 0))) (u := (1, [-2])) (z := (2, [-1 * 0, -1 * 1])) (z0 := (2, [-1 * 0, -1 * 1]))
    (by rw [ha]; rfl) (by rw [ha]; rfl) (hu a.mirror (by rw [ha]; rfl) (by rw [ha]; rfl) (by rw [ha]; rfl)) (by rw [ha]; rfl)
    (by rw [ha]; rfl) (by rw [ha]; rfl)
  refine ⟨a, by rw [ha], _, _, hg, hg', rfl, rfl, fun h => ?_⟩
  have h := h.tU
  simp only [List.map_cons, List.map_nil, List.perm_singleton, List.cons.injEq] at h
  norm_num at h

/-! ## C143: the sign of the filter -/

section sign
variable {ι κ : Type} [Fintype ι] [DecidableEq ι] [Fintype κ] [DecidableEq κ]

/-- The same distributions with the opposite sign of the filter and the opposite sign of the excitation. -/
def Posts.flip (s : Posts ι κ) : Posts ι κ := ⟨s.qi, fun i => (s.qu i).neg, fun i => (s.qz i).neg⟩

theorem neg_one_orthogonal {n : Type} [Fintype n] [DecidableEq n] : Spec.Orthogonal (-1 : Matrix n n ℝ) := by
  constructor <;> simp

theorem neg_one_cholRotated {n : Type} [Fintype n] [DecidableEq n] (C : CholOracle n) : Spec.CholRotated (-1) C C := fun A => by
  simp

theorem NatNormal.rotate_neg_one {n : Type} [Fintype n] [DecidableEq n] (q : NatNormal n) : q.rotate (-1) = q.neg := by
  simp [NatNormal.rotate, NatNormal.neg, neg_mulVec]

theorem Spec.rotate_neg_one (m : Inst ι κ) : Spec.rotate (-1) (-1) m = m := by
  cases m
  simp [Spec.rotate]

theorem Posts.rotate_neg_one (s : Posts ι κ) : s.rotate (-1) (-1) = s.flip := by
  simp only [Posts.rotate, NatNormal.rotate_neg_one]
  rfl

variable (C : Chols ι κ) (m : Inst ι κ)

/-- **C143** Predictions do not change if the signs of the filter and of the excitation both change. -/
theorem c143_predict (s : Posts ι κ) (t : List ℝ) : MeanField.predict C m s.flip t = MeanField.predict C m s t := by
  have := meanField_predict_rotate neg_one_orthogonal neg_one_orthogonal C C (neg_one_cholRotated _) (neg_one_cholRotated _) m s t
  rwa [Spec.rotate_neg_one, Posts.rotate_neg_one] at this

/-- **C143** If only one of the signs changes, so does the sign of the mean. -/
theorem c143_one (s : Posts ι κ) (t : List ℝ) :
    MeanField.predict C m ⟨s.qi, fun i => (s.qu i).neg, s.qz⟩ t = (MeanField.predict C m s t).map Spec.negPrediction ∧
      MeanField.predict C m ⟨s.qi, s.qu, fun i => (s.qz i).neg⟩ t = (MeanField.predict C m s t).map Spec.negPrediction := by
  refine ⟨?_, meanField_predict_neg C m s t⟩
  have e : ∀ q : NatNormal κ, q.neg.neg = q := fun q => by simp [NatNormal.neg]
  have h := meanField_predict_neg C m s.flip t
  rw [c143_predict] at h
  have e2 : s.flip.neg = ⟨s.qi, fun i => (s.qu i).neg, s.qz⟩ := by simp only [Posts.flip, Posts.neg, e]
  rwa [e2] at h

/-- **C143** The bounds do not change either. -/
theorem c143_bounds (s : Posts ι κ) (d : List (ℝ × ℝ)) :
    (∀ c, MeanField.elbo C m s.flip d c = MeanField.elbo C m s d c) ∧
      ∀ us, elboCollapsedZ C m s.flip d (us.map fun u => -u) = elboCollapsedZ C m s d us := by
  refine ⟨fun c => ?_, fun us => ?_⟩
  · have := meanField_elbo_rotate neg_one_orthogonal neg_one_orthogonal C C (neg_one_cholRotated _) (neg_one_cholRotated _) m s d c
    rwa [Spec.rotate_neg_one, Posts.rotate_neg_one] at this
  · have := elboCollapsedZ_rotate neg_one_orthogonal neg_one_orthogonal C C (neg_one_cholRotated _) (neg_one_cholRotated _) m s d us
    rw [Spec.rotate_neg_one, Posts.rotate_neg_one] at this
    simpa only [neg_mulVec, one_mulVec] using this

/-- **C143** The marginal likelihood given the filter has the same value for both signs, so that the data favour neither. -/
theorem c143_likelihood (d : List (ℝ × ℝ)) (u : ι → ℝ) :
    logZu C m (constructDataTerms C m d) (-u) = logZu C m (constructDataTerms C m d) u := by
  have h1 := constructDataTerms_rotate neg_one_orthogonal neg_one_orthogonal C C (neg_one_cholRotated _) (neg_one_cholRotated _) m d
  have h2 := logZu_rotate neg_one_orthogonal neg_one_orthogonal C C (neg_one_cholRotated _) m (constructDataTerms C m d) u
  rw [← h1, Spec.rotate_neg_one] at h2
  simpa only [neg_mulVec, one_mulVec] using h2

/-- **C143** Coordinate ascent from flipped distributions gives the flipped fit. -/
theorem c143_fit (s : Posts ι κ) (d : List (ℝ × ℝ)) (iters : ℤ) :
    (fitMeanFieldCA C m s.flip d iters).1 = (fitMeanFieldCA C m s d iters).1.flip := by
  have := fitMeanFieldCA_rotate neg_one_orthogonal neg_one_orthogonal C C (neg_one_cholRotated _) (neg_one_cholRotated _) m s d iters
  rw [Spec.rotate_neg_one, Posts.rotate_neg_one] at this
  rw [this, Posts.rotate_neg_one]

/-- **C143** So coordinate ascent that starts from distributions without a sign never finds one: whatever the data, all means that
are predicted are zero. -/
theorem c143_stuck (s : Posts ι κ) (hu : (s.qu s.qi).lam = 0) (hz : (s.qz s.qi).lam = 0) (d : List (ℝ × ℝ)) (iters : ℤ)
    (t : List ℝ) : ∀ p ∈ MeanField.predict C m (fitMeanFieldCA C m s d iters).1.condition t, p.1 = 0 := by
  obtain ⟨s0, hs0⟩ : ∃ s0 : Posts ι κ, s0 = ⟨s.qi, fun _ => s.qu s.qi, fun _ => s.qz s.qi⟩ := ⟨_, rfl⟩
  have hflip : s0.flip = s0 := by
    rw [hs0]
    simp only [Posts.flip, NatNormal.neg, hu, hz, neg_zero]
    rw [← hu, ← hz]
  have e : MeanField.predict C m (fitMeanFieldCA C m s d iters).1.condition t =
      MeanField.predict C m (fitMeanFieldCA C m s0 d iters).1.condition t := by
    rw [hs0]
    simp only [MeanField.predict, Posts.pU, Posts.pZ, Posts.condition, fitMeanFieldCA, Posts.setU, Posts.setZ, Posts.qU, Posts.qZ,
      Nat.add_one_ne_zero, if_false, Nat.add_sub_cancel, if_true]
  have hF := c143_fit C m s0 d iters
  rw [hflip] at hF
  rw [e]
  generalize (fitMeanFieldCA C m s0 d iters).1 = F at hF
  have hn : F.condition.neg = F.condition := by
    have := congrArg Posts.qz hF
    simp only [Posts.flip] at this
    simp only [Posts.neg, Posts.condition]
    rw [← this]
  have hp := meanField_predict_neg C m F.condition t
  rw [hn] at hp
  intro p hp'
  have : ∀ l : List (ℝ × ℝ), l = l.map Spec.negPrediction → ∀ p ∈ l, p.1 = 0 := fun l hl p hp => by
    obtain ⟨i, hi, rfl⟩ := List.mem_iff_getElem.1 hp
    have h : l[i] = Spec.negPrediction l[i] := by
      conv_lhs => rw [List.getElem_of_eq hl]
      rw [List.getElem_map]
    have h := congrArg Prod.fst h
    simp only [Spec.negPrediction] at h
    linarith
  exact this _ hp p hp'

/-- **C143** The structured scheme predicts the same from random numbers of the opposite sign, which are as likely, whatever is done
with the model. -/
theorem c143_structured (W : ℕ → (ι → ℝ) × (κ → ℝ)) (qu : ℕ → NatNormal ι) (qz : ℕ → NatNormal κ) (ops : List Session.Op)
    (t : List ℝ) (ws : List (ι → ℝ)) :
    (ops.foldl (Session.run C m fun i => (-(W i).1, -(W i).2))
      (Session.fresh (fun i => (qu i).neg) fun i => (qz i).neg)).predictStructured C m t (ws.map fun w => -w) =
      (ops.foldl (Session.run C m W) (Session.fresh qu qz)).predictStructured C m t ws := by
  have hu := neg_one_cholRotated C.u
  have hz := neg_one_cholRotated C.z
  have h := Session.predict_rotate neg_one_orthogonal neg_one_orthogonal C C hu hz m (ops.foldl (Session.run C m W)
    (Session.fresh qu qz)) t ws
  have h2 := Session.ops_rotate neg_one_orthogonal neg_one_orthogonal C C hu hz m W ops (Session.fresh qu qz)
  rw [← h2, Spec.rotate_neg_one] at h
  rw [← h]
  have e1 : Spec.rotateTape (-1) (-1) W = fun i => (-(W i).1, -(W i).2) := by
    funext i
    simp only [Spec.rotateTape, neg_mulVec, one_mulVec]
  have e2 : (Session.fresh qu qz).rotate (-1) (-1) = Session.fresh (fun i => (qu i).neg) fun i => (qz i).neg := by
    simp only [Session.rotate, Session.fresh, Posts.rotate, NatNormal.rotate_neg_one, Option.map_none]
  rw [e1, e2]
  simp only [neg_mulVec, one_mulVec]

end sign

/-- **C143** The kernel of the process is the same for both signs of the filter. -/
theorem c143_kernel (g : GpcmModel) (C : CholOracle (Fin g.tU.length)) (t1 t2 : List ℝ) (u : Fin g.tU.length → ℝ) :
    g.kernelApprox R C t1 t2 (-u) = g.kernelApprox R C t1 t2 u := by
  simp only [GpcmModel.kernelApprox, kernelEntry, mulVec_neg, neg_dotProduct, dotProduct_neg, neg_neg]

/-! ## Cases -/

/-- Three inducing inputs of the filter in another order, and both of the excitation: the predictions are the same. -/
example : ∃ g g' : GpcmModel, g.tU = [-2, 0, 2] ∧ g.tZ = [0, 1] ∧ g'.tU = [2, -2, 0] ∧ g'.tZ = [1, 0] ∧
    ∃ (σ : Fin g'.tU.length ≃ Fin g.tU.length) (ρ : Fin g'.tZ.length ≃ Fin g.tZ.length)
      (m : Inst (Fin g.tU.length) (Fin g.tZ.length)) (m' : Inst (Fin g'.tU.length) (Fin g'.tZ.length)), g.IsInst R m ∧ g'.IsInst R m' ∧
      ∀ C C', Spec.SameMeanField σ ρ C m C' m' (1 * ·) := by
  obtain ⟨g, hg, hm, hz, -, -, hγ, hu⟩ := witness_moderate false
  simp only [Bool.false_eq_true, if_false] at hu
  have hr : g.Relisted 1 { g with tU := [2, -2, 0], tZ := [1, 0] } := by
    refine ⟨rfl, rfl, rfl, rfl, rfl, rfl, rfl, ?_, ?_⟩
    · rw [hu]
      simp only [one_mul, List.map_id']
      exact (List.perm_append_comm (l₁ := [2]) (l₂ := [-2, 0]))
    · rw [hz]
      simp only [one_mul, List.map_id']
      exact List.Perm.swap _ _ _
  obtain ⟨σ, ρ, hσ, hρ⟩ := hr.positions
  have hn : 0 < g.noise := by
    rw [(GpcmModel.new_ok hg).2.2.2.2.2.2.2.2.1]
    norm_num [witnessArgs]
  refine ⟨g, { g with tU := [2, -2, 0], tZ := [1, 0] }, hu, hz, rfl, rfl, σ, ρ, g.specInst, _, g.specInst_isInst R hm,
    GpcmModel.specInst_isInst R _ (hr.moderate hm), fun C C' => ?_⟩
  exact c142_mean_field R hr (Or.inl rfl) hm hγ hn (by rw [hu]; norm_num) (by rw [hz]; norm_num) (g.specInst_isInst R hm)
    (GpcmModel.specInst_isInst R _ (hr.moderate hm)) hσ hρ C C'

/-- The model with three inducing inputs of the filter can be constructed for reversed times. -/
example : ∃ a : GpcmArgs, a.causal = false ∧ ∃ g g', GpcmModel.new a = .ok g ∧ GpcmModel.new a.mirror = .ok g' ∧ g.tZ = [0, 1] ∧
    g.Relisted (-1) g' := by
  obtain ⟨g, hg, hm, hz, -, -, hγ, hu⟩ := witness_moderate false
  have h := c144_new _ (rfl : ({ witnessArgs false 1 1 with nU := some 3 } : GpcmArgs).causal = false)
  rw [hg] at h
  simp only [Bool.false_eq_true, if_false] at hu
  rcases h' : GpcmModel.new (GpcmArgs.mirror { witnessArgs false 1 1 with nU := some 3 }) with e | g'
  · rw [h'] at h
    exact h.elim
  · rw [h'] at h
    refine ⟨_, rfl, g, g', hg, h', hz, h ?_ ?_⟩
    · rw [hu]
      norm_num
    · rw [hz]
      norm_num

/-- The indices of the frequencies and the inducing inputs of an RGPCM in another order. -/
example : Rgpcm.exRgpcm.Relisted { Rgpcm.exRgpcm with ms := [0, 1, 2, 3, 4], tU := [2, 1] } := by
  exact ⟨rfl, List.Perm.swap _ _ _, by show List.Perm [0, 1, 2, 3, 4] [3, 0, 4, 1, 2]; decide⟩

/-- A start without a sign. -/
example (D : Chols (Fin 1) (Fin 1)) : ∀ p ∈ MeanField.predict D exInst
    (fitMeanFieldCA D exInst ⟨0, fun _ => ⟨0, 1⟩, fun _ => ⟨0, 1⟩⟩ [(0, 1), (1, -2)] 10).1.condition [0, 1, 2], p.1 = 0 :=
  c143_stuck D exInst _ rfl rfl _ _ _

end Gpcm
