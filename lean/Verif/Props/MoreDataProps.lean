import Verif.Props.PriorPredProps

/-!
# C148, C149 and C150: more observations, repeated observations, and how predictions depend on observations
-/

open Matrix Real

namespace Gpcm

variable {ι κ : Type} [Fintype ι] [DecidableEq ι] [Fintype κ] [DecidableEq κ]
variable (C : Chols ι κ) (m : Inst ι κ)

/-! ## Terms of data sets as sums over the observations -/

/-- What one observation adds to the precision of the excitation. -/
noncomputable def ptZ (u2 : Matrix ι ι ℝ) (x : ℝ) : Matrix κ κ ℝ := ptB C m x + (m.iUz x)ᵀ * u2 * m.iUz x

/-- What one observation adds to the precision of the filter. -/
noncomputable def ptU (z2 : Matrix κ κ ℝ) (x : ℝ) : Matrix ι ι ℝ := ptA C m x + m.iUz x * z2 * (m.iUz x)ᵀ

theorem zQuad_sum (d : List (ℝ × ℝ)) (u2 : Matrix ι ι ℝ) :
    zQuad (constructDataTerms C m d) u2 = (d.map fun p => ptZ C m u2 p.1).sum := by
  have hB : (constructDataTerms C m d).BSum = _ := constructTerms_BSum C m (d.map Prod.fst)
  rw [zQuad, hB]
  simp only [constructDataTerms, constructTerms, List.map_map, ptZ]
  induction d with
  | nil => simp
  | cons p d ih =>
    simp only [List.map_cons, List.sum_cons, Function.comp_apply]
    rw [← ih (constructTerms_BSum C m _)]
    abel

theorem uQuad_sum (d : List (ℝ × ℝ)) (z2 : Matrix κ κ ℝ) :
    uQuad (constructDataTerms C m d) z2 = (d.map fun p => ptU C m z2 p.1).sum := by
  have hA : (constructDataTerms C m d).ASum = _ := constructTerms_ASum C m (d.map Prod.fst)
  rw [uQuad, hA]
  simp only [constructDataTerms, constructTerms, List.map_map, ptU]
  induction d with
  | nil => simp
  | cons p d ih =>
    simp only [List.map_cons, List.sum_cons, Function.comp_apply]
    rw [← ih (constructTerms_ASum C m _)]
    abel

/-! ## C148 -/

/-- Inversion reverses the order of positive definite matrices. -/
theorem inv_antitone {n : Type} [Fintype n] [DecidableEq n] {A B : Matrix n n ℝ} (hA : A.PosDef) (hB : B.PosDef)
    (h : (B - A).PosSemidef) : (A⁻¹ - B⁻¹).PosSemidef := by
  have iA := posDef_isUnit_det hA
  have iB := posDef_isUnit_det hB
  have e : A⁻¹ - B⁻¹ = B⁻¹ * (B - A) * B⁻¹ + (A⁻¹ - B⁻¹) * A * (A⁻¹ - B⁻¹) := by
    simp only [Matrix.mul_sub, Matrix.sub_mul, nonsing_inv_mul _ iA, nonsing_inv_mul _ iB, Matrix.one_mul, Matrix.mul_assoc,
      mul_nonsing_inv _ iA, Matrix.mul_one]
    abel
  have hBi : (B⁻¹)ᴴ = B⁻¹ := hB.inv.isHermitian.eq
  have hAi : (A⁻¹)ᴴ = A⁻¹ := hA.inv.isHermitian.eq
  have h1 := h.conjTranspose_mul_mul_same B⁻¹
  have h2 := hA.posSemidef.conjTranspose_mul_mul_same (A⁻¹ - B⁻¹)
  rw [conjTranspose_sub, hAi, hBi] at h2
  rw [hBi] at h1
  rw [e]
  exact h1.add h2

theorem sublist_psd {n : Type} [Fintype n] [DecidableEq n] {f : ℝ × ℝ → Matrix n n ℝ} (hf : ∀ p, (f p).PosSemidef)
    {d d' : List (ℝ × ℝ)} (h : d.Sublist d') : ((d'.map f).sum - (d.map f).sum).PosSemidef := by
  induction h with
  | slnil => simpa using Matrix.PosSemidef.zero
  | cons a _ ih =>
    rw [List.map_cons, List.sum_cons, add_sub_assoc]
    exact (hf a).add ih
  | cons_cons a _ ih =>
    rw [List.map_cons, List.sum_cons, List.map_cons, List.sum_cons, add_sub_add_left_eq_sub]
    exact ih

variable {m}

theorem ptZ_psd (h : m.Valid) {u2 : Matrix ι ι ℝ} (hu : u2.PosSemidef) (x : ℝ) : (ptZ C m u2 x).PosSemidef := by
  have := hu.conjTranspose_mul_mul_same (m.iUz x)
  rw [conjTranspose_eq_transpose_of_trivial] at this
  exact (ptB_psd C h x).add this

theorem ptU_psd (h : m.Valid) {z2 : Matrix κ κ ℝ} (hz : z2.PosSemidef) (x : ℝ) : (ptU C m z2 x).PosSemidef := by
  have := hz.mul_mul_conjTranspose_same (m.iUz x)
  rw [conjTranspose_eq_transpose_of_trivial] at this
  exact (ptA_psd C h x).add this

theorem tilt_more {n : Type} [Fintype n] [DecidableEq n] {K : Matrix n n ℝ} {s : ℝ} (hs : 0 < s) {f : ℝ × ℝ → Matrix n n ℝ}
    (hf : ∀ p, (f p).PosSemidef) {d d' : List (ℝ × ℝ)} (hd : d.Sublist d') (b b' : n → ℝ) :
    ((NatNormal.tilt ⟨0, K⟩ s (d'.map f).sum b').prec - (NatNormal.tilt ⟨0, K⟩ s (d.map f).sum b).prec).PosSemidef := by
  simp only [NatNormal.tilt]
  rw [add_sub_add_left_eq_sub, ← smul_sub]
  exact (sublist_psd hf hd).smul (by positivity)

/-- **C148** Given the filter, no further observation makes the excitation less certain in any direction. -/
theorem c148_excitation (h : m.Valid) {d d' : List (ℝ × ℝ)} (hd : d.Sublist d') (u : ι → ℝ) :
    ((qzOptimal m (constructDataTerms C m d) u).var C.z - (qzOptimal m (constructDataTerms C m d') u).var C.z).PosSemidef := by
  have h1 := qzOptimal_posDef C h d u
  have h2 := qzOptimal_posDef C h d' u
  rw [NatNormal.var_eq C.z h1, NatNormal.var_eq C.z h2]
  refine inv_antitone h1 h2 ?_
  rw [qzOptimal_eq, qzOptimal_eq, zQuad_sum, zQuad_sum]
  exact tilt_more h.noise (fun p => ptZ_psd C h (outer_psd u) p.1) hd _ _

/-- **C148** Given the excitation, no further observation makes the filter less certain in any direction. -/
theorem c148_filter (h : m.Valid) {d d' : List (ℝ × ℝ)} (hd : d.Sublist d') (z : κ → ℝ) :
    ((quOptimal m (constructDataTerms C m d) z).var C.u - (quOptimal m (constructDataTerms C m d') z).var C.u).PosSemidef := by
  have h1 := quOptimal_posDef C h d z
  have h2 := quOptimal_posDef C h d' z
  rw [NatNormal.var_eq C.u h1, NatNormal.var_eq C.u h2]
  refine inv_antitone h1 h2 ?_
  rw [quOptimal_eq, quOptimal_eq, uQuad_sum, uQuad_sum]
  exact tilt_more h.noise (fun p => ptU_psd C h (outer_psd z) p.1) hd _ _

/-- **C148** The same for the updates of coordinate ascent. -/
theorem c148_updates (h : m.Valid) {d d' : List (ℝ × ℝ)} (hd : d.Sublist d') {qu : NatNormal ι} {qz : NatNormal κ}
    (hu : qu.prec.PosDef) (hz : qz.prec.PosDef) :
    ((qzOptimalMF C m (constructDataTerms C m d) qu).var C.z - (qzOptimalMF C m (constructDataTerms C m d') qu).var C.z).PosSemidef ∧
      ((quOptimalMF C m (constructDataTerms C m d) qz).var C.u -
        (quOptimalMF C m (constructDataTerms C m d') qz).var C.u).PosSemidef := by
  have h1 := qzOptimalMF_posDef C h d hu
  have h2 := qzOptimalMF_posDef C h d' hu
  have h3 := quOptimalMF_posDef C h d hz
  have h4 := quOptimalMF_posDef C h d' hz
  rw [NatNormal.var_eq C.z h1, NatNormal.var_eq C.z h2, NatNormal.var_eq C.u h3, NatNormal.var_eq C.u h4]
  refine ⟨inv_antitone h1 h2 ?_, inv_antitone h3 h4 ?_⟩
  · rw [qzOptimalMF_eq, qzOptimalMF_eq, zQuad_sum, zQuad_sum]
    exact tilt_more h.noise (fun p => ptZ_psd C h (NatNormal.m2_psd C.u hu) p.1) hd _ _
  · rw [quOptimalMF_eq, quOptimalMF_eq, uQuad_sum, uQuad_sum]
    exact tilt_more h.noise (fun p => ptU_psd C h (NatNormal.m2_psd C.z hz) p.1) hd _ _

/-- **C148** does not extend to the signal: its variance given the inducing variables of the filter grows with the excitation, and
so a large observation can raise the predicted variance elsewhere. -/
theorem c148_signal (C : Chols (Fin 1) (Fin 1)) : ∃ v b v', v < v' ∧
    Structured.predict C exInst (some (constructDataTerms C exInst [])) [π / 2] [1] = .ok [(0, v)] ∧
      Structured.predict C exInst (some (constructDataTerms C exInst [(0, 3)])) [π / 2] [1] = .ok [(b, v')] := by
  have hK : (⟨0, 1⟩ : NatNormal (Fin 1)).prec.PosDef := Matrix.PosDef.one
  have e0 : qzOptimal exInst (constructDataTerms C exInst []) 1 = ⟨0, 1⟩ := optimalZ_nil C 1
  have hi : pdInv C.u (1 : Matrix (Fin 1) (Fin 1) ℝ) = 1 := by rw [pdInv_eq C.u Matrix.PosDef.one, inv_one]
  have e1 : qzOptimal exInst (constructDataTerms C exInst [(0, 3)]) 1 = ⟨fun _ => 3, (3 : ℝ) • 1⟩ := by
    rw [qzOptimal_eq, zQuad_sum]
    have h1 : ∀ i j : Fin 1, (exInst.Kz + (1 / exInst.noise) • ([((0 : ℝ), (3 : ℝ))].map fun p =>
        ptZ C exInst (vecMulVec 1 1) p.1).sum) i j = ((3 : ℝ) • (1 : Matrix (Fin 1) (Fin 1) ℝ)) i j := fun i j => by
      obtain rfl := Subsingleton.elim i 0
      obtain rfl := Subsingleton.elim j 0
      simp [exInst, ptZ, ptB, Inst.KuInv, hi, Matrix.mul_apply, vecMulVec]
      norm_num
    simp only [NatNormal.tilt, NatNormal.mk.injEq]
    refine ⟨?_, Matrix.ext h1⟩
    funext i
    simp [exInst, constructDataTerms, mulVec, dotProduct]
  have h3 : ((3 : ℝ) • (1 : Matrix (Fin 1) (Fin 1) ℝ)).PosDef := Matrix.PosDef.one.smul (by norm_num)
  have h3i : ((3 : ℝ) • (1 : Matrix (Fin 1) (Fin 1) ℝ))⁻¹ = (1 / 3 : ℝ) • 1 := by
    refine inv_eq_right_inv ?_
    rw [smul_mul_smul_comm, Matrix.mul_one]
    norm_num
  have m1 : (⟨fun _ => 3, (3 : ℝ) • 1⟩ : NatNormal (Fin 1)).mean C.z = 1 := by
    rw [NatNormal.mean_eq C.z h3]
    funext i
    simp only [h3i, smul_mulVec, one_mulVec, Pi.smul_apply, smul_eq_mul, Pi.one_apply]
    norm_num
  have m2 : (⟨fun _ => 3, (3 : ℝ) • 1⟩ : NatNormal (Fin 1)).m2 C.z = (1 / 3 : ℝ) • 1 + vecMulVec 1 1 := by
    rw [NatNormal.m2_eq C.z h3, NatNormal.var_eq C.z h3, m1, h3i]
  have n1 : (⟨0, 1⟩ : NatNormal (Fin 1)).mean C.z = 0 := by rw [NatNormal.mean_eq C.z hK, mulVec_zero]
  have n2 : (⟨0, 1⟩ : NatNormal (Fin 1)).m2 C.z = 1 := by
    rw [NatNormal.m2_eq C.z hK, NatNormal.var_eq C.z hK, n1]
    simp
  refine ⟨5, 0, 17 / 3, by norm_num, ?_, ?_⟩
  · rw [structured_predict_eq C exInst_valid _ _ _ (by simp)]
    simp only [List.map_cons, List.map_nil, e0, n1, n2]
    norm_num [toMeanVar, Inst.momentsAt, Spec.moments, exInst, Spec.inner, vecMulVec, Matrix.mul_apply, mulVec, dotProduct]
  · rw [structured_predict_eq C exInst_valid _ _ _ (by simp)]
    simp only [List.map_cons, List.map_nil, e1, m1, m2]
    norm_num [toMeanVar, Inst.momentsAt, Spec.moments, exInst, Spec.inner, vecMulVec, Matrix.mul_apply, mulVec, dotProduct]

/-! ## C149 -/

/-- Every time with all measurements at that time: as observations. -/
def Spec.repeated (d : List (ℝ × List ℝ)) : List (ℝ × ℝ) := d.flatMap fun p => p.2.map fun y => (p.1, y)

/-- Every time with the average of the measurements at that time. -/
noncomputable def Spec.averaged (d : List (ℝ × List ℝ)) : List (ℝ × ℝ) := d.map fun p => (p.1, p.2.sum / p.2.length)

/-- A model with another variance of the noise. -/
def Inst.withNoise (m : Inst ι κ) (s : ℝ) : Inst ι κ := { m with noise := s }

/-- Predictions of the signal instead of observations. -/
def Spec.signal (noise : ℝ) (l : List (ℝ × ℝ)) : List (ℝ × ℝ) := l.map fun p => (p.1, p.2 - noise)

theorem repeated_sum {M : Type} [AddCommGroup M] [Module ℝ M] (f : ℝ → M) {n : ℕ} (d : List (ℝ × List ℝ))
    (hd : ∀ p ∈ d, p.2.length = n) :
    ((Spec.repeated d).map fun p => f p.1).sum = (n : ℝ) • ((Spec.averaged d).map fun p => f p.1).sum := by
  simp only [Spec.repeated, Spec.averaged, List.map_map, List.map_flatMap, Function.comp_def]
  induction d with
  | nil => simp
  | cons p d ih =>
    rw [List.flatMap_cons, List.sum_append, ih fun q hq => hd q (List.mem_cons_of_mem _ hq), List.map_cons, List.sum_cons, smul_add]
    congr 1
    rw [List.map_const', List.sum_replicate, hd p List.mem_cons_self, Nat.cast_smul_eq_nsmul]

theorem repeated_weighted {M : Type} [AddCommGroup M] [Module ℝ M] (f : ℝ → M) {n : ℕ} (hn : 0 < n) (d : List (ℝ × List ℝ))
    (hd : ∀ p ∈ d, p.2.length = n) :
    ((Spec.repeated d).map fun p => p.2 • f p.1).sum = (n : ℝ) • ((Spec.averaged d).map fun p => p.2 • f p.1).sum := by
  have hn : (n : ℝ) ≠ 0 := by positivity
  simp only [Spec.repeated, Spec.averaged, List.map_map, List.map_flatMap, Function.comp_def]
  induction d with
  | nil => simp
  | cons p d ih =>
    rw [List.flatMap_cons, List.sum_append, ih fun q hq => hd q (List.mem_cons_of_mem _ hq), List.map_cons, List.sum_cons, smul_add]
    congr 1
    rw [hd p List.mem_cons_self, smul_smul, mul_div_cancel₀ _ hn]
    generalize p.2 = l
    induction l with
    | nil => simp
    | cons y l ih => rw [List.map_cons, List.sum_cons, List.sum_cons, add_smul, ih]

section repeated

variable (m)
variable {n : ℕ} (hn : 0 < n) {d : List (ℝ × List ℝ)} (hd : ∀ p ∈ d, p.2.length = n)

omit [Fintype ι] [DecidableEq ι] [Fintype κ] [DecidableEq κ] in
theorem tilt_repeated {α : Type} (K : Matrix α α ℝ) (D : Matrix α α ℝ) (b : α → ℝ) :
    NatNormal.tilt ⟨0, K⟩ m.noise ((n : ℝ) • D) ((n : ℝ) • b) = NatNormal.tilt ⟨0, K⟩ (m.noise / n) D b := by
  have e : 1 / m.noise * (n : ℝ) = 1 / (m.noise / n) := by rw [one_div_div, one_div_mul_eq_div]
  simp only [NatNormal.tilt, smul_smul, e]

include hn hd

theorem repeated_optimal :
    (∀ u, qzOptimal m (constructDataTerms C m (Spec.repeated d)) u =
        qzOptimal (m.withNoise (m.noise / n)) (constructDataTerms C (m.withNoise (m.noise / n)) (Spec.averaged d)) u) ∧
      (∀ z, quOptimal m (constructDataTerms C m (Spec.repeated d)) z =
        quOptimal (m.withNoise (m.noise / n)) (constructDataTerms C (m.withNoise (m.noise / n)) (Spec.averaged d)) z) ∧
      (∀ q, qzOptimalMF C m (constructDataTerms C m (Spec.repeated d)) q =
        qzOptimalMF C (m.withNoise (m.noise / n)) (constructDataTerms C (m.withNoise (m.noise / n)) (Spec.averaged d)) q) ∧
      ∀ q, quOptimalMF C m (constructDataTerms C m (Spec.repeated d)) q =
        quOptimalMF C (m.withNoise (m.noise / n)) (constructDataTerms C (m.withNoise (m.noise / n)) (Spec.averaged d)) q := by
  have hI : (constructDataTerms C m (Spec.repeated d)).iUzSum =
      (n : ℝ) • (constructDataTerms C (m.withNoise (m.noise / n)) (Spec.averaged d)).iUzSum := repeated_weighted m.iUz hn d hd
  have hZ : ∀ u2, zQuad (constructDataTerms C m (Spec.repeated d)) u2 =
      (n : ℝ) • zQuad (constructDataTerms C (m.withNoise (m.noise / n)) (Spec.averaged d)) u2 := fun u2 => by
    rw [zQuad_sum, zQuad_sum]
    exact repeated_sum (ptZ C m u2) d hd
  have hU : ∀ z2, uQuad (constructDataTerms C m (Spec.repeated d)) z2 =
      (n : ℝ) • uQuad (constructDataTerms C (m.withNoise (m.noise / n)) (Spec.averaged d)) z2 := fun z2 => by
    rw [uQuad_sum, uQuad_sum]
    exact repeated_sum (ptU C m z2) d hd
  refine ⟨fun u => ?_, fun z => ?_, fun q => ?_, fun q => ?_⟩
  · rw [qzOptimal_eq, qzOptimal_eq, hZ, hI, transpose_smul, smul_mulVec]
    exact tilt_repeated m _ _ _
  · rw [quOptimal_eq, quOptimal_eq, hU, hI, smul_mulVec]
    exact tilt_repeated m _ _ _
  · rw [qzOptimalMF_eq, qzOptimalMF_eq, hZ, hI, transpose_smul, smul_mulVec]
    exact tilt_repeated m _ _ _
  · rw [quOptimalMF_eq, quOptimalMF_eq, hU, hI, smul_mulVec]
    exact tilt_repeated m _ _ _

/-- **C149** Fitting to repeated measurements is fitting to their averages with correspondingly less noise: coordinate ascent
and Gibbs sampling end up in the same state. -/
theorem c149_fit (s : Session ι κ) (iters : ℤ) (W : ℕ → (ι → ℝ) × (κ → ℝ)) :
    s.fitCA C m (Spec.repeated d) iters = s.fitCA C (m.withNoise (m.noise / n)) (Spec.averaged d) iters ∧
      s.fitStructured C m W (Spec.repeated d) iters = s.fitStructured C (m.withNoise (m.noise / n)) W (Spec.averaged d) iters := by
  obtain ⟨h1, h2, h3, h4⟩ := repeated_optimal C m hn hd
  constructor
  · have e : caStep C m (constructDataTerms C m (Spec.repeated d)) =
        caStep C (m.withNoise (m.noise / n)) (constructDataTerms C (m.withNoise (m.noise / n)) (Spec.averaged d)) := by
      funext p
      simp only [caStep, h3, h4]
    simp only [Session.fitCA, fitMeanFieldCA, e]
  · have e1 : gibbsU C m (constructDataTerms C m (Spec.repeated d)) W =
        gibbsU C (m.withNoise (m.noise / n)) (constructDataTerms C (m.withNoise (m.noise / n)) (Spec.averaged d)) W := by
      funext i z
      simp only [gibbsU, h2]
    have e2 : gibbsZ C m (constructDataTerms C m (Spec.repeated d)) W =
        gibbsZ C (m.withNoise (m.noise / n)) (constructDataTerms C (m.withNoise (m.noise / n)) (Spec.averaged d)) W := by
      funext i z
      simp only [gibbsZ, h1]
    simp only [Session.fitStructured, e1, e2]

/-- **C149** The predictions of the signal are the same: for the mean-field schemes from the same posterior, and for the
structured scheme from the same samples of the filter. -/
theorem c149_predict (s : Posts ι κ) (t : List ℝ) (us : List (ι → ℝ)) (hus : us ≠ []) :
    Spec.signal m.noise (MeanField.predict C m s t) =
        Spec.signal (m.noise / n) (MeanField.predict C (m.withNoise (m.noise / n)) s t) ∧
      ∃ l l', Structured.predict C m (some (constructDataTerms C m (Spec.repeated d))) t us = .ok l ∧
        Structured.predict C (m.withNoise (m.noise / n))
          (some (constructDataTerms C (m.withNoise (m.noise / n)) (Spec.averaged d))) t us = .ok l' ∧
        Spec.signal m.noise l = Spec.signal (m.noise / n) l' := by
  obtain ⟨h1, -⟩ := repeated_optimal C m hn hd
  have ep : ∀ u u2 z z2 x, ptMoments C (m.withNoise (m.noise / n)) u u2 z z2 x = ptMoments C m u u2 z z2 x := fun _ _ _ _ _ => rfl
  have eu : s.pU (m.withNoise (m.noise / n)) = s.pU m := rfl
  have ez : s.pZ (m.withNoise (m.noise / n)) = s.pZ m := rfl
  constructor
  · simp only [meanField_predict_map, Spec.signal, List.map_map, ep, eu, ez]
    refine List.map_congr_left fun x _ => ?_
    simp [toMeanVar, Inst.withNoise]
  · refine ⟨_, _, structured_predict_map C m _ hus t, structured_predict_map C (m.withNoise (m.noise / n)) _ hus t, ?_⟩
    simp only [Spec.signal, List.map_map, ep, h1]
    refine List.map_congr_left fun x _ => ?_
    simp [toMeanVar, Inst.withNoise]

end repeated

/-- Two measurements at time zero and two at time one. -/
example : Spec.repeated [(0, [1, 3]), (1, [4, 6])] = [(0, 1), (0, 3), (1, 4), (1, 6)] ∧
    Spec.averaged [(0, [1, 3]), (1, [4, 6])] = [(0, 2), (1, 5)] := by
  constructor
  · rfl
  · norm_num [Spec.averaged]

/-! ## C150 -/

/-- Observations at the same times, combined linearly. -/
def Spec.combined (a b : ℝ) (d : List (ℝ × ℝ × ℝ)) : List (ℝ × ℝ) := d.map fun p => (p.1, a * p.2.1 + b * p.2.2)

theorem combined_iUz (a b : ℝ) (d : List (ℝ × ℝ × ℝ)) :
    (constructDataTerms C m (Spec.combined a b d)).iUzSum =
      a • (constructDataTerms C m (Spec.combined 1 0 d)).iUzSum + b • (constructDataTerms C m (Spec.combined 0 1 d)).iUzSum := by
  simp only [constructDataTerms, Spec.combined, List.map_map, Function.comp_def]
  induction d with
  | nil => simp
  | cons p d ih =>
    simp only [List.map_cons, List.sum_cons, ih]
    ext i j
    simp only [Matrix.add_apply, Matrix.smul_apply, smul_eq_mul]
    ring

theorem combined_zQuad (a b : ℝ) (d : List (ℝ × ℝ × ℝ)) (u2 : Matrix ι ι ℝ) :
    zQuad (constructDataTerms C m (Spec.combined a b d)) u2 = (d.map fun p => ptZ C m u2 p.1).sum := by
  rw [zQuad_sum, Spec.combined, List.map_map]
  rfl

theorem combined_mean (h : m.Valid) (a b : ℝ) (d : List (ℝ × ℝ × ℝ)) (u : ι → ℝ) :
    (qzOptimal m (constructDataTerms C m (Spec.combined a b d)) u).mean C.z =
      a • (qzOptimal m (constructDataTerms C m (Spec.combined 1 0 d)) u).mean C.z +
        b • (qzOptimal m (constructDataTerms C m (Spec.combined 0 1 d)) u).mean C.z := by
  rw [NatNormal.mean_eq C.z (qzOptimal_posDef C h _ u), NatNormal.mean_eq C.z (qzOptimal_posDef C h _ u),
    NatNormal.mean_eq C.z (qzOptimal_posDef C h _ u)]
  simp only [qzOptimal_eq, combined_zQuad, NatNormal.tilt, zero_add]
  rw [combined_iUz C a b, transpose_add, transpose_smul, transpose_smul, add_mulVec, smul_mulVec, smul_mulVec, smul_add, mulVec_add,
    smul_comm _ a, smul_comm _ b]
  simp only [mulVec_smul]

/-- **C150** For the samples of the filter that a fit has stored, predicted means are linear in the observations that the model
is conditioned on: superpositions of observations give superpositions of predictions. -/
theorem c150_linear (h : m.Valid) (a b : ℝ) (d : List (ℝ × ℝ × ℝ)) (t : List ℝ) (us : List (ι → ℝ)) (hus : us ≠ []) :
    ∃ f f1 f2 : ℝ → ℝ × ℝ,
      Structured.predict C m (some (constructDataTerms C m (Spec.combined a b d))) t us = .ok (t.map f) ∧
      Structured.predict C m (some (constructDataTerms C m (Spec.combined 1 0 d))) t us = .ok (t.map f1) ∧
      Structured.predict C m (some (constructDataTerms C m (Spec.combined 0 1 d))) t us = .ok (t.map f2) ∧
      ∀ x, (f x).1 = a * (f1 x).1 + b * (f2 x).1 := by
  refine ⟨_, _, _, structured_predict_map C m _ hus t, structured_predict_map C m _ hus t, structured_predict_map C m _ hus t,
    fun x => ?_⟩
  simp only [toMeanVar, ptMoments]
  have e : ∀ l : List (ι → ℝ), (l.map fun u => u ⬝ᵥ (m.iUz x *ᵥ (qzOptimal m (constructDataTerms C m (Spec.combined a b d)) u).mean C.z)).sum =
      a * (l.map fun u => u ⬝ᵥ (m.iUz x *ᵥ (qzOptimal m (constructDataTerms C m (Spec.combined 1 0 d)) u).mean C.z)).sum +
      b * (l.map fun u => u ⬝ᵥ (m.iUz x *ᵥ (qzOptimal m (constructDataTerms C m (Spec.combined 0 1 d)) u).mean C.z)).sum := fun l => by
    induction l with
    | nil => simp
    | cons u l ih =>
      simp only [List.map_cons, List.sum_cons]
      rw [ih, combined_mean C h, mulVec_add, mulVec_smul, mulVec_smul, dotProduct_add, dotProduct_smul, dotProduct_smul,
        smul_eq_mul, smul_eq_mul]
      ring
  rw [e]
  ring

/-- **C150** Given the filter, the covariance of the excitation does not depend on the values of the observations. -/
theorem c150_covariance (h : m.Valid) {d d' : List (ℝ × ℝ)} (hd : d.map Prod.fst = d'.map Prod.fst) (u : ι → ℝ) :
    (qzOptimal m (constructDataTerms C m d) u).var C.z = (qzOptimal m (constructDataTerms C m d') u).var C.z := by
  rw [NatNormal.var_eq C.z (qzOptimal_posDef C h _ u), NatNormal.var_eq C.z (qzOptimal_posDef C h _ u), qzOptimal_eq, qzOptimal_eq,
    zQuad_sum, zQuad_sum]
  have e : ∀ d : List (ℝ × ℝ), (d.map fun p => ptZ C m (vecMulVec u u) p.1) = (d.map Prod.fst).map (ptZ C m (vecMulVec u u)) :=
    fun d => by rw [List.map_map]; rfl
  simp only [NatNormal.tilt]
  rw [e, e, hd]

/-- Two sets of observations at times zero and one. -/
example (C : Chols (Fin 1) (Fin 1)) : ∃ f f1 f2 : ℝ → ℝ × ℝ,
    Structured.predict C exInst (some (constructDataTerms C exInst [(0, 12), (1, 2)])) [0] [1] = .ok ([0].map f) ∧
      Structured.predict C exInst (some (constructDataTerms C exInst [(0, 3), (1, 1)])) [0] [1] = .ok ([0].map f1) ∧
      Structured.predict C exInst (some (constructDataTerms C exInst [(0, 2), (1, 0)])) [0] [1] = .ok ([0].map f2) ∧
      ∀ x, (f x).1 = 2 * (f1 x).1 + 3 * (f2 x).1 := by
  have := c150_linear C exInst_valid 2 3 [(0, 3, 2), (1, 1, 0)] [0] [1] (by simp)
  norm_num [Spec.combined] at this
  norm_num
  exact this

end Gpcm
