import Verif.Lemmas.NormalLemmas
import Mathlib.Analysis.Matrix.PosDef

/-! # Properties C16 to C20: normal distributions with natural parameters -/

open Matrix Real MeasureTheory

namespace Gpcm

variable {n : Type} [Fintype n] [DecidableEq n]

/-- A factorisation oracle exists in every dimension. -/
theorem cholOracle_nonempty : Nonempty (CholOracle n) := by
  have : ∀ A : Matrix n n ℝ, ∃ L : Matrix n n ℝ, A.PosDef → L * Lᵀ = A := fun A => by
    by_cases hA : A.PosDef
    · refine ⟨(hA.isHermitian.eigenvectorUnitary : Matrix n n ℝ) *
        diagonal fun i => √(hA.isHermitian.eigenvalues i), fun _ => ?_⟩
      have hs := hA.isHermitian.spectral_theorem
      rw [Unitary.conjStarAlgAut_apply, star_eq_conjTranspose,
        conjTranspose_eq_transpose_of_trivial] at hs
      conv_rhs => rw [hs]
      rw [transpose_mul, diagonal_transpose, Matrix.mul_assoc, ← Matrix.mul_assoc (diagonal _),
        diagonal_mul_diagonal, ← Matrix.mul_assoc]
      congr 3
      funext i
      rw [mul_self_sqrt (hA.eigenvalues_pos i).le]
      rfl
    · exact ⟨0, fun h => absurd h hA⟩
  choose f hf using this
  exact ⟨⟨f, hf⟩⟩

/-- The running example: a correlated pair. -/
def exNormal : NatNormal (Fin 2) := ⟨![1, -3], !![2, 1; 1, 2]⟩

theorem exNormal_posDef : exNormal.prec.PosDef := by
  refine Matrix.PosDef.of_dotProduct_mulVec_pos ?_ fun x hx => ?_
  · ext i j
    fin_cases i <;> fin_cases j <;> simp [exNormal]
  · have hx' : x 0 ≠ 0 ∨ x 1 ≠ 0 := by
      by_contra hc
      push Not at hc
      exact hx (funext fun i => by fin_cases i <;> simp [hc.1, hc.2])
    simp only [exNormal, dotProduct, mulVec, Fin.sum_univ_two, star_trivial]
    simp
    rcases hx' with h | h
    · nlinarith [sq_nonneg (x 0 + x 1), sq_nonneg (x 1), pow_pos (abs_pos.2 h) 2, sq_abs (x 0)]
    · nlinarith [sq_nonneg (x 0 + x 1), sq_nonneg (x 0), pow_pos (abs_pos.2 h) 2, sq_abs (x 1)]

/-! ## C16 -/

/-- **C16** The moments are the moments of the natural parameters. -/
theorem c16_moments (C : CholOracle n) {d : NatNormal n} (h : d.prec.PosDef) :
    d.mean C = d.prec⁻¹ *ᵥ d.lam ∧ d.var C = d.prec⁻¹ ∧
      d.m2 C = d.var C + vecMulVec (d.mean C) (d.mean C) :=
  ⟨NatNormal.mean_eq C h, NatNormal.var_eq C h, NatNormal.m2_eq C h⟩

/-- **C16** The moments are the moments of the density `exp (logpdf ·)`. -/
theorem c16_density (C : CholOracle n) {d : NatNormal n} (h : d.prec.PosDef) (i j : n) :
    ∫ x, exp (d.logpdf C x) * x i = d.mean C i ∧
    ∫ x, exp (d.logpdf C x) * ((x i - d.mean C i) * (x j - d.mean C j)) = d.var C i j ∧
    ∫ x, exp (d.logpdf C x) * (x i * x j) = d.m2 C i j := by
  refine ⟨(NatNormal.expect_coord C h i).2, ?_, ?_⟩
  · rw [(NatNormal.expect_prod C h (d.mean C) i j).2]
    ring
  · have := (NatNormal.expect_prod C h 0 i j).2
    simp only [Pi.zero_apply, sub_zero] at this
    rw [this, NatNormal.m2_eq C h]
    rfl

/-- **C16** Natural parameters survive the round trip. -/
theorem c16_to_from (C : CholOracle n) {d : NatNormal n} (h : d.prec.PosDef) :
    NatNormal.fromNormal C (d.toNormal C) = d := by
  have hv : (d.toNormal C).var.PosDef := by
    show (d.var C).PosDef
    rw [NatNormal.var_eq C h]
    exact h.inv
  apply NatNormal.ext
  · show cholsolveVec _ _ = _
    rw [cholsolveVec_eq C hv]
    show (d.var C)⁻¹ *ᵥ d.mean C = _
    rw [NatNormal.var_eq C h, nonsing_inv_nonsing_inv _ (posDef_isUnit_det h),
      NatNormal.prec_mul_mean C h]
  · show pdInv C _ = _
    rw [pdInv_eq C hv]
    show (d.var C)⁻¹ = _
    rw [NatNormal.var_eq C h, nonsing_inv_nonsing_inv _ (posDef_isUnit_det h)]

/-- **C16** Mean and variance survive the round trip. -/
theorem c16_from_to (C : CholOracle n) {x : MeanVar n} (h : x.var.PosDef) :
    (NatNormal.fromNormal C x).toNormal C = x := by
  have hp : (NatNormal.fromNormal C x).prec.PosDef := by
    show (pdInv C x.var).PosDef
    rw [pdInv_eq C h]
    exact h.inv
  have e : (NatNormal.fromNormal C x).prec = x.var⁻¹ := pdInv_eq C h
  apply MeanVar.ext
  · show (NatNormal.fromNormal C x).mean C = _
    rw [NatNormal.mean_eq C hp, e, nonsing_inv_nonsing_inv _ (posDef_isUnit_det h)]
    show _ *ᵥ cholsolveVec _ _ = _
    rw [cholsolveVec_eq C h, mulVec_mulVec, mul_nonsing_inv _ (posDef_isUnit_det h), one_mulVec]
  · show (NatNormal.fromNormal C x).var C = _
    rw [NatNormal.var_eq C hp, e, nonsing_inv_nonsing_inv _ (posDef_isUnit_det h)]

/-- The correlated pair has mean `(5/3, -7/3)`. -/
example (C : CholOracle (Fin 2)) : exNormal.mean C = ![5 / 3, -7 / 3] := by
  have h := NatNormal.prec_mul_mean C exNormal_posDef
  have h0 := congrFun h 0
  have h1 := congrFun h 1
  simp only [exNormal, mulVec, dotProduct, Fin.sum_univ_two] at h0 h1
  simp at h0 h1
  funext i
  fin_cases i
  · show exNormal.mean C 0 = 5 / 3
    simp only [exNormal]
    linarith
  · show exNormal.mean C 1 = -7 / 3
    simp only [exNormal]
    linarith

example : Nonempty (CholOracle (Fin 2)) ∧ exNormal.prec.PosDef :=
  ⟨cholOracle_nonempty, exNormal_posDef⟩

/-! ## C17 -/

/-- The value a property should have. -/
noncomputable def NatNormal.attr (C : CholOracle n) (d : NatNormal n) : NatObj.Attr → NatObj.Val n
  | .mean => .vec (d.mean C)
  | .var => .mat (d.var C)
  | .m2 => .mat (d.m2 C)

/-- The caches agree with the parameters. -/
def NatObj.Coherent (C : CholOracle n) (d : NatNormal n) (o : NatObj n) : Prop :=
  o.lam = d.lam ∧ o.prec = d.prec ∧ (∀ v, o.cmean = some v → v = d.mean C) ∧
    (∀ v, o.cvar = some v → v = d.var C) ∧ ∀ v, o.cm2 = some v → v = d.m2 C

theorem NatObj.read_coherent (C : CholOracle n) (d : NatNormal n) (o : NatObj n) (h : o.Coherent C d)
    (a : NatObj.Attr) : (o.read C a).1 = d.attr C a ∧ (o.read C a).2.Coherent C d := by
  obtain ⟨h1, h2, h3, h4, h5⟩ := h
  cases a with
  | mean =>
    simp only [read, readMean]
    rcases hc : o.cmean with _ | v
    · simp only [NatNormal.attr, NatNormal.mean, h1, h2]
      exact ⟨trivial, rfl, rfl, fun v hv => by simpa [NatNormal.mean] using hv.symm, h4, h5⟩
    · exact ⟨by rw [h3 v hc]; rfl, h1, h2, h3, h4, h5⟩
  | var =>
    simp only [read, readVar]
    rcases hc : o.cvar with _ | v
    · simp only [NatNormal.attr, NatNormal.var, h2]
      exact ⟨trivial, h1, rfl, h3, fun v hv => by simpa [NatNormal.var] using hv.symm, h5⟩
    · exact ⟨by rw [h4 v hc]; rfl, h1, h2, h3, h4, h5⟩
  | m2 =>
    simp only [read, readM2]
    rcases hc : o.cm2 with _ | v
    · simp only [NatNormal.attr, NatNormal.m2, h1, h2]
      exact ⟨trivial, rfl, rfl, h3, h4, fun v hv => by simpa [NatNormal.m2] using hv.symm⟩
    · exact ⟨by rw [h5 v hc]; rfl, h1, h2, h3, h4, h5⟩

/-- **C17** Every sequence of property reads on a new object returns the values computed from the
parameters. -/
theorem c17_caches (C : CholOracle n) (lam : n → ℝ) (prec : Matrix n n ℝ) (as : List NatObj.Attr) :
    ((NatObj.new lam prec).reads C as).1 = as.map (NatNormal.attr C ⟨lam, prec⟩) := by
  have key : ∀ (as : List NatObj.Attr) (o : NatObj n), o.Coherent C ⟨lam, prec⟩ →
      (o.reads C as).1 = as.map (NatNormal.attr C ⟨lam, prec⟩) := by
    intro as
    induction as with
    | nil => intro o _; rfl
    | cons a as ih =>
      intro o h
      obtain ⟨h1, h2⟩ := NatObj.read_coherent C _ o h a
      simp only [NatObj.reads, List.map_cons, h1, ih _ h2]
  refine key as _ ⟨rfl, rfl, ?_, ?_, ?_⟩ <;> intro v hv <;> cases hv

/-- **C17** Reads do not change the parameters. -/
theorem c17_params (C : CholOracle n) (o : NatObj n) (as : List NatObj.Attr) :
    (o.reads C as).2.lam = o.lam ∧ (o.reads C as).2.prec = o.prec := by
  induction as generalizing o with
  | nil => exact ⟨rfl, rfl⟩
  | cons a as ih =>
    have : (o.read C a).2.lam = o.lam ∧ (o.read C a).2.prec = o.prec := by
      cases a <;> simp only [NatObj.read, NatObj.readMean, NatObj.readVar, NatObj.readM2] <;> split <;>
        exact ⟨rfl, rfl⟩
    have h := ih (o.read C a).2
    exact ⟨h.1.trans this.1, h.2.trans this.2⟩

example (C : CholOracle (Fin 2)) :
    ((NatObj.new exNormal.lam exNormal.prec).reads C [.m2, .mean, .m2]).1 =
      [.mat (exNormal.m2 C), .vec (exNormal.mean C), .mat (exNormal.m2 C)] :=
  c17_caches C _ _ _

/-! ## C18 -/

/-- **C18** The divergence is non-negative. -/
theorem c18_nonneg (C : CholOracle n) {q p : NatNormal n} (hq : q.prec.PosDef) (hp : p.prec.PosDef) :
    0 ≤ q.kl C p := by
  rw [NatNormal.kl_def]
  have h1 := (NatNormal.trace_log_det (NatNormal.ratio_posDef C hq hp)).1
  have h2 := hp.posSemidef.dotProduct_mulVec_nonneg (q.mean C - p.mean C)
  rw [star_trivial] at h2
  linarith

/-- **C18** The divergence vanishes exactly for equal natural parameters. -/
theorem c18_zero_iff (C : CholOracle n) {q p : NatNormal n} (hq : q.prec.PosDef) (hp : p.prec.PosDef) :
    q.kl C p = 0 ↔ q = p := by
  constructor
  · intro h0
    rw [NatNormal.kl_def] at h0
    obtain ⟨h1, h1'⟩ := NatNormal.trace_log_det (NatNormal.ratio_posDef C hq hp)
    have h2 := hp.posSemidef.dotProduct_mulVec_nonneg (q.mean C - p.mean C)
    rw [star_trivial] at h2
    have hM := h1' (by linarith)
    have hprec : q.prec = p.prec := by
      have hu := mul_eq_one_comm.1 hM
      have hd := (Matrix.isUnit_iff_isUnit_det _).2 (chol_det C hq).2.isUnit
      have e : C.chol q.prec * NatNormal.ratio C q p = C.chol p.prec := by
        unfold NatNormal.ratio
        rw [← Matrix.mul_assoc, mul_nonsing_inv _ (chol_det C hq).2.isUnit, Matrix.one_mul]
      rw [← C.spec _ hp, ← e, transpose_mul, Matrix.mul_assoc, ← Matrix.mul_assoc (NatNormal.ratio C q p),
        hu, Matrix.one_mul, C.spec _ hq]
    have hmean : q.mean C - p.mean C = 0 := by
      by_contra hne
      have := hp.dotProduct_mulVec_pos hne
      rw [star_trivial] at this
      linarith
    have hm : q.mean C = p.mean C := sub_eq_zero.1 hmean
    refine NatNormal.ext ?_ hprec
    rw [← NatNormal.prec_mul_mean C hq, ← NatNormal.prec_mul_mean C hp, hprec, hm]
  · rintro rfl
    rw [NatNormal.kl_formula C hq hq, sub_self, zero_dotProduct, NatNormal.var_eq C hq,
      mul_nonsing_inv _ (posDef_isUnit_det hq), trace_one]
    ring

/-- **C18** The closed form. -/
theorem c18_formula (C : CholOracle n) {q p : NatNormal n} (hq : q.prec.PosDef) (hp : p.prec.PosDef) :
    q.kl C p = 1 / 2 * ((p.prec * q.prec⁻¹).trace - log (p.prec.det / q.prec.det) +
      (q.prec⁻¹ *ᵥ q.lam - p.prec⁻¹ *ᵥ p.lam) ⬝ᵥ (p.prec *ᵥ (q.prec⁻¹ *ᵥ q.lam - p.prec⁻¹ *ᵥ p.lam)) -
      Fintype.card n) := by
  rw [NatNormal.kl_formula C hq hp, log_div hp.det_pos.ne' hq.det_pos.ne', NatNormal.mean_eq C hq,
    NatNormal.mean_eq C hp, NatNormal.var_eq C hq]
  ring

/-- **C18** The divergence is the expected log-density ratio. -/
theorem c18_expectation (C : CholOracle n) {q p : NatNormal n} (hq : q.prec.PosDef)
    (hp : p.prec.PosDef) :
    (Integrable fun x => exp (q.logpdf C x) * (q.logpdf C x - p.logpdf C x)) ∧
    q.kl C p = ∫ x, exp (q.logpdf C x) * (q.logpdf C x - p.logpdf C x) := by
  have e : ∀ x, exp (q.logpdf C x) * (q.logpdf C x - p.logpdf C x) =
      (log q.prec.det - log p.prec.det) / 2 * exp (q.logpdf C x) +
      (-(1 / 2)) * (exp (q.logpdf C x) * ((x - q.mean C) ⬝ᵥ (q.prec *ᵥ (x - q.mean C)))) +
      1 / 2 * (exp (q.logpdf C x) * ((x - p.mean C) ⬝ᵥ (p.prec *ᵥ (x - p.mean C)))) := fun x => by
    generalize hE : exp (q.logpdf C x) = E
    rw [NatNormal.logpdf_eq, NatNormal.logpdf_eq]
    ring
  have i0 := (NatNormal.expect_one C hq).1.const_mul ((log q.prec.det - log p.prec.det) / 2)
  have i1 := (NatNormal.expect_quad C hq q.prec (q.mean C)).1.const_mul (-(1 / 2))
  have i2 := (NatNormal.expect_quad C hq p.prec (p.mean C)).1.const_mul (1 / 2)
  simp only [e]
  refine ⟨(i0.add i1).add i2, ?_⟩
  have i01 : Integrable fun x => (log q.prec.det - log p.prec.det) / 2 * exp (q.logpdf C x) +
      (-(1 / 2)) * (exp (q.logpdf C x) * ((x - q.mean C) ⬝ᵥ (q.prec *ᵥ (x - q.mean C)))) := i0.add i1
  rw [integral_add i01 i2, integral_add i0 i1, integral_const_mul, integral_const_mul, integral_const_mul,
    (NatNormal.expect_one C hq).2, (NatNormal.expect_quad C hq q.prec (q.mean C)).2,
    (NatNormal.expect_quad C hq p.prec (p.mean C)).2, NatNormal.kl_formula C hq hp,
    NatNormal.var_eq C hq, inv_symm hq, mul_nonsing_inv _ (posDef_isUnit_det hq), trace_one, sub_self,
    zero_dotProduct]
  ring

/-- **C18** The choice of factors does not matter. -/
theorem c18_oracle (C C' : CholOracle n) {q p : NatNormal n} (hq : q.prec.PosDef) (hp : p.prec.PosDef) :
    q.kl C p = q.kl C' p := by
  rw [c18_formula C hq hp, c18_formula C' hq hp]

/-- The divergence between the correlated pair and the standard normal is positive. -/
example (C : CholOracle (Fin 2)) : 0 < exNormal.kl C ⟨0, 1⟩ := by
  refine lt_of_le_of_ne (c18_nonneg C exNormal_posDef Matrix.PosDef.one) fun h => ?_
  have := (c18_zero_iff C exNormal_posDef Matrix.PosDef.one).1 h.symm
  have := congrFun (congrArg NatNormal.lam this) 0
  simp [exNormal] at this

/-! ## C19 -/

/-- **C19** The density integrates to one. -/
theorem c19_normalised (C : CholOracle n) {d : NatNormal n} (h : d.prec.PosDef) :
    (Integrable fun x => exp (d.logpdf C x)) ∧ ∫ x, exp (d.logpdf C x) = 1 :=
  NatNormal.expect_one C h

/-- **C19** The density is maximal at the mean, and only there. -/
theorem c19_max (C : CholOracle n) {d : NatNormal n} (h : d.prec.PosDef) {x : n → ℝ}
    (hx : x ≠ d.mean C) : d.logpdf C x < d.logpdf C (d.mean C) := by
  have := h.dotProduct_mulVec_pos (sub_ne_zero.2 hx)
  rw [star_trivial] at this
  rw [NatNormal.logpdf_eq, NatNormal.logpdf_eq, sub_self, zero_dotProduct]
  linarith

example (C : CholOracle (Fin 2)) : ∫ x, exp (exNormal.logpdf C x) = 1 :=
  (c19_normalised C exNormal_posDef).2

/-! ## C20 -/

/-- **C20** A sample is an affine function of the noise with the right offset and linear part. -/
theorem c20_affine (C : CholOracle n) {d : NatNormal n} (h : d.prec.PosDef) :
    ∃ S : Matrix n n ℝ, S * Sᵀ = d.var C ∧ ∀ z, d.sample C z = d.mean C + S *ᵥ z :=
  ⟨_, NatNormal.samplePart_mul C h, NatNormal.sample_eq C h⟩

/-- **C20** Samples driven by standard normal noise have the density `exp (logpdf ·)`: every expectation
agrees. -/
theorem c20_law (C : CholOracle n) {d : NatNormal n} (h : d.prec.PosDef) (f : (n → ℝ) → ℝ) :
    ∫ z, (∏ i, ProbabilityTheory.gaussianPDFReal 0 1 (z i)) * f (d.sample C z) =
      ∫ x, exp (d.logpdf C x) * f x :=
  (NatNormal.expect_sample C h f).2

/-- Without noise the sample is the mean. -/
example (C : CholOracle (Fin 2)) : exNormal.sample C 0 = exNormal.mean C := by
  obtain ⟨S, -, h⟩ := c20_affine C exNormal_posDef
  rw [h, mulVec_zero, add_zero]

end Gpcm
