import Verif.Lemmas.ParamLimit

/-! # Lemmas about limits of the integrals of the RGPCM when parameters approach limits -/

open Matrix Real Filter Topology

namespace Gpcm

open Spec Rgpcm

/-- RGPCMs with the same features whose numbers approach those of an RGPCM. -/
structure Spec.RgpcmNear {α : Type} (l : Filter α) (g : α → RgpcmModel) (g' : RgpcmModel) : Prop where
  mMax : ∀ a, (g a).mMax = g'.mMax
  ms : ∀ a, (g a).ms = g'.ms
  noise : Tendsto (fun a => (g a).noise) l (𝓝 g'.noise)
  alpha : Tendsto (fun a => (g a).alpha) l (𝓝 g'.alpha)
  alphaT : Tendsto (fun a => (g a).alphaT) l (𝓝 g'.alphaT)
  lam : Tendsto (fun a => (g a).lam) l (𝓝 g'.lam)
  gamma : Tendsto (fun a => (g a).gamma) l (𝓝 g'.gamma)
  gammaT : Tendsto (fun a => (g a).gammaT) l (𝓝 g'.gammaT)
  a : Tendsto (fun a => (g a).a) l (𝓝 g'.a)
  b : Tendsto (fun a => (g a).b) l (𝓝 g'.b)
  lenU : ∀ a, (g a).tU.length = g'.tU.length
  tU : ∀ i : ℕ, Tendsto (fun a => (g a).tU.getD i 0) l (𝓝 (g'.tU.getD i 0))

section
variable {α : Type} {l : Filter α}

theorem tendsto_cos' {x : α → ℝ} {x' : ℝ} (h : Tendsto x l (𝓝 x')) : Tendsto (fun a => cos (x a)) l (𝓝 (cos x')) :=
  (continuous_cos.tendsto _).comp h

theorem tendsto_sin' {x : α → ℝ} {x' : ℝ} (h : Tendsto x l (𝓝 x')) : Tendsto (fun a => sin (x a)) l (𝓝 (sin x')) :=
  (continuous_sin.tendsto _).comp h

end

section
variable {α : Type} {l : Filter α} {g : α → RgpcmModel} {g' : RgpcmModel} (hg : RgpcmNear l g g') (hr : g'.Regular)
include hg hr

theorem Spec.RgpcmNear.kuEntry {x y : α → ℝ} {x' y' : ℝ} (hx : Tendsto x l (𝓝 x')) (hy : Tendsto y l (𝓝 y')) :
    Tendsto (fun a => (g a).kuEntry (x a) (y a)) l (𝓝 (g'.kuEntry x' y')) := by
  have h1 : 2 * g'.gamma ≠ 0 := (mul_pos two_pos hr.gamma).ne'
  simp only [RgpcmModel.kuEntry]
  exact ((hg.gammaT.pow 2).div (hg.gamma.const_mul 2) h1).mul (hg.gamma.neg.mul (hx.sub hy).abs).rexp

theorem Spec.RgpcmNear.ihx0 : Tendsto (fun a => (g a).ihx 0 0) l (𝓝 (g'.ihx 0 0)) := by
  simp only [RgpcmModel.ihx]
  exact (((hg.alphaT.pow 2).div_const 2).div hg.alpha hr.alpha.ne').mul (hg.lam.neg.mul_const _).rexp

theorem Spec.RgpcmNear.freq (c : ℝ) : Tendsto (fun a => c / ((g a).b - (g a).a)) l (𝓝 (c / (g'.b - g'.a))) :=
  tendsto_const_nhds.div (hg.b.sub hg.a) (sub_pos.2 hr.ab).ne'

theorem Spec.RgpcmNear.kzAlpha (m : ℕ) : Tendsto (fun a => (g a).kzAlpha m) l (𝓝 (g'.kzAlpha m)) := by
  have hl := hr.lam
  simp only [RgpcmModel.kzAlpha, RgpcmModel.psdMatern12, RgpcmModel.kzOmega, hg.mMax]
  have h1 : ∀ c : ℝ, Tendsto (fun a => 0.5 * ((g a).b - (g a).a) / (2 * 1 * (g a).lam / ((g a).lam ^ 2 + (c / ((g a).b - (g a).a)) ^ 2))) l
      (𝓝 (0.5 * (g'.b - g'.a) / (2 * 1 * g'.lam / (g'.lam ^ 2 + (c / (g'.b - g'.a)) ^ 2)))) := fun c =>
    (((hg.b.sub hg.a).const_mul _)).div ((hg.lam.const_mul _).div ((hg.lam.pow 2).add ((hg.freq hr c).pow 2)) (by positivity)) (by positivity)
  exact (h1 _).add ((h1 _).mul_const _)

theorem Spec.RgpcmNear.hxCos (n : ℝ) {t : α → ℝ} {t' : ℝ} (ht : Tendsto t l (𝓝 t')) :
    Tendsto (fun a => (g a).hxCos n (t a)) l (𝓝 (g'.hxCos n t')) := by
  have hα := hr.alpha
  have hl := hr.lam
  have hω := hg.freq hr (2 * π * n)
  have hs := ht.sub hg.a
  have he := ((hg.alpha.const_mul (-2)).mul hs).rexp
  simp only [RgpcmModel.hxCos]
  exact (((hg.alphaT.pow 2).div (((hg.alpha.pow 2).const_mul 4).add (hω.pow 2)) (by positivity)).mul
    (((hg.alpha.const_mul 2).mul ((tendsto_cos' (hω.mul hs)).sub he)).add (hω.mul (tendsto_sin' (hω.mul hs))))).add
    (((hg.alphaT.pow 2).div ((hg.alpha.add hg.lam).const_mul 2) (by positivity)).mul he)

theorem Spec.RgpcmNear.hxSin (n : ℝ) {t : α → ℝ} {t' : ℝ} (ht : Tendsto t l (𝓝 t')) :
    Tendsto (fun a => (g a).hxSin n (t a)) l (𝓝 (g'.hxSin n t')) := by
  have hα := hr.alpha
  have hω := hg.freq hr (2 * π * (n - g'.mMax))
  have hs := ht.sub hg.a
  have he := ((hg.alpha.const_mul (-2)).mul hs).rexp
  simp only [RgpcmModel.hxSin, hg.mMax]
  exact ((hg.alphaT.pow 2).div (((hg.alpha.pow 2).const_mul 4).add (hω.pow 2)) (by positivity)).mul
    ((hω.mul (he.sub (tendsto_cos' (hω.mul hs)))).add ((hg.alpha.const_mul 2).mul (tendsto_sin' (hω.mul hs))))

theorem Spec.RgpcmNear.hzEntry (m n : ℕ) {t : α → ℝ} {t' : ℝ} (ht : Tendsto t l (𝓝 t')) :
    Tendsto (fun a => Rgpcm.hzEntry (g a) m n (t a)) l (𝓝 (Rgpcm.hzEntry g' m n t')) := by
  have h1 := fun x => hg.hxCos hr x ht
  have h2 := fun x => hg.hxSin hr x ht
  simp only [Rgpcm.hzEntry, hg.mMax]
  split_ifs
  · exact ((h1 _).add (h1 _)).const_mul _
  · exact h2 _
  · exact ((h2 _).add (h2 _)).const_mul _
  · exact h2 _
  · exact ((h2 _).add (h2 _)).const_mul _
  · exact ((h1 _).sub (h1 _)).const_mul _

theorem Spec.RgpcmNear.uzEntry (m : ℕ) {t x : α → ℝ} {t' x' : ℝ} (ht : Tendsto t l (𝓝 t')) (hx : Tendsto x l (𝓝 x')) :
    Tendsto (fun a => (g a).alphaT * (g a).gammaT * exp (-(g a).gamma * x a) * Rgpcm.uzEntry (g a) (x a) m (t a)) l
      (𝓝 (g'.alphaT * g'.gammaT * exp (-g'.gamma * x') * Rgpcm.uzEntry g' x' m t')) := by
  refine ((hg.alphaT.mul hg.gammaT).mul (hg.gamma.neg.mul hx).rexp).mul ?_
  have hc := hg.alpha.sub hg.gamma
  have h2 : g'.alpha - g'.gamma ≠ 0 := sub_ne_zero.2 hr.ne.symm
  have h2' : 0 < (g'.alpha - g'.gamma) ^ 2 := by positivity
  have hs := ht.sub hg.a
  have hr' := (ht.sub hx).sub hg.a
  have he := (hc.mul ((ht.sub hx).sub ht)).rexp
  simp only [Rgpcm.uzEntry, RgpcmModel.integralLu0, RgpcmModel.integralLukLeqM, RgpcmModel.integralLukGM, hg.mMax]
  split_ifs
  · exact ((tendsto_const_nhds.div hc h2).mul (tendsto_const_nhds.sub he)).add_const _
  · have hω := hg.freq hr (2 * π * (m : ℝ))
    exact (tendsto_const_nhds.div ((hc.pow 2).add (hω.pow 2)) (by positivity)).mul
      (((hc.mul (tendsto_cos' (hω.mul hs))).add (hω.mul (tendsto_sin' (hω.mul hs)))).sub
        (he.mul ((hc.mul (tendsto_cos' (hω.mul hr'))).add (hω.mul (tendsto_sin' (hω.mul hr'))))))
  · have hω := hg.freq hr (2 * π * ((m : ℝ) - g'.mMax))
    exact (tendsto_const_nhds.div ((hc.pow 2).add (hω.pow 2)) (by positivity)).mul
      (((hc.neg.mul (tendsto_sin' (hω.mul hs))).add (hω.mul (tendsto_cos' (hω.mul hs)))).sub
        (he.mul ((hc.neg.mul (tendsto_sin' (hω.mul hr'))).add (hω.mul (tendsto_cos' (hω.mul hr'))))))

end

/-- An entry of `compute_I_ux` at equal times. -/
noncomputable def iuxClosed (g : RgpcmModel) (x y : ℝ) : ℝ :=
  g.alphaT ^ 2 * g.gammaT ^ 2 * exp (-g.gamma * (x + y)) *
    ((g.lam / (g.gamma - g.alpha) * (1 - exp (2 * (g.gamma - g.alpha) * min y x)) +
      (1 - exp ((g.gamma - g.alpha) * y - g.lam * |y|) - exp ((g.gamma - g.alpha) * x - g.lam * |x|) +
        exp ((g.gamma - g.alpha) * (y + x) - g.lam * |y - x|))) / ((g.gamma - g.alpha) ^ 2 - g.lam ^ 2))

theorem iuxEntry_closed {g : RgpcmModel} (h1 : g.gamma ≠ g.alpha) (h2 : (g.gamma - g.alpha) ^ 2 ≠ g.lam ^ 2) {x y : ℝ} (hx : 0 ≤ x)
    (hy : 0 ≤ y) : g.iuxEntry 0 0 x y = .ok (iuxClosed g x y) := by
  have h1' : g.gamma - g.alpha ≠ 0 := sub_ne_zero.2 h1
  have h2' : (g.gamma - g.alpha) ^ 2 - g.lam ^ 2 ≠ 0 := sub_ne_zero.2 h2
  have e1 : ∀ z, RgpcmModel.integralAbcd 0 z (g.gamma - g.alpha) g.lam = 0 := fun z => by
    simp [RgpcmModel.integralAbcd]
  have e2 : ∀ z, RgpcmModel.integralAbcd z 0 (g.gamma - g.alpha) g.lam = 0 := fun z => by
    simp [RgpcmModel.integralAbcd]
  have e3 : Real.sign y * (1 - exp (2 * (g.gamma - g.alpha) * Real.sign y * min y x)) =
      1 - exp (2 * (g.gamma - g.alpha) * min y x) := by
    rcases hy.eq_or_lt with h | h
    · simp [← h, hx]
    · rw [Real.sign_of_pos h]; ring_nf
  unfold RgpcmModel.iuxEntry
  dsimp only
  rw [if_neg (by simp [h1', h2']), RgpcmModel.integralAbcdLu, neg_zero, sub_zero, sub_zero, e1, e1, e2, iuxClosed, RgpcmModel.integralAbcd,
    if_pos (mul_nonneg hy hx), abs_of_nonneg hx, abs_of_nonneg hy]
  congr 1
  have e4 : ∀ c : ℝ, Real.sign y * g.lam / c * (1 - exp (2 * c * Real.sign y * min y x)) =
      g.lam / c * (Real.sign y * (1 - exp (2 * c * Real.sign y * min y x))) := fun c => by ring
  rw [e4, e3]
  ring_nf

section
variable {α : Type} {l : Filter α} {g : α → RgpcmModel} {g' : RgpcmModel} (hg : RgpcmNear l g g') (hr : g'.Regular)
include hg hr

theorem Spec.RgpcmNear.iux {x y : α → ℝ} {x' y' : ℝ} (hx : Tendsto x l (𝓝 x')) (hy : Tendsto y l (𝓝 y')) :
    Tendsto (fun a => iuxClosed (g a) (x a) (y a)) l (𝓝 (iuxClosed g' x' y')) := by
  have h1 : g'.gamma - g'.alpha ≠ 0 := sub_ne_zero.2 hr.ne
  have h2 : (g'.gamma - g'.alpha) ^ 2 - g'.lam ^ 2 ≠ 0 := sub_ne_zero.2 hr.ne_sq
  have hc := hg.gamma.sub hg.alpha
  simp only [iuxClosed]
  exact (((hg.alphaT.pow 2).mul (hg.gammaT.pow 2)).mul (hg.gamma.neg.mul (hx.add hy)).rexp).mul
    ((((hg.lam.div hc h1).mul (((hc.const_mul 2).mul (hy.min hx)).rexp.const_sub 1)).add
      ((((hc.mul hy).sub (hg.lam.mul hy.abs)).rexp.const_sub 1).sub ((hc.mul hx).sub (hg.lam.mul hx.abs)).rexp |>.add
        ((hc.mul (hy.add hx)).sub (hg.lam.mul (hy.sub hx).abs)).rexp)).div ((hc.pow 2).sub (hg.lam.pow 2)) h2)

end

/-- `RgpcmModel.IsInst` for any sizes: what the functions of `rgpcm.py` return at the times `T`. -/
structure RgpcmModel.ReturnsOn (g : RgpcmModel) (perm : List ℕ) (T : Set ℝ) {nu nz : ℕ} (m : Inst (Fin nu) (Fin nz)) : Prop where
  Ku : rows m.Ku = g.tU.map fun x => g.tU.map fun y => g.kuEntry x y
  Kz : rows m.Kz = rows g.computeKz
  noise : m.noise = g.noise
  iHx : ∀ a b, m.iHx a b = g.ihx a b
  iUx : mapE (fun x => mapE (fun y => g.iuxEntry 0 0 x y) g.tU) g.tU = .ok (rows m.iUx)
  iHz : ∀ t ∈ T, g.computeIhz perm t = .ok (rows (m.iHz t))
  iUz : ∀ t ∈ T, g.computeIuz perm t = .ok (rows (m.iUz t))

theorem RgpcmModel.exists_returnsOn {g : RgpcmModel} (h : g.Regular) {perm : List ℕ} (hp : IsArgsort perm g.ms) {nu nz : ℕ}
    (hu : g.tU.length = nu) (hz : g.ms.length = nz) : ∃ m : Inst (Fin nu) (Fin nz), g.ReturnsOn perm g.times m ∧ m.Valid := by
  subst hu hz
  have hi := specInst_isInst h hp
  refine ⟨g.specInst, ⟨?_, ?_, hi.noise, hi.iHx, ?_, hi.iHz, hi.iUz⟩, specInst_valid h⟩
  · rw [hi.Ku, map_rows]
    rfl
  · rw [hi.Kz]
  · have e : ∀ x ∈ g.tU, ∀ y ∈ g.tU, g.iuxEntry 0 0 x y = .ok (iuxClosed g x y) := fun x hx y hy =>
      iuxEntry_closed h.ne h.ne_sq (h.tU_pos x hx) (h.tU_pos y hy)
    rw [mapE_eq_map fun x hx => mapE_eq_map fun y hy => e x hx y hy, map_rows]
    congr 2
    ext i j
    exact Except.ok.inj ((e _ (List.get_mem _ _) _ (List.get_mem _ _)).symm.trans (hi.iUx i j))

end Gpcm
