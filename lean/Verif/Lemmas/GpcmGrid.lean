import Verif.Lemmas.GpcmInt

/-! # Helper lemmas: the constructor of the GPCM -/

open Real

namespace Gpcm

theorem linspace_ok {a b : ℝ} {n : ℤ} {l : List ℝ} (h : linspace a b n = .ok l) :
    0 ≤ n ∧ (l.length : ℤ) = n ∧
      ∀ i : ℕ, (i : ℤ) < n → l[i]? = some (a + (b - a) / ((n : ℝ) - 1) * (i : ℝ)) := by
  unfold linspace at h
  split_ifs at h with hn
  obtain rfl := Except.ok.inj h
  refine ⟨by omega, by simp; omega, fun i hi => ?_⟩
  rw [List.getElem?_map, List.getElem?_range (by omega)]
  rfl

theorem linspace_of_nonneg {a b : ℝ} {n : ℤ} (h : 0 ≤ n) : linspace a b n =
    .ok ((List.range n.toNat).map fun i : ℕ => a + (b - a) / ((n : ℝ) - 1) * (i : ℝ)) :=
  if_neg (by omega)

theorem scaleToFactor_pos {s : ℝ} (h : 0 < s) : 0 < scaleToFactor s := by
  unfold scaleToFactor
  positivity

theorem factorToScale_pos {f : ℝ} (h : 0 < f) : 0 < factorToScale f := by
  unfold factorToScale
  positivity

theorem factorToScale_sq {f : ℝ} (h : 0 < f) : factorToScale f ^ 2 = π / (4 * f) := by
  unfold factorToScale
  rw [div_pow, one_pow, sq_sqrt (by positivity), one_div_div]

/-- The outcome of the constructor in terms of its steps. -/
theorem GpcmModel.new_ok {a : GpcmArgs} {g : GpcmModel} (h : GpcmModel.new a = .ok g) :
    initAlpha a = .ok g.alpha ∧ initGamma a g.alpha = .ok g.gamma ∧
      initTU a g.alpha = .ok (g.nU, g.tU) ∧
      (∃ z, initTZ a = .ok z ∧ extendTZ a g.alpha z = .ok (g.nZ, g.tZ)) ∧
      initOmega a g.tZ = .ok g.omega ∧ g.alphaT = initAlphaT a g.alpha ∧
      g.omegaT = (2 * g.omega / π) ^ (0.25 : ℝ) ∧ g.causal = a.causal ∧ g.noise = a.noise ∧
      g.extent = 4 * factorToScale g.alpha := by
  unfold GpcmModel.new at h
  obtain ⟨al, h1, h⟩ := bind1_ok h
  obtain ⟨ga, h2, h⟩ := bind1_ok h
  obtain ⟨u, h3, h⟩ := bind1_ok h
  obtain ⟨z, h4, h⟩ := bind1_ok h
  obtain ⟨om, h5, h⟩ := bind1_ok h
  obtain ⟨z0, h6, h7⟩ := bind1_ok h4
  obtain rfl := Except.ok.inj h
  exact ⟨h1, h2, h3, ⟨z0, h6, h7⟩, h5, rfl, rfl, rfl, rfl, rfl⟩

/-- Building a model step by step. -/
theorem GpcmModel.new_of {a : GpcmArgs} {al ga om : ℝ} {u z z0 : ℤ × List ℝ}
    (h1 : initAlpha a = .ok al) (h2 : initGamma a al = .ok ga) (h3 : initTU a al = .ok u)
    (h4 : initTZ a = .ok z0) (h5 : Gpcm.extendTZ a al z0 = .ok z) (h6 : initOmega a z.2 = .ok om) :
    GpcmModel.new a = .ok ⟨a.causal, a.noise, al, initAlphaT a al, ga, 4 * factorToScale al, u.1, u.2,
      z.1, z.2, om, (2 * om / π) ^ (0.25 : ℝ)⟩ := by
  unfold GpcmModel.new
  rw [h1, bind1_val, h2, bind1_val, h3, bind1_val, h4, bind1_val, h5, bind1_val, h6, bind1_val]

end Gpcm
