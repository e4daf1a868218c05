import Verif.Lemmas.GpcmLemmas

/-! # Helper lemmas: the entries of the GPCM matrices are the defining integrals -/

open MeasureTheory Real

namespace Gpcm

variable {R : Runtime ℝ}

/-- The parameters of a model. -/
def GpcmModel.params (g : GpcmModel) : Spec.Params :=
  ⟨g.causal, g.alpha, g.alphaT, g.gamma, g.omega, g.omegaT⟩

theorem kh_good (g : GpcmModel) {t1 t2 : Expr ℝ} (s1 : t1.Simple) (s2 : t2.Simple)
    (d1 : t1.deg ≤ 1) (d2 : t2.deg ≤ 1) {V : List String}
    (hV : ∀ z, t1.Mentions z ∨ t2.Mentions z → z ∈ V) :
    ∃ e, g.kh R t1 t2 = .ok e ∧ Good R e (g.alphaT ^ 2)
      (fun v => -(g.alpha * (t1.denote v ^ 2 + t2.denote v ^ 2) +
        g.gamma * (t1.denote v - t2.denote v) ^ 2)) V := by
  refine good_of_expr R (g.alphaT ^ 2) (khExpr g.alpha g.gamma t1 t2) ?_ ?_ ?_ fun z hz => hV z ?_
  · simp only [khExpr, Expr.Simple, Expr.isMono, Expr.deg]
    refine ⟨⟨trivial, ⟨⟨s1, ?_⟩, s2, ?_⟩, .inr (.inl trivial)⟩, trivial, ⟨⟨s1, s2⟩, ?_⟩, .inr (.inl trivial)⟩
    · exact .inr (.inr (.inr ⟨d1, le_rfl⟩))
    · exact .inr (.inr (.inr ⟨d2, le_rfl⟩))
    · exact .inr (.inr (.inr ⟨max_le d1 d2, le_rfl⟩))
  · simp only [khExpr, Expr.deg]
    omega
  · exact .inl (.inl trivial)
  · simp only [khExpr, Expr.Mentions, false_or] at hz
    rcases hz with h | h <;> exact h

theorem kxs_good (g : GpcmModel) {t1 t2 : Expr ℝ} (s1 : t1.Simple) (s2 : t2.Simple)
    (d1 : t1.deg ≤ 1) (d2 : t2.deg ≤ 1) {V : List String}
    (hV : ∀ z, t1.Mentions z ∨ t2.Mentions z → z ∈ V) :
    ∃ e, g.kxs R t1 t2 = .ok e ∧ Good R e g.omegaT
      (fun v => -g.omega * (t1.denote v - t2.denote v) ^ 2) V := by
  refine good_of_expr R g.omegaT (kxsExpr g.omega t1 t2) ?_ ?_ ?_ fun z hz => hV z ?_
  · simp only [kxsExpr, Expr.Simple, Expr.isMono, Expr.deg]
    exact ⟨trivial, ⟨⟨s1, s2⟩, .inr (.inr (.inr ⟨max_le d1 d2, le_rfl⟩))⟩, .inr (.inl trivial)⟩
  · simp only [kxsExpr, Expr.deg]
    omega
  · exact .inl trivial
  · simpa only [kxsExpr, Expr.Mentions, false_or] using hz

theorem simple_var (x : String) : (Expr.var x : Expr ℝ).Simple := trivial
theorem simple_sub (x y : String) : (Expr.sub (.var x) (.var y) : Expr ℝ).Simple :=
  ⟨trivial, trivial⟩

theorem kH_eq (p : Spec.Params) (x y : ℝ) : Spec.kH p x y =
    p.alphaT ^ 2 * exp (-(p.alpha * (x ^ 2 + y ^ 2) + p.gamma * (x - y) ^ 2)) := by
  unfold Spec.kH
  rw [mul_assoc, mul_assoc, ← exp_add, ← exp_add]
  congr 2
  ring

theorem kXS_eq (p : Spec.Params) (x y : ℝ) : Spec.kXS p x y =
    p.omegaT * exp (-p.omega * (x - y) ^ 2) := by
  unfold Spec.kXS
  rw [neg_mul]

theorem kuEntry_eq (g : GpcmModel) (a b : ℝ) : g.kuEntry R a b = .ok (Spec.kH g.params a b) := by
  obtain ⟨e, he, hg⟩ := kh_good (R := R) g (simple_var "t1") (simple_var "t2") le_rfl le_rfl
    (V := ["t1", "t2"]) (by simp [Expr.Mentions])
  unfold GpcmModel.kuEntry
  rw [he, bind1_val, hg.eval_kw (by simp [kwargs, List.lookup]), kH_eq]
  rfl

theorem kzEntry_eq (g : GpcmModel) (hk : g.omegaT ≠ 0) (ha : MildNeg (-(2 * g.omega))) (a b : ℝ) :
    g.kzEntry R a b = .ok (Spec.kz g.params a b) := by
  obtain ⟨e1, he1, hg1⟩ := kxs_good (R := R) g (simple_var "t1") (simple_var "tau") le_rfl le_rfl
    (V := ["t1", "tau"]) (by simp [Expr.Mentions])
  obtain ⟨e2, he2, hg2⟩ := kxs_good (R := R) g (simple_var "tau") (simple_var "t2") le_rfl le_rfl
    (V := ["tau", "t2"]) (by simp [Expr.Mentions])
  obtain ⟨e, he, hg⟩ := hg1.mul hg2
  unfold GpcmModel.kzEntry
  rw [he1, bind1_val, he2, bind1_val, he, bind1_val]
  rw [(hg.box1Inf (mul_ne_zero hk hk) (x := "tau") (l := [("t1", a), ("t2", b)])
    (by simp [kwargs, List.lookup]) ha
    (b := fun w => 2 * g.omega * (w "t1" + w "t2"))
    (c := fun w => -g.omega * (w "t1" ^ 2 + w "t2" ^ 2)) (fun w s => by
      simp [Expr.denote]
      ring)).1]
  unfold Spec.kz
  congr 2
  funext τ
  rw [kXS_eq, kXS_eq, mul_mul_mul_comm, ← exp_add]
  simp [Expr.denote, kwVal, List.lookup, GpcmModel.params]

theorem ihx_eq (g : GpcmModel) (hk : g.alphaT ≠ 0) (ha : MildNeg (-(2 * g.alpha))) (t1 t2 : ℝ) :
    g.ihx R t1 t2 = .ok (Spec.ihx g.params t1 t2) := by
  obtain ⟨e, he, hg⟩ := kh_good (R := R) g (simple_sub "t1" "tau") (simple_sub "t2" "tau") le_rfl
    le_rfl (V := ["t1", "tau", "t2"]) (by
      simp [Expr.Mentions]; rintro z ((rfl | rfl) | (rfl | rfl)) <;> simp)
  have hk2 : g.alphaT ^ 2 ≠ 0 := pow_ne_zero 2 hk
  have hf : ∀ (w : String → ℝ) (s : ℝ),
      -(g.alpha * ((Expr.sub (.var "t1") (.var "tau") : Expr ℝ).denote (Function.update w "tau" s) ^ 2 +
        (Expr.sub (.var "t2") (.var "tau") : Expr ℝ).denote (Function.update w "tau" s) ^ 2) +
        g.gamma * ((Expr.sub (.var "t1") (.var "tau") : Expr ℝ).denote (Function.update w "tau" s) -
          (Expr.sub (.var "t2") (.var "tau") : Expr ℝ).denote (Function.update w "tau" s)) ^ 2) =
      -(2 * g.alpha) * s ^ 2 + 2 * g.alpha * (w "t1" + w "t2") * s +
        -(g.alpha * (w "t1" ^ 2 + w "t2" ^ 2) + g.gamma * (w "t1" - w "t2") ^ 2) := fun w s => by
    simp [Expr.denote]
    ring
  unfold GpcmModel.ihx GpcmModel.upper
  rw [he, bind1_val]
  by_cases hc : g.causal = true
  · obtain ⟨p, hp, -⟩ := Poly.var_spec1 (R := R) "min_t1_t2"
    rw [if_pos hc, hp, bind1_val, bind1_val]
    rw [hg.box1Var hk2 (y := "min_t1_t2") (by decide) (by simp [kwargs, List.lookup])
      (by simp [kwargs, List.lookup]) hp ha (fun s => hf _ s)]
    unfold Spec.ihx
    rw [integral_gate2 (p := g.params) hc]
    simp [Expr.denote, kwVal, List.lookup, GpcmModel.params, kH_eq]
  · rw [if_neg hc, bind1_val]
    rw [(hg.box1Inf hk2 (by simp [kwargs, List.lookup]) ha hf).2]
    unfold Spec.ihx
    simp only [gate_acausal (p := g.params) (by simpa [GpcmModel.params] using hc)]
    simp [Expr.denote, kwVal, List.lookup, GpcmModel.params, kH_eq]

theorem iuxEntry_eq (g : GpcmModel) (hk : g.alphaT ≠ 0) (ha : MildNeg (-(2 * (g.alpha + g.gamma))))
    (t1 t2 u1 u2 : ℝ) : g.iuxEntry R t1 t2 u1 u2 = .ok (Spec.iux g.params t1 t2 u1 u2) := by
  obtain ⟨e1, he1, hg1⟩ := kh_good (R := R) g (simple_sub "t1" "tau") (simple_var "t_u_1") le_rfl
    le_rfl (V := ["t1", "tau", "t_u_1"]) (by
      simp [Expr.Mentions]; rintro z ((rfl | rfl) | rfl) <;> simp)
  obtain ⟨e2, he2, hg2⟩ := kh_good (R := R) g (simple_var "t_u_2") (simple_sub "t2" "tau") le_rfl
    le_rfl (V := ["t_u_2", "t2", "tau"]) (by
      simp [Expr.Mentions])
  obtain ⟨e, he, hg⟩ := hg1.mul hg2
  have hk2 : g.alphaT ^ 2 * g.alphaT ^ 2 ≠ 0 := mul_ne_zero (pow_ne_zero 2 hk) (pow_ne_zero 2 hk)
  have hF : ∀ τ, Spec.kH g.params (t1 - τ) u1 * Spec.kH g.params u2 (t2 - τ) =
      g.alphaT ^ 2 * g.alphaT ^ 2 * exp (-(g.alpha * ((t1 - τ) ^ 2 + u1 ^ 2) +
        g.gamma * (t1 - τ - u1) ^ 2) + -(g.alpha * (u2 ^ 2 + (t2 - τ) ^ 2) +
        g.gamma * (u2 - (t2 - τ)) ^ 2)) := fun τ => by
    rw [kH_eq, kH_eq, mul_mul_mul_comm, ← exp_add]
    rfl
  unfold GpcmModel.iuxEntry GpcmModel.upper
  rw [he1, bind1_val, he2, bind1_val, he, bind1_val]
  by_cases hc : g.causal = true
  · obtain ⟨p, hp, -⟩ := Poly.var_spec1 (R := R) "min_t1_t2"
    rw [if_pos hc, hp, bind1_val, bind1_val]
    rw [hg.box1Var hk2 (y := "min_t1_t2") (by decide) (by simp [kwargs, List.lookup])
      (by simp [kwargs, List.lookup]) hp ha (b := 2 * g.alpha * (t1 + t2) + 2 * g.gamma *
        (t1 - u1 + (t2 - u2)))
      (c := -(g.alpha * (t1 ^ 2 + t2 ^ 2 + u1 ^ 2 + u2 ^ 2)) - g.gamma * ((t1 - u1) ^ 2 +
        (t2 - u2) ^ 2)) (fun s => by
        simp [Expr.denote, kwVal, List.lookup]
        ring)]
    unfold Spec.iux
    rw [integral_gate2 (p := g.params) hc]
    simp [Expr.denote, kwVal, List.lookup, hF]
  · rw [if_neg hc, bind1_val]
    rw [(hg.box1Inf hk2 (by simp [kwargs, List.lookup]) ha
      (b := fun w => 2 * g.alpha * (w "t1" + w "t2") + 2 * g.gamma *
        (w "t1" - w "t_u_1" + (w "t2" - w "t_u_2")))
      (c := fun w => -(g.alpha * (w "t1" ^ 2 + w "t2" ^ 2 + w "t_u_1" ^ 2 + w "t_u_2" ^ 2)) -
        g.gamma * ((w "t1" - w "t_u_1") ^ 2 + (w "t2" - w "t_u_2") ^ 2)) (fun w s => by
        simp [Expr.denote]
        ring)).2]
    unfold Spec.iux
    simp only [gate_acausal (p := g.params) (by simpa [GpcmModel.params] using hc)]
    simp [Expr.denote, kwVal, List.lookup, hF]

theorem iuzEntry_eq (g : GpcmModel) (hk : g.alphaT ≠ 0) (hk' : g.omegaT ≠ 0)
    (ha : MildNeg (-(g.alpha + g.gamma + g.omega)))
    (t u z : ℝ) : g.iuzEntry R t u z = .ok (Spec.iuz g.params t u z) := by
  obtain ⟨e1, he1, hg1⟩ := kh_good (R := R) g (simple_sub "t" "tau") (simple_var "t_u") le_rfl
    le_rfl (V := ["t", "tau", "t_u"]) (by
      simp [Expr.Mentions]; rintro z ((rfl | rfl) | rfl) <;> simp)
  obtain ⟨e2, he2, hg2⟩ := kxs_good (R := R) g (simple_var "tau") (simple_var "t_z") le_rfl
    le_rfl (V := ["tau", "t_z"]) (by simp [Expr.Mentions])
  obtain ⟨e, he, hg⟩ := hg1.mul hg2
  have hk2 : g.alphaT ^ 2 * g.omegaT ≠ 0 := mul_ne_zero (pow_ne_zero 2 hk) hk'
  have hF : ∀ τ, Spec.kH g.params (t - τ) u * Spec.kXS g.params τ z =
      g.alphaT ^ 2 * g.omegaT * exp (-(g.alpha * ((t - τ) ^ 2 + u ^ 2) +
        g.gamma * (t - τ - u) ^ 2) + -g.omega * (τ - z) ^ 2) := fun τ => by
    rw [kH_eq, kXS_eq, mul_mul_mul_comm, ← exp_add]
    rfl
  unfold GpcmModel.iuzEntry GpcmModel.upper
  rw [he1, bind1_val, he2, bind1_val, he, bind1_val]
  by_cases hc : g.causal = true
  · obtain ⟨p, hp, -⟩ := Poly.var_spec1 (R := R) "t"
    rw [if_pos hc, hp, bind1_val, bind1_val]
    rw [hg.box1Var hk2 (y := "t") (by decide) (by simp [kwargs, List.lookup])
      (by simp [kwargs, List.lookup]) hp ha
      (b := 2 * g.alpha * t + 2 * g.gamma * (t - u) + 2 * g.omega * z)
      (c := -(g.alpha * (t ^ 2 + u ^ 2)) - g.gamma * (t - u) ^ 2 - g.omega * z ^ 2) (fun s => by
        simp [Expr.denote, kwVal, List.lookup]
        ring)]
    unfold Spec.iuz
    rw [integral_gate (p := g.params) hc]
    simp [Expr.denote, kwVal, List.lookup, hF]
  · rw [if_neg hc, bind1_val]
    rw [(hg.box1Inf hk2 (by simp [kwargs, List.lookup]) ha
      (b := fun w => 2 * g.alpha * w "t" + 2 * g.gamma * (w "t" - w "t_u") + 2 * g.omega * w "t_z")
      (c := fun w => -(g.alpha * (w "t" ^ 2 + w "t_u" ^ 2)) - g.gamma * (w "t" - w "t_u") ^ 2 -
        g.omega * w "t_z" ^ 2) (fun w s => by
        simp [Expr.denote]
        ring)).2]
    unfold Spec.iuz
    simp only [gate_acausal (p := g.params) (by simpa [GpcmModel.params] using hc)]
    simp [Expr.denote, kwVal, List.lookup, hF]

theorem ihzEntry_eq (g : GpcmModel) (hk : g.alphaT ≠ 0) (hk' : g.omegaT ≠ 0)
    {P Q : ℝ} (hP : P = g.alpha + g.omega) (hQ : Q = g.alpha + g.omega + 2 * g.gamma)
    (P1 : 1e-10 ≤ P) (P2 : P ≤ 1e11) (Q1 : 1e-10 ≤ Q) (Q2 : Q ≤ 1e11)
    (t z1 z2 : ℝ) : g.ihzEntry R t z1 z2 = .ok (Spec.ihz g.params t z1 z2) := by
  obtain ⟨e1, he1, hg1⟩ := kh_good (R := R) g (simple_sub "t" "tau1") (simple_sub "t" "tau2") le_rfl
    le_rfl (V := ["t", "tau1", "tau2"]) (by
      simp [Expr.Mentions]; rintro z ((rfl | rfl) | rfl | rfl) <;> simp)
  obtain ⟨e2, he2, hg2⟩ := kxs_good (R := R) g (simple_var "tau1") (simple_var "t_z_1") le_rfl
    le_rfl (V := ["tau1", "t_z_1"]) (by simp [Expr.Mentions])
  obtain ⟨e12, he12, hg12⟩ := hg1.mul hg2
  obtain ⟨e3, he3, hg3⟩ := kxs_good (R := R) g (simple_var "t_z_2") (simple_var "tau2") le_rfl
    le_rfl (V := ["t_z_2", "tau2"]) (by simp [Expr.Mentions])
  obtain ⟨e, he, hg⟩ := hg12.mul hg3
  have hk2 : g.alphaT ^ 2 * g.omegaT * g.omegaT ≠ 0 :=
    mul_ne_zero (mul_ne_zero (pow_ne_zero 2 hk) hk') hk'
  have hF : ∀ τ₁ τ₂, Spec.kH g.params (t - τ₁) (t - τ₂) * Spec.kXS g.params τ₁ z1 *
      Spec.kXS g.params z2 τ₂ =
      g.alphaT ^ 2 * g.omegaT * g.omegaT * exp (-(g.alpha * ((t - τ₁) ^ 2 + (t - τ₂) ^ 2) +
        g.gamma * (t - τ₁ - (t - τ₂)) ^ 2) + -g.omega * (τ₁ - z1) ^ 2 +
        -g.omega * (z2 - τ₂) ^ 2) := fun τ₁ τ₂ => by
    rw [kH_eq, kXS_eq, kXS_eq, exp_add, exp_add]
    simp only [GpcmModel.params]
    ring
  -- the quadratic form
  have hP0 : 0 < P := lt_of_lt_of_le (by norm_num) P1
  have hQ0 : 0 < Q := lt_of_lt_of_le (by norm_num) Q1
  have hS : g.alpha + g.gamma + g.omega = (P + Q) / 2 := by rw [hP, hQ]; ring
  have hγ : g.gamma = (Q - P) / 2 := by rw [hP, hQ]; ring
  have hdet : (P + Q) * (P + Q) - (-(2 * g.gamma)) ^ 2 = 4 * (P * Q) := by rw [hγ]; ring
  have hform : ∀ τ₁ τ₂, -(g.alpha * ((t - τ₁) ^ 2 + (t - τ₂) ^ 2) +
        g.gamma * (t - τ₁ - (t - τ₂)) ^ 2) + -g.omega * (τ₁ - z1) ^ 2 +
        -g.omega * (z2 - τ₂) ^ 2 = biQuad (P + Q) (-(2 * g.gamma)) (P + Q)
          (2 * g.alpha * t + 2 * g.omega * z1) (2 * g.alpha * t + 2 * g.omega * z2)
          (-(2 * g.alpha * t ^ 2) - g.omega * (z1 ^ 2 + z2 ^ 2)) τ₁ τ₂ := fun τ₁ τ₂ => by
    unfold biQuad
    rw [show P + Q = 2 * (g.alpha + g.gamma + g.omega) by rw [hS]; ring]
    ring
  have hPQ0 : 0 < P * Q := mul_pos hP0 hQ0
  unfold GpcmModel.ihzEntry GpcmModel.upper
  rw [he1, bind1_val, he2, bind1_val, he12, bind1_val, he3, bind1_val, he, bind1_val]
  by_cases hc : g.causal = true
  · obtain ⟨p, hp, -⟩ := Poly.var_spec1 (R := R) "t"
    simp only [if_pos hc]
    rw [hp]
    simp only [bind1_val]
    have hratio : 1e-12 ≤ (P + Q) / (4 * (P * Q)) := by
      rw [le_div_iff₀ (by positivity)]
      have : P * Q ≤ 1e11 * (P + Q) := by nlinarith
      nlinarith
    rw [hg.box2Var hk2 (x := "tau1") (x' := "tau2") (y := "t") (by decide) (by decide) (by decide)
      (by simp [kwargs, List.lookup]) (by simp [kwargs, List.lookup]) hp (a11 := P + Q)
      (a12 := -(2 * g.gamma)) (a22 := P + Q)
      (b1 := 2 * g.alpha * t + 2 * g.omega * z1) (b2 := 2 * g.alpha * t + 2 * g.omega * z2)
      (c := -(2 * g.alpha * t ^ 2) - g.omega * (z1 ^ 2 + z2 ^ 2))
      (fun τ₁ τ₂ => by
        rw [← hform]
        simp [Expr.denote, kwVal, List.lookup]) (by positivity) (by positivity)
      (by rw [hdet]; positivity) (by rw [hdet]; nlinarith)
      (by rw [hdet]; linarith) (by rw [hdet]; linarith)
      (by
        rw [hdet]
        calc (1e-30 : ℝ) ≤ 1e-12 * 1e-12 := by norm_num
          _ ≤ _ := mul_le_mul hratio hratio (by norm_num) (le_trans (by norm_num) hratio))]
    unfold Spec.ihz
    have hin : ∀ τ₁, ∫ τ₂, Spec.gate g.params (t - τ₁) * Spec.gate g.params (t - τ₂) *
        (Spec.kH g.params (t - τ₁) (t - τ₂) * Spec.kXS g.params τ₁ z1 * Spec.kXS g.params z2 τ₂) =
        Spec.gate g.params (t - τ₁) * ∫ τ₂ in Set.Iic t, Spec.kH g.params (t - τ₁) (t - τ₂) *
          Spec.kXS g.params τ₁ z1 * Spec.kXS g.params z2 τ₂ := fun τ₁ => by
      rw [← integral_gate (p := g.params) hc, ← integral_const_mul]
      simp only [mul_assoc]
    simp only [hin]
    rw [integral_gate (p := g.params) hc]
    simp only [hF]
    simp [Expr.denote, kwVal, List.lookup, integral_const_mul]
  · simp only [if_neg hc, bind1_val]
    have hmild : ∀ {x : ℝ}, 1e-10 ≤ x → x ≤ 1e11 → MildNeg (-x) := fun {x} h1 h2 =>
      ⟨by linarith, by rw [neg_neg]; linarith, by rw [neg_neg]; linarith⟩
    rw [hg.box2Inf hk2 (x := "tau1") (x' := "tau2") (by decide) (by simp [kwargs, List.lookup])
      (a := -((P + Q) / 2)) (a' := -(2 * (P * Q) / (P + Q)))
      (hmild (by linarith) (by linarith))
      (hmild (by rw [le_div_iff₀ (by positivity)]; nlinarith)
        (by rw [div_le_iff₀ (by positivity)]; nlinarith))
      (b := fun w => 2 * g.alpha * w "t" + 2 * g.gamma * w "tau2" + 2 * g.omega * w "t_z_1")
      (c := fun w => -(g.alpha * w "t" ^ 2) - g.alpha * (w "t" - w "tau2") ^ 2 -
        g.gamma * w "tau2" ^ 2 - g.omega * w "t_z_1" ^ 2 - g.omega * (w "t_z_2" - w "tau2") ^ 2)
      (b' := fun w => 2 * g.gamma * (2 * g.alpha * w "t" + 2 * g.omega * w "t_z_1") / (P + Q) * 1 +
        2 * g.alpha * w "t" + 2 * g.omega * w "t_z_2")
      (c' := fun w => (2 * g.alpha * w "t" + 2 * g.omega * w "t_z_1") ^ 2 / (2 * (P + Q)) -
        2 * g.alpha * w "t" ^ 2 - g.omega * w "t_z_1" ^ 2 - g.omega * w "t_z_2" ^ 2)
      (fun w s => by
        rw [← hS]
        simp [Expr.denote]
        ring)
      (fun w s => by
        have hω : g.omega = P - g.alpha := by rw [hP]; ring
        simp only [Function.update_self, Function.update_of_ne (by decide : ("t" : String) ≠ "tau2"),
          Function.update_of_ne (by decide : ("t_z_1" : String) ≠ "tau2"),
          Function.update_of_ne (by decide : ("t_z_2" : String) ≠ "tau2"), hγ, hω]
        have hPQ : P + Q ≠ 0 := by positivity
        field_simp
        ring)]
    unfold Spec.ihz
    simp only [gate_acausal (p := g.params) (by simpa [GpcmModel.params] using hc)]
    simp only [one_mul, hF]
    conv_rhs => rw [integral_integral_swap (by
      have := (integrable_biQuad (a11 := P + Q) (a12 := -(2 * g.gamma)) (a22 := P + Q) (by positivity)
        (by rw [hdet]; positivity) (2 * g.alpha * t + 2 * g.omega * z1)
        (2 * g.alpha * t + 2 * g.omega * z2)
        (-(2 * g.alpha * t ^ 2) - g.omega * (z1 ^ 2 + z2 ^ 2))).const_mul
        (g.alphaT ^ 2 * g.omegaT * g.omegaT)
      simp only [← hform] at this
      exact this)]
    simp [Expr.denote, kwVal, List.lookup]

end Gpcm
