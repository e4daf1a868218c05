import Verif.Model.ExpPolyInt
import Verif.Lemmas.ExprTotal
import Verif.Lemmas.PolyCanon
import Verif.Lemmas.Gauss

/-! # Helper lemmas: integrals of `ExpPoly` -/

open MeasureTheory Real

namespace Gpcm

/-- `v` extends the partial assignment `m`. -/
def Extends {K : Type} (v : String → K) (m : String → Option K) : Prop :=
  ∀ z b, m z = some b → v z = b

theorem Poly.eval_extends {K : Type} [CommRing K] {p : Poly K} {m : String → Option K}
    {v : String → K} {a : K} (hv : Extends v m) (h : p.eval m = .ok a) : a = p.val v := by
  have hdef : ∀ t ∈ p.terms, ∀ f ∈ t.factors, m f.name = some (v f.name) := by
    intro t ht f hf
    cases hm : m f.name with
    | none =>
      have := Poly.eval_missing (p := p) (m := m) (x := f.name)
        (Poly.isFunctionOf_iff.2 ⟨t, ht, f, hf, rfl⟩) hm
      rw [this] at h
      cases h
    | some b => rw [hv _ _ hm]
  rw [Poly.eval_eq hdef] at h
  cases h
  rfl

theorem Poly.eval_ok_of {K : Type} [CommRing K] {p : Poly K} {m : String → Option K}
    (h : ∀ x, p.isFunctionOf x = true → m x ≠ none) : ∃ a, p.eval m = .ok a := by
  refine ⟨_, Poly.eval_eq (v := fun x => (m x).getD 0) fun t ht f hf => ?_⟩
  have := h f.name (Poly.isFunctionOf_iff.2 ⟨t, ht, f, hf, rfl⟩)
  cases hm : m f.name with
  | none => exact absurd hm this
  | some b => simp

variable {R : Runtime ℝ}

theorem Poly.val_update_of {K : Type} [CommRing K] {p : Poly K} {x : String} (v : String → K)
    (s : K) (h : p.isFunctionOf x = false) : p.val (Function.update v x s) = p.val v :=
  Poly.val_congr fun y hy => by
    have : y ≠ x := by rintro rfl; rw [h] at hy; cases hy
    simp [this]

/-- Value of a polynomial quadratic in `x`, through its collected coefficients. -/
theorem Poly.quad_update {K : Type} [CommRing K] {R : Runtime K} {p a b c : Poly K} {x : String}
    (hp : p.WF R) (hh : p.highestPower x = .ok 2)
    (ha : p.collectFor R ⟨x, 2⟩ = .ok a) (hb : p.collectFor R ⟨x, 1⟩ = .ok b)
    (hc : p.reject R x = .ok c) (v : String → K) (s : K) :
    p.val (Function.update v x s) = a.val v * s ^ 2 + b.val v * s + c.val v := by
  have h1 := Poly.collectFor_spec R hp ha
  have h2 := Poly.collectFor_spec R hp hb
  have h3 := Poly.reject_spec R hp hc
  have e1 := h1.2 (Function.update v x s)
  have e2 := h2.2 (Function.update v x s)
  have e3 := h3.2 (Function.update v x s)
  rw [Poly.quadratic_split R hp (Poly.highestPower_eq hh).1, ← e1, ← e2, ← e3,
    Poly.val_update_of v s (Poly.collectFor_isFunctionOf R hp ha),
    Poly.val_update_of v s (Poly.collectFor_isFunctionOf R hp hb),
    Poly.val_update_of v s (Poly.reject_isFunctionOf R hp hc)]
  simp [Factor.val]

/-- What one symbolic integration computes. -/
theorem ExpPoly.integrate1_spec {e e' : ExpPoly} {x : String} (hp : e.poly.WF R)
    (h : e.integrate1 R x = .ok e') :
    e'.poly.WF R ∧ ∃ (a : ℝ) (b c : (String → ℝ) → ℝ),
      (∀ v s, e.poly.val (Function.update v x s) = a * s ^ 2 + b v * s + c v) ∧
      e'.const = e.const * safeSqrt (-π / a) ∧
      ∀ v, e'.poly.val v = -0.25 / a * b v ^ 2 + c v := by
  unfold ExpPoly.integrate1 at h
  obtain ⟨n, hn, h⟩ := bind1_ok h
  split at h
  · cases h
  rename_i h2
  have h2 : n = 2 := not_not.1 h2
  subst h2
  obtain ⟨a, ha, h⟩ := bind1_ok h
  obtain ⟨b, hb, h⟩ := bind1_ok h
  obtain ⟨c, hc, h⟩ := bind1_ok h
  split at h
  · cases h
  rename_i hac
  have hac : a.isConstant = true := by simpa using hac
  obtain ⟨av, hav, h⟩ := bind1_ok h
  obtain ⟨t, ht, h⟩ := bind1_ok h
  obtain ⟨p, hpc, h⟩ := bind1_ok h
  obtain ⟨b2, hb2, h⟩ := bind1_ok h
  obtain ⟨pb, hpb, h⟩ := bind1_ok h
  obtain ⟨q, hq, h⟩ := bind1_ok h
  have hconst : Poly.const R (-0.25 / av) = .ok p := by
    unfold Poly.const; rw [ht]; exact hpc
  obtain ⟨p', hp', hpwf, hpval⟩ := Poly.const_spec R (-0.25 / av)
  rw [hconst] at hp'
  cases hp'
  have hbs := Poly.collectFor_spec R hp hb
  have hcs := Poly.reject_spec R hp hc
  have s1 := PyVal.powPoly_spec R hbs.1 hb2
  have s2 := PyVal.mul_spec R (x := .poly p) hpwf s1.1 hpb
  have s3 := PyVal.add_spec R (y := .poly c) s2.1 hcs.1 hq
  cases q with
  | int n => cases h
  | num d => cases h
  | poly q =>
    cases h
    refine ⟨s3.1, av, fun v => b.val v, fun v => c.val v, fun v s => ?_, rfl, fun v => ?_⟩
    · rw [Poly.quad_update hp hn ha hb hc, ← Poly.eval_extends (v := v) (fun _ _ h => by cases h) hav]
    · have h3 := s3.2 v
      have h2 := s2.2 v
      have h1 := s1.2 v
      rw [h2, h1] at h3
      have e1 : PyVal.val (.poly p) v = -0.25 / av := hpval v
      rw [e1] at h3
      exact h3

/-- The function an `ExpPoly` denotes. -/
noncomputable def ExpPoly.fn (e : ExpPoly) (w : String → ℝ) : ℝ := e.const * exp (e.poly.val w)

theorem ExpPoly.eval_total (e : ExpPoly) (v : String → ℝ) : e.eval (total v) = .ok (e.fn v) := by
  unfold ExpPoly.eval
  rw [Poly.eval_total]
  rfl

theorem ExpPoly.eval_extends {e : ExpPoly} {m : String → Option ℝ} {v : String → ℝ} {r : ℝ}
    (hv : Extends v m) (h : e.eval m = .ok r) : r = e.fn v := by
  obtain ⟨a, ha, h⟩ := bind1_ok h
  cases h
  rw [Poly.eval_extends hv ha, ExpPoly.fn]

theorem safeSqrt_eq {x : ℝ} (h : 1e-30 ≤ x) : safeSqrt x = √x := by
  unfold safeSqrt
  rw [max_eq_left h]

theorem safeSqrt_pos (x : ℝ) : 0 < safeSqrt x :=
  Real.sqrt_pos.2 (lt_max_of_lt_right (by norm_num))

theorem clamp_of_le {a : ℝ} (ha : a < 0) (h : -(π * 10 ^ 30) ≤ a) : 1e-30 ≤ -π / a := by
  rw [show -π / a = π / -a by rw [div_neg, neg_div], le_div_iff₀ (by linarith)]
  have : (1e-30 : ℝ) * (π * 10 ^ 30) = π := by norm_num; ring
  nlinarith

/-- One symbolic integration is an integral over the line. -/
theorem ExpPoly.integrate1_fn {e e' : ExpPoly} {x : String} (hp : e.poly.WF R)
    (h : e.integrate1 R x = .ok e')
    (hint : ∀ w, Integrable fun t => e.fn (Function.update w x t))
    (hmild : ∀ w, -(2 * π * 10 ^ 30) ≤ curvature e.fn x w) :
    e'.poly.WF R ∧ ∀ w, e'.fn w = ∫ t, e.fn (Function.update w x t) := by
  obtain ⟨hwf, a, b, c, hval, hconst, hpoly⟩ := ExpPoly.integrate1_spec hp h
  refine ⟨hwf, fun w => ?_⟩
  have hfn : ∀ t, e.fn (Function.update w x t) = e.const * exp (a * t ^ 2 + b w * t + c w) :=
    fun t => by rw [ExpPoly.fn, hval]
  simp only [hfn]
  rw [integral_const_mul, ExpPoly.fn, hconst, hpoly]
  by_cases hk : e.const = 0
  · simp [hk]
  have ha : a < 0 := by
    have := hint w
    simp only [hfn] at this
    exact integrable_scaled_exp_quad hk this
  have hclamp : -(π * 10 ^ 30) ≤ a := by
    have := hmild w
    unfold curvature at this
    simp only [hfn] at this
    rw [Real.log_mul hk (Real.exp_ne_zero _), Real.log_mul hk (Real.exp_ne_zero _),
      Real.log_mul hk (Real.exp_ne_zero _), Real.log_exp, Real.log_exp, Real.log_exp] at this
    linarith
  rw [safeSqrt_eq (clamp_of_le ha hclamp), integral_exp_quad ha, mul_assoc]
  congr 3
  ring

theorem ExpPoly.integrateLoop_fn {v : String → ℝ} : ∀ (xs : List String) (e e' : ExpPoly),
    e.poly.WF R → foldE (fun eq x => eq.integrate1 R x) e xs = .ok e' →
    Converges xs e.fn → Mild xs e.fn → e'.poly.WF R ∧ e'.fn v = iterInt xs e.fn v
  | [], e, e', hp, h, _, _ => by cases h; exact ⟨hp, rfl⟩
  | x :: xs, e, e', hp, h, hc, hm => by
    unfold foldE at h
    split at h
    · cases h
    rename_i e1 h1
    obtain ⟨hwf, hfn⟩ := ExpPoly.integrate1_fn hp h1 hc.1 hm.1
    have heq : e1.fn = fun w => ∫ t, e.fn (Function.update w x t) := funext hfn
    have := ExpPoly.integrateLoop_fn (v := v) xs e1 e' hwf h (heq ▸ hc.2) (heq ▸ hm.2)
    rw [heq] at this
    exact this

/-! ## Totality for polynomials of degree at most two -/

section
variable {K : Type} [CommRing K] {R : Runtime K}

omit [CommRing K] in
theorem power_le_card {t : Term K} {f : Factor} (hf : f ∈ t.factors) : f.power ≤ t.mono.card := by
  unfold Term.mono monoOf
  generalize t.factors = fs at hf
  induction fs with
  | nil => cases hf
  | cons g gs ih =>
    simp only [List.map_cons, List.sum_cons, Multiset.card_add, Multiset.card_replicate]
    rcases List.mem_cons.1 hf with rfl | h
    · omega
    · have := ih h
      omega

theorem Poly.degLE_zero_isConstant {p : Poly K} (hp : p.WF R) (h : p.degLE 0) :
    p.isConstant = true := by
  rw [Poly.isConstant_iff]
  intro x
  by_contra hx
  obtain ⟨t, ht, f, hf, _⟩ := Poly.isFunctionOf_iff.1 (by simpa using hx : p.isFunctionOf x = true)
  have h1 := power_le_card hf
  have h2 := (hp.terms t ht).pos f hf
  have h3 := h t ht
  omega

omit [CommRing K] in
theorem Poly.degLE_highestPower {p : Poly K} {d : ℕ} (h : p.degLE d) (x : String) :
    ∀ t ∈ p.terms, t.highestPower x ≤ d := by
  intro t ht
  by_cases h0 : t.highestPower x = 0
  · omega
  · obtain ⟨f, hf, _, hpow⟩ := Term.highestPower_attained h0
    rw [← hpow]
    exact (power_le_card hf).trans (h t ht)

theorem Poly.quad_update' {p a b c : Poly K} {x : String}
    (hp : p.WF R) (hh : ∀ t ∈ p.terms, t.highestPower x ≤ 2)
    (ha : p.collectFor R ⟨x, 2⟩ = .ok a) (hb : p.collectFor R ⟨x, 1⟩ = .ok b)
    (hc : p.reject R x = .ok c) (v : String → K) (s : K) :
    p.val (Function.update v x s) = a.val v * s ^ 2 + b.val v * s + c.val v := by
  have h1 := Poly.collectFor_spec R hp ha
  have h2 := Poly.collectFor_spec R hp hb
  have h3 := Poly.reject_spec R hp hc
  have e1 := h1.2 (Function.update v x s)
  have e2 := h2.2 (Function.update v x s)
  have e3 := h3.2 (Function.update v x s)
  rw [Poly.quadratic_split R hp hh, ← e1, ← e2, ← e3,
    Poly.val_update_of v s (Poly.collectFor_isFunctionOf R hp ha),
    Poly.val_update_of v s (Poly.collectFor_isFunctionOf R hp hb),
    Poly.val_update_of v s (Poly.reject_isFunctionOf R hp hc)]
  simp [Factor.val]

omit [CommRing K] in
theorem Poly.highestPower_ok {p : Poly K} (h : p.terms ≠ []) (x : String) :
    ∃ n, p.highestPower x = .ok n := by
  unfold Poly.highestPower
  cases hp : p.terms with
  | nil => exact absurd hp h
  | cons t ts => exact ⟨_, rfl⟩

/-- If there is no `x ** 2`, the value is affine in `x`. -/
theorem Poly.collect_two_zero {p a : Poly K} {x : String} (hp : p.WF R)
    (hh : ∀ t ∈ p.terms, t.highestPower x ≤ 1) (ha : p.collectFor R ⟨x, 2⟩ = .ok a)
    (v : String → K) : a.val v = 0 := by
  have e1 := (Poly.collectFor_spec R hp ha).2 (Function.update v x 1)
  have : (p.terms.filter fun t => (⟨x, 2⟩ : Factor) ∈ t.factors) = [] := by
    rw [List.filter_eq_nil_iff]
    intro t ht hf
    have h1 := Term.le_highestPower (of_decide_eq_true hf)
    have h2 := hh t ht
    simp only at h1
    omega
  rw [this, Poly.val_update_of v 1 (Poly.collectFor_isFunctionOf R hp ha)] at e1
  simpa [Factor.val] using e1

end

/-- A convergent integral of an exponentiated polynomial of degree at most two is computed, and the
result is again of this form. -/
theorem ExpPoly.integrate1_total {e : ExpPoly} {x : String} (hp : e.poly.WF R)
    (hd : e.poly.degLE 2) (hk : e.const ≠ 0) {w : String → ℝ}
    (hint : Integrable fun t => e.fn (Function.update w x t)) :
    ∃ e', e.integrate1 R x = .ok e' ∧ e'.poly.degLE 2 ∧ e'.const ≠ 0 := by
  obtain ⟨a, ha⟩ := Poly.collectFor_total R hp ⟨x, 2⟩
  obtain ⟨b, hb⟩ := Poly.collectFor_total R hp ⟨x, 1⟩
  obtain ⟨c, hc⟩ := Poly.reject_total R hp x
  have hh := Poly.degLE_highestPower hd x
  have hq := fun v s => Poly.quad_update' hp hh ha hb hc v s
  have hneg : a.val w < 0 := by
    have hfn : (fun t => e.fn (Function.update w x t)) =
        fun t => e.const * exp (a.val w * t ^ 2 + b.val w * t + c.val w) :=
      funext fun t => by rw [ExpPoly.fn, hq]
    rw [hfn] at hint
    exact integrable_scaled_exp_quad hk hint
  have hne : ¬ ∀ t ∈ e.poly.terms, t.highestPower x ≤ 1 := fun h1 => by
    rw [Poly.collect_two_zero hp h1 ha] at hneg
    exact lt_irrefl _ hneg
  have hterms : e.poly.terms ≠ [] := fun h0 => hne (by simp [h0])
  obtain ⟨n, hn⟩ := Poly.highestPower_ok hterms x
  have hn2 : n = 2 := by
    obtain ⟨hle, t, ht, hte⟩ := Poly.highestPower_eq hn
    have := hh t ht
    by_contra hne2
    exact hne fun s hs => (hle s hs).trans (by omega)
  subst hn2
  have hawf := (Poly.collectFor_spec R hp ha).1
  have hbwf := (Poly.collectFor_spec R hp hb).1
  have hcwf := (Poly.reject_spec R hp hc).1
  have had : a.degLE 0 := by simpa using Poly.collectFor_degLE R hp hd ha
  have hbd : b.degLE 1 := by simpa using Poly.collectFor_degLE R hp hd hb
  have hcd : c.degLE 2 := Poly.reject_degLE R hp hd hc
  have hac := Poly.degLE_zero_isConstant hawf had
  obtain ⟨av, hav⟩ := Poly.eval_ok_of (p := a) (m := fun _ => none) fun x hx => by
    rw [Poly.isConstant_iff.1 hac x] at hx; cases hx
  obtain ⟨p, hpc, hpwf, hpval⟩ := Poly.const_spec R (-0.25 / av)
  have hps := Poly.const_single R hpc
  have hpd := Poly.const_degLE R hpc
  obtain ⟨b2, hb2, hb2d, _⟩ := PyVal.powPoly_total R (n := 2) hbwf hbd (.inr (.inr (.inr ⟨le_rfl, le_rfl⟩)))
  have hb2wf := (PyVal.powPoly_spec R hbwf hb2).1
  obtain ⟨pb, hpb, hpbd, _⟩ := PyVal.mul_total R (x := .poly p) (y := b2) hpwf hb2wf hpd hb2d
    (.inr (.inl hps))
  have hpbwf := (PyVal.mul_spec R (x := .poly p) hpwf hb2wf hpb).1
  obtain ⟨q, hqq, hqd⟩ := PyVal.add_total R (x := pb) (y := .poly c) hpbwf hcwf hpbd hcd
  have hqpoly : ∃ q', q = .poly q' := by
    cases pb with
    | poly _ => obtain ⟨q', _, rfl⟩ := PyVal.lift_ok hqq; exact ⟨q', rfl⟩
    | int _ => obtain ⟨q', _, rfl⟩ := PyVal.lift_ok hqq; exact ⟨q', rfl⟩
    | num _ => obtain ⟨q', _, rfl⟩ := PyVal.lift_ok hqq; exact ⟨q', rfl⟩
  obtain ⟨q', rfl⟩ := hqpoly
  obtain ⟨t, ht, hpt⟩ : ∃ t, Term.new R (-0.25 / av) [] = .ok t ∧ Poly.new R [t] = .ok p := by
    unfold Poly.const at hpc
    split at hpc
    · cases hpc
    · exact ⟨_, by assumption, hpc⟩
  refine ⟨⟨e.const * safeSqrt (-π / av), q'⟩, ?_, hqd, ?_⟩
  · unfold ExpPoly.integrate1
    rw [hn]
    simp only [bind1, ne_eq, not_true_eq_false, if_false, ha, hb, hc, hac, hav, ht, hpt]
    have hb2' : PyVal.powPoly R b 2 = .ok b2 := hb2
    simp only [hb2', hpb, hqq, ExpPoly.new]
    simp
  · exact mul_ne_zero hk (safeSqrt_pos _).ne'

theorem ExpPoly.integrateLoop_total : ∀ (xs : List String) (e : ExpPoly),
    e.poly.WF R → e.poly.degLE 2 → e.const ≠ 0 → Converges xs e.fn → Mild xs e.fn →
    ∃ e', foldE (fun eq x => eq.integrate1 R x) e xs = .ok e'
  | [], e, _, _, _, _, _ => ⟨e, rfl⟩
  | x :: xs, e, hp, hd, hk, hc, hm => by
    obtain ⟨e1, h1, hd1, hk1⟩ := ExpPoly.integrate1_total hp hd hk (hc.1 fun _ => 0)
    obtain ⟨hwf, hfn⟩ := ExpPoly.integrate1_fn hp h1 hc.1 hm.1
    have heq : e1.fn = fun w => ∫ t, e.fn (Function.update w x t) := funext hfn
    obtain ⟨e', he'⟩ := ExpPoly.integrateLoop_total xs e1 hwf hd1 hk1 (heq ▸ hc.2) (heq ▸ hm.2)
    refine ⟨e', ?_⟩
    unfold foldE
    simp only [h1]
    exact he'

/-! ## Uniqueness of the coefficients of an exponentiated quadratic -/

theorem exp_quad_unique {k k' a b c a' b' c' : ℝ} (hk : k ≠ 0)
    (h : ∀ s, k * exp (a * s ^ 2 + b * s + c) = k' * exp (a' * s ^ 2 + b' * s + c')) :
    a = a' ∧ b = b' ∧ k * exp c = k' * exp c' := by
  have h0 := h 0
  simp only [ne_eq, OfNat.ofNat_ne_zero, not_false_eq_true, zero_pow, mul_zero, zero_add] at h0
  have hk' : k' ≠ 0 := by
    rintro rfl
    rw [zero_mul] at h0
    exact (mul_ne_zero hk (exp_ne_zero c)) h0
  have hlog : ∀ s, log k + (a * s ^ 2 + b * s + c) = log k' + (a' * s ^ 2 + b' * s + c') := by
    intro s
    have := congrArg log (h s)
    rwa [log_mul hk (exp_ne_zero _), log_mul hk' (exp_ne_zero _), log_exp, log_exp] at this
  have e0 := hlog 0
  have e1 := hlog 1
  have e2 := hlog (-1)
  norm_num at e0 e1 e2
  exact ⟨by linarith, by linarith, h0⟩

/-- Two quadratics in two variables (each of degree at most two in each variable) that agree have
the same coefficients; here through the logarithm of the exponentiated form. -/
theorem log_form {k k' q q' : ℝ} (hk : k ≠ 0) (hk' : k' ≠ 0) (h : k * exp q = k' * exp q') :
    log k + q = log k' + q' := by
  have := congrArg log h
  rwa [log_mul hk (exp_ne_zero _), log_mul hk' (exp_ne_zero _), log_exp, log_exp] at this

/-! ## Half lines -/

/-- The exponentiated part does not depend on how the constant is split. -/
theorem ExpPoly.integrateHalf1_spec {e : ExpPoly} {x : String} (hp : e.poly.WF R)
    {m : String → Option ℝ} {v : String → ℝ} (hv : Extends v m) {r : ℝ}
    (h : e.integrateHalf1 R x m = .ok r) :
    ∃ a b c : ℝ, (∀ s, e.fn (Function.update v x s) = e.const * exp (a * s ^ 2 + b * s + c)) ∧
      r = 0.5 * e.const * safeSqrt (-π / a) * exp (-0.25 * b ^ 2 / a + c) *
        (1 - erf (0.5 * b / safeSqrt (-a))) := by
  unfold ExpPoly.integrateHalf1 at h
  obtain ⟨n, hn, h⟩ := bind1_ok h
  split at h
  · cases h
  rename_i h2
  have h2 : n = 2 := not_not.1 h2
  subst h2
  obtain ⟨a, ha, h⟩ := bind1_ok h
  obtain ⟨b, hb, h⟩ := bind1_ok h
  obtain ⟨c, hc, h⟩ := bind1_ok h
  obtain ⟨av, hav, h⟩ := bind1_ok h
  obtain ⟨bv, hbv, h⟩ := bind1_ok h
  obtain ⟨cv, hcv, h⟩ := bind1_ok h
  cases h
  refine ⟨av, bv, cv, fun s => ?_, rfl⟩
  rw [ExpPoly.fn, Poly.quad_update hp hn ha hb hc, ← Poly.eval_extends hv hav,
    ← Poly.eval_extends hv hbv, ← Poly.eval_extends hv hcv]

theorem ExpPoly.integrateHalf1_fn {e : ExpPoly} {x : String} (hp : e.poly.WF R)
    {m : String → Option ℝ} {v : String → ℝ} (hv : Extends v m) {r : ℝ}
    (h : e.integrateHalf1 R x m = .ok r) {k a b c : ℝ}
    (hf : ∀ s, e.fn (Function.update v x s) = k * exp (a * s ^ 2 + b * s + c))
    (ha : a < 0) (h1 : 1e-30 ≤ -a) (h2 : 1e-30 ≤ -π / a) :
    r = ∫ s in Set.Iic 0, e.fn (Function.update v x s) := by
  obtain ⟨a', b', c', hf', rfl⟩ := ExpPoly.integrateHalf1_spec hp hv h
  by_cases hk : k = 0
  · have : e.const = 0 := by
      have := hf' 0
      rw [hf 0, hk, zero_mul] at this
      rcases mul_eq_zero.1 this.symm with h | h
      · exact h
      · exact absurd h (exp_ne_zero _)
    simp only [hf, hk, this]
    simp
  obtain ⟨rfl, rfl, hkc⟩ := exp_quad_unique hk fun s => (hf s).symm.trans (hf' s)
  simp only [hf']
  rw [integral_const_mul, integral_Iic_exp_quad ha, safeSqrt_eq h1, safeSqrt_eq h2,
    show -0.25 * b ^ 2 / a + c' = -b ^ 2 / (4 * a) + c' by ring]
  ring

/-! ## The negative quadrant -/

theorem quad_coeffs {A B C A' B' C' : ℝ}
    (h : ∀ s : ℝ, A * s ^ 2 + B * s + C = A' * s ^ 2 + B' * s + C') : A = A' ∧ B = B' ∧ C = C' := by
  have e0 := h 0
  have e1 := h 1
  have e2 := h (-1)
  norm_num at e0 e1 e2
  exact ⟨by linarith, by linarith, by linarith⟩

section
variable {K : Type} [CommRing K] {R : Runtime K}

theorem Poly.new_highestPower {ts : List (Term K)} {p : Poly K} (hts : ∀ t ∈ ts, t.WF R)
    {y : String} {n : ℕ} (hh : ∀ t ∈ ts, ∀ f ∈ t.factors, f.name = y → f.power ≤ n)
    (h : Poly.new R ts = .ok p) : ∀ t ∈ p.terms, t.highestPower y ≤ n := by
  intro t ht
  by_cases h0 : t.highestPower y = 0
  · omega
  · obtain ⟨f, hf, hfn, hpow⟩ := Term.highestPower_attained h0
    obtain ⟨s, hs, hst⟩ := Poly.new_factors R hts h ht (by rintro h; rw [h] at hf; cases hf)
    have : f ∈ s.key := by rw [hst]; exact List.mem_toFinset.2 hf
    rw [← hpow]
    exact hh s hs f (List.mem_toFinset.1 this) hfn

theorem Poly.reject_highestPower {p q : Poly K} (hp : p.WF R) {x y : String} {n : ℕ}
    (hh : ∀ t ∈ p.terms, t.highestPower y ≤ n)
    (h : p.reject R x = .ok q) : ∀ t ∈ q.terms, t.highestPower y ≤ n :=
  Poly.new_highestPower (fun t ht => hp.terms t (List.mem_filter.1 ht).1)
    (fun t ht f hf hfn => by
      subst hfn
      exact (Term.le_highestPower hf).trans (hh t (List.mem_filter.1 ht).1)) h

theorem Poly.collectFor_highestPower {p q : Poly K} (hp : p.WF R) {f : Factor} {y : String} {n : ℕ}
    (hh : ∀ t ∈ p.terms, t.highestPower y ≤ n)
    (h : p.collectFor R f = .ok q) : ∀ t ∈ q.terms, t.highestPower y ≤ n := by
  unfold Poly.collectFor at h
  rw [collect_terms] at h
  refine Poly.new_highestPower ?_ ?_ h
  · intro t ht
    obtain ⟨s, hs, rfl⟩ := List.mem_map.1 ht
    exact collectedTerm_wf R (hp.terms s (List.mem_filter.1 hs).1) f
  · intro t ht g hg hgn
    obtain ⟨s, hs, rfl⟩ := List.mem_map.1 ht
    obtain ⟨hs1, hs2⟩ := List.mem_filter.1 hs
    have hsf : f ∈ s.factors := by simpa using hs2
    have hw := hp.terms s hs1
    have hz : R.numZero s.const = false := by
      rw [Bool.eq_false_iff]; intro hz
      rw [hw.zero hz] at hsf; cases hsf
    have hgs : g ∈ s.factors := by
      have h1 := (termOf_mem_of_nodup R hz
        (((collected_perm R hw f).map Factor.name).nodup_iff.2
          (hw.names.sublist (List.filter_sublist.map _))) g).1 hg
      exact (List.mem_filter.1 (R.mem_iff.1 h1)).1
    subst hgn
    exact (Term.le_highestPower hgs).trans (hh s hs1)

end

theorem ExpPoly.integrateHalf2_spec {e : ExpPoly} {x y : String} (hxy : x ≠ y) (hp : e.poly.WF R)
    {m : String → Option ℝ} {v : String → ℝ} (hv : Extends v m) {r : ℝ}
    (h : e.integrateHalf2 R x y m = .ok r) {k a11 a12 a22 b1 b2 c : ℝ} (hk : k ≠ 0)
    (hf : ∀ s t, e.fn (Function.update (Function.update v x s) y t) =
      k * exp (biQuad a11 a12 a22 b1 b2 c s t)) :
    ∃ c', e.const * exp c' = k * exp c ∧ r = half2Formula e.const a11 a22 a12 b1 b2 c' := by
  unfold ExpPoly.integrateHalf2 at h
  obtain ⟨n, hn, h⟩ := bind1_ok h
  split at h
  · cases h
  rename_i h2
  have h2 : n = 2 := not_not.1 h2
  subst h2
  obtain ⟨n, hn', h⟩ := bind1_ok h
  split at h
  · cases h
  rename_i h2
  have h2 : n = 2 := not_not.1 h2
  subst h2
  obtain ⟨A11, hA11, h⟩ := bind1_ok h
  obtain ⟨A22, hA22, h⟩ := bind1_ok h
  obtain ⟨A12, hA12, h⟩ := bind1_ok h
  obtain ⟨B1, hB1, h⟩ := bind1_ok h
  obtain ⟨B2, hB2, h⟩ := bind1_ok h
  obtain ⟨C, hC, h⟩ := bind1_ok h
  obtain ⟨Qx, hQx, hA12⟩ := bind1_ok hA12
  obtain ⟨Qx', hQx', hB1⟩ := bind1_ok hB1
  rw [hQx] at hQx'
  cases hQx'
  obtain ⟨Qy, hQy, hB2⟩ := bind1_ok hB2
  obtain ⟨Cx, hCx, hC⟩ := bind1_ok hC
  obtain ⟨a11', ha11, h⟩ := bind1_ok h
  obtain ⟨a22', ha22, h⟩ := bind1_ok h
  obtain ⟨a12', ha12, h⟩ := bind1_ok h
  obtain ⟨b1', hb1, h⟩ := bind1_ok h
  obtain ⟨b2', hb2, h⟩ := bind1_ok h
  obtain ⟨c', hc', h⟩ := bind1_ok h
  cases h
  rw [Poly.eval_extends hv ha11, Poly.eval_extends hv ha22, Poly.eval_extends hv ha12,
    Poly.eval_extends hv hb1, Poly.eval_extends hv hb2, Poly.eval_extends hv hc']
  have hkc : e.const ≠ 0 := by
    intro h0
    have := hf 0 0
    rw [ExpPoly.fn, h0, zero_mul] at this
    rcases mul_eq_zero.1 this.symm with h | h
    · exact hk h
    · exact exp_ne_zero _ h
  -- the exponent, up to the split of the constant
  have hval : ∀ s t, e.poly.val (Function.update (Function.update v x s) y t) =
      biQuad a11 a12 a22 b1 b2 (c + log k - log e.const) s t := by
    intro s t
    have := log_form hkc hk (hf s t)
    unfold biQuad at this ⊢
    linarith
  have hyx : ∀ s t, Function.update (Function.update v x s) y t =
      Function.update (Function.update v y t) x s := fun s t => Function.update_comm hxy _ _ _
  have hpx := (Poly.highestPower_eq hn).1
  have hpy := (Poly.highestPower_eq hn').1
  have wQx := (Poly.collectFor_spec R hp hQx).1
  have wQy := (Poly.collectFor_spec R hp hQy).1
  have wCx := (Poly.reject_spec R hp hCx).1
  -- expand in `x`
  have ex : ∀ t, A11.val (Function.update v y t) = -a11 / 2 ∧
      Qx.val (Function.update v y t) = -a12 * t + b1 ∧
      Cx.val (Function.update v y t) = -a22 / 2 * t ^ 2 + b2 * t + (c + log k - log e.const) := by
    intro t
    refine quad_coeffs fun s => ?_
    rw [← Poly.quad_update hp hn hA11 hQx hCx, ← hyx, hval]
    unfold biQuad
    ring
  -- expand in `y`
  obtain ⟨Cy, hCy⟩ := Poly.reject_total R hp y
  have ey : ∀ s, A22.val (Function.update v x s) = -a22 / 2 ∧
      Qy.val (Function.update v x s) = -a12 * s + b2 ∧
      Cy.val (Function.update v x s) = -a11 / 2 * s ^ 2 + b1 * s + (c + log k - log e.const) := by
    intro s
    refine quad_coeffs fun t => ?_
    rw [← Poly.quad_update hp hn' hA22 hQy hCy, hval]
    unfold biQuad
    ring
  -- expand the linear and constant coefficients
  obtain ⟨Qx2, hQx2⟩ := Poly.collectFor_total R wQx ⟨y, 2⟩
  obtain ⟨Cx2, hCx2⟩ := Poly.collectFor_total R wCx ⟨y, 2⟩
  obtain ⟨Cx1, hCx1⟩ := Poly.collectFor_total R wCx ⟨y, 1⟩
  obtain ⟨Qy2, hQy2⟩ := Poly.collectFor_total R wQy ⟨x, 2⟩
  obtain ⟨Qy1, hQy1⟩ := Poly.collectFor_total R wQy ⟨x, 1⟩
  have q1 := quad_coeffs (A := Qx2.val v) (B := A12.val v) (C := B1.val v) (A' := 0) (B' := -a12)
    (C' := b1) fun t => by
      rw [← Poly.quad_update' wQx (Poly.collectFor_highestPower hp hpy hQx) hQx2 hA12 hB1,
        (ex t).2.1]
      ring
  have q2 := quad_coeffs (A := Qy2.val v) (B := Qy1.val v) (C := B2.val v) (A' := 0) (B' := -a12)
    (C' := b2) fun s => by
      rw [← Poly.quad_update' wQy (Poly.collectFor_highestPower hp hpx hQy) hQy2 hQy1 hB2,
        (ey s).2.1]
      ring
  have q3 := quad_coeffs (A := Cx2.val v) (B := Cx1.val v) (C := C.val v) (A' := -a22 / 2)
    (B' := b2) (C' := c + log k - log e.const) fun t => by
      rw [← Poly.quad_update' wCx (Poly.reject_highestPower hp hpy hCx) hCx2 hCx1 hC, (ex t).2.2]
  have r1 : A11.val v = -a11 / 2 := by
    have := (ex (v y)).1; rwa [Function.update_eq_self] at this
  have r2 : A22.val v = -a22 / 2 := by
    have := (ey (v x)).1; rwa [Function.update_eq_self] at this
  refine ⟨C.val v, ?_, ?_⟩
  · have := hf 0 0
    rw [ExpPoly.fn, hval] at this
    unfold biQuad at this
    rw [q3.2.2]
    simpa using this
  · rw [r1, r2, q1.2.1, q1.2.2, q2.2.2]
    congr 1 <;> ring

theorem ExpPoly.integrateHalf2_fn {e : ExpPoly} {x y : String} (hxy : x ≠ y) (hp : e.poly.WF R)
    {m : String → Option ℝ} {v : String → ℝ} (hv : Extends v m) {r : ℝ}
    (h : e.integrateHalf2 R x y m = .ok r) {k a11 a12 a22 b1 b2 c : ℝ} (hk : k ≠ 0)
    (hf : ∀ s t, e.fn (Function.update (Function.update v x s) y t) =
      k * exp (biQuad a11 a12 a22 b1 b2 c s t))
    (h11 : 0 < a11) (h22 : 0 < a22) (hdet : 0 < a11 * a22 - a12 ^ 2)
    (c0 : 1e-30 ≤ a11 * a22 - a12 ^ 2) (c1 : 1e-30 ≤ a22 / (a11 * a22 - a12 ^ 2))
    (c2 : 1e-30 ≤ a11 / (a11 * a22 - a12 ^ 2))
    (c3 : 1e-30 ≤ a22 / (a11 * a22 - a12 ^ 2) * (a11 / (a11 * a22 - a12 ^ 2))) :
    r = ∫ s in Set.Iic 0, ∫ t in Set.Iic 0,
      e.fn (Function.update (Function.update v x s) y t) := by
  obtain ⟨c', hc', rfl⟩ := ExpPoly.integrateHalf2_spec hxy hp hv h hk hf
  have hf' : ∀ s t, e.fn (Function.update (Function.update v x s) y t) =
      e.const * exp (biQuad a11 a12 a22 b1 b2 c' s t) := by
    intro s t
    rw [hf]
    have e1 : ∀ d, exp (biQuad a11 a12 a22 b1 b2 d s t) =
        exp (biQuad a11 a12 a22 b1 b2 0 s t) * exp d := by
      intro d; rw [← Real.exp_add]; congr 1; unfold biQuad; ring
    rw [e1 c, e1 c', mul_left_comm, ← hc']
    ring
  simp only [hf', integral_const_mul]
  rw [integral_quadrant h11 h22 hdet, half2Formula]
  rw [safeSqrt_eq c0, safeSqrt_eq c1, safeSqrt_eq c2, safeSqrt_eq c3]
  ring

end Gpcm
