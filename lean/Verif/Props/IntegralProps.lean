import Verif.Lemmas.IntTotal
import Verif.Lemmas.ExprPoly
import Verif.Props.PolyProps
import Mathlib.Analysis.Real.Pi.Bounds

/-!
# Properties C10–C15: integrals of exponentiated polynomials

`f` is the function an `ExpPoly` object denotes according to its own `eval`; `m` is the keyword
argument `var_map`, which usually only assigns the variables that are not integrated over, and `v`
is any total assignment that agrees with it.
-/

open MeasureTheory Real

namespace Gpcm

variable {R : Runtime ℝ}

/-- `v` agrees with the keyword arguments. -/
def Agrees (v : String → ℝ) (m : String → Option ℝ) : Prop := ∀ z b, m z = some b → v z = b

theorem fn_of_eval {e : ExpPoly} {f : (String → ℝ) → ℝ} (hf : ∀ w, e.eval (env w) = .ok (f w)) :
    e.fn = f := by
  funext w
  have h1 : e.eval (env w) = .ok (e.fn w) := e.eval_total w
  rw [hf w] at h1
  exact (Except.ok.inj h1).symm

theorem fn_of_eval_at {e : ExpPoly} {w : String → ℝ} {a : ℝ} (hf : e.eval (env w) = .ok a) :
    e.fn w = a := by
  have h1 : e.eval (env w) = .ok (e.fn w) := e.eval_total w
  rw [hf] at h1
  exact (Except.ok.inj h1).symm

/-! ## Concrete objects for the examples -/

/-- A process in which every exact zero is recognised. -/
noncomputable def procR : Runtime ℝ where
  toSetOrder := SetOrder.dedup
  numZero c := open Classical in decide (c = 0)
  numZero_sound c h := by simpa using h

/-- `-x**2 + x*y - y**2 + z*x`. -/
def exprXY : Expr ℝ :=
  .add (.sub (.add (.neg (.pow (.var "x") 2)) (.mul (.var "x") (.var "y"))) (.pow (.var "y") 2))
    (.mul (.var "z") (.var "x"))

/-- `-x**2`. -/
def exprX2 : Expr ℝ := .neg (.pow (.var "x") 2)

/-- An expression whose powers and products are of the kind occurring in
`gpcm.py` gives a polynomial. -/
theorem poly_of_expr (R : Runtime ℝ) (e : Expr ℝ) (hs : e.Simple) {d : ℕ}
    (hd : e.deg ≤ d) (hp : e.IsPoly) :
    ∃ p : Poly ℝ, p.Built R ∧ p.degLE d ∧ ∀ v, p.eval (env v) = .ok (e.denote v) := by
  obtain ⟨x, hx, hdx, _⟩ := e.run_total R hs
  obtain ⟨p, rfl⟩ := e.run_isPoly hp hx
  exact ⟨p, e.run_built hx, Poly.degLE_mono hdx hd, fun v =>
    c01_expression_evaluates_faithfully R e hx v⟩

theorem exprX2_poly (R : Runtime ℝ) : ∃ p : Poly ℝ, p.Built R ∧ p.degLE 2 ∧
    ∀ v, p.eval (env v) = .ok (-(v "x") ^ 2) :=
  poly_of_expr R exprX2 (by simp [exprX2, Expr.Simple, Expr.isMono]) (by simp [exprX2, Expr.deg])
    (by simp [exprX2, Expr.IsPoly])

theorem exprXY_poly (R : Runtime ℝ) : ∃ p : Poly ℝ, p.Built R ∧ p.degLE 2 ∧
    ∀ v, p.eval (env v) = .ok (-(v "x") ^ 2 + v "x" * v "y" - v "y" ^ 2 + v "z" * v "x") :=
  poly_of_expr R exprXY (by simp [exprXY, Expr.Simple, Expr.isMono, Expr.deg])
    (by simp [exprXY, Expr.deg]) (by simp [exprXY, Expr.IsPoly])

/-- The exponentiated expression: `ExpPoly(k, poly)`. -/
theorem eval_of_poly {k : ℝ} {p : Poly ℝ} {g : (String → ℝ) → ℝ}
    (h : ∀ v, p.eval (env v) = .ok (g v)) (v : String → ℝ) :
    (⟨k, p⟩ : ExpPoly).eval (env v) = .ok (k * exp (g v)) := by
  unfold ExpPoly.eval
  simp only [h v]
  rfl

/-! ## C10 -/

/-- **C10.** If `integrate` returns, the result is the iterated integral over the real line,
provided that the integrals converge and that the clamp of `safe_sqrt` is not active. -/
theorem c10_integrate {e : ExpPoly} (hp : e.poly.Built R) {f : (String → ℝ) → ℝ}
    (hf : ∀ w, e.eval (env w) = .ok (f w)) {names : List String} {m : String → Option ℝ} {r : ℝ}
    (h : e.integrate R names m = .ok r) (hconv : Converges names f) (hmild : Mild names f)
    {v : String → ℝ} (hv : Agrees v m) : r = iterInt names f v := by
  obtain ⟨e', he', hr⟩ := bind1_ok h
  have hfn := fn_of_eval hf
  obtain ⟨_, hval⟩ := ExpPoly.integrateLoop_fn (v := v) names e e' hp.wf he' (hfn ▸ hconv)
    (hfn ▸ hmild)
  rw [ExpPoly.eval_extends hv hr, hval, hfn]

/-- **C10.** If the exponent has degree at most two, then `integrate` returns as soon as the
integrals converge, all other variables being given. -/
theorem c10_integrate_total {e : ExpPoly} (hp : e.poly.Built R) (hd : e.poly.degLE 2)
    (hk : e.const ≠ 0) {f : (String → ℝ) → ℝ}
    (hf : ∀ w, e.eval (env w) = .ok (f w)) {names : List String} {m : String → Option ℝ}
    (hm : ∀ z, z ∉ names → m z = none → e.poly.isFunctionOf z = false)
    (hconv : Converges names f) (hmild : Mild names f) :
    ∃ r, e.integrate R names m = .ok r := by
  have hfn := fn_of_eval hf
  subst hfn
  obtain ⟨e', he', hfree⟩ := ExpPoly.integrateLoop_free names e hp.wf hd hk hconv hmild
  obtain ⟨a, ha⟩ := Poly.eval_ok_of (p := e'.poly) (m := m) fun z hz hmz => by
    by_cases hzn : z ∈ names
    · rw [hfree z (.inl hzn)] at hz; cases hz
    · rw [hfree z (.inr (hm z hzn hmz))] at hz; cases hz
  refine ⟨e'.const * exp a, ?_⟩
  unfold ExpPoly.integrate
  rw [he', bind1_val]
  unfold ExpPoly.eval
  rw [ha, bind1_val]

theorem integral_x2 (w : String → ℝ) :
    (Integrable fun t : ℝ => exp (-(Function.update w "x" t "x") ^ 2)) := by
  have := integrable_exp_quad (a := -1) (by norm_num) 0 0
  refine this.congr (Filter.Eventually.of_forall fun t => ?_)
  simp

theorem mild_x2 (w : String → ℝ) :
    -(2 * π * 10 ^ 30) ≤ curvature (fun v => exp (-(v "x") ^ 2)) "x" w := by
  simp only [curvature, Function.update_self, Real.log_exp]
  have := Real.pi_gt_three
  norm_num
  nlinarith

/-- The hypotheses of C10 are met by `ExpPoly(-x**2).integrate("x")`, which is `√π`. -/
example : ∃ (e : ExpPoly) (r : ℝ), e.poly.Built procR ∧
    (∀ v, e.eval (env v) = .ok (exp (-(v "x") ^ 2))) ∧
    e.integrate procR ["x"] (fun _ => some 0) = .ok r ∧ r = √π := by
  obtain ⟨p, hp, hd, he⟩ := exprX2_poly procR
  have hf : ∀ v, (⟨1, p⟩ : ExpPoly).eval (env v) = .ok (exp (-(v "x") ^ 2)) := fun v => by
    simpa using eval_of_poly (k := 1) he v
  have hc : Converges ["x"] fun v : String → ℝ => exp (-(v "x") ^ 2) := ⟨integral_x2, trivial⟩
  have hm : Mild ["x"] fun v : String → ℝ => exp (-(v "x") ^ 2) := ⟨mild_x2, trivial⟩
  obtain ⟨r, hr⟩ := c10_integrate_total (e := ⟨1, p⟩) hp hd one_ne_zero hf
    (m := fun _ => some 0) (names := ["x"]) (fun _ _ => by simp) hc hm
  refine ⟨⟨1, p⟩, r, hp, hf, hr, ?_⟩
  rw [c10_integrate (e := ⟨1, p⟩) hp hf hr hc hm (v := fun _ => 0)
    fun z b h => by simpa using h]
  simp only [iterInt, Function.update_self]
  simpa using integral_gaussian 1

/-! ## C11 -/

/-- **C11.** `integrate_half` over one variable is the integral over the negative half line,
whenever the integrand is a Gaussian in that variable and the clamps of `safe_sqrt` are not
active. -/
theorem c11_integrate_half {e : ExpPoly} (hp : e.poly.Built R) {x : String}
    {m : String → Option ℝ} {r : ℝ} (h : e.integrateHalf R [x] m = .ok r) {v : String → ℝ}
    (hv : Agrees v m) {f : ℝ → ℝ} (hf : ∀ s, e.eval (env (Function.update v x s)) = .ok (f s))
    {k a b c : ℝ} (hq : ∀ s, f s = k * exp (a * s ^ 2 + b * s + c)) (ha : a < 0)
    (h1 : 1e-30 ≤ -a) (h2 : 1e-30 ≤ -π / a) : r = ∫ s in Set.Iic 0, f s := by
  have hfn : ∀ s, e.fn (Function.update v x s) = f s := fun s => fn_of_eval_at (hf s)
  rw [ExpPoly.integrateHalf1_fn hp.wf hv h (fun s => (hfn s).trans (hq s)) ha h1 h2]
  simp only [hfn]

/-- **C11.** For an exponent of degree at most two, `integrate_half` returns whenever the integrand
is a Gaussian in the variable of integration and the other variables are given. -/
theorem c11_integrate_half_total {e : ExpPoly} (hp : e.poly.Built R) (hd : e.poly.degLE 2)
    {x : String} {m : String → Option ℝ}
    (hm : ∀ z, z ≠ x → m z = none → e.poly.isFunctionOf z = false) {v : String → ℝ}
    {k a b c : ℝ} (hk : k ≠ 0)
    (hf : ∀ s, e.eval (env (Function.update v x s)) = .ok (k * exp (a * s ^ 2 + b * s + c)))
    (ha : a < 0) : ∃ r, e.integrateHalf R [x] m = .ok r :=
  ExpPoly.integrateHalf1_total hp.wf hd hm hk (fun s => fn_of_eval_at (hf s)) ha

/-- The hypotheses of C11 are met by `ExpPoly(-x**2 + x*y - y**2 + z*x).integrate_half("x", y=2,
z=1)`. -/
example : ∃ (e : ExpPoly) (r : ℝ), e.poly.Built procR ∧
    e.integrateHalf procR ["x"]
      (fun z => if z = "x" then none else if z = "y" then some 2 else some 1) = .ok r ∧
    r = ∫ s in Set.Iic (0 : ℝ), exp (-s ^ 2 + 2 * s - 4 + s) := by
  obtain ⟨p, hp, hd, he⟩ := exprXY_poly procR
  let m : String → Option ℝ := fun z => if z = "x" then none else if z = "y" then some 2 else some 1
  let v : String → ℝ := fun z => if z = "y" then 2 else 1
  have hf : ∀ s, (⟨1, p⟩ : ExpPoly).eval (env (Function.update v "x" s)) =
      .ok (1 * exp (-1 * s ^ 2 + 3 * s + -4)) := fun s => by
    rw [eval_of_poly (k := 1) he]
    congr 3
    simp [v]
    ring
  obtain ⟨r, hr⟩ := c11_integrate_half_total (e := ⟨1, p⟩) hp hd (x := "x") (m := m)
    (fun z hz h0 => by simp only [m, if_neg hz] at h0; split at h0 <;> cases h0) one_ne_zero hf (by norm_num)
  refine ⟨⟨1, p⟩, r, hp, hr, ?_⟩
  rw [c11_integrate_half (e := ⟨1, p⟩) hp hr (v := v) (fun z b h => by
      simp only [m, v] at h ⊢
      split at h
      · cases h
      · split at h <;> simp_all) hf (fun _ => rfl) (by norm_num)
      (by norm_num) (by have := Real.pi_gt_three; norm_num; linarith)]
  congr 1
  funext s
  rw [one_mul]
  congr 1
  ring

/-! ## C12 -/

/-- **C12.** `integrate_half` over two variables is the integral over the negative quadrant,
whenever the integrand is a bivariate Gaussian (`biQuad` is the exponent
`-(a11 s² + 2 a12 s t + a22 t²)/2 + b1 s + b2 t + c`) and the clamps of `safe_sqrt` are not active. -/
theorem c12_integrate_half {e : ExpPoly} (hp : e.poly.Built R) {x y : String} (hxy : x ≠ y)
    {m : String → Option ℝ} {r : ℝ} (h : e.integrateHalf R [x, y] m = .ok r) {v : String → ℝ}
    (hv : Agrees v m) {f : ℝ → ℝ → ℝ}
    (hf : ∀ s t, e.eval (env (Function.update (Function.update v x s) y t)) = .ok (f s t))
    {k a11 a12 a22 b1 b2 c : ℝ} (hk : k ≠ 0)
    (hq : ∀ s t, f s t = k * exp (biQuad a11 a12 a22 b1 b2 c s t))
    (h11 : 0 < a11) (h22 : 0 < a22) (hdet : 0 < a11 * a22 - a12 ^ 2)
    (c0 : 1e-30 ≤ a11 * a22 - a12 ^ 2) (c1 : 1e-30 ≤ a22 / (a11 * a22 - a12 ^ 2))
    (c2 : 1e-30 ≤ a11 / (a11 * a22 - a12 ^ 2))
    (c3 : 1e-30 ≤ a22 / (a11 * a22 - a12 ^ 2) * (a11 / (a11 * a22 - a12 ^ 2))) :
    r = ∫ s in Set.Iic 0, ∫ t in Set.Iic 0, f s t := by
  have hfn : ∀ s t, e.fn (Function.update (Function.update v x s) y t) = f s t :=
    fun s t => fn_of_eval_at (hf s t)
  rw [ExpPoly.integrateHalf2_fn hxy hp.wf hv h hk (fun s t => (hfn s t).trans (hq s t)) h11 h22 hdet
    c0 c1 c2 c3]
  simp only [hfn]

/-- **C12.** For an exponent of degree at most two, `integrate_half` over two variables returns
whenever the integrand is a bivariate Gaussian and the other variables are given. -/
theorem c12_integrate_half_total {e : ExpPoly} (hp : e.poly.Built R) (hd : e.poly.degLE 2)
    {x y : String} (hxy : x ≠ y) {m : String → Option ℝ}
    (hm : ∀ z, z ≠ x → z ≠ y → m z = none → e.poly.isFunctionOf z = false)
    {v : String → ℝ} {k a11 a12 a22 b1 b2 c : ℝ} (hk : k ≠ 0)
    (hf : ∀ s t, e.eval (env (Function.update (Function.update v x s) y t)) =
      .ok (k * exp (biQuad a11 a12 a22 b1 b2 c s t)))
    (h11 : 0 < a11) (h22 : 0 < a22) : ∃ r, e.integrateHalf R [x, y] m = .ok r :=
  ExpPoly.integrateHalf2_total hxy hp.wf hd hm hk (fun s t => fn_of_eval_at (hf s t)) h11 h22

/-- The hypotheses of C12 are met by `ExpPoly(-x**2 + x*y - y**2 + z*x).integrate_half("x", "y",
z=1)`. -/
example : ∃ (e : ExpPoly) (r : ℝ), e.poly.Built procR ∧
    e.integrateHalf procR ["x", "y"]
      (fun z => if z = "x" then none else if z = "y" then none else some 1) = .ok r ∧
    r = ∫ s in Set.Iic (0 : ℝ), ∫ t in Set.Iic (0 : ℝ), exp (-s ^ 2 + s * t - t ^ 2 + s) := by
  obtain ⟨p, hp, hd, he⟩ := exprXY_poly procR
  let m : String → Option ℝ := fun z => if z = "x" then none else if z = "y" then none else some 1
  let v : String → ℝ := fun z => 1
  have hf : ∀ s t, (⟨1, p⟩ : ExpPoly).eval (env (Function.update (Function.update v "x" s) "y" t)) =
      .ok (1 * exp (biQuad 2 (-1) 2 1 0 0 s t)) := fun s t => by
    rw [eval_of_poly (k := 1) he]
    congr 3
    simp [v, biQuad, Function.update_of_ne]
    ring
  obtain ⟨r, hr⟩ := c12_integrate_half_total (e := ⟨1, p⟩) hp hd (x := "x") (y := "y") (by decide)
    (m := m)
    (fun z hz hz' h0 => by simp only [m, if_neg hz, if_neg hz'] at h0; cases h0) one_ne_zero hf (by norm_num)
    (by norm_num)
  refine ⟨⟨1, p⟩, r, hp, hr, ?_⟩
  rw [c12_integrate_half (e := ⟨1, p⟩) hp (by decide) hr (v := v) (fun z b h => by
      simp only [m, v] at h ⊢
      split at h
      · cases h
      · split at h <;> simp_all) hf one_ne_zero (fun _ _ => rfl) (by norm_num)
      (by norm_num) (by norm_num) (by norm_num) (by norm_num) (by norm_num) (by norm_num)]
  congr 1
  funext s
  congr 1
  funext t
  rw [one_mul, biQuad]
  congr 1
  ring

/-! ## C13 -/

/-- What an integration limit means at an assignment: infinite (`none`), or a number. -/
def Lim.Means (l : Lim) (v : String → ℝ) (o : Option ℝ) : Prop :=
  match l with
  | .inf => o = none
  | .num c => o = some c
  | .poly p => ∃ a, p.eval (env v) = .ok a ∧ o = some a

/-- The limit is infinite, a number, or a polynomial made by the constructors. -/
def Lim.Built (R : Runtime ℝ) (l : Lim) : Prop := ∀ p, l = .poly p → p.Built R

theorem Lim.Built.wf {l : Lim} (h : l.Built R) : l.WF R := fun p hp => (h p hp).wf

theorem Lim.Means.at {l : Lim} {v : String → ℝ} {o : Option ℝ} (h : l.Means v o) : o = l.at v := by
  cases l with
  | inf => exact h
  | num c => exact h
  | poly p =>
    obtain ⟨a, ha, rfl⟩ := h
    have h2 : p.eval (env v) = .ok (p.val v) := Poly.eval_eq_of fun _ _ => rfl
    rw [h2] at ha
    rw [← Except.ok.inj ha]
    rfl

/-- **C13, one finite side.** With one variable that is not doubly infinite, `integrate_box`
returns the integral from the lower to the upper limit of the integrand in which the doubly
infinite variables are integrated out, *provided the upper limit is finite*. The full statement
would drop `hu : u ≠ none`; it is refuted below. -/
theorem c13_integrate_box_one_partial {e : ExpPoly} (hp : e.poly.Built R) {f : (String → ℝ) → ℝ}
    (hf : ∀ w, e.eval (env w) = .ok (f w)) {lims : List (String × Lim × Lim)} {x : String}
    {L U : Lim} (hlims : (lims.filter fun l => !doublyInf l) = [(x, L, U)])
    (hL : L.Built R) (hU : U.Built R) (fL : L.FreeOf x) (fU : U.FreeOf x)
    {names : List String} (hnames : names = (lims.filter doublyInf).map Prod.fst)
    (hconv : Converges names f) (hmild : Mild names f)
    {m : String → Option ℝ} {r : ℝ} (h : e.integrateBox R lims m = .ok r)
    {v : String → ℝ} (hv : Agrees v m) {l u : Option ℝ} (hl : L.Means v l) (hu' : U.Means v u)
    (hu : u ≠ none) {k a b c : ℝ}
    (hq : ∀ s, iterInt names f (Function.update v x s) = k * exp (a * s ^ 2 + b * s + c))
    (ha : a < 0) (h1 : 1e-30 ≤ -a) (h2 : 1e-30 ≤ -π / a) :
    r = boxInt l u fun s => iterInt names f (Function.update v x s) := by
  subst hnames
  obtain ⟨⟨e', ls⟩, hs, h⟩ := bind1_ok h
  obtain ⟨hfold, hls⟩ := boxFilter_spec lims e [] _ hs
  rw [List.nil_append, hlims] at hls
  simp only at hls hfold
  subst hls
  rw [if_neg (by simp)] at h
  obtain ⟨parts, hparts, h⟩ := bind1_ok h
  have hfn := fn_of_eval hf
  subst hfn
  have hval : ∀ w, e'.fn w = iterInt ((lims.filter doublyInf).map Prod.fst) e.fn w := fun w =>
    (ExpPoly.integrateLoop_fn (v := w) _ e e' hp.wf hfold hconv hmild).2
  have hwf := (ExpPoly.integrateLoop_fn (v := v) _ e e' hp.wf hfold hconv hmild).1
  have hq' : ∀ s, e'.fn (Function.update v x s) = k * exp (a * s ^ 2 + b * s + c) := fun s =>
    (hval _).trans (hq s)
  have hsum := box1_sum hwf hL.wf hU.wf fL fU hv hparts h hq' ha h1 h2
  rw [hl.at, hu'.at]
  rw [hu'.at] at hu
  rw [boxInt_signed ?_ hu, hsum]
  · simp only [hval]
  · simp only [hq]
    exact (integrable_exp_quad ha b c).const_mul k

/-- **C13, two finite sides.** -/
theorem c13_integrate_box_two_partial {e : ExpPoly} (hp : e.poly.Built R) {f : (String → ℝ) → ℝ}
    (hf : ∀ w, e.eval (env w) = .ok (f w)) {lims : List (String × Lim × Lim)} {x y : String}
    (hxy : x ≠ y) {L U L' U' : Lim}
    (hlims : (lims.filter fun l => !doublyInf l) = [(x, L, U), (y, L', U')])
    (hL : L.Built R) (hU : U.Built R) (hL' : L'.Built R) (hU' : U'.Built R)
    (fL : L.FreeOf x ∧ L.FreeOf y) (fU : U.FreeOf x ∧ U.FreeOf y)
    (fL' : L'.FreeOf x ∧ L'.FreeOf y) (fU' : U'.FreeOf x ∧ U'.FreeOf y)
    {names : List String} (hnames : names = (lims.filter doublyInf).map Prod.fst)
    (hconv : Converges names f) (hmild : Mild names f)
    {m : String → Option ℝ} {r : ℝ} (h : e.integrateBox R lims m = .ok r)
    {v : String → ℝ} (hv : Agrees v m) {l u l' u' : Option ℝ} (ml : L.Means v l) (mu : U.Means v u)
    (ml' : L'.Means v l') (mu' : U'.Means v u') (hu : u ≠ none) (hu' : u' ≠ none)
    {k a11 a12 a22 b1 b2 c : ℝ} (hk : k ≠ 0)
    (hq : ∀ s t, iterInt names f (Function.update (Function.update v x s) y t) =
      k * exp (biQuad a11 a12 a22 b1 b2 c s t))
    (h11 : 0 < a11) (h22 : 0 < a22) (hdet : 0 < a11 * a22 - a12 ^ 2)
    (c0 : 1e-30 ≤ a11 * a22 - a12 ^ 2) (c1 : 1e-30 ≤ a22 / (a11 * a22 - a12 ^ 2))
    (c2 : 1e-30 ≤ a11 / (a11 * a22 - a12 ^ 2))
    (c3 : 1e-30 ≤ a22 / (a11 * a22 - a12 ^ 2) * (a11 / (a11 * a22 - a12 ^ 2))) :
    r = boxInt l u fun s => boxInt l' u' fun t =>
      iterInt names f (Function.update (Function.update v x s) y t) := by
  subst hnames
  obtain ⟨⟨e', ls⟩, hs, h⟩ := bind1_ok h
  obtain ⟨hfold, hls⟩ := boxFilter_spec lims e [] _ hs
  rw [List.nil_append, hlims] at hls
  simp only at hls hfold
  subst hls
  rw [if_neg (by simp)] at h
  obtain ⟨parts, hparts, h⟩ := bind1_ok h
  have hfn := fn_of_eval hf
  subst hfn
  have hval : ∀ w, e'.fn w = iterInt ((lims.filter doublyInf).map Prod.fst) e.fn w := fun w =>
    (ExpPoly.integrateLoop_fn (v := w) _ e e' hp.wf hfold hconv hmild).2
  have hwf := (ExpPoly.integrateLoop_fn (v := v) _ e e' hp.wf hfold hconv hmild).1
  have hq' : ∀ s t, e'.fn (Function.update (Function.update v x s) y t) =
      k * exp (biQuad a11 a12 a22 b1 b2 c s t) := fun s t => (hval _).trans (hq s t)
  have hsum := box2_sum hxy hwf hL.wf hU.wf hL'.wf hU'.wf fL fU fL' fU' hv hparts h hk hq' h11 h22
    hdet c0 c1 c2 c3
  rw [ml.at, mu.at, ml'.at, mu'.at]
  rw [mu.at] at hu
  rw [mu'.at] at hu'
  rw [boxInt2_signed ?_ ?_ hu hu', hsum]
  · simp only [hval]
  · simp only [hq]
    exact (integrable_biQuad h11 hdet b1 b2 c).const_mul k
  · intro s
    simp only [hq]
    have := (integrable_exp_quad (a := -a22 / 2) (by linarith) (b2 - a12 * s)
      (-a11 / 2 * s ^ 2 + b1 * s + c)).const_mul k
    refine this.congr (Filter.Eventually.of_forall fun t => ?_)
    simp only [biQuad]
    congr 2
    ring

/-- **C13.** For an exponent of degree at most two and limits that are infinite, numbers or
polynomials of degree at most one, `integrate_box` with one side that is not doubly infinite
returns. -/
theorem c13_integrate_box_one_total {e : ExpPoly} (hp : e.poly.Built R) (hd : e.poly.degLE 2)
    (hk0 : e.const ≠ 0) {f : (String → ℝ) → ℝ} (hf : ∀ w, e.eval (env w) = .ok (f w))
    {lims : List (String × Lim × Lim)} {x : String} {L U : Lim}
    (hlims : (lims.filter fun l => !doublyInf l) = [(x, L, U)])
    (hL : L.Built R) (hU : U.Built R) (aL : L.Affine) (aU : U.Affine) (fL : L.FreeOf x)
    (fU : U.FreeOf x) {names : List String} (hnames : names = (lims.filter doublyInf).map Prod.fst)
    (hconv : Converges names f) (hmild : Mild names f)
    {m : String → Option ℝ}
    (hm : ∀ z, z ≠ x → m z = none →
      (z ∈ names ∨ e.poly.isFunctionOf z = false) ∧ L.FreeOf z ∧ U.FreeOf z)
    {v : String → ℝ} {k a b c : ℝ} (hk : k ≠ 0)
    (hq : ∀ s, iterInt names f (Function.update v x s) = k * exp (a * s ^ 2 + b * s + c))
    (ha : a < 0) : ∃ r, e.integrateBox R lims m = .ok r := by
  subst hnames
  have hfn := fn_of_eval hf
  subst hfn
  obtain ⟨e', he', hd', _⟩ := ExpPoly.integrateLoop_deg _ e hp.wf hd hk0 hconv hmild
  have hfree : ∀ z, (z ∈ (lims.filter doublyInf).map Prod.fst ∨ e.poly.isFunctionOf z = false) →
      e'.poly.isFunctionOf z = false := by
    obtain ⟨e'', he'', hfree⟩ := ExpPoly.integrateLoop_free _ e hp.wf hd hk0 hconv hmild
    rw [he'] at he''
    cases he''
    exact hfree
  have hwf := (ExpPoly.integrateLoop_fn (v := v) _ e e' hp.wf he' hconv hmild).1
  have hval : ∀ w, e'.fn w = iterInt ((lims.filter doublyInf).map Prod.fst) e.fn w := fun w =>
    (ExpPoly.integrateLoop_fn (v := w) _ e e' hp.wf he' hconv hmild).2
  obtain ⟨parts, r, hparts, hr⟩ := box1_total hwf hd' hL.wf hU.wf aL aU fL fU
    (fun z h1 h2 => ⟨hfree z (hm z h1 h2).1, (hm z h1 h2).2⟩) hk
    (fun s => (hval _).trans (hq s)) ha
  refine ⟨r, ?_⟩
  have hb : boxFilter R e lims = .ok (e', [(x, L, U)]) := by
    have := boxFilter_total lims e e' [] he'
    rwa [List.nil_append, hlims] at this
  unfold ExpPoly.integrateBox
  rw [hb, bind1_val, if_neg (by simp), hparts, bind1_val]
  exact hr

/-- **C13.** The same for two sides that are not doubly infinite. -/
theorem c13_integrate_box_two_total {e : ExpPoly} (hp : e.poly.Built R) (hd : e.poly.degLE 2)
    (hk0 : e.const ≠ 0) {f : (String → ℝ) → ℝ} (hf : ∀ w, e.eval (env w) = .ok (f w))
    {lims : List (String × Lim × Lim)} {x y : String} (hxy : x ≠ y) {L U L' U' : Lim}
    (hlims : (lims.filter fun l => !doublyInf l) = [(x, L, U), (y, L', U')])
    (hL : L.Built R) (hU : U.Built R) (hL' : L'.Built R) (hU' : U'.Built R)
    (aL : L.Affine) (aU : U.Affine) (aL' : L'.Affine) (aU' : U'.Affine)
    (fL : L.FreeOf x ∧ L.FreeOf y) (fU : U.FreeOf x ∧ U.FreeOf y)
    (fL' : L'.FreeOf x ∧ L'.FreeOf y) (fU' : U'.FreeOf x ∧ U'.FreeOf y)
    {names : List String} (hnames : names = (lims.filter doublyInf).map Prod.fst)
    (hconv : Converges names f) (hmild : Mild names f)
    {m : String → Option ℝ}
    (hm : ∀ z, z ≠ x → z ≠ y → m z = none → (z ∈ names ∨ e.poly.isFunctionOf z = false) ∧
      (L.FreeOf z ∧ U.FreeOf z) ∧ L'.FreeOf z ∧ U'.FreeOf z) {v : String → ℝ}
    {k a11 a12 a22 b1 b2 c : ℝ} (hk : k ≠ 0)
    (hq : ∀ s t, iterInt names f (Function.update (Function.update v x s) y t) =
      k * exp (biQuad a11 a12 a22 b1 b2 c s t))
    (h11 : 0 < a11) (h22 : 0 < a22) : ∃ r, e.integrateBox R lims m = .ok r := by
  subst hnames
  have hfn := fn_of_eval hf
  subst hfn
  obtain ⟨e', he', hd', _⟩ := ExpPoly.integrateLoop_deg _ e hp.wf hd hk0 hconv hmild
  have hfree : ∀ z, (z ∈ (lims.filter doublyInf).map Prod.fst ∨ e.poly.isFunctionOf z = false) →
      e'.poly.isFunctionOf z = false := by
    obtain ⟨e'', he'', hfree⟩ := ExpPoly.integrateLoop_free _ e hp.wf hd hk0 hconv hmild
    rw [he'] at he''
    cases he''
    exact hfree
  have hwf := (ExpPoly.integrateLoop_fn (v := v) _ e e' hp.wf he' hconv hmild).1
  have hval : ∀ w, e'.fn w = iterInt ((lims.filter doublyInf).map Prod.fst) e.fn w := fun w =>
    (ExpPoly.integrateLoop_fn (v := w) _ e e' hp.wf he' hconv hmild).2
  obtain ⟨parts, r, hparts, hr⟩ := box2_total hxy hwf hd' hL.wf hU.wf hL'.wf hU'.wf aL aU aL' aU' fL
    fU fL' fU' (fun z h1 h2 h3 => ⟨hfree z (hm z h1 h2 h3).1, (hm z h1 h2 h3).2⟩) hk (fun s t => (hval _).trans (hq s t)) h11 h22
  refine ⟨r, ?_⟩
  have hb : boxFilter R e lims = .ok (e', [(x, L, U), (y, L', U')]) := by
    have := boxFilter_total lims e e' [] he'
    rwa [List.nil_append, hlims] at this
  unfold ExpPoly.integrateBox
  rw [hb, bind1_val, if_neg (by simp), hparts, bind1_val]
  exact hr

/-- **C13.** The same if every side is doubly infinite. -/
theorem c13_integrate_box_zero_total {e : ExpPoly} (hp : e.poly.Built R) (hd : e.poly.degLE 2)
    (hk : e.const ≠ 0) {f : (String → ℝ) → ℝ} (hf : ∀ w, e.eval (env w) = .ok (f w))
    {lims : List (String × Lim × Lim)} (hlims : ∀ l ∈ lims, doublyInf l = true)
    (hconv : Converges (lims.map Prod.fst) f) (hmild : Mild (lims.map Prod.fst) f)
    {m : String → Option ℝ}
    (hm : ∀ z, z ∉ lims.map Prod.fst → m z = none → e.poly.isFunctionOf z = false) :
    ∃ r, e.integrateBox R lims m = .ok r := by
  have hfn := fn_of_eval hf
  subst hfn
  obtain ⟨e', he', hfree⟩ := ExpPoly.integrateLoop_free _ e hp.wf hd hk hconv hmild
  obtain ⟨a, ha⟩ := Poly.eval_ok_of (p := e'.poly) (m := m) fun z hz hmz => by
    by_cases hzn : z ∈ lims.map Prod.fst
    · rw [hfree z (.inl hzn)] at hz; cases hz
    · rw [hfree z (.inr (hm z hzn hmz))] at hz; cases hz
  refine ⟨e'.const * exp a, ?_⟩
  have hb : boxFilter R e lims = .ok (e', []) := by
    have := boxFilter_total lims e e' [] (by rw [List.filter_eq_self.2 hlims]; exact he')
    rwa [List.nil_append, List.filter_eq_nil_iff.2 fun l hl => by simp [hlims l hl]] at this
  unfold ExpPoly.integrateBox
  rw [hb, bind1_val, if_pos (by simp)]
  unfold ExpPoly.eval
  rw [ha, bind1_val]

/-- **C13, no finite side.** If all variables are doubly infinite, the box integral is the iterated
integral over the line. -/
theorem c13_integrate_box_zero {e : ExpPoly} (hp : e.poly.Built R) {f : (String → ℝ) → ℝ}
    (hf : ∀ w, e.eval (env w) = .ok (f w)) {lims : List (String × Lim × Lim)}
    (hlims : ∀ l ∈ lims, doublyInf l = true)
    (hconv : Converges (lims.map Prod.fst) f) (hmild : Mild (lims.map Prod.fst) f)
    {m : String → Option ℝ} {r : ℝ} (h : e.integrateBox R lims m = .ok r)
    {v : String → ℝ} (hv : Agrees v m) : r = iterInt (lims.map Prod.fst) f v := by
  obtain ⟨⟨e', ls⟩, hs, h⟩ := bind1_ok h
  obtain ⟨hfold, hls⟩ := boxFilter_spec lims e [] _ hs
  rw [List.filter_eq_self.2 hlims] at hfold
  rw [List.filter_eq_nil_iff.2 fun l hl => by simp [hlims l hl]] at hls
  simp only [List.append_nil] at hls hfold
  subst hls
  rw [if_pos (by simp)] at h
  have hfn := fn_of_eval hf
  subst hfn
  rw [ExpPoly.eval_extends hv h]
  exact (ExpPoly.integrateLoop_fn (v := v) _ e e' hp.wf hfold hconv hmild).2

/-- **C13 is false for a finite lower and an infinite upper limit**: the integral of `exp(-x²)` over
`[0, ∞)` comes out as minus the integral over `(-∞, 0]`, a negative number. -/
theorem c13_integrate_box_false : ∃ (e : ExpPoly) (r : ℝ), e.poly.Built procR ∧
    (∀ v, e.eval (env v) = .ok (exp (-(v "x") ^ 2))) ∧
    e.integrateBox procR [("x", .num 0, .inf)] (fun _ => some 0) = .ok r ∧
    r < 0 ∧ 0 < boxInt (some 0) none fun s => exp (-s ^ 2) := by
  obtain ⟨p, hp, hd, he⟩ := exprX2_poly procR
  have hf : ∀ v, (⟨1, p⟩ : ExpPoly).eval (env v) = .ok (exp (-(v "x") ^ 2)) := fun v => by
    simpa using eval_of_poly (k := 1) he v
  let v : String → ℝ := fun _ => 0
  have hq : ∀ s, (⟨1, p⟩ : ExpPoly).fn (Function.update v "x" s) =
      1 * exp (-1 * s ^ 2 + 0 * s + 0) := fun s => by
    rw [fn_of_eval hf]; simp
  obtain ⟨parts, r, hparts, hr⟩ := box1_total (e := ⟨1, p⟩) (x := "x") (l := .num 0) (u := .inf)
    hp.wf hd (fun _ h => by cases h) (fun _ h => by cases h) (fun _ h => by cases h)
    (fun _ h => by cases h) (fun _ h => by cases h) (fun _ h => by cases h)
    (m := fun _ => some 0) (fun _ _ => by simp) one_ne_zero hq (by norm_num)
  have hint : ∫ s in Set.Iic (0 : ℝ), (⟨1, p⟩ : ExpPoly).fn (Function.update v "x" s) = √π / 2 := by
    have : ∀ s, (⟨1, p⟩ : ExpPoly).fn (Function.update v "x" s) = exp (-1 * s ^ 2) := fun s => by
      rw [hq]; simp
    simp only [this]
    have := integral_comp_neg_Ioi (0 : ℝ) fun s => exp (-1 * s ^ 2)
    simp only [neg_zero, neg_sq] at this
    rw [← this, integral_gaussian_Ioi]
    simp
  refine ⟨⟨1, p⟩, r, hp, hf, ?_, ?_, ?_⟩
  · unfold ExpPoly.integrateBox
    have : boxFilter procR ⟨1, p⟩ [("x", .num 0, .inf)] = .ok (⟨1, p⟩, [("x", .num 0, .inf)]) := by
      simp [boxFilter, boxFilterStep, foldE, doublyInf, Lim.isInf]
    rw [this, bind1_val, if_neg (by simp), hparts, bind1_val]
    exact hr
  · have := box1_sum (e := ⟨1, p⟩) (x := "x") (l := .num 0) (u := .inf)
      hp.wf (fun _ h => by cases h) (fun _ h => by cases h) (fun _ h => by cases h)
      (fun _ h => by cases h) (m := fun _ => some 0) (v := v)
      (fun z b h => by simpa [v] using h) hparts hr hq (by norm_num) (by norm_num)
      (by have := Real.pi_gt_three; norm_num; linarith)
    rw [this]
    simp only [Lim.at, signedEnds, List.nil_append, List.map_cons, List.map_nil, List.sum_cons,
      List.sum_nil, hint]
    have := Real.sqrt_pos.2 Real.pi_pos
    linarith
  · have h1 := integral_gaussian_Ioi 1
    have h2 : (boxInt (some 0) none fun s => exp (-s ^ 2)) = √(π / 1) / 2 := by
      rw [← h1]
      simp [boxInt]
    rw [h2, div_one]
    have := Real.sqrt_pos.2 Real.pi_pos
    linarith

/-- With more than two variables that are not doubly infinite, `integrate_box` does not return a
number. -/
theorem c13_integrate_box_three {e : ExpPoly} {lims : List (String × Lim × Lim)}
    (hlims : 3 ≤ (lims.filter fun l => !doublyInf l).length) {e' : ExpPoly}
    (h1 : foldE (fun eq x => eq.integrate1 R x) e ((lims.filter doublyInf).map Prod.fst) = .ok e')
    {part : ExpPoly} {parts : List ExpPoly}
    (h2 : boxParts R e' (lims.filter fun l => !doublyInf l) = .ok (part :: parts))
    (m : String → Option ℝ) : e.integrateBox R lims m = .error .notImplemented := by
  have hb : boxFilter R e lims = .ok (e', lims.filter fun l => !doublyInf l) := by
    have := boxFilter_total lims e e' [] h1
    rwa [List.nil_append] at this
  have hhalf : part.integrateHalf R ((lims.filter fun l => !doublyInf l).map Prod.fst) m =
      .error .notImplemented := by
    generalize (lims.filter fun l => !doublyInf l) = ls at hlims
    match ls, hlims with
    | _ :: _ :: _ :: _, _ => rfl
  unfold ExpPoly.integrateBox
  rw [hb, bind1_val, if_neg (by simp only; omega), h2, bind1_val]
  unfold foldE
  simp only [hhalf]
  rfl

/-- The hypotheses of C13 are met by `ExpPoly(-x**2).integrate_box(("x", -1, 2))`. -/
example : ∃ (e : ExpPoly) (r : ℝ), e.poly.Built procR ∧
    e.integrateBox procR [("x", .num (-1), .num 2)] (fun _ => some 0) = .ok r ∧
    r = ∫ s in (-1 : ℝ)..2, exp (-s ^ 2) := by
  obtain ⟨p, hp, hd, he⟩ := exprX2_poly procR
  have hf : ∀ v, (⟨1, p⟩ : ExpPoly).eval (env v) = .ok (exp (-(v "x") ^ 2)) := fun v => by
    simpa using eval_of_poly (k := 1) he v
  have hq : ∀ s, (⟨1, p⟩ : ExpPoly).fn (Function.update (fun _ => 0) "x" s) =
      1 * exp (-1 * s ^ 2 + 0 * s + 0) := fun s => by
    rw [fn_of_eval hf]; simp
  obtain ⟨parts, r, hparts, hr⟩ := box1_total (e := ⟨1, p⟩) (x := "x") (l := .num (-1))
    (u := .num 2)
    hp.wf hd (fun _ h => by cases h) (fun _ h => by cases h) (fun _ h => by cases h)
    (fun _ h => by cases h) (fun _ h => by cases h) (fun _ h => by cases h)
    (m := fun _ => some 0) (fun _ _ => by simp) one_ne_zero hq (by norm_num)
  have hrun : (⟨1, p⟩ : ExpPoly).integrateBox procR [("x", .num (-1), .num 2)]
      (fun _ => some 0) = .ok r := by
    unfold ExpPoly.integrateBox
    have : boxFilter procR ⟨1, p⟩ [("x", .num (-1), .num 2)] =
        .ok (⟨1, p⟩, [("x", .num (-1), .num 2)]) := by
      simp [boxFilter, boxFilterStep, foldE, doublyInf, Lim.isInf]
    rw [this, bind1_val, if_neg (by simp), hparts, bind1_val]
    exact hr
  refine ⟨⟨1, p⟩, r, hp, hrun, ?_⟩
  have := c13_integrate_box_one_partial (e := ⟨1, p⟩) hp hf (x := "x") (L := .num (-1))
    (U := .num 2) (by simp [doublyInf, Lim.isInf])
    (fun _ h => by cases h) (fun _ h => by cases h) (fun _ h => by cases h)
    (fun _ h => by cases h) (names := []) (by simp [doublyInf, Lim.isInf]) trivial trivial hrun
    (v := fun _ => 0) (fun z b h => by simpa using h) (l := some (-1)) (u := some 2) rfl rfl
    (by simp) (k := 1) (a := -1) (b := 0) (c := 0) (fun s => by simp [iterInt]) (by norm_num)
    (by norm_num) (by have := Real.pi_gt_three; norm_num; linarith)
  simpa [boxInt, iterInt] using this

/-! ## C14 -/

/-- **C14.** `integrate` raises `RuntimeError` as soon as it meets a variable in which the current
exponent is not exactly quadratic, or in which the quadratic coefficient depends on a variable. -/
theorem c14_integrate_rejects {e e' : ExpPoly} (hp : e'.poly.Built R) {pre post : List String}
    {x : String} (hpre : foldE (fun eq x => eq.integrate1 R x) e pre = .ok e') {n : ℕ}
    (hn : e'.poly.highestPower x = .ok n) {a : Poly ℝ} (ha : e'.poly.collectFor R ⟨x, 2⟩ = .ok a)
    (hbad : n ≠ 2 ∨ a.isConstant = false) (m : String → Option ℝ) :
    e.integrate R (pre ++ x :: post) m = .error .runtimeError := by
  have h1 : e'.integrate1 R x = .error .runtimeError := by
    unfold ExpPoly.integrate1
    rw [hn, bind1_val]
    split
    · rfl
    · rename_i h2
      obtain ⟨b, hb⟩ := Poly.collectFor_total _ hp.wf ⟨x, 1⟩
      obtain ⟨c, hc⟩ := Poly.reject_total _ hp.wf x
      rw [ha, bind1_val, hb, bind1_val, hc, bind1_val, if_pos (hbad.resolve_left fun h => h2 h)]
  have h2 : ∀ (pre : List String) (e : ExpPoly),
      foldE (fun eq x => eq.integrate1 R x) e pre = .ok e' →
      foldE (fun eq x => eq.integrate1 R x) e (pre ++ x :: post) = .error .runtimeError := by
    intro pre
    induction pre with
    | nil =>
      intro e h
      cases h
      rw [List.nil_append]
      unfold foldE
      rw [h1]
    | cons y ys ih =>
      intro e h
      unfold foldE at h
      rw [List.cons_append]
      split at h
      · cases h
      · rename_i e1 he1
        rw [foldE, he1]
        exact ih e1 h
  unfold ExpPoly.integrate
  rw [h2 pre e hpre]
  rfl

/-- **C14.** Conversely a returned number means that every stage was exactly quadratic with a
constant coefficient. -/
theorem c14_integrate_accepts {e : ExpPoly} {pre post : List String} {x : String}
    {m : String → Option ℝ} {r : ℝ} (h₀ : e.integrate R (pre ++ x :: post) m = .ok r) :
    ∃ e' a, foldE (fun eq x => eq.integrate1 R x) e pre = .ok e' ∧
      e'.poly.highestPower x = .ok 2 ∧ e'.poly.collectFor R ⟨x, 2⟩ = .ok a ∧
      a.isConstant = true := by
  obtain ⟨w, h, hw⟩ := bind1_ok h₀
  clear hw h₀
  induction pre generalizing e with
  | nil =>
    refine ⟨e, ?_⟩
    unfold foldE at h
    simp only [List.nil_append] at h
    split at h
    · cases h
    rename_i e1 h1
    unfold ExpPoly.integrate1 at h1
    obtain ⟨n, hn, h1⟩ := bind1_ok h1
    split at h1
    · cases h1
    rename_i hn2
    obtain ⟨a, ha, h1⟩ := bind1_ok h1
    obtain ⟨b, hb, h1⟩ := bind1_ok h1
    obtain ⟨c, hc, h1⟩ := bind1_ok h1
    split at h1
    · cases h1
    rename_i hcst
    exact ⟨a, rfl, by rw [hn, not_not.1 hn2], ha, by simpa using hcst⟩
  | cons y ys ih =>
    rw [List.cons_append] at h
    unfold foldE at h
    split at h
    · cases h
    rename_i e1 he1
    obtain ⟨e', a, h1, h2⟩ := ih h
    refine ⟨e', a, ?_, h2⟩
    unfold foldE
    simp only [he1]
    exact h1

/-- **C14.** `integrate_half` over one variable raises `RuntimeError` unless the exponent is exactly
quadratic. -/
theorem c14_half_rejects {e : ExpPoly} {x : String} {n : ℕ}
    (hn : e.poly.highestPower x = .ok n) (h2 : n ≠ 2) (m : String → Option ℝ) :
    e.integrateHalf R [x] m = .error .runtimeError := by
  simp only [ExpPoly.integrateHalf, ExpPoly.integrateHalf1, hn, bind1_val, if_pos h2]

/-- **C14.** `integrate_half` over two variables raises `RuntimeError` unless the exponent is exactly
quadratic in both. -/
theorem c14_half2_rejects {e : ExpPoly} {x y : String} {n n' : ℕ}
    (hn : e.poly.highestPower x = .ok n) (hn' : e.poly.highestPower y = .ok n')
    (h2 : n ≠ 2 ∨ n' ≠ 2) (m : String → Option ℝ) :
    e.integrateHalf R [x, y] m = .error .runtimeError := by
  simp only [ExpPoly.integrateHalf, ExpPoly.integrateHalf2, hn, hn', bind1_val]
  by_cases h : n = 2
  · rw [if_neg (by simpa using h), if_pos (h2.resolve_left fun h' => h' h)]
  · rw [if_pos h]

/-- **C14.** A number returned by `integrate_half` means that the exponent was exactly quadratic in
every variable of integration, and that there were one or two of them. -/
theorem c14_half_accepts {e : ExpPoly} {names : List String} {m : String → Option ℝ} {r : ℝ}
    (h : e.integrateHalf R names m = .ok r) :
    (names.length = 1 ∨ names.length = 2) ∧ ∀ x ∈ names, e.poly.highestPower x = .ok 2 := by
  unfold ExpPoly.integrateHalf at h
  split at h
  · rename_i x
    unfold ExpPoly.integrateHalf1 at h
    obtain ⟨n, hn, h⟩ := bind1_ok h
    split at h
    · cases h
    rename_i hn2
    refine ⟨.inl rfl, fun z hz => ?_⟩
    rw [List.mem_singleton.1 hz, hn, not_not.1 hn2]
  · rename_i x y
    unfold ExpPoly.integrateHalf2 at h
    obtain ⟨n, hn, h⟩ := bind1_ok h
    split at h
    · cases h
    rename_i hn2
    obtain ⟨n', hn', h⟩ := bind1_ok h
    split at h
    · cases h
    rename_i hn2'
    refine ⟨.inr rfl, fun z hz => ?_⟩
    rcases List.mem_pair.1 hz with rfl | rfl
    · rw [hn, not_not.1 hn2]
    · rw [hn', not_not.1 hn2']
  · cases h

/-- The query fails with `ValueError`, not with a power, exactly for a polynomial without terms. -/
theorem highestPower_error {p : Poly ℝ} {x : String} {err : PyErr}
    (h : p.highestPower x = .error err) : p.terms = [] ∧ err = .valueError := by
  unfold Poly.highestPower at h
  split at h
  · rename_i hnil
    cases h
    exact ⟨by simpa using hnil, rfl⟩
  · cases h

/-- **C14 is false for the polynomial without terms**, e.g. `ExpPoly(x - x).integrate("y")`: the
exception is `ValueError` (from `max` of an empty list). -/
theorem c14_no_other_exception_false : ∃ e : ExpPoly, e.poly.Built procR ∧
    (∀ m, e.poly.eval m = .ok 0) ∧
    ∀ m, e.integrate procR ["x"] m = .error .valueError ∧
      e.integrateHalf procR ["x"] m = .error .valueError :=
  ⟨⟨1, ⟨[]⟩⟩, ⟨[], ⟨(fun _ h => by cases h), rfl⟩⟩, fun _ => rfl, fun _ => ⟨rfl, rfl⟩⟩

/-- A linear exponent is rejected. -/
example : ∃ p : Poly ℝ, p.Built procR ∧
    ∀ m, (⟨1, p⟩ : ExpPoly).integrate procR ["x"] m = .error .runtimeError := by
  obtain ⟨p, hp, hd, he⟩ := poly_of_expr procR (.var "y") (by simp [Expr.Simple]) (d := 1)
    (by simp [Expr.deg]) (by simp [Expr.IsPoly])
  have hne : p.terms ≠ [] := fun h => by
    have h1 := he fun _ => 1
    have : p = ⟨[]⟩ := by cases p; simpa using h
    rw [this] at h1
    have : (0 : ℝ) = 1 := Except.ok.inj h1
    norm_num at this
  obtain ⟨n, hn⟩ := Poly.highestPower_ok hne "x"
  obtain ⟨a, ha⟩ := Poly.collectFor_total _ hp.wf ⟨"x", 2⟩
  refine ⟨p, hp, c14_integrate_rejects (pre := []) (e' := ⟨1, p⟩) hp rfl hn ha (.inl ?_)⟩
  rintro rfl
  obtain ⟨t, ht, h2⟩ := (Poly.highestPower_eq hn).2
  have := Poly.degLE_highestPower hd "x" t ht
  omega

/-! ## C15 -/

/-- **C15.** The product of two `ExpPoly` objects exists and evaluates to the product. -/
theorem c15_mul {e f : ExpPoly} (he : e.poly.Built R) (hf : f.poly.Built R) :
    ∃ g, e.mul R f = .ok g ∧ g.poly.Built R ∧ ∀ m a b, e.eval m = .ok a → f.eval m = .ok b →
      g.eval m = .ok (a * b) := by
  obtain ⟨p, hp⟩ := (c84_linear_operations_partial he hf 0 (0 : ℝ)).1
  obtain ⟨hwf, hval⟩ := Poly.add_spec R he.wf hf.wf hp
  refine ⟨⟨e.const * f.const, p⟩, ?_, ?_, ?_⟩
  · simp only [ExpPoly.mul, hp, bind1_val]
  · exact Poly.add_built he hf hp
  · intro m a b ha hb
    obtain ⟨a', ha', ha⟩ := bind1_ok ha
    obtain ⟨b', hb', hb⟩ := bind1_ok hb
    cases ha
    cases hb
    let v : String → ℝ := fun z => (m z).getD 0
    have hv : ∀ z b, m z = some b → v z = b := fun z b h => by simp [v, h]
    obtain ⟨c, hc⟩ := (c08_eval_ok_iff p m).2 fun z hz => by
      rcases Poly.add_isFunctionOf he.wf hf.wf hp hz with h | h
      · exact (c08_eval_ok_iff _ _).1 ⟨_, ha'⟩ z h
      · exact (c08_eval_ok_iff _ _).1 ⟨_, hb'⟩ z h
    simp only [ExpPoly.eval, hc, bind1_val]
    rw [Poly.eval_extends hv hc, hval, ← Poly.eval_extends hv ha', ← Poly.eval_extends hv hb',
      Real.exp_add]
    congr 1
    ring

/-- **C15.** Scalar multiples and negations. -/
theorem c15_scalar (e : ExpPoly) (c : ℝ) {m : String → Option ℝ} {a : ℝ} (h : e.eval m = .ok a) :
    (e.mulNum c).eval m = .ok (c * a) ∧ e.neg.eval m = .ok (-a) := by
  obtain ⟨b, hb, h⟩ := bind1_ok h
  cases h
  constructor
  · simp only [ExpPoly.eval, ExpPoly.mulNum, hb, bind1_val]
    congr 1; ring
  · simp only [ExpPoly.eval, ExpPoly.neg, hb, bind1_val]
    congr 1; ring

end Gpcm
