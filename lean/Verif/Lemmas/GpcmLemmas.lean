import Verif.Model.GPCM
import Verif.Spec.GPCM
import Verif.Props.IntegralProps
import Mathlib.MeasureTheory.Integral.Prod

/-! # Helper lemmas about the GPCM model -/

open MeasureTheory Real

namespace Gpcm

variable {R : Runtime ℝ}

/-! ## Which variables an expression mentions -/

/-- The expression contains the variable. -/
def Expr.Mentions {K : Type} (z : String) : Expr K → Prop
  | .var x => z = x
  | .const _ => False
  | .int _ => False
  | .num _ => False
  | .add e f => e.Mentions z ∨ f.Mentions z
  | .sub e f => e.Mentions z ∨ f.Mentions z
  | .neg e => e.Mentions z
  | .mul e f => e.Mentions z ∨ f.Mentions z
  | .pow e _ => e.Mentions z

theorem Poly.neg_isFunctionOf {p r : Poly ℝ} (hp : p.WF R) (h : p.neg R = .ok r) {z : String}
    (hz : r.isFunctionOf z = true) : p.isFunctionOf z = true := by
  unfold Poly.neg at h
  rw [neg_terms] at h
  have hts : ∀ t ∈ p.terms.map fun t => termOf R (-t.const) t.factors, t.WF R := by
    intro t ht
    obtain ⟨s, hs, rfl⟩ := List.mem_map.1 ht
    exact termOf_wf R _ _ (hp.terms s hs).pos
  obtain ⟨t, ht, htz⟩ := Poly.new_isFunctionOf R hts h hz
  obtain ⟨s, hs, rfl⟩ := List.mem_map.1 ht
  obtain ⟨f, hf, hfz⟩ := List.any_eq_true.1 htz
  obtain ⟨g, hg, hgn⟩ := List.mem_map.1 (termOf_names_subset R hf)
  exact Poly.isFunctionOf_iff.2 ⟨s, hs, g, hg, hgn.trans (by simpa using hfz)⟩

theorem PyVal.neg_isFunctionOf {x r : PyVal ℝ} (hx : x.WF R) (h : PyVal.neg R x = .ok r)
    {z : String} (hz : r.isFunctionOf z) : x.isFunctionOf z := by
  cases x <;> simp only [PyVal.neg] at h
  case poly =>
    obtain ⟨q, hq, rfl⟩ := PyVal.lift_ok h
    exact Poly.neg_isFunctionOf hx hq hz
  all_goals cases h; exact hz

theorem PyVal.sub_isFunctionOf {x y r : PyVal ℝ} (hx : x.WF R) (hy : y.WF R)
    (h : PyVal.sub R x y = .ok r) {z : String} (hz : r.isFunctionOf z) :
    x.isFunctionOf z ∨ y.isFunctionOf z := by
  cases x with
  | poly p =>
    have h' : bind1 (PyVal.neg R y) (fun w => PyVal.add R (.poly p) w) = .ok r := by
      rw [← h]
      cases y <;> simp only [PyVal.sub, bind1] <;> (cases PyVal.neg R _ <;> rfl)
    obtain ⟨w, hw, h⟩ := bind1_ok h'
    · have h1 := PyVal.neg_spec R hy hw
      rcases PyVal.add_isFunctionOf hx h1.1 h hz with h2 | h2
      · exact .inl h2
      · exact .inr (PyVal.neg_isFunctionOf hy hw h2)
  | int n =>
    cases y with
    | poly q =>
      simp only [PyVal.sub] at h
      split at h
      · cases h
      · rename_i w hw
        have h1 := PyVal.neg_spec R hy hw
        rcases PyVal.add_isFunctionOf h1.1 (y := .int n) trivial h hz with h2 | h2
        · exact .inr (PyVal.neg_isFunctionOf hy hw h2)
        · exact h2.elim
    | int m => cases h; exact hz.elim
    | num c => cases h; exact hz.elim
  | num d =>
    cases y with
    | poly q =>
      simp only [PyVal.sub] at h
      split at h
      · cases h
      · rename_i w hw
        have h1 := PyVal.neg_spec R hy hw
        rcases PyVal.add_isFunctionOf h1.1 (y := .num d) trivial h hz with h2 | h2
        · exact .inr (PyVal.neg_isFunctionOf hy hw h2)
        · exact h2.elim
    | int m => cases h; exact hz.elim
    | num c => cases h; exact hz.elim

theorem Expr.run_isFunctionOf (e : Expr ℝ) : ∀ {x : PyVal ℝ}, e.run R = .ok x → ∀ {z : String},
    x.isFunctionOf z → e.Mentions z := by
  induction e with
  | var y =>
    intro x h z hz
    obtain ⟨p, hp, rfl⟩ := PyVal.lift_ok h
    exact Poly.var_isFunctionOf hp hz
  | const c =>
    intro x h z hz
    obtain ⟨p, hp, rfl⟩ := PyVal.lift_ok h
    have : p.isFunctionOf z = true := hz
    rw [Poly.const_isFunctionOf hp] at this
    cases this
  | int n => intro x h z hz; cases h; exact hz
  | num c => intro x h z hz; cases h; exact hz
  | add e f ihe ihf =>
    intro x h z hz
    obtain ⟨a, b, ha, hb, h⟩ := bind2_ok h
    exact (PyVal.add_isFunctionOf (e.run_spec R ha).1 (f.run_spec R hb).1 h hz).imp (ihe ha) (ihf hb)
  | sub e f ihe ihf =>
    intro x h z hz
    obtain ⟨a, b, ha, hb, h⟩ := bind2_ok h
    exact (PyVal.sub_isFunctionOf (e.run_spec R ha).1 (f.run_spec R hb).1 h hz).imp (ihe ha) (ihf hb)
  | neg e ihe =>
    intro x h z hz
    obtain ⟨a, ha, h⟩ := bind1_ok h
    exact ihe ha (PyVal.neg_isFunctionOf (e.run_spec R ha).1 h hz)
  | mul e f ihe ihf =>
    intro x h z hz
    obtain ⟨a, b, ha, hb, h⟩ := bind2_ok h
    exact (PyVal.mul_isFunctionOf (e.run_spec R ha).1 (f.run_spec R hb).1 h hz).imp (ihe ha) (ihf hb)
  | pow e n ihe =>
    intro x h z hz
    obtain ⟨a, ha, h⟩ := bind1_ok h
    cases a with
    | poly p => exact ihe ha (PyVal.powPoly_isFunctionOf (e.run_spec R ha).1 h hz)
    | int m => cases h; exact hz.elim
    | num c => cases h; exact hz.elim

/-! ## Exponentiated polynomials of degree two with a known meaning -/

/-- `e` is `k * exp f` and mentions only the variables in `V`. -/
structure Good (R : Runtime ℝ) (e : ExpPoly) (k : ℝ) (f : (String → ℝ) → ℝ) (V : List String) :
    Prop where
  built : e.poly.Built R
  deg : e.poly.degLE 2
  const : e.const = k
  eval : ∀ v, e.eval (env v) = .ok (k * exp (f v))
  vars : ∀ z, e.poly.isFunctionOf z = true → z ∈ V

theorem Good.free {e : ExpPoly} {k : ℝ} {f : (String → ℝ) → ℝ} {V : List String}
    (h : Good R e k f V) {z : String} (hz : z ∉ V) : e.poly.isFunctionOf z = false := by
  rw [Bool.eq_false_iff]
  exact fun h1 => hz (h.vars z h1)

theorem good_of_expr (R : Runtime ℝ) (k : ℝ) (e : Expr ℝ) (hs : e.Simple) (hd : e.deg ≤ 2)
    (hp : e.IsPoly) {V : List String} (hV : ∀ z, e.Mentions z → z ∈ V) :
    ∃ q, bind1 (e.run R) (ExpPoly.new k) = .ok q ∧ Good R q k (fun v => e.denote v) V := by
  obtain ⟨x, hx, hdx, _⟩ := e.run_total R hs
  obtain ⟨p, rfl⟩ := e.run_isPoly hp hx
  refine ⟨⟨k, p⟩, by rw [hx]; rfl, ⟨e.run_built hx, ?_, rfl, fun v => ?_, fun z hz => ?_⟩⟩
  · exact Poly.degLE_mono hdx hd
  · exact eval_of_poly (fun v => c01_expression_evaluates_faithfully R e hx v) v
  · exact hV z (e.run_isFunctionOf hx hz)

theorem Good.mul {e e' : ExpPoly} {k k' : ℝ} {f f' : (String → ℝ) → ℝ} {V V' : List String}
    (h : Good R e k f V) (h' : Good R e' k' f' V') :
    ∃ g, e.mul R e' = .ok g ∧ Good R g (k * k') (fun v => f v + f' v) (V ++ V') := by
  obtain ⟨g, hg, hb, he⟩ := c15_mul h.built h'.built
  refine ⟨g, hg, ?_⟩
  obtain ⟨p, hp, hgp⟩ := bind1_ok hg
  cases hgp
  refine ⟨hb, Poly.degLE_mono (Poly.add_degLE R h.built.wf h'.built.wf h.deg h'.deg hp) (by simp),
    by simp only [h.const, h'.const], fun v => ?_, fun z hz => ?_⟩
  · rw [he _ _ _ (h.eval v) (h'.eval v), exp_add]
    congr 1
    ring
  · rcases Poly.add_isFunctionOf h.built.wf h'.built.wf hp hz with h1 | h1
    · exact List.mem_append_left _ (h.vars z h1)
    · exact List.mem_append_right _ (h'.vars z h1)

theorem Good.congr {e : ExpPoly} {k k' : ℝ} {f f' : (String → ℝ) → ℝ} {V V' : List String}
    (h : Good R e k f V) (hk : k = k') (hf : ∀ v, f v = f' v) (hV : V ⊆ V') :
    Good R e k' f' V' := by
  obtain rfl : f = f' := funext hf
  subst hk
  exact ⟨h.built, h.deg, h.const, h.eval, fun z hz => hV (h.vars z hz)⟩

/-- The assignment given by keyword arguments. -/
def kwVal (l : List (String × ℝ)) : String → ℝ := fun z => (l.lookup z).getD 0

theorem kw_agrees (l : List (String × ℝ)) : Agrees (kwVal l) (kwargs l) := fun z b h => by
  unfold kwargs at h
  unfold kwVal
  rw [h]
  rfl

theorem Good.eval_kw {e : ExpPoly} {k : ℝ} {f : (String → ℝ) → ℝ} {V : List String}
    (h : Good R e k f V) {l : List (String × ℝ)} (hl : ∀ z ∈ V, kwargs l z ≠ none) :
    e.eval (kwargs l) = .ok (k * exp (f (kwVal l))) := by
  obtain ⟨a, ha⟩ := Poly.eval_ok_of (p := e.poly) (m := kwargs l) fun z hz => hl z (h.vars z hz)
  have : e.eval (kwargs l) = .ok (e.const * exp a) := by
    unfold ExpPoly.eval
    rw [ha, bind1_val]
  have h2 := ExpPoly.eval_extends (v := kwVal l) (kw_agrees l) this
  have h3 := fn_of_eval_at (h.eval (kwVal l))
  rw [this, h2, h3]

/-- Bounds on the curvature under which the clamp of `safe_sqrt` is inactive. -/
structure MildNeg (a : ℝ) : Prop where
  neg : a < 0
  lo : 1e-30 ≤ -a
  hi : -a ≤ 1e30

theorem MildNeg.two {a : ℝ} (h : MildNeg a) : 1e-30 ≤ -π / a := by
  refine clamp_of_le h.neg ?_
  have := h.hi
  have := Real.pi_gt_three
  norm_num at *
  nlinarith

theorem line_facts {k a : ℝ} (hk : k ≠ 0) (ha : MildNeg a) {x : String}
    {f : (String → ℝ) → ℝ} {b c : (String → ℝ) → ℝ}
    (hf : ∀ w s, f (Function.update w x s) = a * s ^ 2 + b w * s + c w) :
    (∀ w, Integrable fun t => k * exp (f (Function.update w x t))) ∧
    (∀ w, -(2 * π * 10 ^ 30) ≤ curvature (fun v => k * exp (f v)) x w) ∧
    ∀ w, ∫ t, k * exp (f (Function.update w x t)) =
      k * √(-π / a) * exp (-(b w) ^ 2 / (4 * a) + c w) := by
  refine ⟨fun w => ?_, fun w => ?_, fun w => ?_⟩
  · simp only [hf]
    exact (integrable_exp_quad ha.neg _ _).const_mul k
  · have hl : ∀ q, log (k * exp q) = log k + q := fun q => by
      rw [Real.log_mul hk (exp_pos _).ne', Real.log_exp]
    simp only [curvature, hf, hl]
    have := ha.hi
    have := Real.pi_gt_three
    norm_num at *
    nlinarith
  · simp only [hf]
    rw [integral_const_mul, integral_exp_quad ha.neg]
    ring

theorem Good.box1Inf {e : ExpPoly} {k : ℝ} {f : (String → ℝ) → ℝ} {V : List String}
    (h : Good R e k f V) (hk : k ≠ 0) {x : String} {l : List (String × ℝ)}
    (hl : ∀ z ∈ V, z ≠ x → kwargs l z ≠ none) {a : ℝ} (ha : MildNeg a) {b c : (String → ℝ) → ℝ}
    (hf : ∀ w s, f (Function.update w x s) = a * s ^ 2 + b w * s + c w) :
    e.integrate R [x] (kwargs l) =
        .ok (∫ s, k * exp (f (Function.update (kwVal l) x s))) ∧
      e.integrateBox R [(x, .inf, .inf)] (kwargs l) =
        .ok (∫ s, k * exp (f (Function.update (kwVal l) x s))) := by
  obtain ⟨h1, h2, -⟩ := line_facts hk ha hf
  have hconv : Converges [x] fun v => k * exp (f v) := ⟨h1, trivial⟩
  have hmild : Mild [x] fun v => k * exp (f v) := ⟨h2, trivial⟩
  have hm : ∀ z, z ∉ [x] → kwargs l z = none → e.poly.isFunctionOf z = false := fun z hz h0 =>
    h.free fun hzV => hl z hzV (by simpa using hz) h0
  constructor
  · obtain ⟨r, hr⟩ := c10_integrate_total h.built h.deg (by rw [h.const]; exact hk) h.eval hm hconv
      hmild
    rw [hr, c10_integrate h.built h.eval hr hconv hmild (kw_agrees l)]
    rfl
  · obtain ⟨r, hr⟩ := c13_integrate_box_zero_total (lims := [(x, .inf, .inf)]) h.built h.deg
      (by rw [h.const]; exact hk) h.eval (by simp [doublyInf, Lim.isInf]) hconv hmild hm
    rw [hr, c13_integrate_box_zero (lims := [(x, .inf, .inf)]) h.built h.eval (by simp [doublyInf, Lim.isInf]) hconv hmild hr
      (kw_agrees l)]
    rfl

theorem varLim {x : String} {p : Poly ℝ} (hp : Poly.var R x = .ok p) :
    (Lim.poly p).Built R ∧ (Lim.poly p).Affine ∧ (∀ z, z ≠ x → (Lim.poly p).FreeOf z) ∧
      ∀ v, (Lim.poly p).Means v (some (v x)) := by
  refine ⟨?_, ?_, ?_, ?_⟩
  · rintro q ⟨⟩; exact Poly.var_built hp
  · rintro q ⟨⟩; exact (Poly.var_single R hp).2
  · rintro z hz q ⟨⟩
    rw [Bool.eq_false_iff]
    exact fun h => hz (Poly.var_isFunctionOf hp h)
  · intro v
    have := c01_expression_evaluates_faithfully R (.var x) (x := .poly p) (by
      simp only [Expr.run, hp]; rfl) v
    exact ⟨_, this, rfl⟩

theorem Good.box1Var {e : ExpPoly} {k : ℝ} {f : (String → ℝ) → ℝ} {V : List String}
    (h : Good R e k f V) (hk : k ≠ 0) {x y : String} (hxy : y ≠ x) {l : List (String × ℝ)}
    (hl : ∀ z ∈ V, z ≠ x → kwargs l z ≠ none) (hy : kwargs l y ≠ none) {p : Poly ℝ}
    (hp : Poly.var R y = .ok p) {a b c : ℝ} (ha : MildNeg a)
    (hf : ∀ s, f (Function.update (kwVal l) x s) = a * s ^ 2 + b * s + c) :
    e.integrateBox R [(x, .inf, .poly p)] (kwargs l) =
      .ok (∫ s in Set.Iic (kwVal l y), k * exp (f (Function.update (kwVal l) x s))) := by
  obtain ⟨b1, b2, b3, b4⟩ := varLim hp
  have hlims : ([(x, Lim.inf, Lim.poly p)].filter fun l => !doublyInf l) =
      [(x, Lim.inf, Lim.poly p)] := by simp [doublyInf, Lim.isInf]
  have hnames : ([] : List String) = ([(x, Lim.inf, Lim.poly p)].filter doublyInf).map Prod.fst := by
    simp [doublyInf, Lim.isInf]
  have binf : Lim.inf.Built R := by rintro q ⟨⟩
  have ainf : Lim.inf.Affine := by rintro q ⟨⟩
  have finf : ∀ z, Lim.inf.FreeOf z := by rintro z q ⟨⟩
  have hq : ∀ s, iterInt [] (fun v => k * exp (f v)) (Function.update (kwVal l) x s) =
      k * exp (a * s ^ 2 + b * s + c) := fun s => by
    show k * exp (f _) = _
    rw [hf]
  obtain ⟨r, hr⟩ := c13_integrate_box_one_total h.built h.deg (by rw [h.const]; exact hk) h.eval
    hlims binf b1 ainf b2 (finf x) (b3 x hxy.symm) hnames trivial trivial (m := kwargs l)
    (fun z hz h0 => ⟨.inr (h.free fun hzV => hl z hzV hz h0), finf z, b3 z (by
      rintro rfl; exact hy h0)⟩) hk hq ha.neg
  rw [hr, c13_integrate_box_one_partial h.built h.eval hlims binf b1 (finf x) (b3 x hxy.symm) hnames
    trivial trivial hr (kw_agrees l) (l := none) (u := some (kwVal l y)) rfl (b4 _) (by simp) hq
    ha.neg ha.lo ha.two]
  rfl

theorem Good.box2Var {e : ExpPoly} {k : ℝ} {f : (String → ℝ) → ℝ} {V : List String}
    (h : Good R e k f V) (hk : k ≠ 0) {x x' y : String} (hxx : x ≠ x') (hxy : y ≠ x)
    (hxy' : y ≠ x') {l : List (String × ℝ)}
    (hl : ∀ z ∈ V, z ≠ x → z ≠ x' → kwargs l z ≠ none) (hy : kwargs l y ≠ none) {p : Poly ℝ}
    (hp : Poly.var R y = .ok p) {a11 a12 a22 b1 b2 c : ℝ}
    (hf : ∀ s t, f (Function.update (Function.update (kwVal l) x s) x' t) =
      biQuad a11 a12 a22 b1 b2 c s t)
    (h11 : 0 < a11) (h22 : 0 < a22) (hdet : 0 < a11 * a22 - a12 ^ 2)
    (c0 : 1e-30 ≤ a11 * a22 - a12 ^ 2) (c1 : 1e-30 ≤ a22 / (a11 * a22 - a12 ^ 2))
    (c2 : 1e-30 ≤ a11 / (a11 * a22 - a12 ^ 2))
    (c3 : 1e-30 ≤ a22 / (a11 * a22 - a12 ^ 2) * (a11 / (a11 * a22 - a12 ^ 2))) :
    e.integrateBox R [(x, .inf, .poly p), (x', .inf, .poly p)] (kwargs l) =
      .ok (∫ s in Set.Iic (kwVal l y), ∫ t in Set.Iic (kwVal l y),
        k * exp (f (Function.update (Function.update (kwVal l) x s) x' t))) := by
  obtain ⟨b1', b2', b3, b4⟩ := varLim hp
  have hlims : ([(x, Lim.inf, Lim.poly p), (x', Lim.inf, Lim.poly p)].filter
      fun l => !doublyInf l) = [(x, Lim.inf, Lim.poly p), (x', Lim.inf, Lim.poly p)] := by
    simp [doublyInf, Lim.isInf]
  have hnames : ([] : List String) =
      ([(x, Lim.inf, Lim.poly p), (x', Lim.inf, Lim.poly p)].filter doublyInf).map Prod.fst := by
    simp [doublyInf, Lim.isInf]
  have binf : Lim.inf.Built R := by rintro q ⟨⟩
  have ainf : Lim.inf.Affine := by rintro q ⟨⟩
  have finf : ∀ z, Lim.inf.FreeOf z := by rintro z q ⟨⟩
  have hq : ∀ s t, iterInt [] (fun v => k * exp (f v))
      (Function.update (Function.update (kwVal l) x s) x' t) =
      k * exp (biQuad a11 a12 a22 b1 b2 c s t) := fun s t => by
    show k * exp (f _) = _
    rw [hf]
  have fr : ∀ z, kwargs l z = none → (Lim.poly p).FreeOf z := fun z h0 => b3 z (by
    rintro rfl; exact hy h0)
  obtain ⟨r, hr⟩ := c13_integrate_box_two_total h.built h.deg (by rw [h.const]; exact hk) h.eval hxx
    hlims binf b1' binf b1' ainf b2' ainf b2' ⟨finf x, finf x'⟩ ⟨b3 x hxy.symm, b3 x' hxy'.symm⟩
    ⟨finf x, finf x'⟩ ⟨b3 x hxy.symm, b3 x' hxy'.symm⟩ hnames trivial trivial (m := kwargs l)
    (fun z hz hz' h0 => ⟨.inr (h.free fun hzV => hl z hzV hz hz' h0), ⟨finf z, fr z h0⟩, finf z,
      fr z h0⟩) hk hq h11 h22
  rw [hr, c13_integrate_box_two_partial h.built h.eval hxx hlims binf b1' binf b1'
    ⟨finf x, finf x'⟩ ⟨b3 x hxy.symm, b3 x' hxy'.symm⟩
    ⟨finf x, finf x'⟩ ⟨b3 x hxy.symm, b3 x' hxy'.symm⟩ hnames trivial trivial hr (kw_agrees l)
    (l := none) (u := some (kwVal l y)) (l' := none) (u' := some (kwVal l y)) rfl (b4 _) rfl (b4 _)
    (by simp) (by simp) hk hq h11 h22 hdet c0 c1 c2 c3]
  rfl

theorem Good.box2Inf {e : ExpPoly} {k : ℝ} {f : (String → ℝ) → ℝ} {V : List String}
    (h : Good R e k f V) (hk : k ≠ 0) {x x' : String} (hxx : x ≠ x') {l : List (String × ℝ)}
    (hl : ∀ z ∈ V, z ≠ x → z ≠ x' → kwargs l z ≠ none) {a a' : ℝ} (ha : MildNeg a)
    (ha' : MildNeg a') {b c b' c' : (String → ℝ) → ℝ}
    (hf : ∀ w s, f (Function.update w x s) = a * s ^ 2 + b w * s + c w)
    (hg : ∀ w t, -(b (Function.update w x' t)) ^ 2 / (4 * a) + c (Function.update w x' t) =
      a' * t ^ 2 + b' w * t + c' w) :
    e.integrateBox R [(x, .inf, .inf), (x', .inf, .inf)] (kwargs l) =
      .ok (∫ t, ∫ s, k * exp (f (Function.update (Function.update (kwVal l) x s) x' t))) := by
  obtain ⟨h1, h2, h3⟩ := line_facts hk ha hf
  have hk' : k * √(-π / a) ≠ 0 := mul_ne_zero hk (Real.sqrt_ne_zero'.2
    (div_pos_of_neg_of_neg (by linarith [Real.pi_pos]) ha.neg))
  obtain ⟨g1, g2, -⟩ := line_facts (x := x') hk' ha' (f := fun w => -(b w) ^ 2 / (4 * a) + c w) hg
  have hconv : Converges [x, x'] fun v => k * exp (f v) := by
    refine ⟨h1, ?_, trivial⟩
    simp only [h3]
    exact g1
  have hmild : Mild [x, x'] fun v => k * exp (f v) := by
    refine ⟨h2, ?_, trivial⟩
    simp only [h3]
    exact g2
  have hm : ∀ z, z ∉ [x, x'] → kwargs l z = none → e.poly.isFunctionOf z = false := fun z hz h0 =>
    h.free fun hzV => by
      simp only [List.mem_cons, List.not_mem_nil, or_false, not_or] at hz
      exact hl z hzV hz.1 hz.2 h0
  obtain ⟨r, hr⟩ := c13_integrate_box_zero_total (lims := [(x, .inf, .inf), (x', .inf, .inf)]) h.built
    h.deg (by rw [h.const]; exact hk) h.eval (by simp [doublyInf, Lim.isInf]) hconv hmild hm
  rw [hr, c13_integrate_box_zero (lims := [(x, .inf, .inf), (x', .inf, .inf)]) h.built h.eval
    (by simp [doublyInf, Lim.isInf]) hconv hmild hr (kw_agrees l)]
  show Except.ok (∫ t, ∫ s, k * exp (f (Function.update (Function.update (kwVal l) x' t) x s))) = _
  simp only [Function.update_comm hxx.symm]

/-! ## The causality constraint -/

theorem gate_causal {p : Spec.Params} (hc : p.causal = true) (t τ : ℝ) :
    Spec.gate p (t - τ) = (Set.Iic t).indicator 1 τ := by
  unfold Spec.gate
  by_cases h : τ ≤ t
  · rw [Set.indicator_of_mem (Set.mem_Iic.2 h), if_neg (by rintro ⟨-, h'⟩; linarith)]
    rfl
  · rw [Set.indicator_of_notMem (by simpa using h), if_pos ⟨hc, by linarith⟩]

theorem gate_acausal {p : Spec.Params} (hc : p.causal = false) (x : ℝ) : Spec.gate p x = 1 := by
  unfold Spec.gate
  rw [if_neg (by simp [hc])]

theorem integral_gate {p : Spec.Params} (hc : p.causal = true) (t : ℝ) (F : ℝ → ℝ) :
    ∫ τ, Spec.gate p (t - τ) * F τ = ∫ τ in Set.Iic t, F τ := by
  rw [← integral_indicator measurableSet_Iic]
  congr 1
  funext τ
  rw [gate_causal hc]
  by_cases h : τ ∈ Set.Iic t
  · rw [Set.indicator_of_mem h, Set.indicator_of_mem h, Pi.one_apply, one_mul]
  · rw [Set.indicator_of_notMem h, Set.indicator_of_notMem h, zero_mul]

theorem integral_gate2 {p : Spec.Params} (hc : p.causal = true) (t t' : ℝ) (F : ℝ → ℝ) :
    ∫ τ, Spec.gate p (t - τ) * Spec.gate p (t' - τ) * F τ = ∫ τ in Set.Iic (min t t'), F τ := by
  rw [← integral_gate hc]
  congr 1
  funext τ
  congr 1
  rw [gate_causal hc, gate_causal hc, gate_causal hc, ← Set.Iic_inter_Iic]
  by_cases h : τ ∈ Set.Iic t <;> by_cases h' : τ ∈ Set.Iic t' <;> simp_all

end Gpcm
