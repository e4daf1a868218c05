import Verif.Lemmas.IntLemmas

/-! # Helper lemmas: integrals of `ExpPoly` over boxes -/

open MeasureTheory Real

namespace Gpcm

variable {R : Runtime ℝ}

/-- The polynomial does not mention the variable. -/
def Lim.FreeOf (l : Lim) (x : String) : Prop := ∀ p, l = .poly p → p.isFunctionOf x = false

/-- A limit that is a number, infinite, or a polynomial object. -/
def Lim.WF (R : Runtime ℝ) (l : Lim) : Prop := ∀ p, l = .poly p → p.WF R

/-- Value of a limit. -/
noncomputable def Lim.at (l : Lim) (v : String → ℝ) : Option ℝ :=
  match l with
  | .inf => none
  | .num c => some c
  | .poly p => some (p.val v)

theorem Lim.asPoly_spec {l : Lim} {q : Poly ℝ} (hl : l.WF R) (h : l.asPoly R = .ok q) :
    q.WF R ∧ ∀ v, l.at v = some (q.val v) := by
  cases l with
  | inf => cases h
  | num c =>
    obtain ⟨p, hp, hwf, hval⟩ := Poly.const_spec R c
    have h : Poly.const R c = .ok q := h
    rw [hp] at h
    cases h
    exact ⟨hwf, fun v => by rw [hval]; rfl⟩
  | poly p => cases h; exact ⟨hl q rfl, fun v => rfl⟩

theorem Lim.at_update {l : Lim} {x : String} (h : l.FreeOf x) (v : String → ℝ) (s : ℝ) :
    l.at (Function.update v x s) = l.at v := by
  cases l with
  | inf => rfl
  | num c => rfl
  | poly p => simp only [Lim.at]; rw [Poly.val_update_of v s (h p rfl)]

theorem Poly.var_spec1 (x : String) :
    ∃ p, Poly.var R x = .ok p ∧ p.WF R ∧ ∀ v, p.val v = v x := by
  obtain ⟨p, h1, h2, h3⟩ := Poly.var_spec R x 1 le_rfl
  exact ⟨p, h1, h2, fun v => by rw [h3, pow_one]⟩

theorem ExpPoly.translateVar_spec {e e' : ExpPoly} {x : String} {q : Poly ℝ} (hp : e.poly.WF R)
    (hq : q.WF R) (h : e.translateVar R x q = .ok e') :
    e'.poly.WF R ∧ e'.const = e.const ∧
      ∀ w, e'.fn w = e.fn (Function.update w x (w x + q.val w)) := by
  unfold ExpPoly.translateVar at h
  obtain ⟨xv, hxv, h⟩ := bind1_ok h
  obtain ⟨s, hs, h⟩ := bind1_ok h
  obtain ⟨r, hr, h⟩ := bind1_ok h
  obtain ⟨p, hp1, hp2, hp3⟩ := Poly.var_spec1 (R := R) x
  rw [hxv] at hp1
  cases hp1
  have hadd := Poly.add_spec R hp2 hq hs
  have hsub := Poly.substitute_spec R hp hadd.1 hr
  cases r with
  | int n => cases h
  | num c => cases h
  | poly p' =>
    cases h
    refine ⟨hsub.1, rfl, fun w => ?_⟩
    have := hsub.2 w
    rw [hadd.2 w, hp3] at this
    simp only [ExpPoly.fn]
    rw [← this]
    rfl

/-- Signed finite end points of an interval: plus the upper one, minus the lower one. -/
def signedEnds (l u : Option ℝ) : List (ℝ × ℝ) :=
  (match u with | none => [] | some b => [(1, b)]) ++
    (match l with | none => [] | some a => [(-1, a)])

/-- The parts made from one part. -/
theorem boxSplit_spec {x : String} {l u : Lim} {e : ExpPoly} {ps : List ExpPoly}
    (hp : e.poly.WF R) (hl : l.WF R) (hu : u.WF R) (h : boxSplit R (x, l, u) e = .ok ps) :
    (∀ p ∈ ps, p.poly.WF R) ∧ ∀ w : String → ℝ,
      (∀ s, l.at (Function.update w x s) = l.at w) → (∀ s, u.at (Function.update w x s) = u.at w) →
      List.Forall₂ (fun (σ : ℝ × ℝ) (p : ExpPoly) => ∀ s,
        p.fn (Function.update w x s) = σ.1 * e.fn (Function.update w x (s + σ.2)))
        (signedEnds (l.at w) (u.at w)) ps := by
  unfold boxSplit at h
  obtain ⟨ups, hups, h⟩ := bind1_ok h
  obtain ⟨los, hlos, h⟩ := bind1_ok h
  cases h
  have key : ∀ (lim : Lim) (σ : ℝ) (f : ExpPoly → ExpPoly) (rs : List ExpPoly), lim.WF R →
      (∀ p, (f p).poly = p.poly) → (∀ p w, (f p).fn w = σ * p.fn w) →
      (if lim.isInf then .ok []
        else bind1 (lim.asPoly R) fun q => bind1 (e.translateVar R x q) fun ep => .ok [f ep]) =
          Except.ok rs →
      (∀ p ∈ rs, p.poly.WF R) ∧ ∀ w : String → ℝ,
        (∀ s, lim.at (Function.update w x s) = lim.at w) →
        List.Forall₂ (fun (σ : ℝ × ℝ) (p : ExpPoly) => ∀ s,
          p.fn (Function.update w x s) = σ.1 * e.fn (Function.update w x (s + σ.2)))
          (match lim.at w with | none => [] | some b => [(σ, b)]) rs := by
    intro lim σ f rs hlim hf1 hf2 hrs
    split at hrs
    · rename_i hinf
      cases hrs
      cases lim with
      | inf => exact ⟨by simp, fun w _ => .nil⟩
      | num c => cases hinf
      | poly p => cases hinf
    · obtain ⟨q, hq, hrs⟩ := bind1_ok hrs
      obtain ⟨ep, hep, hrs⟩ := bind1_ok hrs
      cases hrs
      have hqs := Lim.asPoly_spec hlim hq
      have hts := ExpPoly.translateVar_spec hp hqs.1 hep
      refine ⟨fun p hp => ?_, fun w hw => ?_⟩
      · rw [List.mem_singleton.1 hp, hf1]; exact hts.1
      · rw [hqs.2 w]
        refine .cons (fun s => ?_) .nil
        have hqw : q.val (Function.update w x s) = q.val w := by
          have := hw s
          rw [hqs.2, hqs.2] at this
          exact Option.some.inj this
        rw [hf2, hts.2.2, hqw]
        simp
  have k1 := key u 1 id ups hu (fun _ => rfl) (fun p w => by simp) hups
  have k2 := key l (-1) ExpPoly.neg los hl (fun _ => rfl)
    (fun p w => by simp [ExpPoly.fn, ExpPoly.neg]) hlos
  refine ⟨fun p hp => ?_, fun w hw1 hw2 => ?_⟩
  · rcases List.mem_append.1 hp with h | h
    · exact k1.1 p h
    · exact k2.1 p h
  · exact List.rel_append (k1.2 w hw2) (k2.2 w hw1)

/-- First loop of `integrate_box`. -/
theorem boxFilter_spec : ∀ (lims : List (String × Lim × Lim)) (e : ExpPoly)
    (acc : List (String × Lim × Lim)) (s : ExpPoly × List (String × Lim × Lim)),
    foldE (boxFilterStep R) (e, acc) lims = .ok s →
    foldE (fun eq x => eq.integrate1 R x) e ((lims.filter doublyInf).map Prod.fst) = .ok s.1 ∧
    s.2 = acc ++ lims.filter fun l => !doublyInf l
  | [], e, acc, s, h => by cases h; simp [foldE]
  | l :: ls, e, acc, s, h => by
    unfold foldE boxFilterStep at h
    by_cases hd : doublyInf l = true
    · simp only [hd, if_true] at h
      split at h
      · cases h
      rename_i s' hs'
      obtain ⟨ep, hep, hs'⟩ := bind1_ok hs'
      cases hs'
      obtain ⟨h1, h2⟩ := boxFilter_spec ls ep acc s h
      refine ⟨?_, by rw [h2]; simp [hd]⟩
      rw [List.filter_cons_of_pos hd]
      simp only [List.map_cons, foldE, hep]
      exact h1
    · simp only [hd] at h
      obtain ⟨h1, h2⟩ := boxFilter_spec ls e (acc ++ [l]) s h
      rw [List.filter_cons_of_neg hd]
      refine ⟨h1, ?_⟩
      rw [h2, List.filter_cons_of_pos (by simpa using hd)]
      simp

theorem boxFilter_total : ∀ (lims : List (String × Lim × Lim)) (e ep : ExpPoly)
    (acc : List (String × Lim × Lim)),
    foldE (fun eq x => eq.integrate1 R x) e ((lims.filter doublyInf).map Prod.fst) = .ok ep →
    foldE (boxFilterStep R) (e, acc) lims = .ok (ep, acc ++ lims.filter fun l => !doublyInf l)
  | [], e, ep, acc, h => by cases h; simp [foldE]
  | l :: ls, e, ep, acc, h => by
    rw [show l :: ls = [l] ++ ls from rfl] at h ⊢
    by_cases hd : doublyInf l = true
    · rw [List.singleton_append, List.filter_cons_of_pos hd] at h
      simp only [List.map_cons, foldE] at h
      split at h
      · cases h
      rename_i e1 he1
      have hstep : boxFilterStep R (e, acc) l = .ok (e1, acc) := by
        simp only [boxFilterStep, hd, if_true, he1, bind1]
      simp only [List.singleton_append, foldE, hstep]
      rw [boxFilter_total ls e1 ep acc h]
      simp [hd]
    · rw [List.singleton_append, List.filter_cons_of_neg hd] at h
      have hstep : boxFilterStep R (e, acc) l = .ok (e, acc ++ [l]) := by
        simp [boxFilterStep, hd]
      simp only [List.singleton_append, foldE, hstep]
      rw [List.filter_cons_of_pos (by simpa using hd)]
      have := boxFilter_total ls e ep (acc ++ [l]) h
      simpa using this

/-- The final loop sums the values of the parts. -/
theorem sumLoop_spec {Φ : ExpPoly → ℝ} {half : ExpPoly → Except PyErr ℝ} :
    ∀ (parts : List ExpPoly) (a r : ℝ), (∀ p ∈ parts, ∀ b, half p = .ok b → b = Φ p) →
    foldE (fun acc part => bind1 (half part) fun b => .ok (acc + b)) a parts = .ok r →
    r = a + (parts.map Φ).sum
  | [], a, r, _, h => by cases h; simp
  | p :: ps, a, r, hΦ, h => by
    unfold foldE at h
    split at h
    · cases h
    rename_i a' ha'
    obtain ⟨b, hb, ha'⟩ := bind1_ok ha'
    cases ha'
    have := sumLoop_spec ps _ r (fun p hp => hΦ p (List.mem_cons_of_mem _ hp)) h
    rw [this, hΦ p List.mem_cons_self b hb]
    simp [add_assoc]

theorem sumLoop_total {half : ExpPoly → Except PyErr ℝ} :
    ∀ (parts : List ExpPoly) (a : ℝ), (∀ p ∈ parts, ∃ b, half p = .ok b) →
    ∃ r, foldE (fun acc part => bind1 (half part) fun b => .ok (acc + b)) a parts = .ok r
  | [], a, _ => ⟨a, rfl⟩
  | p :: ps, a, h => by
    obtain ⟨b, hb⟩ := h p List.mem_cons_self
    obtain ⟨r, hr⟩ := sumLoop_total ps (a + b) fun q hq => h q (List.mem_cons_of_mem _ hq)
    refine ⟨r, ?_⟩
    unfold foldE
    simp only [hb, bind1]
    exact hr

/-- Integrals over an interval as signed sums of integrals up to the end points. -/
theorem boxInt_signed {f : ℝ → ℝ} (hf : Integrable f) {l u : Option ℝ} (hu : u ≠ none) :
    boxInt l u f = ((signedEnds l u).map fun σ => σ.1 * ∫ t in Set.Iic σ.2, f t).sum := by
  cases u with
  | none => exact absurd rfl hu
  | some b =>
    cases l with
    | none => simp [boxInt, signedEnds]
    | some a =>
      simp only [boxInt, signedEnds, List.singleton_append, List.map_cons, List.map_nil,
        List.sum_cons, List.sum_nil, one_mul, add_zero]
      rw [← intervalIntegral.integral_Iic_sub_Iic hf.integrableOn hf.integrableOn]
      ring

theorem integral_Iic_shift (f : ℝ → ℝ) (b : ℝ) :
    ∫ s in Set.Iic (0 : ℝ), f (s + b) = ∫ s in Set.Iic b, f s := integral_Iic_translate f b

theorem forall₂_map_sum {α β : Type} {P : α → β → Prop} {f : α → ℝ} {g : β → ℝ} {l : List α}
    {l' : List β} (h : List.Forall₂ P l l') (hfg : ∀ a b, P a b → g b = f a) :
    (l'.map g).sum = (l.map f).sum := by
  induction h with
  | nil => rfl
  | cons hab _ ih => simp [ih, hfg _ _ hab]

theorem forall₂_mem {α β : Type} {P : α → β → Prop} {l : List α} {l' : List β}
    (h : List.Forall₂ P l l') : ∀ b ∈ l', ∃ a ∈ l, P a b := by
  induction h with
  | nil => simp
  | cons hab _ ih =>
    intro b hb
    rcases List.mem_cons.1 hb with rfl | hb
    · exact ⟨_, List.mem_cons_self, hab⟩
    · obtain ⟨a, ha, hp⟩ := ih b hb
      exact ⟨a, List.mem_cons_of_mem _ ha, hp⟩

theorem signedEnds_sign {l u : Option ℝ} {σ : ℝ × ℝ} (h : σ ∈ signedEnds l u) : σ.1 ≠ 0 := by
  cases l <;> cases u <;> simp [signedEnds] at h
  · subst h; norm_num
  · subst h; norm_num
  · rcases h with rfl | rfl <;> norm_num

/-- One variable with a finite limit. -/
theorem box1_sum {e : ExpPoly} {x : String} {l u : Lim} (hp : e.poly.WF R) (hl : l.WF R)
    (hu : u.WF R) (fl : l.FreeOf x) (fu : u.FreeOf x)
    {m : String → Option ℝ} {v : String → ℝ} (hv : Extends v m) {parts : List ExpPoly} {r : ℝ}
    (hparts : boxParts R e [(x, l, u)] = .ok parts)
    (h : foldE (fun acc part => bind1 (part.integrateHalf R [x] m) fun r => .ok (acc + r)) 0 parts =
      .ok r) {k a b c : ℝ}
    (hf : ∀ s, e.fn (Function.update v x s) = k * exp (a * s ^ 2 + b * s + c))
    (ha : a < 0) (h1 : 1e-30 ≤ -a) (h2 : 1e-30 ≤ -π / a) :
    r = ((signedEnds (l.at v) (u.at v)).map fun σ =>
      σ.1 * ∫ s in Set.Iic σ.2, e.fn (Function.update v x s)).sum := by
  simp only [boxParts, foldE, mapE] at hparts
  split at hparts
  · cases hparts
  rename_i ps hps
  cases hparts
  obtain ⟨qs, hqs, hps⟩ := bind1_ok hps
  cases hps
  split at hqs
  · cases hqs
  rename_i ps hsp
  cases hqs
  obtain ⟨hwf, hrel⟩ := boxSplit_spec hp hl hu hsp
  have hrel := hrel v (fun s => Lim.at_update fl v s) (fun s => Lim.at_update fu v s)
  simp only [List.flatten_cons, List.flatten_nil, List.append_nil] at h
  rw [sumLoop_spec (Φ := fun p => ∫ s in Set.Iic 0, p.fn (Function.update v x s)) ps 0 r ?_ h,
    zero_add]
  · refine forall₂_map_sum hrel fun σ p hσ => ?_
    simp only [hσ, integral_const_mul]
    rw [integral_Iic_shift (fun s => e.fn (Function.update v x s))]
  · intro p hpm b' hb'
    obtain ⟨σ, _, hσ⟩ := forall₂_mem hrel p hpm
    refine ExpPoly.integrateHalf1_fn (hwf p hpm) hv hb' (k := σ.1 * k) (a := a)
      (b := 2 * a * σ.2 + b) (c := a * σ.2 ^ 2 + b * σ.2 + c) (fun s => ?_) ha h1 h2
    rw [hσ, hf, mul_assoc]
    congr 3
    ring

theorem mapE_forall₂ {α β : Type} {f : α → Except PyErr β} : ∀ {l : List α} {l' : List β},
    mapE f l = .ok l' → List.Forall₂ (fun a b => f a = .ok b) l l'
  | [], l', h => by cases h; exact .nil
  | a :: as, l', h => by
    unfold mapE at h
    split at h
    · cases h
    rename_i b hb
    split at h
    · cases h
    rename_i bs hbs
    cases h
    exact .cons hb (mapE_forall₂ hbs)

theorem biQuad_shift (a11 a12 a22 b1 b2 c s t p q : ℝ) :
    biQuad a11 a12 a22 b1 b2 c (s + p) (t + q) =
      biQuad a11 a12 a22 (b1 - a11 * p - a12 * q) (b2 - a12 * p - a22 * q)
        (biQuad a11 a12 a22 b1 b2 c p q) s t := by
  unfold biQuad; ring

theorem flatten_sum {Φ : ExpPoly → ℝ} (qs : List (List ExpPoly)) :
    (qs.flatten.map Φ).sum = (qs.map fun ps => (ps.map Φ).sum).sum := by
  induction qs with
  | nil => rfl
  | cons p ps ih => simp only [List.flatten_cons, List.map_append, List.sum_append, ih, List.map_cons, List.sum_cons]

/-- Two variables with a finite limit. -/
theorem box2_sum {e : ExpPoly} {x y : String} (hxy : x ≠ y) {l u l' u' : Lim} (hp : e.poly.WF R)
    (hl : l.WF R) (hu : u.WF R) (hl' : l'.WF R) (hu' : u'.WF R)
    (fl : l.FreeOf x ∧ l.FreeOf y) (fu : u.FreeOf x ∧ u.FreeOf y)
    (fl' : l'.FreeOf x ∧ l'.FreeOf y) (fu' : u'.FreeOf x ∧ u'.FreeOf y)
    {m : String → Option ℝ} {v : String → ℝ} (hv : Extends v m) {parts : List ExpPoly} {r : ℝ}
    (hparts : boxParts R e [(x, l, u), (y, l', u')] = .ok parts)
    (h : foldE (fun acc part => bind1 (part.integrateHalf R [x, y] m) fun r => .ok (acc + r)) 0
      parts = .ok r) {k a11 a12 a22 b1 b2 c : ℝ} (hk : k ≠ 0)
    (hf : ∀ s t, e.fn (Function.update (Function.update v x s) y t) =
      k * exp (biQuad a11 a12 a22 b1 b2 c s t))
    (h11 : 0 < a11) (h22 : 0 < a22) (hdet : 0 < a11 * a22 - a12 ^ 2)
    (c0 : 1e-30 ≤ a11 * a22 - a12 ^ 2) (c1 : 1e-30 ≤ a22 / (a11 * a22 - a12 ^ 2))
    (c2 : 1e-30 ≤ a11 / (a11 * a22 - a12 ^ 2))
    (c3 : 1e-30 ≤ a22 / (a11 * a22 - a12 ^ 2) * (a11 / (a11 * a22 - a12 ^ 2))) :
    r = ((signedEnds (l.at v) (u.at v)).map fun σ => σ.1 *
      ((signedEnds (l'.at v) (u'.at v)).map fun τ => τ.1 *
        ∫ s in Set.Iic σ.2, ∫ t in Set.Iic τ.2,
          e.fn (Function.update (Function.update v x s) y t)).sum).sum := by
  simp only [boxParts, foldE] at hparts
  split at hparts
  · cases hparts
  rename_i ps1 hps1
  obtain ⟨qs1, hqs1, hps1⟩ := bind1_ok hps1
  cases hps1
  split at hparts
  · cases hparts
  rename_i ps2 hps2
  cases hparts
  obtain ⟨qs2, hqs2, hps2⟩ := bind1_ok hps2
  cases hps2
  simp only [mapE] at hqs1
  split at hqs1
  · cases hqs1
  rename_i ps hsp
  cases hqs1
  simp only [List.flatten_cons, List.flatten_nil, List.append_nil] at hqs2
  obtain ⟨hwf, hrel⟩ := boxSplit_spec hp hl hu hsp
  have hrel2 := mapE_forall₂ hqs2
  have hat : ∀ (lim : Lim), lim.FreeOf x ∧ lim.FreeOf y → ∀ s t,
      lim.at (Function.update (Function.update v x s) y t) = lim.at v := fun lim hlim s t => by
    rw [Lim.at_update hlim.2, Lim.at_update hlim.1]
  -- the first split, at every value of the second variable
  have hsplit1 : List.Forall₂ (fun (σ : ℝ × ℝ) (p : ExpPoly) => ∀ s t,
      p.fn (Function.update (Function.update v x s) y t) =
        σ.1 * e.fn (Function.update (Function.update v x (s + σ.2)) y t))
      (signedEnds (l.at v) (u.at v)) ps := by
    have hall : ∀ t, List.Forall₂ (fun (σ : ℝ × ℝ) (p : ExpPoly) => ∀ s,
        p.fn (Function.update (Function.update v x s) y t) =
          σ.1 * e.fn (Function.update (Function.update v x (s + σ.2)) y t))
        (signedEnds (l.at v) (u.at v)) ps := by
      intro t
      have := hrel (Function.update v y t)
        (fun s => by rw [Lim.at_update fl.1]) (fun s => by rw [Lim.at_update fu.1])
      rw [Lim.at_update fl.2, Lim.at_update fu.2] at this
      refine this.imp fun σ p hσ s => ?_
      have := hσ s
      rwa [Function.update_comm hxy.symm, Function.update_comm hxy.symm] at this
    have hgen : ∀ (A : List (ℝ × ℝ)) (B : List ExpPoly),
        (∀ t, List.Forall₂ (fun (σ : ℝ × ℝ) (p : ExpPoly) => ∀ s,
          p.fn (Function.update (Function.update v x s) y t) =
          σ.1 * e.fn (Function.update (Function.update v x (s + σ.2)) y t)) A B) →
        List.Forall₂ (fun (σ : ℝ × ℝ) (p : ExpPoly) => ∀ s t,
          p.fn (Function.update (Function.update v x s) y t) =
          σ.1 * e.fn (Function.update (Function.update v x (s + σ.2)) y t)) A B := by
      intro A
      induction A with
      | nil => intro B hB; cases hB 0; exact .nil
      | cons σ A ih =>
        intro B hB
        cases B with
        | nil => cases hB 0
        | cons p B =>
          refine .cons (fun s t => ?_) (ih B fun t => ?_)
          · have := hB t; cases this; rename_i h _; exact h s
          · have := hB t; cases this; assumption
    exact hgen _ _ hall
  -- the second split, for each part
  have hsplit2 : ∀ p ∈ ps, ∀ qs, boxSplit R (y, l', u') p = .ok qs →
      (∀ q ∈ qs, q.poly.WF R) ∧ List.Forall₂ (fun (τ : ℝ × ℝ) (q : ExpPoly) => ∀ s t,
        q.fn (Function.update (Function.update v x s) y t) =
          τ.1 * p.fn (Function.update (Function.update v x s) y (t + τ.2)))
        (signedEnds (l'.at v) (u'.at v)) qs := by
    intro p hpm qs hqs
    obtain ⟨hw, hr⟩ := boxSplit_spec (hwf p hpm) hl' hu' hqs
    refine ⟨hw, ?_⟩
    have hall : ∀ s, List.Forall₂ (fun (τ : ℝ × ℝ) (q : ExpPoly) => ∀ t,
        q.fn (Function.update (Function.update v x s) y t) =
          τ.1 * p.fn (Function.update (Function.update v x s) y (t + τ.2)))
        (signedEnds (l'.at v) (u'.at v)) qs := by
      intro s
      have := hr (Function.update v x s)
        (fun t => by rw [Lim.at_update fl'.2]) (fun t => by rw [Lim.at_update fu'.2])
      rwa [Lim.at_update fl'.1, Lim.at_update fu'.1] at this
    have hgen : ∀ (A : List (ℝ × ℝ)) (B : List ExpPoly),
        (∀ s, List.Forall₂ (fun (τ : ℝ × ℝ) (q : ExpPoly) => ∀ t,
          q.fn (Function.update (Function.update v x s) y t) =
          τ.1 * p.fn (Function.update (Function.update v x s) y (t + τ.2))) A B) →
        List.Forall₂ (fun (τ : ℝ × ℝ) (q : ExpPoly) => ∀ s t,
          q.fn (Function.update (Function.update v x s) y t) =
          τ.1 * p.fn (Function.update (Function.update v x s) y (t + τ.2))) A B := by
      intro A
      induction A with
      | nil => intro B hB; cases hB 0; exact .nil
      | cons σ A ih =>
        intro B hB
        cases B with
        | nil => cases hB 0
        | cons p B =>
          refine .cons (fun s t => ?_) (ih B fun t => ?_)
          · have := hB s; cases this; rename_i h _; exact h t
          · have := hB t; cases this; assumption
    exact hgen _ _ hall
  set Φ : ExpPoly → ℝ := fun q => ∫ s in Set.Iic 0, ∫ t in Set.Iic 0,
    q.fn (Function.update (Function.update v x s) y t) with hΦ
  have hcorrect : ∀ q ∈ qs2.flatten, ∀ b, q.integrateHalf R [x, y] m = .ok b → b = Φ q := by
    intro q hq b hb
    obtain ⟨qs, hqs, hqm⟩ := List.mem_flatten.1 hq
    obtain ⟨p, hpm, hpq⟩ := forall₂_mem hrel2 qs hqs
    obtain ⟨hw, hr2⟩ := hsplit2 p hpm qs hpq
    obtain ⟨τ, hτm, hτ⟩ := forall₂_mem hr2 q hqm
    obtain ⟨σ, hσm, hσ⟩ := forall₂_mem hsplit1 p hpm
    refine ExpPoly.integrateHalf2_fn hxy (hw q hqm) hv hb (k := τ.1 * (σ.1 * k))
      (mul_ne_zero (signedEnds_sign hτm) (mul_ne_zero (signedEnds_sign hσm) hk))
      (a11 := a11) (a12 := a12) (a22 := a22)
      (b1 := b1 - a11 * σ.2 - a12 * τ.2) (b2 := b2 - a12 * σ.2 - a22 * τ.2)
      (c := biQuad a11 a12 a22 b1 b2 c σ.2 τ.2) (fun s t => ?_) h11 h22 hdet c0 c1 c2 c3
    rw [hτ, hσ, hf, biQuad_shift]
    ring
  rw [sumLoop_spec (Φ := Φ) _ 0 r hcorrect h, zero_add, flatten_sum]
  have e1 : (qs2.map fun qs => (qs.map Φ).sum).sum = (ps.map fun p =>
      ((signedEnds (l'.at v) (u'.at v)).map fun τ => τ.1 *
        ∫ s in Set.Iic 0, ∫ t in Set.Iic τ.2,
          p.fn (Function.update (Function.update v x s) y t)).sum).sum := by
    have hmem : List.Forall₂ (fun p qs => p ∈ ps ∧ boxSplit R (y, l', u') p = .ok qs) ps qs2 := by
      have : ∀ (A : List ExpPoly) (B : List (List ExpPoly)),
          List.Forall₂ (fun p qs => boxSplit R (y, l', u') p = .ok qs) A B → (∀ p ∈ A, p ∈ ps) →
          List.Forall₂ (fun p qs => p ∈ ps ∧ boxSplit R (y, l', u') p = .ok qs) A B := by
        intro A B hAB
        induction hAB with
        | nil => intro _; exact .nil
        | cons hab _ ih =>
          intro hA
          exact .cons ⟨hA _ List.mem_cons_self, hab⟩ (ih fun p hp => hA p (List.mem_cons_of_mem _ hp))
      exact this _ _ hrel2 fun p hp => hp
    refine forall₂_map_sum hmem fun p qs hpq => ?_
    refine forall₂_map_sum (hsplit2 p hpq.1 qs hpq.2).2 fun τ q hτ => ?_
    simp only [hΦ, hτ, integral_const_mul]
    congr 2
    funext s
    exact integral_Iic_shift (fun t => p.fn (Function.update (Function.update v x s) y t)) τ.2
  rw [e1]
  refine forall₂_map_sum hsplit1 fun σ p hσ => ?_
  rw [← List.sum_map_mul_left]
  congr 1
  refine List.map_congr_left fun τ _ => ?_
  simp only [hσ, integral_const_mul]
  rw [integral_Iic_shift (fun s => ∫ t in Set.Iic τ.2,
    e.fn (Function.update (Function.update v x s) y t)) σ.2]
  ring

/-- Integral over a rectangle as a signed sum. -/
theorem boxInt2_signed {f : ℝ → ℝ → ℝ} (hf : Integrable fun z : ℝ × ℝ => f z.1 z.2)
    (hf2 : ∀ s, Integrable (f s)) {l u l' u' : Option ℝ} (hu : u ≠ none) (hu' : u' ≠ none) :
    boxInt l u (fun s => boxInt l' u' (f s)) =
      ((signedEnds l u).map fun σ => σ.1 * ((signedEnds l' u').map fun τ => τ.1 *
        ∫ s in Set.Iic σ.2, ∫ t in Set.Iic τ.2, f s t).sum).sum := by
  have hin : ∀ q : ℝ, Integrable fun s => ∫ t in Set.Iic q, f s t := by
    intro q
    have h1 : IntegrableOn (fun z : ℝ × ℝ => f z.1 z.2) (Set.univ ×ˢ Set.Iic q) := hf.integrableOn
    unfold IntegrableOn at h1
    rw [show (volume : Measure (ℝ × ℝ)) = volume.prod volume from rfl,
      ← Measure.prod_restrict, Measure.restrict_univ] at h1
    exact h1.integral_prod_left
  have hsum : (fun s => boxInt l' u' (f s)) = fun s =>
      ((signedEnds l' u').map fun τ => τ.1 * ∫ t in Set.Iic τ.2, f s t).sum :=
    funext fun s => boxInt_signed (hf2 s) hu'
  have hint : ∀ L : List (ℝ × ℝ), Integrable (fun s =>
        (L.map fun τ => τ.1 * ∫ t in Set.Iic τ.2, f s t).sum) ∧ ∀ b : ℝ,
      ∫ s in Set.Iic b, (L.map fun τ => τ.1 * ∫ t in Set.Iic τ.2, f s t).sum =
        (L.map fun τ => τ.1 * ∫ s in Set.Iic b, ∫ t in Set.Iic τ.2, f s t).sum := by
    intro L
    induction L with
    | nil => simp
    | cons τ L ih =>
      simp only [List.map_cons, List.sum_cons]
      refine ⟨((hin τ.2).const_mul τ.1).add ih.1, fun b => ?_⟩
      rw [integral_add ((hin τ.2).const_mul τ.1).integrableOn ih.1.integrableOn,
        integral_const_mul, ih.2]
  rw [hsum, boxInt_signed (hint _).1 hu]
  congr 1
  refine List.map_congr_left fun σ _ => ?_
  rw [(hint _).2]

end Gpcm
