import Verif.Lemmas.IntBox
import Verif.Lemmas.ExprPoly

/-! # Helper lemmas: when the integrals of `ExpPoly` are computed without an exception -/

open MeasureTheory Real

namespace Gpcm

theorem bind1_val {α β : Type} (a : α) (f : α → Except PyErr β) : bind1 (.ok a) f = f a := rfl

section
variable {K : Type} [CommRing K] {R : Runtime K}

theorem card_monoOf (fs : List Factor) : (monoOf fs).card = (fs.map Factor.power).sum := by
  unfold monoOf
  induction fs with
  | nil => rfl
  | cons f fs ih => simp [ih]

theorem splitLoop_card (x : String) : ∀ (fs acc : List Factor) (n : ℕ),
    let r := fs.foldl
      (fun acc f => if f.name = x then (acc.1, f.power) else (acc.1 ++ [f], acc.2)) (acc, n)
    (r.1.map Factor.power).sum + r.2 ≤ (acc.map Factor.power).sum + n + (fs.map Factor.power).sum
  | [], acc, n => by simp
  | f :: fs, acc, n => by
    simp only [List.foldl_cons, List.map_cons, List.sum_cons]
    by_cases hf : f.name = x
    · have := splitLoop_card x fs acc f.power
      simp only [hf, if_true]
      simp only at this
      omega
    · have := splitLoop_card x fs (acc ++ [f]) n
      simp only [hf, if_false]
      simp only [List.map_append, List.sum_append, List.map_cons, List.map_nil, List.sum_cons,
        List.sum_nil] at this
      omega

theorem Term.substitute_total {t : Term K} (ht : t.WF R) {q : Poly K} (hq : q.WF R)
    (dq : q.degLE 1) (dt : t.mono.card ≤ 2) (x : String) :
    ∃ r, t.substitute R x q = .ok r ∧ r.Deg 2 := by
  unfold Term.substitute
  have hsplit := splitLoop_card x t.factors [] 0
  have hc : t.mono.card = (t.factors.map Factor.power).sum := card_monoOf _
  have hspl : ((t.splitFactors x).1.map Factor.power).sum + (t.splitFactors x).2 ≤ 2 := by
    unfold Term.splitFactors
    simp only [List.map_nil, List.sum_nil, zero_add] at hsplit
    omega
  have hpos : ∀ f ∈ (t.splitFactors x).1, 1 ≤ f.power := fun f hf =>
    ht.pos f ((splitFactors_spec t x ht.names).1 f hf)
  have hwf := termOf_wf R t.const (t.splitFactors x).1 hpos
  simp only [Term.new_eq]
  obtain ⟨p', hp', hs'⟩ := Poly.new_single R hwf
  have hpwf : p'.WF R := Poly.new_wf R (fun s hs => by rw [List.mem_singleton.1 hs]; exact hwf) hp'
  have hpd : p'.degLE ((t.splitFactors x).1.map Factor.power).sum :=
    Poly.new_degLE R (fun s hs => by rw [List.mem_singleton.1 hs]; exact hwf) hp' fun s hs => by
      rw [List.mem_singleton.1 hs, ← card_monoOf]
      exact termOf_card_le R _ _
  simp only [hp']
  obtain ⟨z, hz, hzd, _⟩ := PyVal.powPoly_total R (n := (t.splitFactors x).2) hq dq
    (.inr (.inr (.inr ⟨le_rfl, by omega⟩)))
  simp only [hz]
  have hzwf := (PyVal.powPoly_spec R hq hz).1
  obtain ⟨w, hw, hwd, _⟩ := PyVal.mul_total R (x := .poly p') (y := z) hpwf hzwf hpd hzd
    (.inr (.inl hs'))
  refine ⟨w, hw, ?_⟩
  cases w with
  | poly w => exact Poly.degLE_mono hwd (by omega)
  | int n => trivial
  | num c => trivial

theorem Poly.substitute_total {p q : Poly K} (hp : p.WF R) (dp : p.degLE 2) (hq : q.WF R)
    (dq : q.degLE 1) (x : String) : ∃ r, p.substitute R x q = .ok r ∧ r.Deg 2 := by
  unfold Poly.substitute
  have key : ∀ (ts : List (Term K)) (acc : PyVal K), (∀ t ∈ ts, t.WF R ∧ t.mono.card ≤ 2) →
      acc.WF R → acc.Deg 2 → ∃ r, foldE (fun acc t => match t.substitute R x q with
        | .error e => .error e
        | .ok r => PyVal.add R acc r) acc ts = .ok r ∧ r.Deg 2 := by
    intro ts
    induction ts with
    | nil => intro acc _ _ hd; exact ⟨acc, rfl, hd⟩
    | cons t ts ih =>
      intro acc hts hwf hd
      obtain ⟨r, hr, hrd⟩ := Term.substitute_total (hts t List.mem_cons_self).1 hq dq
        (hts t List.mem_cons_self).2 x
      have hrwf := (Term.substitute_spec R (hts t List.mem_cons_self).1 hq hr).1
      obtain ⟨z, hz, hzd⟩ := PyVal.add_total R hwf hrwf hd hrd
      have hzwf := (PyVal.add_spec R hwf hrwf hz).1
      obtain ⟨r', hr', hd'⟩ := ih z (fun s hs => hts s (List.mem_cons_of_mem _ hs)) hzwf hzd
      refine ⟨r', ?_, hd'⟩
      unfold foldE
      simp only [hr, hz]
      exact hr'
  exact key p.terms (.int 0) (fun t ht => ⟨hp.terms t ht, dp t ht⟩) trivial trivial

theorem Poly.reject_isFunctionOf_of {p q : Poly K} {x y : String} (hp : p.WF R)
    (h : p.reject R x = .ok q) (hy : p.isFunctionOf y = false) : q.isFunctionOf y = false := by
  rw [Bool.eq_false_iff]
  intro hx
  obtain ⟨t, ht, htx⟩ := Poly.new_isFunctionOf R
    (fun t ht => hp.terms t (List.mem_filter.1 ht).1) h hx
  have : p.isFunctionOf y = true := List.any_eq_true.2 ⟨t, (List.mem_filter.1 ht).1, htx⟩
  rw [hy] at this
  cases this

theorem Poly.collectFor_isFunctionOf_of {p q : Poly K} {f : Factor} {y : String} (hp : p.WF R)
    (h : p.collectFor R f = .ok q) (hy : p.isFunctionOf y = false) : q.isFunctionOf y = false := by
  rw [Bool.eq_false_iff]
  intro hx
  unfold Poly.collectFor at h
  rw [collect_terms] at h
  obtain ⟨t, ht, htx⟩ := Poly.new_isFunctionOf R (fun t ht => by
    obtain ⟨s, hs, rfl⟩ := List.mem_map.1 ht
    exact collectedTerm_wf R (hp.terms s (List.mem_filter.1 hs).1) f) h hx
  obtain ⟨s, hs, rfl⟩ := List.mem_map.1 ht
  obtain ⟨g, hg, hgy⟩ := List.any_eq_true.1 htx
  obtain ⟨g', hg', hgn'⟩ := List.mem_map.1 (termOf_names_subset R hg)
  have hgs := (List.mem_filter.1 (R.mem_iff.1 hg')).1
  have : p.isFunctionOf y = true := Poly.isFunctionOf_iff.2
    ⟨s, (List.mem_filter.1 hs).1, g', hgs, hgn'.trans (by simpa using hgy)⟩
  rw [hy] at this
  cases this

end

variable {R : Runtime ℝ}

/-! ## Which variables the result of an integration mentions -/

theorem Poly.add_isFunctionOf {p q r : Poly ℝ} (hp : p.WF R) (hq : q.WF R)
    (h : p.add R q = .ok r) {z : String} (hz : r.isFunctionOf z = true) :
    p.isFunctionOf z = true ∨ q.isFunctionOf z = true := by
  obtain ⟨t, ht, htz⟩ := Poly.new_isFunctionOf R (fun t ht => by
    rcases List.mem_append.1 ht with h | h
    · exact hp.terms t h
    · exact hq.terms t h) h hz
  rcases List.mem_append.1 ht with h | h
  · exact .inl (List.any_eq_true.2 ⟨t, h, htz⟩)
  · exact .inr (List.any_eq_true.2 ⟨t, h, htz⟩)

theorem Poly.mul_isFunctionOf {p q r : Poly ℝ} (hp : p.WF R) (hq : q.WF R)
    (h : p.mul R q = .ok r) {z : String} (hz : r.isFunctionOf z = true) :
    p.isFunctionOf z = true ∨ q.isFunctionOf z = true := by
  unfold Poly.mul at h
  rw [mul_terms] at h
  obtain ⟨t, ht, htz⟩ := Poly.new_isFunctionOf R (mul_terms_wf R hp hq) h hz
  obtain ⟨ts, hts, rfl⟩ := List.mem_map.1 ht
  obtain ⟨t, ht', hts⟩ := List.mem_flatMap.1 hts
  obtain ⟨s, hs', rfl⟩ := List.mem_map.1 hts
  obtain ⟨f, hf, hfz⟩ := List.any_eq_true.1 htz
  obtain ⟨g, hg, hgn⟩ := List.mem_map.1 (termOf_names_subset R hf)
  have hfz : f.name = z := by simpa using hfz
  rcases List.mem_append.1 hg with h | h
  · exact .inl (Poly.isFunctionOf_iff.2 ⟨t, ht', g, h, hgn.trans hfz⟩)
  · exact .inr (Poly.isFunctionOf_iff.2 ⟨s, hs', g, h, hgn.trans hfz⟩)

/-- The value mentions the variable. -/
def PyVal.isFunctionOf (x : PyVal ℝ) (z : String) : Prop :=
  match x with
  | .poly p => p.isFunctionOf z = true
  | _ => False

theorem Poly.const_isFunctionOf {c : ℝ} {p : Poly ℝ} (h : Poly.const R c = .ok p) (z : String) :
    p.isFunctionOf z = false := by
  obtain ⟨q, hq, hwf, _⟩ := Poly.const_spec R c
  rw [h] at hq
  cases hq
  exact Poly.isConstant_iff.1 (Poly.degLE_zero_isConstant hwf (Poly.const_degLE R h)) z

theorem PyVal.mul_isFunctionOf {x y r : PyVal ℝ} (hx : x.WF R) (hy : y.WF R)
    (h : PyVal.mul R x y = .ok r) {z : String} (hz : r.isFunctionOf z) :
    x.isFunctionOf z ∨ y.isFunctionOf z := by
  have hint : ∀ {p : Poly ℝ} {n : ℤ}, p.WF R → PyVal.lift (PyVal.mulInt R p n) = .ok r →
      p.isFunctionOf z = true := by
    intro p n hp h
    obtain ⟨q, hq, rfl⟩ := PyVal.lift_ok h
    unfold PyVal.mulInt at hq
    split at hq
    · cases hq; exact hz
    · split at hq
      · cases hq
      · rename_i c hc
        obtain ⟨c', hc', hwf, _⟩ := Poly.const_spec R (n : ℝ)
        rw [hc] at hc'
        cases hc'
        rcases Poly.mul_isFunctionOf hp hwf hq hz with h | h
        · exact h
        · rw [Poly.const_isFunctionOf hc] at h; cases h
  have hnum : ∀ {p : Poly ℝ} {d : ℝ}, p.WF R → PyVal.lift (PyVal.mulNum R p d) = .ok r →
      p.isFunctionOf z = true := by
    intro p n hp h
    obtain ⟨q, hq, rfl⟩ := PyVal.lift_ok h
    unfold PyVal.mulNum at hq
    split at hq
    · cases hq
    · rename_i c hc
      obtain ⟨c', hc', hwf, _⟩ := Poly.const_spec R n
      rw [hc] at hc'
      cases hc'
      rcases Poly.mul_isFunctionOf hp hwf hq hz with h | h
      · exact h
      · rw [Poly.const_isFunctionOf hc] at h; cases h
  cases x with
  | poly p =>
    cases y with
    | poly q =>
      obtain ⟨s, hs, rfl⟩ := PyVal.lift_ok h
      exact Poly.mul_isFunctionOf hx hy hs hz
    | int n => exact .inl (hint hx h)
    | num c => exact .inl (hnum hx h)
  | int n =>
    cases y with
    | poly q => exact .inr (hint hy h)
    | int n => cases h; exact hz.elim
    | num c => cases h; exact hz.elim
  | num c =>
    cases y with
    | poly q => exact .inr (hnum hy h)
    | int n => cases h; exact hz.elim
    | num c => cases h; exact hz.elim

theorem PyVal.powPoly_isFunctionOf {p : Poly ℝ} (hp : p.WF R) {n : ℤ} {r : PyVal ℝ}
    (h : PyVal.powPoly R p n = .ok r) {z : String} (hz : r.isFunctionOf z) :
    p.isFunctionOf z = true := by
  unfold PyVal.powPoly at h
  split at h
  · cases h
  have key : ∀ (k : ℕ) (x r : PyVal ℝ), x.WF R →
      foldE (fun acc q => PyVal.mul R acc (.poly q)) x (List.replicate k p) = .ok r →
      r.isFunctionOf z → x.isFunctionOf z ∨ p.isFunctionOf z = true := by
    intro k
    induction k with
    | zero => intro x r _ h hz; cases h; exact .inl hz
    | succ k ih =>
      intro x r hx h hz
      rw [List.replicate_succ] at h
      unfold foldE at h
      split at h
      · cases h
      rename_i y hy
      have hyw := (PyVal.mul_spec R (y := .poly p) hx hp hy).1
      rcases ih y r hyw h hz with h1 | h1
      · exact PyVal.mul_isFunctionOf (y := .poly p) hx hp hy h1
      · exact .inr h1
  rcases key _ (.int 1) _ trivial h hz with h1 | h1
  · exact h1.elim
  · exact h1

theorem PyVal.add_isFunctionOf {x y r : PyVal ℝ} (hx : x.WF R) (hy : y.WF R)
    (h : PyVal.add R x y = .ok r) {z : String} (hz : r.isFunctionOf z) :
    x.isFunctionOf z ∨ y.isFunctionOf z := by
  have hint : ∀ {p : Poly ℝ} {n : ℤ}, p.WF R → PyVal.lift (PyVal.addInt R p n) = .ok r →
      p.isFunctionOf z = true := by
    intro p n hp h
    obtain ⟨q, hq, rfl⟩ := PyVal.lift_ok h
    unfold PyVal.addInt at hq
    split at hq
    · cases hq; exact hz
    · split at hq
      · cases hq
      · rename_i c hc
        obtain ⟨c', hc', hwf, _⟩ := Poly.const_spec R (n : ℝ)
        rw [hc] at hc'
        cases hc'
        rcases Poly.add_isFunctionOf hp hwf hq hz with h | h
        · exact h
        · rw [Poly.const_isFunctionOf hc] at h; cases h
  have hnum : ∀ {p : Poly ℝ} {d : ℝ}, p.WF R → PyVal.lift (PyVal.addNum R p d) = .ok r →
      p.isFunctionOf z = true := by
    intro p n hp h
    obtain ⟨q, hq, rfl⟩ := PyVal.lift_ok h
    unfold PyVal.addNum at hq
    split at hq
    · cases hq
    · rename_i c hc
      obtain ⟨c', hc', hwf, _⟩ := Poly.const_spec R n
      rw [hc] at hc'
      cases hc'
      rcases Poly.add_isFunctionOf hp hwf hq hz with h | h
      · exact h
      · rw [Poly.const_isFunctionOf hc] at h; cases h
  cases x with
  | poly p =>
    cases y with
    | poly q =>
      obtain ⟨s, hs, rfl⟩ := PyVal.lift_ok h
      exact Poly.add_isFunctionOf hx hy hs hz
    | int n => exact .inl (hint hx h)
    | num c => exact .inl (hnum hx h)
  | int n =>
    cases y with
    | poly q => exact .inr (hint hy h)
    | int n => cases h; exact hz.elim
    | num c => cases h; exact hz.elim
  | num c =>
    cases y with
    | poly q => exact .inr (hnum hy h)
    | int n => cases h; exact hz.elim
    | num c => cases h; exact hz.elim

theorem Poly.var_isFunctionOf {x : String} {p : Poly ℝ} (h : Poly.var R x = .ok p) {z : String}
    (hz : p.isFunctionOf z = true) : z = x := by
  unfold Poly.var Factor.new at h
  simp only [Term.new_eq] at h
  have hwf := termOf_wf R (1 : ℝ) [⟨x, 1⟩] (by simp)
  obtain ⟨t, ht, htz⟩ := Poly.new_isFunctionOf R (by simpa using hwf) h hz
  rw [List.mem_singleton.1 ht] at htz
  obtain ⟨f, hf, hfz⟩ := List.any_eq_true.1 htz
  have := termOf_names_subset R hf
  simp only [List.map_cons, List.map_nil, List.mem_singleton] at this
  rw [← this]
  exact (by simpa using hfz : f.name = z).symm

theorem Term.substitute_isFunctionOf {t : Term ℝ} (ht : t.WF R) {q : Poly ℝ} (hq : q.WF R)
    {x : String} {r : PyVal ℝ} (h : t.substitute R x q = .ok r) :
    r.WF R ∧ ∀ z, r.isFunctionOf z → t.isFunctionOf z = true ∨ q.isFunctionOf z = true := by
  refine ⟨(Term.substitute_spec R ht hq h).1, fun z hz => ?_⟩
  have hsf := splitFactors_spec t x ht.names
  unfold Term.substitute at h
  simp only [Term.new_eq] at h
  have hpos : ∀ f ∈ (t.splitFactors x).1, 1 ≤ f.power := fun f hf => ht.pos f (hsf.1 f hf)
  have hwf := termOf_wf R t.const _ hpos
  split at h
  · cases h
  rename_i p' hp'
  split at h
  · cases h
  rename_i r' hr'
  have hp'wf := Poly.new_wf R (by simpa using hwf) hp'
  have hr'wf := (PyVal.powPoly_spec R hq hr').1
  rcases PyVal.mul_isFunctionOf (x := .poly p') hp'wf hr'wf h hz with h1 | h1
  · left
    obtain ⟨s, hs, hsz⟩ := Poly.new_isFunctionOf R (by simpa using hwf) hp' h1
    rw [List.mem_singleton.1 hs] at hsz
    obtain ⟨f, hf, hfz⟩ := List.any_eq_true.1 hsz
    obtain ⟨g, hg, hgn⟩ := List.mem_map.1 (termOf_names_subset R hf)
    refine List.any_eq_true.2 ⟨g, hsf.1 g hg, ?_⟩
    rw [hgn]
    exact hfz
  · exact .inr (PyVal.powPoly_isFunctionOf hq hr' h1)

theorem Poly.substitute_isFunctionOf {p q : Poly ℝ} (hp : p.WF R) (hq : q.WF R) {x : String}
    {r : PyVal ℝ} (h : p.substitute R x q = .ok r) {z : String} (hz : r.isFunctionOf z) :
    p.isFunctionOf z = true ∨ q.isFunctionOf z = true := by
  unfold Poly.substitute at h
  have key : ∀ (step : PyVal ℝ → Term ℝ → Except PyErr (PyVal ℝ)),
      (∀ acc t r, step acc t = .ok r →
        ∃ s, Term.substitute R t x q = .ok s ∧ PyVal.add R acc s = .ok r) →
      ∀ (l : List (Term ℝ)) (acc r : PyVal ℝ), acc.WF R → (∀ t ∈ l, t.WF R) →
      foldE step acc l = .ok r → r.isFunctionOf z →
      acc.isFunctionOf z ∨ (∃ t ∈ l, t.isFunctionOf z = true) ∨ q.isFunctionOf z = true := by
    intro step hstep l
    induction l with
    | nil => intro acc r _ _ h hz; cases h; exact .inl hz
    | cons t l ih =>
      intro acc r hacc hl h hz
      unfold foldE at h
      split at h
      · cases h
      rename_i acc' h'
      obtain ⟨s, hs, h'⟩ := hstep _ _ _ h'
      obtain ⟨hswf, hsz⟩ := Term.substitute_isFunctionOf (hl t List.mem_cons_self) hq hs
      have hacc' := (PyVal.add_spec R hacc hswf h').1
      rcases ih acc' r hacc' (fun t ht => hl t (List.mem_cons_of_mem _ ht)) h hz with
        h1 | ⟨t', ht', h1⟩ | h1
      · rcases PyVal.add_isFunctionOf hacc hswf h' h1 with h2 | h2
        · exact .inl h2
        · rcases hsz z h2 with h3 | h3
          · exact .inr (.inl ⟨t, List.mem_cons_self, h3⟩)
          · exact .inr (.inr h3)
      · exact .inr (.inl ⟨t', List.mem_cons_of_mem _ ht', h1⟩)
      · exact .inr (.inr h1)
  rcases key _ (fun acc t r h => by
      split at h
      · cases h
      · exact ⟨_, ‹_›, h⟩) p.terms (.int 0) r trivial hp.terms h hz with h1 | ⟨t, ht, h1⟩ | h1
  · exact h1.elim
  · exact .inl (List.any_eq_true.2 ⟨t, ht, h1⟩)
  · exact .inr h1

theorem ExpPoly.translateVar_free {e e' : ExpPoly} {x : String} {q : Poly ℝ} (hp : e.poly.WF R)
    (hq : q.WF R) (h : e.translateVar R x q = .ok e') {z : String} (hzx : z ≠ x)
    (hz : e.poly.isFunctionOf z = false) (hqz : q.isFunctionOf z = false) :
    e'.poly.isFunctionOf z = false := by
  unfold ExpPoly.translateVar at h
  obtain ⟨xv, hxv, h⟩ := bind1_ok h
  obtain ⟨s, hs, h⟩ := bind1_ok h
  obtain ⟨r, hr, h⟩ := bind1_ok h
  obtain ⟨xv', hxv', hxwf, _⟩ := Poly.var_spec1 (R := R) x
  rw [hxv] at hxv'
  cases hxv'
  have hswf := (Poly.add_spec R hxwf hq hs).1
  cases r with
  | int n => cases h
  | num d => cases h
  | poly r =>
    cases h
    rw [Bool.eq_false_iff]
    intro hrz
    rcases Poly.substitute_isFunctionOf (r := .poly r) hp hswf hr hrz with h1 | h1
    · rw [hz] at h1; cases h1
    · rcases Poly.add_isFunctionOf hxwf hq hs h1 with h2 | h2
      · exact hzx (Poly.var_isFunctionOf hxv h2)
      · rw [hqz] at h2; cases h2

theorem ExpPoly.translateVar_total {e : ExpPoly} (hp : e.poly.WF R) (dp : e.poly.degLE 2)
    (hne : e.poly.terms ≠ []) {q : Poly ℝ} (hq : q.WF R) (dq : q.degLE 1) (x : String) :
    ∃ e', e.translateVar R x q = .ok e' ∧ e'.poly.degLE 2 := by
  unfold ExpPoly.translateVar
  obtain ⟨xv, hxv, hxwf, _⟩ := Poly.var_spec1 (R := R) x
  have hxd := (Poly.var_single R hxv).2
  obtain ⟨s, hs⟩ := Poly.add_total R hxwf hq
  have hsd := Poly.add_degLE R hxwf hq hxd dq hs
  have hswf := (Poly.add_spec R hxwf hq hs).1
  obtain ⟨r, hr, hrd⟩ := Poly.substitute_total hp dp hswf hsd x
  obtain ⟨p, rfl⟩ := Poly.substitute_poly R hp hswf hne hr
  exact ⟨⟨e.const, p⟩, by simp only [hxv, bind1, hs, hr, ExpPoly.new], hrd⟩

/-- A limit that is a number, infinite, or a polynomial of degree at most one. -/
def Lim.Affine (l : Lim) : Prop := ∀ p, l = .poly p → p.degLE 1

theorem Lim.asPoly_total {l : Lim} (h : l.isInf = false) (ha : l.Affine) :
    ∃ q, l.asPoly R = .ok q ∧ q.degLE 1 := by
  cases l with
  | inf => cases h
  | num c =>
    obtain ⟨p, hp, _⟩ := Poly.const_spec R c
    exact ⟨p, hp, Poly.degLE_mono (Poly.const_degLE R hp) (by norm_num)⟩
  | poly p => exact ⟨p, rfl, ha p rfl⟩

theorem boxSplit_total {x : String} {l u : Lim} {e : ExpPoly} (hp : e.poly.WF R)
    (dp : e.poly.degLE 2) (hne : e.poly.terms ≠ []) (hl : l.WF R) (hu : u.WF R) (al : l.Affine)
    (au : u.Affine) : ∃ ps, boxSplit R (x, l, u) e = .ok ps ∧ ∀ p ∈ ps, p.poly.degLE 2 ∧
      ∀ z, z ≠ x → e.poly.isFunctionOf z = false → l.FreeOf z → u.FreeOf z →
        p.poly.isFunctionOf z = false := by
  have key : ∀ (lim : Lim) (f : ExpPoly → ExpPoly), lim.WF R → lim.Affine →
      (∀ p, (f p).poly = p.poly) → ∃ rs : List ExpPoly,
      (if lim.isInf then .ok []
        else bind1 (lim.asPoly R) fun q => bind1 (e.translateVar R x q) fun ep => .ok [f ep]) =
          Except.ok rs ∧ ∀ p ∈ rs, p.poly.degLE 2 ∧
            ∀ z, z ≠ x → e.poly.isFunctionOf z = false → lim.FreeOf z →
              p.poly.isFunctionOf z = false := by
    intro lim f hlim ha hf
    by_cases hi : lim.isInf = true
    · exact ⟨[], by simp [hi], by simp⟩
    · obtain ⟨q, hq, hqd⟩ := Lim.asPoly_total (R := R) (by simpa using hi) ha
      obtain ⟨e', he', hd'⟩ := ExpPoly.translateVar_total hp dp hne (Lim.asPoly_spec hlim hq).1 hqd x
      refine ⟨[f e'], by simp [hi, hq, he', bind1], fun p hp => ?_⟩
      rw [List.mem_singleton.1 hp, hf]
      refine ⟨hd', fun z hzx hz hlz => ExpPoly.translateVar_free ‹_› (Lim.asPoly_spec hlim hq).1 he' hzx
        hz ?_⟩
      cases lim with
      | inf => cases hq
      | num c => exact Poly.const_isFunctionOf hq z
      | poly p => cases hq; exact hlz _ rfl
  obtain ⟨ups, hups, dups⟩ := key u id hu au fun _ => rfl
  obtain ⟨los, hlos, dlos⟩ := key l ExpPoly.neg hl al fun _ => rfl
  refine ⟨ups ++ los, ?_, fun p hp => ?_⟩
  · unfold boxSplit
    simp only [id] at hups
    rw [hups, bind1_val, hlos, bind1_val]
  · rcases List.mem_append.1 hp with h | h
    · exact ⟨(dups p h).1, fun z h1 h2 _ h4 => (dups p h).2 z h1 h2 h4⟩
    · exact ⟨(dlos p h).1, fun z h1 h2 h3 _ => (dlos p h).2 z h1 h2 h3⟩

theorem Poly.highestPower_two {p a : Poly ℝ} {x : String} (hp : p.WF R) (hd : p.degLE 2)
    (ha : p.collectFor R ⟨x, 2⟩ = .ok a) {v : String → ℝ} (hne : a.val v ≠ 0) :
    p.highestPower x = .ok 2 := by
  have hh := Poly.degLE_highestPower hd x
  have h1 : ¬ ∀ t ∈ p.terms, t.highestPower x ≤ 1 := fun h1 =>
    hne (Poly.collect_two_zero hp h1 ha v)
  obtain ⟨n, hn⟩ := Poly.highestPower_ok (p := p) (fun h0 => h1 (by simp [h0])) x
  obtain ⟨hle, t, ht, hte⟩ := Poly.highestPower_eq hn
  have := hh t ht
  by_cases h2 : n = 2
  · rw [hn, h2]
  · exact absurd (fun s hs => (hle s hs).trans (by omega)) h1

theorem ExpPoly.integrateHalf1_total {e : ExpPoly} {x : String} (hp : e.poly.WF R)
    (hd : e.poly.degLE 2) {m : String → Option ℝ}
    (hm : ∀ z, z ≠ x → m z = none → e.poly.isFunctionOf z = false)
    {v : String → ℝ} {k a b c : ℝ} (hk : k ≠ 0)
    (hf : ∀ s, e.fn (Function.update v x s) = k * exp (a * s ^ 2 + b * s + c)) (ha : a < 0) :
    ∃ r, e.integrateHalf1 R x m = .ok r := by
  obtain ⟨A, hA⟩ := Poly.collectFor_total R hp ⟨x, 2⟩
  obtain ⟨B, hB⟩ := Poly.collectFor_total R hp ⟨x, 1⟩
  obtain ⟨C, hC⟩ := Poly.reject_total R hp x
  have hq := fun s => Poly.quad_update' hp (Poly.degLE_highestPower hd x) hA hB hC v s
  have hAv : a = A.val v := (exp_quad_unique hk fun s => by
    rw [← hf, ExpPoly.fn, hq]).1
  have hn := Poly.highestPower_two hp hd hA (v := v) (by rw [← hAv]; exact ha.ne)
  have hfree : ∀ P : Poly ℝ, P.isFunctionOf x = false →
      (∀ z, e.poly.isFunctionOf z = false → P.isFunctionOf z = false) → ∃ a, P.eval m = .ok a :=
    fun P hP hP' => Poly.eval_ok_of fun z hz hmz => by
      rw [hP' z (hm z (by rintro rfl; rw [hP] at hz; cases hz) hmz)] at hz
      cases hz
  obtain ⟨a', ha'⟩ := hfree A (Poly.collectFor_isFunctionOf R hp hA)
    fun z => Poly.collectFor_isFunctionOf_of hp hA
  obtain ⟨b', hb'⟩ := hfree B (Poly.collectFor_isFunctionOf R hp hB)
    fun z => Poly.collectFor_isFunctionOf_of hp hB
  obtain ⟨c', hc'⟩ := hfree C (Poly.reject_isFunctionOf R hp hC)
    fun z => Poly.reject_isFunctionOf_of hp hC
  exact ⟨_, by
    unfold ExpPoly.integrateHalf1
    simp only [hn, bind1_val, ne_eq, not_true_eq_false, if_false, hA, hB, hC, ha', hb', hc']
    rfl⟩

theorem ExpPoly.integrateHalf2_total {e : ExpPoly} {x y : String} (hxy : x ≠ y) (hp : e.poly.WF R)
    (hd : e.poly.degLE 2) {m : String → Option ℝ}
    (hm : ∀ z, z ≠ x → z ≠ y → m z = none → e.poly.isFunctionOf z = false)
    {v : String → ℝ} {k a11 a12 a22 b1 b2 c : ℝ} (hk : k ≠ 0)
    (hf : ∀ s t, e.fn (Function.update (Function.update v x s) y t) =
      k * exp (biQuad a11 a12 a22 b1 b2 c s t)) (h11 : 0 < a11) (h22 : 0 < a22) :
    ∃ r, e.integrateHalf2 R x y m = .ok r := by
  obtain ⟨A11, hA11⟩ := Poly.collectFor_total R hp ⟨x, 2⟩
  obtain ⟨A22, hA22⟩ := Poly.collectFor_total R hp ⟨y, 2⟩
  obtain ⟨Qx, hQx⟩ := Poly.collectFor_total R hp ⟨x, 1⟩
  obtain ⟨Qy, hQy⟩ := Poly.collectFor_total R hp ⟨y, 1⟩
  obtain ⟨Cx, hCx⟩ := Poly.reject_total R hp x
  obtain ⟨Cy, hCy⟩ := Poly.reject_total R hp y
  have wQx := (Poly.collectFor_spec R hp hQx).1
  have wQy := (Poly.collectFor_spec R hp hQy).1
  have wCx := (Poly.reject_spec R hp hCx).1
  have wA11 := (Poly.collectFor_spec R hp hA11).1
  have wA22 := (Poly.collectFor_spec R hp hA22).1
  obtain ⟨A12, hA12⟩ := Poly.collectFor_total R wQx ⟨y, 1⟩
  obtain ⟨B1, hB1⟩ := Poly.reject_total R wQx y
  obtain ⟨B2, hB2⟩ := Poly.reject_total R wQy x
  obtain ⟨C, hC⟩ := Poly.reject_total R wCx y
  have hqx := fun s => Poly.quad_update' hp (Poly.degLE_highestPower hd x) hA11 hQx hCx
    (Function.update v y 0) s
  have hqy := fun t => Poly.quad_update' hp (Poly.degLE_highestPower hd y) hA22 hQy hCy
    (Function.update v x 0) t
  have e1 : -a11 / 2 = A11.val (Function.update v y 0) := (exp_quad_unique (k := k) (k' := e.const)
    (b := b1) (c := c) hk fun s => by
      rw [← hqx, ← Function.update_comm hxy, ← ExpPoly.fn, hf]
      congr 2; unfold biQuad; ring).1
  have e2 : -a22 / 2 = A22.val (Function.update v x 0) := (exp_quad_unique (k := k) (k' := e.const)
    (b := b2) (c := c) hk fun s => by
      rw [← hqy, ← ExpPoly.fn, hf]
      congr 2; unfold biQuad; ring).1
  have hnx := Poly.highestPower_two hp hd hA11 (v := Function.update v y 0) (by
    rw [← e1]; intro h; linarith)
  have hny := Poly.highestPower_two hp hd hA22 (v := Function.update v x 0) (by
    rw [← e2]; intro h; linarith)
  have hfree : ∀ P : Poly ℝ, P.isFunctionOf x = false → P.isFunctionOf y = false →
      (∀ z, e.poly.isFunctionOf z = false → P.isFunctionOf z = false) →
      ∃ a, P.eval m = .ok a := fun P hP hP' hPz =>
    Poly.eval_ok_of fun z hz hmz => by
      rw [hPz z (hm z (by rintro rfl; rw [hP] at hz; cases hz)
        (by rintro rfl; rw [hP'] at hz; cases hz) hmz)] at hz
      cases hz
  have hzero : ∀ P : Poly ℝ, P.WF R → P.degLE 0 → ∃ a, P.eval m = .ok a := fun P hw hP =>
    hfree P (Poly.isConstant_iff.1 (Poly.degLE_zero_isConstant hw hP) x)
      (Poly.isConstant_iff.1 (Poly.degLE_zero_isConstant hw hP) y)
      fun z _ => Poly.isConstant_iff.1 (Poly.degLE_zero_isConstant hw hP) z
  have dQx : Qx.degLE 1 := Poly.collectFor_degLE R hp hd hQx
  obtain ⟨a11', h1⟩ := hzero A11 wA11 (Poly.collectFor_degLE R hp hd hA11)
  obtain ⟨a22', h2⟩ := hzero A22 wA22 (Poly.collectFor_degLE R hp hd hA22)
  obtain ⟨a12', h3⟩ := hzero A12 (Poly.collectFor_spec R wQx hA12).1
    (Poly.collectFor_degLE R wQx dQx hA12)
  obtain ⟨b1', h4⟩ := hfree B1
    (Poly.reject_isFunctionOf_of wQx hB1 (Poly.collectFor_isFunctionOf R hp hQx))
    (Poly.reject_isFunctionOf R wQx hB1)
    fun z hz => Poly.reject_isFunctionOf_of wQx hB1 (Poly.collectFor_isFunctionOf_of hp hQx hz)
  obtain ⟨b2', h5⟩ := hfree B2 (Poly.reject_isFunctionOf R wQy hB2)
    (Poly.reject_isFunctionOf_of wQy hB2 (Poly.collectFor_isFunctionOf R hp hQy))
    fun z hz => Poly.reject_isFunctionOf_of wQy hB2 (Poly.collectFor_isFunctionOf_of hp hQy hz)
  obtain ⟨c', h6⟩ := hfree C
    (Poly.reject_isFunctionOf_of wCx hC (Poly.reject_isFunctionOf R hp hCx))
    (Poly.reject_isFunctionOf R wCx hC)
    fun z hz => Poly.reject_isFunctionOf_of wCx hC (Poly.reject_isFunctionOf_of hp hCx hz)
  exact ⟨_, by
    unfold ExpPoly.integrateHalf2
    simp only [hnx, hny, bind1_val, ne_eq, not_true_eq_false, if_false, hA11, hA22, hQx, hQy, hCx, hA12,
      hB1, hB2, hC, h1, h2, h3, h4, h5, h6]
    rfl⟩

/-- An exponentiated polynomial that decays has a term. -/
theorem ExpPoly.terms_ne_nil {e : ExpPoly} {x : String} {v : String → ℝ} {k a b c : ℝ}
    (hk : k ≠ 0) (ha : a ≠ 0)
    (hf : ∀ s, e.fn (Function.update v x s) = k * exp (a * s ^ 2 + b * s + c)) :
    e.poly.terms ≠ [] := by
  intro h0
  have : ∀ w, e.fn w = e.const * exp 0 := fun w => by
    unfold ExpPoly.fn Poly.val; rw [h0]; rfl
  have := (exp_quad_unique (a' := 0) (b' := 0) (c' := 0) (k' := e.const) hk fun s => by
    rw [← hf, this]; norm_num).1
  exact ha this

theorem box1_total {e : ExpPoly} {x : String} {l u : Lim} (hp : e.poly.WF R)
    (hd : e.poly.degLE 2) (hl : l.WF R) (hu : u.WF R) (al : l.Affine) (au : u.Affine)
    (fl : l.FreeOf x) (fu : u.FreeOf x)
    {m : String → Option ℝ}
    (hm : ∀ z, z ≠ x → m z = none → e.poly.isFunctionOf z = false ∧ l.FreeOf z ∧ u.FreeOf z)
    {v : String → ℝ} {k a b c : ℝ} (hk : k ≠ 0)
    (hf : ∀ s, e.fn (Function.update v x s) = k * exp (a * s ^ 2 + b * s + c)) (ha : a < 0) :
    ∃ parts r, boxParts R e [(x, l, u)] = .ok parts ∧
      foldE (fun acc part => bind1 (part.integrateHalf R [x] m) fun r => .ok (acc + r)) 0 parts =
        .ok r := by
  obtain ⟨ps, hps, dps⟩ := boxSplit_total (x := x) hp hd (ExpPoly.terms_ne_nil hk ha.ne hf) hl hu al
    au
  obtain ⟨hwf, hrel⟩ := boxSplit_spec hp hl hu hps
  have hrel := hrel v (fun s => Lim.at_update fl v s) (fun s => Lim.at_update fu v s)
  obtain ⟨r, hr⟩ := sumLoop_total (half := fun part => part.integrateHalf R [x] m) ps 0
    fun p hpm => by
      obtain ⟨σ, hσm, hσ⟩ := forall₂_mem hrel p hpm
      refine ExpPoly.integrateHalf1_total (hwf p hpm) (dps p hpm).1
        (fun z hzx hmz => (dps p hpm).2 z hzx (hm z hzx hmz).1 (hm z hzx hmz).2.1 (hm z hzx hmz).2.2)
        (k := σ.1 * k) (a := a)
        (b := 2 * a * σ.2 + b) (c := a * σ.2 ^ 2 + b * σ.2 + c)
        (mul_ne_zero (signedEnds_sign hσm) hk) (v := v) (fun s => ?_) ha
      rw [hσ, hf, mul_assoc]
      congr 3
      ring
  refine ⟨ps, r, ?_, hr⟩
  simp [boxParts, foldE, mapE, hps, bind1]

theorem forall₂_forall {α β ι : Type} [Nonempty ι] {P : ι → α → β → Prop} :
    ∀ {A : List α} {B : List β}, (∀ i, List.Forall₂ (P i) A B) →
      List.Forall₂ (fun a b => ∀ i, P i a b) A B
  | [], B, h => by cases h (Classical.arbitrary ι); exact .nil
  | a :: A, [], h => by cases h (Classical.arbitrary ι)
  | a :: A, b :: B, h => .cons (fun i => by cases h i; assumption)
      (forall₂_forall fun i => by cases h i; assumption)

theorem mapE_total_of {α β : Type} {f : α → Except PyErr β} {P : β → Prop} :
    ∀ (l : List α), (∀ a ∈ l, ∃ b, f a = .ok b ∧ P b) → ∃ l', mapE f l = .ok l' ∧ ∀ b ∈ l', P b
  | [], _ => ⟨[], rfl, by simp⟩
  | a :: as, h => by
    obtain ⟨b, hb, hP⟩ := h a List.mem_cons_self
    obtain ⟨bs, hbs, hPs⟩ := mapE_total_of as fun a ha => h a (List.mem_cons_of_mem _ ha)
    refine ⟨b :: bs, ?_, List.forall_mem_cons.2 ⟨hP, hPs⟩⟩
    unfold mapE
    simp only [hb, hbs]

theorem box2_total {e : ExpPoly} {x y : String} (hxy : x ≠ y) {l u l' u' : Lim}
    (hp : e.poly.WF R) (hd : e.poly.degLE 2)
    (hl : l.WF R) (hu : u.WF R) (hl' : l'.WF R) (hu' : u'.WF R)
    (al : l.Affine) (au : u.Affine) (al' : l'.Affine) (au' : u'.Affine)
    (fl : l.FreeOf x ∧ l.FreeOf y) (fu : u.FreeOf x ∧ u.FreeOf y)
    (fl' : l'.FreeOf x ∧ l'.FreeOf y) (fu' : u'.FreeOf x ∧ u'.FreeOf y)
    {m : String → Option ℝ}
    (hm : ∀ z, z ≠ x → z ≠ y → m z = none → e.poly.isFunctionOf z = false ∧
      (l.FreeOf z ∧ u.FreeOf z) ∧ l'.FreeOf z ∧ u'.FreeOf z) {v : String → ℝ}
    {k a11 a12 a22 b1 b2 c : ℝ} (hk : k ≠ 0)
    (hf : ∀ s t, e.fn (Function.update (Function.update v x s) y t) =
      k * exp (biQuad a11 a12 a22 b1 b2 c s t))
    (h11 : 0 < a11) (h22 : 0 < a22) :
    ∃ parts r, boxParts R e [(x, l, u), (y, l', u')] = .ok parts ∧
      foldE (fun acc part => bind1 (part.integrateHalf R [x, y] m) fun r => .ok (acc + r)) 0 parts =
        .ok r := by
  have hne : ∀ {q : ExpPoly} {k' b1' b2' c' : ℝ}, k' ≠ 0 →
      (∀ s t, q.fn (Function.update (Function.update v x s) y t) =
        k' * exp (biQuad a11 a12 a22 b1' b2' c' s t)) → q.poly.terms ≠ [] := by
    intro q k' b1' b2' c' hk' hq
    refine ExpPoly.terms_ne_nil (x := y) (v := Function.update v x 0) hk' (a := -a22 / 2)
      (b := b2') (c := c') (by linarith) fun t => ?_
    rw [hq]
    congr 2
    simp only [biQuad]
    ring
  obtain ⟨ps, hps, dps⟩ := boxSplit_total (x := x) hp hd (hne hk hf) hl hu al au
  obtain ⟨hwf, hrel⟩ := boxSplit_spec hp hl hu hps
  have hsplit1 : List.Forall₂ (fun (σ : ℝ × ℝ) (p : ExpPoly) => ∀ t s,
      p.fn (Function.update (Function.update v x s) y t) =
        σ.1 * e.fn (Function.update (Function.update v x (s + σ.2)) y t))
      (signedEnds (l.at v) (u.at v)) ps := by
    refine forall₂_forall fun t => ?_
    have := hrel (Function.update v y t)
      (fun s => by rw [Lim.at_update fl.1]) (fun s => by rw [Lim.at_update fu.1])
    rw [Lim.at_update fl.2, Lim.at_update fu.2] at this
    refine this.imp fun σ p hσ s => ?_
    have := hσ s
    rwa [Function.update_comm hxy.symm, Function.update_comm hxy.symm] at this
  have hform1 : ∀ p ∈ ps, ∃ k' b1' b2' c', k' ≠ 0 ∧
      ∀ s t, p.fn (Function.update (Function.update v x s) y t) =
        k' * exp (biQuad a11 a12 a22 b1' b2' c' s t) := fun p hpm => by
    obtain ⟨σ, hσm, hσ⟩ := forall₂_mem hsplit1 p hpm
    refine ⟨σ.1 * k, b1 - a11 * σ.2 - a12 * 0, b2 - a12 * σ.2 - a22 * 0,
      biQuad a11 a12 a22 b1 b2 c σ.2 0, mul_ne_zero (signedEnds_sign hσm) hk, fun s t => ?_⟩
    rw [hσ, hf, ← biQuad_shift, add_zero]
    ring
  obtain ⟨qss, hqss, hP⟩ := mapE_total_of (f := boxSplit R (y, l', u'))
    (P := fun qs => ∀ q ∈ qs, q.poly.WF R ∧ (q.poly.degLE 2 ∧
      ∀ z, z ≠ x → z ≠ y → m z = none → q.poly.isFunctionOf z = false) ∧ ∃ k' b1' b2' c', k' ≠ 0 ∧
      ∀ s t, q.fn (Function.update (Function.update v x s) y t) =
        k' * exp (biQuad a11 a12 a22 b1' b2' c' s t)) ps fun p hpm => by
      obtain ⟨k', b1', b2', c', hk', hp'⟩ := hform1 p hpm
      obtain ⟨qs, hqs, dqs⟩ := boxSplit_total (x := y) (hwf p hpm) (dps p hpm).1 (hne hk' hp') hl'
        hu' al' au'
      obtain ⟨hw, hr⟩ := boxSplit_spec (hwf p hpm) hl' hu' hqs
      have hsplit2 : List.Forall₂ (fun (τ : ℝ × ℝ) (q : ExpPoly) => ∀ s t,
          q.fn (Function.update (Function.update v x s) y t) =
            τ.1 * p.fn (Function.update (Function.update v x s) y (t + τ.2)))
          (signedEnds (l'.at v) (u'.at v)) qs := by
        refine forall₂_forall fun s => ?_
        have := hr (Function.update v x s)
          (fun t => by rw [Lim.at_update fl'.2]) (fun t => by rw [Lim.at_update fu'.2])
        rwa [Lim.at_update fl'.1, Lim.at_update fu'.1] at this
      refine ⟨qs, hqs, fun q hqm => ⟨hw q hqm, ⟨(dqs q hqm).1, fun z h1 h2 h3 => by
        obtain ⟨g1, g2, g3⟩ := hm z h1 h2 h3
        exact (dqs q hqm).2 z h2 ((dps p hpm).2 z h1 g1 g2.1 g2.2) g3.1 g3.2⟩, ?_⟩⟩
      obtain ⟨τ, hτm, hτ⟩ := forall₂_mem hsplit2 q hqm
      refine ⟨τ.1 * k', b1' - a11 * 0 - a12 * τ.2, b2' - a12 * 0 - a22 * τ.2,
        biQuad a11 a12 a22 b1' b2' c' 0 τ.2, mul_ne_zero (signedEnds_sign hτm) hk', fun s t => ?_⟩
      rw [hτ, hp', ← biQuad_shift, add_zero]
      ring
  obtain ⟨r, hr⟩ := sumLoop_total (half := fun part => part.integrateHalf R [x, y] m) qss.flatten 0
    fun q hq => by
      obtain ⟨qs, hqs, hqm⟩ := List.mem_flatten.1 hq
      obtain ⟨hw, hd', k', b1', b2', c', hk', hq'⟩ := hP qs hqs q hqm
      exact ExpPoly.integrateHalf2_total hxy hw hd'.1 hd'.2 hk' hq' h11 h22
  refine ⟨qss.flatten, r, ?_, hr⟩
  simp [boxParts, foldE, mapE, hps, hqss, bind1]

theorem ExpPoly.integrate1_free {e e' : ExpPoly} {x : String} (hp : e.poly.WF R)
    (h : e.integrate1 R x = .ok e') {z : String}
    (hz : z = x ∨ e.poly.isFunctionOf z = false) : e'.poly.isFunctionOf z = false := by
  unfold ExpPoly.integrate1 at h
  obtain ⟨n, hn, h⟩ := bind1_ok h
  split at h
  · cases h
  obtain ⟨a, ha, h⟩ := bind1_ok h
  obtain ⟨b, hb, h⟩ := bind1_ok h
  obtain ⟨c, hc, h⟩ := bind1_ok h
  split at h
  · cases h
  obtain ⟨av, hav, h⟩ := bind1_ok h
  obtain ⟨t, ht, h⟩ := bind1_ok h
  obtain ⟨p, hpc, h⟩ := bind1_ok h
  obtain ⟨b2, hb2, h⟩ := bind1_ok h
  obtain ⟨pb, hpb, h⟩ := bind1_ok h
  obtain ⟨q, hq, h⟩ := bind1_ok h
  have hconst : Poly.const R (-0.25 / av) = .ok p := by
    unfold Poly.const; rw [ht]; exact hpc
  obtain ⟨p', hp', hpwf, _⟩ := Poly.const_spec R (-0.25 / av)
  rw [hconst] at hp'
  cases hp'
  have hbwf := (Poly.collectFor_spec R hp hb).1
  have hcwf := (Poly.reject_spec R hp hc).1
  have hb2wf := (PyVal.powPoly_spec R hbwf hb2).1
  have hpbwf := (PyVal.mul_spec R (x := .poly p) hpwf hb2wf hpb).1
  have hbz : b.isFunctionOf z = false := by
    rcases hz with rfl | hz
    · exact Poly.collectFor_isFunctionOf R hp hb
    · exact Poly.collectFor_isFunctionOf_of hp hb hz
  have hcz : c.isFunctionOf z = false := by
    rcases hz with rfl | hz
    · exact Poly.reject_isFunctionOf R hp hc
    · exact Poly.reject_isFunctionOf_of hp hc hz
  have hpbz : ¬ pb.isFunctionOf z := fun h => by
    rcases PyVal.mul_isFunctionOf (x := .poly p) hpwf hb2wf hpb h with h1 | h1
    · have : p.isFunctionOf z = true := h1
      rw [Poly.const_isFunctionOf hconst] at this; cases this
    · have := PyVal.powPoly_isFunctionOf hbwf hb2 h1
      rw [hbz] at this; cases this
  cases q with
  | int n => cases h
  | num d => cases h
  | poly q =>
    cases h
    rw [Bool.eq_false_iff]
    intro hqz
    cases pb with
    | poly pb =>
      obtain ⟨q', hq', h'⟩ := PyVal.lift_ok hq
      cases h'
      rcases Poly.add_isFunctionOf hpbwf hcwf hq' hqz with h1 | h1
      · exact hpbz h1
      · rw [hcz] at h1; cases h1
    | int n =>
      obtain ⟨_, h'⟩ := PyVal.mul_isPoly hpb (.inl ⟨p, rfl⟩)
      cases h'
    | num d =>
      obtain ⟨_, h'⟩ := PyVal.mul_isPoly hpb (.inl ⟨p, rfl⟩)
      cases h'

theorem ExpPoly.integrateLoop_free : ∀ (xs : List String) (e : ExpPoly),
    e.poly.WF R → e.poly.degLE 2 → e.const ≠ 0 → Converges xs e.fn → Mild xs e.fn →
    ∃ e', foldE (fun eq x => eq.integrate1 R x) e xs = .ok e' ∧
      ∀ z, (z ∈ xs ∨ e.poly.isFunctionOf z = false) → e'.poly.isFunctionOf z = false
  | [], e, _, _, _, _, _ => ⟨e, rfl, fun z hz => hz.elim (by simp) id⟩
  | x :: xs, e, hp, hd, hk, hc, hm => by
    obtain ⟨e1, h1, hd1, hk1⟩ := ExpPoly.integrate1_total hp hd hk (hc.1 fun _ => 0)
    obtain ⟨hwf, hfn⟩ := ExpPoly.integrate1_fn hp h1 hc.1 hm.1
    have heq : e1.fn = fun w => ∫ t, e.fn (Function.update w x t) := funext hfn
    obtain ⟨e', he', hfree⟩ := ExpPoly.integrateLoop_free xs e1 hwf hd1 hk1 (heq ▸ hc.2) (heq ▸ hm.2)
    refine ⟨e', ?_, fun z hz => hfree z ?_⟩
    · unfold foldE
      simp only [h1]
      exact he'
    · rcases hz with hz | hz
      · rcases List.mem_cons.1 hz with rfl | hz
        · exact .inr (ExpPoly.integrate1_free hp h1 (.inl rfl))
        · exact .inl hz
      · exact .inr (ExpPoly.integrate1_free hp h1 (.inr hz))

theorem ExpPoly.integrateLoop_deg : ∀ (xs : List String) (e : ExpPoly),
    e.poly.WF R → e.poly.degLE 2 → e.const ≠ 0 → Converges xs e.fn → Mild xs e.fn →
    ∃ e', foldE (fun eq x => eq.integrate1 R x) e xs = .ok e' ∧ e'.poly.degLE 2 ∧ e'.const ≠ 0
  | [], e, _, hd, hk, _, _ => ⟨e, rfl, hd, hk⟩
  | x :: xs, e, hp, hd, hk, hc, hm => by
    obtain ⟨e1, h1, hd1, hk1⟩ := ExpPoly.integrate1_total hp hd hk (hc.1 fun _ => 0)
    obtain ⟨hwf, hfn⟩ := ExpPoly.integrate1_fn hp h1 hc.1 hm.1
    have heq : e1.fn = fun w => ∫ t, e.fn (Function.update w x t) := funext hfn
    obtain ⟨e', he', h'⟩ := ExpPoly.integrateLoop_deg xs e1 hwf hd1 hk1 (heq ▸ hc.2) (heq ▸ hm.2)
    refine ⟨e', ?_, h'⟩
    unfold foldE
    simp only [h1]
    exact he'

end Gpcm
