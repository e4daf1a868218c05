import Verif.Lemmas.PolyLemmas
import Mathlib.Data.List.MinMax

/-! # Helper lemmas: evaluation, substitution, queries, collection -/

namespace Gpcm

variable {K : Type} [CommRing K] (R : Runtime K)

/-! ## Evaluation -/

/-- The total assignment `v` as a `var_map`. -/
def total (v : String → K) : String → Option K := fun x => some (v x)

theorem Term.eval_eq {t : Term K} {m : String → Option K} {v : String → K}
    (h : ∀ f ∈ t.factors, m f.name = some (v f.name)) : t.eval m = .ok (t.val v) := by
  unfold Term.eval
  have h1 : mapE (fun f => Factor.eval f m) t.factors = .ok (t.factors.map fun f => f.val v) :=
    mapE_eq_map fun f hf => by simp [Factor.eval, h f hf, Factor.val]
  rw [h1]
  simp only [Except.ok.injEq]
  rw [List.foldl_eq_of_comm_of_assoc_aux t.const]
  rfl
where
  List.foldl_eq_of_comm_of_assoc_aux {l : List K} (c : K) :
      l.foldl (· * ·) c = c * l.prod := by
    induction l generalizing c with
    | nil => simp
    | cons a as ih => rw [List.foldl_cons, ih, List.prod_cons, mul_assoc]

theorem Poly.eval_eq {p : Poly K} {m : String → Option K} {v : String → K}
    (h : ∀ t ∈ p.terms, ∀ f ∈ t.factors, m f.name = some (v f.name)) :
    p.eval m = .ok (p.val v) := by
  unfold Poly.eval Poly.val
  have key : ∀ (l : List (Term K)) (c : K),
      (∀ t ∈ l, ∀ f ∈ t.factors, m f.name = some (v f.name)) →
      foldE (fun acc t =>
        match Term.eval t m with
        | .error e => Except.error e
        | .ok a => .ok (acc + a)) c l = .ok (c + (l.map fun t => t.val v).sum) := by
    intro l
    induction l with
    | nil => intro c _; simp [foldE]
    | cons a as ih =>
      intro c hl
      simp only [foldE, Term.eval_eq (hl a (by simp))]
      rw [ih _ fun t ht => hl t (by simp [ht])]
      simp [add_assoc]
  refine (key _ _ h).trans ?_
  simp

theorem Poly.eval_total (p : Poly K) (v : String → K) : p.eval (total v) = .ok (p.val v) :=
  Poly.eval_eq fun _ _ _ _ => rfl

omit [CommRing K] in
theorem Poly.isFunctionOf_iff {p : Poly K} {x : String} :
    p.isFunctionOf x = true ↔ ∃ t ∈ p.terms, ∃ f ∈ t.factors, f.name = x := by
  simp [Poly.isFunctionOf, Term.isFunctionOf]

theorem Poly.eval_missing {p : Poly K} {m : String → Option K} {x : String}
    (hx : p.isFunctionOf x = true) (hm : m x = none) : p.eval m = .error .keyError := by
  obtain ⟨t, ht, f, hf, rfl⟩ := Poly.isFunctionOf_iff.1 hx
  have hfac : ∀ fs : List Factor, f ∈ fs →
      mapE (fun f => Factor.eval f m) fs = .error PyErr.keyError := by
    intro fs hfs
    have hE : ∀ g e, Factor.eval g m = .error e → e = PyErr.keyError := by
      intro g e he
      unfold Factor.eval at he
      split at he
      · cases he; rfl
      · cases he
    induction fs with
    | nil => cases hfs
    | cons g gs ih =>
      simp only [mapE]
      cases hg : Factor.eval g m with
      | error e => simp [hE g e hg]
      | ok a =>
        rcases List.mem_cons.1 hfs with rfl | h
        · simp [Factor.eval, hm] at hg
        · simp [ih h]
  have hE : ∀ t e, Term.eval t m = .error e → e = PyErr.keyError := by
    intro t e he
    unfold Term.eval at he
    split at he
    · rename_i e' he'
      cases he
      obtain ⟨g, _, hg⟩ := mapE_error he'
      unfold Factor.eval at hg
      split at hg
      · cases hg; rfl
      · cases hg
    · cases he
  have hterm : Term.eval t m = .error .keyError := by
    unfold Term.eval
    rw [hfac _ hf]
  unfold Poly.eval
  have key : ∀ (l : List (Term K)) (c : K), t ∈ l →
      foldE (fun acc t =>
        match Term.eval t m with
        | .error e => Except.error e
        | .ok a => .ok (acc + a)) c l = .error PyErr.keyError := by
    intro l
    induction l with
    | nil => intro c h; cases h
    | cons a as ih =>
      intro c h
      simp only [foldE]
      cases ha : Term.eval a m with
      | error e => simp [hE a e ha]
      | ok b =>
        rcases List.mem_cons.1 h with rfl | h'
        · rw [hterm] at ha; cases ha
        · exact ih _ h'
  exact key _ _ ht

/-! ## Substitution -/

theorem splitFactors_spec (t : Term K) (x : String) (hn : (t.factors.map Factor.name).Nodup) :
    (∀ f ∈ (t.splitFactors x).1, f ∈ t.factors) ∧
      ∀ v : String → K, factorsVal t.factors v =
        factorsVal (t.splitFactors x).1 v * v x ^ (t.splitFactors x).2 := by
  unfold Term.splitFactors
  have key : ∀ (fs : List Factor) (acc : List Factor × ℕ),
      (fs.map Factor.name).Nodup → (acc.2 ≠ 0 → x ∉ fs.map Factor.name) →
      let r := fs.foldl
        (fun acc f => if f.name = x then (acc.1, f.power) else (acc.1 ++ [f], acc.2)) acc
      (∀ f ∈ r.1, f ∈ acc.1 ∨ f ∈ fs) ∧
      ∀ v : String → K, factorsVal acc.1 v * v x ^ acc.2 * factorsVal fs v =
        factorsVal r.1 v * v x ^ r.2 := by
    intro fs
    induction fs with
    | nil => intro acc _ _; simp
    | cons f fs ih =>
      intro acc hnd hacc
      rw [List.map_cons, List.nodup_cons] at hnd
      simp only [List.foldl_cons]
      by_cases hf : f.name = x
      · simp only [hf, if_true]
        have hacc2 : acc.2 = 0 := by
          by_contra h; exact hacc h (by simp [hf])
        have := ih (acc.1, f.power) hnd.2 (fun _ => hf ▸ hnd.1)
        refine ⟨fun g hg => ?_, fun v => ?_⟩
        · rcases this.1 g hg with h | h
          · exact Or.inl h
          · exact Or.inr (by simp [h])
        · rw [← this.2 v]
          simp [hacc2, Factor.val, hf, mul_assoc]
      · simp only [hf, if_false]
        have := ih (acc.1 ++ [f], acc.2) hnd.2 (fun h hx => hacc h (by simp [hx]))
        refine ⟨fun g hg => ?_, fun v => ?_⟩
        · rcases this.1 g hg with h | h
          · rcases List.mem_append.1 h with h | h
            · exact Or.inl h
            · exact Or.inr (by simp_all)
          · exact Or.inr (by simp [h])
        · rw [← this.2 v]
          simp only [factorsVal_append, factorsVal_cons, factorsVal_nil]
          ring
  have := key t.factors ([], 0) hn (by simp)
  refine ⟨fun f hf => by simpa using this.1 f hf, fun v => ?_⟩
  have h2 := this.2 v
  simpa using h2

omit [CommRing K] in
theorem splitFactors_ne (t : Term K) (x : String) :
    ∀ f ∈ (t.splitFactors x).1, f.name ≠ x := by
  unfold Term.splitFactors
  have key : ∀ (fs : List Factor) (acc : List Factor × ℕ), (∀ f ∈ acc.1, f.name ≠ x) →
      ∀ f ∈ (fs.foldl (fun acc f => if f.name = x then (acc.1, f.power)
        else (acc.1 ++ [f], acc.2)) acc).1, f.name ≠ x := by
    intro fs
    induction fs with
    | nil => intro acc h; simpa using h
    | cons f fs ih =>
      intro acc h
      simp only [List.foldl_cons]
      by_cases hf : f.name = x
      · simp only [hf, if_true]; exact ih _ h
      · simp only [hf, if_false]
        refine ih _ fun g hg => ?_
        rcases List.mem_append.1 hg with h' | h'
        · exact h g h'
        · simp at h'; rw [h']; exact hf
  exact key _ _ (by simp)

theorem factorsVal_congr {fs : List Factor} {v w : String → K}
    (h : ∀ f ∈ fs, v f.name = w f.name) : factorsVal fs v = factorsVal fs w := by
  unfold factorsVal
  congr 1
  exact List.map_congr_left fun f hf => by simp [Factor.val, h f hf]

theorem Term.substitute_spec {t : Term K} {x : String} {q : Poly K} {r : PyVal K} (ht : t.WF R)
    (hq : q.WF R) (h : t.substitute R x q = .ok r) :
    r.WF R ∧ (∃ p, r = .poly p) ∧ ∀ v, r.val v = t.val (Function.update v x (q.val v)) := by
  have hsf := splitFactors_spec t x ht.names
  have hne := splitFactors_ne t x
  unfold Term.substitute at h
  simp only [Term.new_eq] at h
  have hpos : ∀ f ∈ (t.splitFactors x).1, 1 ≤ f.power := fun f hf => ht.pos f (hsf.1 f hf)
  have hwf := termOf_wf R t.const _ hpos
  obtain ⟨p', hp'⟩ := single_total R hwf
  have hp'wf := Poly.new_wf R (by simpa using hwf) hp'
  have hp'v := Poly.new_val R (by simpa using hwf) hp'
  simp only [hp'] at h
  split at h
  · cases h
  · rename_i w hw
    have hws := PyVal.powPoly_spec R hq hw
    have hmul := PyVal.mul_spec R (x := .poly p') hp'wf hws.1 h
    refine ⟨hmul.1, ?_, fun v => ?_⟩
    · cases w <;> simp only [PyVal.mul] at h <;>
        (obtain ⟨r', _, rfl⟩ := PyVal.lift_ok h; exact ⟨r', rfl⟩)
    · rw [hmul.2, hws.2]
      simp only [PyVal.val, Int.toNat_natCast, hp'v, List.map_cons, List.map_nil, List.sum_cons,
        List.sum_nil, add_zero, termOf_val]
      rw [Term.val, hsf.2 (Function.update v x (q.val v)), Function.update_self,
        factorsVal_congr (v := Function.update v x (q.val v)) (w := v)
          fun f hf => Function.update_of_ne (hne f hf) _ _]
      ring

theorem Poly.substitute_spec {p : Poly K} {x : String} {q : Poly K} {r : PyVal K} (hp : p.WF R)
    (hq : q.WF R) (h : p.substitute R x q = .ok r) :
    r.WF R ∧ ∀ v, r.val v = p.val (Function.update v x (q.val v)) := by
  unfold Poly.substitute at h
  have key : ∀ (l : List (Term K)) (acc r : PyVal K), acc.WF R → (∀ t ∈ l, t.WF R) →
      foldE (fun acc t =>
        match Term.substitute R t x q with
        | .error e => Except.error e
        | .ok r => PyVal.add R acc r) acc l = .ok r →
      r.WF R ∧ ∀ v, r.val v =
        acc.val v + (l.map fun t => t.val (Function.update v x (q.val v))).sum := by
    intro l
    induction l with
    | nil => intro acc r ha _ h; simp only [foldE] at h; cases h; exact ⟨ha, by simp⟩
    | cons a as ih =>
      intro acc r ha hl h
      simp only [foldE] at h
      split at h
      · cases h
      · rename_i s hs
        split at hs
        · cases hs
        · rename_i w hw
          have h1 := Term.substitute_spec R (hl a (by simp)) hq hw
          have h2 := PyVal.add_spec R ha h1.1 hs
          have h3 := ih s r h2.1 (fun t ht => hl t (by simp [ht])) h
          refine ⟨h3.1, fun v => ?_⟩
          rw [h3.2, h2.2, h1.2.2]
          simp [add_assoc]
  have := key p.terms (.int 0) r trivial hp.terms h
  refine ⟨this.1, fun v => ?_⟩
  rw [this.2]
  simp [PyVal.val, Poly.val]

/-- Substituting into a polynomial with at least one term gives a polynomial. -/
theorem Poly.substitute_poly {p : Poly K} {x : String} {q : Poly K} {r : PyVal K} (hp : p.WF R)
    (hq : q.WF R) (hne : p.terms ≠ []) (h : p.substitute R x q = .ok r) : ∃ s, r = .poly s := by
  unfold Poly.substitute at h
  have key : ∀ (l : List (Term K)) (acc r : PyVal K), (∀ t ∈ l, t.WF R) →
      (l ≠ [] ∨ ∃ s, acc = .poly s) →
      foldE (fun acc t =>
        match Term.substitute R t x q with
        | .error e => Except.error e
        | .ok r => PyVal.add R acc r) acc l = .ok r → ∃ s, r = .poly s := by
    intro l
    induction l with
    | nil =>
      intro acc r _ ha h
      simp only [foldE] at h
      cases h
      rcases ha with h | h
      · exact absurd rfl h
      · exact h
    | cons a as ih =>
      intro acc r hl _ h
      simp only [foldE] at h
      split at h
      · cases h
      · rename_i s hs
        split at hs
        · cases hs
        · rename_i w hw
          obtain ⟨p', rfl⟩ := (Term.substitute_spec R (hl a (by simp)) hq hw).2.1
          refine ih s r (fun t ht => hl t (by simp [ht])) (Or.inr ?_) h
          cases acc <;> simp only [PyVal.add] at hs <;>
            (obtain ⟨r', _, rfl⟩ := PyVal.lift_ok hs; exact ⟨r', rfl⟩)
  exact key _ _ _ hp.terms (Or.inl hne) h

/-! ## Queries -/

theorem Term.val_congr {t : Term K} {v w : String → K}
    (h : ∀ f ∈ t.factors, v f.name = w f.name) : t.val v = t.val w := by
  unfold Term.val; rw [factorsVal_congr h]

theorem Poly.val_congr {p : Poly K} {v w : String → K}
    (h : ∀ x, p.isFunctionOf x = true → v x = w x) : p.val v = p.val w := by
  unfold Poly.val
  congr 1
  refine List.map_congr_left fun t ht => Term.val_congr fun f hf => ?_
  exact h f.name (Poly.isFunctionOf_iff.2 ⟨t, ht, f, hf, rfl⟩)

omit [CommRing K] in
theorem Poly.isConstant_iff {p : Poly K} :
    p.isConstant = true ↔ ∀ x, p.isFunctionOf x = false := by
  simp only [Poly.isConstant, List.all_eq_true, Term.isConstant, decide_eq_true_eq,
    List.length_eq_zero_iff]
  constructor
  · intro h x
    rw [Bool.eq_false_iff]
    intro hx
    obtain ⟨t, ht, f, hf, _⟩ := Poly.isFunctionOf_iff.1 hx
    rw [h t ht] at hf; cases hf
  · intro h t ht
    rw [List.eq_nil_iff_forall_not_mem]
    intro f hf
    have := h f.name
    rw [Bool.eq_false_iff] at this
    exact this (Poly.isFunctionOf_iff.2 ⟨t, ht, f, hf, rfl⟩)

omit [CommRing K] in
theorem Term.le_highestPower {t : Term K} {f : Factor} (hf : f ∈ t.factors) :
    f.power ≤ t.highestPower f.name := by
  unfold Term.highestPower
  have mono : ∀ (fs : List Factor) (h : ℕ) (x : String),
      h ≤ fs.foldl (fun h f => if f.name = x then max h f.power else h) h := by
    intro fs
    induction fs with
    | nil => intro h x; simp
    | cons g gs ih =>
      intro h x
      simp only [List.foldl_cons]
      refine le_trans ?_ (ih _ x)
      split
      · exact le_max_left _ _
      · exact le_refl _
  have key : ∀ (fs : List Factor) (h : ℕ), f ∈ fs →
      f.power ≤ fs.foldl (fun h g => if g.name = f.name then max h g.power else h) h := by
    intro fs
    induction fs with
    | nil => intro h hf; cases hf
    | cons g gs ih =>
      intro h hf
      simp only [List.foldl_cons]
      rcases List.mem_cons.1 hf with rfl | h'
      · refine le_trans ?_ (mono _ _ _)
        simp
      · exact ih _ h'
  exact key _ _ hf

omit [CommRing K] in
theorem Term.highestPower_attained {t : Term K} {x : String} (h : t.highestPower x ≠ 0) :
    ∃ f ∈ t.factors, f.name = x ∧ f.power = t.highestPower x := by
  unfold Term.highestPower at h ⊢
  have key : ∀ (fs : List Factor) (k : ℕ),
      (∃ f ∈ fs, f.name = x ∧
        f.power = fs.foldl (fun h f => if f.name = x then max h f.power else h) k) ∨
      fs.foldl (fun h f => if f.name = x then max h f.power else h) k = k := by
    intro fs
    induction fs with
    | nil => intro k; right; rfl
    | cons g gs ih =>
      intro k
      simp only [List.foldl_cons]
      rcases ih (if g.name = x then max k g.power else k) with ⟨f, hf, h1, h2⟩ | h1
      · exact Or.inl ⟨f, by simp [hf], h1, h2⟩
      · rw [h1]
        by_cases hg : g.name = x
        · simp only [hg, if_true]
          rcases le_total k g.power with h2 | h2
          · left; exact ⟨g, by simp, hg, by rw [max_eq_right h2]⟩
          · right; exact max_eq_left h2
        · right; simp [hg]
  rcases key t.factors 0 with h1 | h1
  · exact h1
  · exact absurd h1 h

omit [CommRing K] in
theorem Poly.highestPower_eq {p : Poly K} {x : String} {n : ℕ} (h : p.highestPower x = .ok n) :
    (∀ t ∈ p.terms, t.highestPower x ≤ n) ∧ ∃ t ∈ p.terms, t.highestPower x = n := by
  unfold Poly.highestPower at h
  split at h
  · cases h
  · rename_i t ts hts
    cases h
    rw [hts]
    have key : ∀ (l : List (Term K)) (k : ℕ),
        k ≤ l.foldl (fun h s => max h (s.highestPower x)) k ∧
        (∀ t ∈ l, t.highestPower x ≤ l.foldl (fun h s => max h (s.highestPower x)) k) ∧
        (l.foldl (fun h s => max h (s.highestPower x)) k = k ∨
          ∃ t ∈ l, t.highestPower x = l.foldl (fun h s => max h (s.highestPower x)) k) := by
      intro l
      induction l with
      | nil => intro k; simp
      | cons a as ih =>
        intro k
        simp only [List.foldl_cons]
        obtain ⟨h1, h2, h3⟩ := ih (max k (a.highestPower x))
        refine ⟨(le_max_left _ _).trans h1, ?_, ?_⟩
        · intro t ht
          rcases List.mem_cons.1 ht with rfl | h'
          · exact (le_max_right _ _).trans h1
          · exact h2 t h'
        · rcases h3 with h3 | ⟨t, ht, h3⟩
          · rw [h3]
            rcases le_total k (a.highestPower x) with h4 | h4
            · right; exact ⟨a, by simp, by rw [max_eq_right h4]⟩
            · left; exact max_eq_left h4
          · right; exact ⟨t, by simp [ht], h3⟩
    obtain ⟨h1, h2, h3⟩ := key ts (t.highestPower x)
    refine ⟨?_, ?_⟩
    · intro s hs
      rcases List.mem_cons.1 hs with rfl | h'
      · exact h1
      · exact h2 s h'
    · rcases h3 with h3 | ⟨s, hs, h3⟩
      · exact ⟨t, by simp, h3.symm⟩
      · exact ⟨s, by simp [hs], h3⟩

/-! ## Collection and rejection -/

/-- Closed form of `Term.collect_for`. -/
def collectedTerm (t : Term K) (f : Factor) : Term K :=
  termOf R t.const (R.ord (t.factors.filter fun g => g ≠ f))

theorem collect_terms (p : Poly K) (f : Factor) :
    mapE (fun t => Term.collectFor R t f) (p.terms.filter fun t => f ∈ t.factors) =
      .ok ((p.terms.filter fun t => f ∈ t.factors).map fun t => collectedTerm R t f) :=
  mapE_eq_map fun t ht => by
    have : f ∈ t.factors := by simpa using (List.mem_filter.1 ht).2
    simp [Term.collectFor, this, Term.new_eq, collectedTerm]

theorem collectedTerm_wf {t : Term K} (ht : t.WF R) (f : Factor) : (collectedTerm R t f).WF R :=
  termOf_wf R _ _ fun g hg => ht.pos g (List.mem_filter.1 (R.mem_iff.1 hg)).1

theorem collected_perm {t : Term K} (ht : t.WF R) (f : Factor) :
    (R.ord (t.factors.filter fun g => g ≠ f)).Perm (t.factors.filter fun g => g ≠ f) :=
  R.perm_of_nodup (ht.nodup.filter _)

theorem collectedTerm_val {t : Term K} (ht : t.WF R) {f : Factor} (hf : f ∈ t.factors)
    (v : String → K) : (collectedTerm R t f).val v * f.val v = t.val v := by
  unfold collectedTerm
  rw [termOf_val, factorsVal_perm (collected_perm R ht f) v, Term.val, mul_assoc]
  congr 1
  have hperm : t.factors.Perm (f :: t.factors.filter fun g => g ≠ f) := by
    refine perm_of_toFinset_eq ht.nodup ?_ ?_
    · rw [List.nodup_cons]
      exact ⟨by simp, ht.nodup.filter _⟩
    · ext g
      simp only [List.mem_toFinset, List.mem_cons, List.mem_filter, decide_eq_true_eq]
      constructor
      · intro hg
        by_cases hgf : g = f
        · exact Or.inl hgf
        · exact Or.inr ⟨hg, by simpa using hgf⟩
      · rintro (rfl | ⟨hg, _⟩)
        · exact hf
        · exact hg
  rw [factorsVal_perm hperm v, factorsVal_cons, mul_comm]

/-- In a well-formed term at most one factor has a given name. -/
theorem Term.WF.factor_unique {R : Runtime K} {t : Term K} (ht : t.WF R) {f g : Factor}
    (hf : f ∈ t.factors) (hg : g ∈ t.factors) (h : f.name = g.name) : f = g :=
  List.inj_on_of_nodup_map ht.names hf hg h

theorem Poly.collectFor_spec {p q : Poly K} {f : Factor} (hp : p.WF R)
    (h : p.collectFor R f = .ok q) :
    q.WF R ∧ (∀ v, q.val v * f.val v =
      ((p.terms.filter fun t => f ∈ t.factors).map fun t => t.val v).sum) := by
  unfold Poly.collectFor at h
  rw [collect_terms] at h
  have hts : ∀ t ∈ (p.terms.filter fun t => f ∈ t.factors).map fun t => collectedTerm R t f,
      t.WF R := by
    intro t ht
    obtain ⟨s, hs, rfl⟩ := List.mem_map.1 ht
    exact collectedTerm_wf R (hp.terms s (List.mem_filter.1 hs).1) f
  refine ⟨Poly.new_wf R hts h, fun v => ?_⟩
  rw [Poly.new_val R hts h, List.map_map, ← List.sum_map_mul_right]
  congr 1
  refine List.map_congr_left fun t ht => ?_
  have hm := List.mem_filter.1 ht
  exact collectedTerm_val R (hp.terms t hm.1) (by simpa using hm.2) v

theorem Poly.reject_spec {p q : Poly K} {x : String} (hp : p.WF R) (h : p.reject R x = .ok q) :
    q.WF R ∧ ∀ v, q.val v =
      ((p.terms.filter fun t => !t.isFunctionOf x).map fun t => t.val v).sum := by
  unfold Poly.reject at h
  have hts : ∀ t ∈ p.terms.filter fun t => !t.isFunctionOf x, t.WF R := fun t ht =>
    hp.terms t (List.mem_filter.1 ht).1
  exact ⟨Poly.new_wf R hts h, Poly.new_val R hts h⟩

/-- Factors stored by `Poly.__init__` are factors of the given terms. -/
theorem Poly.new_factors {ts : List (Term K)} {p : Poly K} (hts : ∀ t ∈ ts, t.WF R)
    (h : Poly.new R ts = .ok p) {t : Term K} (ht : t ∈ p.terms) (hne : t.factors ≠ []) :
    ∃ s ∈ ts, s.key = t.key := by
  have h2 := Poly.new_ok R hts h
  have hkeys : ∀ F ∈ R.ord (ts.map fun t => t.factors.toFinset),
      F ∈ ts.map fun t => t.factors.toFinset := fun F hF => R.mem_iff.1 hF
  revert hkeys
  generalize R.ord (ts.map fun t => t.factors.toFinset) = keys at h2
  generalize p.terms = ms at h2 ht
  intro hkeys
  induction h2 with
  | nil => cases ht
  | cons hab _ ih =>
    rename_i F s Fs ms' _
    rcases List.mem_cons.1 ht with rfl | hm
    · rcases hab.2.1 with h | h
      · exact absurd (hab.1.zero h) hne
      · obtain ⟨s, hs, hsF⟩ := List.mem_map.1 (hkeys F (by simp))
        exact ⟨s, hs, hsF.trans h.symm⟩
    · exact ih hm fun F hF => hkeys F (by simp [hF])

theorem Poly.new_isFunctionOf {ts : List (Term K)} {p : Poly K} (hts : ∀ t ∈ ts, t.WF R)
    (h : Poly.new R ts = .ok p) {x : String} (hx : p.isFunctionOf x = true) :
    ∃ t ∈ ts, t.isFunctionOf x = true := by
  obtain ⟨t, ht, f, hf, rfl⟩ := Poly.isFunctionOf_iff.1 hx
  obtain ⟨s, hs, hk⟩ := Poly.new_factors R hts h ht (fun h0 => by rw [h0] at hf; cases hf)
  refine ⟨s, hs, ?_⟩
  have : f ∈ s.factors := by
    rw [← List.mem_toFinset]
    have : f ∈ t.key := by simpa [Term.key] using hf
    rw [← hk] at this
    exact this
  simp only [Term.isFunctionOf, List.any_eq_true, decide_eq_true_eq]
  exact ⟨f, this, rfl⟩

theorem Poly.collectFor_isFunctionOf {p q : Poly K} {f : Factor} (hp : p.WF R)
    (h : p.collectFor R f = .ok q) : q.isFunctionOf f.name = false := by
  rw [Bool.eq_false_iff]
  intro hx
  unfold Poly.collectFor at h
  rw [collect_terms] at h
  have hts : ∀ t ∈ (p.terms.filter fun t => f ∈ t.factors).map fun t => collectedTerm R t f,
      t.WF R := by
    intro t ht
    obtain ⟨s, hs, rfl⟩ := List.mem_map.1 ht
    exact collectedTerm_wf R (hp.terms s (List.mem_filter.1 hs).1) f
  obtain ⟨t, ht, htx⟩ := Poly.new_isFunctionOf R hts h hx
  obtain ⟨s, hs, rfl⟩ := List.mem_map.1 ht
  simp only [Term.isFunctionOf, List.any_eq_true, decide_eq_true_eq] at htx
  obtain ⟨g, hg, hgn⟩ := htx
  have hm := List.mem_filter.1 hs
  have hn := termOf_names_subset R hg
  obtain ⟨g', hg', hgn'⟩ := List.mem_map.1 hn
  have hg'' := List.mem_filter.1 (R.mem_iff.1 hg')
  have : g' = f := (hp.terms s hm.1).factor_unique hg''.1 (by simpa using hm.2)
    (hgn'.trans hgn)
  rw [this] at hg''
  simp at hg''

theorem Poly.reject_isFunctionOf {p q : Poly K} {x : String} (hp : p.WF R)
    (h : p.reject R x = .ok q) : q.isFunctionOf x = false := by
  rw [Bool.eq_false_iff]
  intro hx
  have hts : ∀ t ∈ p.terms.filter fun t => !t.isFunctionOf x, t.WF R := fun t ht =>
    hp.terms t (List.mem_filter.1 ht).1
  obtain ⟨t, ht, htx⟩ := Poly.new_isFunctionOf R hts h hx
  have := (List.mem_filter.1 ht).2
  rw [htx] at this; cases this

/-- Splitting a polynomial that is at most quadratic in `x`. -/
theorem Poly.quadratic_split {p : Poly K} {x : String} (hp : p.WF R)
    (hx : ∀ t ∈ p.terms, t.highestPower x ≤ 2) (v : String → K) :
    p.val v =
      ((p.terms.filter fun t => (⟨x, 2⟩ : Factor) ∈ t.factors).map fun t => t.val v).sum +
      ((p.terms.filter fun t => (⟨x, 1⟩ : Factor) ∈ t.factors).map fun t => t.val v).sum +
      ((p.terms.filter fun t => !t.isFunctionOf x).map fun t => t.val v).sum := by
  unfold Poly.val
  have hwf := hp.terms
  revert hwf hx
  generalize p.terms = l
  intro hx hwf
  induction l with
  | nil => simp
  | cons a as ih =>
    have hih := ih (fun t ht => hx t (by simp [ht])) fun t ht => hwf t (by simp [ht])
    have ha := hwf a (by simp)
    have hax := hx a (by simp)
    simp only [List.filter_cons, List.map_cons, List.sum_cons, hih]
    by_cases h2 : (⟨x, 2⟩ : Factor) ∈ a.factors
    · have h1 : (⟨x, 1⟩ : Factor) ∉ a.factors := fun h1 => by
        have := ha.factor_unique h1 h2 rfl
        simp at this
      have h0 : a.isFunctionOf x = true := by
        simp only [Term.isFunctionOf, List.any_eq_true, decide_eq_true_eq]
        exact ⟨_, h2, rfl⟩
      simp only [h2, h1, h0, decide_true, decide_false, if_true, Bool.false_eq_true, if_false,
        Bool.not_true, List.map_cons, List.sum_cons]
      ring
    · by_cases h1 : (⟨x, 1⟩ : Factor) ∈ a.factors
      · have h0 : a.isFunctionOf x = true := by
          simp only [Term.isFunctionOf, List.any_eq_true, decide_eq_true_eq]
          exact ⟨_, h1, rfl⟩
        simp only [h2, h1, h0, decide_true, decide_false, if_true, Bool.false_eq_true, if_false,
          Bool.not_true, List.map_cons, List.sum_cons]
        ring
      · have h0 : a.isFunctionOf x = false := by
          rw [Bool.eq_false_iff]
          intro h
          simp only [Term.isFunctionOf, List.any_eq_true, decide_eq_true_eq] at h
          obtain ⟨f, hf, rfl⟩ := h
          have hle := Term.le_highestPower hf
          have hpos := ha.pos f hf
          have : f.power = 1 ∨ f.power = 2 := by omega
          rcases this with h | h
          · exact h1 (by have : f = ⟨f.name, 1⟩ := by cases f; simp_all
                         rwa [this] at hf)
          · exact h2 (by have : f = ⟨f.name, 2⟩ := by cases f; simp_all
                         rwa [this] at hf)
        simp only [h2, h1, h0, decide_false, if_true, Bool.false_eq_true, if_false,
          Bool.not_false, List.map_cons, List.sum_cons]
        ring

end Gpcm
