import Verif.Lemmas.TermLemmas
import Mathlib.Algebra.BigOperators.Ring.List
import Mathlib.Tactic.Ring
import Mathlib.Tactic.Push
import Mathlib.Data.Int.Cast.Lemmas

/-! # Helper lemmas about polynomials -/

namespace Gpcm

variable {K : Type} [CommRing K] (R : Runtime K)

/-- The frozenset of factors of a term. -/
def Term.key (t : Term K) : Finset Factor := t.factors.toFinset

/-- Sum of the constants of a list of terms. -/
def constSum (ts : List (Term K)) : K := (ts.map Term.const).sum

/-! ## Reducing a group of terms -/

theorem reduceTerms_some {F : Finset Factor} :
    ∀ (ts : List (Term K)) (s : Term K) (r : Option (Term K)), s.WF R →
      (∀ t ∈ ts, t.WF R ∧ t.key = F) → (R.numZero s.const = true ∨ s.key = F) →
      reduceTerms R (some s) ts = .ok r →
      ∃ t, r = some t ∧ t.WF R ∧ (R.numZero t.const = true ∨ t.key = F) ∧
        t.const = s.const + constSum ts ∧
        ∀ v, t.val v = s.val v + (ts.map fun t => t.val v).sum := by
  intro ts
  induction ts with
  | nil =>
    intro s r hs _ hk h
    simp only [reduceTerms, foldE] at h
    cases h
    exact ⟨s, rfl, hs, hk, by simp [constSum], by simp⟩
  | cons a as ih =>
    intro s r hs hts hk h
    simp only [reduceTerms, foldE] at h
    split at h
    · cases h
    · rename_i o ho
      split at ho
      · cases ho
      · rename_i b hb
        cases ho
        obtain ⟨hfs, rfl⟩ := Term.add_ok R hb
        have ha := hts a (by simp)
        have hbk : R.numZero (termOf R (s.const + a.const) s.factors).const = true ∨
            (termOf R (s.const + a.const) s.factors).key = F := by
          cases hz : R.numZero (s.const + a.const)
          · right
            unfold Term.key
            rw [termOf_toFinset R hz hs.names, hfs]
            exact ha.2
          · left; exact hz
        obtain ⟨t, rfl, htwf, htk, htc, htv⟩ :=
          ih _ r (Term.add_wf R hs hb) (fun t ht => hts t (by simp [ht])) hbk h
        refine ⟨t, rfl, htwf, htk, ?_, ?_⟩
        · rw [htc]; simp [constSum, add_assoc]
        · intro v
          rw [htv, Term.add_val R hs ha.1 hb]
          simp [add_assoc]

theorem reduceTerms_none {F : Finset Factor} {ts : List (Term K)} {r : Option (Term K)}
    (hts : ∀ t ∈ ts, t.WF R ∧ t.key = F) (hne : ts ≠ []) (h : reduceTerms R none ts = .ok r) :
    ∃ t, r = some t ∧ t.WF R ∧ (R.numZero t.const = true ∨ t.key = F) ∧
      t.const = constSum ts ∧ ∀ v, t.val v = (ts.map fun t => t.val v).sum := by
  cases ts with
  | nil => exact absurd rfl hne
  | cons a as =>
    have ha := hts a (by simp)
    have h' : reduceTerms R (some a) as = .ok r := by
      simpa [reduceTerms, foldE] using h
    obtain ⟨t, rfl, h1, h2, h3, h4⟩ :=
      reduceTerms_some R as a r ha.1 (fun t ht => hts t (by simp [ht])) (Or.inr ha.2) h'
    exact ⟨t, rfl, h1, h2, by simpa [constSum] using h3, by simpa using h4⟩

/-- No proper partial sum (of at least two constants) is recognised as zero. -/
def NoEarlyCancel (ts : List (Term K)) : Prop :=
  ∀ l₁ l₂ : List (Term K), ts = l₁ ++ l₂ → 2 ≤ l₁.length → l₂ ≠ [] →
    R.numZero (constSum l₁) = false

theorem reduceTerms_some_total {F : Finset Factor} :
    ∀ (ts done : List (Term K)) (s : Term K), s.WF R →
      (∀ t ∈ ts, t.WF R ∧ t.key = F) → (s.key = F ∨ R.numZero s.const = true) →
      s.const = constSum done → done ≠ [] → (R.numZero s.const = true → 2 ≤ done.length ∨ F = ∅) →
      (F = ∅ ∨ NoEarlyCancel R (done ++ ts)) →
      ∃ t, reduceTerms R (some s) ts = .ok (some t) := by
  intro ts
  induction ts with
  | nil => intro done s _ _ _ _ _ _ _; exact ⟨s, rfl⟩
  | cons a as ih =>
    intro done s hs hts hk hc hne hz2 hcan
    have ha := hts a (by simp)
    have hsF : s.key = F := by
      rcases hk with h | h
      · exact h
      · rcases hcan with hF | hF
        · rw [hF]; simp [Term.key, hs.zero h]
        · rcases hz2 h with h2 | h2
          · have := hF done (a :: as) rfl h2 (by simp)
            rw [← hc, h] at this; cases this
          · rw [h2]; simp [Term.key, hs.zero h]
    have hadd : s.add R a = .ok (termOf R (s.const + a.const) s.factors) := by
      have hs' : s.sameFactors a = true := sameFactors_iff.2 (hsF.trans ha.2.symm)
      simp only [Term.add, hs', if_true, Term.new_eq]
    have hstep : reduceTerms R (some s) (a :: as) =
        reduceTerms R (some (termOf R (s.const + a.const) s.factors)) as := by
      simp only [reduceTerms, foldE, hadd]
    rw [hstep]
    refine ih (done ++ [a]) _ (Term.add_wf R hs hadd) (fun t ht => hts t (by simp [ht])) ?_ ?_
      (by simp) ?_ (by simpa using hcan)
    · cases hz : R.numZero (s.const + a.const)
      · left
        unfold Term.key
        rw [termOf_toFinset R hz hs.names]
        exact hsF
      · right; exact hz
    · simp [constSum, hc]
    · intro _
      left
      have : 0 < done.length := List.length_pos_iff.2 hne
      simp; omega

theorem reduceTerms_none_total {F : Finset Factor} {ts : List (Term K)}
    (hts : ∀ t ∈ ts, t.WF R ∧ t.key = F) (hne : ts ≠ [])
    (hcan : F = ∅ ∨ NoEarlyCancel R ts) : ∃ t, reduceTerms R none ts = .ok (some t) := by
  cases ts with
  | nil => exact absurd rfl hne
  | cons a as =>
    have ha := hts a (by simp)
    have : reduceTerms R none (a :: as) = reduceTerms R (some a) as := by
      simp [reduceTerms, foldE]
    rw [this]
    refine reduceTerms_some_total R as [a] a ha.1 (fun t ht => hts t (by simp [ht]))
      (Or.inl ha.2) (by simp [constSum]) (by simp) ?_ (by simpa using hcan)
    intro hz
    right
    rw [← ha.2]
    simp [Term.key, ha.1.zero hz]

theorem noEarlyCancel_of_length {ts : List (Term K)} (h : ts.length ≤ 2) :
    NoEarlyCancel R ts := by
  intro l₁ l₂ he h1 h2
  have : 0 < l₂.length := List.length_pos_iff.2 h2
  rw [he, List.length_append] at h
  omega

theorem reduceTerms_some_error {F : Finset Factor} (hF : F ≠ ∅) :
    ∀ (l₁ l₂ : List (Term K)) (s : Term K), s.WF R →
      (∀ t ∈ l₁ ++ l₂, t.WF R ∧ t.key = F) →
      l₂ ≠ [] → (l₁ = [] → s.key = ∅) → (l₁ ≠ [] → R.numZero (s.const + constSum l₁) = true) →
      reduceTerms R (some s) (l₁ ++ l₂) = .error .runtimeError := by
  intro l₁
  induction l₁ with
  | nil =>
    intro l₂ s hs hts hne hk _
    cases l₂ with
    | nil => exact absurd rfl hne
    | cons a as =>
      have ha := hts a (by simp)
      have hns : s.sameFactors a = false := by
        rw [Bool.eq_false_iff]
        intro h
        have := sameFactors_iff.1 h
        have hk' := hk rfl
        unfold Term.key at hk' ha
        exact hF (ha.2.symm.trans (this.symm.trans hk'))
      simp [reduceTerms, foldE, Term.add, hns]
  | cons a as ih =>
    intro l₂ s hs hts hne hk hz
    have ha := hts a (by simp)
    simp only [List.cons_append, reduceTerms, foldE]
    cases hadd : s.add R a with
    | error e =>
      have : e = .runtimeError := by
        unfold Term.add at hadd
        split at hadd
        · rw [Term.new_eq] at hadd; cases hadd
        · cases hadd; rfl
      simp [this]
    | ok b =>
      obtain ⟨hfs, rfl⟩ := Term.add_ok R hadd
      refine ih l₂ _ (Term.add_wf R hs hadd) (fun t ht => hts t (by
        rw [List.cons_append]; exact List.mem_cons_of_mem _ ht)) hne ?_ ?_
      · intro h0
        have hz' := hz (by simp)
        rw [h0] at hz'
        have hz'' : R.numZero (s.const + a.const) = true := by simpa [constSum] using hz'
        simp [Term.key, termOf_zero R hz'']
      · intro h0
        have hz' := hz (by simp)
        simpa [constSum, add_assoc] using hz'

/-- Early cancellation in a group with variables makes `reduce` raise. -/
theorem reduceTerms_none_error {F : Finset Factor} (hF : F ≠ ∅) {ts : List (Term K)}
    (hts : ∀ t ∈ ts, t.WF R ∧ t.key = F) (hcan : ¬ NoEarlyCancel R ts) :
    reduceTerms R none ts = .error .runtimeError := by
  unfold NoEarlyCancel at hcan
  push Not at hcan
  obtain ⟨l₁, l₂, rfl, h1, h2, h3⟩ := hcan
  cases l₁ with
  | nil => simp at h1
  | cons a as =>
    have ha := hts a (by simp)
    have : reduceTerms R none (a :: as ++ l₂) = reduceTerms R (some a) (as ++ l₂) := by
      simp [reduceTerms, foldE]
    rw [this]
    have has : as ≠ [] := by
      intro h; rw [h] at h1; simp at h1
    refine reduceTerms_some_error R hF as l₂ a ha.1 (fun t ht => hts t (by
        rw [List.cons_append]; exact List.mem_cons_of_mem _ ht)) h2 (fun h => absurd h has)
      (fun _ => ?_)
    simpa [constSum] using h3

/-! ## `Poly.__init__` -/

/-- Terms of `ts` with a given key. -/
def group (ts : List (Term K)) (F : Finset Factor) : List (Term K) :=
  ts.filter fun t => t.factors.toFinset = F

omit [CommRing K] in
theorem mem_group {ts : List (Term K)} {F : Finset Factor} {t : Term K} :
    t ∈ group ts F ↔ t ∈ ts ∧ t.key = F := by simp [group, Term.key]

omit [CommRing K] in
theorem group_ne_nil {ts : List (Term K)} {F : Finset Factor}
    (h : F ∈ ts.map fun t => t.factors.toFinset) : group ts F ≠ [] := by
  obtain ⟨t, ht, rfl⟩ := List.mem_map.1 h
  intro h0
  have : t ∈ group ts t.factors.toFinset := mem_group.2 ⟨ht, rfl⟩
  rw [h0] at this; cases this

/-- Result of merging the group with key `F`. -/
def MergedTo (ts : List (Term K)) (F : Finset Factor) (t : Term K) : Prop :=
  t.WF R ∧ (R.numZero t.const = true ∨ t.key = F) ∧ t.const = constSum (group ts F) ∧
    ∀ v, t.val v = ((group ts F).map fun t => t.val v).sum

theorem Poly.new_ok {ts : List (Term K)} {p : Poly K} (hts : ∀ t ∈ ts, t.WF R)
    (h : Poly.new R ts = .ok p) :
    List.Forall₂ (MergedTo R ts) (R.ord (ts.map fun t => t.factors.toFinset)) p.terms := by
  unfold Poly.new at h
  split at h
  · cases h
  · rename_i ms hms
    cases h
    rw [mapE_ok_iff] at hms
    have hkeys : ∀ F ∈ R.ord (ts.map fun t => t.factors.toFinset),
        F ∈ ts.map fun t => t.factors.toFinset := fun F hF => R.mem_iff.1 hF
    revert hkeys
    generalize R.ord (ts.map fun t => t.factors.toFinset) = keys at hms
    intro hkeys
    induction hms with
    | nil => exact List.Forall₂.nil
    | cons hab _ ih =>
      rename_i F t Fs ms' _
      refine List.Forall₂.cons ?_ (ih fun G hG => hkeys G (by simp [hG]))
      have hg : ∀ t ∈ group ts F, t.WF R ∧ t.key = F := fun t ht =>
        ⟨hts t (mem_group.1 ht).1, (mem_group.1 ht).2⟩
      unfold mergeGroup at hab
      split at hab
      · cases hab
      · cases hab
      · rename_i r hr
        cases hab
        obtain ⟨t', ht', h1, h2, h3, h4⟩ :=
          reduceTerms_none R hg (group_ne_nil (hkeys F (by simp))) hr
        cases ht'
        exact ⟨h1, h2, h3, h4⟩

/-- `Poly.__init__` does not raise if no group with variables has an early cancellation. -/
theorem Poly.new_total {ts : List (Term K)} (hts : ∀ t ∈ ts, t.WF R)
    (hcan : ∀ F, F ≠ ∅ → NoEarlyCancel R (group ts F)) : ∃ p, Poly.new R ts = .ok p := by
  unfold Poly.new
  obtain ⟨ms, hms⟩ := mapE_total (f := mergeGroup R ts)
      (l := R.ord (ts.map fun t => t.factors.toFinset)) (by
    intro F hF
    have hg : ∀ t ∈ group ts F, t.WF R ∧ t.key = F := fun t ht =>
      ⟨hts t (mem_group.1 ht).1, (mem_group.1 ht).2⟩
    obtain ⟨t, ht⟩ := reduceTerms_none_total R hg (group_ne_nil (R.mem_iff.1 hF)) (by
      by_cases hF0 : F = ∅
      · exact Or.inl hF0
      · exact Or.inr (hcan F hF0))
    unfold group at ht
    exact ⟨t, by simp only [mergeGroup, ht]⟩)
  exact ⟨⟨ms⟩, by rw [hms]⟩

/-- If it raises, it raises `RuntimeError`. -/
theorem Poly.new_error {ts : List (Term K)} (hts : ∀ t ∈ ts, t.WF R) {e : PyErr}
    (h : Poly.new R ts = .error e) :
    e = .runtimeError ∧ ∃ F, F ≠ ∅ ∧ ¬ NoEarlyCancel R (group ts F) := by
  have hcan : ∃ F, F ≠ ∅ ∧ ¬ NoEarlyCancel R (group ts F) := by
    by_contra hcon
    obtain ⟨p, hp⟩ := Poly.new_total R hts fun F hF => by
      by_contra hc
      exact hcon ⟨F, hF, hc⟩
    rw [hp] at h; cases h
  refine ⟨?_, hcan⟩
  unfold Poly.new at h
  split at h
  · rename_i e' he
    cases h
    obtain ⟨F, hF, hFe⟩ := mapE_error he
    have hg : ∀ t ∈ group ts F, t.WF R ∧ t.key = F := fun t ht =>
      ⟨hts t (mem_group.1 ht).1, (mem_group.1 ht).2⟩
    have hne := group_ne_nil (R.mem_iff.1 hF)
    unfold mergeGroup at hFe
    split at hFe
    · rename_i e'' he''
      cases hFe
      by_cases hc : F = ∅ ∨ NoEarlyCancel R (group ts F)
      · obtain ⟨t, ht⟩ := reduceTerms_none_total R hg hne hc
        unfold group at ht; rw [ht] at he''; cases he''
      · rw [not_or] at hc
        have := reduceTerms_none_error R hc.1 hg hc.2
        unfold group at this
        rw [this] at he''; cases he''; rfl
    · rename_i hn
      obtain ⟨t, ht, _⟩ := reduceTerms_none R hg hne (r := none) hn
      cases ht
    · cases hFe
  · cases h

/-- Conversely, an early cancellation makes it raise. -/
theorem Poly.new_raises {ts : List (Term K)} (hts : ∀ t ∈ ts, t.WF R) {F : Finset Factor}
    (hF : F ≠ ∅) (hcan : ¬ NoEarlyCancel R (group ts F)) :
    Poly.new R ts = .error .runtimeError := by
  cases h : Poly.new R ts with
  | error e => rw [(Poly.new_error R hts h).1]
  | ok p =>
    exfalso
    unfold Poly.new at h
    split at h
    · cases h
    · rename_i ms hms
      have hmem : F ∈ R.ord (ts.map fun t => t.factors.toFinset) := by
        rw [R.mem_iff]
        by_contra hno
        have hg : group ts F = [] := by
          rw [List.eq_nil_iff_forall_not_mem]
          intro t ht
          exact hno (List.mem_map.2 ⟨t, (mem_group.1 ht).1, (mem_group.1 ht).2⟩)
        apply hcan
        intro l₁ l₂ he h1 h2
        rw [hg] at he
        simp at he
        exact absurd he.2 h2
      have hg : ∀ t ∈ group ts F, t.WF R ∧ t.key = F := fun t ht =>
        ⟨hts t (mem_group.1 ht).1, (mem_group.1 ht).2⟩
      have herr := reduceTerms_none_error R hF hg hcan
      rw [mapE_ok_iff] at hms
      generalize R.ord (ts.map fun t => t.factors.toFinset) = keys at hms hmem
      clear h
      induction hms with
      | nil => cases hmem
      | cons hab _ ih =>
        rcases List.mem_cons.1 hmem with rfl | hm
        · unfold group at herr
          unfold mergeGroup at hab
          rw [herr] at hab
          cases hab
        · exact ih hm

/-! ## Well-formed polynomials -/

/-- What `Poly.__init__` establishes: well-formed terms, at most one term per monomial among the
terms that are not recognised to be zero. -/
structure Poly.WF (p : Poly K) : Prop where
  terms : ∀ t ∈ p.terms, t.WF R
  uniq : ((p.terms.filter fun t => !R.numZero t.const).map Term.key).Nodup

theorem Poly.new_wf {ts : List (Term K)} {p : Poly K} (hts : ∀ t ∈ ts, t.WF R)
    (h : Poly.new R ts = .ok p) : p.WF R := by
  have h2 := Poly.new_ok R hts h
  refine ⟨?_, ?_⟩
  · intro t ht
    obtain ⟨F, _, hm⟩ : ∃ F ∈ R.ord (ts.map fun t => t.factors.toFinset), MergedTo R ts F t := by
      generalize R.ord (ts.map fun t => t.factors.toFinset) = keys at h2
      generalize p.terms = ms at h2 ht
      induction h2 with
      | nil => cases ht
      | cons hab _ ih =>
        rcases List.mem_cons.1 ht with rfl | hm
        · exact ⟨_, by simp, hab⟩
        · obtain ⟨F, hF, h⟩ := ih hm
          exact ⟨F, by simp [hF], h⟩
    exact hm.1
  · have hnd := R.nodup (ts.map fun t => t.factors.toFinset)
    refine List.Nodup.sublist ?_ hnd
    generalize R.ord (ts.map fun t => t.factors.toFinset) = keys at h2
    generalize p.terms = ms at h2
    induction h2 with
    | nil => simp
    | cons hab _ ih =>
      rename_i F t Fs ms' _
      cases hz : R.numZero t.const
      · have hk : t.key = F := by
          rcases hab.2.1 with h | h
          · rw [hz] at h; cases h
          · exact h
        simp only [List.filter_cons, hz, Bool.not_false, if_true, List.map_cons, hk]
        exact ih.cons_cons F
      · simp only [List.filter_cons, hz, Bool.not_true, Bool.false_eq_true, if_false]
        exact ih.cons F

theorem Poly.new_val {ts : List (Term K)} {p : Poly K} (hts : ∀ t ∈ ts, t.WF R)
    (h : Poly.new R ts = .ok p) (v : String → K) : p.val v = (ts.map fun t => t.val v).sum := by
  have h2 := Poly.new_ok R hts h
  rw [← R.sum_groups (fun t => t.factors.toFinset) (fun t => t.val v) ts]
  unfold Poly.val
  congr 1
  generalize R.ord (ts.map fun t => t.factors.toFinset) = keys at h2
  generalize p.terms = ms at h2
  induction h2 with
  | nil => rfl
  | cons hab _ ih =>
    simp only [List.map_cons, List.cons.injEq]
    exact ⟨hab.2.2.2 v, ih⟩

/-- In a well-formed polynomial, at most one term has a given non-empty key. -/
theorem Poly.WF.group_le {R : Runtime K} {p : Poly K} (hp : p.WF R) {F : Finset Factor}
    (hF : F ≠ ∅) : (group p.terms F).length ≤ 1 := by
  have h1 : group p.terms F =
      group (p.terms.filter fun t => !R.numZero t.const) F := by
    unfold group
    rw [List.filter_filter]
    refine List.filter_congr fun t ht => ?_
    cases hz : R.numZero t.const
    · simp
    · have := (hp.terms t ht).zero hz
      simp [this, Ne.symm hF]
  rw [h1]
  have hu := hp.uniq
  generalize (p.terms.filter fun t => !R.numZero t.const) = l at hu
  have h2 : (group l F).length = (l.map Term.key).count F := by
    unfold group
    rw [List.count, List.countP_map, List.countP_eq_length_filter]
    congr 1
  rw [h2]
  exact List.nodup_iff_count_le_one.1 hu F

/-! ## Constants and variables -/

theorem single_total {t : Term K} (ht : t.WF R) : ∃ p, Poly.new R [t] = .ok p :=
  Poly.new_total R (by simpa using ht) fun F _ =>
    noEarlyCancel_of_length R ((List.length_filter_le _ _).trans (by simp))

theorem Poly.const_spec (c : K) : ∃ p, Poly.const R c = .ok p ∧ p.WF R ∧ ∀ v, p.val v = c := by
  have hwf : (termOf R c []).WF R := termOf_wf R c [] (by simp)
  obtain ⟨p, hp⟩ := single_total R hwf
  refine ⟨p, by simp only [Poly.const, Term.new_eq, hp], Poly.new_wf R (by simpa using hwf) hp, ?_⟩
  intro v
  rw [Poly.new_val R (by simpa using hwf) hp]
  simp [termOf_val]

theorem Poly.var_spec (x : String) (n : ℕ) (hn : 1 ≤ n) :
    ∃ p, Poly.var R x n = .ok p ∧ p.WF R ∧ ∀ v, p.val v = v x ^ n := by
  have hf : ∀ f ∈ [(⟨x, n⟩ : Factor)], 1 ≤ f.power := by simpa using hn
  have hwf : (termOf R 1 [⟨x, n⟩]).WF R := termOf_wf R 1 _ hf
  obtain ⟨p, hp⟩ := single_total R hwf
  refine ⟨p, ?_, Poly.new_wf R (by simpa using hwf) hp, ?_⟩
  · have hlt : ¬ ((n : ℤ) < 1) := by omega
    simp only [Poly.var, Factor.new, hlt, if_false, Int.toNat_natCast, Term.new_eq, hp]
  · intro v
    rw [Poly.new_val R (by simpa using hwf) hp]
    simp [termOf_val, Factor.val]

/-! ## Arithmetic -/

theorem Poly.add_spec {p q r : Poly K} (hp : p.WF R) (hq : q.WF R) (h : p.add R q = .ok r) :
    r.WF R ∧ ∀ v, r.val v = p.val v + q.val v := by
  have hts : ∀ t ∈ p.terms ++ q.terms, t.WF R := by
    intro t ht
    rcases List.mem_append.1 ht with h | h
    · exact hp.terms t h
    · exact hq.terms t h
  refine ⟨Poly.new_wf R hts h, fun v => ?_⟩
  rw [Poly.new_val R hts h]
  simp [Poly.val]

theorem Poly.add_total {p q : Poly K} (hp : p.WF R) (hq : q.WF R) :
    ∃ r, p.add R q = .ok r := by
  refine Poly.new_total R ?_ fun F hF => noEarlyCancel_of_length R ?_
  · intro t ht
    rcases List.mem_append.1 ht with h | h
    · exact hp.terms t h
    · exact hq.terms t h
  · have h1 := hp.group_le hF
    have h2 := hq.group_le hF
    unfold group at *
    rw [List.filter_append, List.length_append]
    omega

theorem neg_terms (p : Poly K) :
    mapE (Term.neg R) p.terms = .ok (p.terms.map fun t => termOf R (-t.const) t.factors) :=
  mapE_eq_map fun t _ => by rw [Term.neg, Term.new_eq]

theorem Poly.neg_spec {p r : Poly K} (hp : p.WF R) (h : p.neg R = .ok r) :
    r.WF R ∧ ∀ v, r.val v = -p.val v := by
  unfold Poly.neg at h
  rw [neg_terms] at h
  have hts : ∀ t ∈ p.terms.map fun t => termOf R (-t.const) t.factors, t.WF R := by
    intro t ht
    obtain ⟨s, hs, rfl⟩ := List.mem_map.1 ht
    exact termOf_wf R _ _ (hp.terms s hs).pos
  refine ⟨Poly.new_wf R hts h, fun v => ?_⟩
  rw [Poly.new_val R hts h, List.map_map]
  have h1 : ((fun t : Term K => t.val v) ∘ fun t : Term K => termOf R (-t.const) t.factors) =
      fun t : Term K => -t.val v := by
    funext t
    rw [Function.comp, termOf_val, Term.val, neg_mul]
  rw [h1]
  unfold Poly.val
  generalize p.terms = l
  induction l with
  | nil => simp
  | cons a as ih => simp only [List.map_cons, List.sum_cons, ih, neg_add]

theorem mul_terms (p q : Poly K) :
    mapE (fun ts : Term K × Term K => ts.1.mul R ts.2)
      (p.terms.flatMap fun t => q.terms.map fun s => (t, s)) =
    .ok ((p.terms.flatMap fun t => q.terms.map fun s => (t, s)).map fun ts =>
      termOf R (ts.1.const * ts.2.const) (ts.1.factors ++ ts.2.factors)) :=
  mapE_eq_map fun t _ => by rw [Term.mul, Term.new_eq]

theorem mul_terms_wf {p q : Poly K} (hp : p.WF R) (hq : q.WF R) :
    ∀ t ∈ (p.terms.flatMap fun t => q.terms.map fun s => (t, s)).map (fun ts : Term K × Term K =>
      termOf R (ts.1.const * ts.2.const) (ts.1.factors ++ ts.2.factors)), t.WF R := by
  intro t ht
  obtain ⟨⟨a, b⟩, hab, rfl⟩ := List.mem_map.1 ht
  obtain ⟨a', ha', hb'⟩ := List.mem_flatMap.1 hab
  obtain ⟨b', hb'', heq⟩ := List.mem_map.1 hb'
  cases heq
  refine termOf_wf R _ _ fun f hf => ?_
  rcases List.mem_append.1 hf with h | h
  · exact (hp.terms _ ha').pos f h
  · exact (hq.terms _ hb'').pos f h

theorem Poly.mul_spec {p q r : Poly K} (hp : p.WF R) (hq : q.WF R) (h : p.mul R q = .ok r) :
    r.WF R ∧ ∀ v, r.val v = p.val v * q.val v := by
  unfold Poly.mul at h
  rw [mul_terms] at h
  have hts := mul_terms_wf R hp hq
  refine ⟨Poly.new_wf R hts h, fun v => ?_⟩
  rw [Poly.new_val R hts h, List.map_map]
  have h1 : ((fun t : Term K => t.val v) ∘ fun ts : Term K × Term K =>
      termOf R (ts.1.const * ts.2.const) (ts.1.factors ++ ts.2.factors)) =
      fun ts => ts.1.val v * ts.2.val v := by
    funext ts
    rw [Function.comp, termOf_val, factorsVal_append, Term.val, Term.val]
    ring
  rw [h1]
  unfold Poly.val
  generalize p.terms = l
  induction l with
  | nil => simp
  | cons a as ih =>
    simp only [List.flatMap_cons, List.map_append, List.sum_append, ih, List.map_cons,
      List.sum_cons, add_mul, List.map_map]
    congr 1
    rw [← List.sum_map_mul_left]
    rfl

/-! ## Python values -/

/-- Well-formed Python value. -/
def PyVal.WF (x : PyVal K) : Prop :=
  match x with
  | .poly p => p.WF R
  | _ => True

omit [CommRing K] in
theorem PyVal.lift_ok {e : Except PyErr (Poly K)} {x : PyVal K} (h : PyVal.lift e = .ok x) :
    ∃ p, e = .ok p ∧ x = .poly p := by
  cases e with
  | error e => cases h
  | ok p => cases h; exact ⟨p, rfl, rfl⟩

theorem PyVal.addNum_spec {p r : Poly K} {c : K} (hp : p.WF R)
    (h : PyVal.addNum R p c = .ok r) : r.WF R ∧ ∀ v, r.val v = p.val v + c := by
  obtain ⟨q, hq, hqwf, hqv⟩ := Poly.const_spec R c
  simp only [PyVal.addNum, hq] at h
  have := Poly.add_spec R hp hqwf h
  exact ⟨this.1, fun v => by rw [this.2, hqv]⟩

theorem PyVal.addInt_spec {p r : Poly K} {n : ℤ} (hp : p.WF R)
    (h : PyVal.addInt R p n = .ok r) : r.WF R ∧ ∀ v, r.val v = p.val v + (n : K) := by
  unfold PyVal.addInt at h
  split at h
  · rename_i h0
    cases h
    exact ⟨hp, fun v => by simp [h0]⟩
  · exact PyVal.addNum_spec R hp h

theorem PyVal.mulNum_spec {p r : Poly K} {c : K} (hp : p.WF R)
    (h : PyVal.mulNum R p c = .ok r) : r.WF R ∧ ∀ v, r.val v = p.val v * c := by
  obtain ⟨q, hq, hqwf, hqv⟩ := Poly.const_spec R c
  simp only [PyVal.mulNum, hq] at h
  have := Poly.mul_spec R hp hqwf h
  exact ⟨this.1, fun v => by rw [this.2, hqv]⟩

theorem PyVal.mulInt_spec {p r : Poly K} {n : ℤ} (hp : p.WF R)
    (h : PyVal.mulInt R p n = .ok r) : r.WF R ∧ ∀ v, r.val v = p.val v * (n : K) := by
  unfold PyVal.mulInt at h
  split at h
  · rename_i h0
    cases h
    exact ⟨hp, fun v => by simp [h0]⟩
  · exact PyVal.mulNum_spec R hp h

theorem PyVal.add_spec {x y z : PyVal K} (hx : x.WF R) (hy : y.WF R)
    (h : PyVal.add R x y = .ok z) : z.WF R ∧ ∀ v, z.val v = x.val v + y.val v := by
  cases x <;> cases y <;> simp only [PyVal.add] at h
  case poly.poly =>
    obtain ⟨r, hr, rfl⟩ := PyVal.lift_ok h
    exact Poly.add_spec R hx hy hr
  case poly.int =>
    obtain ⟨r, hr, rfl⟩ := PyVal.lift_ok h
    exact PyVal.addInt_spec R hx hr
  case poly.num =>
    obtain ⟨r, hr, rfl⟩ := PyVal.lift_ok h
    exact PyVal.addNum_spec R hx hr
  case int.poly =>
    obtain ⟨r, hr, rfl⟩ := PyVal.lift_ok h
    have := PyVal.addInt_spec R hy hr
    exact ⟨this.1, fun v => by rw [add_comm]; exact this.2 v⟩
  case num.poly =>
    obtain ⟨r, hr, rfl⟩ := PyVal.lift_ok h
    have := PyVal.addNum_spec R hy hr
    exact ⟨this.1, fun v => by rw [add_comm]; exact this.2 v⟩
  all_goals cases h; exact ⟨trivial, fun v => by simp [PyVal.val]⟩

theorem PyVal.neg_spec {x z : PyVal K} (hx : x.WF R) (h : PyVal.neg R x = .ok z) :
    z.WF R ∧ ∀ v, z.val v = -x.val v := by
  cases x <;> simp only [PyVal.neg] at h
  case poly =>
    obtain ⟨r, hr, rfl⟩ := PyVal.lift_ok h
    exact Poly.neg_spec R hx hr
  all_goals cases h; exact ⟨trivial, fun v => by simp [PyVal.val]⟩

theorem PyVal.sub_spec {x y z : PyVal K} (hx : x.WF R) (hy : y.WF R)
    (h : PyVal.sub R x y = .ok z) : z.WF R ∧ ∀ v, z.val v = x.val v - y.val v := by
  have key1 : ∀ {a b : PyVal K} {c : PyVal K}, a.WF R → b.WF R →
      (match PyVal.neg R b with
        | .error e => Except.error e
        | .ok w => PyVal.add R a w) = .ok c → c.WF R ∧ ∀ v, c.val v = a.val v - b.val v := by
    intro a b c ha hb h
    split at h
    · cases h
    · rename_i w hw
      have h1 := PyVal.neg_spec R hb hw
      have h2 := PyVal.add_spec R ha h1.1 h
      exact ⟨h2.1, fun v => by rw [h2.2, h1.2, sub_eq_add_neg]⟩
  have key2 : ∀ {a b : PyVal K} {c : PyVal K}, a.WF R → b.WF R →
      (match PyVal.neg R b with
        | .error e => Except.error e
        | .ok w => PyVal.add R w a) = .ok c → c.WF R ∧ ∀ v, c.val v = a.val v - b.val v := by
    intro a b c ha hb h
    split at h
    · cases h
    · rename_i w hw
      have h1 := PyVal.neg_spec R hb hw
      have h2 := PyVal.add_spec R h1.1 ha h
      exact ⟨h2.1, fun v => by rw [h2.2, h1.2]; ring⟩
  cases x <;> cases y <;> simp only [PyVal.sub] at h
  case poly.poly => exact key1 hx hy h
  case poly.int n => exact key1 hx (b := .int n) trivial h
  case poly.num c => exact key1 hx (b := .num c) trivial h
  case int.poly n p => exact key2 (a := .int n) trivial hy h
  case num.poly c p => exact key2 (a := .num c) trivial hy h
  all_goals cases h; exact ⟨trivial, fun v => by simp [PyVal.val]⟩

theorem PyVal.mul_spec {x y z : PyVal K} (hx : x.WF R) (hy : y.WF R)
    (h : PyVal.mul R x y = .ok z) : z.WF R ∧ ∀ v, z.val v = x.val v * y.val v := by
  cases x <;> cases y <;> simp only [PyVal.mul] at h
  case poly.poly =>
    obtain ⟨r, hr, rfl⟩ := PyVal.lift_ok h
    exact Poly.mul_spec R hx hy hr
  case poly.int =>
    obtain ⟨r, hr, rfl⟩ := PyVal.lift_ok h
    exact PyVal.mulInt_spec R hx hr
  case poly.num =>
    obtain ⟨r, hr, rfl⟩ := PyVal.lift_ok h
    exact PyVal.mulNum_spec R hx hr
  case int.poly =>
    obtain ⟨r, hr, rfl⟩ := PyVal.lift_ok h
    have := PyVal.mulInt_spec R hy hr
    exact ⟨this.1, fun v => by rw [mul_comm]; exact this.2 v⟩
  case num.poly =>
    obtain ⟨r, hr, rfl⟩ := PyVal.lift_ok h
    have := PyVal.mulNum_spec R hy hr
    exact ⟨this.1, fun v => by rw [mul_comm]; exact this.2 v⟩
  all_goals cases h; exact ⟨trivial, fun v => by simp [PyVal.val]⟩

theorem powLoop_spec {p : Poly K} (hp : p.WF R) :
    ∀ (n : ℕ) (x z : PyVal K), x.WF R →
      foldE (fun acc q => PyVal.mul R acc (.poly q)) x (List.replicate n p) = .ok z →
      z.WF R ∧ ∀ v, z.val v = x.val v * p.val v ^ n := by
  intro n
  induction n with
  | zero =>
    intro x z hx h
    simp only [List.replicate_zero, foldE] at h
    cases h
    exact ⟨hx, fun v => by simp⟩
  | succ n ih =>
    intro x z hx h
    simp only [List.replicate_succ, foldE] at h
    split at h
    · cases h
    · rename_i w hw
      have h1 := PyVal.mul_spec R hx (y := .poly p) hp hw
      have h2 := ih w z h1.1 h
      refine ⟨h2.1, fun v => ?_⟩
      rw [h2.2, h1.2]
      simp only [PyVal.val]
      ring

theorem PyVal.powPoly_spec {p : Poly K} {n : ℤ} {z : PyVal K} (hp : p.WF R)
    (h : PyVal.powPoly R p n = .ok z) : z.WF R ∧ ∀ v, z.val v = p.val v ^ n.toNat := by
  unfold PyVal.powPoly at h
  split at h
  · cases h
  · have := powLoop_spec R hp n.toNat (.int 1) z trivial h
    exact ⟨this.1, fun v => by rw [this.2]; simp [PyVal.val]⟩

theorem PyVal.pow_spec {x z : PyVal K} {n : ℕ} (hx : x.WF R) (h : PyVal.pow R x n = .ok z) :
    z.WF R ∧ ∀ v, z.val v = x.val v ^ n := by
  cases x <;> simp only [PyVal.pow] at h
  case poly p => simpa [PyVal.val] using PyVal.powPoly_spec R hx h
  all_goals cases h; exact ⟨trivial, fun v => by simp [PyVal.val]⟩

end Gpcm
