import Verif.Model.ExpPoly
import Verif.Lemmas.PyLemmas
import Mathlib.Algebra.Order.BigOperators.Group.List
import Mathlib.Algebra.Order.Ring.Nat

/-! # Helper lemmas about factors and terms -/

namespace Gpcm

variable {K : Type} [CommRing K]

/-! ## Values under a total assignment -/

/-- Value of a factor. -/
def Factor.val (f : Factor) (v : String → K) : K := v f.name ^ f.power

/-- Product of the values of a list of factors. -/
def factorsVal (fs : List Factor) (v : String → K) : K := (fs.map fun f => f.val v).prod

/-- Value of a term. -/
def Term.val (t : Term K) (v : String → K) : K := t.const * factorsVal t.factors v

/-- Value of a polynomial. -/
def Poly.val (p : Poly K) (v : String → K) : K := (p.terms.map fun t => t.val v).sum

/-- Value of a Python value. -/
def PyVal.val (x : PyVal K) (v : String → K) : K :=
  match x with
  | .poly p => p.val v
  | .int n => (n : K)
  | .num c => c

@[simp] theorem factorsVal_nil (v : String → K) : factorsVal [] v = 1 := rfl

@[simp] theorem factorsVal_cons (f : Factor) (fs : List Factor) (v : String → K) :
    factorsVal (f :: fs) v = f.val v * factorsVal fs v := by simp [factorsVal]

@[simp] theorem factorsVal_append (fs gs : List Factor) (v : String → K) :
    factorsVal (fs ++ gs) v = factorsVal fs v * factorsVal gs v := by simp [factorsVal]

theorem factorsVal_perm {fs gs : List Factor} (h : fs.Perm gs) (v : String → K) :
    factorsVal fs v = factorsVal gs v := (h.map _).prod_eq

theorem perm_of_toFinset_eq {α : Type} [DecidableEq α] {l l' : List α} (hl : l.Nodup)
    (hl' : l'.Nodup) (h : l.toFinset = l'.toFinset) : l.Perm l' :=
  (List.perm_ext_iff_of_nodup hl hl').2 fun a => by
    rw [← List.mem_toFinset, h, List.mem_toFinset]

/-! ## Merging factors -/

/-- Sum of the powers of the variable `n`. -/
def powerOf (fs : List Factor) (n : String) : ℕ :=
  ((fs.filter fun f => f.name = n).map Factor.power).sum

/-- Closed form of `_merge_common_factors`. -/
def mergedFactors (S : SetOrder) (fs : List Factor) : List Factor :=
  (S.ord (fs.map Factor.name)).map fun n => ⟨n, powerOf fs n⟩

theorem reduceFactors_some (n : String) (k : ℕ) (fs : List Factor) (h : ∀ f ∈ fs, f.name = n) :
    reduceFactors (some ⟨n, k⟩) fs = .ok (some ⟨n, k + (fs.map Factor.power).sum⟩) := by
  induction fs generalizing k with
  | nil => simp [reduceFactors, foldE]
  | cons f fs ih =>
    have hf : f.name = n := h f (by simp)
    have := ih (k + f.power) fun g hg => h g (by simp [hg])
    simp only [reduceFactors, foldE, Factor.mul, hf] at this ⊢
    simpa [Nat.add_assoc] using this

theorem reduceFactors_none (n : String) (fs : List Factor) (h : ∀ f ∈ fs, f.name = n)
    (hne : fs ≠ []) : reduceFactors none fs = .ok (some ⟨n, (fs.map Factor.power).sum⟩) := by
  cases fs with
  | nil => exact absurd rfl hne
  | cons f fs =>
    have hf : f = ⟨n, f.power⟩ := by
      have := h f (by simp)
      cases f; simp_all
    have := reduceFactors_some n f.power fs fun g hg => h g (by simp [hg])
    simp only [reduceFactors, foldE] at this ⊢
    rw [hf]
    simpa using this

theorem mergeCommonFactors_eq (S : SetOrder) (fs : List Factor) :
    mergeCommonFactors S fs = .ok (mergedFactors S fs) := by
  refine mapE_eq_map fun n hn => ?_
  have hn' : n ∈ fs.map Factor.name := S.mem_iff.1 hn
  obtain ⟨f, hf, rfl⟩ := List.mem_map.1 hn'
  have hne : (fs.filter fun g => decide (g.name = f.name)) ≠ [] := by
    intro h0
    have : f ∈ fs.filter fun g => decide (g.name = f.name) := by simp [hf]
    rw [h0] at this; cases this
  rw [reduceFactors_none f.name _ (fun g hg => by simpa using (List.mem_filter.1 hg).2) hne]
  rfl

theorem powerOf_val (fs : List Factor) (n : String) (v : String → K) :
    v n ^ powerOf fs n = ((fs.filter fun f => f.name = n).map fun f => f.val v).prod := by
  unfold powerOf
  induction fs with
  | nil => simp
  | cons f fs ih =>
    by_cases h : f.name = n
    · simp only [List.filter_cons, h, decide_true, if_true, List.map_cons, List.sum_cons,
        List.prod_cons, pow_add, ih, Factor.val]
    · simp only [List.filter_cons, h, decide_false, Bool.false_eq_true, if_false, ih]

theorem mergedFactors_val (S : SetOrder) (fs : List Factor) (v : String → K) :
    factorsVal (mergedFactors S fs) v = factorsVal fs v := by
  unfold factorsVal mergedFactors
  rw [List.map_map, ← S.prod_groups Factor.name (fun f => f.val v) fs]
  congr 1
  refine List.map_congr_left fun n _ => ?_
  exact powerOf_val fs n v

theorem mergedFactors_names (S : SetOrder) (fs : List Factor) :
    (mergedFactors S fs).map Factor.name = S.ord (fs.map Factor.name) := by
  unfold mergedFactors
  rw [List.map_map]
  exact List.map_id'' (fun _ => rfl) _

theorem mergedFactors_nodup_names (S : SetOrder) (fs : List Factor) :
    ((mergedFactors S fs).map Factor.name).Nodup := by
  rw [mergedFactors_names]; exact S.nodup _

theorem mergedFactors_nodup (S : SetOrder) (fs : List Factor) : (mergedFactors S fs).Nodup :=
  (mergedFactors_nodup_names S fs).of_map _

theorem le_powerOf {fs : List Factor} {f : Factor} (h : f ∈ fs) : f.power ≤ powerOf fs f.name := by
  unfold powerOf
  exact List.single_le_sum (fun _ _ => Nat.zero_le _) _
    (List.mem_map_of_mem (List.mem_filter.2 ⟨h, by simp⟩))

theorem mergedFactors_pos (S : SetOrder) (fs : List Factor) (h : ∀ f ∈ fs, 1 ≤ f.power) :
    ∀ f ∈ mergedFactors S fs, 1 ≤ f.power := by
  intro f hf
  obtain ⟨n, hn, rfl⟩ := List.mem_map.1 hf
  obtain ⟨g, hg, rfl⟩ := List.mem_map.1 (S.mem_iff.1 hn)
  exact (h g hg).trans (le_powerOf hg)

theorem powerOf_of_nodup {fs : List Factor} (h : (fs.map Factor.name).Nodup) {f : Factor}
    (hf : f ∈ fs) : powerOf fs f.name = f.power := by
  induction fs with
  | nil => cases hf
  | cons g fs ih =>
    rw [List.map_cons, List.nodup_cons] at h
    unfold powerOf at ih ⊢
    rcases List.mem_cons.1 hf with rfl | hf'
    · have : fs.filter (fun g => decide (g.name = f.name)) = [] := by
        rw [List.filter_eq_nil_iff]
        intro g hg
        simp only [decide_eq_true_eq]
        intro he
        exact h.1 (he ▸ List.mem_map_of_mem hg)
      simp [this]
    · have hne : g.name ≠ f.name := fun he => h.1 (he ▸ List.mem_map_of_mem hf')
      simp only [List.filter_cons, hne, decide_false, Bool.false_eq_true, if_false]
      exact ih h.2 hf'

theorem mergedFactors_mem_of_nodup (S : SetOrder) {fs : List Factor}
    (h : (fs.map Factor.name).Nodup) (f : Factor) : f ∈ mergedFactors S fs ↔ f ∈ fs := by
  unfold mergedFactors
  rw [List.mem_map]
  constructor
  · rintro ⟨n, hn, rfl⟩
    obtain ⟨g, hg, rfl⟩ := List.mem_map.1 (S.mem_iff.1 hn)
    rw [powerOf_of_nodup h hg]
    exact hg
  · intro hf
    refine ⟨f.name, S.mem_iff.2 (List.mem_map_of_mem hf), ?_⟩
    rw [powerOf_of_nodup h hf]

/-! ## Terms -/

variable (R : Runtime K)

/-- Closed form of `Term.__init__`. -/
def termOf (c : K) (fs : List Factor) : Term K :=
  ⟨c, R.ord (mergedFactors R.toSetOrder (if R.numZero c then [] else fs))⟩

theorem Term.new_eq (c : K) (fs : List Factor) : Term.new R c fs = .ok (termOf R c fs) := by
  simp only [Term.new, mergeCommonFactors_eq, termOf]

@[simp] theorem termOf_const (c : K) (fs : List Factor) : (termOf R c fs).const = c := rfl

theorem termOf_factors_perm (c : K) (fs : List Factor) :
    (termOf R c fs).factors.Perm
      (mergedFactors R.toSetOrder (if R.numZero c then [] else fs)) :=
  R.perm_of_nodup (mergedFactors_nodup _ _)

theorem termOf_val (c : K) (fs : List Factor) (v : String → K) :
    (termOf R c fs).val v = c * factorsVal fs v := by
  unfold Term.val
  rw [termOf_const, factorsVal_perm (termOf_factors_perm R c fs) v, mergedFactors_val]
  split
  · rename_i h
    rw [R.numZero_sound c h, zero_mul, zero_mul]
  · rfl

/-- Well-formed terms: what `Term.__init__` establishes. -/
structure Term.WF (t : Term K) : Prop where
  names : (t.factors.map Factor.name).Nodup
  pos : ∀ f ∈ t.factors, 1 ≤ f.power
  zero : R.numZero t.const = true → t.factors = []

theorem Term.WF.nodup {R : Runtime K} {t : Term K} (h : t.WF R) : t.factors.Nodup :=
  h.names.of_map _

theorem termOf_wf (c : K) (fs : List Factor) (h : ∀ f ∈ fs, 1 ≤ f.power) :
    (termOf R c fs).WF R where
  names := (((termOf_factors_perm R c fs).map _).nodup_iff).2 (mergedFactors_nodup_names _ _)
  pos := by
    intro f hf
    refine mergedFactors_pos R.toSetOrder _ ?_ f ((termOf_factors_perm R c fs).mem_iff.1 hf)
    split
    · intro f hf; cases hf
    · exact h
  zero := by
    intro hz
    have h1 : R.numZero c = true := hz
    have := termOf_factors_perm R c fs
    rw [h1] at this
    simpa [mergedFactors, SetOrder.ord_nil] using this

theorem termOf_mem_of_nodup {c : K} {fs : List Factor} (hz : R.numZero c = false)
    (h : (fs.map Factor.name).Nodup) (f : Factor) :
    f ∈ (termOf R c fs).factors ↔ f ∈ fs := by
  rw [(termOf_factors_perm R c fs).mem_iff, hz]
  simpa using mergedFactors_mem_of_nodup R.toSetOrder h f

theorem termOf_toFinset {c : K} {fs : List Factor} (hz : R.numZero c = false)
    (h : (fs.map Factor.name).Nodup) : (termOf R c fs).factors.toFinset = fs.toFinset := by
  ext f; simp [termOf_mem_of_nodup R hz h]

theorem termOf_zero {c : K} {fs : List Factor} (hz : R.numZero c = true) :
    (termOf R c fs).factors = [] := by
  have := termOf_factors_perm R c fs
  rw [hz] at this
  simpa [mergedFactors, SetOrder.ord_nil] using this

/-- The names occurring in a new term are names of the given factors. -/
theorem termOf_names_subset {c : K} {fs : List Factor} {f : Factor}
    (hf : f ∈ (termOf R c fs).factors) : f.name ∈ fs.map Factor.name := by
  have h := (termOf_factors_perm R c fs).mem_iff.1 hf
  have h2 : f.name ∈ (mergedFactors R.toSetOrder (if R.numZero c = true then [] else fs)).map
      Factor.name := List.mem_map_of_mem h
  rw [mergedFactors_names, R.mem_iff] at h2
  split at h2
  · cases h2
  · exact h2

omit [CommRing K] in
theorem sameFactors_iff {t s : Term K} :
    t.sameFactors s = true ↔ t.factors.toFinset = s.factors.toFinset := by
  simp [Term.sameFactors]

theorem factorsVal_eq_of_same {t s : Term K} (ht : t.WF R) (hs : s.WF R)
    (h : t.factors.toFinset = s.factors.toFinset) (v : String → K) :
    factorsVal t.factors v = factorsVal s.factors v :=
  factorsVal_perm (perm_of_toFinset_eq ht.nodup hs.nodup h) v

theorem Term.add_ok {t s r : Term K} (h : t.add R s = .ok r) :
    t.factors.toFinset = s.factors.toFinset ∧ r = termOf R (t.const + s.const) t.factors := by
  unfold Term.add at h
  split at h
  · rename_i hs
    rw [Term.new_eq] at h
    cases h
    exact ⟨sameFactors_iff.1 hs, rfl⟩
  · cases h

theorem Term.add_val {t s r : Term K} (ht : t.WF R) (hs : s.WF R) (h : t.add R s = .ok r)
    (v : String → K) : r.val v = t.val v + s.val v := by
  obtain ⟨hf, rfl⟩ := Term.add_ok R h
  rw [termOf_val]
  unfold Term.val
  rw [factorsVal_eq_of_same R ht hs hf, add_mul]

theorem Term.add_wf {t s r : Term K} (ht : t.WF R) (h : t.add R s = .ok r) : r.WF R := by
  obtain ⟨_, rfl⟩ := Term.add_ok R h
  exact termOf_wf R _ _ ht.pos

end Gpcm
