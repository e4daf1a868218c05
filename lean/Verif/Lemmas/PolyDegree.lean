import Verif.Lemmas.PolyCanon
import Mathlib.Data.Multiset.AddSub
import Mathlib.Data.Multiset.Replicate
import Mathlib.Data.Multiset.Count
import Mathlib.Data.List.Nodup

/-!
# Degrees, and operations that cannot raise

Sums never raise; products of polynomials of degree at most one never raise; a single term times
anything never raises.
-/

namespace Gpcm

variable {K : Type} [CommRing K] (R : Runtime K)

/-- The monomial of a list of factors: every variable as often as its power. -/
def monoOf (fs : List Factor) : Multiset String :=
  (fs.map fun f => Multiset.replicate f.power f.name).sum

/-- The monomial of a term. -/
def Term.mono (t : Term K) : Multiset String := monoOf t.factors

@[simp] theorem monoOf_nil : monoOf [] = 0 := rfl

@[simp] theorem monoOf_cons (f : Factor) (fs : List Factor) :
    monoOf (f :: fs) = Multiset.replicate f.power f.name + monoOf fs := by simp [monoOf]

@[simp] theorem monoOf_append (fs gs : List Factor) :
    monoOf (fs ++ gs) = monoOf fs + monoOf gs := by simp [monoOf]

theorem monoOf_perm {fs gs : List Factor} (h : fs.Perm gs) : monoOf fs = monoOf gs :=
  (h.map _).sum_eq

theorem count_monoOf (fs : List Factor) (n : String) : (monoOf fs).count n = powerOf fs n := by
  unfold powerOf
  induction fs with
  | nil => simp
  | cons f fs ih =>
    rw [monoOf_cons, Multiset.count_add, ih, Multiset.count_replicate]
    by_cases h : f.name = n <;> simp [h]

theorem powerOf_mergedFactors (S : SetOrder) (fs : List Factor) (n : String) :
    powerOf (mergedFactors S fs) n = powerOf fs n := by
  have hnd := mergedFactors_nodup_names S fs
  by_cases hn : n ∈ fs.map Factor.name
  · have hmem : (⟨n, powerOf fs n⟩ : Factor) ∈ mergedFactors S fs :=
      List.mem_map.2 ⟨n, S.mem_iff.2 hn, rfl⟩
    exact powerOf_of_nodup hnd hmem
  · have h1 : ∀ gs : List Factor, n ∉ gs.map Factor.name → powerOf gs n = 0 := by
      intro gs hgs
      unfold powerOf
      have : gs.filter (fun f => decide (f.name = n)) = [] := by
        rw [List.filter_eq_nil_iff]
        intro f hf
        simp only [decide_eq_true_eq]
        intro he
        exact hgs (he ▸ List.mem_map_of_mem hf)
      simp [this]
    rw [h1 fs hn, h1 _ (by rw [mergedFactors_names, S.mem_iff]; exact hn)]

theorem monoOf_mergedFactors (S : SetOrder) (fs : List Factor) :
    monoOf (mergedFactors S fs) = monoOf fs := by
  ext n
  rw [count_monoOf, count_monoOf, powerOf_mergedFactors]

theorem termOf_mono {c : K} {fs : List Factor} (hz : R.numZero c = false) :
    (termOf R c fs).mono = monoOf fs := by
  unfold Term.mono
  rw [monoOf_perm (termOf_factors_perm R c fs), monoOf_mergedFactors, hz]
  simp

theorem termOf_mono_zero {c : K} {fs : List Factor} (hz : R.numZero c = true) :
    (termOf R c fs).mono = 0 := by
  unfold Term.mono; rw [termOf_zero R hz]; rfl

/-- For well-formed terms, monomials and keys determine each other. -/
theorem Term.WF.mono_eq_iff {R : Runtime K} {t s : Term K} (ht : t.WF R) (hs : s.WF R) :
    t.mono = s.mono ↔ t.key = s.key := by
  constructor
  · intro h
    have key : ∀ {t s : Term K}, t.WF R → s.WF R → t.mono = s.mono → t.key ⊆ s.key := by
      intro t s ht hs h f hf
      have hf' : f ∈ t.factors := List.mem_toFinset.1 hf
      have h1 : powerOf s.factors f.name = f.power := by
        rw [← count_monoOf, ← powerOf_of_nodup ht.names hf', ← count_monoOf]
        exact congrArg (Multiset.count f.name) h.symm
      have hpos := ht.pos f hf'
      have h2 : ∃ g ∈ s.factors, g.name = f.name := by
        by_contra hno
        push Not at hno
        have : powerOf s.factors f.name = 0 := by
          unfold powerOf
          have : s.factors.filter (fun g => decide (g.name = f.name)) = [] := by
            rw [List.filter_eq_nil_iff]
            intro g hg
            simpa using hno g hg
          simp [this]
        omega
      obtain ⟨g, hg, hgn⟩ := h2
      have h3 := powerOf_of_nodup hs.names hg
      rw [hgn, h1] at h3
      have : g = f := by cases g; cases f; simp_all
      rw [← this]
      exact List.mem_toFinset.2 hg
    exact Finset.Subset.antisymm (key ht hs h) (key hs ht h.symm)
  · intro h
    exact monoOf_perm (perm_of_toFinset_eq ht.nodup hs.nodup h)

/-- Degree bound. -/
def Poly.degLE (p : Poly K) (d : ℕ) : Prop := ∀ t ∈ p.terms, t.mono.card ≤ d

theorem Poly.new_degLE {ts : List (Term K)} {p : Poly K} (hts : ∀ t ∈ ts, t.WF R)
    (h : Poly.new R ts = .ok p) {d : ℕ} (hd : ∀ t ∈ ts, t.mono.card ≤ d) : p.degLE d := by
  intro t ht
  by_cases h0 : t.factors = []
  · simp [Term.mono, h0]
  · obtain ⟨s, hs, hk⟩ := Poly.new_factors R hts h ht h0
    rw [((Poly.new_wf R hts h).terms t ht).mono_eq_iff (hts s hs) |>.2 hk.symm]
    exact hd s hs

theorem numZero_mul_left {a b : K} (h : R.numZero a = true) : R.numZero (a * b) = true := by
  have := R.numZero_sound a h
  rw [this, zero_mul, ← this]; exact h

theorem numZero_mul_right {a b : K} (h : R.numZero b = true) : R.numZero (a * b) = true := by
  rw [mul_comm]; exact numZero_mul_left R h

/-- If the pairs of (non-zero) terms that give a certain monomial number at most two, the product
does not raise. -/
theorem Poly.mul_total_of {p q : Poly K} (hp : p.WF R) (hq : q.WF R)
    (h : ∀ m : Multiset String, m ≠ 0 →
      ∃ k₁ k₂ : Finset Factor × Finset Factor, ∀ t ∈ p.terms, ∀ s ∈ q.terms,
        R.numZero t.const = false → R.numZero s.const = false → t.mono + s.mono = m →
        (t.key, s.key) = k₁ ∨ (t.key, s.key) = k₂) :
    ∃ r, p.mul R q = .ok r := by
  unfold Poly.mul
  rw [mul_terms]
  refine Poly.new_total R (mul_terms_wf R hp hq) fun F hF => noEarlyCancel_of_length R ?_
  set pairs := p.terms.flatMap fun t => q.terms.map fun s => (t, s) with hpairs
  set mk := fun ts : Term K × Term K =>
    termOf R (ts.1.const * ts.2.const) (ts.1.factors ++ ts.2.factors) with hmk
  have hmem : ∀ ts ∈ pairs, ts.1 ∈ p.terms ∧ ts.2 ∈ q.terms := by
    intro ts hts
    obtain ⟨a', ha', hb'⟩ := List.mem_flatMap.1 hts
    obtain ⟨b', hb'', heq⟩ := List.mem_map.1 hb'
    subst heq
    exact ⟨ha', hb''⟩
  have hmkwf : ∀ ts ∈ pairs, (mk ts).WF R := fun ts hts =>
    mul_terms_wf R hp hq _ (List.mem_map_of_mem hts)
  have hlen : (group (pairs.map mk) F).length =
      (pairs.filter fun ts => (mk ts).key = F).length := by
    unfold group
    rw [List.filter_map, List.length_map]
    rfl
  rw [hlen]
  by_cases hex : ∃ ts ∈ pairs, (mk ts).key = F
  · obtain ⟨ts₀, hts₀, hk₀⟩ := hex
    -- every pair in the group has non-zero constants and the same monomial
    have hgrp : ∀ ts ∈ pairs, (mk ts).key = F →
        R.numZero ts.1.const = false ∧ R.numZero ts.2.const = false ∧
        ts.1.mono + ts.2.mono = (mk ts₀).mono := by
      intro ts hts hk
      have hnz : R.numZero (ts.1.const * ts.2.const) = false := by
        rw [Bool.eq_false_iff]
        intro hz
        apply hF
        rw [← hk]
        simp [Term.key, hmk, termOf_zero R hz]
      refine ⟨?_, ?_, ?_⟩
      · rw [Bool.eq_false_iff]; intro hz
        rw [numZero_mul_left R hz] at hnz; cases hnz
      · rw [Bool.eq_false_iff]; intro hz
        rw [numZero_mul_right R hz] at hnz; cases hnz
      · have : (mk ts).mono = (mk ts₀).mono :=
          ((hmkwf ts hts).mono_eq_iff (hmkwf ts₀ hts₀)).2 (hk.trans hk₀.symm)
        rw [← this]
        show _ = (termOf R _ _).mono
        rw [termOf_mono R hnz, monoOf_append]
        rfl
    have hm0 : (mk ts₀).mono ≠ 0 := by
      intro h0
      apply hF
      rw [← hk₀]
      have hempty : (⟨(0 : K), []⟩ : Term K).WF R :=
        ⟨by simp, by simp, fun _ => rfl⟩
      have := ((hmkwf ts₀ hts₀).mono_eq_iff hempty).1 h0
      rw [this]; rfl
    obtain ⟨k₁, k₂, hk⟩ := h _ hm0
    -- the filtered list, mapped to keys, has no duplicates
    set P := p.terms.filter fun t => !R.numZero t.const with hP
    set Q := q.terms.filter fun t => !R.numZero t.const with hQ
    have hsub : (pairs.filter fun ts => (mk ts).key = F) =
        ((P.flatMap fun t => Q.map fun s => (t, s)).filter fun ts => (mk ts).key = F) := by
      have hgen : ∀ (l : List (Term K)), (∀ t ∈ l, t ∈ p.terms) →
          ((l.flatMap fun t => q.terms.map fun s => (t, s)).filter fun ts => (mk ts).key = F) =
          (((l.filter fun t => !R.numZero t.const).flatMap fun t => Q.map fun s => (t, s)).filter
            fun ts => (mk ts).key = F) := by
        intro l hl
        induction l with
        | nil => rfl
        | cons a as ih =>
          have hrow : ∀ (l' : List (Term K)), (∀ s ∈ l', s ∈ q.terms) →
              ((l'.map fun s => (a, s)).filter fun ts => (mk ts).key = F) =
              if R.numZero a.const then [] else
                (((l'.filter fun t => !R.numZero t.const).map fun s => (a, s)).filter
                  fun ts => (mk ts).key = F) := by
            intro l' hl'
            induction l' with
            | nil => simp
            | cons b bs ihb =>
              have hb := ihb fun s hs => hl' s (by simp [hs])
              have hab : (a, b) ∈ pairs := List.mem_flatMap.2
                ⟨a, hl a (by simp), List.mem_map.2 ⟨b, hl' b (by simp), rfl⟩⟩
              by_cases hkF : (mk (a, b)).key = F
              · obtain ⟨h1, h2, _⟩ := hgrp _ hab hkF
                simp only at h1 h2
                simp only [List.map_cons, List.filter_cons, hkF, decide_true, if_true, hb, h1, h2,
                  Bool.false_eq_true, if_false, Bool.not_false]
              · simp only [List.map_cons, List.filter_cons, hkF, decide_false,
                  Bool.false_eq_true, if_false, hb]
                cases hzb : R.numZero b.const
                · simp only [Bool.not_false, if_true, List.map_cons, List.filter_cons, hkF,
                    decide_false, Bool.false_eq_true, if_false]
                · simp only [Bool.not_true, Bool.false_eq_true, if_false]
          rw [List.flatMap_cons, List.filter_append, ih fun t ht => hl t (by simp [ht]),
            hrow q.terms fun s hs => hs]
          cases hza : R.numZero a.const
          · simp only [Bool.false_eq_true, if_false, List.filter_cons, hza, Bool.not_false,
              if_true, List.flatMap_cons, List.filter_append, hQ]
          · simp only [if_true, List.filter_cons, hza, Bool.not_true, Bool.false_eq_true, if_false,
              List.nil_append]
      exact hgen p.terms fun t ht => ht
    rw [hsub]
    set L := (P.flatMap fun t => Q.map fun s => (t, s)).filter fun ts => (mk ts).key = F with hL
    have hLmem : ∀ ts ∈ L, ts ∈ pairs ∧ (mk ts).key = F := by
      intro ts hts
      obtain ⟨h1, h2⟩ := List.mem_filter.1 hts
      obtain ⟨a', ha', hb'⟩ := List.mem_flatMap.1 h1
      obtain ⟨b', hb'', heq⟩ := List.mem_map.1 hb'
      subst heq
      refine ⟨List.mem_flatMap.2 ⟨_, (List.mem_filter.1 ha').1,
        List.mem_map.2 ⟨_, (List.mem_filter.1 hb'').1, rfl⟩⟩, by simpa using h2⟩
    have hnd : (L.map fun ts => (ts.1.key, ts.2.key)).Nodup := by
      have hprod : ((P.flatMap fun t => Q.map fun s => (t, s)).map
          fun ts => (ts.1.key, ts.2.key)) = P.map Term.key ×ˢ Q.map Term.key := by
        show _ = List.product _ _
        unfold List.product
        rw [List.flatMap_map, List.map_flatMap]
        simp [Function.comp_def]
      have hnd1 : (P.map Term.key ×ˢ Q.map Term.key).Nodup := hp.uniq.product hq.uniq
      rw [← hprod] at hnd1
      exact hnd1.sublist ((List.filter_sublist).map _)
    have hcard : (L.map fun ts => (ts.1.key, ts.2.key)).length ≤ 2 := by
      rw [← List.toFinset_card_of_nodup hnd]
      refine le_trans (Finset.card_le_card (t := {k₁, k₂}) ?_) Finset.card_le_two
      intro k hkm
      obtain ⟨ts, hts, rfl⟩ := List.mem_map.1 (List.mem_toFinset.1 hkm)
      obtain ⟨h1, h2⟩ := hLmem ts hts
      obtain ⟨h3, h4, h5⟩ := hgrp ts h1 h2
      obtain ⟨h6, h7⟩ := hmem ts h1
      simpa using hk ts.1 h6 ts.2 h7 h3 h4 h5
    simpa using hcard
  · have : (pairs.filter fun ts => (mk ts).key = F) = [] := by
      rw [List.filter_eq_nil_iff]
      intro ts hts
      simp only [decide_eq_true_eq]
      exact fun hk => hex ⟨ts, hts, hk⟩
    rw [this]; simp

theorem card_le_one_cases {m : Multiset String} (h : m.card ≤ 1) : m = 0 ∨ ∃ x, m = {x} := by
  rcases Nat.le_one_iff_eq_zero_or_eq_one.1 h with h | h
  · exact Or.inl (Multiset.card_eq_zero.1 h)
  · exact Or.inr (Multiset.card_eq_one.1 h)

theorem affine_pairs {a b a' b' : Multiset String} (ha : a.card ≤ 1) (hb : b.card ≤ 1)
    (ha' : a'.card ≤ 1) (hb' : b'.card ≤ 1) (h : a + b = a' + b') :
    (a = a' ∧ b = b') ∨ (a = b' ∧ b = a') := by
  have hc := congrArg Multiset.card h
  rw [Multiset.card_add, Multiset.card_add] at hc
  rcases card_le_one_cases ha with rfl | ⟨x, rfl⟩ <;>
  rcases card_le_one_cases hb with rfl | ⟨y, rfl⟩ <;>
  rcases card_le_one_cases ha' with rfl | ⟨x', rfl⟩ <;>
  rcases card_le_one_cases hb' with rfl | ⟨y', rfl⟩ <;>
  simp at h hc ⊢
  all_goals first
    | exact h
    | (rcases Multiset.cons_eq_cons.1 h with ⟨h1, h2⟩ | ⟨_, cs, h1, h2⟩
       · exact Or.inl ⟨h1, Multiset.singleton_inj.1 h2⟩
       · rw [Multiset.singleton_eq_cons_iff] at h1 h2
         exact Or.inr ⟨h2.1.symm, h1.1⟩)

/-- The product of two polynomials of degree at most one does not raise. -/
theorem Poly.mul_total_affine {p q : Poly K} (hp : p.WF R) (hq : q.WF R) (dp : p.degLE 1)
    (dq : q.degLE 1) : ∃ r, p.mul R q = .ok r := by
  refine Poly.mul_total_of R hp hq fun m hm => ?_
  by_cases hex : ∃ t₀ ∈ p.terms, ∃ s₀ ∈ q.terms, R.numZero t₀.const = false ∧
      R.numZero s₀.const = false ∧ t₀.mono + s₀.mono = m
  · obtain ⟨t₀, ht₀, s₀, hs₀, _, _, h₀⟩ := hex
    refine ⟨(t₀.key, s₀.key), (s₀.key, t₀.key), fun t ht s hs _ _ h => ?_⟩
    have := affine_pairs (dp t ht) (dq s hs) (dp t₀ ht₀) (dq s₀ hs₀) (h.trans h₀.symm)
    rcases this with ⟨h1, h2⟩ | ⟨h1, h2⟩
    · left
      rw [((hp.terms t ht).mono_eq_iff (hp.terms t₀ ht₀)).1 h1,
        ((hq.terms s hs).mono_eq_iff (hq.terms s₀ hs₀)).1 h2]
    · right
      rw [((hp.terms t ht).mono_eq_iff (hq.terms s₀ hs₀)).1 h1,
        ((hq.terms s hs).mono_eq_iff (hp.terms t₀ ht₀)).1 h2]
  · exact ⟨(∅, ∅), (∅, ∅), fun t ht s hs h1 h2 h => absurd ⟨t, ht, s, hs, h1, h2, h⟩ hex⟩

/-- A product in which one operand has a single term does not raise. -/
theorem Poly.mul_total_single {p q : Poly K} (hp : p.WF R) (hq : q.WF R) {t₀ : Term K}
    (h1 : p.terms = [t₀]) : ∃ r, p.mul R q = .ok r := by
  refine Poly.mul_total_of R hp hq fun m hm => ?_
  by_cases hex : ∃ s₀ ∈ q.terms, t₀.mono + s₀.mono = m
  · obtain ⟨s₀, hs₀, h₀⟩ := hex
    refine ⟨(t₀.key, s₀.key), (t₀.key, s₀.key), fun t ht s hs _ _ h => Or.inl ?_⟩
    rw [h1, List.mem_singleton] at ht
    subst ht
    have : s.mono = s₀.mono := add_left_cancel (h.trans h₀.symm)
    rw [((hq.terms s hs).mono_eq_iff (hq.terms s₀ hs₀)).1 this]
  · refine ⟨(∅, ∅), (∅, ∅), fun t ht s hs _ _ h => ?_⟩
    rw [h1, List.mem_singleton] at ht
    subst ht
    exact absurd ⟨s, hs, h⟩ hex

theorem Poly.mul_total_single_right {p q : Poly K} (hp : p.WF R) (hq : q.WF R) {s₀ : Term K}
    (h1 : q.terms = [s₀]) : ∃ r, p.mul R q = .ok r := by
  refine Poly.mul_total_of R hp hq fun m hm => ?_
  by_cases hex : ∃ t₀ ∈ p.terms, t₀.mono + s₀.mono = m
  · obtain ⟨t₀, ht₀, h₀⟩ := hex
    refine ⟨(t₀.key, s₀.key), (t₀.key, s₀.key), fun t ht s hs _ _ h => Or.inl ?_⟩
    rw [h1, List.mem_singleton] at hs
    subst hs
    have : t.mono = t₀.mono := add_right_cancel (h.trans h₀.symm)
    rw [((hp.terms t ht).mono_eq_iff (hp.terms t₀ ht₀)).1 this]
  · refine ⟨(∅, ∅), (∅, ∅), fun t ht s hs _ _ h => ?_⟩
    rw [h1, List.mem_singleton] at hs
    subst hs
    exact absurd ⟨t, ht, h⟩ hex

theorem termOf_card_le (c : K) (fs : List Factor) : (termOf R c fs).mono.card ≤ (monoOf fs).card := by
  cases hz : R.numZero c
  · rw [termOf_mono R hz]
  · rw [termOf_mono_zero R hz]; simp

theorem Poly.mul_degLE {p q r : Poly K} (hp : p.WF R) (hq : q.WF R) {d e : ℕ} (dp : p.degLE d)
    (dq : q.degLE e) (h : p.mul R q = .ok r) : r.degLE (d + e) := by
  unfold Poly.mul at h
  rw [mul_terms] at h
  refine Poly.new_degLE R (mul_terms_wf R hp hq) h fun t ht => ?_
  obtain ⟨ts, hts, rfl⟩ := List.mem_map.1 ht
  obtain ⟨a', ha', hb'⟩ := List.mem_flatMap.1 hts
  obtain ⟨b', hb'', heq⟩ := List.mem_map.1 hb'
  subst heq
  refine (termOf_card_le R _ _).trans ?_
  rw [monoOf_append, Multiset.card_add]
  exact Nat.add_le_add (dp _ ha') (dq _ hb'')

theorem Poly.add_degLE {p q r : Poly K} (hp : p.WF R) (hq : q.WF R) {d : ℕ} (dp : p.degLE d)
    (dq : q.degLE d) (h : p.add R q = .ok r) : r.degLE d := by
  have hts : ∀ t ∈ p.terms ++ q.terms, t.WF R := by
    intro t ht
    rcases List.mem_append.1 ht with h | h
    · exact hp.terms t h
    · exact hq.terms t h
  refine Poly.new_degLE R hts h fun t ht => ?_
  rcases List.mem_append.1 ht with h | h
  · exact dp t h
  · exact dq t h

theorem Poly.neg_degLE {p r : Poly K} (hp : p.WF R) {d : ℕ} (dp : p.degLE d)
    (h : p.neg R = .ok r) : r.degLE d := by
  unfold Poly.neg at h
  rw [neg_terms] at h
  have hts : ∀ t ∈ p.terms.map fun t => termOf R (-t.const) t.factors, t.WF R := by
    intro t ht
    obtain ⟨s, hs, rfl⟩ := List.mem_map.1 ht
    exact termOf_wf R _ _ (hp.terms s hs).pos
  refine Poly.new_degLE R hts h fun t ht => ?_
  obtain ⟨s, hs, rfl⟩ := List.mem_map.1 ht
  exact (termOf_card_le R _ _).trans (dp s hs)

omit [CommRing K] in
theorem Poly.degLE_mono {p : Poly K} {d e : ℕ} (h : p.degLE d) (hde : d ≤ e) : p.degLE e :=
  fun t ht => (h t ht).trans hde

/-- Mapping each term to one with the same monomial (or to a recognised zero) keeps the merge
from raising. -/
theorem Poly.new_total_map {p : Poly K} (hp : p.WF R) (ts : List (Term K)) (φ : Term K → Term K)
    (hφ : ∀ t ∈ ts, (φ t).WF R) (hsub : ts.Sublist p.terms)
    (hinj : ∀ t ∈ ts, ∀ s ∈ ts, R.numZero t.const = false → R.numZero s.const = false →
      (φ t).key ≠ ∅ → (φ t).key = (φ s).key → t.key = s.key)
    (hz : ∀ t ∈ ts, R.numZero t.const = true → (φ t).key = ∅) :
    ∃ q, Poly.new R (ts.map φ) = .ok q := by
  refine Poly.new_total R ?_ fun F hF => noEarlyCancel_of_length R ?_
  · intro t ht
    obtain ⟨s, hs, rfl⟩ := List.mem_map.1 ht
    exact hφ s hs
  · have hlen : (group (ts.map φ) F).length = (ts.filter fun t => (φ t).key = F).length := by
      unfold group
      rw [List.filter_map, List.length_map]
      rfl
    rw [hlen]
    set L := ts.filter fun t => (φ t).key = F with hL
    have hnz : ∀ t ∈ L, R.numZero t.const = false := by
      intro t ht
      obtain ⟨h1, h2⟩ := List.mem_filter.1 ht
      rw [Bool.eq_false_iff]
      intro hz'
      have := hz t h1 hz'
      simp only [decide_eq_true_eq] at h2
      exact hF (h2.symm.trans this)
    have hnd : (L.map Term.key).Nodup := by
      have h1 : L.Sublist (p.terms.filter fun t => !R.numZero t.const) := by
        have h2 : (L.filter fun t => !R.numZero t.const) = L := by
          rw [List.filter_eq_self]
          intro t ht
          simp [hnz t ht]
        rw [← h2]
        exact ((List.filter_sublist).trans hsub).filter _
      exact hp.uniq.sublist (h1.map _)
    have hcard : (L.map Term.key).length ≤ 1 := by
      by_contra hc
      push Not at hc
      cases hL' : L with
      | nil => rw [hL'] at hc; simp at hc
      | cons a as =>
        cases has : as with
        | nil => rw [hL', has] at hc; simp at hc
        | cons b bs =>
          have ha : a ∈ L := by rw [hL']; simp
          have hb : b ∈ L := by rw [hL', has]; simp
          have ha' := List.mem_filter.1 ha
          have hb' := List.mem_filter.1 hb
          simp only [decide_eq_true_eq] at ha' hb'
          have := hinj a ha'.1 b hb'.1 (hnz a ha) (hnz b hb) (by rw [ha'.2]; exact hF)
            (ha'.2.trans hb'.2.symm)
          rw [hL', has] at hnd
          simp [this] at hnd
    rw [List.length_map] at hcard
    omega

theorem Poly.neg_total {p : Poly K} (hp : p.WF R) : ∃ r, p.neg R = .ok r := by
  unfold Poly.neg
  rw [neg_terms]
  refine Poly.new_total_map R hp p.terms _ (fun t ht => termOf_wf R _ _ (hp.terms t ht).pos)
    (List.Sublist.refl _) ?_ ?_
  · intro t ht s hs _ _ hne hk
    have h1 : ∀ u ∈ p.terms, (termOf R (-u.const) u.factors).key ≠ ∅ →
        (termOf R (-u.const) u.factors).key = u.key := by
      intro u hu hne
      have : R.numZero (-u.const) = false := by
        rw [Bool.eq_false_iff]
        intro hz
        exact hne (by simp [Term.key, termOf_zero R hz])
      exact termOf_toFinset R this (hp.terms u hu).names
    rw [← h1 t ht hne, ← h1 s hs (hk ▸ hne), hk]
  · intro t ht hz
    have h0 : t.const = 0 := R.numZero_sound _ hz
    have : R.numZero (-t.const) = true := by rw [h0, neg_zero, ← h0]; exact hz
    simp [Term.key, termOf_zero R this]

theorem Poly.reject_total {p : Poly K} (hp : p.WF R) (x : String) : ∃ r, p.reject R x = .ok r := by
  unfold Poly.reject
  have := Poly.new_total_map R hp (p.terms.filter fun t => !t.isFunctionOf x) id
    (fun t ht => hp.terms t (List.mem_filter.1 ht).1) List.filter_sublist
    (fun t _ s _ _ _ _ h => h)
    (fun t ht hz => by simp [Term.key, (hp.terms t (List.mem_filter.1 ht).1).zero hz])
  simpa using this

theorem collectedTerm_mono {t : Term K} (ht : t.WF R) (hz : R.numZero t.const = false)
    {f : Factor} (hf : f ∈ t.factors) :
    (collectedTerm R t f).mono + Multiset.replicate f.power f.name = t.mono := by
  unfold collectedTerm
  rw [termOf_mono R hz, monoOf_perm (collected_perm R ht f)]
  have hperm : t.factors.Perm (f :: t.factors.filter fun g => g ≠ f) := by
    refine perm_of_toFinset_eq ht.nodup ?_ ?_
    · rw [List.nodup_cons]
      exact ⟨by simp, ht.nodup.filter _⟩
    · ext g
      simp only [List.mem_toFinset, List.mem_cons, List.mem_filter, decide_eq_true_eq]
      constructor
      · intro hg
        by_cases hgf : g = f
        · exact Or.inl hgf
        · exact Or.inr ⟨hg, by simpa using hgf⟩
      · rintro (rfl | ⟨hg, _⟩)
        · exact hf
        · exact hg
  unfold Term.mono
  rw [monoOf_perm hperm, monoOf_cons, add_comm]

theorem Poly.collectFor_total {p : Poly K} (hp : p.WF R) (f : Factor) :
    ∃ r, p.collectFor R f = .ok r := by
  unfold Poly.collectFor
  rw [collect_terms]
  have hmem : ∀ t ∈ p.terms.filter (fun t => decide (f ∈ t.factors)),
      t ∈ p.terms ∧ f ∈ t.factors := fun t ht => by
    have := List.mem_filter.1 ht
    exact ⟨this.1, by simpa using this.2⟩
  refine Poly.new_total_map R hp _ _ (fun t ht => collectedTerm_wf R (hp.terms t (hmem t ht).1) f)
    List.filter_sublist ?_ ?_
  · intro t ht s hs hzt hzs _ hk
    obtain ⟨ht1, ht2⟩ := hmem t ht
    obtain ⟨hs1, hs2⟩ := hmem s hs
    have hwt := hp.terms t ht1
    have hws := hp.terms s hs1
    have hm := ((collectedTerm_wf R hwt f).mono_eq_iff (collectedTerm_wf R hws f)).2 hk
    refine (hwt.mono_eq_iff hws).1 ?_
    rw [← collectedTerm_mono R hwt hzt ht2, ← collectedTerm_mono R hws hzs hs2, hm]
  · intro t ht hz
    obtain ⟨ht1, ht2⟩ := hmem t ht
    rw [(hp.terms t ht1).zero hz] at ht2
    cases ht2

theorem Poly.reject_degLE {p r : Poly K} (hp : p.WF R) {d : ℕ} (dp : p.degLE d) {x : String}
    (h : p.reject R x = .ok r) : r.degLE d :=
  Poly.new_degLE R (fun t ht => hp.terms t (List.mem_filter.1 ht).1) h
    fun t ht => dp t (List.mem_filter.1 ht).1

theorem Poly.collectFor_degLE {p r : Poly K} (hp : p.WF R) {d : ℕ} (dp : p.degLE d) {f : Factor}
    (h : p.collectFor R f = .ok r) : r.degLE (d - f.power) := by
  unfold Poly.collectFor at h
  rw [collect_terms] at h
  have hts : ∀ t ∈ (p.terms.filter fun t => f ∈ t.factors).map fun t => collectedTerm R t f,
      t.WF R := by
    intro t ht
    obtain ⟨s, hs, rfl⟩ := List.mem_map.1 ht
    exact collectedTerm_wf R (hp.terms s (List.mem_filter.1 hs).1) f
  refine Poly.new_degLE R hts h fun t ht => ?_
  obtain ⟨s, hs, rfl⟩ := List.mem_map.1 ht
  obtain ⟨hs1, hs2⟩ := List.mem_filter.1 hs
  have hsf : f ∈ s.factors := by simpa using hs2
  have hw := hp.terms s hs1
  have hz : R.numZero s.const = false := by
    rw [Bool.eq_false_iff]; intro hz
    rw [hw.zero hz] at hsf; cases hsf
  have := congrArg Multiset.card (collectedTerm_mono R hw hz hsf)
  rw [Multiset.card_add, Multiset.card_replicate] at this
  have h2 := dp s hs1
  omega

end Gpcm
