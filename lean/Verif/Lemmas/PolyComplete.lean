import Verif.Lemmas.ExprTotal
import Mathlib.Algebra.MvPolynomial.Funext
import Mathlib.Data.Finsupp.Multiset
import Mathlib.Algebra.Polynomial.Eval.Degree
import Mathlib.Algebra.Polynomial.Eval.Defs

/-! # Polynomials as formal polynomials -/

namespace Gpcm

variable {K : Type} [CommRing K] {R : Runtime K}

/-- The formal polynomial of a term. -/
noncomputable def Term.mv (t : Term K) : MvPolynomial String K :=
  MvPolynomial.monomial (Multiset.toFinsupp t.mono) t.const

/-- The formal polynomial. -/
noncomputable def Poly.mv (p : Poly K) : MvPolynomial String K := (p.terms.map Term.mv).sum

theorem prod_monoOf (fs : List Factor) (v : String → K) :
    ((monoOf fs).map v).prod = factorsVal fs v := by
  induction fs with
  | nil => simp [factorsVal]
  | cons f fs ih =>
    rw [monoOf_cons, Multiset.map_add, Multiset.prod_add, ih]
    simp [factorsVal, Factor.val]

theorem Term.mv_eval (t : Term K) (v : String → K) : MvPolynomial.eval v t.mv = t.val v := by
  unfold Term.mv Term.val
  rw [MvPolynomial.eval_monomial, ← prod_monoOf]
  congr 1
  rw [Finsupp.prod, Multiset.toFinsupp_support, Finset.prod_multiset_map_count]
  rfl

theorem Poly.mv_eval (p : Poly K) (v : String → K) : MvPolynomial.eval v p.mv = p.val v := by
  unfold Poly.mv Poly.val
  induction p.terms with
  | nil => simp
  | cons a as ih => simp [ih, Term.mv_eval]

theorem Poly.mv_coeff (p : Poly K) (m : Multiset String) :
    MvPolynomial.coeff (Multiset.toFinsupp m) p.mv =
      ((p.terms.filter fun t => t.mono = m).map Term.const).sum := by
  unfold Poly.mv
  induction p.terms with
  | nil => simp
  | cons a as ih =>
    rw [List.map_cons, List.sum_cons, MvPolynomial.coeff_add, ih, Term.mv,
      MvPolynomial.coeff_monomial, List.filter_cons]
    by_cases h : a.mono = m
    · simp [h]
    · have : ¬ (Multiset.toFinsupp a.mono = Multiset.toFinsupp m) := fun h' =>
        h (Multiset.toFinsupp.injective h')
      simp [h, this]

/-- With one term per monomial and no zero constants, the coefficient is the constant. -/
theorem Poly.mv_coeff_term {p : Poly K} (hp : p.WF R) (hnz : ∀ t ∈ p.terms, t.const ≠ 0)
    {t : Term K} (ht : t ∈ p.terms) :
    MvPolynomial.coeff (Multiset.toFinsupp t.mono) p.mv = t.const := by
  rw [Poly.mv_coeff]
  have hfil : (p.terms.filter fun t => !R.numZero t.const) = p.terms := by
    rw [List.filter_eq_self]
    intro s hs
    cases hz : R.numZero s.const
    · rfl
    · exact absurd (R.numZero_sound _ hz) (hnz s hs)
  have hu := hp.uniq
  rw [hfil] at hu
  have hnd : p.terms.Nodup := hu.of_map _
  have : (p.terms.filter fun s => s.mono = t.mono) = [t] := by
    have h1 : ∀ s ∈ p.terms, s.mono = t.mono → s = t := fun s hs h =>
      List.inj_on_of_nodup_map hu hs ht (((hp.terms s hs).mono_eq_iff (hp.terms t ht)).1 h)
    have h2 : (p.terms.filter fun s => s.mono = t.mono).Nodup := hnd.filter _
    have h3 : t ∈ p.terms.filter fun s => s.mono = t.mono := by simp [ht]
    have h4 : ∀ s ∈ p.terms.filter fun s => s.mono = t.mono, s = t := fun s hs => by
      have := List.mem_filter.1 hs
      exact h1 s this.1 (by simpa using this.2)
    revert h2 h3 h4
    generalize (p.terms.filter fun s => s.mono = t.mono) = l
    intro h2 h3 h4
    cases l with
    | nil => cases h3
    | cons a as =>
      cases as with
      | nil => rw [h4 a (by simp)]
      | cons b bs =>
        have ha := h4 a (by simp)
        have hb := h4 b (by simp)
        rw [ha, hb] at h2
        simp at h2
  rw [this]; simp

theorem eq_complete [IsDomain K] [Infinite K] [DecidableEq K] {p q : Poly K} (hp : p.WF R)
    (hq : q.WF R) (np : ∀ t ∈ p.terms, t.const ≠ 0) (nq : ∀ t ∈ q.terms, t.const ≠ 0)
    (h : ∀ v, p.val v = q.val v) : p.eqPy q = true := by
  have hmv : p.mv = q.mv := MvPolynomial.funext fun v => by rw [Poly.mv_eval, Poly.mv_eval, h]
  have key : ∀ {p q : Poly K}, p.WF R → q.WF R → (∀ t ∈ p.terms, t.const ≠ 0) →
      (∀ t ∈ q.terms, t.const ≠ 0) → p.mv = q.mv → ∀ t ∈ p.terms, ∃ s ∈ q.terms,
        t.const = s.const ∧ t.key = s.key := by
    intro p q hp hq np nq hmv t ht
    have h1 := Poly.mv_coeff_term hp np ht
    rw [hmv] at h1
    have hex : ∃ s ∈ q.terms, s.mono = t.mono := by
      by_contra hno
      push Not at hno
      rw [Poly.mv_coeff] at h1
      have : (q.terms.filter fun s => s.mono = t.mono) = [] := by
        rw [List.filter_eq_nil_iff]
        intro s hs
        simpa using hno s hs
      rw [this] at h1
      exact np t ht (by simpa using h1.symm)
    obtain ⟨s, hs, hm⟩ := hex
    have h2 := Poly.mv_coeff_term hq nq hs
    rw [hm] at h2
    exact ⟨s, hs, h1.symm.trans h2, ((hp.terms t ht).mono_eq_iff (hq.terms s hs)).1 hm.symm⟩
  simp only [Poly.eqPy, Bool.and_eq_true, List.all_eq_true, List.any_eq_true, eqPy_iff]
  exact ⟨key hp hq np nq hmv, key hq hp nq np hmv.symm⟩

/-! ## Degree in one variable -/

theorem Term.val_update {t : Term K} (ht : t.WF R) (x : String) (v : String → K) :
    ∃ c : K, ∃ k : ℕ, k ≤ t.highestPower x ∧ ∀ a, t.val (Function.update v x a) = c * a ^ k := by
  have hsf := splitFactors_spec t x ht.names
  refine ⟨t.const * factorsVal (t.splitFactors x).1 v, (t.splitFactors x).2, ?_, fun a => ?_⟩
  · by_cases h0 : (t.splitFactors x).2 = 0
    · omega
    · by_cases hx : ∃ f ∈ t.factors, f.name = x
      · obtain ⟨f, hf, rfl⟩ := hx
        have hle := Term.le_highestPower hf
        have : ∀ (fs : List Factor) (acc : List Factor × ℕ), (fs.map Factor.name).Nodup →
            (fs.foldl (fun acc g => if g.name = f.name then (acc.1, g.power)
              else (acc.1 ++ [g], acc.2)) acc).2 =
              if f ∈ fs then f.power else if ∃ g ∈ fs, g.name = f.name then
                (fs.foldl (fun acc g => if g.name = f.name then (acc.1, g.power)
                  else (acc.1 ++ [g], acc.2)) acc).2 else acc.2 := by
          intro fs
          induction fs with
          | nil => intro acc _; simp
          | cons g gs ih =>
            intro acc hnd
            rw [List.map_cons, List.nodup_cons] at hnd
            by_cases hg : g.name = f.name
            · have hno : ¬ ∃ g' ∈ gs, g'.name = f.name := by
                rintro ⟨g', hg', he⟩
                exact hnd.1 (hg.trans he.symm ▸ List.mem_map_of_mem hg')
              have hfs : f ∉ gs := fun h => hno ⟨f, h, rfl⟩
              rw [List.foldl_cons, if_pos hg, ih _ hnd.2, if_neg hfs, if_neg hno]
              by_cases hfg : f = g
              · simp [hfg]
              · simp [hfg, hfs, hg]
            · have hfg : f ≠ g := fun h => hg (by rw [h])
              rw [List.foldl_cons, if_neg hg, ih _ hnd.2]
              by_cases hfs : f ∈ gs
              · simp [hfs]
              · simp only [List.mem_cons, hfg, hfs, or_self, if_false, hg, exists_eq_or_imp,
                  false_or]
                by_cases hex : ∃ g' ∈ gs, g'.name = f.name
                · simp only [hex, if_true]
                · simp only [hex, if_false]
        have h1 := this t.factors ([], 0) ht.names
        rw [if_pos hf] at h1
        have h2 : (t.splitFactors f.name).2 = f.power := h1
        omega
      · exfalso
        apply h0
        have : ∀ (fs : List Factor) (acc : List Factor × ℕ), (∀ f ∈ fs, f.name ≠ x) →
            (fs.foldl (fun acc g => if g.name = x then (acc.1, g.power)
              else (acc.1 ++ [g], acc.2)) acc).2 = acc.2 := by
          intro fs
          induction fs with
          | nil => intro acc _; rfl
          | cons g gs ih =>
            intro acc h
            rw [List.foldl_cons, if_neg (h g (by simp)), ih _ fun f hf => h f (by simp [hf])]
        exact this t.factors ([], 0) fun f hf he => hx ⟨f, hf, he⟩
  · rw [Term.val, hsf.2 (Function.update v x a), Function.update_self,
      factorsVal_congr (v := Function.update v x a) (w := v)
        fun f hf => Function.update_of_ne (splitFactors_ne t x f hf) _ _]
    ring

theorem Poly.val_update {p : Poly K} (hp : p.WF R) (x : String) (v : String → K) {n : ℕ}
    (hn : ∀ t ∈ p.terms, t.highestPower x ≤ n) :
    ∃ P : Polynomial K, P.natDegree ≤ n ∧ ∀ a, p.val (Function.update v x a) = P.eval a := by
  unfold Poly.val
  have hwf := hp.terms
  revert hn hwf
  generalize p.terms = l
  intro hn hwf
  induction l with
  | nil => exact ⟨0, by simp, by simp⟩
  | cons t ts ih =>
    obtain ⟨P, hP, hPe⟩ := ih (fun t ht => hn t (by simp [ht])) fun t ht => hwf t (by simp [ht])
    obtain ⟨c, k, hk, hc⟩ := Term.val_update (hwf t (by simp)) x v
    refine ⟨Polynomial.C c * Polynomial.X ^ k + P, ?_, fun a => ?_⟩
    · refine Polynomial.natDegree_add_le_of_degree_le ?_ hP
      exact (Polynomial.natDegree_C_mul_X_pow_le c k).trans (hk.trans (hn t (by simp)))
    · simp [hc, hPe]

end Gpcm
