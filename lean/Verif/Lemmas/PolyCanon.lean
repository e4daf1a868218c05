import Verif.Lemmas.PolyQuery
import Verif.Model.ExprRun
import Mathlib.Data.Multiset.Bind
import Mathlib.Algebra.BigOperators.Group.Multiset.Basic

/-!
# Canonical form of a polynomial

The multiset of (constant, set of factors) pairs of a polynomial. All operations are functions of
the canonical forms, whatever the set iteration order; this gives independence of the hash seed.
-/

namespace Gpcm

variable {K : Type} [CommRing K]

/-- A term up to the order of its factors. -/
def Term.pair (t : Term K) : K × Finset Factor := (t.const, t.key)

/-- Canonical form of a list of terms. -/
def termsCanon (ts : List (Term K)) : Multiset (K × Finset Factor) := (ts.map Term.pair : List _)

/-- Canonical form of a polynomial. -/
def Poly.canon (p : Poly K) : Multiset (K × Finset Factor) := termsCanon p.terms

/-- Canonical form of a Python value. -/
inductive PyVal.Same : PyVal K → PyVal K → Prop
  | poly {p q : Poly K} (h : p.canon = q.canon) : Same (.poly p) (.poly q)
  | int (n : ℤ) : Same (.int n) (.int n)
  | num (c : K) : Same (.num c) (.num c)

/-- The effect of `_merge_common_terms` on canonical forms. -/
noncomputable def mergeCanon (nz : K → Bool) (m : Multiset (K × Finset Factor)) :
    Multiset (K × Finset Factor) :=
  (m.map Prod.snd).dedup.map fun F =>
    let c := ((m.filter fun a => a.2 = F).map Prod.fst).sum
    (c, if nz c then ∅ else F)

variable (R : Runtime K)

theorem Poly.new_canon {ts : List (Term K)} {p : Poly K} (hts : ∀ t ∈ ts, t.WF R)
    (h : Poly.new R ts = .ok p) : p.canon = mergeCanon R.numZero (termsCanon ts) := by
  have h2 := Poly.new_ok R hts h
  have hsum : ∀ F, (((termsCanon ts).filter fun a => a.2 = F).map Prod.fst).sum =
      constSum (group ts F) := by
    intro F
    unfold termsCanon constSum group
    rw [Multiset.filter_coe, Multiset.map_coe, Multiset.sum_coe, List.filter_map, List.map_map]
    rfl
  have hkeys : (termsCanon ts).map Prod.snd = ((ts.map fun t => t.factors.toFinset : List _) :
      Multiset (Finset Factor)) := by
    unfold termsCanon
    rw [Multiset.map_coe, List.map_map]
    rfl
  have hord : ((termsCanon ts).map Prod.snd).dedup =
      ((R.ord (ts.map fun t => t.factors.toFinset) : List _) : Multiset (Finset Factor)) := by
    rw [hkeys, Multiset.coe_dedup]
    exact Multiset.coe_eq_coe.2 (R.perm _).symm
  unfold mergeCanon
  simp only [hsum]
  rw [hord, Multiset.map_coe]
  unfold Poly.canon
  rw [termsCanon]
  congr 1
  generalize R.ord (ts.map fun t => t.factors.toFinset) = keys at h2
  generalize p.terms = ms at h2
  induction h2 with
  | nil => rfl
  | cons hab _ ih =>
    rename_i F t Fs ms' _
    simp only [List.map_cons, List.cons.injEq]
    refine ⟨?_, ih⟩
    unfold Term.pair
    rw [← hab.2.2.1]
    congr 1
    split
    · rename_i hz
      simp [Term.key, hab.1.zero hz]
    · rename_i hz
      rcases hab.2.1 with h | h
      · exact absurd h hz
      · exact h

/-! ## Operations on canonical forms -/

theorem mergedFactors_toFinset_perm (S S' : SetOrder) {fs gs : List Factor} (h : fs.Perm gs) :
    (mergedFactors S fs).toFinset = (mergedFactors S' gs).toFinset := by
  have hpow : ∀ n, powerOf fs n = powerOf gs n := fun n => by
    unfold powerOf
    exact ((h.filter _).map _).sum_eq
  ext f
  unfold mergedFactors
  simp only [List.mem_toFinset, List.mem_map, SetOrder.mem_iff, hpow]
  constructor
  · rintro ⟨n, ⟨g, hg, rfl⟩, rfl⟩
    exact ⟨g.name, ⟨g, h.mem_iff.1 hg, rfl⟩, rfl⟩
  · rintro ⟨n, ⟨g, hg, rfl⟩, rfl⟩
    exact ⟨g.name, ⟨g, h.mem_iff.2 hg, rfl⟩, rfl⟩

/-- Merge a set of factors. -/
noncomputable def mergeKey (fs : List Factor) : Finset Factor :=
  (mergedFactors SetOrder.dedup fs).toFinset

theorem termOf_key (c : K) (fs : List Factor) :
    (termOf R c fs).key = if R.numZero c then ∅ else mergeKey fs := by
  unfold Term.key
  have : (termOf R c fs).factors.toFinset =
      (mergedFactors R.toSetOrder (if R.numZero c = true then [] else fs)).toFinset := by
    unfold termOf
    exact R.toFinset _
  rw [this]
  split
  · simp [mergedFactors, SetOrder.ord_nil]
  · exact mergedFactors_toFinset_perm _ _ (List.Perm.refl _)

theorem mergeKey_perm {fs gs : List Factor} (h : fs.Perm gs) : mergeKey fs = mergeKey gs :=
  mergedFactors_toFinset_perm _ _ h

theorem Term.WF.perm_toList {R : Runtime K} {t : Term K} (h : t.WF R) :
    t.factors.Perm t.key.toList :=
  perm_of_toFinset_eq h.nodup t.key.nodup_toList (by simp [Term.key])

/-- Effect of negation on a term. -/
noncomputable def negPair (nz : K → Bool) (a : K × Finset Factor) : K × Finset Factor :=
  (-a.1, if nz (-a.1) then ∅ else mergeKey a.2.toList)

/-- Effect of multiplication on a pair of terms. -/
noncomputable def mulPair (nz : K → Bool) (a b : K × Finset Factor) : K × Finset Factor :=
  (a.1 * b.1, if nz (a.1 * b.1) then ∅ else mergeKey (a.2.toList ++ b.2.toList))

theorem neg_pair {t : Term K} (ht : t.WF R) :
    (termOf R (-t.const) t.factors).pair = negPair R.numZero t.pair := by
  unfold Term.pair negPair
  rw [termOf_key, mergeKey_perm ht.perm_toList]
  rfl

theorem mul_pair {t s : Term K} (ht : t.WF R) (hs : s.WF R) :
    (termOf R (t.const * s.const) (t.factors ++ s.factors)).pair =
      mulPair R.numZero t.pair s.pair := by
  unfold Term.pair mulPair
  rw [termOf_key, mergeKey_perm (ht.perm_toList.append hs.perm_toList)]
  rfl

theorem Poly.add_canon {p q r : Poly K} (hp : p.WF R) (hq : q.WF R) (h : p.add R q = .ok r) :
    r.canon = mergeCanon R.numZero (p.canon + q.canon) := by
  have hts : ∀ t ∈ p.terms ++ q.terms, t.WF R := by
    intro t ht
    rcases List.mem_append.1 ht with h | h
    · exact hp.terms t h
    · exact hq.terms t h
  rw [Poly.new_canon R hts h]
  congr 1
  simp [Poly.canon, termsCanon]

theorem Poly.neg_canon {p r : Poly K} (hp : p.WF R) (h : p.neg R = .ok r) :
    r.canon = mergeCanon R.numZero (p.canon.map (negPair R.numZero)) := by
  unfold Poly.neg at h
  rw [neg_terms] at h
  have hts : ∀ t ∈ p.terms.map fun t => termOf R (-t.const) t.factors, t.WF R := by
    intro t ht
    obtain ⟨s, hs, rfl⟩ := List.mem_map.1 ht
    exact termOf_wf R _ _ (hp.terms s hs).pos
  rw [Poly.new_canon R hts h]
  congr 1
  unfold Poly.canon termsCanon
  rw [Multiset.map_coe, List.map_map, List.map_map]
  congr 1
  exact List.map_congr_left fun t ht => neg_pair R (hp.terms t ht)

theorem Poly.mul_canon {p q r : Poly K} (hp : p.WF R) (hq : q.WF R) (h : p.mul R q = .ok r) :
    r.canon = mergeCanon R.numZero
      ((p.canon ×ˢ q.canon).map fun ab => mulPair R.numZero ab.1 ab.2) := by
  unfold Poly.mul at h
  rw [mul_terms] at h
  rw [Poly.new_canon R (mul_terms_wf R hp hq) h]
  congr 1
  unfold Poly.canon termsCanon
  rw [Multiset.coe_product, Multiset.map_coe, List.map_map]
  congr 1
  have : (p.terms.map Term.pair ×ˢ q.terms.map Term.pair) =
      (p.terms.flatMap fun t => q.terms.map fun s => (t, s)).map
        fun ts => (ts.1.pair, ts.2.pair) := by
    show List.product _ _ = _
    unfold List.product
    rw [List.flatMap_map, List.map_flatMap]
    simp [Function.comp_def]
  rw [this, List.map_map]
  refine List.map_congr_left fun ts hts => ?_
  obtain ⟨a', ha', hb'⟩ := List.mem_flatMap.1 hts
  obtain ⟨b', hb'', heq⟩ := List.mem_map.1 hb'
  subst heq
  exact mul_pair R (hp.terms _ ha') (hq.terms _ hb'')

/-! ## Two runtimes that differ in the set order only -/

section two
variable {R} {R' : Runtime K} (hnz : R.numZero = R'.numZero)
include hnz

theorem const_same {c : K} {p p' : Poly K} (h : Poly.const R c = .ok p)
    (h' : Poly.const R' c = .ok p') : p.canon = p'.canon := by
  unfold Poly.const at h h'
  rw [Term.new_eq] at h h'
  have hwf := termOf_wf R c [] (by simp)
  have hwf' := termOf_wf R' c [] (by simp)
  rw [Poly.new_canon R (by simpa using hwf) h, Poly.new_canon R' (by simpa using hwf') h', hnz]
  congr 1
  simp only [termsCanon, List.map_cons, List.map_nil, Term.pair, termOf_key, termOf_const, hnz]

theorem var_same {x : String} {p p' : Poly K} (h : Poly.var R x = .ok p)
    (h' : Poly.var R' x = .ok p') : p.canon = p'.canon := by
  unfold Poly.var Factor.new at h h'
  simp only [Term.new_eq] at h h'
  have hwf := termOf_wf R 1 [⟨x, 1⟩] (by simp)
  have hwf' := termOf_wf R' 1 [⟨x, 1⟩] (by simp)
  have e := Poly.new_canon R (by simpa using hwf) h
  have e' := Poly.new_canon R' (by simpa using hwf') h'
  rw [e, e', hnz]
  congr 1
  simp only [termsCanon, List.map_cons, List.map_nil, Term.pair, termOf_key, termOf_const, hnz]

theorem add_same {p q r p' q' r' : Poly K} (hp : p.WF R) (hq : q.WF R) (hp' : p'.WF R')
    (hq' : q'.WF R') (ep : p.canon = p'.canon) (eq : q.canon = q'.canon)
    (h : p.add R q = .ok r) (h' : p'.add R' q' = .ok r') : r.canon = r'.canon := by
  rw [Poly.add_canon R hp hq h, Poly.add_canon R' hp' hq' h', hnz, ep, eq]

theorem neg_same {p r p' r' : Poly K} (hp : p.WF R) (hp' : p'.WF R')
    (ep : p.canon = p'.canon) (h : p.neg R = .ok r) (h' : p'.neg R' = .ok r') :
    r.canon = r'.canon := by
  rw [Poly.neg_canon R hp h, Poly.neg_canon R' hp' h', hnz, ep]

theorem mul_same {p q r p' q' r' : Poly K} (hp : p.WF R) (hq : q.WF R) (hp' : p'.WF R')
    (hq' : q'.WF R') (ep : p.canon = p'.canon) (eq : q.canon = q'.canon)
    (h : p.mul R q = .ok r) (h' : p'.mul R' q' = .ok r') : r.canon = r'.canon := by
  rw [Poly.mul_canon R hp hq h, Poly.mul_canon R' hp' hq' h', hnz, ep, eq]

theorem addNum_same {p r p' r' : Poly K} {c : K} (hp : p.WF R) (hp' : p'.WF R')
    (ep : p.canon = p'.canon) (h : PyVal.addNum R p c = .ok r)
    (h' : PyVal.addNum R' p' c = .ok r') : r.canon = r'.canon := by
  obtain ⟨q, hq, hqwf, _⟩ := Poly.const_spec R c
  obtain ⟨q', hq', hqwf', _⟩ := Poly.const_spec R' c
  simp only [PyVal.addNum, hq] at h
  simp only [PyVal.addNum, hq'] at h'
  exact add_same hnz hp hqwf hp' hqwf' ep (const_same hnz hq hq') h h'

theorem addInt_same {p r p' r' : Poly K} {n : ℤ} (hp : p.WF R) (hp' : p'.WF R')
    (ep : p.canon = p'.canon) (h : PyVal.addInt R p n = .ok r)
    (h' : PyVal.addInt R' p' n = .ok r') : r.canon = r'.canon := by
  unfold PyVal.addInt at h h'
  split at h
  · rename_i h0
    simp only [h0, if_true] at h'
    cases h; cases h'; exact ep
  · rename_i h0
    simp only [h0, if_false] at h'
    exact addNum_same hnz hp hp' ep h h'

theorem mulNum_same {p r p' r' : Poly K} {c : K} (hp : p.WF R) (hp' : p'.WF R')
    (ep : p.canon = p'.canon) (h : PyVal.mulNum R p c = .ok r)
    (h' : PyVal.mulNum R' p' c = .ok r') : r.canon = r'.canon := by
  obtain ⟨q, hq, hqwf, _⟩ := Poly.const_spec R c
  obtain ⟨q', hq', hqwf', _⟩ := Poly.const_spec R' c
  simp only [PyVal.mulNum, hq] at h
  simp only [PyVal.mulNum, hq'] at h'
  exact mul_same hnz hp hqwf hp' hqwf' ep (const_same hnz hq hq') h h'

theorem mulInt_same {p r p' r' : Poly K} {n : ℤ} (hp : p.WF R) (hp' : p'.WF R')
    (ep : p.canon = p'.canon) (h : PyVal.mulInt R p n = .ok r)
    (h' : PyVal.mulInt R' p' n = .ok r') : r.canon = r'.canon := by
  unfold PyVal.mulInt at h h'
  split at h
  · rename_i h0
    simp only [h0, if_true] at h'
    cases h; cases h'; exact ep
  · rename_i h0
    simp only [h0, if_false] at h'
    exact mulNum_same hnz hp hp' ep h h'

open PyVal in
theorem pyAdd_same {x y z x' y' z' : PyVal K} (hx : x.WF R) (hy : y.WF R) (hx' : x'.WF R')
    (hy' : y'.WF R') (ex : Same x x') (ey : Same y y') (h : PyVal.add R x y = .ok z)
    (h' : PyVal.add R' x' y' = .ok z') : Same z z' := by
  cases ex <;> cases ey <;> simp only [PyVal.add] at h h'
  case poly.poly ep _ _ eq =>
    obtain ⟨r, hr, rfl⟩ := lift_ok h
    obtain ⟨r', hr', rfl⟩ := lift_ok h'
    exact .poly (add_same hnz hx hy hx' hy' ep eq hr hr')
  case poly.int ep _ =>
    obtain ⟨r, hr, rfl⟩ := lift_ok h
    obtain ⟨r', hr', rfl⟩ := lift_ok h'
    exact .poly (addInt_same hnz hx hx' ep hr hr')
  case poly.num ep _ =>
    obtain ⟨r, hr, rfl⟩ := lift_ok h
    obtain ⟨r', hr', rfl⟩ := lift_ok h'
    exact .poly (addNum_same hnz hx hx' ep hr hr')
  case int.poly ep =>
    obtain ⟨r, hr, rfl⟩ := lift_ok h
    obtain ⟨r', hr', rfl⟩ := lift_ok h'
    exact .poly (addInt_same hnz hy hy' ep hr hr')
  case num.poly ep =>
    obtain ⟨r, hr, rfl⟩ := lift_ok h
    obtain ⟨r', hr', rfl⟩ := lift_ok h'
    exact .poly (addNum_same hnz hy hy' ep hr hr')
  case int.int => cases h; cases h'; exact .int _
  all_goals cases h; cases h'; exact .num _

open PyVal in
theorem pyNeg_same {x z x' z' : PyVal K} (hx : x.WF R) (hx' : x'.WF R') (ex : Same x x')
    (h : PyVal.neg R x = .ok z) (h' : PyVal.neg R' x' = .ok z') : Same z z' := by
  cases ex <;> simp only [PyVal.neg] at h h'
  case poly ep =>
    obtain ⟨r, hr, rfl⟩ := lift_ok h
    obtain ⟨r', hr', rfl⟩ := lift_ok h'
    exact .poly (neg_same hnz hx hx' ep hr hr')
  case int => cases h; cases h'; exact .int _
  all_goals cases h; cases h'; exact .num _

open PyVal in
theorem pySub_same {x y z x' y' z' : PyVal K} (hx : x.WF R) (hy : y.WF R) (hx' : x'.WF R')
    (hy' : y'.WF R') (ex : Same x x') (ey : Same y y') (h : PyVal.sub R x y = .ok z)
    (h' : PyVal.sub R' x' y' = .ok z') : Same z z' := by
  have key1 : ∀ {a b c a' b' c' : PyVal K}, a.WF R → b.WF R → a'.WF R' → b'.WF R' →
      Same a a' → Same b b' →
      (match PyVal.neg R b with
        | .error e => Except.error e
        | .ok w => PyVal.add R a w) = .ok c →
      (match PyVal.neg R' b' with
        | .error e => Except.error e
        | .ok w => PyVal.add R' a' w) = .ok c' → Same c c' := by
    intro a b c a' b' c' ha hb ha' hb' ea eb h h'
    split at h
    · cases h
    · rename_i w hw
      split at h'
      · cases h'
      · rename_i w' hw'
        exact pyAdd_same hnz ha (neg_spec R hb hw).1 ha' (neg_spec R' hb' hw').1 ea
          (pyNeg_same hnz hb hb' eb hw hw') h h'
  have key2 : ∀ {a b c a' b' c' : PyVal K}, a.WF R → b.WF R → a'.WF R' → b'.WF R' →
      Same a a' → Same b b' →
      (match PyVal.neg R b with
        | .error e => Except.error e
        | .ok w => PyVal.add R w a) = .ok c →
      (match PyVal.neg R' b' with
        | .error e => Except.error e
        | .ok w => PyVal.add R' w a') = .ok c' → Same c c' := by
    intro a b c a' b' c' ha hb ha' hb' ea eb h h'
    split at h
    · cases h
    · rename_i w hw
      split at h'
      · cases h'
      · rename_i w' hw'
        exact pyAdd_same hnz (neg_spec R hb hw).1 ha (neg_spec R' hb' hw').1 ha'
          (pyNeg_same hnz hb hb' eb hw hw') ea h h'
  cases ex <;> cases ey <;> simp only [PyVal.sub] at h h'
  case poly.poly ep _ _ eq => exact key1 hx hy hx' hy' (.poly ep) (.poly eq) h h'
  case poly.int ep n =>
    exact key1 hx (b := .int n) trivial hx' (b' := .int n) trivial (.poly ep) (.int n) h h'
  case poly.num ep n =>
    exact key1 hx (b := .num n) trivial hx' (b' := .num n) trivial (.poly ep) (.num n) h h'
  case int.poly n _ _ ep =>
    exact key2 (a := .int n) trivial hy (a' := .int n) trivial hy' (.int n) (.poly ep) h h'
  case num.poly n _ _ ep =>
    exact key2 (a := .num n) trivial hy (a' := .num n) trivial hy' (.num n) (.poly ep) h h'
  case int.int => cases h; cases h'; exact .int _
  all_goals cases h; cases h'; exact .num _

open PyVal in
theorem pyMul_same {x y z x' y' z' : PyVal K} (hx : x.WF R) (hy : y.WF R) (hx' : x'.WF R')
    (hy' : y'.WF R') (ex : Same x x') (ey : Same y y') (h : PyVal.mul R x y = .ok z)
    (h' : PyVal.mul R' x' y' = .ok z') : Same z z' := by
  cases ex <;> cases ey <;> simp only [PyVal.mul] at h h'
  case poly.poly ep _ _ eq =>
    obtain ⟨r, hr, rfl⟩ := lift_ok h
    obtain ⟨r', hr', rfl⟩ := lift_ok h'
    exact .poly (mul_same hnz hx hy hx' hy' ep eq hr hr')
  case poly.int ep _ =>
    obtain ⟨r, hr, rfl⟩ := lift_ok h
    obtain ⟨r', hr', rfl⟩ := lift_ok h'
    exact .poly (mulInt_same hnz hx hx' ep hr hr')
  case poly.num ep _ =>
    obtain ⟨r, hr, rfl⟩ := lift_ok h
    obtain ⟨r', hr', rfl⟩ := lift_ok h'
    exact .poly (mulNum_same hnz hx hx' ep hr hr')
  case int.poly ep =>
    obtain ⟨r, hr, rfl⟩ := lift_ok h
    obtain ⟨r', hr', rfl⟩ := lift_ok h'
    exact .poly (mulInt_same hnz hy hy' ep hr hr')
  case num.poly ep =>
    obtain ⟨r, hr, rfl⟩ := lift_ok h
    obtain ⟨r', hr', rfl⟩ := lift_ok h'
    exact .poly (mulNum_same hnz hy hy' ep hr hr')
  case int.int => cases h; cases h'; exact .int _
  all_goals cases h; cases h'; exact .num _

open PyVal in
theorem powLoop_same {p p' : Poly K} (hp : p.WF R) (hp' : p'.WF R') (ep : p.canon = p'.canon) :
    ∀ (n : ℕ) (x z x' z' : PyVal K), x.WF R → x'.WF R' → Same x x' →
      foldE (fun acc q => PyVal.mul R acc (.poly q)) x (List.replicate n p) = .ok z →
      foldE (fun acc q => PyVal.mul R' acc (.poly q)) x' (List.replicate n p') = .ok z' →
      Same z z' := by
  intro n
  induction n with
  | zero =>
    intro x z x' z' _ _ ex h h'
    simp only [List.replicate_zero, foldE] at h h'
    cases h; cases h'; exact ex
  | succ n ih =>
    intro x z x' z' hx hx' ex h h'
    simp only [List.replicate_succ, foldE] at h h'
    split at h
    · cases h
    · rename_i w hw
      split at h'
      · cases h'
      · rename_i w' hw'
        exact ih w z w' z' (mul_spec R hx (y := .poly p) hp hw).1
          (mul_spec R' hx' (y := .poly p') hp' hw').1
          (pyMul_same hnz hx (y := .poly p) hp hx' (y' := .poly p') hp' ex (.poly ep) hw hw') h h'

open PyVal in
theorem pyPow_same {x z x' z' : PyVal K} {n : ℕ} (hx : x.WF R) (hx' : x'.WF R') (ex : Same x x')
    (h : PyVal.pow R x n = .ok z) (h' : PyVal.pow R' x' n = .ok z') : Same z z' := by
  cases ex <;> simp only [PyVal.pow] at h h'
  case poly ep =>
    have hn : ¬ ((n : ℤ) < 0) := by omega
    simp only [PyVal.powPoly, hn, if_false, Int.toNat_natCast] at h h'
    exact powLoop_same hnz hx hx' ep n (.int 1) _ (.int 1) _ trivial trivial (.int 1) h h'
  case int => cases h; cases h'; exact .int _
  all_goals cases h; cases h'; exact .num _

end two

/-! ## Running expressions -/

theorem Expr.run_spec (e : Expr K) : ∀ {x : PyVal K}, e.run R = .ok x →
    x.WF R ∧ ∀ v, x.val v = e.denote v := by
  induction e with
  | var y =>
    intro x h
    obtain ⟨p, hp, rfl⟩ := PyVal.lift_ok h
    obtain ⟨p', hp', hwf, hv⟩ := Poly.var_spec R y 1 (le_refl 1)
    have : p = p' := by
      have := hp.symm.trans hp'; cases this; rfl
    subst this
    exact ⟨hwf, fun v => by simpa [PyVal.val, Expr.denote] using hv v⟩
  | const c =>
    intro x h
    obtain ⟨p, hp, rfl⟩ := PyVal.lift_ok h
    obtain ⟨p', hp', hwf, hv⟩ := Poly.const_spec R c
    have : p = p' := by
      have := hp.symm.trans hp'; cases this; rfl
    subst this
    exact ⟨hwf, fun v => by simpa [PyVal.val, Expr.denote] using hv v⟩
  | int n => intro x h; cases h; exact ⟨trivial, fun v => rfl⟩
  | num c => intro x h; cases h; exact ⟨trivial, fun v => rfl⟩
  | add e f ihe ihf =>
    intro x h
    simp only [Expr.run, bind2] at h
    split at h
    · cases h
    · rename_i a ha
      split at h
      · cases h
      · rename_i b hb
        have := PyVal.add_spec R (ihe ha).1 (ihf hb).1 h
        exact ⟨this.1, fun v => by rw [this.2, (ihe ha).2, (ihf hb).2]; rfl⟩
  | sub e f ihe ihf =>
    intro x h
    simp only [Expr.run, bind2] at h
    split at h
    · cases h
    · rename_i a ha
      split at h
      · cases h
      · rename_i b hb
        have := PyVal.sub_spec R (ihe ha).1 (ihf hb).1 h
        exact ⟨this.1, fun v => by rw [this.2, (ihe ha).2, (ihf hb).2]; rfl⟩
  | neg e ihe =>
    intro x h
    simp only [Expr.run, bind1] at h
    split at h
    · cases h
    · rename_i a ha
      have := PyVal.neg_spec R (ihe ha).1 h
      exact ⟨this.1, fun v => by rw [this.2, (ihe ha).2]; rfl⟩
  | mul e f ihe ihf =>
    intro x h
    simp only [Expr.run, bind2] at h
    split at h
    · cases h
    · rename_i a ha
      split at h
      · cases h
      · rename_i b hb
        have := PyVal.mul_spec R (ihe ha).1 (ihf hb).1 h
        exact ⟨this.1, fun v => by rw [this.2, (ihe ha).2, (ihf hb).2]; rfl⟩
  | pow e n ihe =>
    intro x h
    simp only [Expr.run, bind1] at h
    split at h
    · cases h
    · rename_i a ha
      have := PyVal.pow_spec R (ihe ha).1 h
      exact ⟨this.1, fun v => by rw [this.2, (ihe ha).2]; rfl⟩

theorem bind2_ok {α β γ : Type} {x : Except PyErr α} {y : Except PyErr β}
    {f : α → β → Except PyErr γ} {c : γ} (h : bind2 x y f = .ok c) :
    ∃ a b, x = .ok a ∧ y = .ok b ∧ f a b = .ok c := by
  unfold bind2 at h
  split at h
  · cases h
  · rename_i a
    split at h
    · cases h
    · rename_i b
      exact ⟨a, b, rfl, rfl, h⟩

theorem bind1_ok {α β : Type} {x : Except PyErr α} {f : α → Except PyErr β} {c : β}
    (h : bind1 x f = .ok c) : ∃ a, x = .ok a ∧ f a = .ok c := by
  unfold bind1 at h
  split at h
  · cases h
  · rename_i a
    exact ⟨a, rfl, h⟩

theorem Expr.run_same {R R' : Runtime K} (hnz : R.numZero = R'.numZero) (e : Expr K) :
    ∀ {x x' : PyVal K}, e.run R = .ok x → e.run R' = .ok x' → PyVal.Same x x' := by
  induction e with
  | var y =>
    intro x x' h h'
    obtain ⟨p, hp, rfl⟩ := PyVal.lift_ok h
    obtain ⟨p', hp', rfl⟩ := PyVal.lift_ok h'
    exact .poly (var_same hnz hp hp')
  | const c =>
    intro x x' h h'
    obtain ⟨p, hp, rfl⟩ := PyVal.lift_ok h
    obtain ⟨p', hp', rfl⟩ := PyVal.lift_ok h'
    exact .poly (const_same hnz hp hp')
  | int n => intro x x' h h'; cases h; cases h'; exact .int n
  | num c => intro x x' h h'; cases h; cases h'; exact .num c
  | add e f ihe ihf =>
    intro x x' h h'
    obtain ⟨a, b, ha, hb, hab⟩ := bind2_ok h
    obtain ⟨a', b', ha', hb', hab'⟩ := bind2_ok h'
    exact pyAdd_same hnz (e.run_spec R ha).1 (f.run_spec R hb).1 (e.run_spec R' ha').1
      (f.run_spec R' hb').1 (ihe ha ha') (ihf hb hb') hab hab'
  | sub e f ihe ihf =>
    intro x x' h h'
    obtain ⟨a, b, ha, hb, hab⟩ := bind2_ok h
    obtain ⟨a', b', ha', hb', hab'⟩ := bind2_ok h'
    exact pySub_same hnz (e.run_spec R ha).1 (f.run_spec R hb).1 (e.run_spec R' ha').1
      (f.run_spec R' hb').1 (ihe ha ha') (ihf hb hb') hab hab'
  | neg e ihe =>
    intro x x' h h'
    obtain ⟨a, ha, hab⟩ := bind1_ok h
    obtain ⟨a', ha', hab'⟩ := bind1_ok h'
    exact pyNeg_same hnz (e.run_spec R ha).1 (e.run_spec R' ha').1 (ihe ha ha') hab hab'
  | mul e f ihe ihf =>
    intro x x' h h'
    obtain ⟨a, b, ha, hb, hab⟩ := bind2_ok h
    obtain ⟨a', b', ha', hb', hab'⟩ := bind2_ok h'
    exact pyMul_same hnz (e.run_spec R ha).1 (f.run_spec R hb).1 (e.run_spec R' ha').1
      (f.run_spec R' hb').1 (ihe ha ha') (ihf hb hb') hab hab'
  | pow e n ihe =>
    intro x x' h h'
    obtain ⟨a, ha, hab⟩ := bind1_ok h
    obtain ⟨a', ha', hab'⟩ := bind1_ok h'
    exact pyPow_same hnz (e.run_spec R ha).1 (e.run_spec R' ha').1 (ihe ha ha') hab hab'

/-! ## What the canonical form determines -/

omit [CommRing K] in
theorem canon_mem {p q : Poly K} (h : p.canon = q.canon) {t : Term K} (ht : t ∈ p.terms) :
    ∃ s ∈ q.terms, s.const = t.const ∧ s.key = t.key := by
  have : t.pair ∈ q.canon := by
    rw [← h]
    exact Multiset.mem_coe.2 (List.mem_map_of_mem ht)
  obtain ⟨s, hs, he⟩ := List.mem_map.1 (Multiset.mem_coe.1 this)
  exact ⟨s, hs, congrArg Prod.fst he, congrArg Prod.snd he⟩

omit [CommRing K] in
theorem canon_isFunctionOf {p q : Poly K} (h : p.canon = q.canon) (x : String) :
    p.isFunctionOf x = q.isFunctionOf x := by
  have key : ∀ {p q : Poly K}, p.canon = q.canon → p.isFunctionOf x = true →
      q.isFunctionOf x = true := by
    intro p q h hp
    obtain ⟨t, ht, f, hf, rfl⟩ := Poly.isFunctionOf_iff.1 hp
    obtain ⟨s, hs, _, hk⟩ := canon_mem h ht
    refine Poly.isFunctionOf_iff.2 ⟨s, hs, f, ?_, rfl⟩
    rw [← List.mem_toFinset]
    show f ∈ s.key
    rw [hk]
    exact List.mem_toFinset.2 hf
  exact Bool.eq_iff_iff.2 ⟨key h, key h.symm⟩

omit [CommRing K] in
theorem canon_isConstant {p q : Poly K} (h : p.canon = q.canon) :
    p.isConstant = q.isConstant := by
  rw [Bool.eq_iff_iff, Poly.isConstant_iff, Poly.isConstant_iff]
  simp only [canon_isFunctionOf h]

omit [CommRing K] in
theorem highestPower_key {t s : Term K} (h : t.key = s.key) (x : String) :
    t.highestPower x = s.highestPower x := by
  have key : ∀ {t s : Term K}, t.key = s.key → t.highestPower x ≤ s.highestPower x := by
    intro t s h
    by_cases h0 : t.highestPower x = 0
    · rw [h0]; exact Nat.zero_le _
    · obtain ⟨f, hf, rfl, hfp⟩ := Term.highestPower_attained h0
      rw [← hfp]
      refine Term.le_highestPower ?_
      rw [← List.mem_toFinset]
      show f ∈ s.key
      rw [← h]
      exact List.mem_toFinset.2 hf
  exact le_antisymm (key h) (key h.symm)

omit [CommRing K] in
theorem canon_highestPower {p q : Poly K} (h : p.canon = q.canon) (x : String) :
    p.highestPower x = q.highestPower x := by
  have hlen : p.terms.length = q.terms.length := by
    have := congrArg Multiset.card h
    simpa [Poly.canon, termsCanon] using this
  cases hp : p.highestPower x with
  | error e =>
    unfold Poly.highestPower at hp ⊢
    split at hp
    · rename_i h0
      cases hp
      rw [h0] at hlen
      rw [List.length_eq_zero_iff.1 hlen.symm]
    · cases hp
  | ok n =>
    cases hq : q.highestPower x with
    | error e =>
      unfold Poly.highestPower at hp hq
      split at hq
      · rename_i h0
        rw [h0] at hlen
        rw [List.length_eq_zero_iff.1 hlen] at hp
        cases hp
      · cases hq
    | ok m =>
      obtain ⟨hp1, t, ht, hp2⟩ := Poly.highestPower_eq hp
      obtain ⟨hq1, s, hs, hq2⟩ := Poly.highestPower_eq hq
      obtain ⟨t', ht', _, hk⟩ := canon_mem h ht
      obtain ⟨s', hs', _, hk'⟩ := canon_mem h.symm hs
      have h1 := hq1 t' ht'
      have h2 := hp1 s' hs'
      rw [highestPower_key hk] at h1
      rw [highestPower_key hk'] at h2
      congr 1
      omega

omit [CommRing K] in
theorem eqPy_iff [DecidableEq K] {t s : Term K} :
    t.eqPy s = true ↔ t.const = s.const ∧ t.key = s.key := by
  simp [Term.eqPy, sameFactors_iff, Term.key]

omit [CommRing K] in
theorem canon_eqPy [DecidableEq K] {p q : Poly K} (h : p.canon = q.canon) :
    p.eqPy q = true := by
  simp only [Poly.eqPy, Bool.and_eq_true, List.all_eq_true, List.any_eq_true, eqPy_iff]
  constructor
  · intro t ht
    obtain ⟨s, hs, h1, h2⟩ := canon_mem h ht
    exact ⟨s, hs, h1.symm, h2.symm⟩
  · intro t ht
    obtain ⟨s, hs, h1, h2⟩ := canon_mem h.symm ht
    exact ⟨s, hs, h1.symm, h2.symm⟩

end Gpcm
