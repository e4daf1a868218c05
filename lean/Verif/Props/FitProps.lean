import Verif.Model.Fit
import Mathlib.Algebra.BigOperators.Fin
import Mathlib.Algebra.Order.Chebyshev
import Mathlib.Tactic.Linarith
import Mathlib.Tactic.FieldSimp
import Mathlib.Tactic.Ring

/-! # Properties C30 to C35, C37, C79, C91 and C92: schemes, fitting and options -/

namespace Gpcm.Fit

set_option linter.unusedSectionVars false

/-! ## C30 -/

/-- The documented schemes, with the approximation each stands for. -/
def documented : List (String × Approx) :=
  [("structured", .structured), ("mean-field", .meanField .caCollapsedBfgs), ("mean-field-ca", .meanField .ca),
    ("mean-field-gradient", .meanField .bfgs), ("mean-field-collapsed-gradient", .meanField .collapsedBfgs),
    ("mean-field-ca-gradient", .meanField .caBfgs),
    ("mean-field-ca-collapsed-gradient", .meanField .caCollapsedBfgs)]

theorem toLower_of_not_ascii {c : Char} (h : 128 ≤ c.toNat) : c.toLower = c := by
  unfold Char.toLower
  rw [dif_neg]
  rintro ⟨-, h2⟩
  have : c.val.toNat ≤ 90 := UInt32.le_iff_toNat_le.1 h2
  have h' : 128 ≤ c.val.toNat := h
  omega

theorem Lower.lower_eq_iff (L : Lower) (s name : List Char) (hn : ∀ d ∈ name, d.toNat < 128 ∧ d ≠ 'k') :
    L.lower s = name ↔ s.map Char.toLower = name := by
  have asc : (∀ c ∈ s, c.toNat < 128) → L.lower s = s.map Char.toLower := by
    intro h
    unfold Lower.lower
    induction s with
    | nil => rfl
    | cons c s ih =>
      rw [List.flatMap_cons, L.ascii c (h c (by simp)), ih fun d hd => h d (by simp [hd])]
      rfl
  constructor
  · intro h
    rw [← asc, h]
    intro c hc
    by_contra hc'
    obtain ⟨d, hd, h'⟩ := L.other c (not_lt.1 hc')
    have hd' : d ∈ name := by
      rw [← h]
      exact List.mem_flatMap.2 ⟨c, hc, hd⟩
    rcases h' with h' | h'
    · exact absurd (hn d hd').1 (not_lt.2 h')
    · exact (hn d hd').2 h'
  · intro h
    rw [asc, h]
    intro c hc
    by_contra hc'
    have : c.toLower ∈ name := by
      rw [← h]
      exact List.mem_map_of_mem hc
    rw [toLower_of_not_ascii (not_lt.1 hc')] at this
    exact hc' (hn c this).1

/-- Every documented name consists of ASCII characters other than `k`. -/
theorem documented_ascii : ∀ p ∈ documented, ∀ d ∈ p.1.toList, d.toNat < 128 ∧ d ≠ 'k' := by
  decide

theorem selectScheme_eq (s : List Char) : selectScheme s =
    match documented.find? (fun p => s = p.1.toList) with
    | some p => .ok p.2
    | none => .error .valueError := by
  unfold selectScheme documented
  simp only [List.find?]
  by_cases h1 : s = "structured".toList
  · simp [h1]
  by_cases h2 : s = "mean-field".toList
  · simp [h2]
  by_cases h3 : s = "mean-field-ca".toList
  · simp [h3]
  by_cases h4 : s = "mean-field-gradient".toList
  · simp [h4]
  by_cases h5 : s = "mean-field-collapsed-gradient".toList
  · simp [h5]
  by_cases h6 : s = "mean-field-ca-gradient".toList
  · simp [h6]
  by_cases h7 : s = "mean-field-ca-collapsed-gradient".toList
  · simp [h7]
  simp only [h1, h2, h3, h4, h5, h6, h7, decide_false, if_false]

/-- **C30** Whatever the case of its letters, a documented scheme selects its approximation, and every other
string raises `ValueError`. -/
theorem c30_schemes (L : Lower) (s : String) :
    (∀ p ∈ documented, s.toList.map Char.toLower = p.1.toList → scheme L s = .ok p.2) ∧
      ((∀ p ∈ documented, s.toList.map Char.toLower ≠ p.1.toList) → scheme L s = .error .valueError) := by
  have key : ∀ p ∈ documented, (L.lower s.toList = p.1.toList ↔ s.toList.map Char.toLower = p.1.toList) :=
    fun p hp => L.lower_eq_iff _ _ (documented_ascii p hp)
  unfold scheme
  constructor
  · intro p hp h
    rw [(key p hp).2 h]
    clear h key
    revert p
    decide
  · intro h
    rw [selectScheme_eq, List.find?_eq_none.2]
    intro p hp h'
    exact h p hp ((key p hp).1 (by simpa using h'))

/-- ASCII lower casing, which leaves all other characters alone. -/
def exLower : Lower where
  low c := [c.toLower]
  ascii _ _ := rfl
  other c h := ⟨c.toLower, by simp, .inl (by rw [toLower_of_not_ascii h]; exact h)⟩

example : scheme exLower "Mean-Field-CA" = .ok (.meanField .ca) ∧
    scheme exLower "meanfield" = .error .valueError := by decide

/-! ## C32 -/

/-- The names the documentation of `ignore_qs` promises to ignore; `none` if the value of `current` is not
documented. -/
def promised (i : ℕ) (previous : Bool) (current : Current) : Option (Name → Prop) :=
  let prev : Name → Prop := fun n => previous = true ∧ ∃ j < i, ∃ f, n = .qu j f ∨ n = .qz j f
  match current with
  | .bool true => some fun n => prev n ∨ ∃ f, n = .qu i f ∨ n = .qz i f
  | .bool false => some prev
  | .str s => if s = "u" then some fun n => prev n ∨ ∃ f, n = .qu i f
    else if s = "z" then some fun n => prev n ∨ ∃ f, n = .qz i f else none
  | .other => none

theorem any_prev (i : ℕ) (p : Bool) (n : Name) :
    ((if p then (List.range i).flatMap fun j => [Pat.exU j, Pat.exZ j] else []).any fun q => q.matches n) = true
      ↔ p = true ∧ ∃ j < i, ∃ f, n = .qu j f ∨ n = .qz j f := by
  cases p with
  | false => simp
  | true =>
    simp only [if_true, List.any_eq_true, List.mem_flatMap, List.mem_range, true_and]
    constructor
    · rintro ⟨q, ⟨j, hj, hq⟩, hm⟩
      simp only [List.mem_cons, List.not_mem_nil, or_false] at hq
      rcases hq with rfl | rfl <;> cases n <;> simp [Pat.matches] at hm
      · exact ⟨j, hj, _, .inl (by rw [hm])⟩
      · exact ⟨j, hj, _, .inr (by rw [hm])⟩
    · rintro ⟨j, hj, f, rfl | rfl⟩
      · exact ⟨.exU j, ⟨j, hj, by simp⟩, by simp [Pat.matches]⟩
      · exact ⟨.exZ j, ⟨j, hj, by simp⟩, by simp [Pat.matches]⟩

/-- **C32** For every documented value of `current` other than `False`, an optimiser given the patterns trains
exactly the names that should not be ignored; for undocumented values `ValueError` is raised. -/
theorem c32_partial (i : ℕ) (previous : Bool) (current : Current) (hc : current ≠ .bool false) :
    match promised i previous current with
    | some P => ∃ ps, ignoreQs i (some previous) (some current) = .ok ps ∧ ∀ n, selected ps n = true ↔ ¬ P n
    | none => ignoreQs i (some previous) (some current) = .error .valueError := by
  have hU : ∀ n, (Pat.exU i).matches n = true ↔ ∃ f, n = .qu i f := fun n => by
    cases n <;> simp [Pat.matches, eq_comm]
  have hZ : ∀ n, (Pat.exZ i).matches n = true ↔ ∃ f, n = .qz i f := fun n => by
    cases n <;> simp [Pat.matches, eq_comm]
  have sel : ∀ ps n, selected ps n = true ↔ ¬ (ps.any fun q => q.matches n) = true := fun ps n => by
    simp [selected]
  cases current with
  | bool b =>
    cases b with
    | false => exact absurd rfl hc
    | true =>
      refine ⟨_, rfl, fun n => ?_⟩
      rw [sel, List.any_append, Bool.or_eq_true, any_prev]
      simp only [List.any_cons, List.any_nil, Bool.or_false, Bool.or_eq_true, hU, hZ, exists_or]
  | str s =>
    by_cases h1 : s = "u"
    · subst h1
      simp only [promised, if_true]
      refine ⟨_, rfl, fun n => ?_⟩
      rw [sel, List.any_append, Bool.or_eq_true, any_prev]
      simp only [List.any_cons, List.any_nil, Bool.or_false, hU]
    · by_cases h2 : s = "z"
      · subst h2
        simp only [promised, if_neg h1, if_true]
        refine ⟨_, by simp only [ignoreQs, if_neg h1, if_true]; rfl, fun n => ?_⟩
        rw [sel, List.any_append, Bool.or_eq_true, any_prev]
        simp only [List.any_cons, List.any_nil, Bool.or_false, hZ]
      · simp only [promised, if_neg h1, if_neg h2, ignoreQs]
  | other => rfl

/-- **C32 is false**: `current=False` is documented ("ignore none") but raises `ValueError` at every depth, and
leaving `current` out, as `fit` does, raises `TypeError`. -/
theorem c32_false (i : ℕ) (previous : Bool) : (promised i previous (.bool false)).isSome ∧
    ignoreQs i (some previous) (some (.bool false)) = .error .valueError ∧
    ignoreQs i (some previous) none = .error .typeError := ⟨rfl, rfl, rfl⟩

example : ignoreQs 1 (some true) (some (.str "z")) = .ok [.exU 0, .exZ 0, .exZ 1] := by decide

/-! ## C34 -/

section
variable {S U Z : Type} (su : S → Z → S × U) (sz : S → U → S × Z)

/-- One sweep: `u` given the latest `z`, then `z` given that `u`, threading the random state. -/
def sweep (x : S × U × Z) : S × U × Z :=
  ((sz (su x.1 x.2.2).1 (su x.1 x.2.2).2).1, (su x.1 x.2.2).2, (sz (su x.1 x.2.2).1 (su x.1 x.2.2).2).2)

theorem gibbsLoop_eq (sub : Option ℕ) (k i : ℕ) (x : S × U × Z) : gibbsLoop su sz sub k i x =
    (((sweep su sz)^[k] x).1, ((List.range k).filter fun j => sub = none ∨ ∃ m, sub = some m ∧ (i + j) % m = 0).map
      fun j => ((sweep su sz)^[j + 1] x).2) := by
  induction k generalizing i x with
  | zero => rfl
  | succ k ih =>
    rw [gibbsLoop]
    rw [ih]
    have hx : (sweep su sz)^[k] ((sz (su x.1 x.2.2).1 (su x.1 x.2.2).2).1, (su x.1 x.2.2).2,
        (sz (su x.1 x.2.2).1 (su x.1 x.2.2).2).2) = (sweep su sz)^[k + 1] x := rfl
    have hj : ∀ j, (sweep su sz)^[j + 1] ((sz (su x.1 x.2.2).1 (su x.1 x.2.2).2).1, (su x.1 x.2.2).2,
        (sz (su x.1 x.2.2).1 (su x.1 x.2.2).2).2) = (sweep su sz)^[j + 1 + 1] x := fun _ => rfl
    have e : ((List.range (k + 1)).filter fun j => sub = none ∨ ∃ m, sub = some m ∧ (i + j) % m = 0) =
        (if sub = none ∨ ∃ m, sub = some m ∧ i % m = 0 then [0] else []) ++
          ((List.range k).filter fun j => sub = none ∨ ∃ m, sub = some m ∧ (i + 1 + j) % m = 0).map
            (· + 1) := by
      rw [List.range_succ_eq_map, List.filter_cons, List.filter_map]
      have hc : ((fun j => decide (sub = none ∨ ∃ m, sub = some m ∧ (i + j) % m = 0)) ∘ Nat.succ) =
          fun j => decide (sub = none ∨ ∃ m, sub = some m ∧ (i + 1 + j) % m = 0) := by
        funext j
        have : i + Nat.succ j = i + 1 + j := by omega
        simp only [Function.comp, this]
      rw [hc, Nat.add_zero]
      split <;> simp_all
    rw [e, List.map_append, List.map_map]
    simp only [hx, hj, Function.comp_def]
    split
    · rfl
    · rfl

/-- **C34** The returned state is that after all sweeps and the kept samples are those after the sweeps whose
index is a multiple of the subsampling factor. -/
theorem c34_gibbs_sample (sub : Option ℕ) (k : ℕ) (x : S × U × Z) : gibbsLoop su sz sub k 0 x =
    (((sweep su sz)^[k] x).1, ((List.range k).filter fun j => sub = none ∨ ∃ m, sub = some m ∧ j % m = 0).map
      fun j => ((sweep su sz)^[j + 1] x).2) := by
  rw [gibbsLoop_eq]
  simp only [Nat.zero_add]

/-- **C34** The Gibbs samples for the gradients are the same chain. -/
theorem c34_elbo_gibbs (k : ℕ) (x : S × U × Z) : elboGibbsLoop su sz k x = (sweep su sz)^[k] x := by
  induction k generalizing x with
  | zero => rfl
  | succ k ih =>
    rw [elboGibbsLoop]
    rw [ih]
    rfl

/-- **C34** A chain can be continued: sampling on from the last state and samples gives the chain of one
long run. -/
theorem c34_resume (k l : ℕ) (x : S × U × Z) : gibbsLoop su sz none (k + l) 0 x =
    ((gibbsLoop su sz none l 0 ((sweep su sz)^[k] x)).1, (gibbsLoop su sz none k 0 x).2 ++
      (gibbsLoop su sz none l 0 ((sweep su sz)^[k] x)).2) := by
  simp only [c34_gibbs_sample, true_or, decide_true, List.filter_true]
  rw [List.range_add, List.map_append, List.map_map, ← Function.iterate_add_apply, Nat.add_comm l k]
  congr 2
  refine List.map_congr_left fun j _ => ?_
  rw [Function.comp, ← Function.iterate_add_apply]
  congr 2
  omega

theorem filter_multiples (m n : ℕ) (hm : 0 < m) :
    (List.range (n * m)).filter (fun j => some m = none ∨ ∃ l, some m = some l ∧ j % l = 0) =
      (List.range n).map (· * m) := by
  have e : ∀ j : ℕ, (some m = none ∨ ∃ l, some m = some l ∧ j % l = 0) ↔ j % m = 0 := fun j => by simp
  simp only [e]
  induction n with
  | zero => simp
  | succ n ih =>
    rw [Nat.succ_mul, List.range_add, List.filter_append, ih, List.range_succ, List.map_append]
    congr 1
    obtain ⟨m, rfl⟩ : ∃ k, m = k + 1 := ⟨m - 1, by omega⟩
    rw [List.range_succ_eq_map, List.map_cons, List.filter_cons]
    simp only [Nat.add_zero, Nat.mul_mod_left, decide_true, if_true, List.map_map, List.map_cons, List.map_nil]
    rw [List.filter_eq_nil_iff.2]
    intro a ha
    obtain ⟨j, hj, rfl⟩ := List.mem_map.1 ha
    have hj := List.mem_range.1 hj
    simp only [Function.comp, Nat.succ_eq_add_one, decide_eq_true_eq]
    rw [Nat.mul_comm, Nat.mul_add_mod, Nat.mod_eq_of_lt (by omega)]
    omega

/-- **C33** With subsampling by `m`, running `m` thousand sweeps keeps exactly one thousand samples, one every `m`
sweeps. -/
theorem c33_thousand (m : ℕ) (hm : 0 < m) (x : S × U × Z) :
    (gibbsLoop su sz (some m) (m * 1000) 0 x).2 =
      (List.range 1000).map fun j => ((sweep su sz)^[j * m + 1] x).2 := by
  rw [c34_gibbs_sample, Nat.mul_comm m]
  simp only
  rw [filter_multiples m 1000 hm, List.map_map]
  rfl

end

/-! ## C33 -/

section
variable {V D S U Z : Type} (B : Backend V D S U Z)

/-- Reading a touched name. -/
theorem touchQ_other (i : ℕ) (s : Store V) (n : Name) (h : (s n).isSome ∨ ∀ f, n ≠ .qu i f ∧ n ≠ .qz i f) :
    touchQ B i s n = s n := by
  have t : ∀ (s : Store V) (m : Name) (v : V), ((s n).isSome ∨ n ≠ m) → s.touch m v n = s n := by
    intro s m v h
    unfold Store.touch
    rw [if_neg]
    rintro ⟨rfl, h0⟩
    rcases h with h | h
    · rw [h0] at h; simp at h
    · exact h rfl
  unfold touchQ
  rcases h with h | h
  · have t' : ∀ (s' : Store V) (m : Name) (v : V), s' n = s n → s'.touch m v n = s n :=
      fun s' m v e => by rw [t s' m v (.inl (by rw [e]; exact h)), e]
    exact t' _ _ _ (t' _ _ _ (t' _ _ _ (t' _ _ _ rfl)))
  · rw [t _ _ _ (.inr (h .prec).2), t _ _ _ (.inr (h .lam).2), t _ _ _ (.inr (h .prec).1),
      t _ _ _ (.inr (h .lam).1)]

/-- **C33** With at least two iterations (and, if the number of hyper-parameter iterations is derived from it, a
non-zero `num_samples`) the fit succeeds, and for each factor stores one thousand samples of a single
Gibbs chain at regular spacing. -/
theorem c33_stored (i : ℕ) (d : D) (iters : ℤ) (opt : OptHypers) (num : ℤ) (s : Store V) (hi : 2 ≤ iters)
    (hn : num ≠ 0 ∨ opt = .bool false ∨ ∃ n, opt = .int n) :
    ∃ (s' : Store V) (x : S × U × Z),
      (fitStructured B i d iters opt num s).2 = .ok () ∧
      (fitStructured B i d iters opt num s).1 (.qu i .samples) = some (B.stackU ((List.range 1000).map fun j =>
        ((sweep (B.condU s' i d) (B.condZ s' i d))^[j * (max 1 (iters / 1000)).toNat + 1] x).2.1)) ∧
      (fitStructured B i d iters opt num s).1 (.qz i .samples) = some (B.stackZ ((List.range 1000).map fun j =>
        ((sweep (B.condU s' i d) (B.condZ s' i d))^[j * (max 1 (iters / 1000)).toNat + 1] x).2.2)) := by
  have hth : (if 1000 < iters then iters / 1000 else 1) = max 1 (iters / 1000) := by
    split <;> omega
  obtain ⟨m, hm⟩ : ∃ m : ℕ, max 1 (iters / 1000) = m := ⟨(max 1 (iters / 1000)).toNat, by omega⟩
  have hm0 : 0 < m := by omega
  have h1000 : ((m : ℤ) * 1000).toNat = m * 1000 := by omega
  unfold fitStructured
  simp only [hth, hm, Int.toNat_natCast, h1000]
  generalize touchQ B i (B.instantiate s) = s1
  generalize B.drawU s1 i B.seed = u0
  generalize B.drawZ s1 i u0.1 = z0
  obtain ⟨k, hk⟩ : ∃ k : ℕ, (iters / 2).toNat = k + 1 := ⟨(iters / 2).toNat - 1, by omega⟩
  have hlast : ∃ p, (gibbsLoop (B.condU s1 i d) (B.condZ s1 i d) none (iters / 2).toNat 0
      (z0.1, u0.2, z0.2)).2.getLast? = some p := by
    rw [c34_gibbs_sample, hk]
    simp only [true_or, decide_true, List.filter_true]
    rw [List.range_succ, List.map_append]
    simp
  obtain ⟨⟨u, z⟩, hp⟩ := hlast
  rw [hp]
  simp only
  generalize (gibbsLoop (B.condU s1 i d) (B.condZ s1 i d) none (iters / 2).toNat 0
      (z0.1, u0.2, z0.2)).1 = st
  have hyp : ∃ s2 x, fitHypers B i d iters opt num s1 (st, u, z) = (s2, .ok x) := by
    unfold fitHypers
    cases opt with
    | bool b =>
      cases b with
      | false => exact ⟨_, _, rfl⟩
      | true =>
        have hn0 : num ≠ 0 := by rcases hn with h | h | ⟨n, h⟩ <;> simp_all
        simp only [OptHypers.truthy, if_true, hyperIters, if_neg hn0]
        exact ⟨_, _, rfl⟩
    | int n =>
      by_cases h0 : n = 0
      · subst h0; exact ⟨_, _, rfl⟩
      · simp only [OptHypers.truthy, ne_eq, h0, not_false_eq_true, decide_true, if_true,
          hyperIters]
        exact ⟨_, _, rfl⟩
  obtain ⟨s2, x, hx⟩ := hyp
  rw [hx]
  simp only
  refine ⟨B.instantiate s2, x, trivial, ?_, ?_⟩
  · simp only [Store.set, reduceCtorEq, if_false, if_true]
    rw [c33_thousand _ _ m hm0, List.map_map]
    rfl
  · simp only [Store.set, if_true]
    rw [c33_thousand _ _ m hm0, List.map_map]
    rfl

/-- How many iterations of the optimiser the option `optimise_hypers` asks for, if any. -/
def Spec.hyperIterations (iters num : ℤ) : OptHypers → Option ℤ
  | .bool false => none
  | .bool true => some (iters / num)
  | .int n => if n = 0 then none else some n

/-- **C33** The hyper-parameters after a structured fit are those that the optimiser returns after the number of iterations that was
asked for: a number if a number is given, and otherwise the budget divided by the number of samples per estimate. With
`False` or zero they are left alone. -/
theorem c33_hypers (i : ℕ) (d : D) (iters : ℤ) (opt : OptHypers) (num : ℤ) (s : Store V) (hi : 2 ≤ iters) (hn : num ≠ 0)
    {ps : List Pat} (hp : ignoreQs i (some true) (some (.bool true)) = .ok ps) (n : String) :
    (fitStructured B i d iters opt num s).1 (.hyper n) =
      match Spec.hyperIterations iters num opt with
      | none => B.instantiate (touchQ B i (B.instantiate s)) (.hyper n)
      | some k => B.instantiate (B.optimise (selected ps) (touchPU B i (B.instantiate (touchQ B i (B.instantiate s)))) d k)
          (.hyper n) := by
  unfold fitStructured
  dsimp only
  generalize touchQ B i (B.instantiate s) = s1
  generalize B.drawU s1 i B.seed = u0
  generalize B.drawZ s1 i u0.1 = z0
  obtain ⟨k, hk⟩ : ∃ k : ℕ, (iters / 2).toNat = k + 1 := ⟨(iters / 2).toNat - 1, by omega⟩
  have hlast : ∃ p, (gibbsLoop (B.condU s1 i d) (B.condZ s1 i d) none (iters / 2).toNat 0
      (z0.1, u0.2, z0.2)).2.getLast? = some p := by
    rw [c34_gibbs_sample, hk]
    simp only [true_or, decide_true, List.filter_true]
    rw [List.range_succ, List.map_append]
    simp
  obtain ⟨⟨u, z⟩, hl⟩ := hlast
  simp only [hl]
  generalize (gibbsLoop (B.condU s1 i d) (B.condZ s1 i d) none (iters / 2).toNat 0
      (z0.1, u0.2, z0.2)).1 = st
  have hyp : ∃ x, fitHypers B i d iters opt num s1 (st, u, z) = (match Spec.hyperIterations iters num opt with
      | none => s1
      | some k => B.optimise (selected ps) (touchPU B i (B.instantiate s1)) d k, .ok x) := by
    unfold fitHypers
    cases opt with
    | bool b =>
      cases b with
      | false => exact ⟨_, rfl⟩
      | true =>
        simp only [OptHypers.truthy, if_true, hyperIters, if_neg hn, hp, Spec.hyperIterations]
        exact ⟨_, rfl⟩
    | int n =>
      by_cases h0 : n = 0
      · subst h0; exact ⟨_, rfl⟩
      · simp only [OptHypers.truthy, ne_eq, h0, not_false_eq_true, decide_true, if_true, hyperIters, hp,
          Spec.hyperIterations, if_false]
        exact ⟨_, rfl⟩
  obtain ⟨x, hx⟩ := hyp
  rw [hx]
  simp only [Store.set, reduceCtorEq, if_false]
  cases Spec.hyperIterations iters num opt <;> rfl

example : Spec.hyperIterations 5000 5 (.bool true) = some 1000 ∧ Spec.hyperIterations 5000 5 (.int 30) = some 30 ∧
    Spec.hyperIterations 5000 5 (.int 0) = none ∧ ignoreQs 0 (some true) (some (.bool true)) ≠ .error .valueError := by
  decide

/-- **C33** With fewer than two iterations the fit raises `IndexError`, and no samples have been stored. -/
theorem c33_few (i : ℕ) (d : D) (iters : ℤ) (opt : OptHypers) (num : ℤ) (s : Store V) (hi : iters < 2) :
    (fitStructured B i d iters opt num s).2 = .error .indexError ∧
      ∀ j, (fitStructured B i d iters opt num s).1 (.qu j .samples) = s (.qu j .samples) ∧
        (fitStructured B i d iters opt num s).1 (.qz j .samples) = s (.qz j .samples) := by
  have h0 : (iters / 2).toNat = 0 := by omega
  have e : fitStructured B i d iters opt num s = (touchQ B i (B.instantiate s), .error .indexError) := by
    unfold fitStructured
    simp only [h0, gibbsLoop, List.getLast?_nil]
  rw [e]
  refine ⟨rfl, fun j => ?_⟩
  have t : ∀ n : Name, (∀ h, n ≠ .hyper h) → (∀ i, n ≠ .qu i .lam ∧ n ≠ .qu i .prec ∧ n ≠ .qz i .lam ∧
      n ≠ .qz i .prec) → touchQ B i (B.instantiate s) n = s n := by
    intro n h1 h2
    simp only [touchQ, Store.touch, (h2 i).1, (h2 i).2.1, (h2 i).2.2.1, (h2 i).2.2.2, false_and, if_false]
    exact B.instantiate_frame s n (.inr h1)
  exact ⟨t (.qu j .samples) (by simp) (by simp), t (.qz j .samples) (by simp) (by simp)⟩

/-! ## C35 and C91 -/

/-- A name of an earlier posterior. -/
def Earlier (i : ℕ) (n : Name) : Prop := ∃ j < i, ∃ f, n = .qu j f ∨ n = .qz j f

theorem Earlier.ne {i : ℕ} {n : Name} (h : Earlier i n) : (∀ s, n ≠ .hyper s) ∧ ∀ f, n ≠ .qu i f ∧ n ≠ .qz i f := by
  obtain ⟨j, hj, f, rfl | rfl⟩ := h
  · exact ⟨by simp, fun g => ⟨fun h => by simp at h; omega, by simp⟩⟩
  · exact ⟨by simp, fun g => ⟨by simp, fun h => by simp at h; omega⟩⟩

/-- The patterns that `fit` uses never select an earlier posterior. -/
theorem earlier_not_selected {i : ℕ} {n : Name} (h : Earlier i n) {c : Current} {ps : List Pat}
    (hp : ignoreQs i (some true) (some c) = .ok ps) : selected ps n = false := by
  have h1 : ((List.range i).flatMap fun j => [Pat.exU j, Pat.exZ j]).any (fun q => q.matches n) = true := by
    have := (any_prev i true n).2 ⟨rfl, h⟩
    simpa using this
  have h2 : ∃ rest, ps = (List.range i).flatMap (fun j => [Pat.exU j, Pat.exZ j]) ++ rest := by
    unfold ignoreQs at hp
    simp only [if_true] at hp
    split at hp
    · exact ⟨_, (Except.ok.inj hp).symm⟩
    · split at hp
      · exact ⟨_, (Except.ok.inj hp).symm⟩
      · split at hp
        · exact ⟨_, (Except.ok.inj hp).symm⟩
        · simp at hp
    · simp at hp
  obtain ⟨rest, rfl⟩ := h2
  simp [selected, h1]

variable {B}

theorem touchP_some (i : ℕ) (s : Store V) (n : Name) (h : (s n).isSome) : touchP B i s n = s n := by
  unfold touchP
  split
  · rfl
  · exact touchQ_other B _ _ _ (.inl h)

theorem touchPU_some (i : ℕ) (s : Store V) (n : Name) (h : (s n).isSome) : touchPU B i s n = s n := by
  have key : ∀ (s : Store V) (a : Name) (v : V), (s n).isSome → s.touch a v n = s n := by
    intro s a v h
    unfold Store.touch
    split
    · rename_i e
      obtain ⟨rfl, e⟩ := e
      simp [e] at h
    · rfl
  unfold touchPU
  split
  · rfl
  · rw [key _ _ _ (by rw [key _ _ _ h]; exact h), key _ _ _ h]

theorem fitCA_earlier {i : ℕ} {n : Name} (h : Earlier i n) (d : D) (k : ℤ) (s : Store V) :
    fitCA B i d k s n = s n := by
  have h' := h.ne.2
  simp only [fitCA, Store.set, (h' .lam).1, (h' .prec).1, (h' .lam).2, (h' .prec).2, if_false]
  rw [touchQ_other B i _ n (.inr h'), B.instantiate_frame s n (.inr h.ne.1)]

theorem fitMeanField_earlier {i : ℕ} {n : Name} (h : Earlier i n) (f : MF) (d : D) (k : ℤ) (s : Store V)
    (hs : (s n).isSome) : (fitMeanField B f i d k s).1 n = s n := by
  have h' := h.ne.2
  have inst : ∀ s : Store V, B.instantiate s n = s n := fun s => B.instantiate_frame s n (.inr h.ne.1)
  have coll : ∀ (b : Bool), (fitMeanField B (if b then .caCollapsedBfgs else .collapsedBfgs) i d k s).1 n = s n := by
    intro b
    have hif : ∀ s : Store V, (if b then fitCA B i d k s else s) n = s n := fun s => by
      cases b
      · rfl
      · exact fitCA_earlier h d k s
    have hstep : ∀ ps, ignoreQs i (some true) (some (.str "z")) = .ok ps →
        (B.optimise (selected ps) (touchQ B i (touchP B i (B.instantiate (if b then fitCA B i d k s else s))))
          d (k / 5)) n = s n := by
      intro ps hps
      rw [B.optimise_frame _ _ _ _ _ (earlier_not_selected h hps), touchQ_other B i _ n (.inr h'), touchP_some,
        inst, hif]
      rw [inst, hif]
      exact hs
    obtain ⟨ps, hps⟩ : ∃ ps, ignoreQs i (some true) (some (.str "z")) = .ok ps := ⟨_, rfl⟩
    have := hstep ps hps
    cases b
    · simp only [fitMeanField, hps, Bool.false_eq_true, if_false, reduceCtorEq] at this ⊢
      simp only [Store.set, (h' .lam).2, (h' .prec).2, if_false]
      rw [touchQ_other B i _ n (.inr h'), inst, this]
    · simp only [fitMeanField, hps, if_true] at this ⊢
      rw [fitCA_earlier h]
      simp only [Store.set, (h' .lam).2, (h' .prec).2, if_false]
      rw [touchQ_other B i _ n (.inr h'), inst, this]
  cases f with
  | ca => exact fitCA_earlier h d k s
  | bfgs => exact inst s
  | collapsedBfgs => exact coll false
  | caCollapsedBfgs => exact coll true
  | caBfgs => rfl

theorem fitHypers_earlier {i : ℕ} {n : Name} (h : Earlier i n) (d : D) (iters : ℤ) (opt : OptHypers) (num : ℤ)
    (s : Store V) (x : S × U × Z) (hs : (s n).isSome) : (fitHypers B i d iters opt num s x).1 n = s n := by
  unfold fitHypers
  split
  · simp only
    generalize hyperIters iters opt num = ih
    cases ih with
    | error e => rfl
    | ok k =>
      simp only
      obtain ⟨ps, hps⟩ : ∃ ps, ignoreQs i (some true) (some (.bool true)) = .ok ps := ⟨_, rfl⟩
      rw [hps]
      simp only
      have inst : B.instantiate s n = s n := B.instantiate_frame s n (.inr h.ne.1)
      rw [B.optimise_frame _ _ _ _ _ (earlier_not_selected h hps), touchPU_some _ _ _ (by rw [inst]; exact hs), inst]
  · rfl

theorem fitStructured_earlier {i : ℕ} {n : Name} (h : Earlier i n) (d : D) (iters : ℤ) (opt : OptHypers) (num : ℤ)
    (s : Store V) (hs : (s n).isSome) : (fitStructured B i d iters opt num s).1 n = s n := by
  have inst : ∀ s : Store V, B.instantiate s n = s n := fun s => B.instantiate_frame s n (.inr h.ne.1)
  have h1 : touchQ B i (B.instantiate s) n = s n := by rw [touchQ_other B i _ n (.inr h.ne.2), inst]
  unfold fitStructured
  simp only
  generalize touchQ B i (B.instantiate s) = s1 at h1 ⊢
  split
  · exact h1
  · rename_i u z hp
    have h2 := fitHypers_earlier (B := B) h d iters opt num s1
      ((gibbsLoop (B.condU s1 i d) (B.condZ s1 i d) none (iters / 2).toNat 0
        ((B.drawZ s1 i (B.drawU s1 i B.seed).1).1, (B.drawU s1 i B.seed).2,
          (B.drawZ s1 i (B.drawU s1 i B.seed).1).2)).1, u, z) (by rw [h1]; exact hs)
    split
    · rename_i s2 e he
      rw [he] at h2
      rw [← h1, ← h2]
    · rename_i s2 x he
      rw [he] at h2
      simp only [Store.set, (h.ne.2 .samples).1, (h.ne.2 .samples).2, if_false]
      rw [inst, ← h1, ← h2]

/-- **C35** A fit at depth `i` keeps the variables of all earlier posteriors, whether it succeeds or not, under every
scheme and all options. -/
theorem c35_fit (a : Approx) (kw : Kw) (d : D) (m : State V) (n : Name) (h : Earlier m.depth n)
    (hs : (m.store n).isSome) : (fit B a kw d m).1.depth = m.depth ∧ (fit B a kw d m).1.store n = m.store n := by
  unfold fit
  cases a with
  | structured => exact ⟨rfl, fitStructured_earlier h _ _ _ _ _ hs⟩
  | meanField f =>
    simp only
    split
    · exact ⟨rfl, B.instantiate_frame _ n (.inr h.ne.1)⟩
    · exact ⟨rfl, fitMeanField_earlier h _ _ _ _ hs⟩

/-- **C35** The same for every sequence of operations: once the model has been conditioned on, a posterior never
changes again. -/
theorem c35_history (a : Approx) (ops : List (Op D)) (m : State V) (n : Name) (h : Earlier m.depth n)
    (hs : (m.store n).isSome) : (ops.foldl (Op.run B a) m).store n = m.store n := by
  induction ops generalizing m with
  | nil => rfl
  | cons o ops ih =>
    have step : m.depth ≤ (Op.run B a m o).depth ∧ (Op.run B a m o).store n = m.store n := by
      have inst : B.instantiate m.store n = m.store n := B.instantiate_frame _ n (.inr h.ne.1)
      cases o with
      | fit kw d =>
        obtain ⟨h1, h2⟩ := c35_fit (B := B) a kw d m n h hs
        exact ⟨h1.ge, h2⟩
      | condition => exact ⟨Nat.le_succ _, inst⟩
      | elbo d =>
        cases a with
        | structured =>
          refine ⟨le_rfl, ?_⟩
          show touchPU B m.depth (fitCA B m.depth d 5000 m.store) n = _
          rw [touchPU_some _ _ _ (by rw [fitCA_earlier h]; exact hs), fitCA_earlier h]
        | meanField f =>
          refine ⟨le_rfl, ?_⟩
          show touchQ B m.depth (touchP B m.depth (B.instantiate m.store)) n = _
          rw [touchQ_other B _ _ n (.inr h.ne.2), touchP_some _ _ _ (by rw [inst]; exact hs), inst]
      | read =>
        refine ⟨le_rfl, ?_⟩
        show touchQ B m.depth (touchP B m.depth (B.instantiate m.store)) n = _
        rw [touchQ_other B _ _ n (.inr h.ne.2), touchP_some _ _ _ (by rw [inst]; exact hs), inst]
    rw [List.foldl_cons, ih _ _ (by rw [step.2]; exact hs), step.2]
    obtain ⟨j, hj, f, hf⟩ := h
    exact ⟨j, lt_of_lt_of_le hj step.1, f, hf⟩

/-- **C35** The current prior is the previous posterior. -/
theorem c35_prior (i : ℕ) : priorNamesU 0 = none ∧ priorNamesZ 0 = none ∧
    priorNamesU (i + 1) = some (.qu i .lam, .qu i .prec) ∧ priorNamesZ (i + 1) = some (.qz i .lam, .qz i .prec) :=
  ⟨rfl, rfl, rfl, rfl⟩

variable (B)

/-- A backend in which training adds one to every number it may change. -/
def exBackend : Backend ℕ ℕ Unit ℕ ℕ where
  init _ := 7
  instantiate s n := match s n, n with
    | none, .hyper "noise" => some 1
    | v, _ => v
  instantiate_frame s n h := by
    cases hn : s n with
    | some v => simp
    | none =>
      cases n with
      | hyper t =>
        rcases h with h | h
        · simp [hn] at h
        · exact absurd rfl (h t)
      | qu => rfl
      | qz => rfl
  optimise sel s d _ n := if sel n then (s n).map (· + d) else s n
  optimise_frame sel s d k n h := by simp [h]
  ca _ i d _ := ((i, d), (i + 1, d + 1))
  qzOpt _ i d := (i, d)
  seed := ()
  drawU _ _ s := (s, 0)
  drawZ _ _ s := (s, 0)
  condU _ _ d s z := (s, z + d)
  condZ _ _ _ s u := (s, u + 1)
  adam _ _ _ _ x := x
  stackU := List.sum
  stackZ := List.sum

example : Earlier 1 (.qu 0 .lam) ∧
    ((fit exBackend (.meanField .ca) { iters := some 3 } 5 ⟨0, fun _ => none⟩).1.store (.qu 0 .lam)).isSome := by
  exact ⟨⟨0, by omega, .lam, .inl rfl⟩, rfl⟩

/-- The posterior parameters of depth `i` are those that the structured fit found when it started. -/
theorem fitStructured_params (i : ℕ) (d : D) (iters : ℤ) (opt : OptHypers) (num : ℤ) (s : Store V) (f : Field)
    (hf : f ≠ .samples) :
    (fitStructured B i d iters opt num s).1 (.qu i f) = some ((s (.qu i f)).getD (B.init (.qu i f))) := by
  have inst : ∀ s : Store V, B.instantiate s (.qu i f) = s (.qu i f) :=
    fun s => B.instantiate_frame s _ (.inr (by simp))
  have h1 : touchQ B i (B.instantiate s) (.qu i f) = some ((s (.qu i f)).getD (B.init (.qu i f))) := by
    have hi := inst s
    cases f with
    | samples => exact absurd rfl hf
    | lam =>
      cases hs : s (.qu i .lam) <;> simp [touchQ, Store.touch, hi, hs]
    | prec =>
      cases hs : s (.qu i .prec) <;> simp [touchQ, Store.touch, hi, hs]
  have sel : ∀ ps, ignoreQs i (some true) (some (.bool true)) = .ok ps → selected ps (.qu i f) = false := by
    intro ps hps
    have hps := (Except.ok.inj hps).symm
    subst hps
    simp [selected, Pat.matches]
  unfold fitStructured
  simp only
  generalize touchQ B i (B.instantiate s) = s1 at h1 ⊢
  have hyp : ∀ x : S × U × Z, (fitHypers B i d iters opt num s1 x).1 (.qu i f) = s1 (.qu i f) := by
    intro x
    unfold fitHypers
    split
    · simp only
      generalize hyperIters iters opt num = ih
      cases ih with
      | error e => rfl
      | ok k =>
        simp only
        obtain ⟨ps, hps⟩ : ∃ ps, ignoreQs i (some true) (some (.bool true)) = .ok ps := ⟨_, rfl⟩
        rw [hps]
        simp only
        rw [B.optimise_frame _ _ _ _ _ (sel ps hps), touchPU_some, inst]
        rw [inst, h1]
        rfl
    · rfl
  split
  · exact h1
  · rename_i u z hp
    have h2 := hyp ((gibbsLoop (B.condU s1 i d) (B.condZ s1 i d) none (iters / 2).toNat 0
        ((B.drawZ s1 i (B.drawU s1 i B.seed).1).1, (B.drawU s1 i B.seed).2,
          (B.drawZ s1 i (B.drawU s1 i B.seed).1).2)).1, u, z)
    split
    · rename_i s2 e he
      rw [he] at h2
      rw [← h1, ← h2]
    · rename_i s2 x he
      rw [he] at h2
      have n1 : (Name.qu i f) ≠ .qz i .samples := by simp
      have n2 : (Name.qu i f) ≠ .qu i .samples := by simpa using hf
      simp only [Store.set, n1, n2, if_false]
      rw [inst, ← h1, ← h2]

/-- **C91 is false**: after a structured fit and conditioning, the prior for `u` from which `predict_filter`
samples has the parameters with which the posterior was initialised, whatever the data and the options. -/
theorem c91_false (kw : Kw) (d : D) (m : State V) (hm : m.store (.qu m.depth .lam) = none)
    (hp : m.store (.qu m.depth .prec) = none) :
    priorNamesU (condition B (fit B .structured kw d m).1).depth = some (.qu m.depth .lam, .qu m.depth .prec) ∧
      (condition B (fit B .structured kw d m).1).store (.qu m.depth .lam) = some (B.init (.qu m.depth .lam)) ∧
      (condition B (fit B .structured kw d m).1).store (.qu m.depth .prec) =
        some (B.init (.qu m.depth .prec)) := by
  have inst : ∀ (s : Store V) f, B.instantiate s (.qu m.depth f) = s (.qu m.depth f) :=
    fun s f => B.instantiate_frame s _ (.inr (by simp))
  refine ⟨rfl, ?_, ?_⟩
  · show B.instantiate (fitStructured B m.depth d _ _ _ m.store).1 _ = _
    rw [inst, fitStructured_params B _ _ _ _ _ _ _ (by simp), hm]
    rfl
  · show B.instantiate (fitStructured B m.depth d _ _ _ m.store).1 _ = _
    rw [inst, fitStructured_params B _ _ _ _ _ _ _ (by simp), hp]
    rfl

/-- **C91** Under coordinate ascent the prior for `u` after conditioning is the fitted posterior. -/
theorem c91_mean_field_partial (iters : Option ℤ) (d : D) (m : State V) : ∃ s : Store V,
    priorNamesU (condition B (fit B (.meanField .ca) { iters := iters } d m).1).depth =
        some (.qu m.depth .lam, .qu m.depth .prec) ∧
      (condition B (fit B (.meanField .ca) { iters := iters } d m).1).store (.qu m.depth .lam) =
        some (B.ca s m.depth d (iters.getD 5000)).1.1 ∧
      (condition B (fit B (.meanField .ca) { iters := iters } d m).1).store (.qu m.depth .prec) =
        some (B.ca s m.depth d (iters.getD 5000)).1.2 := by
  have inst : ∀ (s : Store V) f, B.instantiate s (.qu m.depth f) = s (.qu m.depth f) :=
    fun s f => B.instantiate_frame s _ (.inr (by simp))
  refine ⟨touchQ B m.depth (B.instantiate m.store), rfl, ?_, ?_⟩
  · show B.instantiate (fitCA B m.depth d _ m.store) _ = _
    rw [inst]
    simp [fitCA, Store.set]
  · show B.instantiate (fitCA B m.depth d _ m.store) _ = _
    rw [inst]
    simp [fitCA, Store.set]

example (kw : Kw) (d : ℕ) :
    (condition exBackend (fit exBackend .structured kw d ⟨0, fun _ => none⟩).1).store (.qu 0 .lam) =
      some 7 := (c91_false exBackend kw d ⟨0, fun _ => none⟩ rfl rfl).2.1

/-! ## C92 -/

/-- **C92** Computing a mean-field bound changes no variable that exists. -/
theorem c92_mean_field_partial (f : MF) (d : D) (m : State V) (n : Name) (h : (m.store n).isSome) :
    (elbo B (.meanField f) d m).store n = m.store n := by
  have inst : B.instantiate m.store n = m.store n := B.instantiate_frame _ n (.inl h)
  have hp : touchP B m.depth (B.instantiate m.store) n = m.store n := by
    rw [touchP_some _ _ _ (by rw [inst]; exact h), inst]
  show touchQ B m.depth (touchP B m.depth (B.instantiate m.store)) n = _
  rw [touchQ_other B _ _ n (.inl (by rw [hp]; exact h)), hp]

/-- **C92** Computing the structured bound changes, among the variables that exist, at most the parameters of the
current posteriors. -/
theorem c92_structured_partial (d : D) (m : State V) (n : Name) (h : (m.store n).isSome)
    (hn : ∀ f, f ≠ .samples → n ≠ .qu m.depth f ∧ n ≠ .qz m.depth f) :
    (elbo B .structured d m).store n = m.store n := by
  have inst : B.instantiate m.store n = m.store n := B.instantiate_frame _ n (.inl h)
  have e : fitCA B m.depth d 5000 m.store n = m.store n := by
    have h1 := hn .lam (by simp)
    have h2 := hn .prec (by simp)
    simp only [fitCA, Store.set, h1.1, h1.2, h2.1, h2.2, if_false]
    rw [touchQ_other B _ _ n (.inl (by rw [inst]; exact h)), inst]
  show touchPU B m.depth (fitCA B m.depth d 5000 m.store) n = _
  rw [touchPU_some _ _ _ (by rw [e]; exact h), e]

/-- **C92 is false**: computing the structured bound overwrites the parameters of the current posterior. -/
theorem c92_false : ∃ (B : Backend ℕ ℕ Unit ℕ ℕ) (m : State ℕ) (d : ℕ), (m.store (.qu 0 .prec)).isSome ∧
    (elbo B .structured d m).store (.qu 0 .prec) ≠ m.store (.qu 0 .prec) := by
  refine ⟨exBackend, ⟨0, fun _ => some 7⟩, 3, rfl, ?_⟩
  show some 3 ≠ some 7
  decide

/-! ## C31 -/

/-- **C31** Under the structured scheme (with at least two iterations), coordinate ascent and the collapsed
schemes, `fit` runs to completion in every state. -/
theorem c31_completes_partial (d : D) (m : State V) (iters : Option ℤ) :
    (2 ≤ iters.getD 5000 → (fit B .structured { iters := iters } d m).2 = .ok ()) ∧
      ∀ f, f ≠ .bfgs → f ≠ .caBfgs → (fit B (.meanField f) { iters := iters } d m).2 = .ok () := by
  constructor
  · intro h
    obtain ⟨-, -, h, -⟩ := c33_stored B m.depth d (iters.getD 5000) (.bool true) 5 m.store h (.inl (by norm_num))
    exact h
  · intro f h1 h2
    cases f with
    | ca => rfl
    | bfgs => exact absurd rfl h1
    | collapsedBfgs => rfl
    | caBfgs => exact absurd rfl h2
    | caCollapsedBfgs => rfl

/-- **C31 is false**: two documented schemes cannot be fitted, in any state, with any data and options. -/
theorem c31_false (L : Lower) (kw : Kw) (d : D) (m : State V) :
    (∃ a, scheme L "mean-field-gradient" = .ok a ∧ (fit B a kw d m).2 = .error .typeError) ∧
      ∃ a e, scheme L "mean-field-ca-gradient" = .ok a ∧ (fit B a kw d m).2 = .error e := by
  constructor
  · refine ⟨.meanField .bfgs, (c30_schemes L _).1 ("mean-field-gradient", _) (by simp [documented]) (by decide), ?_⟩
    simp only [fit]
    split <;> rfl
  · refine ⟨.meanField .caBfgs, ?_⟩
    have hs := (c30_schemes L "mean-field-ca-gradient").1 ("mean-field-ca-gradient", .meanField .caBfgs)
      (by simp [documented]) (by decide)
    simp only [fit]
    split
    · exact ⟨_, hs, rfl⟩
    · exact ⟨.valueError, hs, rfl⟩

example : (fit exBackend (.meanField .caCollapsedBfgs) {} 5 ⟨2, fun _ => none⟩).2 = .ok () := rfl

/-! ## C79 -/

/-- **C79** What is passed on: `fix_hypers` as `optimise_hypers=False`, and a non-zero `iters`; nothing else. -/
theorem c79_config_partial (a : Args) : (trainConfig a).rate = none ∧ (trainConfig a).numSamples = none ∧
    (trainConfig a).optimiseHypers = (if a.fixHypers then some (.bool false) else none) ∧
    (a.iters ≠ some 0 → (trainConfig a).iters = a.iters) := by
  refine ⟨rfl, rfl, rfl, fun h => ?_⟩
  obtain ⟨it, fh⟩ := a
  cases it with
  | none => rfl
  | some n =>
    simp only [trainConfig]
    rw [if_neg]
    rintro rfl
    exact h rfl

/-- **C79** The structured scheme accepts every configuration: an exception can only be the `IndexError` for too few
iterations. -/
theorem c79_structured_partial (a : Args) (d : D) (m : State V) :
    (fit B .structured (trainConfig a) d m).2 = .ok () ∨
      ((fit B .structured (trainConfig a) d m).2 = .error .indexError ∧ ∃ n, a.iters = some n ∧ n < 2) := by
  by_cases h : 2 ≤ (trainConfig a).iters.getD 5000
  · left
    obtain ⟨-, -, h, -⟩ := c33_stored B m.depth d ((trainConfig a).iters.getD 5000)
      ((trainConfig a).optimiseHypers.getD (.bool true)) 5 m.store h (.inl (by norm_num))
    exact h
  · right
    refine ⟨(c33_few B m.depth d _ _ 5 m.store (not_le.1 h)).1, ?_⟩
    obtain ⟨it, fh⟩ := a
    cases it with
    | none => simp [trainConfig] at h
    | some n =>
      refine ⟨n, rfl, ?_⟩
      simp only [trainConfig] at h
      split at h
      · norm_num at h
      · simpa using h

/-- **C79 is false**: with `--fix-hypers` training fails under every mean-field scheme, and `--iters 0` is the same as
not giving the option. -/
theorem c79_false (iters : Option ℤ) (f : MF) (d : D) (m : State V) :
    (fit B (.meanField f) (trainConfig ⟨iters, true⟩) d m).2 = .error .typeError ∧
      trainConfig ⟨some 0, false⟩ = trainConfig ⟨none, false⟩ := by
  constructor
  · simp [fit, trainConfig]
  · rfl

example : trainConfig ⟨some 10, true⟩ = { iters := some 10, optimiseHypers := some (.bool false) } := rfl

end

/-! ## C37 -/

/-- The variance over samples is not negative. -/
theorem sample_var_nonneg {κ : Type} (l : List (κ → ℝ)) (i : κ) :
    0 ≤ sampleMean (l.map fun z i => z i ^ 2) i - sampleMean l i ^ 2 := by
  unfold sampleMean
  rw [List.length_map, List.map_map]
  rcases eq_or_ne l [] with rfl | hl
  · simp
  have hn : (0 : ℝ) < l.length := by exact_mod_cast List.length_pos_iff.2 hl
  have h : ((l.map fun z => z i).sum) ^ 2 ≤ l.length * (l.map fun z => z i ^ 2).sum := by
    clear hl hn
    have e1 : (l.map fun z => z i).sum = ∑ j : Fin l.length, l.get j i := by
      exact (Fin.sum_univ_fun_getElem l fun z => z i).symm
    have e2 : (l.map fun z => z i ^ 2).sum = ∑ j : Fin l.length, l.get j i ^ 2 := by
      exact (Fin.sum_univ_fun_getElem l fun z => z i ^ 2).symm
    rw [e1, e2]
    have := sq_sum_le_card_mul_sum_sq (s := Finset.univ) (f := fun j : Fin l.length => l.get j i)
    simpa using this
  rw [sub_nonneg, div_pow, div_le_div_iff₀ (by positivity) hn]
  have e : (l.map ((fun z => z i) ∘ fun z i => z i ^ 2)) = l.map fun z => z i ^ 2 := rfl
  rw [e]
  nlinarith

/-- **C37** Under the structured scheme `predict_fourier` returns the mean of the samples and a variance that is not
negative, as soon as there is a sample. -/
theorem c37_structured_partial {κ : Type} (p : PredictZ κ) (num : ℤ) (h : p.samples num ≠ []) :
    ∃ v : κ → ℝ, predictFourier .structured p num = .ok (sampleMean (p.samples num), v) ∧ ∀ i, 0 ≤ v i := by
  refine ⟨_, ?_, sample_var_nonneg (p.samples num)⟩
  simp only [predictFourier, predictZ, structuredPredictZ, Option.getD_some, if_neg h]

/-- **C37 is false**: under every mean-field scheme `predict_fourier` raises `TypeError`, although `predict_z`
itself works. -/
theorem c37_false {κ : Type} (f : MF) (p : PredictZ κ) (num : ℤ) :
    predictFourier (.meanField f) p num = .error .typeError ∧
      predictZ (.meanField f) p none = .ok (p.mean, p.var) := ⟨rfl, rfl⟩

example : (⟨fun _ => [![1, 2], ![3, 5]], fun _ => 0, fun _ => 1⟩ : PredictZ (Fin 2)).samples 1000 ≠ [] := by
  simp

end Gpcm.Fit
