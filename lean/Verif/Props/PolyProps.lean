import Verif.Lemmas.PolyComplete
import Mathlib.Algebra.Order.Ring.Int
import Mathlib.Tactic.NormNum
import Mathlib.Data.Rat.Cast.Lemmas

/-!
# Properties C01–C09 and C84: polynomial arithmetic
-/

namespace Gpcm

variable {K : Type} [CommRing K]

/-- A total assignment of the variables, as keyword arguments. -/
def env (v : String → K) : String → Option K := fun x => some (v x)

/-! ## Concrete processes for the examples -/

/-- A process in which sets of integers iterate in order of (last) insertion and every zero
coefficient is recognised. -/
def procA : Runtime ℤ where
  toSetOrder := SetOrder.dedup
  numZero c := decide (c = 0)
  numZero_sound c h := by simpa using h

/-- Rotated order of iteration. -/
def SetOrder.rotated : SetOrder where
  ord l := l.dedup.rotate 1
  perm _ := List.rotate_perm _ _

/-- A process with a different hash seed. -/
def procB : Runtime ℤ where
  toSetOrder := SetOrder.rotated
  numZero c := decide (c = 0)
  numZero_sound c h := by simpa using h

/-- A process in which all constants are tensors. -/
def procT : Runtime ℤ where
  toSetOrder := SetOrder.dedup
  numZero _ := false
  numZero_sound _ h := by cases h

/-- `(x + 2) ** 2 - 4 * x`, the running example. -/
def exprSq : Expr ℤ :=
  .sub (.pow (.add (.var "x") (.int 2)) 2) (.mul (.num 4) (.var "x"))

/-- `(1 + x + x**2) * (1 - x + x**2)`. -/
def exprBad : Expr ℤ :=
  .mul (.add (.add (.const 1) (.var "x")) (.pow (.var "x") 2))
    (.add (.sub (.const 1) (.var "x")) (.pow (.var "x") 2))

/-- Whether a result is not an exception. -/
def isOk {α : Type} : Except PyErr α → Bool
  | .ok _ => true
  | .error _ => false

theorem isOk_iff {α : Type} {x : Except PyErr α} : isOk x = true ↔ ∃ a, x = .ok a := by
  cases x <;> simp [isOk]

/-! ## C01 -/

/-- **C01.** If a user expression can be built, evaluating the object gives the value of the
expression, for every hash seed. -/
theorem c01_expression_evaluates_faithfully (R : Runtime K) (e : Expr K) {x : PyVal K}
    (h : e.run R = .ok x) (v : String → K) : x.eval (env v) = .ok (e.denote v) := by
  rw [← (e.run_spec R h).2 v]
  cases x with
  | poly p => exact p.eval_total v
  | int n => rfl
  | num c => rfl

example : ∃ x, exprSq.run procA = .ok x ∧ x.eval (env fun _ => 3) = .ok 13 := by
  obtain ⟨x, hx⟩ : ∃ x, exprSq.run procA = .ok x := isOk_iff.1 (by decide)
  exact ⟨x, hx, (c01_expression_evaluates_faithfully procA exprSq hx fun _ => 3).trans rfl⟩

/-! ## C02 -/

/-- **C02.** Two processes with different set iteration orders that both manage to build an
expression get objects that evaluate the same and answer all queries the same. -/
theorem c02_hash_seed_independence [DecidableEq K] {R R' : Runtime K}
    (hnum : R.numZero = R'.numZero) (e : Expr K) {x x' : PyVal K} (h : e.run R = .ok x)
    (h' : e.run R' = .ok x') :
    (∀ v, x.eval (env v) = x'.eval (env v)) ∧
    (∀ p, x = .poly p → ∃ p', x' = .poly p' ∧ p.eqPy p' = true ∧
      p.isConstant = p'.isConstant ∧
      ∀ y, p.isFunctionOf y = p'.isFunctionOf y ∧ p.highestPower y = p'.highestPower y) ∧
    (∀ n, x = .int n → x' = .int n) ∧ (∀ c, x = .num c → x' = .num c) := by
  have hs := e.run_same hnum h h'
  refine ⟨fun v => ?_, ?_, ?_, ?_⟩
  · rw [c01_expression_evaluates_faithfully R e h, c01_expression_evaluates_faithfully R' e h']
  · rintro p rfl
    cases x' with
    | poly p' =>
      cases hs with | poly hs =>
      exact ⟨p', rfl, canon_eqPy hs, canon_isConstant hs, fun y =>
        ⟨canon_isFunctionOf hs y, canon_highestPower hs y⟩⟩
    | int n => cases hs
    | num c => cases hs
  · rintro n rfl
    cases x' with
    | poly p' => cases hs
    | int n' => cases hs; rfl
    | num c => cases hs
  · rintro c rfl
    cases x' with
    | poly p' => cases hs
    | int n' => cases hs
    | num c' => cases hs; rfl

example : procA.numZero = procB.numZero ∧ (∃ x, exprSq.run procA = .ok x) ∧
    ∃ x, exprSq.run procB = .ok x :=
  ⟨rfl, isOk_iff.1 (by decide), isOk_iff.1 (by decide)⟩

/-! ## C03 -/

/-- **C03.** Substitution commutes with evaluation. The substituted polynomial may mention the
variable. -/
theorem c03_substitute {R : Runtime K} {p q : Poly K} (hp : p.Built R) (hq : q.Built R)
    {x : String} {r : PyVal K} (h : p.substitute R x q = .ok r) (v : String → K) {a : K}
    (ha : q.eval (env v) = .ok a) :
    r.eval (env v) = p.eval (env (Function.update v x a)) := by
  have hs := Poly.substitute_spec R hp.wf hq.wf h
  have hqa : q.eval (env v) = .ok (q.val v) := q.eval_total v
  rw [hqa] at ha
  cases ha
  have hpe : p.eval (env (Function.update v x (q.val v))) =
      .ok (p.val (Function.update v x (q.val v))) := p.eval_total _
  rw [hpe, ← hs.2 v]
  cases r with
  | poly p => exact p.eval_total v
  | int n => rfl
  | num c => rfl

/-- **C03.** The result is a `Poly` if there is at least one term. -/
theorem c03_substitute_poly {R : Runtime K} {p q : Poly K} (hp : p.Built R) (hq : q.Built R)
    {x : String} {r : PyVal K} (hne : p.terms ≠ []) (h : p.substitute R x q = .ok r) :
    ∃ s, r = .poly s :=
  Poly.substitute_poly R hp.wf hq.wf hne h

/-- **C03**, boundary: substituting into the polynomial without terms gives the Python integer
zero, which is not a `Poly`. -/
theorem c03_substitute_empty (R : Runtime K) (x : String) (q : Poly K) :
    Poly.substitute R ⟨[]⟩ x q = .ok (.int 0) := rfl

/-- Helper for the examples: the polynomial of an expression. -/
def asPoly : Except PyErr (PyVal K) → Option (Poly K)
  | .ok (.poly p) => some p
  | _ => none

example : ∃ (p q : Poly ℤ) (r : PyVal ℤ), p.Built procA ∧ q.Built procA ∧ p.substitute procA "x" q = .ok r ∧
    p.terms ≠ [] := by
  obtain ⟨p, hp⟩ : ∃ p, asPoly (exprSq.run procA) = some p := Option.isSome_iff_exists.1 (by decide)
  have hp' : exprSq.run procA = .ok (.poly p) := by
    revert hp; cases exprSq.run procA with
    | error e => intro h; cases h
    | ok x => cases x <;> intro h <;> simp_all [asPoly]
  have hdef : (match asPoly (exprSq.run procA) with
      | some p => isOk (p.substitute procA "x" p) && !p.terms.isEmpty
      | none => false) = true := by decide
  rw [hp] at hdef
  simp only [Bool.and_eq_true] at hdef
  obtain ⟨r, hr⟩ := isOk_iff.1 hdef.1
  refine ⟨p, p, r, Expr.run_built exprSq hp', Expr.run_built exprSq hp', hr, ?_⟩
  intro h0
  rw [h0] at hdef
  simp at hdef

/-! ## C04 -/

/-- **C04.** Equal polynomials evaluate equally. -/
theorem c04_eq_sound [DecidableEq K] {R : Runtime K} {p q : Poly K} (hp : p.Built R)
    (hq : q.Built R) (h : p.eqPy q = true) (v : String → K) :
    p.eval (env v) = q.eval (env v) := by
  have e1 : p.eval (env v) = .ok (p.val v) := p.eval_total v
  have e2 : q.eval (env v) = .ok (q.val v) := q.eval_total v
  rw [e1, e2]
  congr 1
  -- drop the terms with constant zero, then match the rest one to one
  have hdrop : ∀ p : Poly K, p.val v =
      ((p.terms.filter fun t => !R.numZero t.const).map fun t => t.val v).sum := by
    intro p
    unfold Poly.val
    induction p.terms with
    | nil => rfl
    | cons a as ih =>
      cases hz : R.numZero a.const
      · simp [hz, ih]
      · have : a.val v = 0 := by rw [Term.val, R.numZero_sound _ hz, zero_mul]
        simp [hz, ih, this]
  have hpair : ∀ p : Poly K, p.WF R →
      ((p.terms.filter fun t => !R.numZero t.const).map fun t => t.val v).sum =
      (((p.terms.filter fun t => !R.numZero t.const).map Term.pair).map
        fun c => c.1 * (c.2.toList.map fun f => f.val v).prod).sum := by
    intro p hp
    rw [List.map_map]
    congr 1
    refine List.map_congr_left fun t ht => ?_
    have hwf := hp.terms t (List.mem_filter.1 ht).1
    simp only [Function.comp, Term.pair, Term.val]
    rw [factorsVal_perm hwf.perm_toList v]
    rfl
  rw [hdrop p, hdrop q, hpair p hp.wf, hpair q hq.wf]
  refine (List.Perm.map _ ?_).sum_eq
  have hnd : ∀ p : Poly K, p.WF R →
      ((p.terms.filter fun t => !R.numZero t.const).map Term.pair).Nodup := by
    intro p hp
    refine List.Nodup.of_map Prod.snd ?_
    rw [List.map_map]
    exact hp.uniq
  refine (List.perm_ext_iff_of_nodup (hnd p hp.wf) (hnd q hq.wf)).2 ?_
  simp only [Poly.eqPy, Bool.and_eq_true, List.all_eq_true, List.any_eq_true, eqPy_iff] at h
  have key : ∀ {p q : Poly K}, (∀ t ∈ p.terms, ∃ s ∈ q.terms, t.const = s.const ∧ t.key = s.key) →
      ∀ c, c ∈ (p.terms.filter fun t => !R.numZero t.const).map Term.pair →
        c ∈ (q.terms.filter fun t => !R.numZero t.const).map Term.pair := by
    intro p q h c hc
    obtain ⟨t, ht, rfl⟩ := List.mem_map.1 hc
    obtain ⟨ht1, ht2⟩ := List.mem_filter.1 ht
    obtain ⟨s, hs, h1, h2⟩ := h t ht1
    refine List.mem_map.2 ⟨s, List.mem_filter.2 ⟨hs, ?_⟩, ?_⟩
    · rw [← h1]; exact ht2
    · simp [Term.pair, h1, h2]
  exact fun c => ⟨key h.1 c, key h.2 c⟩

omit [CommRing K] in
/-- **C04.** `==` is an equivalence relation on polynomials. -/
theorem c04_eq_equivalence [DecidableEq K] :
    (∀ p : Poly K, p.eqPy p = true) ∧ (∀ p q : Poly K, p.eqPy q = true → q.eqPy p = true) ∧
    (∀ p q r : Poly K, p.eqPy q = true → q.eqPy r = true → p.eqPy r = true) := by
  simp only [Poly.eqPy, Bool.and_eq_true, List.all_eq_true, List.any_eq_true, eqPy_iff]
  refine ⟨fun p => ⟨fun t ht => ⟨t, ht, rfl, rfl⟩, fun t ht => ⟨t, ht, rfl, rfl⟩⟩,
    fun p q h => ⟨h.2, h.1⟩, fun p q r h1 h2 => ⟨fun t ht => ?_, fun t ht => ?_⟩⟩
  · obtain ⟨s, hs, a, b⟩ := h1.1 t ht
    obtain ⟨u, hu, c, d⟩ := h2.1 s hs
    exact ⟨u, hu, a.trans c, b.trans d⟩
  · obtain ⟨s, hs, a, b⟩ := h2.2 t ht
    obtain ⟨u, hu, c, d⟩ := h1.2 s hs
    exact ⟨u, hu, a.trans c, b.trans d⟩

omit [CommRing K] in
/-- **C04.** `==` does not see the order in which terms are stored. -/
theorem c04_eq_order [DecidableEq K] {p q : Poly K} (h : p.terms.Perm q.terms) :
    p.eqPy q = true := by
  simp only [Poly.eqPy, Bool.and_eq_true, List.all_eq_true, List.any_eq_true, eqPy_iff]
  exact ⟨fun t ht => ⟨t, h.mem_iff.1 ht, rfl, rfl⟩, fun t ht => ⟨t, h.mem_iff.2 ht, rfl, rfl⟩⟩

/-- Evaluate a boolean test on the polynomials of two expressions. -/
def onPolys (R R' : Runtime K) (e f : Expr K) (P : Poly K → Poly K → Bool) : Bool :=
  match asPoly (e.run R), asPoly (f.run R') with
  | some p, some q => P p q
  | _, _ => false

omit [CommRing K] in
theorem asPoly_some {x : Except PyErr (PyVal K)} {p : Poly K} (h : asPoly x = some p) :
    x = .ok (.poly p) := by
  cases x with
  | error e => cases h
  | ok y => cases y <;> simp_all [asPoly]

theorem onPolys_true {R R' : Runtime K} {e f : Expr K} {P : Poly K → Poly K → Bool}
    (h : onPolys R R' e f P = true) :
    ∃ p q, e.run R = .ok (.poly p) ∧ f.run R' = .ok (.poly q) ∧ P p q = true := by
  unfold onPolys at h
  split at h
  · rename_i p q hp hq
    exact ⟨p, q, asPoly_some hp, asPoly_some hq, h⟩
  · cases h

/-- `(x + y) * (x - y)` and `x ** 2 - y ** 2` give `==` polynomials only after the cancelled term
is accounted for; `(x + y) ** 2` and its expansion are `==`. -/
example : ∃ p q : Poly ℤ, p.Built procA ∧ q.Built procA ∧ p.eqPy q = true ∧ p.terms.length = 3 := by
  obtain ⟨p, q, hp, hq, h⟩ := onPolys_true (R := procA) (R' := procA)
    (e := .pow (.add (.var "x") (.var "y")) 2)
    (f := .add (.add (.pow (.var "y") 2) (.mul (.num 2) (.mul (.var "y") (.var "x"))))
      (.pow (.var "x") 2))
    (P := fun p q => p.eqPy q && p.terms.length == 3) (by decide)
  simp only [Bool.and_eq_true, beq_iff_eq] at h
  exact ⟨p, q, Expr.run_built _ hp, Expr.run_built _ hq, h⟩

/-! ## C05 -/

/-- `(x + 1) - 1`. -/
def exprCancel : Expr ℤ := .sub (.add (.var "x") (.const 1)) (.const 1)

/-- **C05 is false.** `(x + 1) - 1` and `x` are the same formal polynomial, but they are not `==`,
because a cancelled term stays in the polynomial with constant zero. -/
theorem c05_eq_complete_false :
    ∃ p q : Poly ℤ, exprCancel.run procA = .ok (.poly p) ∧ (Expr.var "x").run procA = .ok (.poly q) ∧
      (∀ v, exprCancel.denote v = (Expr.var "x").denote v) ∧ p.eqPy q = false := by
  obtain ⟨p, q, hp, hq, h⟩ := onPolys_true (R := procA) (R' := procA) (e := exprCancel)
    (f := .var "x") (P := fun p q => !p.eqPy q) (by decide)
  exact ⟨p, q, hp, hq, fun v => by simp [exprCancel, Expr.denote], by simpa using h⟩

/-- **C05, partial.** Over an infinite domain (e.g. real numbers), polynomials that evaluate equally
everywhere are `==` provided neither stores a term with constant zero. Missing: polynomials in which
terms cancelled, for which the claim is false. -/
theorem c05_eq_complete_partial [IsDomain K] [Infinite K] [DecidableEq K] {R : Runtime K}
    {p q : Poly K} (hp : p.Built R) (hq : q.Built R) (np : ∀ t ∈ p.terms, t.const ≠ 0)
    (nq : ∀ t ∈ q.terms, t.const ≠ 0) (h : ∀ v, p.eval (env v) = q.eval (env v)) :
    p.eqPy q = true := by
  refine eq_complete hp.wf hq.wf np nq fun v => ?_
  have e1 : p.eval (env v) = .ok (p.val v) := p.eval_total v
  have e2 : q.eval (env v) = .ok (q.val v) := q.eval_total v
  have := h v
  rw [e1, e2] at this
  exact Except.ok.inj this

example : ∃ p : Poly ℤ, p.Built procA ∧ (∀ t ∈ p.terms, t.const ≠ 0) ∧ p.terms.length = 3 := by
  obtain ⟨p, q, hp, hq, h⟩ := onPolys_true (R := procA) (R' := procA)
    (e := .pow (.add (.var "x") (.var "y")) 2) (f := .var "x")
    (P := fun p _ => p.terms.all (fun t => decide (t.const ≠ 0)) && p.terms.length == 3)
    (by decide)
  simp only [Bool.and_eq_true, beq_iff_eq, List.all_eq_true, decide_eq_true_eq] at h
  exact ⟨p, Expr.run_built _ hp, h.1, h.2⟩

/-! ## C06 -/

/-- `(x + 1) - x`, in which the cancelled term and the constant one have the same (empty) set of
factors. -/
def exprTwice : Expr ℤ := .sub (.add (.var "x") (.const 1)) (.var "x")

/-- **C06 is false.** A polynomial may store two terms with the same (empty) set of factors. -/
theorem c06_one_term_per_monomial_false :
    ∃ p : Poly ℤ, exprTwice.run procA = .ok (.poly p) ∧
      ¬ (p.terms.map fun t => t.factors.toFinset).Nodup := by
  obtain ⟨p, q, hp, hq, h⟩ := onPolys_true (R := procA) (R' := procA) (e := exprTwice)
    (f := .var "x") (P := fun p _ => !decide (p.terms.map fun t : Term ℤ => t.factors.toFinset).Nodup)
    (by decide)
  exact ⟨p, hp, by simpa using h⟩

/-- **C06, partial.** Two different stored terms that have at least one factor have different sets
of factors, so `collect_for` finds the complete coefficient. Missing: terms without factors, for
which the claim is false (left-over zeros). -/
theorem c06_one_term_per_monomial_partial {R : Runtime K} {p : Poly K} (hp : p.Built R) :
    ((p.terms.filter fun t => !t.factors.isEmpty).map fun t => t.factors.toFinset).Nodup := by
  have hsub : (p.terms.filter fun t => !t.factors.isEmpty).Sublist
      (p.terms.filter fun t => !R.numZero t.const) := by
    have h2 : ((p.terms.filter fun t => !t.factors.isEmpty).filter
        fun t => !R.numZero t.const) = p.terms.filter fun t => !t.factors.isEmpty := by
      rw [List.filter_eq_self]
      intro t ht
      obtain ⟨h1, h2⟩ := List.mem_filter.1 ht
      cases hz : R.numZero t.const
      · rfl
      · rw [(hp.wf.terms t h1).zero hz] at h2
        simp at h2
    rw [← h2]
    exact List.Sublist.filter _ List.filter_sublist
  exact hp.wf.uniq.sublist (hsub.map _)

example : ∃ p : Poly ℤ, p.Built procA ∧
    ((p.terms.filter fun t => !t.factors.isEmpty).map fun t => t.factors.toFinset).length = 3 := by
  obtain ⟨p, q, hp, hq, h⟩ := onPolys_true (R := procA) (R' := procA)
    (e := .pow (.add (.var "x") (.var "y")) 2) (f := .var "x")
    (P := fun p _ => ((p.terms.filter fun t => !t.factors.isEmpty).map
      fun t => t.factors.toFinset).length == 3)
    (by decide)
  exact ⟨p, Expr.run_built _ hp, by simpa using h⟩

/-! ## C07, C08 -/

theorem Poly.eval_eq_of {p : Poly K} {m : String → Option K} {v : String → K}
    (h : ∀ x, p.isFunctionOf x = true → m x = some (v x)) : p.eval m = .ok (p.val v) :=
  Poly.eval_eq fun t ht f hf => h _ (Poly.isFunctionOf_iff.2 ⟨t, ht, f, hf, rfl⟩)

/-- **C08.** Evaluation succeeds exactly if all variables the polynomial is a function of are
given. -/
theorem c08_eval_ok_iff (p : Poly K) (m : String → Option K) :
    (∃ a, p.eval m = .ok a) ↔ ∀ x, p.isFunctionOf x = true → m x ≠ none := by
  constructor
  · rintro ⟨a, ha⟩ x hx hm
    rw [Poly.eval_missing hx hm] at ha
    cases ha
  · intro h
    refine ⟨p.val fun x => (m x).getD 0, Poly.eval_eq_of fun x hx => ?_⟩
    cases hm : m x with
    | none => exact absurd hm (h x hx)
    | some a => rfl

/-- **C08.** The only exception is `KeyError`. -/
theorem c08_eval_error (p : Poly K) (m : String → Option K) {e : PyErr}
    (h : p.eval m = .error e) : e = .keyError := by
  by_cases hex : ∃ x, p.isFunctionOf x = true ∧ m x = none
  · obtain ⟨x, hx, hm⟩ := hex
    rw [Poly.eval_missing hx hm] at h
    cases h; rfl
  · exfalso
    obtain ⟨a, ha⟩ := (c08_eval_ok_iff p m).2 fun x hx hm => hex ⟨x, hx, hm⟩
    rw [ha] at h; cases h

example : ∃ p : Poly ℤ, p.Built procA ∧ p.isFunctionOf "y" = true ∧
    p.eval (fun s => if s = "x" then some 3 else none) = .error .keyError ∧
    p.eval (fun s => if s = "x" ∨ s = "y" then some 3 else none) = .ok 36 := by
  obtain ⟨p, q, hp, hq, h⟩ := onPolys_true (R := procA) (R' := procA)
    (e := .pow (.add (.var "x") (.var "y")) 2) (f := .var "x")
    (P := fun p _ => p.isFunctionOf "y" &&
      (match p.eval (fun s => if s = "x" then some 3 else none) with
        | .error .keyError => true | _ => false) &&
      (match p.eval (fun s => if s = "x" ∨ s = "y" then some 3 else none) with
        | .ok a => a == 36 | _ => false)) (by decide)
  simp only [Bool.and_eq_true] at h
  refine ⟨p, Expr.run_built _ hp, h.1.1, ?_, ?_⟩
  · have := h.1.2; split at this <;> simp_all
  · have := h.2; split at this <;> simp_all

/-- **C07.** A polynomial that is not a function of `x` evaluates without `x` and independently of
it. -/
theorem c07_not_function_of {p : Poly K} {x : String} (h : p.isFunctionOf x = false)
    {m m' : String → Option K} (hm : ∀ y, y ≠ x → m y = m' y) : p.eval m = p.eval m' := by
  have hag : ∀ y, p.isFunctionOf y = true → m y = m' y := by
    intro y hy
    refine hm y fun he => ?_
    rw [he, h] at hy; cases hy
  by_cases hex : ∃ y, p.isFunctionOf y = true ∧ m y = none
  · obtain ⟨y, hy, hn⟩ := hex
    rw [Poly.eval_missing hy hn, Poly.eval_missing hy ((hag y hy).symm.trans hn)]
  · have e1 : p.eval m = .ok (p.val fun y => (m y).getD 0) := Poly.eval_eq_of fun y hy => by
      cases hmy : m y with
      | none => exact absurd ⟨y, hy, hmy⟩ hex
      | some a => rfl
    have e2 : p.eval m' = .ok (p.val fun y => (m y).getD 0) := Poly.eval_eq_of fun y hy => by
      rw [← hag y hy]
      cases hmy : m y with
      | none => exact absurd ⟨y, hy, hmy⟩ hex
      | some a => rfl
    rw [e1, e2]

/-- **C07.** A constant polynomial evaluates without any variable to one value. -/
theorem c07_constant {p : Poly K} (h : p.isConstant = true) :
    ∃ a, ∀ m, p.eval m = .ok a := by
  have hno := Poly.isConstant_iff.1 h
  refine ⟨p.val fun _ => 0, fun m => Poly.eval_eq_of fun x hx => ?_⟩
  rw [hno x] at hx; cases hx

/-- **C07.** `highest_power` bounds the degree: as a function of one variable, the others fixed, the
polynomial is a polynomial function of at most that degree. -/
theorem c07_highest_power {R : Runtime K} {p : Poly K} (hp : p.Built R) {x : String} {n : ℕ}
    (h : p.highestPower x = .ok n) (v : String → K) :
    ∃ P : Polynomial K, P.natDegree ≤ n ∧
      ∀ a, p.eval (env (Function.update v x a)) = .ok (P.eval a) := by
  obtain ⟨P, hP, he⟩ := Poly.val_update hp.wf x v (Poly.highestPower_eq h).1
  exact ⟨P, hP, fun a => by rw [← he a]; exact p.eval_total _⟩

/-- **C07.** `highest_power` is the largest exponent of the variable in any stored term; it is zero
iff the polynomial is not a function of the variable. -/
theorem c07_highest_power_zero {R : Runtime K} {p : Poly K} (hp : p.Built R) {x : String} {n : ℕ}
    (h : p.highestPower x = .ok n) : n = 0 ↔ p.isFunctionOf x = false := by
  obtain ⟨h1, t, ht, h2⟩ := Poly.highestPower_eq h
  constructor
  · rintro rfl
    rw [Bool.eq_false_iff]
    intro hx
    obtain ⟨s, hs, f, hf, rfl⟩ := Poly.isFunctionOf_iff.1 hx
    have := Term.le_highestPower hf
    have := h1 s hs
    have := (hp.wf.terms s hs).pos f hf
    omega
  · intro hx
    by_contra hn
    rw [← h2] at hn
    obtain ⟨f, hf, rfl, _⟩ := Term.highestPower_attained hn
    rw [Bool.eq_false_iff] at hx
    exact hx (Poly.isFunctionOf_iff.2 ⟨t, ht, f, hf, rfl⟩)

example : ∃ p : Poly ℤ, p.Built procA ∧ p.highestPower "x" = .ok 2 ∧ p.isFunctionOf "z" = false ∧
    p.isConstant = false := by
  obtain ⟨p, q, hp, hq, h⟩ := onPolys_true (R := procA) (R' := procA)
    (e := .pow (.add (.var "x") (.var "y")) 2) (f := .var "x")
    (P := fun p _ => (match p.highestPower "x" with | .ok n => n == 2 | _ => false) &&
      !p.isFunctionOf "z" && !p.isConstant) (by decide)
  simp only [Bool.and_eq_true] at h
  refine ⟨p, Expr.run_built _ hp, ?_, by simpa using h.1.2, by simpa using h.2⟩
  have := h.1.1; split at this <;> simp_all

/-! ## C09 -/

/-- **C09.** The quadratic decomposition used by all integration routines; in particular
`collect_for` and `reject` do not raise. -/
theorem c09_quadratic_decomposition {R : Runtime K} {p : Poly K} (hp : p.Built R) {x : String}
    {n : ℕ} (hn : p.highestPower x = .ok n) (h2 : n ≤ 2) :
    ∃ a b c : Poly K, p.collectFor R ⟨x, 2⟩ = .ok a ∧ p.collectFor R ⟨x, 1⟩ = .ok b ∧
      p.reject R x = .ok c ∧
      a.isFunctionOf x = false ∧ b.isFunctionOf x = false ∧ c.isFunctionOf x = false ∧
      ∀ v, ∃ va vb vc, a.eval (env v) = .ok va ∧ b.eval (env v) = .ok vb ∧
        c.eval (env v) = .ok vc ∧ p.eval (env v) = .ok (va * v x ^ 2 + vb * v x + vc) := by
  obtain ⟨a, ha⟩ := Poly.collectFor_total R hp.wf ⟨x, 2⟩
  obtain ⟨b, hb⟩ := Poly.collectFor_total R hp.wf ⟨x, 1⟩
  obtain ⟨c, hc⟩ := Poly.reject_total R hp.wf x
  refine ⟨a, b, c, ha, hb, hc, Poly.collectFor_isFunctionOf R hp.wf ha,
    Poly.collectFor_isFunctionOf R hp.wf hb, Poly.reject_isFunctionOf R hp.wf hc, fun v => ?_⟩
  refine ⟨a.val v, b.val v, c.val v, a.eval_total v, b.eval_total v, c.eval_total v, ?_⟩
  have h1 := (Poly.collectFor_spec R hp.wf ha).2 v
  have h2' := (Poly.collectFor_spec R hp.wf hb).2 v
  have h3 := (Poly.reject_spec R hp.wf hc).2 v
  have hq := Poly.quadratic_split R hp.wf (x := x)
    (fun t ht => ((Poly.highestPower_eq hn).1 t ht).trans h2) v
  rw [← h1, ← h2', ← h3] at hq
  have hpe : p.eval (env v) = .ok (p.val v) := p.eval_total v
  rw [hpe, hq]
  simp [Factor.val]

/-- A concrete case: `(x + y) ** 2` decomposes as `1 * x ** 2 + (2 * y) * x + y ** 2`. -/
example : ∃ p : Poly ℤ, p.Built procA ∧ p.highestPower "x" = .ok 2 := by
  obtain ⟨p, q, hp, hq, h⟩ := onPolys_true (R := procA) (R' := procA)
    (e := .pow (.add (.var "x") (.var "y")) 2) (f := .var "x")
    (P := fun p _ => (match p.highestPower "x" with | .ok n => n == 2 | _ => false)) (by decide)
  refine ⟨p, Expr.run_built _ hp, ?_⟩
  split at h <;> simp_all

/-! ## C84 -/

/-- **C84 is false.** Building `(1 + x + x**2) * (1 - x + x**2)` raises `RuntimeError` in one
process and succeeds in another one with a different hash seed. -/
theorem c84_building_never_raises_false :
    exprBad.run procA = .error .runtimeError ∧ (∃ x, exprBad.run procB = .ok x) ∧
      procA.numZero = procB.numZero := by
  refine ⟨?_, isOk_iff.1 (by decide), rfl⟩
  have h : (match exprBad.run procA with
    | .error .runtimeError => true | _ => false) = true := by decide
  split at h <;> simp_all

/-- **C84, partial.** Expressions in which products are products of affine expressions or have an
operand without sums, and in which powers are powers of sum-free expressions or squares of affine
expressions, are always built, in every process. Missing: products of two sums of higher degree,
for which the claim is false. -/
theorem c84_simple_expressions_build_partial (R : Runtime K) (e : Expr K) (h : e.Simple) :
    ∃ x, e.run R = .ok x := by
  obtain ⟨x, hx, _⟩ := e.run_total R h
  exact ⟨x, hx⟩

/-- **C84, partial.** If no constant passes the zero test (tensors), every expression is built. -/
theorem c84_tensor_expressions_build_partial (R : Runtime K) (hR : ∀ c, R.numZero c = false)
    (e : Expr K) : ∃ x, e.run R = .ok x :=
  e.run_total_tensor R hR

/-- **C84, partial.** Sums, negations and multiples of existing polynomials never raise. -/
theorem c84_linear_operations_partial {R : Runtime K} {p q : Poly K} (hp : p.Built R)
    (hq : q.Built R) (n : ℤ) (c : K) :
    (∃ r, p.add R q = .ok r) ∧ (∃ r, p.neg R = .ok r) ∧
    (∃ r, PyVal.add R (.poly p) (.int n) = .ok r) ∧ (∃ r, PyVal.add R (.poly p) (.num c) = .ok r) ∧
    (∃ r, PyVal.mul R (.poly p) (.int n) = .ok r) ∧ (∃ r, PyVal.mul R (.poly p) (.num c) = .ok r) ∧
    (∃ r, PyVal.sub R (.poly p) (.poly q) = .ok r) := by
  have wp : PyVal.WF R (.poly p) := hp.wf
  have wq : PyVal.WF R (.poly q) := hq.wf
  obtain ⟨d, dp⟩ := PyVal.deg_exists (.poly p : PyVal K)
  obtain ⟨d', dq⟩ := PyVal.deg_exists (.poly q : PyVal K)
  have hi : PyVal.WF R (.int n) := trivial
  have hc : PyVal.WF R (.num c) := trivial
  have di : PyVal.Deg 0 (.int n : PyVal K) := trivial
  have dc : PyVal.Deg 0 (.num c : PyVal K) := trivial
  refine ⟨Poly.add_total R hp.wf hq.wf, Poly.neg_total R hp.wf, ?_, ?_, ?_, ?_, ?_⟩
  · exact (PyVal.add_total R wp hi dp di).imp fun _ h => h.1
  · exact (PyVal.add_total R wp hc dp dc).imp fun _ h => h.1
  · exact (PyVal.mul_total R wp hi dp di (Or.inr (Or.inr trivial))).imp fun _ h => h.1
  · exact (PyVal.mul_total R wp hc dp dc (Or.inr (Or.inr trivial))).imp fun _ h => h.1
  · exact (PyVal.sub_total R wp wq dp dq).imp fun _ h => h.1

example : exprSq.Simple := by simp [exprSq, Expr.Simple, Expr.deg, Expr.isMono]
example : ¬ exprBad.Simple := by simp [exprBad, Expr.Simple, Expr.deg, Expr.isMono]
example : ∀ c, procT.numZero c = false := fun _ => rfl

end Gpcm
