import Verif.Props.FitProps

/-!
# C177 and C178: which fits learn hyper-parameters, and the keyword `rate`

The README says of the scheme `"mean-field-ca"`: "This does not learn hyperparameters". The option
`optimise_hypers` of the structured scheme says whether to. The README also says that `fit` takes the keyword
argument `rate`.
-/

namespace Gpcm

/-! ## Specification -/

namespace Spec

open Gpcm.Fit

/-- Every hyper-parameter that exists keeps its value. -/
def KeepsHypers {V : Type} (before after : Store V) : Prop :=
  ∀ h v, before (.hyper h) = some v → after (.hyper h) = some v

/-- The operations that may train hyper-parameters under the structured scheme: a fit for which
`optimise_hypers` is not given or is true. -/
def Trains {D : Type} : Op D → Prop
  | .fit kw _ => kw.optimiseHypers = none ∨ ∃ o, kw.optimiseHypers = some o ∧ o.truthy = true
  | _ => False

end Spec

namespace Fit

open Gpcm.Spec

variable {V D S U Z : Type} (B : Backend V D S U Z)

theorem keeps_refl (s : Store V) : KeepsHypers s s := fun _ _ h => h

theorem keeps_trans {a b c : Store V} (h : KeepsHypers a b) (h' : KeepsHypers b c) : KeepsHypers a c :=
  fun n v e => h' n v (h n v e)

theorem keeps_instantiate (s : Store V) : KeepsHypers s (B.instantiate s) := by
  intro h v e
  rw [B.instantiate_frame s _ (.inl (by simp [e])), e]

theorem keeps_touchQ (i : ℕ) (s : Store V) : KeepsHypers s (touchQ B i s) := by
  intro h v e
  rw [touchQ_other B i s _ (.inr (by simp)), e]

theorem keeps_touchP (i : ℕ) (s : Store V) : KeepsHypers s (touchP B i s) := by
  intro h v e
  rw [touchP_some i s _ (by simp [e]), e]

theorem keeps_touchPU (i : ℕ) (s : Store V) : KeepsHypers s (touchPU B i s) := by
  intro h v e
  rw [touchPU_some i s _ (by simp [e]), e]

theorem keeps_fitCA (i : ℕ) (d : D) (k : ℤ) (s : Store V) : KeepsHypers s (fitCA B i d k s) := by
  intro h v e
  have := keeps_touchQ B i _ h v (keeps_instantiate B s h v e)
  simpa [fitCA, Store.set] using this

theorem keeps_fitStructured (i : ℕ) (d : D) (iters : ℤ) (opt : OptHypers) (num : ℤ) (s : Store V)
    (ho : opt.truthy = false) : KeepsHypers s (fitStructured B i d iters opt num s).1 := by
  have h1 : KeepsHypers s (touchQ B i (B.instantiate s)) :=
    keeps_trans (keeps_instantiate B s) (keeps_touchQ B i _)
  unfold fitStructured
  simp only
  generalize touchQ B i (B.instantiate s) = s1 at h1 ⊢
  split
  · exact h1
  · simp only [fitHypers, ho, Bool.false_eq_true, if_false]
    intro h v e
    have := keeps_instantiate B s1 h v (h1 h v e)
    simpa [Store.set] using this

theorem keeps_read (m : State V) :
    KeepsHypers m.store (touchQ B m.depth (touchP B m.depth (B.instantiate m.store))) :=
  keeps_trans (keeps_trans (keeps_instantiate B _) (keeps_touchP B _ _)) (keeps_touchQ B _ _)

theorem keeps_elbo (a : Approx) (d : D) (m : State V) : KeepsHypers m.store (elbo B a d m).store := by
  cases a with
  | structured => exact keeps_trans (keeps_fitCA B m.depth d 5000 m.store) (keeps_touchPU B _ _)
  | meanField f => exact keeps_read B m

/-- **C177** Under the scheme `"mean-field-ca"`, no history of fits, conditionings, bounds and predictions changes the
value of a hyper-parameter that exists, whatever the data and the options, also where a fit raises. -/
theorem c177_ca (L : Lower) (a : Approx) (ha : scheme L "mean-field-ca" = .ok a) (ops : List (Op D))
    (m : State V) : KeepsHypers m.store (ops.foldl (Op.run B a) m).store := by
  have hs := (c30_schemes L "mean-field-ca").1 ("mean-field-ca", .meanField .ca) (by simp [documented]) (by decide)
  obtain rfl : a = .meanField .ca := by
    have := ha.symm.trans hs
    simpa using this
  induction ops generalizing m with
  | nil => exact keeps_refl _
  | cons o ops ih =>
    refine keeps_trans ?_ (ih _)
    cases o with
    | fit kw d =>
      simp only [Op.run, fit]
      split
      · exact keeps_instantiate B _
      · exact keeps_fitCA B _ _ _ _
    | condition => exact keeps_instantiate B _
    | elbo d => exact keeps_elbo B _ _ _
    | read => exact keeps_read B m

/-- **C177** Under the structured scheme, no history in which every fit was told not to optimise
hyper-parameters changes the value of a hyper-parameter that exists. -/
theorem c177_structured (ops : List (Op D)) (h : ∀ o ∈ ops, ¬ Trains o) (m : State V) :
    KeepsHypers m.store (ops.foldl (Op.run B .structured) m).store := by
  induction ops generalizing m with
  | nil => exact keeps_refl _
  | cons o ops ih =>
    refine keeps_trans ?_ (ih (fun o ho => h o (List.mem_cons_of_mem _ ho)) _)
    have ho := h o List.mem_cons_self
    cases o with
    | fit kw d =>
      simp only [Op.run, fit]
      apply keeps_fitStructured
      cases hk : kw.optimiseHypers with
      | none => exact absurd (.inl hk) ho
      | some o =>
        cases ht : o.truthy with
        | true => exact absurd (.inr ⟨o, hk, ht⟩) ho
        | false => simp [ht]
    | condition => exact keeps_instantiate B _
    | elbo d => exact keeps_elbo B _ _ _
    | read => exact keeps_read B m

/-- **C177** The bound, conditioning and reading never change a hyper-parameter that exists, under any scheme. -/
theorem c177_other (a : Approx) (o : Op D) (ho : ∀ kw d, o ≠ .fit kw d) (m : State V) :
    KeepsHypers m.store (Op.run B a m o).store := by
  cases o with
  | fit kw d => exact absurd rfl (ho kw d)
  | condition => exact keeps_instantiate B _
  | elbo d => exact keeps_elbo B _ _ _
  | read => exact keeps_read B m

/-- **C177** The schemes that do learn: there, `fit` hands every hyper-parameter to the optimiser, whose result is the
value after the fit. -/
theorem c177_learns (d : D) (m : State V) (h : String) (v : V) (hv : m.store (.hyper h) = some v) (iters : Option ℤ) :
    (∃ (s : Store V) (sel : Name → Bool), s (.hyper h) = some v ∧ sel (.hyper h) = true ∧
      ∀ x, B.optimise sel s d (iters.getD 5000 / 5) (.hyper h) = some x →
        (fit B (.meanField .collapsedBfgs) { iters := iters } d m).1.store (.hyper h) = some x) ∧
    (2 ≤ iters.getD 5000 →
      ∃ (s : Store V) (sel : Name → Bool), s (.hyper h) = some v ∧ sel (.hyper h) = true ∧
      ∀ x, B.optimise sel s d (iters.getD 5000 / 5) (.hyper h) = some x →
        (fit B .structured { iters := iters } d m).1.store (.hyper h) = some x) := by
  constructor
  · obtain ⟨ps, hps⟩ : ∃ ps, ignoreQs m.depth (some true) (some (.str "z")) = .ok ps := ⟨_, rfl⟩
    refine ⟨touchQ B m.depth (touchP B m.depth (B.instantiate m.store)), selected ps,
      keeps_read B m h v hv, ?_, ?_⟩
    · have := (Except.ok.inj hps).symm
      subst this
      simp [selected, Pat.matches]
    · intro x hx
      have := keeps_touchQ B m.depth _ h x (keeps_instantiate B _ h x hx)
      simp only [fit, fitMeanField, hps]
      simpa [Store.set] using this
  · intro hi
    obtain ⟨ps, hps⟩ : ∃ ps, ignoreQs m.depth (some true) (some (.bool true)) = .ok ps := ⟨_, rfl⟩
    have h1 := keeps_touchQ B m.depth _ h v (keeps_instantiate B _ h v hv)
    refine ⟨touchPU B m.depth (B.instantiate (touchQ B m.depth (B.instantiate m.store))), selected ps,
      keeps_touchPU B _ _ h v (keeps_instantiate B _ h v h1), ?_, ?_⟩
    · have := (Except.ok.inj hps).symm
      subst this
      simp [selected, Pat.matches]
    · intro x hx
      obtain ⟨-, -, hok, -⟩ := c33_stored B m.depth d (iters.getD 5000) (.bool true) 5 m.store hi (.inl (by norm_num))
      simp only [fit, Option.getD_none]
      unfold fitStructured at hok ⊢
      simp only at hok ⊢
      generalize touchQ B m.depth (B.instantiate m.store) = s1 at hok hx ⊢
      split at hok
      · simp at hok
      · rename_i u z hp
        simp only [fitHypers, OptHypers.truthy, hyperIters, hps, if_true] at hok ⊢
        norm_num
        have := keeps_instantiate B _ h x hx
        simpa [Store.set] using this

/-- A state with a hyper-parameter, and a history with two fits, one of which raises. -/
example : (Fit.scheme ⟨fun c => if c.toNat < 128 then [c.toLower] else [c], by intro c h; simp [h],
      fun c h => ⟨c, by simp [show ¬ c.toNat < 128 by omega], .inl h⟩⟩ "mean-field-ca").toBool = true ∧
    ([Op.fit { iters := some 3 } 5, .condition, .fit { rate := some 1 } 2, .elbo 4].foldl
      (Op.run exBackend (.meanField .ca)) ⟨0, fun _ => some 2⟩).store (.hyper "noise") = some 2 := by
  refine ⟨?_, ?_⟩
  · rw [(c30_schemes _ "mean-field-ca").1 ("mean-field-ca", .meanField .ca) (by simp [documented]) (by decide)]
    rfl
  · exact c177_ca exBackend ⟨fun c => if c.toNat < 128 then [c.toLower] else [c], by intro c h; simp [h],
      fun c h => ⟨c, by simp [show ¬ c.toNat < 128 by omega], .inl h⟩⟩ _
      ((c30_schemes _ "mean-field-ca").1 ("mean-field-ca", .meanField .ca) (by simp [documented]) (by decide))
      _ _ _ _ rfl

example : ¬ Trains (Op.fit { optimiseHypers := some (.bool false) } 5) := by
  rintro (h | ⟨o, h, h'⟩)
  · simp at h
  · simp only [Option.some.injEq] at h
    subst h
    simp [OptHypers.truthy] at h'

/-- With the default options the same fit changes the noise. -/
example : (fit exBackend (.meanField .collapsedBfgs) {} 5 ⟨0, fun _ => some 2⟩).1.store (.hyper "noise") = some 7 := rfl

/-! ## C178 -/

/-- **C178** The structured scheme accepts every `rate`, and the mean-field schemes accept `fit` without it. -/
theorem c178_accepted_partial (d : D) (m : State V) (iters : Option ℤ) (r : ℝ) :
    (2 ≤ iters.getD 5000 → (fit B .structured { iters := iters, rate := some r } d m).2 = .ok ()) ∧
      ∀ f, f ≠ .bfgs → f ≠ .caBfgs → (fit B (.meanField f) { iters := iters } d m).2 = .ok () := by
  refine ⟨fun h => ?_, (c31_completes_partial B d m iters).2⟩
  exact (c31_completes_partial B d m iters).1 h

/-- **C178 is false**: with the keyword `rate`, `fit` raises a `TypeError` under every mean-field scheme, in every
state, with any other options, and then neither a posterior nor an existing hyper-parameter has changed. -/
theorem c178_false (f : MF) (kw : Kw) (hr : kw.rate.isSome) (d : D) (m : State V) :
    (fit B (.meanField f) kw d m).2 = .error .typeError ∧
      ∀ n v, m.store n = some v → (fit B (.meanField f) kw d m).1.store n = some v := by
  simp only [fit, hr, true_or, if_true, true_and]
  intro n v e
  rw [B.instantiate_frame _ _ (.inl (by simp [e])), e]

/-- The three rates of the README, under the scheme that the README calls `"mean-field"`. -/
example (r : ℝ) (_ : r ∈ [5e-2, 2e-2, 5e-3]) :
    (fit exBackend (.meanField .caCollapsedBfgs) { rate := some r } 5 ⟨0, fun _ => none⟩).2 = .error .typeError :=
  (c178_false exBackend _ _ rfl _ _).1

end Fit

end Gpcm
