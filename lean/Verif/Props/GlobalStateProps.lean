import Verif.Model.GlobalState
import Verif.Props.SessionProps
import Verif.Props.DataContModelProps

/-!
# Property C215: what a fit depends on besides the data
-/

set_option linter.unusedSectionVars false

open Matrix

namespace Gpcm.Global

variable {σ ι κ : Type} [Fintype ι] [DecidableEq ι] [Fintype κ] [DecidableEq κ]

namespace Spec

/-- Two processes agree on the model: they may differ in the global random state only. -/
def SameModel (w w' : World σ ι κ) : Prop :=
  w.depth = w'.depth ∧ w.qu = w'.qu ∧ w.qz = w'.qz ∧ w.samplesU = w'.samplesU ∧ w.samplesZ = w'.samplesZ ∧ w.ts = w'.ts

/-- The current posteriors exist: the model has been fitted, or they have been looked at, since the last `condition`. -/
def Exists (w : World σ ι κ) : Prop := (∃ q, w.qu w.depth = some q) ∧ ∃ q, w.qz w.depth = some q

/-- A session in which the posteriors are those of the process, and those that do not exist yet have the given values. -/
def session (qu : NatNormal ι) (qz : NatNormal κ) (w : World σ ι κ) : Session ι κ :=
  ⟨⟨w.depth, fun i => (w.qu i).getD qu, fun i => (w.qz i).getD qz⟩, w.samplesU, w.samplesZ, w.ts⟩

/-- The distribution that a posterior is initialised with. -/
noncomputable def initial {n : Type} [DecidableEq n] (x : n → ℝ) : NatNormal n := ⟨x, (1 / 10 : ℝ) • 1⟩

end Spec

section general

variable (G : Gen σ ι κ) (C : Chols ι κ) (m : Inst ι κ) (W : ℕ → (ι → ℝ) × (κ → ℝ))

theorem parametrise_some {n : Type} [DecidableEq n] (randn : σ → (n → ℝ) × σ) (q : NatNormal n) (g : σ) :
    parametrise randn (some q) g = (q, (randn g).2) := rfl

theorem parametrise_eq {n : Type} [DecidableEq n] (randn : σ → (n → ℝ) × σ) (q : Option (NatNormal n)) (g : σ) :
    parametrise randn q g = (q.getD (Spec.initial (randn g).1), (randn g).2) := by
  cases q with
  | some q => rfl
  | none =>
    simp only [parametrise, Spec.initial, Option.getD_none]
    norm_num

/-- **C215** Looking at a posterior that exists changes nothing about the model, but it moves the global random state: random numbers
that are drawn afterwards are others. -/
theorem c215_read_existing (w : World σ ι κ) (h : Spec.Exists w) :
    Spec.SameModel (w.readU G).2 w ∧ Spec.SameModel (w.readZ G).2 w ∧
      w.qu w.depth = some (w.readU G).1 ∧ w.qz w.depth = some (w.readZ G).1 ∧
      (w.readU G).2.state = (G.randnU w.state).2 ∧ (w.readZ G).2.state = (G.randnZ w.state).2 := by
  obtain ⟨⟨qu, hu⟩, qz, hz⟩ := h
  refine ⟨⟨rfl, ?_, rfl, rfl, rfl, rfl⟩, ⟨rfl, rfl, ?_, rfl, rfl, rfl⟩, ?_, ?_, ?_, ?_⟩
  · funext i
    simp only [World.readU, hu, parametrise_some]
    split_ifs with hi
    · rw [hi, hu]
    · rfl
  · funext i
    simp only [World.readZ, hz, parametrise_some]
    split_ifs with hi
    · rw [hi, hz]
    · rfl
  · simp only [World.readU, hu, parametrise_some]
  · simp only [World.readZ, hz, parametrise_some]
  · simp only [World.readU, hu, parametrise_some]
  · simp only [World.readZ, hz, parametrise_some]

/-- The two accesses at the start of a fit. -/
theorem reads_eq (w : World σ ι κ) :
    (w.readU G).1 = (w.qu w.depth).getD (Spec.initial (G.randnU w.state).1) ∧
      ((w.readU G).2.readZ G).1 = (w.qz w.depth).getD (Spec.initial (G.randnZ (G.randnU w.state).2).1) := by
  simp only [World.readU, World.readZ, parametrise_eq, and_self]

/-- **C215** A fit by coordinate ascent is the fit of `Session`, in which the posteriors that do not exist yet are initialised with means
from the global random state: first the filter, then the excitation. Nothing else of that state enters. -/
theorem c215_ca (d : List (ℝ × ℝ)) (iters : ℤ) (w : World σ ι κ) :
    let s := (Spec.session (Spec.initial (G.randnU w.state).1) (Spec.initial (G.randnZ (G.randnU w.state).2).1) w).fitCA C m d iters
    let w' := w.fitCA G C m d iters
    w'.qu w.depth = some s.posts.qU ∧ w'.qz w.depth = some s.posts.qZ ∧ w'.depth = s.posts.qi ∧
      (∀ i, i ≠ w.depth → w'.qu i = w.qu i ∧ w'.qz i = w.qz i) ∧
      w'.samplesU = w.samplesU ∧ w'.samplesZ = w.samplesZ ∧ w'.ts = w.ts := by
  have e := reads_eq G w
  refine ⟨?_, ?_, rfl, fun i hi => ⟨?_, ?_⟩, rfl, rfl, rfl⟩
  · simp only [World.fitCA, e.1, e.2, World.setU, World.setZ, World.readZ, World.readU, Session.fitCA, fitMeanFieldCA, Spec.session,
      Posts.qU, Posts.qZ, Posts.setU, Posts.setZ, if_true, parametrise_eq]
  · simp only [World.fitCA, e.1, e.2, World.setU, World.setZ, World.readZ, World.readU, Session.fitCA, fitMeanFieldCA, Spec.session,
      Posts.qU, Posts.qZ, Posts.setU, Posts.setZ, if_true, parametrise_eq]
  · simp [World.fitCA, World.setU, World.setZ, World.readZ, World.readU, hi]
  · simp [World.fitCA, World.setU, World.setZ, World.readZ, World.readU, hi]

/-- **C215** The same for the structured scheme: the samples and the error are those of `Session`. -/
theorem c215_structured (d : List (ℝ × ℝ)) (iters : ℤ) (w : World σ ι κ) :
    let s := (Spec.session (Spec.initial (G.randnU w.state).1) (Spec.initial (G.randnZ (G.randnU w.state).2).1) w).fitStructured C m W d iters
    let w' := w.fitStructured G C m W d iters
    w'.2 = s.2 ∧ w'.1.samplesU = s.1.samplesU ∧ w'.1.samplesZ = s.1.samplesZ ∧ w'.1.depth = s.1.posts.qi ∧ w'.1.ts = s.1.ts ∧
      w'.1.qu w.depth = some s.1.posts.qU ∧ w'.1.qz w.depth = some s.1.posts.qZ ∧
      ∀ i, i ≠ w.depth → w'.1.qu i = w.qu i ∧ w'.1.qz i = w.qz i := by
  have e := reads_eq G w
  obtain ⟨r, hr⟩ : ∃ r, r = Fit.gibbsLoop (gibbsU C m (constructDataTerms C m d) W) (gibbsZ C m (constructDataTerms C m d) W) none
      (iters / 2).toNat 0 (1, ((w.qu w.depth).getD (Spec.initial (G.randnU w.state).1)).sample C.u (W 0).1,
        ((w.qz w.depth).getD (Spec.initial (G.randnZ (G.randnU w.state).2).1)).sample C.z (W 0).2) := ⟨_, rfl⟩
  simp only [Session.fitStructured, World.fitStructured, e.1, e.2, Spec.session, Posts.qU, Posts.qZ]
  rw [← hr]
  rcases hx : r.2.getLast? with _ | x
  · refine ⟨rfl, rfl, rfl, rfl, rfl, ?_, ?_, fun i hi => ⟨?_, ?_⟩⟩
    · simp [World.readU, World.readZ, parametrise_eq, Posts.qU, Spec.session]
    · simp [World.readU, World.readZ, parametrise_eq, Posts.qZ, Spec.session]
    · simp [World.readU, World.readZ, hi]
    · simp [World.readU, World.readZ, hi]
  · refine ⟨rfl, rfl, rfl, rfl, rfl, ?_, ?_, fun i hi => ⟨?_, ?_⟩⟩
    · simp [World.readU, World.readZ, parametrise_eq, Posts.qU, Spec.session, World.setSamples, Session.setSamples]
    · simp [World.readU, World.readZ, parametrise_eq, Posts.qZ, Spec.session, World.setSamples, Session.setSamples]
    · simp [World.readU, World.readZ, hi, World.setSamples]
    · simp [World.readU, World.readZ, hi, World.setSamples]

theorem gibbsLoop_start {S U Z : Type} (su : S → Z → S × U) (sz : S → U → S × Z) (sub : Option ℕ) (k i : ℕ) (s : S) (u u' : U) (z : Z) :
    Fit.gibbsLoop su sz sub (k + 1) i (s, u, z) = Fit.gibbsLoop su sz sub (k + 1) i (s, u', z) := rfl

/-- **C215** The structured scheme does not use the random numbers that the filter is initialised with: only those of the excitation
matter. -/
theorem c215_filter_unused (d : List (ℝ × ℝ)) (iters : ℤ) (s : Session ι κ) (q : NatNormal ι) :
    ((s.fitStructured C m W d iters).1.samplesU, (s.fitStructured C m W d iters).1.samplesZ, (s.fitStructured C m W d iters).2) =
      let s' := ({ s with posts := s.posts.setU q } : Session ι κ).fitStructured C m W d iters
      (s'.1.samplesU, s'.1.samplesZ, s'.2) := by
  by_cases hi : 2 ≤ iters
  · obtain ⟨k, hk⟩ : ∃ k, (iters / 2).toNat = k + 1 := ⟨(iters / 2).toNat - 1, by omega⟩
    simp only [Session.fitStructured, hk, Posts.setU, Posts.qU, Posts.qZ, if_true]
    rw [gibbsLoop_start _ _ _ _ _ _ (NatNormal.sample C.u q (W 0).1) ((s.posts.qu s.posts.qi).sample C.u (W 0).1)]
    split <;> rfl
  · rw [Gpcm.fitStructured_few C m W d iters (by omega), Gpcm.fitStructured_few C m W d iters (by omega)]

/-- The operations that matter once the posteriors exist. -/
def Spec.fits : List (World.Op σ) → List (World.Op σ) := List.filter fun o => match o with
  | .fit _ _ => true
  | .condition _ => true
  | _ => false

theorem SameModel.fitCA {w w' : World σ ι κ} (h : Spec.SameModel w w') (he : Spec.Exists w) (d : List (ℝ × ℝ)) (iters : ℤ) :
    Spec.SameModel (w.fitCA G C m d iters) (w'.fitCA G C m d iters) ∧ Spec.Exists (w.fitCA G C m d iters) := by
  obtain ⟨g, n, qu, qz, su, sz, ts⟩ := w
  obtain ⟨g', n', qu', qz', su', sz', ts'⟩ := w'
  obtain ⟨h1, h2, h3, h4, h5, h6⟩ := h
  obtain ⟨⟨a, ha⟩, b, hb⟩ := he
  simp only at h1 h2 h3 h4 h5 h6 ha hb
  subst h1 h2 h3 h4 h5 h6
  refine ⟨⟨rfl, ?_, ?_, rfl, rfl, rfl⟩, ⟨_, (c215_ca G C m d iters _).1⟩, ⟨_, (c215_ca G C m d iters _).2.1⟩⟩
  · simp only [World.fitCA, World.setU, World.setZ, World.readZ, World.readU, parametrise_eq, ha, hb, Option.getD_some]
    funext i
    by_cases hi : i = n <;> simp [hi]
  · simp only [World.fitCA, World.setU, World.setZ, World.readZ, World.readU, parametrise_eq, ha, hb, Option.getD_some]
    funext i
    by_cases hi : i = n <;> simp [hi]

theorem SameModel.fitStructured {w w' : World σ ι κ} (h : Spec.SameModel w w') (he : Spec.Exists w) (d : List (ℝ × ℝ)) (iters : ℤ) :
    (Spec.SameModel (w.fitStructured G C m W d iters).1 (w'.fitStructured G C m W d iters).1 ∧
      (w.fitStructured G C m W d iters).2 = (w'.fitStructured G C m W d iters).2) ∧ Spec.Exists (w.fitStructured G C m W d iters).1 := by
  obtain ⟨g, n, qu, qz, su, sz, ts⟩ := w
  obtain ⟨g', n', qu', qz', su', sz', ts'⟩ := w'
  obtain ⟨h1, h2, h3, h4, h5, h6⟩ := h
  obtain ⟨⟨a, ha⟩, b, hb⟩ := he
  simp only at h1 h2 h3 h4 h5 h6 ha hb
  subst h1 h2 h3 h4 h5 h6
  simp only [World.fitStructured, World.readZ, World.readU, parametrise_eq, ha, hb, Option.getD_some]
  split
  · exact ⟨⟨⟨rfl, rfl, rfl, rfl, rfl, rfl⟩, rfl⟩, ⟨_, if_pos rfl⟩, _, if_pos rfl⟩
  · exact ⟨⟨⟨rfl, rfl, rfl, rfl, rfl, rfl⟩, rfl⟩, ⟨_, if_pos rfl⟩, _, if_pos rfl⟩

/-- **C215** Once the posteriors of a model exist, fits do not depend on the global random state: whatever random numbers are drawn before
or between them, and however often the posteriors are looked at, the model is in the end what the fits alone make of it. -/
theorem c215_existing_partial (structured : Bool) (ops : List (World.Op σ)) (hops : ∀ d, .condition d ∉ ops) (w w' : World σ ι κ)
    (h : Spec.SameModel w w') (he : Spec.Exists w) :
    Spec.SameModel (ops.foldl (World.run G C m structured W) w) ((Spec.fits ops).foldl (World.run G C m structured W) w') := by
  induction ops generalizing w w' with
  | nil => exact h
  | cons o ops ih =>
    have hops' : ∀ d, .condition d ∉ ops := fun d hd => hops d (List.mem_cons_of_mem _ hd)
    have he' : Spec.Exists w' := by
      obtain ⟨h1, h2, h3, -⟩ := h
      rw [Spec.Exists, ← h1, ← h2, ← h3]
      exact he
    cases o with
    | fit d iters =>
      cases structured with
      | true =>
        obtain ⟨⟨a, -⟩, b⟩ := SameModel.fitStructured G C m W h he d iters
        exact ih hops' _ _ a b
      | false =>
        obtain ⟨a, b⟩ := SameModel.fitCA G C m h he d iters
        exact ih hops' _ _ a b
    | condition d => exact absurd List.mem_cons_self (hops d)
    | read =>
      have e : Spec.SameModel ((w.readU G).2.readZ G).2 w := by
        obtain ⟨a, -⟩ := c215_read_existing G w he
        have he2 : Spec.Exists (w.readU G).2 := by
          obtain ⟨h1, h2, h3, -⟩ := a
          rw [Spec.Exists, h1, h2, h3]
          exact he
        obtain ⟨-, b, -⟩ := c215_read_existing G _ he2
        exact ⟨b.1.trans a.1, b.2.1.trans a.2.1, b.2.2.1.trans a.2.2.1, b.2.2.2.1.trans a.2.2.2.1, b.2.2.2.2.1.trans a.2.2.2.2.1,
          b.2.2.2.2.2.trans a.2.2.2.2.2⟩
      have he2 : Spec.Exists ((w.readU G).2.readZ G).2 := by
        obtain ⟨h1, h2, h3, -⟩ := e
        rw [Spec.Exists, h1, h2, h3]
        exact he
      exact ih hops' _ _ ⟨e.1.trans h.1, e.2.1.trans h.2.1, e.2.2.1.trans h.2.2.1, e.2.2.2.1.trans h.2.2.2.1,
        e.2.2.2.2.1.trans h.2.2.2.2.1, e.2.2.2.2.2.trans h.2.2.2.2.2⟩ he2
    | other f => exact ih hops' (w.other f) w' h he

end general

/-! ## A model that has not been fitted -/

/-- A generator that always returns the number that its state is. -/
def exGen : Gen ℝ (Fin 1) (Fin 1) := ⟨fun g => (fun _ => g, g), fun g => (fun _ => g, g)⟩

variable (C : Chols (Fin 1) (Fin 1))

theorem ex_initial_posDef (g : Fin 1 → ℝ) : (Spec.initial g).prec.PosDef :=
  Matrix.PosDef.smul Matrix.PosDef.one (by norm_num)

theorem ex_sign (ε : ℝ) (k : ℕ) (p : Pair (Fin 1) (Fin 1)) (hu : p.u.prec.PosDef) (hz : p.z.prec.PosDef)
    (h1 : 0 < ε * p.u.lam 0) (h2 : 0 < ε * p.z.lam 0) :
    let r := (caLoop (caStep C exInst (constructDataTerms C exInst [(0, 1)])) Pair.diff k p).1
    r.u.prec.PosDef ∧ 0 < ε * r.u.lam 0 := by
  have := caLoop_inv (step := caStep C exInst (constructDataTerms C exInst [(0, 1)])) Pair.diff
    (P := fun p => (p.u.prec.PosDef ∧ 0 < ε * p.u.lam 0) ∧ p.z.prec.PosDef ∧ 0 < ε * p.z.lam 0) (fun p hp => ?_) k (p := p) ⟨⟨hu, h1⟩, hz, h2⟩
  · exact this.1
  · obtain ⟨-, hz, h2⟩ := hp
    have a := step_u_ex C 1 hz
    have b := quOptimalMF_posDef C exInst_valid [(0, 1)] hz
    have c := step_z_ex C 1 b
    have pz : 0 < p.z.prec 0 0 := hz.diag_pos
    have pu := b.diag_pos (i := 0)
    have e1 : 0 < ε * (quOptimalMF C exInst (constructDataTerms C exInst [(0, 1)]) p.z).lam 0 := by
      rw [a.1, one_mul, ← mul_div_assoc]
      positivity
    refine ⟨⟨b, e1⟩, qzOptimalMF_posDef C exInst_valid _ b, ?_⟩
    simp only [caStep]
    rw [c.1, one_mul, ← mul_div_assoc]
    positivity

theorem ex_ca_sign {σ : Type} (G : Gen σ (Fin 1) (Fin 1)) (ε : ℝ) (iters : ℤ) (w : World σ (Fin 1) (Fin 1)) (hu : w.qu w.depth = none)
    (hz : w.qz w.depth = none) (h1 : 0 < ε * (G.randnU w.state).1 0) (h2 : 0 < ε * (G.randnZ (G.randnU w.state).2).1 0) : ∃ q,
    (World.fitCA G C exInst [(0, 1)] iters w).qu w.depth = some q ∧ 0 < ε * q.mean C.u 0 := by
  refine ⟨_, (c215_ca G C exInst [(0, 1)] iters w).1, ?_⟩
  have := ex_sign C ε iters.toNat ⟨Spec.initial (G.randnU w.state).1, Spec.initial (G.randnZ (G.randnU w.state).2).1⟩
    (ex_initial_posDef _) (ex_initial_posDef _) h1 h2
  have e : 0 < ε * NatNormal.mean C.u (caLoop (caStep C exInst (constructDataTerms C exInst [(0, 1)])) Pair.diff iters.toNat
      ⟨Spec.initial (G.randnU w.state).1, Spec.initial (G.randnZ (G.randnU w.state).2).1⟩).1.u 0 := by
    rw [mean_fin1 C.u this.1, ← mul_div_assoc]
    exact div_pos this.2 this.1.diag_pos
  simpa [Session.fitCA, fitMeanFieldCA, Posts.setU, Posts.setZ, Posts.qU, Posts.qZ, Spec.session, hu, hz] using e

/-- **C215, refuted** for new models: fits of the same new model to the same data after different random numbers have been drawn never
agree, however many iterations they make: the filters that they find have opposite signs. -/
theorem c215_ca_false (iters : ℤ) : ∃ q q' : NatNormal (Fin 1),
    (World.fitCA exGen C exInst [(0, 1)] iters (.new 1)).qu 0 = some q ∧ 0 < q.mean C.u 0 ∧
      (World.fitCA exGen C exInst [(0, 1)] iters ((World.new 1).other fun _ => -1)).qu 0 = some q' ∧ q'.mean C.u 0 < 0 := by
  obtain ⟨q, h1, h2⟩ := ex_ca_sign C exGen 1 iters (.new 1) rfl rfl (by simp [exGen, World.new]) (by simp [exGen, World.new])
  obtain ⟨q', h3, h4⟩ := ex_ca_sign C exGen (-1) iters ((World.new 1).other fun _ => -1) rfl rfl
    (by simp [exGen, World.other]) (by simp [exGen, World.other])
  exact ⟨q, q', h1, by linarith, h3, by linarith⟩

theorem gibbsLoop_inv {S U Z : Type} {su : S → Z → S × U} {sz : S → U → S × Z} {P : U → Prop} {Q : Z → Prop}
    (hu : ∀ s z, Q z → P (su s z).2) (hz : ∀ s u, P u → Q (sz s u).2) (sub : Option ℕ) (k i : ℕ) (x : S × U × Z) (hx : Q x.2.2) :
    ∀ y ∈ (Fit.gibbsLoop su sz sub k i x).2, P y.1 ∧ Q y.2 := by
  induction k generalizing i x with
  | zero => simp [Fit.gibbsLoop]
  | succ k ih =>
    have h1 := hu x.1 x.2.2 hx
    have h2 := hz (su x.1 x.2.2).1 _ h1
    have h3 := ih (i + 1) ((sz (su x.1 x.2.2).1 (su x.1 x.2.2).2).1, (su x.1 x.2.2).2, (sz (su x.1 x.2.2).1 (su x.1 x.2.2).2).2) h2
    rw [Fit.gibbsLoop]
    split_ifs
    · intro y hy
      rcases List.mem_cons.1 hy with e | e
      · rw [e]
        exact ⟨h1, h2⟩
      · exact h3 y e
    · exact h3

theorem ex_gibbs_sign (ε : ℝ) (sub : Option ℕ) (k i : ℕ) (x : ℕ × (Fin 1 → ℝ) × (Fin 1 → ℝ)) (hx : 0 < ε * x.2.2 0) :
    ∀ y ∈ (Fit.gibbsLoop (gibbsU C exInst (constructDataTerms C exInst [(0, 1)]) fun _ => 0)
      (gibbsZ C exInst (constructDataTerms C exInst [(0, 1)]) fun _ => 0) sub k i x).2, 0 < ε * y.1 0 ∧ 0 < ε * y.2 0 := by
  refine gibbsLoop_inv (P := fun u : Fin 1 → ℝ => 0 < ε * u 0) (Q := fun z : Fin 1 → ℝ => 0 < ε * z 0) (fun s z h => ?_) (fun s u h => ?_) sub k i x hx
  · have hp := quOptimal_posDef C exInst_valid [(0, 1)] z
    simp only [gibbsU, Prod.fst_zero]
    rw [NatNormal.sample_eq C.u hp, mulVec_zero, add_zero, mean_fin1 C.u hp, ex_lam_u]
    have := hp.diag_pos (i := 0)
    rw [← mul_div_assoc]
    simp only [List.map_cons, List.map_nil, Real.cos_zero, mul_one, List.sum_cons, List.sum_nil, add_zero, one_mul]
    positivity
  · have hp := qzOptimal_posDef C exInst_valid [(0, 1)] u
    simp only [gibbsZ, Prod.snd_zero]
    rw [NatNormal.sample_eq C.z hp, mulVec_zero, add_zero, mean_fin1 C.z hp, ex_lam_z]
    have := hp.diag_pos (i := 0)
    rw [← mul_div_assoc]
    simp only [List.map_cons, List.map_nil, Real.cos_zero, mul_one, List.sum_cons, List.sum_nil, add_zero, one_mul]
    positivity

theorem ex_structured_sign (ε g : ℝ) (hg : 0 < ε * g) (iters : ℤ) (hi : 2 ≤ iters) : ∃ us,
    (World.fitStructured exGen C exInst (fun _ => 0) [(0, 1)] iters (.new g)).1.samplesU 0 = some us ∧ us ≠ [] ∧ ∀ u ∈ us, 0 < ε * u 0 := by
  obtain ⟨k, hk⟩ : ∃ k, (iters / 2).toNat = k + 1 := ⟨(iters / 2).toNat - 1, by omega⟩
  have hz : 0 < ε * (Spec.initial fun _ : Fin 1 => g).sample C.z 0 0 := by
    have hp := ex_initial_posDef fun _ => g
    rw [NatNormal.sample_eq C.z hp, mulVec_zero, add_zero, mean_fin1 C.z hp]
    have := hp.diag_pos (i := 0)
    rw [← mul_div_assoc]
    exact div_pos hg this
  have e := reads_eq exGen (.new g : World ℝ (Fin 1) (Fin 1))
  obtain ⟨r, hr⟩ : ∃ r, r = Fit.gibbsLoop (gibbsU C exInst (constructDataTerms C exInst [(0, 1)]) fun _ => 0)
      (gibbsZ C exInst (constructDataTerms C exInst [(0, 1)]) fun _ => 0) none (k + 1) 0
      (1, (Spec.initial fun _ : Fin 1 => g).sample C.u 0, (Spec.initial fun _ : Fin 1 => g).sample C.z 0) := ⟨_, rfl⟩
  have hr2 : ∀ y ∈ r.2, 0 < ε * y.1 0 ∧ 0 < ε * y.2 0 := by
    rw [hr]
    exact ex_gibbs_sign C ε none (k + 1) 0 _ hz
  have hne : r.2 ≠ [] := by
    rw [hr, Fit.gibbsLoop]
    simp
  obtain ⟨x, hx⟩ : ∃ x, r.2.getLast? = some x := ⟨_, List.getLast?_eq_some_getLast hne⟩
  obtain ⟨th, hth⟩ : ∃ th : ℤ, th = if 1000 < iters then iters / 1000 else 1 := ⟨_, rfl⟩
  have h1 : 1 ≤ th := by
    rw [hth]
    split_ifs <;> omega
  obtain ⟨j, hj⟩ : ∃ j, (th * 1000).toNat = j + 1 := ⟨(th * 1000).toNat - 1, by omega⟩
  have h2 := ex_gibbs_sign C ε (some th.toNat) (j + 1) 0 (r.1, x) (hr2 x (List.mem_of_getLast? hx)).2
  refine ⟨(Fit.gibbsLoop (gibbsU C exInst (constructDataTerms C exInst [(0, 1)]) fun _ => 0)
    (gibbsZ C exInst (constructDataTerms C exInst [(0, 1)]) fun _ => 0) (some th.toNat) (j + 1) 0 (r.1, x)).2.map Prod.fst, ?_, ?_, ?_⟩
  · simp only [World.fitStructured, e.1, e.2, hk]
    simp only [World.new, Option.getD_none, exGen, Prod.fst_zero, Prod.snd_zero]
    rw [← hr, hx]
    simp only [World.setSamples, World.readU, World.readZ, if_true]
    rw [← hth, hj]
  · rw [ne_eq, List.map_eq_nil_iff, Fit.gibbsLoop, if_pos (Or.inr ⟨_, rfl, Nat.zero_mod _⟩)]
    simp
  · intro u hu
    obtain ⟨y, hy, rfl⟩ := List.mem_map.1 hu
    exact (h2 y hy).1

/-- **C215, refuted** for the structured scheme too: although `fit` makes its own random state from a fixed seed, the samples of fits of the
same new model to the same data have opposite signs after different random numbers have been drawn. The numbers from the fixed seed are
taken to be zero here. -/
theorem c215_structured_false (iters : ℤ) (hi : 2 ≤ iters) : ∃ us us',
    (World.fitStructured exGen C exInst (fun _ => 0) [(0, 1)] iters (.new 1)).1.samplesU 0 = some us ∧ us ≠ [] ∧ (∀ u ∈ us, 0 < u 0) ∧
      (World.fitStructured exGen C exInst (fun _ => 0) [(0, 1)] iters ((World.new 1).other fun _ => -1)).1.samplesU 0 = some us' ∧
      us' ≠ [] ∧ ∀ u ∈ us', u 0 < 0 := by
  obtain ⟨us, a1, a2, a3⟩ := ex_structured_sign C 1 1 (by norm_num) iters hi
  obtain ⟨us', b1, b2, b3⟩ := ex_structured_sign C (-1) (-1) (by norm_num) iters hi
  exact ⟨us, us', a1, a2, fun u hu => by linarith [a3 u hu], b1, b2, fun u hu => by linarith [b3 u hu]⟩

/-- The posteriors of a model exist after a fit, so that the condition of `c215_existing_partial` holds from then on. -/
example (iters : ℤ) : Spec.Exists (World.fitCA exGen C exInst [(0, 1)] iters (.new 1)) :=
  ⟨⟨_, (c215_ca exGen C exInst [(0, 1)] iters (.new 1)).1⟩, _, (c215_ca exGen C exInst [(0, 1)] iters (.new 1)).2.1⟩

end Gpcm.Global
