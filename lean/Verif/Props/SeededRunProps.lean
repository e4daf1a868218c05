import Verif.Model.SeededRun
import Verif.Props.GlobalStateProps
import Verif.Props.ExperimentProps

/-!
# Property C216: what an experiment finds for a model, and the other models
-/

set_option linter.unusedSectionVars false

namespace Gpcm.Seeded

open Experiments

variable {γ s num vec : Type}

namespace Spec

/-- The models in the order in which experiments train them. -/
def order : List Kind := [.gpcm, .cgpcm, .rgpcm]

/-- What was found for a model. -/
def found (k : Kind) (r : List (Kind × s)) : Option s := (r.find? fun x => x.1 = k).map Prod.snd

/-- `names` and `names'` ask for the same models before `k`. -/
def SameBefore (names names' : List String) (k : Kind) : Prop :=
  ∀ k' ∈ order.takeWhile (· ≠ k), (k'.name ∈ names ↔ k'.name ∈ names')

end Spec

section general

variable (S : SetOrder) (T : Trainer γ s) (seeded : ℤ → γ) (new : Call num vec → s) (c : Common num vec) (nZ : Option ℕ) (ext : Bool)

/-- The models that are trained. -/
def trainees (names : List String) : List (Kind × s) :=
  (Spec.order.filter fun k => k.name ∈ names).map fun k => (k, T.init k (new (callOf c nZ ext k)))

theorem train_eq {names : List String} (h : ∀ n ∈ names, n ∈ ["gpcm", "cgpcm", "gprv"]) (seed : ℤ) :
    train S T seeded new names c nZ ext seed = (fitAll T (trainees T new c nZ ext names) (seeded seed)).1 := by
  simp only [train, c78_builds S names c nZ ext h, trainees, Spec.order, List.map_map]
  congr 2
  refine List.map_congr_left fun k _ => ?_
  cases k <;> rfl

theorem train_known {names : List String} {seed : ℤ} {r : List (Kind × s)} (h : train S T seeded new names c nZ ext seed = .ok r) :
    ∀ n ∈ names, n ∈ ["gpcm", "cgpcm", "gprv"] := by
  intro n hn
  by_contra hc
  simp [train, c78_rejects S names c nZ ext hn hc] at h

/-- **C216** The order in which `--model` lists the models, and listing one twice, makes no difference. -/
theorem c216_order {names names' : List String} (h : ∀ n, n ∈ names ↔ n ∈ names') (hk : ∀ n ∈ names, n ∈ ["gpcm", "cgpcm", "gprv"])
    (seed : ℤ) : train S T seeded new names c nZ ext seed = train S T seeded new names' c nZ ext seed := by
  rw [train_eq S T seeded new c nZ ext hk, train_eq S T seeded new c nZ ext fun n hn => hk n ((h n).2 hn)]
  simp only [trainees, h]

theorem fitAll_append (l l' : List (Kind × s)) (g : γ) {r : List (Kind × s)} (h : (fitAll T (l ++ l') g).1 = .ok r) :
    ∃ a b, (fitAll T l g).1 = .ok a ∧ (fitAll T l' (fitAll T l g).2).1 = .ok b ∧ r = a ++ b := by
  induction l generalizing g r with
  | nil => exact ⟨[], r, rfl, h, rfl⟩
  | cons x l ih =>
    rw [List.cons_append, fitAll] at h
    rw [fitAll]
    rcases hx : T.fit x.1 x.2 g with ⟨_ | y, g'⟩
    · simp [hx] at h
    · simp only [hx] at h ⊢
      rcases hl : fitAll T (l ++ l') g' with ⟨_ | r', g''⟩
      · simp [hl] at h
      · simp only [hl, Except.ok.injEq] at h
        obtain ⟨a, b, h1, h2, h3⟩ := ih g' (r := r') (by rw [hl])
        rcases ha : fitAll T l g' with ⟨_ | a', g3⟩
        · simp [ha] at h1
        · simp only [ha, Except.ok.injEq] at h1 h2 ⊢
          exact ⟨_, b, rfl, h2, by rw [← h, h3, h1]; rfl⟩

theorem fitAll_kinds (l : List (Kind × s)) (g : γ) {r : List (Kind × s)} (h : (fitAll T l g).1 = .ok r) :
    r.map Prod.fst = l.map Prod.fst := by
  induction l generalizing g r with
  | nil =>
    simp only [fitAll, Except.ok.injEq] at h
    rw [← h]
  | cons x l ih =>
    rw [fitAll] at h
    rcases hx : T.fit x.1 x.2 g with ⟨_ | y, g'⟩
    · simp [hx] at h
    · rcases hl : fitAll T l g' with ⟨_ | r', g''⟩
      · simp [hx, hl] at h
      · simp only [hx, hl, Except.ok.injEq] at h
        rw [← h, List.map_cons, List.map_cons, ih g' (r := r') (by rw [hl])]

/-- What is found for the model after those of `l`. -/
theorem found_append (l l' : List (Kind × s)) (k : Kind) (m : s) (g : γ) {r : List (Kind × s)} (hl : k ∉ l.map Prod.fst)
    (h : (fitAll T (l ++ (k, m) :: l') g).1 = .ok r) : ∃ m', (T.fit k m (fitAll T l g).2).1 = .ok m' ∧ Spec.found k r = some m' := by
  obtain ⟨a, b, h1, h2, rfl⟩ := fitAll_append T l _ g h
  have hk := fitAll_kinds T l g h1
  rw [← hk] at hl
  rw [fitAll] at h2
  rcases hx : T.fit k m (fitAll T l g).2 with ⟨_ | y, g'⟩
  · simp [hx] at h2
  · simp only [hx] at h2
    rcases hl' : fitAll T l' g' with ⟨_ | r', g''⟩
    · simp [hl'] at h2
    · simp only [hl', Except.ok.injEq] at h2
      refine ⟨y, rfl, ?_⟩
      rw [Spec.found, List.find?_append, List.find?_eq_none.2 fun x hx hxk => hl ?_, ← h2]
      · simp
      · simp only [decide_eq_true_eq] at hxk
        exact List.mem_map.2 ⟨x, hx, hxk⟩

theorem order_split (k : Kind) : ∃ l l', Spec.order = l ++ k :: l' ∧ l = Spec.order.takeWhile (· ≠ k) ∧ k ∉ l := by
  cases k
  · exact ⟨[], [.cgpcm, .rgpcm], rfl, rfl, by simp⟩
  · exact ⟨[.gpcm], [.rgpcm], rfl, rfl, by simp⟩
  · exact ⟨[.gpcm, .cgpcm], [], rfl, rfl, by simp⟩

/-- The models before `k`. -/
def before (names : List String) (k : Kind) : List (Kind × s) :=
  ((Spec.order.takeWhile (· ≠ k)).filter fun k => k.name ∈ names).map fun k => (k, T.init k (new (callOf c nZ ext k)))

theorem found_train {names : List String} {k : Kind} (hk : k.name ∈ names) {seed : ℤ} {r : List (Kind × s)}
    (h : train S T seeded new names c nZ ext seed = .ok r) :
    ∃ m, (T.fit k (T.init k (new (callOf c nZ ext k))) (fitAll T (before T new c nZ ext names k) (seeded seed)).2).1 = .ok m ∧
      Spec.found k r = some m := by
  have hn := train_known S T seeded new c nZ ext h
  rw [train_eq S T seeded new c nZ ext hn] at h
  obtain ⟨l, l', h1, h2, h3⟩ := order_split k
  have e : trainees T new c nZ ext names = before T new c nZ ext names k ++ (k, T.init k (new (callOf c nZ ext k))) ::
      (l'.filter fun k => k.name ∈ names).map fun k => (k, T.init k (new (callOf c nZ ext k))) := by
    rw [trainees, before, ← h2, h1, List.filter_append, List.map_append, List.filter_cons, if_pos (by simpa using hk), List.map_cons]
  rw [e] at h
  refine found_append T _ _ k _ _ ?_ h
  rw [before, ← h2, List.map_map]
  intro hm
  obtain ⟨k', hk', rfl⟩ := List.mem_map.1 hm
  exact h3 (List.mem_filter.1 hk').1

/-- **C216** What an experiment finds for a model does not depend on the models that are trained after it. In particular, the result for
the GPCM, which is trained first, does not depend on the others at all. -/
theorem c216_later_partial {names names' : List String} {k : Kind} (hk : k.name ∈ names) (hk' : k.name ∈ names')
    (hb : Spec.SameBefore names names' k) {seed : ℤ} {r r' : List (Kind × s)} (h : train S T seeded new names c nZ ext seed = .ok r)
    (h' : train S T seeded new names' c nZ ext seed = .ok r') : Spec.found k r = Spec.found k r' ∧ Spec.found k r ≠ none := by
  obtain ⟨m, h1, h2⟩ := found_train S T seeded new c nZ ext hk h
  obtain ⟨m', h1', h2'⟩ := found_train S T seeded new c nZ ext hk' h'
  have e : before T new c nZ ext names k = before T new c nZ ext names' k := by
    rw [before, before]
    congr 1
    refine List.filter_congr fun k' hk' => ?_
    simp only [hb k' hk']
  rw [← e, h1, Except.ok.injEq] at h1'
  rw [h2, h2', h1']
  exact ⟨rfl, by simp⟩

/-- **C216** Nor does it depend on those before it, nor on the seed, if training the model does not use the global random state. -/
theorem c216_stateless_partial {names names' : List String} {k : Kind} (hk : k.name ∈ names) (hk' : k.name ∈ names')
    (hT : ∀ g g', (T.fit k (T.init k (new (callOf c nZ ext k))) g).1 = (T.fit k (T.init k (new (callOf c nZ ext k))) g').1)
    {seed seed' : ℤ} {r r' : List (Kind × s)} (h : train S T seeded new names c nZ ext seed = .ok r)
    (h' : train S T seeded new names' c nZ ext seed' = .ok r') : Spec.found k r = Spec.found k r' ∧ Spec.found k r ≠ none := by
  obtain ⟨m, h1, h2⟩ := found_train S T seeded new c nZ ext hk h
  obtain ⟨m', h1', h2'⟩ := found_train S T seeded new c nZ ext hk' h'
  rw [hT _ (fitAll T (before T new c nZ ext names k) (seeded seed)).2, h1, Except.ok.injEq] at h1'
  rw [h2, h2', h1']
  exact ⟨rfl, by simp⟩

end general

/-! ## Another model before it -/

/-- A generator whose first four results are positive, and whose later ones are negative. The state counts. -/
def countGen : Global.Gen ℕ (Fin 1) (Fin 1) :=
  ⟨fun n => (fun _ => if n < 4 then 1 else -1, n + 1), fun n => (fun _ => if n < 4 then 1 else -1, n + 1)⟩

/-- **C216, refuted** for new models: run for the CGPCM alone and run for the GPCM and the CGPCM, with the same seed, an experiment finds
filters of opposite sign for the CGPCM, however many iterations it makes. -/
theorem c216_false (S : SetOrder) (c : Common num vec) (nZ : Option ℕ) (ext : Bool) (C : Chols (Fin 1) (Fin 1)) (iters seed : ℤ) :
    ∃ r r' w w' q q',
      train S (caTrainer countGen C (fun _ => exInst) [(0, 1)] iters) (fun _ => 0) (fun _ => .new 0) ["cgpcm"] c nZ ext seed = .ok r ∧
      train S (caTrainer countGen C (fun _ => exInst) [(0, 1)] iters) (fun _ => 0) (fun _ => .new 0) ["gpcm", "cgpcm"] c nZ ext seed = .ok r' ∧
      Spec.found .cgpcm r = some w ∧ Spec.found .cgpcm r' = some w' ∧
      w.qu 0 = some q ∧ 0 < q.mean C.u 0 ∧ w'.qu 0 = some q' ∧ q'.mean C.u 0 < 0 := by
  obtain ⟨q, h1, h2⟩ := Global.ex_ca_sign C countGen 1 iters (.new 0) rfl rfl (by simp [countGen, Global.World.new])
    (by simp [countGen, Global.World.new])
  obtain ⟨q', h3, h4⟩ := Global.ex_ca_sign C countGen (-1) iters (.new 4) rfl rfl (by simp [countGen, Global.World.new])
    (by simp [countGen, Global.World.new])
  refine ⟨[(.cgpcm, { Global.World.fitCA countGen C exInst [(0, 1)] iters (.new 0) with state := 0 })],
    [(.gpcm, { Global.World.fitCA countGen C exInst [(0, 1)] iters (.new 0) with state := 0 }),
      (.cgpcm, { Global.World.fitCA countGen C exInst [(0, 1)] iters (.new 4) with state := 0 })], _, _, q, q', ?_, ?_, rfl, rfl, h1, by linarith, h3, by linarith⟩
  · rw [train_eq S _ _ _ c nZ ext (by simp)]
    rfl
  · rw [train_eq S _ _ _ c nZ ext (by simp)]
    rfl

/-- The conditions of `c216_later_partial` for the GPCM, with and without the GP-RV and the CGPCM after it. -/
example (S : SetOrder) (c : Common num vec) (C : Chols (Fin 1) (Fin 1)) (iters seed : ℤ) : ∃ r r',
    train S (caTrainer countGen C (fun _ => exInst) [(0, 1)] iters) (fun _ => 0) (fun _ => .new 0) ["gpcm"] c none false seed = .ok r ∧
      train S (caTrainer countGen C (fun _ => exInst) [(0, 1)] iters) (fun _ => 0) (fun _ => .new 0) ["gprv", "cgpcm", "gpcm"] c none false seed =
        .ok r' ∧ Spec.found .gpcm r = Spec.found .gpcm r' := by
  obtain ⟨r, h⟩ : ∃ r, train S (caTrainer countGen C (fun _ => exInst) [(0, 1)] iters) (fun _ => 0) (fun _ => .new 0) ["gpcm"] c none false
      seed = .ok r := ⟨_, by rw [train_eq S _ _ _ c none false (by simp)]; rfl⟩
  obtain ⟨r', h'⟩ : ∃ r', train S (caTrainer countGen C (fun _ => exInst) [(0, 1)] iters) (fun _ => 0) (fun _ => .new 0) ["gprv", "cgpcm", "gpcm"]
      c none false seed = .ok r' := ⟨_, by rw [train_eq S _ _ _ c none false (by simp)]; rfl⟩
  exact ⟨r, r', h, h', (c216_later_partial S _ _ _ c none false (k := .gpcm) (by simp [Kind.name]) (by simp [Kind.name])
    (by simp [Spec.SameBefore, Spec.order]) h h').1⟩

/-- The condition of `c216_stateless_partial` holds if the posteriors exist. -/
example (C : Chols (Fin 1) (Fin 1)) (iters : ℤ) (k : Kind) (g g' : ℕ) (w : Global.World ℕ (Fin 1) (Fin 1)) (hw : Global.Spec.Exists w) :
    ((caTrainer countGen C (fun _ => exInst) [(0, 1)] iters).fit k w g).1 = ((caTrainer countGen C (fun _ => exInst) [(0, 1)] iters).fit k w g').1 := by
  obtain ⟨h1, h2, h3, h4, h5, h6⟩ := (Global.SameModel.fitCA countGen C exInst (w := { w with state := g }) (w' := { w with state := g' })
    ⟨rfl, rfl, rfl, rfl, rfl, rfl⟩ hw [(0, 1)] iters).1
  simp only [caTrainer, h1, h2, h3, h4, h5, h6]

end Gpcm.Seeded
