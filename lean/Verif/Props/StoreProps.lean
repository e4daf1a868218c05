import Verif.Model.Vars

/-! # Properties C38, C39, C40 and C90: saving and loading -/

open Real

namespace Gpcm

set_option linter.unusedSectionVars false

variable {N V β : Type} [DecidableEq N]

theorem Vars.mem_names_iff (vs : Vars N V) (n : N) : n ∈ vs.names ↔ vs.get n ≠ none := by
  induction vs with
  | nil => simp [Vars.names, Vars.get]
  | cons p vs ih =>
    obtain ⟨m, v⟩ := p
    unfold Vars.names at ih ⊢
    by_cases h : m = n
    · simp [Vars.get, h]
    · simp only [List.map_cons, List.mem_cons, Vars.get, if_neg h]
      rw [← ih]
      simp [Ne.symm h]

theorem Vars.get_assign (vs : Vars N V) (n m : N) (x : V) : (vs.assign n x).get m =
    if m = n then (vs.get m).map (fun v => { v with latent := v.constraint.inv x }) else vs.get m := by
  induction vs with
  | nil => simp [Vars.assign, Vars.get]
  | cons p vs ih =>
    obtain ⟨k, v⟩ := p
    unfold Vars.assign at ih ⊢
    simp only [List.map_cons]
    by_cases hk : k = n
    · subst hk
      simp only [if_true, Vars.get]
      by_cases hm : k = m
      · subst hm; simp
      · rw [if_neg hm, if_neg hm, ih]
    · rw [if_neg hk]
      simp only [Vars.get]
      by_cases hm : k = m
      · subst hm; simp [hk]
      · rw [if_neg hm, if_neg hm, ih]

theorem Vars.get_append (vs ws : Vars N V) (n : N) :
    Vars.get (vs ++ ws) n = (vs.get n).or (Vars.get ws n) := by
  induction vs with
  | nil => simp [Vars.get]
  | cons p vs ih =>
    obtain ⟨k, v⟩ := p
    simp only [List.cons_append, Vars.get]
    split
    · rfl
    · exact ih

theorem Vars.get_declare (vs : Vars N V) (n m : N) (c : Constraint V) (x : V) (b : Bool) :
    (vs.declare n c x b).get m =
      if m = n ∧ vs.get n = none then some ⟨c, c.inv x, b⟩ else vs.get m := by
  unfold Vars.declare
  by_cases h : n ∈ vs.names
  · rw [if_pos h, if_neg]
    exact fun h' => (Vars.mem_names_iff vs n).1 h h'.2
  · have h0 : vs.get n = none := by
      by_contra h'
      exact h ((Vars.mem_names_iff vs n).2 h')
    rw [if_neg h, Vars.get_append]
    by_cases hm : m = n
    · subst hm; simp [h0, Vars.get]
    · simp [hm, Vars.get, Ne.symm hm]

/-- One loaded name. -/
theorem get_loadStep (vs : Vars N V) (p : N × V) (m : N) : (loadStep vs p).get m =
    if m = p.1 then some (match vs.get m with
      | some v => { v with latent := v.constraint.inv p.2 }
      | none => ⟨.unbounded, p.2, false⟩) else vs.get m := by
  unfold loadStep
  by_cases h : p.1 ∈ vs.names
  · rw [if_pos h, Vars.get_assign]
    by_cases hm : m = p.1
    · subst hm
      rw [if_pos rfl, if_pos rfl]
      have := (Vars.mem_names_iff vs p.1).1 h
      cases e : vs.get p.1 with
      | none => exact absurd e this
      | some v => rfl
    · rw [if_neg hm, if_neg hm]
  · have h0 : vs.get p.1 = none := by
      by_contra h'
      exact h ((Vars.mem_names_iff vs p.1).2 h')
    rw [if_neg h, Vars.get_declare]
    by_cases hm : m = p.1
    · subst hm; simp [h0, Constraint.unbounded]
    · simp [hm]

theorem load_foldl_other (d : List (N × V)) (vs : Vars N V) (m : N) (h : m ∉ d.map Prod.fst) :
    (d.foldl loadStep vs).get m = vs.get m := by
  induction d generalizing vs with
  | nil => rfl
  | cons p d ih =>
    simp only [List.map_cons, List.mem_cons, not_or] at h
    rw [List.foldl_cons, ih _ h.2, get_loadStep, if_neg h.1]

theorem load_foldl_mem (d : List (N × V)) (hd : (d.map Prod.fst).Nodup) (vs : Vars N V) (p : N × V)
    (hp : p ∈ d) : (d.foldl loadStep vs).get p.1 = some (match vs.get p.1 with
      | some v => { v with latent := v.constraint.inv p.2 }
      | none => ⟨.unbounded, p.2, false⟩) := by
  induction d generalizing vs with
  | nil => simp at hp
  | cons q d ih =>
    simp only [List.map_cons, List.nodup_cons] at hd
    rw [List.foldl_cons]
    rcases List.mem_cons.1 hp with rfl | hp
    · rw [load_foldl_other _ _ _ hd.1, get_loadStep, if_pos rfl]
    · have hne : p.1 ≠ q.1 := fun h => hd.1 (h ▸ List.mem_map_of_mem hp)
      rw [ih hd.2 _ hp, get_loadStep, if_neg hne]

theorem saveData_names (vs : Vars N V) : (saveData vs).map Prod.fst = vs.names := by
  simp [saveData, Vars.names, Function.comp_def]

theorem mem_saveData (vs : Vars N V) (n : N) (v : Var V) (h : vs.get n = some v) :
    (n, v.value) ∈ saveData vs := by
  induction vs with
  | nil => simp [Vars.get] at h
  | cons p vs ih =>
    obtain ⟨k, w⟩ := p
    simp only [Vars.get] at h
    by_cases hk : k = n
    · rw [if_pos hk] at h
      obtain rfl := Option.some.inj h
      subst hk
      exact List.mem_cons_self
    · rw [if_neg hk] at h
      exact List.mem_cons_of_mem _ (ih h)

/-! ## C38 -/

/-- **C38** Whatever the model into which a file is loaded contains, as long as the constraints that it has on
the variables of the file allow their values: every saved variable is restored, every other variable keeps
its value, constraint and visibility, and no exception is raised. -/
theorem c38_round_trip (F : Codec N V β) (vs vs' : Vars N V) (hn : vs.names.Nodup)
    (hc : ∀ n v v', vs.get n = some v → vs'.get n = some v' → v'.constraint.dom v.value) :
    (load F (save F vs) vs').2 = .ok () ∧
      (∀ n ∈ vs.names, (load F (save F vs) vs').1.value n = vs.value n) ∧
      ∀ n, n ∉ vs.names → (load F (save F vs) vs').1.get n = vs'.get n := by
  have e : load F (save F vs) vs' = ((saveData vs).foldl loadStep vs', .ok ()) := by
    unfold load save
    simp only [F.loads_dumps]
  rw [e]
  refine ⟨rfl, fun n h => ?_, fun n h => load_foldl_other _ _ _ (by rwa [saveData_names])⟩
  obtain ⟨v, hv⟩ := Option.ne_none_iff_exists'.1 ((Vars.mem_names_iff vs n).1 h)
  have := load_foldl_mem (saveData vs) (by rwa [saveData_names]) vs' _ (mem_saveData vs n v hv)
  unfold Vars.value
  simp only at this
  rw [this, hv]
  cases hv' : vs'.get n with
  | none => rfl
  | some v' =>
    show some (v'.constraint.fwd (v'.constraint.inv v.value)) = _
    rw [v'.constraint.right _ (hc n v v' hv hv')]
    rfl

/-- **C38** The condition holds for models of the same class, in which variables of the same name have the same
constraint, in particular for a model without any variables. -/
theorem c38_same_class (F : Codec N V β) (vs vs' : Vars N V) (hn : vs.names.Nodup)
    (hc : ∀ n v v', vs.get n = some v → vs'.get n = some v' → v'.constraint = v.constraint) :
    ∀ n ∈ vs.names, (load F (save F vs) vs').1.value n = vs.value n :=
  (c38_round_trip F vs vs' hn fun n v v' h h' => by
    rw [hc n v v' h h']
    exact v.constraint.maps _).2.1

/-- **C38** A later instantiation uses the loaded value, whatever constraint and initial value it asks for, and
leaves the container alone. -/
theorem c38_instantiation (F : Codec N V β) (vs vs' : Vars N V) (hn : vs.names.Nodup)
    (hc : ∀ n v v', vs.get n = some v → vs'.get n = some v' → v'.constraint.dom v.value)
    (n : N) (h : n ∈ vs.names) (c : Constraint V) (init : V) :
    (load F (save F vs) vs').1.getOrInit n c init = (vs.value n, (load F (save F vs) vs').1) := by
  have h1 := (c38_round_trip F vs vs' hn hc).2.1 n h
  have h2 : n ∈ (load F (save F vs) vs').1.names := by
    rw [Vars.mem_names_iff]
    intro h0
    have h3 := (Vars.mem_names_iff vs n).1 h
    unfold Vars.value at h1
    rw [h0] at h1
    cases e : vs.get n with
    | none => exact h3 e
    | some v => rw [e] at h1; simp at h1
  unfold Vars.getOrInit
  simp only [Vars.declare, if_pos h2, h1]

/-- Loading with a name that has become tighter constrained does not restore the value, so the hypothesis of
`c38_round_trip` is needed: the container reads back a value that its own constraint allows. -/
theorem c38_constraint_needed (F : Codec N V β) (vs vs' : Vars N V) (hn : vs.names.Nodup) (n : N) (v v' : Var V)
    (h : vs.get n = some v) (h' : vs'.get n = some v') (hd : ¬ v'.constraint.dom v.value) :
    (load F (save F vs) vs').1.value n ≠ vs.value n := by
  have e : load F (save F vs) vs' = ((saveData vs).foldl loadStep vs', .ok ()) := by
    unfold load save
    simp only [F.loads_dumps]
  rw [e]
  have := load_foldl_mem (saveData vs) (by rwa [saveData_names]) vs' _ (mem_saveData vs n v h)
  unfold Vars.value
  simp only at this
  rw [this, h, h']
  intro h0
  have h0 : v'.constraint.fwd (v'.constraint.inv v.value) = v.value := Option.some.inj h0
  exact hd (h0 ▸ v'.constraint.maps _)

/-- A codec: a dictionary of numbers is written as its entries followed by a stop code. -/
def exCodec : Codec String ℝ (Option (String × ℝ)) where
  dumps d := d.map some ++ [none]
  loads bytes := match bytes.getLast? with
    | some none => .ok (.dict (bytes.filterMap id))
    | _ => .error .valueError
  loads_dumps d := by simp
  loads_prefix d k h := by
    refine ⟨.valueError, ?_⟩
    have hk : k ≤ (d.map some).length := by
      have : (d.map some ++ [none]).length = (d.map some).length + 1 := by simp
      omega
    rw [List.take_append_of_le_length hk]
    have : ∀ x ∈ (d.map some).take k, x ≠ none := fun x hx => by
      obtain ⟨y, -, rfl⟩ := List.mem_map.1 (List.mem_of_mem_take hx)
      simp
    rcases hl : ((d.map some).take k).getLast? with _ | x
    · rfl
    · have := this x (List.mem_of_getLast? hl)
      cases x with
      | none => exact absurd rfl this
      | some x => rfl

/-- Two variables of a model: a positive and a bounded one. -/
noncomputable def exVars : Vars String ℝ :=
  [("noise", ⟨.positive, log 2, true⟩), ("alpha", ⟨.bounded 1 3 (by norm_num), 0, true⟩)]

example : exVars.names.Nodup ∧ exVars.value "noise" = some 2 ∧
    (load exCodec (save exCodec exVars) []).1.value "noise" = some 2 ∧
    (load exCodec (save exCodec exVars) exVars).1.value "alpha" = some 2 := by
  have h1 : exVars.names.Nodup := by simp [exVars, Vars.names]
  have h2 : exVars.value "noise" = some 2 := by
    simp [exVars, Vars.value, Vars.get, Var.value, Constraint.positive, exp_log]
  have h3 : exVars.value "alpha" = some 2 := by
    have h : exVars.get "alpha" = some ⟨.bounded 1 3 (by norm_num), 0, true⟩ := by
      simp [exVars, Vars.get]
    rw [Vars.value, h]
    simp only [Option.map_some, Var.value, Constraint.bounded]
    norm_num
  refine ⟨h1, h2, ?_, ?_⟩
  · rw [c38_same_class exCodec exVars [] h1 (fun n v v' _ h => by simp [Vars.get] at h) "noise"
      (by simp [exVars, Vars.names]), h2]
  · rw [c38_same_class exCodec exVars exVars h1
      (fun n v v' h h' => by rw [h] at h'; rw [Option.some.inj h']) "alpha" (by simp [exVars, Vars.names]), h3]

/-! ## C39 -/

/-- **C39 is false**: the file is truncated before anything is written, so whatever the old content was, unless
it was an empty file, there is a crash point that leaves neither it nor the new content; and what is left cannot
be loaded. -/
theorem c39_false (F : Codec N V β) (vs : Vars N V) (old : Option (List β)) (ho : old ≠ some [])
    (hne : F.dumps (saveData vs) ≠ []) : ∃ k, saveInterrupted F vs old (some k) ≠ old ∧
      saveInterrupted F vs old (some k) ≠ save F vs ∧
      ∀ vs', ∃ e, (load F (saveInterrupted F vs old (some k)) vs').2 = .error e := by
  have e : saveInterrupted F vs old (some 0) = some [] := by simp [saveInterrupted]
  refine ⟨0, ?_, ?_, fun vs' => ?_⟩
  · rw [e]; exact fun h => ho h.symm
  · rw [e]; exact fun h => hne (Option.some.inj h).symm
  · rw [e]
    obtain ⟨err, he⟩ := F.loads_prefix (saveData vs) 0 (List.length_pos_iff.2 hne)
    rw [List.take_zero] at he
    exact ⟨err, by simp only [load, he]⟩

/-- **C39** What remains: an interrupted `save` leaves the old content or a prefix of the new one, and a
proper prefix is recognised as broken by `load`, which then leaves the model alone. -/
theorem c39_prefix_partial (F : Codec N V β) (vs : Vars N V) (old : Option (List β)) (at_ : Option ℕ) :
    saveInterrupted F vs old at_ = old ∨ saveInterrupted F vs old at_ = save F vs ∨
      ∃ bytes, saveInterrupted F vs old at_ = some bytes ∧ bytes <+: F.dumps (saveData vs) ∧
        ∀ vs', ∃ e, load F (some bytes) vs' = (vs', .error e) := by
  cases at_ with
  | none => exact .inl rfl
  | some k =>
    right
    by_cases hk : k < (F.dumps (saveData vs)).length
    · right
      obtain ⟨e, he⟩ := F.loads_prefix (saveData vs) k hk
      exact ⟨_, rfl, List.take_prefix _ _, fun vs' => ⟨e, by simp only [load, he]⟩⟩
    · left
      simp only [saveInterrupted, save, List.take_of_length_le (not_lt.1 hk)]

example : exCodec.dumps (saveData exVars) ≠ [] := by simp [exCodec]

/-! ## C40 -/

/-- **C40** If the file does not exist, cannot be unpickled or does not contain a dictionary, `load` raises and no
variable has changed; otherwise it does not raise. -/
theorem c40_atomic (F : Codec N V β) (file : Option (List β)) (vs : Vars N V) :
    (∀ e, (load F file vs).2 = .error e → (load F file vs).1 = vs) ∧
      ((load F file vs).2 = .ok () ↔ ∃ bytes d, file = some bytes ∧ F.loads bytes = .ok (.dict d)) := by
  unfold load
  cases file with
  | none => simp
  | some bytes =>
    simp only
    cases h : F.loads bytes with
    | error e => simp [h]
    | ok o =>
      cases o with
      | other => simp [h]
      | dict d => simp [h]

example : load exCodec (some []) exVars = (exVars, .error .valueError) := rfl

/-! ## C90 -/

theorem trainable_loadStep (vs : Vars N V) (p : N × V) : (loadStep vs p).trainable = vs.trainable := by
  unfold loadStep
  split
  · rename_i h
    clear h
    unfold Vars.trainable Vars.assign
    induction vs with
    | nil => rfl
    | cons q vs ih =>
      by_cases h : q.1 = p.1 <;> by_cases hv : q.2.visible = true <;> simp_all
  · rename_i h
    simp [Vars.declare, h, Vars.trainable]

/-- **C90 is false**: loading makes no variable trainable, whatever is in the file, so only those that existed before loading
can be trained. -/
theorem c90_trainable (F : Codec N V β) (file : Option (List β)) (vs : Vars N V) :
    (load F file vs).1.trainable = vs.trainable := by
  have key : ∀ (d : List (N × V)) (ws : Vars N V), (d.foldl loadStep ws).trainable = ws.trainable := by
    intro d
    induction d with
    | nil => exact fun _ => rfl
    | cons p d ih => exact fun ws => (ih _).trans (trainable_loadStep ws p)
  unfold load
  cases file with
  | none => rfl
  | some bytes =>
    simp only
    cases F.loads bytes with
    | error e => rfl
    | ok o =>
      cases o with
      | other => rfl
      | dict d => exact key d vs

/-- **C90 is false**: after loading a file into a model that has not been instantiated yet, none of its variables
is trainable and none has its constraint. -/
theorem c90_false (F : Codec N V β) (vs : Vars N V) (hn : vs.names.Nodup) :
    (∀ n ∈ vs.names, ∃ v, (load F (save F vs) []).1.get n = some v ∧ v.visible = false ∧
      v.constraint = .unbounded) ∧ (load F (save F vs) []).1.trainable = [] := by
  refine ⟨fun n h => ?_, c90_trainable F _ []⟩
  obtain ⟨v, hv⟩ := Option.ne_none_iff_exists'.1 ((Vars.mem_names_iff vs n).1 h)
  have e : load F (save F vs) [] = ((saveData vs).foldl loadStep [], .ok ()) := by
    unfold load save
    simp only [F.loads_dumps]
  rw [e]
  have := load_foldl_mem (saveData vs) (by rwa [saveData_names]) [] _ (mem_saveData vs n v hv)
  exact ⟨_, this, rfl, rfl⟩

/-- **C90** A variable that exists before loading keeps its constraint and its visibility. -/
theorem c90_existing_partial (F : Codec N V β) (file : Option (List β)) (vs : Vars N V) (n : N) (v : Var V)
    (h : vs.get n = some v) : ∃ v', (load F file vs).1.get n = some v' ∧ v'.constraint = v.constraint ∧
      v'.visible = v.visible := by
  have key : ∀ (d : List (N × V)) (ws : Vars N V) (w : Var V), ws.get n = some w →
      ∃ v', (d.foldl loadStep ws).get n = some v' ∧ v'.constraint = w.constraint ∧ v'.visible = w.visible := by
    intro d
    induction d with
    | nil => exact fun ws w hw => ⟨w, hw, rfl, rfl⟩
    | cons p d ih =>
      intro ws w hw
      rw [List.foldl_cons]
      by_cases hp : n = p.1
      · have e : (loadStep ws p).get n = some { w with latent := w.constraint.inv p.2 } := by
          rw [get_loadStep, if_pos hp, hw]
        obtain ⟨v', a, b, c⟩ := ih _ _ e
        exact ⟨v', a, b, c⟩
      · exact ih _ w (by rw [get_loadStep, if_neg hp, hw])
  unfold load
  cases file with
  | none => exact ⟨v, h, rfl, rfl⟩
  | some bytes =>
    simp only
    cases F.loads bytes with
    | error e => exact ⟨v, h, rfl, rfl⟩
    | ok o =>
      cases o with
      | other => exact ⟨v, h, rfl, rfl⟩
      | dict d => exact key d vs v h

example : exVars.trainable = ["noise", "alpha"] ∧
    (load exCodec (save exCodec exVars) []).1.trainable = [] := by
  constructor
  · simp [exVars, Vars.trainable]
  · simp [load, save, exCodec, exVars, saveData, loadStep, Vars.names, Vars.declare, Vars.trainable]

end Gpcm
