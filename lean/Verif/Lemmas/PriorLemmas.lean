import Verif.Model.Prior

/-! # Helper lemmas: asking the variable container for parameters -/

open Real

namespace Gpcm

theorem store_get_append (vs ext : Store) {n : String} (h : n ∈ vs.names) : Vars.get (vs ++ ext) n = vs.get n := by
  induction vs with
  | nil => cases h
  | cons p vs ih =>
    show Vars.get (p :: (vs ++ ext)) n = _
    unfold Vars.get
    split_ifs with hp
    · rfl
    · exact ih ((List.mem_cons.1 h).resolve_left fun e => hp e.symm)

theorem store_get_new (vs : Store) {n : String} (h : n ∉ vs.names) (v : Var (List ℝ)) :
    Vars.get (vs ++ [(n, v)]) n = some v := by
  induction vs with
  | nil => simp [Vars.get]
  | cons p vs ih =>
    have h1 : n ∉ p.1 :: Vars.names vs := h
    rw [List.mem_cons, not_or] at h1
    show Vars.get (p :: (vs ++ _)) n = _
    unfold Vars.get
    rw [if_neg (Ne.symm h1.1)]
    exact ih h1.2

theorem store_get_isSome {vs : Store} {n : String} (h : n ∈ vs.names) : ∃ v, vs.get n = some v := by
  induction vs with
  | nil => cases h
  | cons p vs ih =>
    unfold Vars.get
    split_ifs with hp
    · exact ⟨_, rfl⟩
    · exact ih ((List.mem_cons.1 h).resolve_left fun e => hp e.symm)

/-- The container grew by variables with some of the names `ns`, in that order. -/
def Grew (vs vs' : Store) (ns : List String) : Prop := ∃ ext : Store, vs' = vs ++ ext ∧ ext.names.Sublist ns

theorem Grew.refl (vs : Store) (ns : List String) : Grew vs vs ns :=
  ⟨[], (List.append_nil vs).symm, List.nil_sublist ns⟩

theorem Grew.trans {a b c : Store} {ns ms : List String} (h : Grew a b ns) (h' : Grew b c ms) : Grew a c (ns ++ ms) := by
  obtain ⟨x, rfl, hx⟩ := h
  obtain ⟨y, rfl, hy⟩ := h'
  refine ⟨x ++ y, List.append_assoc _ _ _, ?_⟩
  rw [Vars.names, List.map_append]
  exact hx.append hy

theorem Grew.value {a b : Store} {ns : List String} (h : Grew a b ns) {n : String} {v : List ℝ}
    (hv : a.value n = some v) : b.value n = some v := by
  obtain ⟨x, rfl, -⟩ := h
  have hn : n ∈ a.names := by
    by_contra hn
    have : a.get n = none := by
      clear hv
      induction a with
      | nil => rfl
      | cons p a ih =>
        have h1 : n ∉ p.1 :: Vars.names a := hn
        rw [List.mem_cons, not_or] at h1
        unfold Vars.get
        rw [if_neg (Ne.symm h1.1)]
        exact ih h1.2
    rw [Vars.value, this] at hv
    cases hv
  rw [Vars.value, store_get_append a x hn]
  exact hv

theorem Grew.mem {a b : Store} {ns : List String} (h : Grew a b ns) {n : String} (hn : n ∈ a.names) : n ∈ b.names := by
  obtain ⟨x, rfl, -⟩ := h
  rw [Vars.names, List.map_append]
  exact List.mem_append_left _ hn

/-- What asking for a vector does. -/
structure Asked (n : String) (c : Constraint ℝ) (init : List ℝ) (vs : Store) (v : List ℝ) (vs' : Store) : Prop where
  grew : Grew vs vs' [n]
  value : vs'.value n = some v
  mem : n ∈ vs'.names
  fresh : n ∉ vs.names → v = init ∧ c.vector.dom init ∧ vs'.names = vs.names ++ [n]
  old : n ∈ vs.names → vs' = vs

theorem askVec_spec {n : String} {c : Constraint ℝ} {init v : List ℝ} {vs vs' : Store}
    (h : askVec n c init vs = some (v, vs')) : Asked n c init vs v vs' := by
  unfold askVec at h
  split_ifs at h with hc
  unfold Vars.getOrInit Vars.declare at h
  by_cases hn : n ∈ vs.names
  · simp only [if_pos hn] at h
    obtain ⟨w, hw, he⟩ := Option.map_eq_some_iff.1 h
    cases he
    exact ⟨Grew.refl _ _, hw, hn, fun h => absurd hn h, fun _ => rfl⟩
  · simp only [if_neg hn] at h
    have hd := hc.resolve_left hn
    obtain ⟨w, hw, he⟩ := Option.map_eq_some_iff.1 h
    cases he
    have hv := hw
    rw [Vars.value, store_get_new vs hn] at hv
    have hv : c.vector.fwd (c.vector.inv init) = v := by simpa [Var.value] using hv
    rw [c.vector.right init hd] at hv
    refine ⟨⟨_, rfl, List.Sublist.refl _⟩, hw, ?_, fun _ => ⟨hv.symm, hd, ?_⟩, fun h => absurd h hn⟩ <;>
      simp [Vars.names]

theorem askVec_fresh {n : String} {c : Constraint ℝ} {init : List ℝ} {vs : Store} (hn : n ∉ vs.names)
    (hd : c.vector.dom init) : ∃ vs', askVec n c init vs = some (init, vs') := by
  unfold askVec
  rw [if_pos (Or.inr hd)]
  unfold Vars.getOrInit Vars.declare
  simp only [if_neg hn, Vars.value, store_get_new vs hn]
  exact ⟨vs ++ [(n, ⟨c.vector, c.vector.inv init, true⟩)], by simp only [Option.map_some, Var.value, c.vector.right init hd]⟩

theorem askVec_none {n : String} {c : Constraint ℝ} {init : List ℝ} {vs : Store} (hn : n ∉ vs.names)
    (hd : ¬c.vector.dom init) : askVec n c init vs = none := by
  unfold askVec
  rw [if_neg]
  tauto

theorem askVec_again {n : String} {c : Constraint ℝ} {init v : List ℝ} {vs : Store}
    (hn : n ∈ vs.names) (hv : vs.value n = some v) : askVec n c init vs = some (v, vs) := by
  unfold askVec
  rw [if_pos (Or.inl hn)]
  unfold Vars.getOrInit Vars.declare
  simp only [if_pos hn, hv, Option.map_some]

theorem ask_spec {n : String} {c : Constraint ℝ} {init x : ℝ} {vs vs' : Store}
    (h : ask n c init vs = some (x, vs')) : Asked n c [init] vs [x] vs' := by
  obtain ⟨⟨v, ws⟩, hr, hm⟩ := Option.bind_eq_some_iff.1 h
  match v, hr, hm with
  | [y], hr, hm =>
    cases hm
    exact askVec_spec hr
  | [], hr, hm => cases hm
  | _ :: _ :: _, hr, hm => cases hm

theorem ask_fresh {n : String} {c : Constraint ℝ} {init : ℝ} {vs : Store} (hn : n ∉ vs.names)
    (hd : c.dom init) : ∃ vs', ask n c init vs = some (init, vs') := by
  obtain ⟨vs', h⟩ := askVec_fresh (c := c) (init := [init]) hn (by simpa [Constraint.vector] using hd)
  exact ⟨vs', by rw [ask, h]; rfl⟩

theorem ask_none {n : String} {c : Constraint ℝ} {init : ℝ} {vs : Store} (hn : n ∉ vs.names)
    (hd : ¬c.dom init) : ask n c init vs = none := by
  rw [ask, askVec_none hn (by simpa [Constraint.vector] using hd)]
  rfl

theorem ask_again {n : String} {c : Constraint ℝ} {init x : ℝ} {vs : Store}
    (hn : n ∈ vs.names) (hv : vs.value n = some [x]) : ask n c init vs = some (x, vs) := by
  rw [ask, askVec_again hn hv]
  rfl

/-- The name of a parameter that is learned. -/
def learnedName (fixed : Bool) (n : String) : List String := if fixed then [] else [n]

/-- What asking for a parameter that may be fixed does. -/
structure AskedUnless (fixed : Bool) (n : String) (c : Constraint ℝ) (init : ℝ) (vs : Store) (x : ℝ) (vs' : Store) :
    Prop where
  grew : Grew vs vs' (learnedName fixed n)
  const : fixed = true → x = init
  value : fixed = false → vs'.value n = some [x] ∧ n ∈ vs'.names

theorem askUnless_spec {fixed : Bool} {n : String} {c : Constraint ℝ} {init x : ℝ} {vs vs' : Store}
    (h : askUnless fixed n c init vs = some (x, vs')) : AskedUnless fixed n c init vs x vs' := by
  unfold askUnless at h
  cases fixed
  · have := ask_spec (by simpa using h)
    exact ⟨this.grew, nofun, fun _ => ⟨this.value, this.mem⟩⟩
  · simp only [if_true, Option.some.injEq, Prod.mk.injEq] at h
    obtain ⟨rfl, rfl⟩ := h
    exact ⟨Grew.refl _ _, fun _ => rfl, nofun⟩

theorem askUnless_fresh {fixed : Bool} {n : String} {c : Constraint ℝ} {init : ℝ} {vs : Store} (hn : n ∉ vs.names)
    (hd : fixed = false → c.dom init) :
    ∃ vs', askUnless fixed n c init vs = some (init, vs') ∧ vs'.names = vs.names ++ learnedName fixed n := by
  cases fixed
  · obtain ⟨vs', h⟩ := ask_fresh hn (hd rfl)
    exact ⟨vs', by simpa [askUnless] using h, ((ask_spec h).fresh hn).2.2⟩
  · exact ⟨vs, rfl, by simp [learnedName]⟩

theorem askUnless_again {fixed : Bool} {n : String} {c : Constraint ℝ} {init x : ℝ} {vs : Store}
    (hf : fixed = true → x = init) (hv : fixed = false → vs.value n = some [x] ∧ n ∈ vs.names) :
    askUnless fixed n c init vs = some (x, vs) := by
  cases fixed
  · obtain ⟨h1, h2⟩ := hv rfl
    simpa [askUnless] using ask_again h2 h1
  · simp [askUnless, hf rfl]

theorem askUnless_new {fixed : Bool} {n : String} {c : Constraint ℝ} {init x : ℝ} {vs vs' : Store}
    (h : askUnless fixed n c init vs = some (x, vs')) (hn : n ∉ vs.names) :
    x = init ∧ (fixed = false → c.dom init) ∧ vs'.names = vs.names ++ learnedName fixed n := by
  unfold askUnless at h
  cases fixed
  · obtain ⟨h1, h2, h3⟩ := (ask_spec (by simpa using h)).fresh hn
    exact ⟨by simpa using h1, fun _ => by simpa [Constraint.vector] using h2, h3⟩
  · simp only [if_true, Option.some.injEq, Prod.mk.injEq] at h
    obtain ⟨rfl, rfl⟩ := h
    exact ⟨rfl, nofun, by simp [learnedName]⟩

theorem ask_new {n : String} {c : Constraint ℝ} {init x : ℝ} {vs vs' : Store}
    (h : ask n c init vs = some (x, vs')) (hn : n ∉ vs.names) :
    x = init ∧ c.dom init ∧ vs'.names = vs.names ++ [n] := by
  obtain ⟨h1, h2, h3⟩ := (ask_spec h).fresh hn
  exact ⟨by simpa using h1, by simpa [Constraint.vector] using h2, h3⟩

theorem askBounded_new {n : String} {lo hi : ℝ} {init v : List ℝ} {vs vs' : Store}
    (h : askBounded n lo hi init vs = some (v, vs')) (hn : n ∉ vs.names) :
    v = init ∧ lo < hi ∧ (∀ x ∈ init, lo < x ∧ x < hi) ∧ vs'.names = vs.names ++ [n] := by
  unfold askBounded at h
  split_ifs at h with hb
  obtain ⟨h1, h2, h3⟩ := (askVec_spec h).fresh hn
  exact ⟨h1, hb, h2, h3⟩

theorem askBounded_fresh {n : String} {lo hi : ℝ} {init : List ℝ} {vs : Store} (hn : n ∉ vs.names) (hb : lo < hi)
    (hd : ∀ x ∈ init, lo < x ∧ x < hi) : ∃ vs', askBounded n lo hi init vs = some (init, vs') := by
  unfold askBounded
  rw [dif_pos hb]
  exact askVec_fresh hn hd

theorem foldl_min_mem (l : List ℝ) (a : ℝ) : l.foldl min a = a ∨ l.foldl min a ∈ l := by
  induction l generalizing a with
  | nil => simp
  | cons b l ih =>
    rw [List.foldl_cons]
    rcases ih (min a b) with h | h
    · rw [h]
      rcases min_choice a b with e | e <;> rw [e]
      · exact Or.inl rfl
      · exact Or.inr (by simp)
    · exact Or.inr (List.mem_cons_of_mem _ h)

theorem foldl_max_mem (l : List ℝ) (a : ℝ) : l.foldl max a = a ∨ l.foldl max a ∈ l := by
  induction l generalizing a with
  | nil => simp
  | cons b l ih =>
    rw [List.foldl_cons]
    rcases ih (max a b) with h | h
    · rw [h]
      rcases max_choice a b with e | e <;> rw [e]
      · exact Or.inl rfl
      · exact Or.inr (by simp)
    · exact Or.inr (List.mem_cons_of_mem _ h)

theorem pyMin_mem {l : List ℝ} {lo : ℝ} (h : pyMin l = .ok lo) : lo ∈ l := by
  cases l with
  | nil => cases h
  | cons a l =>
    cases h
    exact List.mem_cons.2 (foldl_min_mem l a)

theorem pyMax_mem {l : List ℝ} {hi : ℝ} (h : pyMax l = .ok hi) : hi ∈ l := by
  cases l with
  | nil => cases h
  | cons a l =>
    cases h
    exact List.mem_cons.2 (foldl_max_mem l a)

theorem names_nil : Vars.names ([] : Store) = [] := rfl

theorem mem_learnedName {fixed : Bool} {n m : String} : n ∈ learnedName fixed m ↔ fixed = false ∧ n = m := by
  cases fixed <;> simp [learnedName]

end Gpcm
