import Verif.Model.Objects
import Mathlib.Data.List.Nodup
import Mathlib.Tactic.Linarith

/-! # Property C213: attributes of predictions, what can be saved, and the methods of models -/

namespace Gpcm.Objects

/-- The statistics that a summary has, in this order. -/
def Spec.statistics : List String :=
  ["x", "mean", "var", "err_68_lower", "err_68_upper", "err_95_lower", "err_95_upper", "err_99_lower", "err_99_upper", "samples", "all_samples"]

/-- The integrals that the approximations ask a model for. -/
def Spec.integrals : List String := ["compute_K_u", "compute_K_z", "compute_i_hx", "compute_I_ux", "compute_I_hz", "compute_I_uz"]

variable {α : Type}

theorem find_zip {β : Type} : ∀ (kw : List (String × β)), (kw.map Prod.fst).Nodup → ∀ p ∈ kw, kw.find? (fun q => q.1 == p.1) = some p
  | [], _, p, h => absurd h List.not_mem_nil
  | q :: kw, hn, p, h => by
    rw [List.map_cons, List.nodup_cons] at hn
    rcases List.mem_cons.1 h with rfl | h
    · simp
    · have hne : (q.1 == p.1) = false := by
        rw [beq_eq_false_iff_ne]
        exact fun e => hn.1 (e ▸ List.mem_map_of_mem h)
      rw [List.find?_cons, hne]
      exact find_zip kw hn.2 p h

theorem zip_fst_snd {β γ : Type} (l : List (β × γ)) : (l.map Prod.fst).zip (l.map Prod.snd) = l := by
  induction l with
  | nil => rfl
  | cons a l ih => simp [ih]

/-- **C213** `collect` succeeds exactly if the name and all keywords are identifiers and no keywords of the language, and none of the latter starts with
an underscore or occurs twice; otherwise it raises a `ValueError`. -/
theorem c213_collect_iff (ident keyword : String → Bool) (s : Interp) (name : String) (kw : List (String × PyObj α)) :
    ((∃ r, collect ident keyword s name kw = .ok r) ↔ (∀ n ∈ name :: kw.map Prod.fst, ident n = true ∧ keyword n = false) ∧
      (∀ p ∈ kw, p.1.toList.head? ≠ some '_') ∧ (kw.map Prod.fst).Nodup) ∧
    ((¬∃ r, collect ident keyword s name kw = .ok r) → collect ident keyword s name kw = .error .valueError) := by
  have e : namedtupleOk ident keyword name (kw.map Prod.fst) = true ↔ (∀ n ∈ name :: kw.map Prod.fst, ident n = true ∧ keyword n = false) ∧
      (∀ p ∈ kw, p.1.toList.head? ≠ some '_') ∧ (kw.map Prod.fst).Nodup := by
    unfold namedtupleOk
    simp only [Bool.and_eq_true, List.all_eq_true, Bool.not_eq_true', bne_iff_ne, decide_eq_true_eq, and_assoc, List.mem_map, forall_exists_index, and_imp,
      forall_apply_eq_imp_iff₂]
  rw [← e]
  unfold collect
  by_cases h : namedtupleOk ident keyword name (kw.map Prod.fst) = true
  · simp [h]
  · simp [h]

/-- **C213** Every attribute of the result is the value that was given for it, no other attribute exists, and iterating over the result gives the values
in the order in which they were given. -/
theorem c213_getattr {ident keyword : String → Bool} {s s' : Interp} {name : String} {kw : List (String × PyObj α)} {o : PyObj α}
    (h : collect ident keyword s name kw = .ok (s', o)) :
    (∀ p ∈ kw, o.getattr p.1 = .ok p.2) ∧ (∀ n, n ∉ kw.map Prod.fst → o.getattr n = .error .attributeError) ∧
    o.items = some (kw.map Prod.snd) := by
  have hn := ((c213_collect_iff ident keyword s name kw).1.1 ⟨_, h⟩).2.2
  unfold collect at h
  split_ifs at h with hk
  cases h
  refine ⟨fun p hp => ?_, fun n hne => ?_, rfl⟩
  · unfold PyObj.getattr
    simp only [zip_fst_snd]
    rw [find_zip kw hn p hp]
  · unfold PyObj.getattr
    simp only [zip_fst_snd]
    rw [List.find?_eq_none.2 fun q hq => by
      rw [beq_iff_eq]
      exact fun e => hne (e ▸ List.mem_map_of_mem hq)]

/-- **C213, refuted for summaries** The result of `collect` can never be saved, whatever its values: its class cannot be looked up. That stays so whatever
else is computed, unless someone puts that class into the module. -/
theorem c213_not_saved {ident keyword : String → Bool} {s s' : Interp} (hs : s.Valid) {name : String} {kw : List (String × PyObj α)} {o : PyObj α}
    (h : collect ident keyword s name kw = .ok (s', o)) : picklable s' o = false ∧ s'.Valid ∧ picklable s' (.tuple [o]) = false := by
  unfold collect at h
  split_ifs at h with hk
  cases h
  have hne : ∀ m n, s.lookup m n ≠ some s.next := fun m n e => absurd (hs m n _ e) (lt_irrefl _)
  have h1 : ∀ l : List (PyObj α), picklable { s with next := s.next + 1 }
      (.named s.next "gpcm.util" name (kw.map Prod.fst) l) = false := fun l => by
    rw [picklable, decide_eq_false (hne _ _), Bool.false_and]
  refine ⟨h1 _, fun m n c e => (hs m n c e).trans (Nat.lt_succ_self _), ?_⟩
  rw [picklable, picklableAll, h1, Bool.false_and]

theorem picklableAll_iff (s : Interp) (l : List (PyObj α)) : picklableAll s l = true ↔ ∀ o ∈ l, picklable s o = true := by
  induction l with
  | nil => simp [picklableAll]
  | cons o l ih => rw [picklableAll, Bool.and_eq_true, ih, List.forall_mem_cons]

theorem mapE_getattr {o : PyObj α} {kw : List (String × PyObj α)} (h : ∀ p ∈ kw, o.getattr p.1 = .ok p.2) :
    mapE o.getattr (kw.map Prod.fst) = .ok (kw.map Prod.snd) := by
  induction kw with
  | nil => rfl
  | cons p kw ih =>
    rw [List.map_cons, mapE, h p List.mem_cons_self]
    dsimp only
    rw [ih fun q hq => h q (List.mem_cons_of_mem _ hq)]
    rfl

/-- **C213** (partial) A plain tuple of any attributes of the result, which is what the scripts save, has the values that were given for these, and can
be saved if they can. -/
theorem c213_saved_partial {ident keyword : String → Bool} {s s' : Interp} {name : String} {kw : List (String × PyObj α)} {o : PyObj α}
    (h : collect ident keyword s name kw = .ok (s', o)) {sel : List (String × PyObj α)} (hsel : ∀ p ∈ sel, p ∈ kw) :
    extract o (sel.map Prod.fst) = .ok (.tuple (sel.map Prod.snd)) ∧
    ((∀ p ∈ sel, picklable s' p.2 = true) → picklable s' (.tuple (sel.map Prod.snd)) = true) := by
  refine ⟨?_, fun hp => ?_⟩
  · unfold extract
    rw [mapE_getattr fun p hp => (c213_getattr h).1 p (hsel p hp)]
  · rw [picklable, picklableAll_iff]
    intro q hq
    obtain ⟨p, hp', rfl⟩ := List.mem_map.1 hq
    exact hp p hp'

theorem summaryFields_ok {ident keyword : String → Bool} (hi : ∀ n ∈ "Quantities" :: summaryFields, ident n = true ∧ keyword n = false) :
    namedtupleOk ident keyword "Quantities" summaryFields = true := by
  unfold namedtupleOk
  rw [Bool.and_eq_true, Bool.and_eq_true, List.all_eq_true]
  refine ⟨⟨fun n hn => by simp [hi n hn], by simp [summaryFields]⟩, by decide⟩

/-- **C213** A summary of samples can always be made, its attributes are the statistics, and it cannot be saved. -/
theorem c213_summary {ident keyword : String → Bool} (hi : ∀ n ∈ "Quantities" :: summaryFields, ident n = true ∧ keyword n = false) {s : Interp}
    (hs : s.Valid) (vals : List (PyObj α)) (hl : vals.length = 11) :
    ∃ s' o, collect ident keyword s "Quantities" (summaryFields.zip vals) = .ok (s', o) ∧
      (∀ p ∈ Spec.statistics.zip vals, o.getattr p.1 = .ok p.2) ∧ o.items = some vals ∧ picklable s' o = false := by
  have e1 : (summaryFields.zip vals).map Prod.fst = summaryFields := List.map_fst_zip hl.ge
  have e2 : (summaryFields.zip vals).map Prod.snd = vals := List.map_snd_zip hl.le
  obtain ⟨⟨s', o⟩, h⟩ : ∃ r, collect ident keyword s "Quantities" (summaryFields.zip vals) = .ok r := by
    unfold collect
    rw [e1, if_pos (summaryFields_ok hi)]
    exact ⟨_, rfl⟩
  have h1 := c213_getattr h
  exact ⟨s', o, h, h1.1, by rw [h1.2.2, e2], (c213_not_saved hs h).1⟩

/-- The hypotheses can be met: every string an identifier, no classes yet. -/
example : ∃ s' o, collect (fun _ => true) (fun _ => false) ⟨fun _ _ => none, 0⟩ "Quantities" [("x", PyObj.data (1 : ℤ)), ("mean", .data 2)] =
    .ok (s', o) ∧ o.getattr "mean" = .ok (.data 2) ∧ picklable s' o = false ∧ extract o ["mean", "x"] = .ok (.tuple [.data 2, .data 1]) ∧
    picklable s' (.tuple [PyObj.data (2 : ℤ), .data 1]) = true := by
  refine ⟨_, _, if_pos ?_, rfl, rfl, rfl, rfl⟩
  simp [namedtupleOk]

/-! ## Methods -/

variable {F : Type}

/-- **C213** A function that is added to a class is found on that class, and on every class that looks there before it finds another of that name. -/
theorem c213_method (C : Classes F) {cls sub name : String} (f : F) {pre post : List String} (hm : C.mro sub = pre ++ cls :: post)
    (hpre : ∀ c ∈ pre, c ≠ cls ∧ C.attrs c name = none) : (method C cls name f).getattr sub name = .ok f := by
  have e : (pre ++ cls :: post).findSome? (fun c => (method C cls name f).attrs c name) = some f := by
    rw [List.findSome?_append, List.findSome?_eq_none_iff.2 fun c hc => ?_, Option.none_or, List.findSome?_cons]
    · simp [method]
    · simp [method, (hpre c hc).1, (hpre c hc).2]
  have hm' : (method C cls name f).mro sub = pre ++ cls :: post := hm
  unfold Classes.getattr
  rw [hm', e]

/-- **C213** Nothing else changes: not for classes that do not inherit from the class, and not for other names. -/
theorem c213_method_other (C : Classes F) {cls sub name name' : String} (f : F) (h : cls ∉ C.mro sub ∨ name' ≠ name) :
    (method C cls name f).getattr sub name' = C.getattr sub name' := by
  have e : ∀ l : List String, cls ∉ l ∨ name' ≠ name →
      l.findSome? (fun c => (method C cls name f).attrs c name') = l.findSome? fun c => C.attrs c name' := fun l => by
    induction l with
    | nil => exact fun _ => rfl
    | cons c l ih =>
      intro h
      have hc : (method C cls name f).attrs c name' = C.attrs c name' := by
        have : ¬(c = cls ∧ name' = name) := fun hh => h.elim (fun h => h (hh.1 ▸ List.mem_cons_self)) fun h => h hh.2
        simp [method, this]
      rw [List.findSome?_cons, List.findSome?_cons, hc, ih (h.imp_left fun h hl => h (List.mem_cons_of_mem _ hl))]
  unfold Classes.getattr
  rw [show (method C cls name f).mro = C.mro from rfl, e _ h]

theorem foldl_mro {β : Type} (g : Classes F → β → Classes F) (hg : ∀ C b, (g C b).mro = C.mro) (l : List β) (C : Classes F) :
    (l.foldl g C).mro = C.mro := by
  induction l generalizing C with
  | nil => rfl
  | cons b l ih => rw [List.foldl_cons, ih, hg]

theorem foldl_attrs (cls mod : String) (l : List String) (C : Classes (String × String)) (c n : String) :
    (l.foldl (fun C n => method C cls n (mod, n)) C).attrs c n = if c = cls ∧ n ∈ l then some (mod, n) else C.attrs c n := by
  induction l generalizing C with
  | nil => simp
  | cons m l ih =>
    rw [List.foldl_cons, ih]
    by_cases h : c = cls ∧ n ∈ l
    · rw [if_pos h, if_pos ⟨h.1, List.mem_cons_of_mem _ h.2⟩]
    · rw [if_neg h]
      by_cases h2 : c = cls ∧ n = m
      · rw [if_pos ⟨h2.1, h2.2 ▸ List.mem_cons_self⟩]
        simp [method, h2]
      · have h3 : ¬(c = cls ∧ n ∈ m :: l) := fun hh => (List.mem_cons.1 hh.2).elim (fun e => h2 ⟨hh.1, e⟩) fun e => h ⟨hh.1, e⟩
        rw [if_neg h3]
        simp [method, h2]

theorem importModels_attrs (C : Classes (String × String)) (c n : String) (hn : n ∈ computeNames) :
    (importModels C).attrs c n = if c = "RGPCM" then some ("rgpcm", n) else if c = "GPCM" then some ("gpcm", n) else C.attrs c n := by
  unfold importModels
  rw [foldl_attrs, foldl_attrs]
  simp [hn]

/-- **C213** Whatever the classes define before, after importing the package all six integrals of a GPCM and of an RGPCM are those of their own modules, and
those of a CGPCM are those of the GPCM, unless the class CGPCM defines them itself. -/
theorem c213_models (C : Classes (String × String)) (hC : C.mro = gpcmMro) {n : String} (hn : n ∈ Spec.integrals) (hc : C.attrs "CGPCM" n = none) :
    (importModels C).getattr "GPCM" n = .ok ("gpcm", n) ∧ (importModels C).getattr "CGPCM" n = .ok ("gpcm", n) ∧
    (importModels C).getattr "RGPCM" n = .ok ("rgpcm", n) := by
  have hm : (importModels C).mro = gpcmMro := by
    unfold importModels
    rw [foldl_mro (fun C n => method C "RGPCM" n ("rgpcm", n)) fun _ _ => rfl, foldl_mro (fun C n => method C "GPCM" n ("gpcm", n)) fun _ _ => rfl, hC]
  unfold Classes.getattr
  rw [hm]
  simp [gpcmMro, importModels_attrs C _ n hn, hc]

example : ∃ C : Classes (String × String), C.mro = gpcmMro ∧ C.attrs "CGPCM" "compute_K_u" = none ∧
    (importModels C).getattr "CGPCM" "compute_K_u" = .ok ("gpcm", "compute_K_u") :=
  ⟨⟨gpcmMro, fun _ _ => none⟩, rfl, rfl, (c213_models _ rfl (by decide) rfl).2.1⟩

end Gpcm.Objects
