import Verif.Model.Reproduce

/-!
# Property C219: results come from the run that reports them
-/

namespace Gpcm.Reproduce

variable {γ : Type}

/-- The paths that are known to be written, after operations; `none` if another one is read. -/
def known : List Path → List Op → Option (List Path)
  | K, [] => some K
  | K, .save p :: l => known (p :: K) l
  | K, .load p :: l => if p ∈ K then known K l else none

/-- Two states of the files agree on these paths, which exist. -/
def Agree (K : List Path) (fs fs' : Files γ) : Prop := ∀ p ∈ K, fs p = fs' p ∧ (fs p).isSome

theorem exec_agree (g : Path → List γ → γ) (ops : List Op) {K K' : List Path} (h : known K ops = some K') {fs fs' : Files γ}
    (ha : Agree K fs fs') (r : List γ) :
    ∃ r', (exec g ops fs r).2 = .ok r' ∧ (exec g ops fs' r).2 = .ok r' ∧ Agree K' (exec g ops fs r).1 (exec g ops fs' r).1 := by
  induction ops generalizing K fs fs' r with
  | nil => simp only [known, Option.some.injEq] at h; subst h; exact ⟨r, rfl, rfl, ha⟩
  | cons o l ih =>
    cases o with
    | save p =>
      simp only [known] at h
      refine ih h ?_ r
      intro q hq
      by_cases e : q = p
      · simp [e]
      · rcases List.mem_cons.1 hq with hq | hq
        · exact absurd hq e
        · simp only [if_neg e]; exact ha q hq
    | load p =>
      simp only [known] at h
      by_cases hp : p ∈ K
      · rw [if_pos hp] at h
        obtain ⟨h1, h2⟩ := ha p hp
        obtain ⟨c, hc⟩ := Option.isSome_iff_exists.1 h2
        obtain ⟨r', a1, a2, a3⟩ := ih h ha (r ++ [c])
        refine ⟨r', ?_, ?_, ?_⟩
        · simp only [exec, hc]; exact a1
        · simp only [exec, ← h1, hc]; exact a2
        · simp only [exec, ← h1, hc]; exact a3
      · rw [if_neg hp] at h; cases h

/-- The same for commands that do not raise by themselves. -/
def knownAll : List Path → List (List Op) → Option (List Path)
  | K, [] => some K
  | K, c :: cs => match known K c with
    | none => none
    | some K' => knownAll K' cs

theorem shell_agree (g : ℕ → Path → List γ → γ) (cs : List (List Op)) (i : ℕ) {K K' : List Path} (h : knownAll K cs = some K')
    {fs fs' : Files γ} (ha : Agree K fs fs') :
    (shell g i (cs.map fun c => (c, none)) fs).2 = (shell g i (cs.map fun c => (c, none)) fs').2 ∧
    (∀ r ∈ (shell g i (cs.map fun c => (c, none)) fs).2, ∃ l, r = .ok l) ∧
    Agree K' (shell g i (cs.map fun c => (c, none)) fs).1 (shell g i (cs.map fun c => (c, none)) fs').1 := by
  induction cs generalizing i K fs fs' with
  | nil => simp only [knownAll, Option.some.injEq] at h; subst h; exact ⟨rfl, (by intro r hr; simp [shell] at hr), ha⟩
  | cons c cs ih =>
    simp only [knownAll] at h
    rcases hk : known K c with _ | K1
    · rw [hk] at h; cases h
    · rw [hk] at h
      obtain ⟨r', a1, a2, a3⟩ := exec_agree (g i) c hk ha []
      obtain ⟨b1, b2, b3⟩ := ih (i + 1) h a3
      simp only [List.map_cons, shell, script]
      refine ⟨by rw [a1, a2, b1], ?_, b3⟩
      intro r hr
      rcases List.mem_cons.1 hr with rfl | hr
      · exact ⟨r', a1⟩
      · exact b2 r hr

/-- The names of the directories of the kernels that `comparison_process.py` expects. -/
def expected : Path := ["eq", "ceq-1", "matern12"]

/-- **C219, partial** If no command raises by itself, every file that is read exists, and what is read does not depend on the files that
were there before: everything comes from this run. Missing: commands that raise. The names of the directories of the kernels are those
that the dependencies give them. -/
theorem c219_fresh_partial (g : ℕ → Path → List γ → γ) (fs fs' : Files γ) :
    (shell g 0 ((reproduce expected).map fun c => (c, none)) fs).2 = (shell g 0 ((reproduce expected).map fun c => (c, none)) fs').2 ∧
    (∀ r ∈ (shell g 0 ((reproduce expected).map fun c => (c, none)) fs).2, ∃ l, r = .ok l) ∧
    (shell g 0 ((reproduce expected).map fun c => (c, none)) fs).2.length = 18 := by
  have hk : (knownAll [] (reproduce expected)).isSome = true := by decide +kernel
  obtain ⟨K', hK⟩ := Option.isSome_iff_exists.1 hk
  obtain ⟨h1, h2, -⟩ := shell_agree g (reproduce expected) 0 hK (fs := fs) (fs' := fs') (by intro p hp; cases hp)
  refine ⟨h1, h2, ?_⟩
  have len : ∀ (cs : List (List Op × Option ℕ)) (i : ℕ) (fs : Files γ), (shell g i cs fs).2.length = cs.length := by
    intro cs
    induction cs with
    | nil => intro i fs; rfl
    | cons c cs ih => intro i fs; simp only [shell, List.length_cons, ih]
  rw [len, List.length_map]
  rfl

/-- **C219** The prediction of `vix_analyse.py` is repeated because memory may run out: wherever it raises after training, the second
command succeeds, and works with the model that was trained in this run. -/
theorem c219_rerun (g : ℕ → Path → List γ → γ) (k : ℕ) (hk : 1 ≤ k) (fs : Files γ) :
    ∃ fs', shell g 0 [(vixAnalyse true true, some k), (vixAnalyse false true, none)] fs =
      (fs', [.error .runtimeError, .ok [g 0 ["vix_analyse", "model.pickle"] []]]) := by
  obtain ⟨k, rfl⟩ := Nat.exists_eq_add_of_le' hk
  have saves : ∀ (l : List Path) (g : Path → List γ → γ) (fs : Files γ) (r : List γ) (p : Path), p ∉ l →
      (exec g (l.map Op.save) fs r).2 = .ok r ∧ (exec g (l.map Op.save) fs r).1 p = fs p := by
    intro l
    induction l with
    | nil => intro g fs r p _; exact ⟨rfl, rfl⟩
    | cons a l ih =>
      intro g fs r p hp
      simp only [List.map_cons, exec]
      obtain ⟨h1, h2⟩ := ih g (fun q => if q = a then some (g a r) else fs q) r p fun h => hp (List.mem_cons_of_mem _ h)
      exact ⟨h1, h2.trans (if_neg fun h : p = a => hp (by rw [h]; exact List.mem_cons_self ..))⟩
  let l : List Path := [["vix_analyse", "pred_f.pickle"], ["vix_analyse", "pred_psd.pickle"], ["vix_analyse", "pred_k.pickle"]]
  have hp : ["vix_analyse", "model.pickle"] ∉ l := by decide
  have e1 : vixAnalyse true true = Op.save ["vix_analyse", "model.pickle"] :: l.map Op.save := rfl
  have e2 : vixAnalyse false true = Op.load ["vix_analyse", "model.pickle"] :: l.map Op.save := rfl
  have e3 : (vixAnalyse true true).take (k + 1) = Op.save ["vix_analyse", "model.pickle"] :: (l.take k).map Op.save := by
    rw [e1, List.take_succ_cons, List.map_take]
  obtain ⟨a1, a2⟩ := saves (l.take k) (g 0) (fun q => if q = ["vix_analyse", "model.pickle"] then
    some (g 0 ["vix_analyse", "model.pickle"] []) else fs q) [] ["vix_analyse", "model.pickle"] fun h => hp (List.mem_of_mem_take h)
  rw [if_pos rfl] at a2
  have s1 : script (g 0) (vixAnalyse true true) (some (k + 1)) fs =
      ((exec (g 0) ((l.take k).map Op.save) (fun q => if q = ["vix_analyse", "model.pickle"] then
        some (g 0 ["vix_analyse", "model.pickle"] []) else fs q) []).1, .error .runtimeError) := by
    simp only [script, e3, exec]
    generalize exec _ _ _ _ = x at *
    obtain ⟨x1, x2⟩ := x
    simp only at a1
    subst a1
    rfl
  simp only [shell, s1]
  simp only [script, e2, exec, a2, List.nil_append]
  exact ⟨_, by rw [(saves l (g (0 + 1)) _ _ _ hp).1]⟩

/-- The paths that operations write. -/
def written (ops : List Op) : List Path := ops.filterMap fun o => match o with
  | .save p => some p
  | .load _ => none

/-- The paths that are known to be written after commands, of which those with `false` may raise anywhere: what they write is not known. -/
def knownMay : List Path → List (List Op × Bool) → Option (List Path)
  | K, [] => some K
  | K, (c, true) :: cs => match known K c with
    | none => none
    | some K' => knownMay K' cs
  | K, (c, false) :: cs => knownMay (K.filter fun p => !(written c).contains p) cs

theorem exec_other (g : Path → List γ → γ) (ops : List Op) (fs : Files γ) (r : List γ) {p : Path} (hp : p ∉ written ops) :
    (exec g ops fs r).1 p = fs p := by
  induction ops generalizing fs r with
  | nil => rfl
  | cons o l ih =>
    cases o with
    | save q =>
      have h : p ≠ q ∧ p ∉ written l := by simpa [written] using hp
      simp only [exec]
      rw [ih _ _ h.2, if_neg h.1]
    | load q =>
      have h : p ∉ written l := by simpa [written] using hp
      simp only [exec]
      rcases fs q with _ | c
      · rfl
      · exact ih _ _ h

theorem script_other (g : Path → List γ → γ) (ops : List Op) (stop : Option ℕ) (fs : Files γ) {p : Path} (hp : p ∉ written ops) :
    (script g ops stop fs).1 p = fs p := by
  cases stop with
  | none => exact exec_other g ops fs [] hp
  | some k =>
    have hk : p ∉ written (ops.take k) := by
      intro h
      obtain ⟨o, ho, e⟩ := List.mem_filterMap.1 h
      exact hp (List.mem_filterMap.2 ⟨o, List.mem_of_mem_take ho, e⟩)
    have := exec_other g (ops.take k) fs [] hk
    simp only [script]
    generalize exec g (ops.take k) fs [] = x at *
    obtain ⟨x1, x2⟩ := x
    cases x2 <;> exact this

theorem shell_may (g : ℕ → Path → List γ → γ) (cs : List (List Op × Bool)) (stops : List (Option ℕ)) (hl : stops.length = cs.length)
    (hs : ∀ (j : ℕ) (c : List Op), cs[j]? = some (c, true) → stops[j]? = some none) (i : ℕ) {K K' : List Path}
    (h : knownMay K cs = some K') {fs fs' : Files γ} (ha : Agree K fs fs') (j : ℕ) (c : List Op) (hj : cs[j]? = some (c, true)) :
    ∃ l, (shell g i ((cs.map Prod.fst).zip stops) fs).2[j]? = some (.ok l) ∧ (shell g i ((cs.map Prod.fst).zip stops) fs').2[j]? = some (.ok l) := by
  induction cs generalizing stops i K fs fs' j with
  | nil => simp at hj
  | cons d cs ih =>
    cases stops with
    | nil => simp at hl
    | cons st stops =>
      have hl' : stops.length = cs.length := by simpa using hl
      have hs' : ∀ (j : ℕ) (c : List Op), cs[j]? = some (c, true) → stops[j]? = some none := fun j c hc => by
        simpa using hs (j + 1) c (by simpa using hc)
      obtain ⟨d, b⟩ := d
      simp only [List.map_cons, List.zip_cons_cons, shell]
      cases b with
      | true =>
        have hst : st = none := by simpa using hs 0 d (by simp)
        subst hst
        simp only [knownMay] at h
        rcases hk : known K d with _ | K1
        · rw [hk] at h; cases h
        · rw [hk] at h
          obtain ⟨r', a1, a2, a3⟩ := exec_agree (g i) d hk ha []
          cases j with
          | zero => exact ⟨r', by simpa [script] using a1, by simpa [script] using a2⟩
          | succ j =>
            simp only [List.getElem?_cons_succ] at hj ⊢
            exact ih stops hl' hs' (i + 1) h a3 j hj
      | false =>
        cases j with
        | zero => simp at hj
        | succ j =>
          simp only [List.getElem?_cons_succ] at hj ⊢
          simp only [knownMay] at h
          refine ih stops hl' hs' (i + 1) h ?_ j hj
          intro p hp
          obtain ⟨h1, h2⟩ := List.mem_filter.1 hp
          have h3 : p ∉ written d := by simpa using h2
          rw [script_other _ _ _ _ h3, script_other _ _ _ _ h3]
          exact ha p h1

/-- The commands, with a flag that says which of them are relied on. -/
def relied (l : List ℕ) : List (List Op × Bool) := (reproduce expected).zipIdx.map fun c => (c.1, l.contains c.2)

/-- **C219, partial** A summary comes from this run if the experiment that it summarises did not raise, wherever all others raise: the
comparison of schemes (command 4, summarised by 15), the price of oil (commands 6 to 11, summarised by 16) and the forecasts of volatility
(command 12, summarised by 17). -/
theorem c219_isolated_partial (g : ℕ → Path → List γ → γ) (stops : List (Option ℕ)) (hl : stops.length = 18) (fs fs' : Files γ) :
    ∀ x ∈ [([4], 15), ([6, 7, 8, 9, 10, 11], 16), ([12], 17)], (∀ j ∈ x.1 ++ [x.2], stops[j]? = some none) →
      ∃ l, (shell g 0 ((reproduce expected).zip stops) fs).2[x.2]? = some (.ok l) ∧
        (shell g 0 ((reproduce expected).zip stops) fs').2[x.2]? = some (.ok l) := by
  have gen : ∀ (L : List ℕ) (n : ℕ), n ∈ L → n < 18 → (knownMay [] (relied L)).isSome = true → (∀ j ∈ L, stops[j]? = some none) →
      ∃ l, (shell g 0 ((reproduce expected).zip stops) fs).2[n]? = some (.ok l) ∧
        (shell g 0 ((reproduce expected).zip stops) fs').2[n]? = some (.ok l) := by
    intro L n hn hlt hk hst
    obtain ⟨K', hK⟩ := Option.isSome_iff_exists.1 hk
    have hlen : (reproduce expected).length = 18 := rfl
    have hfst : (relied L).map Prod.fst = reproduce expected := by
      simp only [relied, List.map_map, Function.comp_def]
      exact List.zipIdx_map_fst 0 _
    have get : ∀ (j : ℕ) (c : List Op) (b : Bool), (relied L)[j]? = some (c, b) → b = L.contains j := by
      intro j c b h
      simp only [relied, List.getElem?_map, List.getElem?_zipIdx, Option.map_map, Option.map_eq_some_iff] at h
      obtain ⟨a, -, h⟩ := h
      simp only [Function.comp_def, Prod.mk.injEq, Nat.zero_add] at h
      exact h.2.symm
    obtain ⟨c, hc⟩ : ∃ c, (relied L)[n]? = some (c, true) := by
      have hn' : n < (relied L).length := by simp only [relied, List.length_map, List.length_zipIdx]; omega
      refine ⟨(relied L)[n].1, ?_⟩
      rw [List.getElem?_eq_getElem hn']
      have := get n (relied L)[n].1 (relied L)[n].2 (List.getElem?_eq_getElem hn')
      rw [show true = (relied L)[n].2 by rw [this]; simpa using hn]
    have := shell_may g (relied L) stops (by rw [hl]; simp only [relied, List.length_map, List.length_zipIdx, hlen])
      (fun j c h => hst j (by simpa using get j c true h)) 0 hK (fs := fs) (fs' := fs') (by intro p hp; cases hp) n c hc
    rwa [hfst] at this
  intro x hx h
  simp only [List.mem_cons, List.not_mem_nil, or_false] at hx
  rcases hx with rfl | rfl | rfl
  · exact gen ([4] ++ [15]) 15 (by decide) (by decide) (by decide +kernel) h
  · exact gen ([6, 7, 8, 9, 10, 11] ++ [16]) 16 (by decide) (by decide) (by decide +kernel) h
  · exact gen ([12] ++ [17]) 17 (by decide) (by decide) (by decide +kernel) h

/-- These commands are the ones meant. -/
example : (reproduce expected)[4]? = some (comparison expected) ∧ (reproduce expected)[15]? = some comparisonProcess ∧
    (reproduce expected)[6]? = some (crudeOil "2012" true true) ∧ (reproduce expected)[11]? = some (crudeOil "2017" true true) ∧
    (reproduce expected)[16]? = some crudeOilAggregate ∧ (reproduce expected)[12]? = some vixForecast ∧
    (reproduce expected)[17]? = some vixForecastProcess := ⟨rfl, rfl, rfl, rfl, rfl, rfl, rfl⟩

/-- **C219, refuted** If training for one year raises, the aggregation still reports, from old predictions: nothing stops, and what is
read depends on what was there before. -/
theorem c219_false : ∃ (cs : List (List Op × Option ℕ)) (g : ℕ → Path → List ℕ → ℕ) (fs fs' : Files ℕ) (l l' : List ℕ),
    cs.map Prod.fst = reproduce expected ∧ cs.countP (fun c => c.2.isSome) = 1 ∧
    (shell g 0 cs fs).2[16]? = some (.ok l) ∧ (shell g 0 cs fs').2[16]? = some (.ok l') ∧ l ≠ l' ∧
    (reproduce expected)[16]? = some crudeOilAggregate := by
  refine ⟨(reproduce expected).zipIdx.map fun c => (c.1, if c.2 = 7 then some 1 else none), fun _ _ _ => 0, fun _ => some 1, fun _ => some 2,
    [0, 0, 0, 0] ++ [0, 1, 1, 1] ++ List.replicate 16 0, [0, 0, 0, 0] ++ [0, 2, 2, 2] ++ List.replicate 16 0, ?_, ?_, ?_, ?_, ?_, ?_⟩
  · rfl
  · rfl
  · rfl
  · rfl
  · decide
  · rfl

/-- **C219** The names of the directories matter: `comparison_process.py` writes them out. If the name of a kernel is another one, it finds
nothing, whatever has just been computed. -/
theorem c219_names (g : ℕ → Path → List γ → γ) (a b : String) (s : String) (hs : s ≠ "eq") (ha : a ≠ "eq") (hb : b ≠ "eq") :
    (shell g 0 [(comparison [s, a, b], none), (comparisonProcess, none)] (fun _ => none)).2[1]? = some (.error .osError) := by
  simp [shell, script, comparison, comparisonProcess, kernelAnalysis, exec, hs.symm, ha.symm, hb.symm]

/-- The files of one year, when nothing was there before. -/
example : ∃ fs, shell (fun _ _ _ => 0) 0 [(crudeOil "2013" true true, none)] (fun _ => none) = (fs, [.ok (List.replicate 12 0)]) :=
  ⟨_, rfl⟩

end Gpcm.Reproduce
