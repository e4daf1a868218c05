import Verif.Model.Experiments
import Mathlib.Tactic.Linarith
import Mathlib.Tactic.Ring
import Mathlib.Tactic.NormNum
import Mathlib.Data.List.Perm.Basic

/-! # Properties C78, C80–C83, C87: the experiment scripts -/

namespace Gpcm.Experiments

/-! ## C78 -/

section Build

variable {num vec : Type} (S : SetOrder) (names : List String) (c : Common num vec)
  (nZ : Option ℕ) (ext : Bool)

theorem buildStep_fst (name : String) (k : Kind) (s : List String × List (Call num vec))
    (a : String) : a ∈ (buildStep S c nZ ext name k s).1 ↔ a ∈ s.1 ∧ a ≠ name := by
  unfold buildStep
  split
  · rw [List.mem_filter, (S.perm s.1).mem_iff]
    simp
  · rename_i h
    constructor
    · exact fun ha => ⟨ha, fun he => h (he ▸ ha)⟩
    · exact fun ha => ha.1

theorem buildStep_snd (name : String) (k : Kind) (s : List String × List (Call num vec)) :
    (buildStep S c nZ ext name k s).2 = s.2 ++ if name ∈ s.1 then [callOf c nZ ext k] else [] := by
  unfold buildStep
  split <;> simp

/-- The name under which a model is requested. -/
def Kind.name : Kind → String
  | .gpcm => "gpcm"
  | .cgpcm => "cgpcm"
  | .rgpcm => "gprv"

/-- **C78.** If only known names are given, exactly the requested models are built, once each, in a
fixed order, whatever the order and the multiplicity of the names. -/
theorem c78_builds (h : ∀ n ∈ names, n ∈ ["gpcm", "cgpcm", "gprv"]) :
    buildModels S names c nZ ext = .ok
      (([Kind.gpcm, .cgpcm, .rgpcm].filter (fun k => k.name ∈ names)).map (callOf c nZ ext)) := by
  have hemp : (buildStep S c nZ ext "gprv" .rgpcm (buildStep S c nZ ext "cgpcm" .cgpcm
      (buildStep S c nZ ext "gpcm" .gpcm (names, [])))).1 = [] := by
    refine List.eq_nil_iff_forall_not_mem.2 fun a ha => ?_
    rw [buildStep_fst, buildStep_fst, buildStep_fst] at ha
    have := h a ha.1.1.1
    simp at this
    tauto
  unfold buildModels
  simp only [hemp, List.length_nil, lt_irrefl, if_false]
  congr 1
  rw [buildStep_snd, buildStep_snd, buildStep_snd]
  simp only [buildStep_fst]
  by_cases h1 : "gpcm" ∈ names <;> by_cases h2 : "cgpcm" ∈ names <;> by_cases h3 : "gprv" ∈ names <;>
    simp [h1, h2, h3, Kind.name]

/-- **C78.** Every name gives its own model. -/
theorem c78_kinds (h : ∀ n ∈ names, n ∈ ["gpcm", "cgpcm", "gprv"]) :
    ∃ ms, buildModels S names c nZ ext = .ok ms ∧
      ms.map Call.kind = [Kind.gpcm, .cgpcm, .rgpcm].filter fun k => k.name ∈ names := by
  refine ⟨_, c78_builds S names c nZ ext h, ?_⟩
  rw [List.map_map, List.map_congr_left (g := id) fun k _ => by cases k <;> rfl, List.map_id]

/-- **C78.** An unknown name raises `ValueError`. -/
theorem c78_rejects {n : String} (hn : n ∈ names) (h : n ∉ ["gpcm", "cgpcm", "gprv"]) :
    buildModels S names c nZ ext = .error .valueError := by
  unfold buildModels
  have : n ∈ (buildStep S c nZ ext "gprv" .rgpcm (buildStep S c nZ ext "cgpcm" .cgpcm
      (buildStep S c nZ ext "gpcm" .gpcm (names, [])))).1 := by
    rw [buildStep_fst, buildStep_fst, buildStep_fst]
    simp at h
    exact ⟨⟨⟨hn, h.1⟩, h.2.1⟩, h.2.2⟩
  simp only [if_pos (List.length_pos_of_mem this)]

/-- **C78.** The arguments reach the constructors unchanged: every model gets the same scheme, noise,
window, scale and data, window and scale are fixed together, and the number of frequencies of the
RGPCM is half of `n_z`, rounded up. -/
theorem c78_arguments {ms : List (Call num vec)} (h : buildModels S names c nZ ext = .ok ms) :
    ∀ m ∈ ms, m.scheme = c.scheme ∧ m.noise = c.noise ∧ m.window = c.window ∧ m.scale = c.scale ∧
      m.t = c.t ∧ m.nU = c.nU ∧ m.fixWindow = c.fixWindowScale ∧ m.fixScale = c.fixWindowScale ∧
      (m.kind ≠ .rgpcm → m.nZ = nZ ∧ m.extendTZ = some ext ∧ m.mMax = none) ∧
      (m.kind = .rgpcm → m.nZ = none ∧ m.extendTZ = none ∧
        ∀ n, nZ = some n → 0 < n → ∃ k, m.mMax = some k ∧ n ≤ 2 * k ∧ 2 * k ≤ n + 1) := by
  have hk : ∀ n ∈ names, n ∈ ["gpcm", "cgpcm", "gprv"] := by
    intro n hn
    by_contra hc
    rw [c78_rejects S names c nZ ext hn hc] at h
    cases h
  rw [c78_builds S names c nZ ext hk] at h
  cases h
  intro m hm
  obtain ⟨k, _, rfl⟩ := List.mem_map.1 hm
  cases k
  · simp [callOf]
  · simp [callOf]
  · refine ⟨rfl, rfl, rfl, rfl, rfl, rfl, rfl, rfl, by simp [callOf], fun _ => ⟨rfl, rfl, ?_⟩⟩
    rintro n rfl hn
    match n, hn with
    | n + 1, _ => exact ⟨(n + 1 + 1) / 2, rfl, by omega, by omega⟩

/-- Names in another order and repeated. -/
example (S : SetOrder) (c : Common ℕ ℕ) :
    buildModels S ["gprv", "gpcm", "gprv"] c (some 5) true =
      .ok [callOf c (some 5) true .gpcm, callOf c (some 5) true .rgpcm] := by
  rw [c78_builds S _ c _ _ (by simp)]
  rfl

example (S : SetOrder) (c : Common ℕ ℕ) :
    buildModels S ["gpcm", "rgpcm"] c none false = .error .valueError :=
  c78_rejects S _ c _ _ (n := "rgpcm") (by simp) (by decide)

end Build

/-! ## C80 -/

theorem firstMondayLoop_spec : ∀ (k fuel d : ℕ), k < fuel → (∀ j < k, weekday (d + j) ≠ 0) →
    weekday (d + k) = 0 → firstMondayLoop fuel d = some (d + k)
  | 0, fuel + 1, d, _, _, h => by
    rw [firstMondayLoop, if_neg (by simpa using h)]
    rfl
  | k + 1, fuel + 1, d, hf, hj, h => by
    rw [firstMondayLoop, if_pos (by simpa using hj 0 (Nat.succ_pos _)),
      firstMondayLoop_spec k fuel (d + 1) (by omega)
        (fun j hjk => by rw [add_assoc, add_comm 1]; exact hj (j + 1) (by omega))
        (by rw [add_assoc, add_comm 1]; exact h), add_assoc, add_comm 1]

/-- **C80.** For every year `first_monday` returns after at most six steps, with the first Monday on
or after January 1. -/
theorem c80_first_monday (year fuel : ℕ) (hf : 7 ≤ fuel) :
    ∃ d, firstMonday fuel year = some d ∧ weekday d = 0 ∧ jan1 year ≤ d ∧ d < jan1 year + 7 ∧
      ∀ d', jan1 year ≤ d' → weekday d' = 0 → d ≤ d' := by
  have hk : (7 - weekday (jan1 year)) % 7 < 7 := Nat.mod_lt _ (by norm_num)
  have key : ∀ j, weekday (jan1 year + j) = 0 → (7 - weekday (jan1 year)) % 7 ≤ j := by
    intro j hj
    unfold weekday at *
    omega
  have h0 : weekday (jan1 year + (7 - weekday (jan1 year)) % 7) = 0 := by
    unfold weekday
    omega
  refine ⟨_, firstMondayLoop_spec _ fuel (jan1 year) (lt_of_lt_of_le hk hf)
    (fun j hj h => absurd (key j h) (by omega)) h0, h0, by omega, by omega, ?_⟩
  intro d' h1 h2
  obtain ⟨j, rfl⟩ := Nat.exists_eq_add_of_le h1
  have := key j h2
  omega

/-- January 1 of the next year is 365 or 366 days later, by the Gregorian rule, so the ordinals used
above are those of the calendar. -/
theorem c80_calendar (year : ℕ) (h : 1 ≤ year) :
    jan1 (year + 1) = jan1 year +
      if year % 4 = 0 ∧ (year % 100 ≠ 0 ∨ year % 400 = 0) then 366 else 365 := by
  obtain ⟨y, rfl⟩ := Nat.exists_eq_add_of_le' h
  unfold jan1 daysBeforeYear
  have h4 : (y + 1) / 4 = y / 4 + if (y + 1) % 4 = 0 then 1 else 0 := by
    rw [Nat.succ_div]; simp only [Nat.dvd_iff_mod_eq_zero]
  have h100 : (y + 1) / 100 = y / 100 + if (y + 1) % 100 = 0 then 1 else 0 := by
    rw [Nat.succ_div]; simp only [Nat.dvd_iff_mod_eq_zero]
  have h400 : (y + 1) / 400 = y / 400 + if (y + 1) % 400 = 0 then 1 else 0 := by
    rw [Nat.succ_div]; simp only [Nat.dvd_iff_mod_eq_zero]
  have hle : y / 100 ≤ y / 4 := Nat.div_le_div_left (by norm_num) (by norm_num)
  have i1 : (y + 1) % 100 = 0 → (y + 1) % 4 = 0 := by omega
  have i2 : (y + 1) % 400 = 0 → (y + 1) % 100 = 0 := by omega
  simp only [Nat.add_sub_cancel, h4, h100, h400]
  generalize y / 4 = a at *
  generalize y / 100 = b at *
  generalize y / 400 = c at *
  by_cases c4 : (y + 1) % 4 = 0 <;> by_cases c100 : (y + 1) % 100 = 0 <;>
    by_cases c400 : (y + 1) % 400 = 0 <;> simp [c4, c100, c400] at * <;> omega

/-- **C80.** Days of the week follow each other, and January 1 falls on the day given by Gauss's rule, in which
Sunday is zero. -/
theorem c80_weekday (year d : ℕ) (h : 1 ≤ year) :
    weekday (d + 1) = (weekday d + 1) % 7 ∧ weekday d < 7 ∧
    (weekday (jan1 year) + 1) % 7 =
      (1 + 5 * ((year - 1) % 4) + 4 * ((year - 1) % 100) + 6 * ((year - 1) % 400)) % 7 := by
  unfold weekday jan1 daysBeforeYear
  refine ⟨by omega, by omega, ?_⟩
  omega

/-- January 1, 2018 was a Monday; the first Monday of 2019 was January 7. -/
example : firstMonday 7 2018 = some (jan1 2018) ∧ firstMonday 7 2019 = some (jan1 2019 + 6) := by
  decide

/-! ## C81 and C87 -/

/-- Time spent in top-level pauses. -/
def pausedTime : List TEvent → ℝ
  | [] => 0
  | .track _ _ :: es => pausedTime es
  | .pause start _ stop :: es => stop - start + pausedTime es

/-- No pause begins inside another pause. -/
def TEvent.Flat : TEvent → Prop
  | .track _ _ => True
  | .pause _ inner _ => ∀ e ∈ inner, ∃ c v, e = .track c v

/-- The clock readings at which values were tracked, each with the length of the pauses that ended
before; within a pause that pause does not count yet. -/
def readings (paused : ℝ) : List TEvent → List (ℝ × ℝ × ℝ)
  | [] => []
  | .track c v :: es => (c, v, paused) :: readings paused es
  | .pause start inner stop :: es =>
    inner.filterMap (fun
      | .track c v => some (c, v, paused)
      | _ => none) ++ readings (paused + (stop - start)) es

theorem steps_tracks (t : Tracker) (es : List TEvent) (h : ∀ e ∈ es, ∃ c v, e = .track c v) (p : ℝ) :
    (t.steps es).ref = t.ref ∧
    (t.steps es).times = t.times ++ (es.filterMap (fun
      | .track c v => some (c, v, p)
      | _ => none)).map (fun r => r.1 - t.ref) ∧
    (t.steps es).values = t.values ++ (es.filterMap (fun
      | .track c v => some (c, v, p)
      | _ => none)).map (fun r => r.2.1) := by
  induction es generalizing t with
  | nil => simp [Tracker.steps]
  | cons e es ih =>
    obtain ⟨c, v, rfl⟩ := h e (by simp)
    obtain ⟨h1, h2, h3⟩ := ih (t.step (.track c v)) fun e he => h e (by simp [he])
    rw [Tracker.steps]
    refine ⟨h1.trans (by simp [Tracker.step]), ?_, ?_⟩
    · rw [h2]; simp [Tracker.step]
    · rw [h3]; simp [Tracker.step]

theorem steps_readings (t : Tracker) (es : List TEvent) (h : ∀ e ∈ es, e.Flat) (c0 p : ℝ)
    (ht : t.ref = c0 + p) :
    (t.steps es).times = t.times ++ (readings p es).map (fun r => r.1 - c0 - r.2.2) ∧
    (t.steps es).values = t.values ++ (readings p es).map (fun r => r.2.1) ∧
    (t.steps es).ref = c0 + p + pausedTime es := by
  induction es generalizing t p with
  | nil => simp [Tracker.steps, readings, pausedTime, ht]
  | cons e es ih =>
    have hes := fun e he => h e (List.mem_cons_of_mem _ he)
    cases e with
    | track c v =>
      obtain ⟨h1, h2, h3⟩ := ih (t.step (.track c v)) hes p (by simp [Tracker.step, ht])
      rw [Tracker.steps]
      refine ⟨?_, ?_, h3⟩
      · rw [h1]
        simp only [Tracker.step, readings, List.map_cons, List.append_assoc, List.singleton_append,
          ht]
        congr 2
        ring
      · rw [h2]
        simp [Tracker.step, readings]
    | pause a inner b =>
      have hin : ∀ e ∈ inner, ∃ c v, e = .track c v :=
        h (.pause a inner b) (by simp)
      obtain ⟨g1, g2, g3⟩ := steps_tracks t inner hin p
      obtain ⟨h1, h2, h3⟩ := ih (t.step (.pause a inner b)) hes (p + (b - a))
        (by simp only [Tracker.step, g1, ht]; ring)
      rw [Tracker.steps]
      refine ⟨?_, ?_, ?_⟩
      · rw [h1]
        simp only [Tracker.step, g2, readings, List.map_append, List.append_assoc]
        congr 2
        refine List.map_congr_left fun r hr => ?_
        obtain ⟨e, he, hr⟩ := List.mem_filterMap.1 hr
        obtain ⟨c, v, rfl⟩ := hin e he
        cases hr
        simp only [ht]
        ring
      · rw [h2]
        simp only [Tracker.step, g3, readings, List.map_append, List.append_assoc]
      · rw [h3, pausedTime]
        ring

/-- **C81.** Without nested pauses every tracked time is the clock time since construction minus the
total length of the pauses that ended before, and the values are the tracked values. -/
theorem c81_tracker (c0 : ℝ) (es : List TEvent) (h : ∀ e ∈ es, e.Flat) :
    ((Tracker.new c0).steps es).times = (readings 0 es).map (fun r => r.1 - c0 - r.2.2) ∧
    ((Tracker.new c0).steps es).values = (readings 0 es).map (fun r => r.2.1) := by
  obtain ⟨h1, h2, _⟩ := steps_readings (Tracker.new c0) es h c0 0 (by simp [Tracker.new])
  exact ⟨by simpa [Tracker.new] using h1, by simpa [Tracker.new] using h2⟩

/-- **C81.** The next tracked time after any history without nested pauses. -/
theorem c81_next (c0 clock v : ℝ) (es : List TEvent) (h : ∀ e ∈ es, e.Flat) :
    (((Tracker.new c0).steps es).step (.track clock v)).times =
      ((Tracker.new c0).steps es).times ++ [clock - c0 - pausedTime es] := by
  obtain ⟨_, _, h3⟩ := steps_readings (Tracker.new c0) es h c0 0 (by simp [Tracker.new])
  simp only [Tracker.step, h3]
  congr 2
  ring

/-- Nested pauses are subtracted twice, which is why the property excludes them: one second is
paused, two are subtracted. -/
theorem c81_nested_false :
    ((Tracker.new 0).steps [.pause 1 [.pause 1 [] 2] 2, .track 3 0]).times = [1] := by
  norm_num [Tracker.steps, Tracker.step, Tracker.new]

example : ((Tracker.new 10).steps [.track 11 5, .pause 12 [] 15, .track 16 6]).times = [1, 3] := by
  rw [(c81_tracker 10 _ (by simp [TEvent.Flat])).1]
  norm_num [readings]

mutual
theorem step_len (t : Tracker) (e : TEvent) (h : t.times.length = t.values.length) :
    (t.step e).times.length = (t.step e).values.length := by
  cases e with
  | track c v => simp [Tracker.step, h]
  | pause a inner b => simpa [Tracker.step] using steps_len t inner h
theorem steps_len (t : Tracker) (es : List TEvent) (h : t.times.length = t.values.length) :
    (t.steps es).times.length = (t.steps es).values.length := by
  cases es with
  | nil => simpa [Tracker.steps] using h
  | cons e es =>
    rw [Tracker.steps]
    exact steps_len _ es (step_len t e h)
end

/-- **C87.** `get_xy` raises `IndexError` iff at most `start` values were tracked. -/
theorem c87_raises (t : Tracker) (start : ℕ) :
    (t.getXY start = .error .indexError ↔ t.times.length ≤ start) ∧
      (start < t.times.length → ∃ xy, t.getXY start = .ok xy) := by
  unfold Tracker.getXY
  constructor
  · constructor
    · intro h
      split at h
      · rename_i h0
        exact List.getElem?_eq_none_iff.1 h0
      · cases h
    · intro h
      rw [List.getElem?_eq_none_iff.2 h]
  · intro h
    rw [List.getElem?_eq_getElem h]
    exact ⟨_, rfl⟩

/-- **C87.** After any history `get_xy` returns equally many times and values, namely all but the
first `start`, the first time is zero and differences of times are kept. -/
theorem c87_get_xy (c0 : ℝ) (es : List TEvent) (start : ℕ) {x y : List ℝ}
    (h : ((Tracker.new c0).steps es).getXY start = .ok (x, y)) :
    x.length = y.length ∧ x.head? = some 0 ∧ y = ((Tracker.new c0).steps es).values.drop start ∧
      x.length = ((Tracker.new c0).steps es).times.length - start ∧
      ∃ t0, ∀ i, x[i]? = (((Tracker.new c0).steps es).times[start + i]?).map (· - t0) := by
  have hl := steps_len (Tracker.new c0) es rfl
  generalize (Tracker.new c0).steps es = t at h hl
  unfold Tracker.getXY at h
  split at h
  · cases h
  · rename_i t0 h0
    cases h
    refine ⟨by simp [hl], ?_, rfl, by simp, t0, fun i => by simp⟩
    rw [List.head?_map, List.head?_drop, h0]
    simp

example : ((Tracker.new 0).steps [.track 1 5, .track 3 6, .track 7 8]).getXY 1 =
    .ok ([0, 4], [6, 8]) := by
  norm_num [Tracker.steps, Tracker.step, Tracker.new, Tracker.getXY]

/-! ## C82 -/

/-- Week of the year of a time stamp, counted from zero. -/
def weekOf (τ : Stamp) : ℤ := τ / weekLen

theorem testInds_eq (index : List Stamp) :
    testInds index = index.map fun τ => testWeeks.any fun w => decide (w.1 ≤ τ) && decide (w.2 > τ) := by
  unfold testInds
  have key : ∀ (ws : List (ℤ × ℤ)) (f : Stamp → Bool),
      ws.foldl (fun inds w => List.zipWith (· || ·) inds
        (index.map fun τ => decide (w.1 ≤ τ) && decide (w.2 > τ))) (index.map f) =
      index.map fun τ => f τ || ws.any fun w => decide (w.1 ≤ τ) && decide (w.2 > τ) := by
    intro ws
    induction ws with
    | nil => simp
    | cons w ws ih =>
      intro f
      rw [List.foldl_cons]
      have : List.zipWith (· || ·) (index.map f)
          (index.map fun τ => decide (w.1 ≤ τ) && decide (w.2 > τ)) =
          index.map fun τ => f τ || (decide (w.1 ≤ τ) && decide (w.2 > τ)) := by
        rw [List.zipWith_map]
        simp
      rw [this, ih]
      simp [Bool.or_assoc]
  rw [key]
  simp

theorem inTest_iff (τ : Stamp) :
    (testWeeks.any fun w => decide (w.1 ≤ τ) && decide (w.2 > τ)) = true ↔
      27 ≤ weekOf τ ∧ weekOf τ ≤ 51 ∧ weekOf τ % 2 = 1 := by
  have hw : testWeeks = [27, 29, 31, 33, 35, 37, 39, 41, 43, 45, 47, 49, 51].map
      fun i : ℤ => (i * weekLen, (i + 1) * weekLen) := by decide
  have hmem : ∀ i : ℤ, (i * weekLen ≤ τ ∧ (i + 1) * weekLen > τ) ↔ weekOf τ = i := by
    intro i
    unfold weekOf weekLen
    omega
  rw [hw]
  simp only [List.any_map, List.any_eq_true, Function.comp, Bool.and_eq_true, decide_eq_true_eq,
    hmem]
  constructor
  · rintro ⟨i, hi, he⟩
    rw [he]
    simp only [List.mem_cons, List.not_mem_nil, or_false] at hi
    omega
  · rintro ⟨h1, h2, h3⟩
    refine ⟨_, ?_, rfl⟩
    generalize weekOf τ = w at *
    have : w = 27 ∨ w = 29 ∨ w = 31 ∨ w = 33 ∨ w = 35 ∨ w = 37 ∨ w = 39 ∨ w = 41 ∨ w = 43 ∨ w = 45 ∨
        w = 47 ∨ w = 49 ∨ w = 51 := by omega
    simpa using this

theorem mask_map {α : Type} (p : α → Bool) (a : List α) : mask (a.map p) a = a.filter p := by
  unfold mask
  induction a with
  | nil => rfl
  | cons x a ih =>
    simp only [List.map_cons, List.zip_cons_cons, List.filter_cons]
    split <;> simp [ih]

/-- The specification of a test observation: an odd week from week 27. -/
def IsTest (τ : Stamp) : Prop := 27 ≤ weekOf τ ∧ weekOf τ % 2 = 1

instance (τ : Stamp) : Decidable (IsTest τ) := by unfold IsTest; infer_instance

/-- **C82.** For data within the year, the test observations are exactly those in odd weeks from
week 27 and the training observations are exactly the others, both in the original order. -/
theorem c82_split {β : Type} (obs : List (Stamp × β))
    (h : ∀ o ∈ obs, 0 ≤ o.1 ∧ o.1 < 366 * (24 * 3600 * 1000000)) :
    split (obs.map Prod.fst) obs =
      (obs.filter (fun o => ¬ IsTest o.1), obs.filter (fun o => IsTest o.1)) := by
  have hp : ∀ o ∈ obs, (testWeeks.any fun w => decide (w.1 ≤ o.1) && decide (w.2 > o.1)) =
      decide (IsTest o.1) := by
    intro o ho
    rw [Bool.eq_iff_iff, inTest_iff, decide_eq_true_eq]
    have h52 : weekOf o.1 ≤ 52 := by
      have aux : ∀ z : ℤ, z < 366 * (24 * 3600 * 1000000) → z / weekLen ≤ 52 := by
        unfold weekLen
        intro z hz
        omega
      exact aux _ (h o ho).2
    unfold IsTest
    constructor
    · rintro ⟨h1, _, h3⟩; exact ⟨h1, h3⟩
    · rintro ⟨h1, h3⟩; exact ⟨h1, by omega, h3⟩
  have e1 : testInds (obs.map Prod.fst) = obs.map fun o => decide (IsTest o.1) := by
    rw [testInds_eq, List.map_map]
    exact List.map_congr_left hp
  unfold split
  rw [e1, List.map_map, mask_map, mask_map]
  congr 1
  refine List.filter_congr fun o _ => ?_
  simp

/-- **C82.** For all data whatsoever the two sets together are the data, none is lost or duplicated,
and both are in the original order. -/
theorem c82_partition {β : Type} (obs : List (Stamp × β)) :
    ((split (obs.map Prod.fst) obs).1 ++ (split (obs.map Prod.fst) obs).2).Perm obs ∧
      (split (obs.map Prod.fst) obs).1.Sublist obs ∧ (split (obs.map Prod.fst) obs).2.Sublist obs := by
  unfold split
  rw [testInds_eq, List.map_map, List.map_map, List.map_map, mask_map, mask_map]
  refine ⟨?_, List.filter_sublist, List.filter_sublist⟩
  have := List.filter_append_perm (fun o : Stamp × β =>
    testWeeks.any fun w => decide (w.1 ≤ o.1) && decide (w.2 > o.1)) obs
  exact List.perm_append_comm.trans this

/-- July 9 (day 189 counted from zero) is in week 27, July 16 in week 28. -/
example : split [189 * 86400000000, 196 * 86400000000] [(189 * 86400000000, 0), (196 * 86400000000, 1)]
    = ([((196 * 86400000000 : ℤ), 1)], [(189 * 86400000000, 0)]) := by
  have := c82_split [((189 * 86400000000 : ℤ), 0), (196 * 86400000000, 1)] (by decide)
  exact this.trans (by decide)

/-! ## C83 -/

/-- **C83.** `n` inputs starting at zero become `2n - 1` inputs that are odd-symmetric about the
middle; the values are even-symmetric. -/
theorem c83_mirror (x : List ℝ) (f : List ℝ) (hx : x.head? = some 0) (hl : f.length = x.length) :
    (extractSamples x f).1.length = 2 * x.length - 1 ∧
    (extractSamples x f).2.length = 2 * x.length - 1 ∧
    (∀ i < 2 * x.length - 1, (extractSamples x f).1[2 * x.length - 2 - i]? =
      ((extractSamples x f).1[i]?).map (fun a => -a)) ∧
    (∀ i < 2 * x.length - 1, (extractSamples x f).2[2 * x.length - 2 - i]? =
      (extractSamples x f).2[i]?) ∧
    (∀ i < x.length, (extractSamples x f).1[x.length - 1 + i]? = x[i]? ∧
      (extractSamples x f).2[x.length - 1 + i]? = f[i]?) := by
  match x, hx with
  | x0 :: x, hx =>
    obtain rfl : x0 = 0 := by simpa using hx
    match f, hl with
    | f0 :: f, hl =>
      have hl : f.length = x.length := by simpa using hl
      have r1 : (extractSamples (0 :: x) (f0 :: f)).1 = (x.reverse.map fun a => -a) ++ 0 :: x := by
        simp [extractSamples]
      have r2 : (extractSamples (0 :: x) (f0 :: f)).2 = f.reverse ++ f0 :: f := by
        simp [extractSamples]
      rw [r1, r2]
      have n1 : 2 * (0 :: x).length - 1 = 2 * x.length + 1 := by simp; omega
      have n2 : 2 * (0 :: x).length - 2 = 2 * x.length := by simp; omega
      rw [n1, n2]
      have rev1 : ((x.reverse.map fun a => -a) ++ 0 :: x).reverse =
          ((x.reverse.map fun a => -a) ++ 0 :: x).map fun a => -a := by
        simp [List.map_reverse]
      have rev2 : (f.reverse ++ f0 :: f).reverse = f.reverse ++ f0 :: f := by simp
      refine ⟨by simp; omega, by simp; omega, ?_, ?_, ?_⟩
      · intro i hi
        rw [← List.getElem?_map, ← rev1, List.getElem?_reverse (by simp; omega)]
        congr 1
        simp
        omega
      · intro i hi
        conv_rhs => rw [← rev2]
        rw [List.getElem?_reverse (by simp; omega)]
        congr 1
        simp
        omega
      · intro i hi
        constructor
        · rw [List.getElem?_append_right (by simp)]
          simp
        · rw [List.getElem?_append_right (by simp [hl])]
          simp [hl]

example : extractSamples [0, 1, 2] [5, 6, 7] = ([-2, -1, 0, 1, 2], [7, 6, 5, 6, 7]) := by
  simp [extractSamples]

end Gpcm.Experiments
