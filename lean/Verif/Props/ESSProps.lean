import Verif.Lemmas.ESSLemmas

/-!
# Properties C43–C47, C85, C86: elliptical slice sampling

`T` is an arbitrary tape of random numbers and prior samples, `L` an arbitrary log-likelihood
function (possibly NaN or infinite), `V` an arbitrary real vector space.
-/

open Real

namespace Gpcm.Ess

variable {V : Type} [AddCommGroup V] [Module ℝ V] {T : Tape V} {L : V → LL}

/-- The states an `ESS` object goes through: construction, `move`, and passes of the loop of
`_sample`. -/
inductive Reach (T : Tape V) (L : V → LL) : State V → Prop
  | init (xInit : Option V) : Reach T L (init T L xInit)
  | move {s : State V} (x : V) : Reach T L s → Reach T L (move L x s)
  | pass {s : State V} : Reach T L s → Reach T L (samplePass T L s).1

/-! ## C43 -/

/-- **C43.** The cached log-likelihood is the log-likelihood of the current state, and the current
state is a point at which the log-likelihood was evaluated (initial state, explicit move, or
proposal). -/
theorem c43_in_step {s : State V} (h : Reach T L s) :
    s.logLikX = L s.x ∧ .lik s.x (L s.x) ∈ s.trace := by
  induction h with
  | init xi => cases xi <;> exact ⟨rfl, by simp [init]⟩
  | move x _ ih => exact ⟨rfl, by simp [move]⟩
  | @pass s _ ih =>
    obtain ⟨tr, o, hr, -, htr, _, ho⟩ := samplePass_round (T := T) (L := L) s
    cases o with
    | none =>
      obtain ⟨_, h2, h3, _⟩ := ho
      rw [h2, h3, htr]
      exact ⟨ih.1, List.mem_append_left _ ih.2⟩
    | some x' =>
      obtain ⟨_, h2, h3⟩ := ho
      rw [h2, h3, htr]
      obtain ⟨e, y, θ, tr', _, _, _, rfl, hrun⟩ := hr
      obtain ⟨tr0, a, b, θ', rfl, _⟩ := hrun.accepted
      exact ⟨rfl, by simp⟩

theorem sample1_reach : ∀ (fuel : ℕ) {s s' : State V} {r : Except PyErr ℕ}, Reach T L s →
    sample1 T L fuel s = some (s', r) → Reach T L s'
  | 0, s, s', r, _, h => by cases h
  | fuel + 1, s, s', r, hs, h => by
    have hp := hs.pass
    unfold sample1 at h
    generalize samplePass T L s = d at h hp
    obtain ⟨s1, p⟩ := d
    cases p with
    | done n => cases h; exact hp
    | again => exact sample1_reach fuel hp h
    | raise e => cases h; exact hp

/-- **C43.** `sample(num)` returns exactly `num` states, each of them a reachable current state, the
last one being the final current state; it never raises. -/
theorem c43_sample : ∀ (fuel num : ℕ) {s s' : State V} {r : Except PyErr (List V)}, Reach T L s →
    sample T L fuel num s = some (s', r) → Reach T L s' ∧ ∃ xs, r = .ok xs ∧ xs.length = num ∧
      (∀ x, xs.getLast? = some x → x = s'.x) ∧ ∀ x ∈ xs, ∃ s'', Reach T L s'' ∧ s''.x = x
  | fuel, 0, s, s', r, hs, h => by
    cases h
    exact ⟨hs, [], rfl, rfl, by simp, by simp⟩
  | fuel, num + 1, s, s', r, hs, h => by
    unfold sample at h
    split at h
    · cases h
    · rename_i s1 e h1
      obtain ⟨_, _, _, _, _, _, _, hr⟩ := sample1_rounds fuel h1
      cases hr
    · rename_i s1 n h1
      have hs1 := sample1_reach fuel hs h1
      split at h
      · cases h
      · rename_i s2 e h2
        cases h
        obtain ⟨_, xs, hx, _⟩ := c43_sample fuel num hs1 h2
        cases hx
      · rename_i s2 xs h2
        cases h
        obtain ⟨hs2, xs', hx, hlen, hlast, hall⟩ := c43_sample fuel num hs1 h2
        cases hx
        refine ⟨hs2, _, rfl, by simp [hlen], fun x hx => ?_,
          List.forall_mem_cons.2 ⟨⟨s1, hs1, rfl⟩, hall⟩⟩
        cases xs with
        | nil =>
          cases num with
          | zero => cases h2; simpa using hx.symm
          | succ n => simp at hlen
        | cons z zs => exact hlast x (by simpa using hx)

/-- A concrete tape on the real line. -/
noncomputable def tapeHalf : Tape ℝ where
  unit _ := 1 / 2
  unit_nonneg _ := by norm_num
  unit_lt_one _ := by norm_num
  expo _ := 1
  expo_nonneg _ := by norm_num
  prior n := n

/-- With a constant log-likelihood every pass succeeds at the first proposal. -/
theorem pass_of_const {T : Tape V} (h1 : ∀ n, 0 < T.expo n) (s : State V)
    (hs : s.logLikX = some 0) :
    (samplePass T (fun _ => some 0) s).1.logLikX = some 0 ∧
      (samplePass T (fun _ => some 0) s).2 = .done 2 ∧
      ∃ tr, (samplePass T (fun _ => some 0) s).1.trace = s.trace ++ tr ∧ likCount tr = 1 := by
  obtain ⟨tr, o, hr, hhead, htr, _, ho⟩ := samplePass_round (T := T) (L := fun _ => some 0) s
  obtain ⟨e, y, θ, tr', he, _, _, rfl, hrun⟩ := hr
  simp only [List.head?_cons, Option.some.injEq, Event.expo.injEq] at hhead
  have hgt : LL.gt (some 0) (s.logLikX.sub e) := by
    rw [hs, hhead]
    change (0 : EReal) - (T.expo s.iE : EReal) < 0
    have : (0 : EReal) - (T.expo s.iE : EReal) = ((-(T.expo s.iE) : ℝ) : EReal) := by
      rw [zero_sub, EReal.coe_neg]
    rw [this]
    have := h1 s.iE
    exact_mod_cast neg_lt_zero.2 this
  have hcases : ∀ {lo hi : ℝ} {tr : List (Event V)} {o : Option V},
      Run (fun _ => some 0) s.x y (s.logLikX.sub e) lo hi tr o →
      (o = none ∧ likCount tr = 0) ∨ (∃ x', o = some x') ∧ likCount tr = 1 := by
    intro lo hi tr o h
    cases h with
    | fail => exact .inl ⟨rfl, rfl⟩
    | accept => exact .inr ⟨⟨_, rfl⟩, by simp [likCount]⟩
    | right _ _ _ _ hu => exact (hu hgt).elim
    | left _ _ _ _ hu => exact (hu hgt).elim
  have hc : likCount (.expo e :: .prior y :: .uniform 0 (2 * π) θ :: tr') = likCount tr' := by
    simp [likCount]
  rcases hcases hrun with ⟨rfl, h0⟩ | ⟨⟨x', rfl⟩, h1⟩
  · have := ho.2.2.2
    omega
  · rw [hc, h1] at ho
    exact ⟨ho.2.2, ho.1, _, htr, by rw [hc, h1]⟩

/-- `sample` returns on a concrete tape. -/
theorem sample_of_const {T : Tape V} (h1 : ∀ n, 0 < T.expo n) : ∀ (num : ℕ) (s : State V),
    s.logLikX = some 0 → ∃ s' xs, sample T (fun _ => some 0) 1 num s = some (s', .ok xs)
  | 0, s, _ => ⟨s, [], rfl⟩
  | num + 1, s, hs => by
    obtain ⟨h2, h3, _⟩ := pass_of_const h1 s hs
    have : sample1 T (fun _ => some 0) 1 s = some ((samplePass T (fun _ => some 0) s).1, .ok 2) := by
      unfold sample1
      generalize samplePass T (fun _ => some 0) s = d at h3
      obtain ⟨s1, p⟩ := d
      subst h3
      rfl
    obtain ⟨s', xs, h'⟩ := sample_of_const h1 num _ h2
    refine ⟨s', (samplePass T (fun _ => some 0) s).1.x :: xs, ?_⟩
    unfold sample
    simp only [this, h']

example : ∃ s' xs, sample tapeHalf (fun _ => some 0) 1 3 (init tapeHalf (fun _ => some 0) none) =
    some (s', .ok xs) ∧ xs.length = 3 := by
  obtain ⟨s', xs, h⟩ := sample_of_const (T := tapeHalf) (fun _ => one_pos) 3
    (init tapeHalf (fun _ => some 0) none) rfl
  obtain ⟨_, xs', hx, hl, _⟩ := c43_sample 1 3 (.init none) h
  cases hx
  exact ⟨s', xs, h, hl⟩

/-! ## C44 -/

/-- **C44.** When `_sample` returns, the new state lies on the ellipse through the old state and the
prior sample drawn in the last round, and its log-likelihood is strictly above the slice height
drawn in that round; it is the last point that was evaluated, and every other point evaluated in
that round is below or on the slice height. -/
theorem c44_accepts_on_slice {fuel : ℕ} {s s' : State V} {r : Except PyErr ℕ}
    (h : sample1 T L fuel s = some (s', r)) :
    ∃ (old : List (Event V)) (e : ℝ) (y : V) (θ₀ : ℝ) (tr : List (Event V)) (a b θ : ℝ),
      s'.trace = old ++ .expo e :: .prior y :: .uniform 0 (2 * π) θ₀ ::
        (tr ++ [.uniform a b θ, .lik s'.x (L s'.x)]) ∧
      s'.x = cos θ • s.x + sin θ • y ∧ (L s'.x).gt (s.logLikX.sub e) ∧ 0 ≤ e ∧
      s'.logLikX = L s'.x ∧
      (∀ z l, .lik z l ∈ tr → l = L z ∧ ¬ l.gt (s.logLikX.sub e)) ∧
      (∀ ev ∈ tr, (∃ a b θ, ev = .uniform a b θ) ∨ ∃ θ, ev =
        .lik (cos θ • s.x + sin θ • y) (L (cos θ • s.x + sin θ • y))) := by
  obtain ⟨fs, tr, _, hr, hl, _, htr, _⟩ := sample1_rounds fuel h
  obtain ⟨e, y, θ₀, tr', he, _, _, rfl, hrun⟩ := hr
  have hev := hrun.events
  obtain ⟨tr0, a, b, θ, rfl, hx, hgt, hrej⟩ := hrun.accepted
  exact ⟨s.trace ++ fs.flatten, e, y, θ₀, tr0, a, b, θ, htr, hx, hgt, he, hl, hrej,
    fun ev hev' => hev ev (List.mem_append_left _ hev')⟩

/-! ## C45 -/

/-- **C45.** In every pass the first bracket is `[θ₀ - 2π, θ₀]` with `θ₀` in `[0, 2π)`; every bracket
contains zero and lies inside the first one, later brackets lie inside earlier ones, the angle is
drawn inside the bracket, and after a rejection the bracket is cut at the rejected angle on the side
away from zero. -/
theorem c45_bracket (s : State V) : ∃ (e : ℝ) (y : V) (θ₀ : ℝ) (tr : List (Event V)),
    (samplePass T L s).1.trace = s.trace ++ .expo e :: .prior y :: .uniform 0 (2 * π) θ₀ :: tr ∧
    0 ≤ θ₀ ∧ θ₀ < 2 * π ∧
    (∀ b, (brackets tr).head? = some b → b.1 = θ₀ - 2 * π ∧ b.2.1 = θ₀) ∧
    (∀ b ∈ brackets tr, θ₀ - 2 * π ≤ b.1 ∧ b.1 ≤ 0 ∧ 0 ≤ b.2.1 ∧ b.2.1 ≤ θ₀ ∧
      b.2.1 - b.1 ≤ 2 * π ∧ b.1 ≤ b.2.2 ∧ b.2.2 ≤ b.2.1) ∧
    (brackets tr).Pairwise (fun b c => b.1 ≤ c.1 ∧ c.2.1 ≤ b.2.1) ∧
    (brackets tr).IsChain (fun b c => (c.1, c.2.1) = if 0 < b.2.2 then (b.1, b.2.2)
      else (b.2.2, b.2.1)) := by
  obtain ⟨tr, o, hr, -, htr, -⟩ := samplePass_round (T := T) (L := L) s
  obtain ⟨e, y, θ₀, tr', he, h0, h1, rfl, hrun⟩ := hr
  obtain ⟨hb, hp⟩ := hrun.brackets_nested (by linarith) h0
  obtain ⟨hc, hh⟩ := hrun.shrink
  refine ⟨e, y, θ₀, tr', htr, h0, h1, hh, fun b hbm => ?_, hp, hc⟩
  obtain ⟨a1, a2, a3, a4, a5, a6⟩ := hb b hbm
  exact ⟨a1, a2, a3, a4, by linarith, a5, a6⟩

/-! ## C46 -/

/-- **C46.** One pass evaluates the log-likelihood at most 100 times and raises nothing. If it fails,
it has evaluated it exactly 100 times, the state and its log-likelihood are unchanged, and the loop
goes on. Every pass starts by drawing a new slice height, ellipse and bracket. -/
theorem c46_bounded (s : State V) : ∃ (e : ℝ) (y : V) (θ₀ : ℝ) (tr : List (Event V)),
    (samplePass T L s).1.trace = s.trace ++ .expo e :: .prior y :: .uniform 0 (2 * π) θ₀ :: tr ∧
    likCount tr ≤ 100 ∧
    ((∃ n, (samplePass T L s).2 = .done n) ∨
      (samplePass T L s).2 = .again ∧ likCount tr = 100 ∧ (samplePass T L s).1.x = s.x ∧
        (samplePass T L s).1.logLikX = s.logLikX) := by
  obtain ⟨tr, o, hr, -, htr, hc, ho⟩ := samplePass_round (T := T) (L := L) s
  obtain ⟨e, y, θ₀, tr', he, h0, h1, rfl, hrun⟩ := hr
  have hcc : likCount (.expo e :: .prior y :: .uniform 0 (2 * π) θ₀ :: tr') = likCount tr' := by
    simp [likCount]
  rw [hcc] at hc ho
  refine ⟨e, y, θ₀, tr', htr, hc, ?_⟩
  cases o with
  | none => exact .inr ⟨ho.1, ho.2.2.2, ho.2.1, ho.2.2.1⟩
  | some x' => exact .inl ⟨_, ho.1⟩

/-! ## C47 -/

/-- **C47, what is reported**: one more than the number of proposals evaluated in the last round.
The full statement, "the number of proposals", is refuted below. -/
theorem c47_reported_partial {fuel : ℕ} {s s' : State V} {r : Except PyErr ℕ}
    (h : sample1 T L fuel s = some (s', r)) :
    ∃ (old : List (Event V)) (e : ℝ) (tr : List (Event V)), s'.trace = old ++ .expo e :: tr ∧
      (∀ e', Event.expo e' ∉ tr) ∧ r = .ok (likCount tr + 1) := by
  obtain ⟨fs, tr, _, hr, hl, _, htr, hres⟩ := sample1_rounds fuel h
  obtain ⟨e, y, θ₀, tr', he, _, _, rfl, hrun⟩ := hr
  refine ⟨s.trace ++ fs.flatten, e, .prior y :: .uniform 0 (2 * π) θ₀ :: tr', htr, ?_, ?_⟩
  · intro e' he'
    simp only [List.mem_cons, reduceCtorEq, false_or] at he'
    rcases hrun.events _ he' with ⟨a, b, θ, h⟩ | ⟨θ, h⟩ <;> cases h
  · rw [hres]
    simp [likCount]

/-- **C47 is false**: there is a run in which one proposal is evaluated and two are reported. -/
theorem c47_reported_false : ∃ (s' : State ℝ) (tr : List (Event ℝ)),
    sample1 tapeHalf (fun _ => some 0) 1 (init tapeHalf (fun _ => some 0) (some 0)) =
      some (s', .ok 2) ∧
    s'.trace = (init tapeHalf (fun _ => some 0) (some 0)).trace ++ tr ∧ likCount tr = 1 := by
  obtain ⟨_, h3, tr, ht, hc⟩ := pass_of_const (T := tapeHalf) (fun _ => one_pos)
    (init tapeHalf (fun _ => some 0) (some 0)) rfl
  refine ⟨_, tr, ?_, ht, hc⟩
  unfold sample1
  generalize samplePass tapeHalf (fun _ => some 0) _ = d at h3
  obtain ⟨s1, p⟩ := d
  subst h3
  rfl

/-! ## C85 -/

/-- **C85.** `_sample` never moves to a point whose log-likelihood is NaN or `-inf`. -/
theorem c85_never_nan {fuel : ℕ} {s s' : State V} {r : Except PyErr ℕ}
    (h : sample1 T L fuel s = some (s', r)) : ∃ l : EReal, L s'.x = some l ∧ l ≠ ⊥ := by
  obtain ⟨_, e, _, _, _, _, _, _, _, _, hgt, _⟩ := c44_accepts_on_slice h
  cases hl : L s'.x with
  | none => rw [hl] at hgt; exact hgt.elim
  | some l =>
    refine ⟨l, rfl, ?_⟩
    rintro rfl
    rw [hl] at hgt
    cases hu : s.logLikX.sub e with
    | none => rw [hu] at hgt; exact hgt.elim
    | some u => rw [hu] at hgt; exact not_lt_bot hgt

/-! ## C86 -/

/-- **C86 is false**: from a state whose log-likelihood is NaN, `sample` runs forever, whatever the
random numbers and the likelihood elsewhere. -/
theorem c86_stuck_false (T : Tape V) (L : V → LL) {s : State V} (hs : s.logLikX = none) :
    ∀ fuel, sample1 T L fuel s = none := by
  intro fuel
  cases h : sample1 T L fuel s with
  | none => rfl
  | some p =>
    obtain ⟨s', r⟩ := p
    obtain ⟨_, e, _, _, _, _, _, _, _, _, hgt, _⟩ := c44_accepts_on_slice h
    rw [hs] at hgt
    cases hl : L s'.x with
    | none => rw [hl] at hgt; exact hgt.elim
    | some l => rw [hl] at hgt; exact hgt.elim

/-- The hypothesis is met right after construction at a point where the likelihood is NaN. -/
example : (init tapeHalf (fun x => if x = 0 then none else some 0) (some 0)).logLikX = none := by
  simp [init]

/-- **C86.** If the log-likelihood is finite at the current state and at least as large
everywhere else, `_sample` returns after one proposal, provided the exponential draw is positive. -/
theorem c86_returns_at_once (hT : ∀ n, 0 < T.expo n) {s : State V} {l : ℝ}
    (hs : s.logLikX = some (l : EReal)) (hL : ∀ z, ∃ m : EReal, L z = some m ∧ (l : EReal) ≤ m) :
    ∃ s', sample1 T L 1 s = some (s', .ok 2) := by
  obtain ⟨tr, o, hr, hhead, htr, _, ho⟩ := samplePass_round (T := T) (L := L) s
  obtain ⟨e, y, θ, tr', he, _, _, rfl, hrun⟩ := hr
  simp only [List.head?_cons, Option.some.injEq, Event.expo.injEq] at hhead
  have hgt : ∀ z, (L z).gt (s.logLikX.sub e) := fun z => by
    obtain ⟨m, hm, hlm⟩ := hL z
    rw [hs, hhead, hm]
    change (l : EReal) - (T.expo s.iE : EReal) < m
    refine lt_of_lt_of_le ?_ hlm
    rw [← EReal.coe_sub]
    have := hT s.iE
    exact_mod_cast (by linarith : l - T.expo s.iE < l)
  have hc : likCount (.expo e :: .prior y :: .uniform 0 (2 * π) θ :: tr') = likCount tr' := by
    simp [likCount]
  rw [hc] at ho
  cases hrun with
  | fail => have := ho.2.2.2; simp [likCount] at this
  | right _ _ _ _ hu => exact (hu (hgt _)).elim
  | left _ _ _ _ hu => exact (hu (hgt _)).elim
  | accept =>
    have h3 := ho.1
    refine ⟨(samplePass T L s).1, ?_⟩
    unfold sample1
    generalize samplePass T L s = d at h3
    obtain ⟨s1, p⟩ := d
    subst h3
    rfl

/-- A tape on which the first proposal of a pass is the drawn prior sample. -/
noncomputable def tapeQuarter (z : V) (e : ℝ) (he : 0 ≤ e) : Tape V where
  unit _ := 5 / 8
  unit_nonneg _ := by norm_num
  unit_lt_one _ := by norm_num
  expo _ := e
  expo_nonneg _ := he
  prior _ := z

/-- **C86, partial**: the complete list of states from which `_sample` runs forever whatever is
drawn: the log-likelihood of the state is NaN or plus infinity, or no point has positive
likelihood. The full statement asks for termination from every state, see `c86_stuck_false`. -/
theorem c86_returns_iff_partial (L : V → LL) (s : State V) :
    (∃ (T : Tape V) (fuel : ℕ) (p : State V × Except PyErr ℕ), sample1 T L fuel s = some p) ↔
      (∃ l : EReal, s.logLikX = some l ∧ l ≠ ⊤) ∧ ∃ (z : V) (m : EReal), L z = some m ∧ m ≠ ⊥ := by
  constructor
  · rintro ⟨T, fuel, ⟨s', r⟩, h⟩
    obtain ⟨_, e, _, _, _, _, _, _, _, _, hgt, _⟩ := c44_accepts_on_slice h
    cases hl : L s'.x with
    | none => rw [hl] at hgt; exact hgt.elim
    | some m =>
      cases hs : s.logLikX with
      | none => rw [hl, hs] at hgt; exact hgt.elim
      | some l =>
        rw [hl, hs] at hgt
        change l - (e : EReal) < m at hgt
        refine ⟨⟨l, rfl, ?_⟩, s'.x, m, hl, ?_⟩
        · rintro rfl
          rw [EReal.top_sub_coe] at hgt
          exact not_top_lt hgt
        · rintro rfl
          exact not_lt_bot hgt
  · rintro ⟨⟨l, hs, hl⟩, z, m, hz, hm⟩
    obtain ⟨e, he, hlt⟩ : ∃ e : ℝ, 0 ≤ e ∧ l - (e : EReal) < m := by
      induction l with
      | top => exact (hl rfl).elim
      | bot => exact ⟨0, le_rfl, by rw [EReal.bot_sub]; exact bot_lt_iff_ne_bot.2 hm⟩
      | coe l =>
        induction m with
        | bot => exact (hm rfl).elim
        | top => exact ⟨0, le_rfl, by rw [← EReal.coe_sub]; exact EReal.coe_lt_top _⟩
        | coe m =>
          refine ⟨max 0 (l - m + 1), le_max_left _ _, ?_⟩
          rw [← EReal.coe_sub]
          have := le_max_right 0 (l - m + 1)
          exact_mod_cast (by linarith : l - max 0 (l - m + 1) < m)
    refine ⟨tapeQuarter z e he, 1, ?_⟩
    have hp : ∃ s' n, samplePass (tapeQuarter z e he) L s = (s', .done n) := by
      have hy : (prepare (tapeQuarter z e he) s).2.2.y = some z := rfl
      have hx : (prepare (tapeQuarter z e he) s).2.2.x = s.x := rfl
      have hθ : (prepare (tapeQuarter z e he) s).2.1.1 + ((prepare (tapeQuarter z e he) s).2.1.2 -
          (prepare (tapeQuarter z e he) s).2.1.1) *
            (tapeQuarter z e he).unit (prepare (tapeQuarter z e he) s).2.2.iU = π / 2 := by
        simp only [prepare, drawBracket, uniform, tapeQuarter]
        ring
      have hu : (L z).gt (prepare (tapeQuarter z e he) s).1 := by
        rw [hz]
        simp only [prepare, drawHeight, hs]
        exact hlt
      have hpt : point s.x z (π / 2) = z := by simp [point]
      unfold samplePass
      rw [draw, if_neg (by norm_num), drawProposal_eq hy, hθ, hx, hpt]
      simp only [if_pos hu]
      exact ⟨_, _, rfl⟩
    obtain ⟨s', n, hp⟩ := hp
    exact ⟨(s', .ok n), by rw [sample1, hp]⟩

/-- Both sides hold for a likelihood that vanishes on a half-line. -/
example : ∃ (T : Tape ℝ) (fuel : ℕ) (p : State ℝ × Except PyErr ℕ), sample1 T
    (fun x => if x < 0 then some ⊥ else some 0) fuel { x := -1, logLikX := some ⊥ } = some p :=
  (c86_returns_iff_partial _ _).2 ⟨⟨⊥, rfl, by simp⟩, 0, 0, by simp, by simp⟩

end Gpcm.Ess
