import Verif.Props.ESSProps

/-!
# Property C101, randomness: no random number is used twice

The proofs of C101 and C166 take the random numbers of every pass to be independent of the past. This holds because the values that
the sampler has seen are, in order, the values on the tape.
-/

open Real

namespace Gpcm.Ess

variable {V : Type} [AddCommGroup V] [Module ℝ V] {T : Tape V} {L : V → LL}

/-- What calls of `sample_prior` returned. -/
def priors (tr : List (Event V)) : List V := tr.filterMap fun | .prior y => some y | _ => none

/-- What calls of `rng.exponential` returned. -/
def expos (tr : List (Event V)) : List ℝ := tr.filterMap fun | .expo e => some e | _ => none

/-- The arguments and results of calls of `rng.uniform`. -/
def uniforms (tr : List (Event V)) : List (ℝ × ℝ × ℝ) := tr.filterMap fun | .uniform a b r => some (a, b, r) | _ => none

/-- The calls so far returned the first values on the tape, in order. -/
structure Fresh (T : Tape V) (s : State V) : Prop where
  prior : priors s.trace = (List.range s.iP).map T.prior
  expo : expos s.trace = (List.range s.iE).map T.expo
  uniform : (uniforms s.trace).map (fun c => c.2.2) =
    ((uniforms s.trace).zip ((List.range s.iU).map T.unit)).map fun c => c.1.1 + (c.1.2.1 - c.1.1) * c.2
  count : (uniforms s.trace).length = s.iU

theorem Fresh.uniform' {s : State V} (h : Fresh T s) (a b : ℝ) : Fresh T (Ess.uniform T a b s).2 := by
  obtain ⟨h1, h2, h3, h4⟩ := h
  have hu : uniforms (s.trace ++ [.uniform a b (a + (b - a) * T.unit s.iU)]) = uniforms s.trace ++ [(a, b, a + (b - a) * T.unit s.iU)] := by
    simp [uniforms]
  refine ⟨?_, ?_, ?_, ?_⟩
  · simpa [Ess.uniform, priors] using h1
  · simpa [Ess.uniform, expos] using h2
  · show (uniforms (s.trace ++ [.uniform a b (a + (b - a) * T.unit s.iU)])).map _ = ((uniforms _).zip _).map _
    rw [hu]
    show _ = ((uniforms (s.trace ++ [.uniform a b (a + (b - a) * T.unit s.iU)])).zip ((List.range (s.iU + 1)).map T.unit)).map _
    rw [hu, List.range_succ, List.map_append, List.map_append, List.zip_append (by simp [h4]), List.map_append, h3]
    simp
  · show (uniforms (s.trace ++ [.uniform a b (a + (b - a) * T.unit s.iU)])).length = s.iU + 1
    rw [hu, List.length_append, h4]
    rfl

theorem Fresh.lik {s s' : State V} (h : Fresh T s) {x : V} {l : LL} (e : s'.trace = s.trace ++ [.lik x l]) (e1 : s'.iP = s.iP)
    (e2 : s'.iE = s.iE) (e3 : s'.iU = s.iU) : Fresh T s' := by
  have u : uniforms s'.trace = uniforms s.trace := by simp [e, uniforms]
  have p : priors s'.trace = priors s.trace := by simp [e, priors]
  have x : expos s'.trace = expos s.trace := by simp [e, expos]
  exact ⟨by rw [p, e1]; exact h.prior, by rw [x, e2]; exact h.expo, by rw [u, e3]; exact h.uniform, by rw [u, e3]; exact h.count⟩

theorem Fresh.same {s s' : State V} (h : Fresh T s) (e : s'.trace = s.trace) (e1 : s'.iP = s.iP)
    (e2 : s'.iE = s.iE) (e3 : s'.iU = s.iU) : Fresh T s' :=
  ⟨by rw [e, e1]; exact h.prior, by rw [e, e2]; exact h.expo, by rw [e, e3]; exact h.uniform, by rw [e, e3]; exact h.count⟩

theorem Fresh.establish {s : State V} (h : Fresh T s) : Fresh T (establishEllipse T s) := by
  obtain ⟨h1, h2, h3, h4⟩ := h
  have u : uniforms (establishEllipse T s).trace = uniforms s.trace := by simp [establishEllipse, uniforms]
  have x : expos (establishEllipse T s).trace = expos s.trace := by simp [establishEllipse, expos]
  refine ⟨?_, by rw [x]; exact h2, by rw [u]; exact h3, by rw [u]; exact h4⟩
  show priors (s.trace ++ [.prior (T.prior s.iP)]) = (List.range (s.iP + 1)).map T.prior
  rw [List.range_succ, List.map_append, ← h1]
  simp [priors]

theorem Fresh.height {s : State V} (h : Fresh T s) : Fresh T (drawHeight T s).2 := by
  obtain ⟨h1, h2, h3, h4⟩ := h
  have u : uniforms (drawHeight T s).2.trace = uniforms s.trace := by simp [drawHeight, uniforms]
  have x : priors (drawHeight T s).2.trace = priors s.trace := by simp [drawHeight, priors]
  refine ⟨by rw [x]; exact h1, ?_, by rw [u]; exact h3, by rw [u]; exact h4⟩
  show expos (s.trace ++ [.expo (T.expo s.iE)]) = (List.range (s.iE + 1)).map T.expo
  rw [List.range_succ, List.map_append, ← h2]
  simp [expos]

theorem Fresh.proposal {s : State V} (h : Fresh T s) (a b : ℝ) : Fresh T (drawProposal T L a b s).1 := by
  have h1 := h.uniform' a b
  unfold drawProposal
  simp only
  split
  · exact h1.same rfl rfl rfl rfl
  · exact h1.lik rfl rfl rfl rfl

theorem Fresh.draw : ∀ (n : ℕ) {s : State V} (_ : Fresh T s) (a b : ℝ) (u : LL) (att mx : ℕ),
    (if mx < att then 0 else 101 - att + 1) ≤ n → Fresh T (draw T L a b u att mx s).1
  | n, s, h, a, b, u, att, mx, hn => by
    rw [Ess.draw]
    by_cases hm : mx < att
    · rw [if_pos hm]
      exact h
    rw [if_neg hm] at hn ⊢
    have h1 := h.proposal (L := L) a b
    generalize drawProposal T L a b s = r at h1
    obtain ⟨s1, e | ⟨θ, xp, lp⟩⟩ := r
    · exact h1
    simp only
    cases n with
    | zero => omega
    | succ n =>
      split_ifs
      · exact h1
      · exact Fresh.draw n h1 _ _ _ _ _ (by split_ifs <;> omega)
      · exact Fresh.draw n h1 _ _ _ _ _ (by split_ifs <;> omega)

theorem Fresh.pass {s : State V} (h : Fresh T s) : Fresh T (samplePass T L s).1 := by
  have h1 : Fresh T (prepare T s).2.2 := (h.height.establish).uniform' 0 (2 * π)
  have h2 := Fresh.draw (L := L) _ h1 (prepare T s).2.1.1 (prepare T s).2.1.2 (prepare T s).1 1 100 le_rfl
  unfold samplePass finishPass
  generalize Ess.draw T L (prepare T s).2.1.1 (prepare T s).2.1.2 (prepare T s).1 1 100 (prepare T s).2.2 = r at h2
  obtain ⟨s', e | x⟩ := r
  · cases e <;> exact h2
  · exact h2.same rfl rfl rfl rfl

/-- **C101** The values that the sampler has got from the prior and from the random number generator are, in order, the first
values on the tape: none is used twice, not even the one for the initial state. -/
theorem c101_fresh {s : State V} (h : Reach T L s) : Fresh T s := by
  induction h with
  | init x => cases x <;> constructor <;> simp [init, priors, expos, uniforms]
  | move x _ ih => exact ih.lik rfl rfl rfl rfl
  | pass _ ih => exact ih.pass

/-- A sampler that starts from a sample of the prior and makes two passes. -/
example (T : Tape ℝ) : priors (samplePass T (fun _ => some 0) (samplePass T (fun _ => some 0) (init T (fun _ => some 0) none)).1).1.trace =
    [T.prior 0, T.prior 1, T.prior 2] ∧ T.prior 0 = (init T (fun _ => some 0) none).x := by
  have h := (c101_fresh (.pass (.pass (.init (T := T) (L := fun _ => some 0) none)))).prior
  refine ⟨h.trans ?_, rfl⟩
  have : ∀ s : State ℝ, (samplePass T (fun _ => some 0) s).1.iP = s.iP + 1 := fun s => by
    have key : ∀ n a b u att mx (s : State ℝ), (if mx < att then 0 else 101 - att + 1) ≤ n →
        (Ess.draw T (fun _ => some 0) a b u att mx s).1.iP = s.iP := by
      intro n
      induction n with
      | zero =>
        intro a b u att mx s hn
        rw [Ess.draw, if_pos (by by_contra hc; rw [if_neg hc] at hn; omega)]
      | succ n ih =>
        intro a b u att mx s hn
        rw [Ess.draw]
        by_cases hm : mx < att
        · rw [if_pos hm]
        rw [if_neg hm] at hn ⊢
        have h1 : (drawProposal T (fun _ => some 0) a b s).1.iP = s.iP := by
          unfold drawProposal
          simp only
          split <;> rfl
        generalize drawProposal T (fun _ => some 0) a b s = r at h1
        obtain ⟨s1, e | ⟨θ, xp, lp⟩⟩ := r
        · exact h1
        simp only
        split_ifs
        · exact h1
        · exact (ih _ _ _ _ _ _ (by split_ifs <;> omega)).trans h1
        · exact (ih _ _ _ _ _ _ (by split_ifs <;> omega)).trans h1
    have h2 := key _ (prepare T s).2.1.1 (prepare T s).2.1.2 (prepare T s).1 1 100 (prepare T s).2.2 le_rfl
    unfold samplePass finishPass
    generalize Ess.draw T (fun _ => some 0) (prepare T s).2.1.1 (prepare T s).2.1.2 (prepare T s).1 1 100 (prepare T s).2.2 = r at h2
    obtain ⟨s', e | x⟩ := r
    · cases e <;> exact h2
    · exact h2
  rw [this, this]
  rfl

end Gpcm.Ess
