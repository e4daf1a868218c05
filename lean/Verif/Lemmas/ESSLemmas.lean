import Verif.Spec.ESS

/-! # Helper lemmas for elliptical slice sampling -/

open Real

namespace Gpcm.Ess

variable {V : Type} [AddCommGroup V] [Module ℝ V] {T : Tape V} {L : V → LL}

omit [AddCommGroup V] [Module ℝ V] in
theorem uniform_mem {lo hi : ℝ} (h : lo ≤ hi) (n : ℕ) :
    lo ≤ lo + (hi - lo) * T.unit n ∧ lo + (hi - lo) * T.unit n ≤ hi := by
  have h0 := T.unit_nonneg n
  have h1 := T.unit_lt_one n
  constructor <;> nlinarith

theorem drawProposal_eq {lo hi : ℝ} {s : State V} {y : V} (hy : s.y = some y) :
    let θ := lo + (hi - lo) * T.unit s.iU
    drawProposal T L lo hi s =
      ({ s with iU := s.iU + 1, theta := some θ, xProposed := some (point s.x y θ)
                llProposed := some (L (point s.x y θ))
                trace := s.trace ++ [.uniform lo hi θ] ++
                  [.lik (point s.x y θ) (L (point s.x y θ))] },
        .ok (θ, point s.x y θ, L (point s.x y θ))) := by
  simp [drawProposal, uniform, hy, point]

theorem draw_run (k : ℕ) : ∀ {lo hi : ℝ} {u : LL} {att maxAtt : ℕ} {s : State V} {y : V},
    (if maxAtt < att then 0 else 101 - att + 1) ≤ k → s.y = some y → lo ≤ 0 → 0 ≤ hi →
    ∃ tr o, Run L s.x y u lo hi tr o ∧ (draw T L lo hi u att maxAtt s).1.trace = s.trace ++ tr ∧
      (draw T L lo hi u att maxAtt s).1.x = s.x ∧
      (draw T L lo hi u att maxAtt s).1.logLikX = s.logLikX ∧
      (draw T L lo hi u att maxAtt s).1.y = s.y ∧
      (match o with
        | none => (draw T L lo hi u att maxAtt s).2 = .error .sampleFailed ∧
            (maxAtt = 100 → att ≤ 101 → likCount tr + att = 101)
        | some x' => (draw T L lo hi u att maxAtt s).2 = .ok (x', L x', att + likCount tr) ∧
            (maxAtt = 100 → likCount tr + att ≤ 101)) := by
  induction k with
  | zero =>
    intro lo hi u att maxAtt s y hk hy hlo hhi
    have hm : maxAtt < att := by
      by_contra h; rw [if_neg h] at hk; omega
    rw [draw, if_pos hm]
    refine ⟨[], none, .fail lo hi, by simp, rfl, rfl, rfl, rfl, ?_⟩
    intro h1 h2
    simp [likCount]; omega
  | succ k ih =>
    intro lo hi u att maxAtt s y hk hy hlo hhi
    by_cases hm : maxAtt < att
    · rw [draw, if_pos hm]
      refine ⟨[], none, .fail lo hi, by simp, rfl, rfl, rfl, rfl, ?_⟩
      intro h1 h2
      simp [likCount]; omega
    · rw [if_neg hm] at hk
      have hmem := uniform_mem (T := T) (hlo.trans hhi) s.iU
      have hprop := drawProposal_eq (T := T) (L := L) (lo := lo) (hi := hi) hy
      simp only at hprop
      set θ := lo + (hi - lo) * T.unit s.iU with hθ
      set s1 : State V := { s with
        iU := s.iU + 1, theta := some θ, xProposed := some (point s.x y θ)
        llProposed := some (L (point s.x y θ))
        trace := s.trace ++ [.uniform lo hi θ] ++ [.lik (point s.x y θ) (L (point s.x y θ))] }
        with hs1
      have hk1 : (if 100 < att + 1 then 0 else 101 - (att + 1) + 1) ≤ k := by split <;> omega
      rw [draw, if_neg hm, hprop]
      simp only
      by_cases hgt : (L (point s.x y θ)).gt u
      · rw [if_pos hgt]
        refine ⟨_, _, .accept lo hi θ hmem hgt, by simp [hs1], rfl, rfl, rfl, ?_, ?_⟩
        · simp [likCount]
        · intro h; simp [likCount]; omega
      · rw [if_neg hgt]
        by_cases hpos : 0 < θ
        · rw [if_pos hpos]
          obtain ⟨tr, o, hrun, htr, hx, hl, hy', ho⟩ := ih (lo := lo) (hi := θ) (u := u)
            (att := att + 1) (maxAtt := 100) (s := s1) hk1 hy hlo hpos.le
          refine ⟨_, o, .right lo hi θ hmem hgt hpos hrun, ?_, hx, hl, hy', ?_⟩
          · rw [htr]; simp [hs1]
          · cases o with
            | none =>
              refine ⟨ho.1, fun h1 h2 => ?_⟩
              have := ho.2 rfl (by omega)
              simp only [likCount, List.countP_cons] at this ⊢
              simp; omega
            | some x' =>
              obtain ⟨ho1, ho2⟩ := ho
              have := ho2 rfl
              simp only [likCount, List.countP_cons] at this ho1 ⊢
              refine ⟨?_, fun h1 => by simp; omega⟩
              rw [ho1]; simp; omega
        · rw [if_neg hpos]
          obtain ⟨tr, o, hrun, htr, hx, hl, hy', ho⟩ := ih (lo := θ) (hi := hi) (u := u)
            (att := att + 1) (maxAtt := 100) (s := s1) hk1 hy (not_lt.1 hpos) hhi
          refine ⟨_, o, .left lo hi θ hmem hgt (not_lt.1 hpos) hrun, ?_, hx, hl, hy', ?_⟩
          · rw [htr]; simp [hs1]
          · cases o with
            | none =>
              refine ⟨ho.1, fun h1 h2 => ?_⟩
              have := ho.2 rfl (by omega)
              simp only [likCount, List.countP_cons] at this ⊢
              simp; omega
            | some x' =>
              obtain ⟨ho1, ho2⟩ := ho
              have := ho2 rfl
              simp only [likCount, List.countP_cons] at this ho1 ⊢
              refine ⟨?_, fun h1 => by simp; omega⟩
              rw [ho1]; simp; omega

/-! ## Consequences of the specification -/

omit [AddCommGroup V] [Module ℝ V] in
theorem brackets_cons (a b r : ℝ) (x : V) (l : LL) (tr : List (Event V)) :
    brackets (.uniform a b r :: .lik x l :: tr) = (a, b, r) :: brackets tr := rfl

omit [AddCommGroup V] [Module ℝ V] in
theorem brackets_nil : brackets ([] : List (Event V)) = [] := rfl

theorem Run.brackets_nested {x y : V} {u : LL} {lo hi : ℝ} {tr : List (Event V)} {o : Option V}
    (h : Run L x y u lo hi tr o) (hlo : lo ≤ 0) (hhi : 0 ≤ hi) :
    (∀ b ∈ brackets tr, lo ≤ b.1 ∧ b.1 ≤ 0 ∧ 0 ≤ b.2.1 ∧ b.2.1 ≤ hi ∧ b.1 ≤ b.2.2 ∧
      b.2.2 ≤ b.2.1) ∧
    (brackets tr).Pairwise (fun b c => b.1 ≤ c.1 ∧ c.2.1 ≤ b.2.1) := by
  induction h with
  | fail => simp [Ess.brackets]
  | accept lo hi θ h => simpa [brackets_cons, brackets_nil] using ⟨hlo, hhi, h⟩
  | right lo hi θ h hu hθ hr ih =>
    obtain ⟨h1, h2⟩ := ih hlo hθ.le
    rw [brackets_cons]
    refine ⟨List.forall_mem_cons.2 ⟨⟨le_rfl, hlo, hhi, le_rfl, h⟩, fun b hb => ?_⟩,
      List.pairwise_cons.2 ⟨fun b hb => ?_, h2⟩⟩
    · obtain ⟨a1, a2, a3, a4, a5⟩ := h1 b hb
      exact ⟨a1, a2, a3, a4.trans h.2, a5⟩
    · obtain ⟨a1, a2, a3, a4, a5⟩ := h1 b hb
      exact ⟨a1, a4.trans h.2⟩
  | left lo hi θ h hu hθ hr ih =>
    obtain ⟨h1, h2⟩ := ih hθ hhi
    rw [brackets_cons]
    refine ⟨List.forall_mem_cons.2 ⟨⟨le_rfl, hlo, hhi, le_rfl, h⟩, fun b hb => ?_⟩,
      List.pairwise_cons.2 ⟨fun b hb => ?_, h2⟩⟩
    · obtain ⟨a1, a2, a3, a4, a5⟩ := h1 b hb
      exact ⟨h.1.trans a1, a2, a3, a4, a5⟩
    · obtain ⟨a1, a2, a3, a4, a5⟩ := h1 b hb
      exact ⟨h.1.trans a1, a4⟩

/-- The bracket after a rejected proposal. -/
theorem Run.shrink {x y : V} {u : LL} {lo hi : ℝ} {tr : List (Event V)} {o : Option V}
    (h : Run L x y u lo hi tr o) :
    (brackets tr).IsChain (fun b c => (c.1, c.2.1) = if 0 < b.2.2 then (b.1, b.2.2)
      else (b.2.2, b.2.1)) ∧ ∀ b, (brackets tr).head? = some b → b.1 = lo ∧ b.2.1 = hi := by
  induction h with
  | fail => simp [Ess.brackets]
  | accept lo hi θ h => simp [brackets_cons, brackets_nil]
  | right lo hi θ h hu hθ hr ih =>
    obtain ⟨h1, h2⟩ := ih
    rw [brackets_cons]
    refine ⟨List.isChain_cons.2 ⟨fun c hc => ?_, h1⟩, by simp⟩
    obtain ⟨e1, e2⟩ := h2 c hc
    rw [if_pos hθ, e1, e2]
  | left lo hi θ h hu hθ hr ih =>
    obtain ⟨h1, h2⟩ := ih
    rw [brackets_cons]
    refine ⟨List.isChain_cons.2 ⟨fun c hc => ?_, h1⟩, by simp⟩
    obtain ⟨e1, e2⟩ := h2 c hc
    rw [if_neg (not_lt.2 hθ), e1, e2]

theorem Run.accepted {x y : V} {u : LL} {lo hi : ℝ} {tr : List (Event V)} {x' : V}
    (h : Run L x y u lo hi tr (some x')) :
    ∃ tr0 a b θ, tr = tr0 ++ [.uniform a b θ, .lik x' (L x')] ∧ x' = point x y θ ∧
      (L x').gt u ∧ ∀ z l, .lik z l ∈ tr0 → l = L z ∧ ¬ l.gt u := by
  generalize ho : some x' = o at h
  induction h with
  | fail => cases ho
  | accept lo hi θ h hu =>
    cases ho
    exact ⟨[], lo, hi, θ, rfl, rfl, hu, by simp⟩
  | right lo hi θ h hu hθ hr ih =>
    obtain ⟨tr0, a, b, θ', rfl, h1, h2, h3⟩ := ih ho
    refine ⟨.uniform lo hi θ :: .lik (point x y θ) (L (point x y θ)) :: tr0, a, b, θ', rfl, h1, h2,
      fun z l hz => ?_⟩
    simp only [List.mem_cons, reduceCtorEq, Event.lik.injEq, false_or] at hz
    rcases hz with ⟨rfl, rfl⟩ | hz
    · exact ⟨rfl, hu⟩
    · exact h3 z l hz
  | left lo hi θ h hu hθ hr ih =>
    obtain ⟨tr0, a, b, θ', rfl, h1, h2, h3⟩ := ih ho
    refine ⟨.uniform lo hi θ :: .lik (point x y θ) (L (point x y θ)) :: tr0, a, b, θ', rfl, h1, h2,
      fun z l hz => ?_⟩
    simp only [List.mem_cons, reduceCtorEq, Event.lik.injEq, false_or] at hz
    rcases hz with ⟨rfl, rfl⟩ | hz
    · exact ⟨rfl, hu⟩
    · exact h3 z l hz

theorem Run.events {x y : V} {u : LL} {lo hi : ℝ} {tr : List (Event V)} {o : Option V}
    (h : Run L x y u lo hi tr o) : ∀ ev ∈ tr,
      (∃ a b θ, ev = .uniform a b θ) ∨ ∃ θ, ev = .lik (point x y θ) (L (point x y θ)) := by
  induction h with
  | fail => simp
  | accept lo hi θ h hu =>
    intro ev hev
    rcases List.mem_pair.1 hev with rfl | rfl
    · exact .inl ⟨_, _, _, rfl⟩
    · exact .inr ⟨_, rfl⟩
  | right lo hi θ h hu hθ hr ih =>
    intro ev hev
    rcases List.mem_cons.1 hev with rfl | hev
    · exact .inl ⟨_, _, _, rfl⟩
    rcases List.mem_cons.1 hev with rfl | hev
    · exact .inr ⟨_, rfl⟩
    exact ih ev hev
  | left lo hi θ h hu hθ hr ih =>
    intro ev hev
    rcases List.mem_cons.1 hev with rfl | hev
    · exact .inl ⟨_, _, _, rfl⟩
    rcases List.mem_cons.1 hev with rfl | hev
    · exact .inr ⟨_, rfl⟩
    exact ih ev hev

/-- One pass of the loop of `_sample` is one round of elliptical slice sampling. -/
theorem samplePass_round (s : State V) : ∃ tr o, Round L s.x s.logLikX tr o ∧
    tr.head? = some (.expo (T.expo s.iE)) ∧ (samplePass T L s).1.trace = s.trace ++ tr ∧ likCount tr ≤ 100 ∧
    match o with
    | none => (samplePass T L s).2 = .again ∧ (samplePass T L s).1.x = s.x ∧
        (samplePass T L s).1.logLikX = s.logLikX ∧ likCount tr = 100
    | some x' => (samplePass T L s).2 = .done (likCount tr + 1) ∧ (samplePass T L s).1.x = x' ∧
        (samplePass T L s).1.logLikX = L x' := by
  obtain ⟨θ, hθ⟩ : ∃ θ, θ = 0 + (2 * π - 0) * T.unit s.iU := ⟨_, rfl⟩
  obtain ⟨s2, hs2⟩ : ∃ s2 : State V, s2 = { s with
      iE := s.iE + 1, y := some (T.prior s.iP), iP := s.iP + 1, iU := s.iU + 1
      trace := s.trace ++ [.expo (T.expo s.iE)] ++ [.prior (T.prior s.iP)] ++
        [.uniform 0 (2 * π) θ] } := ⟨_, rfl⟩
  have hb : prepare T s = (s.logLikX.sub (T.expo s.iE), (θ - 2 * π, θ), s2) := by
    simp only [prepare, drawHeight, drawBracket, uniform, establishEllipse, hs2, hθ]
  have hθ0 : 0 ≤ θ := by
    have := T.unit_nonneg s.iU; have := Real.pi_pos; rw [hθ]; nlinarith
  have hθ1 : θ < 2 * π := by
    have := T.unit_lt_one s.iU; have := Real.pi_pos; rw [hθ]; nlinarith
  have hx2 : s2.x = s.x := by rw [hs2]
  have hl2 : s2.logLikX = s.logLikX := by rw [hs2]
  obtain ⟨tr, o, hrun, htr, hx, hl, hy, ho⟩ := draw_run (T := T) (L := L) 101
    (u := s.logLikX.sub (T.expo s.iE)) (att := 1) (maxAtt := 100) (s := s2) (y := T.prior s.iP)
    (lo := θ - 2 * π) (hi := θ) (by norm_num) (by rw [hs2]) (by linarith) hθ0
  rw [hx2] at hrun hx
  rw [hl2] at hl
  refine ⟨.expo (T.expo s.iE) :: .prior (T.prior s.iP) :: .uniform 0 (2 * π) θ :: tr, o,
    ⟨_, _, _, tr, T.expo_nonneg _, hθ0, hθ1, rfl, hrun⟩, rfl, ?_⟩
  have hc : likCount (.expo (T.expo s.iE) :: .prior (T.prior s.iP) :: .uniform 0 (2 * π) θ :: tr) =
      likCount tr := by simp [likCount]
  rw [hc]
  unfold samplePass
  rw [hb]
  generalize draw T L (θ - 2 * π) θ (s.logLikX.sub (T.expo s.iE)) 1 100 s2 = d at htr hx hl hy ho ⊢
  obtain ⟨s3, res⟩ := d
  have ht2 : s2.trace ++ tr = s.trace ++
      .expo (T.expo s.iE) :: .prior (T.prior s.iP) :: .uniform 0 (2 * π) θ :: tr := by
    simp only [hs2, List.append_assoc, List.cons_append, List.nil_append]
  simp only at htr hx hl ho
  cases o with
  | none =>
    obtain ⟨ho1, ho2⟩ := ho
    have h100 := ho2 trivial (by norm_num)
    subst ho1
    exact ⟨htr.trans ht2, by omega, rfl, hx, hl, by omega⟩
  | some x' =>
    obtain ⟨ho1, ho2⟩ := ho
    have h100 := ho2 trivial
    subst ho1
    exact ⟨htr.trans ht2, by omega, by rw [Nat.add_comm]; rfl, rfl, rfl⟩

/-- `_sample` is a number of failed rounds and then a successful one. -/
theorem sample1_rounds : ∀ (fuel : ℕ) {s s' : State V} {r : Except PyErr ℕ},
    sample1 T L fuel s = some (s', r) → ∃ (fs : List (List (Event V))) (tr : List (Event V)),
      (∀ f ∈ fs, Round L s.x s.logLikX f none ∧ likCount f = 100) ∧
      Round L s.x s.logLikX tr (some s'.x) ∧ s'.logLikX = L s'.x ∧ likCount tr ≤ 100 ∧
      s'.trace = s.trace ++ fs.flatten ++ tr ∧ r = .ok (likCount tr + 1)
  | 0, s, s', r, h => by cases h
  | fuel + 1, s, s', r, h => by
    obtain ⟨tr, o, hr, -, htr, hc, ho⟩ := samplePass_round (T := T) (L := L) s
    unfold sample1 at h
    cases o with
    | none =>
      obtain ⟨h1, h2, h3, h4⟩ := ho
      rw [show samplePass T L s = ((samplePass T L s).1, .again) from Prod.ext rfl h1] at h
      simp only at h
      obtain ⟨fs, tr', hf, hr', hl, hc', ht', hres⟩ := sample1_rounds fuel h
      rw [h2, h3] at hf hr'
      refine ⟨tr :: fs, tr', List.forall_mem_cons.2 ⟨⟨hr, h4⟩, hf⟩, hr', hl, hc', ?_, hres⟩
      rw [ht', htr]
      simp
    | some x' =>
      obtain ⟨h1, h2, h3⟩ := ho
      rw [show samplePass T L s = ((samplePass T L s).1, .done (likCount tr + 1)) from
        Prod.ext rfl h1] at h
      simp only [Option.some.injEq, Prod.mk.injEq] at h
      obtain ⟨rfl, rfl⟩ := h
      exact ⟨[], tr, by simp, h2 ▸ hr, h2 ▸ h3, hc, by simpa using htr, rfl⟩

end Gpcm.Ess
