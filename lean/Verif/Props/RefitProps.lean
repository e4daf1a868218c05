import Verif.Props.SessionProps

/-! # Property C165: fitting again -/

set_option linter.unusedSectionVars false

open Matrix Real

namespace Gpcm

open Session

section general

variable {ι κ : Type} [Fintype ι] [DecidableEq ι] [Fintype κ] [DecidableEq κ]
variable (C : Chols ι κ) (m : Inst ι κ)

theorem caLoop_add {σ : Type} (step : σ → σ) (diff : σ → σ → ℝ) (a b : ℕ) (p : σ)
    (h : ∀ k < a, ¬ diff (step^[k + 1] p) (step^[k] p) < 1e-6) :
    (caLoop step diff (a + b) p).1 = (caLoop step diff b (caLoop step diff a p).1).1 ∧
      (caLoop step diff (a + b) p).2 = (caLoop step diff a p).2 ++ (caLoop step diff b (caLoop step diff a p).1).2 := by
  induction a generalizing p with
  | zero => simp [caLoop]
  | succ a ih =>
    have h0 : ¬ diff (step p) p < 1e-6 := h 0 (Nat.succ_pos a)
    have := ih (step p) fun k hk => by
      have := h (k + 1) (by omega)
      rwa [Function.iterate_succ_apply, Function.iterate_succ_apply] at this
    rw [show a + 1 + b = a + b + 1 by omega]
    simp only [caLoop, h0, if_false]
    rw [this.1, this.2]
    exact ⟨rfl, rfl⟩

/-- A fit by coordinate ascent has reached its tolerance within `a` iterations. -/
def Tolerance (d : List (ℝ × ℝ)) (a : ℕ) (s : Session ι κ) : Prop :=
  ∃ k < a, Pair.diff ((caStep C m (constructDataTerms C m d))^[k + 1] ⟨s.posts.qU, s.posts.qZ⟩)
    ((caStep C m (constructDataTerms C m d))^[k] ⟨s.posts.qU, s.posts.qZ⟩) < 1e-6

theorem posts_setBoth (s : Posts ι κ) (u u' : NatNormal ι) (z z' : NatNormal κ) :
    ((((s.setU u).setZ z).setU u').setZ z') = (s.setU u').setZ z' := by
  obtain ⟨qi, qu, qz⟩ := s
  simp only [Posts.setU, Posts.setZ]
  congr 1 <;> funext i <;> split_ifs <;> rfl

/-- **C165** For coordinate ascent, two fits are one fit with all the iterations, unless the first one stopped by itself. -/
theorem c165_ca_partial (d : List (ℝ × ℝ)) (a b : ℕ) (s : Session ι κ) (h : ¬ Tolerance C m d a s) :
    (s.fitCA C m d a).fitCA C m d b = s.fitCA C m d ((a + b : ℕ) : ℤ) := by
  have hk : ∀ k < a, ¬ Pair.diff ((caStep C m (constructDataTerms C m d))^[k + 1] ⟨s.posts.qU, s.posts.qZ⟩)
      ((caStep C m (constructDataTerms C m d))^[k] ⟨s.posts.qU, s.posts.qZ⟩) < 1e-6 := fun k hk hl => h ⟨k, hk, hl⟩
  have e := (caLoop_add _ Pair.diff a b _ hk).1
  unfold fitCA fitMeanFieldCA
  simp only [Int.toNat_natCast]
  rw [e, posts_setBoth]
  obtain ⟨r, hr⟩ : ∃ r, r = (caLoop (caStep C m (constructDataTerms C m d)) Pair.diff a ⟨s.posts.qU, s.posts.qZ⟩).1 := ⟨_, rfl⟩
  have e1 : (⟨((s.posts.setU r.u).setZ r.z).qU, ((s.posts.setU r.u).setZ r.z).qZ⟩ : Pair ι κ) = r := by
    simp [Posts.setU, Posts.setZ, Posts.qU, Posts.qZ]
  rw [← hr, e1]

/-- **C165** However often a mean-field model is fitted by coordinate ascent, to the same data, the bound never decreases. -/
theorem c165_ca_bound_partial {m : Inst ι κ} (h : m.Valid) (d : List (ℝ × ℝ)) (l : List ℤ) (k : ℤ) (s : Session ι κ) (hs : s.posts.qi = 0)
    (hp : s.posts.Proper) : ∃ a b,
      MeanField.elbo C m (l.foldl (fun s k => s.fitCA C m d k) s).posts d none = .ok a ∧
      MeanField.elbo C m ((l ++ [k]).foldl (fun s k => s.fitCA C m d k) s).posts d none = .ok b ∧ a ≤ b := by
  have hinv : ∀ (l : List ℤ) (s : Session ι κ), s.posts.qi = 0 → s.posts.Proper →
      (l.foldl (fun s k => s.fitCA C m d k) s).posts.qi = 0 ∧ (l.foldl (fun s k => s.fitCA C m d k) s).posts.Proper := by
    intro l
    induction l with
    | nil => exact fun s h1 h2 => ⟨h1, h2⟩
    | cons k l ih =>
      intro s h1 h2
      refine ih _ h1 ?_
      have := caLoop_inv (step := caStep C m (constructDataTerms C m d)) Pair.diff
        (P := fun p => p.u.prec.PosDef ∧ p.z.prec.PosDef)
        (fun p hp => ⟨(caStep_bound C h d p hp.1 hp.2).1, (caStep_bound C h d p hp.1 hp.2).2.1⟩) k.toNat
        (p := ⟨s.posts.qU, s.posts.qZ⟩) h2
      simpa [fitCA, fitMeanFieldCA, Posts.Proper, Posts.setU, Posts.setZ, Posts.qU, Posts.qZ] using this
  obtain ⟨h1, h2⟩ := hinv l s hs hp
  rw [List.foldl_append]
  exact c22_improves C h _ h1 h2 d k

variable (W : ℕ → (ι → ℝ) × (κ → ℝ))

theorem setSamples_again (s : Session ι κ) (us us' : List (ι → ℝ)) (zs zs' : List (κ → ℝ)) :
    (s.setSamples us zs).setSamples us' zs' = s.setSamples us' zs' := by
  unfold setSamples
  simp only
  congr 1 <;> funext i <;> split_ifs <;> rfl

/-- **C165** A fit of a structured model forgets all earlier fits, whatever their data and numbers of iterations: the state
afterwards is as if they had not happened. -/
theorem c165_structured_forgets (d d' : List (ℝ × ℝ)) (a b : ℤ) (hb : 2 ≤ b) (s : Session ι κ) :
    (s.fitStructured C m W d a).1.fitStructured C m W d' b = s.fitStructured C m W d' b := by
  by_cases ha : 2 ≤ a
  · rw [fitStructured_eq C m W d a ha, fitStructured_eq C m W d' b hb, fitStructured_eq C m W d' b hb]
    rw [setSamples_again]
    rfl
  · rw [fitStructured_few C m W d a (by omega)]

/-- **C165** In particular, fitting it again to the same data changes nothing. -/
theorem c165_structured_repeats (d : List (ℝ × ℝ)) (a : ℤ) (s : Session ι κ) :
    (s.fitStructured C m W d a).1.fitStructured C m W d a = s.fitStructured C m W d a := by
  by_cases ha : 2 ≤ a
  · exact c165_structured_forgets C m W d d a a ha s
  · have e := fitStructured_few C m W d a (by omega) s
    rw [e, e]

end general

section witness

variable (C : Chols (Fin 1) (Fin 1))

/-- Noise whose size tells when it is used. -/
def exCount : ℕ → (Fin 1 → ℝ) × (Fin 1 → ℝ) := fun i => (fun _ => i, fun _ => 0)

theorem ex_sample_size (D : CholOracle (Fin 1)) (w : Fin 1 → ℝ) : ((⟨0, 1⟩ : NatNormal (Fin 1)).sample D w 0) ^ 2 = w 0 ^ 2 := by
  have h1 : (⟨0, 1⟩ : NatNormal (Fin 1)).prec.PosDef := Matrix.PosDef.one
  have hc := congrFun (congrFun (D.spec (⟨0, 1⟩ : NatNormal (Fin 1)).prec h1) 0) 0
  have hm : (⟨0, 1⟩ : NatNormal (Fin 1)).mean D = 0 := by rw [NatNormal.mean_eq D h1]; simp
  rw [NatNormal.sample_eq D h1, hm, zero_add]
  simp only [mul_apply, Fin.sum_univ_one, Matrix.transpose_apply, Matrix.one_apply_eq] at hc
  simp only [NatNormal.samplePart, inv_one, Matrix.one_mul, mulVec, dotProduct, Fin.sum_univ_one, mul_pow]
  rw [sq (D.chol 1 0 0), hc, one_mul]

theorem ex_count (k : ℕ) (x : ℕ × (Fin 1 → ℝ) × (Fin 1 → ℝ)) :
    ((sessionSweep C exInst exCount [])^[k + 1] x).1 = x.1 + k + 1 ∧
      (((sessionSweep C exInst exCount [])^[k + 1] x).2.1 0) ^ 2 = ((x.1 + k : ℕ) : ℝ) ^ 2 := by
  have h1 : ∀ x, ((sessionSweep C exInst exCount []) x).1 = x.1 + 1 := fun x => rfl
  have h2 : ∀ k x, ((sessionSweep C exInst exCount [])^[k] x).1 = x.1 + k := by
    intro k
    induction k with
    | zero => exact fun x => rfl
    | succ k ih =>
      intro x
      rw [Function.iterate_succ_apply, ih, h1]
      omega
  refine ⟨h2 _ _, ?_⟩
  rw [Function.iterate_succ_apply']
  have h3 : ((sessionSweep C exInst exCount []) ((sessionSweep C exInst exCount [])^[k] x)).2.1 =
      (quOptimal exInst (constructDataTerms C exInst []) ((sessionSweep C exInst exCount [])^[k] x).2.2).sample C.u
        (exCount ((sessionSweep C exInst exCount [])^[k] x).1).1 := rfl
  have h4 : ∀ z, quOptimal exInst (constructDataTerms C exInst []) z = ⟨0, 1⟩ := fun z => by
    simp [quOptimal, qOptimal, constructDataTerms, constructTerms, exInst]
  rw [h3, h4, ex_sample_size, h2]
  rfl

theorem range_head {α β : Type} (n : ℕ) (hn : 0 < n) (f : ℕ → α × β) (v : α × β) (hv : f 0 = v) :
    ∃ us, ((List.range n).map f).map Prod.fst = v.1 :: us := by
  obtain ⟨k, rfl⟩ : ∃ k, n = k + 1 := ⟨n - 1, by omega⟩
  rw [← hv]
  refine ⟨((List.range k).map Nat.succ).map (fun j => (f j).1), ?_⟩
  rw [List.range_succ_eq_map, List.map_cons, List.map_cons, List.map_map, List.map_map, List.map_map]
  rfl

theorem stored_head (d : List (ℝ × ℝ)) (W : ℕ → (Fin 1 → ℝ) × (Fin 1 → ℝ)) (m : Inst (Fin 1) (Fin 1)) (qu qz : NatNormal (Fin 1))
    (iters : ℤ) : ∃ us, (storedSamples C m W d iters qu qz).map Prod.fst =
      ((sessionSweep C m W d)^[(iters / 2).toNat + 1] (1, qu.sample C.u (W 0).1, qz.sample C.z (W 0).2)).2.1 :: us :=
  range_head 1000 (by norm_num) _ _ (by simp only [Nat.zero_mul, Nat.zero_add])

/-- **C165** So a second fit does not continue the first: after two fits with a thousand iterations each, the first stored sample of
the filter is not a state that the chain of the first fit would have reached later. -/
theorem c165_structured_false (s : Session (Fin 1) (Fin 1)) : ∃ us u,
    ((s.fitStructured C exInst exCount [] 1000).1.fitStructured C exInst exCount [] 1000).1.samplesU s.posts.qi = some (u :: us) ∧
    ∀ k ≥ 1, ((sessionSweep C exInst exCount [])^[1500 + k]
      (1, s.posts.qU.sample C.u (exCount 0).1, s.posts.qZ.sample C.z (exCount 0).2)).2.1 ≠ u := by
  obtain ⟨x, hx⟩ : ∃ x, x = (1, s.posts.qU.sample C.u (exCount 0).1, s.posts.qZ.sample C.z (exCount 0).2) := ⟨_, rfl⟩
  rw [c165_structured_repeats, fitStructured_eq C exInst exCount [] 1000 (by norm_num)]
  obtain ⟨us, hus⟩ := stored_head C [] exCount exInst s.posts.qU s.posts.qZ 1000
  rw [← hx] at hus ⊢
  refine ⟨us, _, (by rw [← hus]; exact if_pos rfl), fun k hk hc => ?_⟩
  have a1 := (ex_count C ((1000 : ℤ) / 2).toNat x).2
  have a2 := (ex_count C (1499 + k) x).2
  rw [show 1499 + k + 1 = 1500 + k by omega, hc, a1] at a2
  have := (sq_eq_sq₀ (by positivity) (by positivity)).1 a2
  have := Nat.cast_injective this
  omega

/-- A fit of one iteration that has not reached its tolerance. -/
example (b : ℕ) : (exSession.fitCA C exInst [] (1 : ℕ)).fitCA C exInst [] b = exSession.fitCA C exInst [] ((1 + b : ℕ) : ℤ) := by
  refine c165_ca_partial C exInst [] 1 b exSession fun ⟨k, hk, hl⟩ => ?_
  obtain rfl : k = 0 := by omega
  have fix : ∀ p, caStep C exInst (constructDataTerms C exInst []) p = ⟨⟨0, 1⟩, ⟨0, 1⟩⟩ := fun p => by
    simp [caStep, quOptimalMF, qzOptimalMF, qOptimal, constructDataTerms, constructTerms, exInst]
  simp only [Function.iterate_succ_apply, Function.iterate_zero_apply, fix] at hl
  simp [Pair.diff, rmsVec, rmsMat, exSession, fresh, exPosts, Posts.qU, Posts.qZ] at hl
  norm_num at hl

end witness

end Gpcm
