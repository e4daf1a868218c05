import Verif.Props.FarProps
import Verif.Model.Session
import Verif.Props.ApproxProps

/-!
# C155: predictions at a time do not depend on the other times asked for
-/

open Matrix Real

namespace Gpcm

variable {ι κ : Type} [Fintype ι] [DecidableEq ι] [Fintype κ] [DecidableEq κ] (C : Chols ι κ) (m : Inst ι κ)

/-- **C155** In any state, the predictions of the scheme `mean-field` are a function of time, evaluated at each time asked for. -/
theorem c155_mean_field (s : Session ι κ) : ∃ f : ℝ → ℝ × ℝ, ∀ t, s.predictMeanField C m t = t.map f :=
  ⟨_, meanField_predict_map C m s.posts⟩

/-- **C155** In any state and for any random numbers, so are the predictions of the scheme `structured`; or they raise, whatever
the times asked for. -/
theorem c155_structured (s : Session ι κ) (ws : List (ι → ℝ)) :
    (∃ f : ℝ → ℝ × ℝ, ∀ t, s.predictStructured C m t ws = .ok (t.map f)) ∨ ∃ e, ∀ t, s.predictStructured C m t ws = .error e := by
  unfold Session.predictStructured
  rcases s.samplePU C m ws with e | us
  · exact .inr ⟨e, fun t => rfl⟩
  · rcases us with _ | ⟨u, us⟩
    · exact .inr ⟨.valueError, fun t => rfl⟩
    · rcases s.ts with _ | ts
      · exact .inr ⟨.attributeError, fun t => rfl⟩
      · exact .inl ⟨_, fun t => structured_predict_map C m ts (List.cons_ne_nil _ _) t⟩

/-- A model that has been fitted, conditioned and asked for two times at once predicts what it predicts for either. -/
example (D : Chols (Fin 1) (Fin 1)) (s : Session (Fin 1) (Fin 1)) :
    s.predictMeanField D exInst [0, 1] = s.predictMeanField D exInst [0] ++ s.predictMeanField D exInst [1] := by
  obtain ⟨f, hf⟩ := c155_mean_field D exInst s
  rw [hf, hf, hf]
  rfl

end Gpcm
