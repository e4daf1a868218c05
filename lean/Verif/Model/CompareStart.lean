import Verif.Model.CompareInference
import Verif.Model.GlobalState

/-!
# Model of how the schemes that are compared start (experiments/paper/compare_inference.py)

One process builds four models after each other. The first one initialises its posteriors from the global random state; the others
take them over. The last two are both fitted by coordinate ascent, with callbacks that track different bounds.
-/

namespace Gpcm.Compare

open Global

variable {σ ι κ : Type} [Fintype ι] [DecidableEq ι] [Fintype κ] [DecidableEq κ]

/-- The first model and its initial posteriors (compare_inference.py:88-99). -/
noncomputable def firstModel (G : Gen σ ι κ) (g : σ) : Pair ι κ × World σ ι κ :=
  let (qu, w) := (World.new g).readU G
  let (qz, w) := w.readZ G
  (⟨qu, qz⟩, w)

/-- The other models, to which these posteriors are assigned (compare_inference.py:127-139, 172-184, 208-220). -/
noncomputable def laterModel (G : Gen σ ι κ) (init : Pair ι κ) (g : σ) : World σ ι κ :=
  ((World.new g).setU G init.u).setZ G init.z

variable (C : Chols ι κ) (m : Inst ι κ)

/-- What the callback of the structured scheme stores (compare_inference.py:226-232): only the distribution of the filter. The counter is
part of the state. -/
def callbackS (p : Pair ι κ) (s : Posts ι κ × ℕ) : Posts ι κ × ℕ :=
  let count := s.2 + 1
  (if tracked count then s.1.setU p.u else s.1, count)

/-- `_fit_mean_field_ca` with this callback (compare_inference.py:245): what is stored at the end. -/
noncomputable def fitWithCallbackS (s : Posts ι κ) (d : List (ℝ × ℝ)) (iters : ℤ) : Posts ι κ :=
  let r := caLoopStore (caStep C m (constructDataTerms C m d)) Pair.diff callbackS iters.toNat ⟨s.qU, s.qZ⟩ (s, 1)
  (r.2.1.setU r.1.u).setZ r.1.z

/-- The values of the curve of the structured scheme (compare_inference.py:223-245). `ws i` are the random numbers of the samples for the
`i`-th value that is tracked. -/
noncomputable def structuredCurve (s : Posts ι κ) (d : List (ℝ × ℝ)) (iters : ℤ) (ws : ℕ → List (ι → ℝ)) : List (Except PyErr ℝ) :=
  ((trackedCalls (fitMeanFieldCA C m s d iters).2).zipIdx).map fun c =>
    elboCollapsedZ C m (s.setU c.1.u) d ((ws c.2).map (c.1.u.sample C.u))

end Gpcm.Compare
