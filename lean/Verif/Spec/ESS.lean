import Verif.Model.ESS

/-!
# Elliptical slice sampling, as published

`Round` is one round of the algorithm of Murray, Adams & MacKay (2010): slice height, ellipse,
initial bracket, then proposals with a shrinking bracket. It talks about the external calls only
(`Event`), not about the functions of the model.
-/

open Real

namespace Gpcm.Ess

variable {V : Type} [AddCommGroup V] [Module ℝ V]

/-- The point of the ellipse at an angle. -/
noncomputable def point (x y : V) (θ : ℝ) : V := cos θ • x + sin θ • y

/-- What a call of `_draw` does: a sequence of rejected proposals, ended by an accepted one or by
giving up. -/
inductive Run (L : V → LL) (x y : V) (u : LL) : ℝ → ℝ → List (Event V) → Option V → Prop
  | fail (lo hi : ℝ) : Run L x y u lo hi [] none
  | accept (lo hi θ : ℝ) (h : lo ≤ θ ∧ θ ≤ hi) (hu : (L (point x y θ)).gt u) :
      Run L x y u lo hi [.uniform lo hi θ, .lik (point x y θ) (L (point x y θ))]
        (some (point x y θ))
  | right (lo hi θ : ℝ) (h : lo ≤ θ ∧ θ ≤ hi) (hu : ¬ (L (point x y θ)).gt u) (hθ : 0 < θ)
      {tr : List (Event V)} {o : Option V} (hr : Run L x y u lo θ tr o) :
      Run L x y u lo hi (.uniform lo hi θ :: .lik (point x y θ) (L (point x y θ)) :: tr) o
  | left (lo hi θ : ℝ) (h : lo ≤ θ ∧ θ ≤ hi) (hu : ¬ (L (point x y θ)).gt u) (hθ : θ ≤ 0)
      {tr : List (Event V)} {o : Option V} (hr : Run L x y u θ hi tr o) :
      Run L x y u lo hi (.uniform lo hi θ :: .lik (point x y θ) (L (point x y θ)) :: tr) o

/-- Number of evaluations of the likelihood. -/
def likCount (tr : List (Event V)) : ℕ := tr.countP fun
  | .lik _ _ => true
  | _ => false

/-- The bracket and the angle of a call of the uniform generator. -/
def Event.bracket? : Event V → Option (ℝ × ℝ × ℝ)
  | .uniform a b r => some (a, b, r)
  | _ => none

/-- Brackets and angles, in order. -/
def brackets (tr : List (Event V)) : List (ℝ × ℝ × ℝ) := tr.filterMap Event.bracket?

/-- One round from the state `x` with log-likelihood `l`: a slice height below `l`, a prior sample,
a bracket of width `2π` around zero, and a sequence of proposals. -/
def Round (L : V → LL) (x : V) (l : LL) (tr : List (Event V)) (o : Option V) : Prop :=
  ∃ (e : ℝ) (y : V) (θ : ℝ) (tr' : List (Event V)), 0 ≤ e ∧ 0 ≤ θ ∧ θ < 2 * π ∧
    tr = .expo e :: .prior y :: .uniform 0 (2 * π) θ :: tr' ∧
    Run L x y (l.sub e) (θ - 2 * π) θ tr' o

end Gpcm.Ess
