import Verif.Lemmas.ExprTotal
import Verif.Lemmas.PolyCanon

/-! # Helper lemmas: expressions whose value is a `Poly` rather than a number -/

namespace Gpcm

/-- The expression contains a variable or `const` in a position that makes the result a `Poly`. -/
def Expr.IsPoly {K : Type} : Expr K → Prop
  | .var _ => True
  | .const _ => True
  | .int _ => False
  | .num _ => False
  | .add e f => e.IsPoly ∨ f.IsPoly
  | .sub e f => e.IsPoly ∨ f.IsPoly
  | .neg e => e.IsPoly
  | .mul e f => e.IsPoly ∨ f.IsPoly
  | .pow e n => e.IsPoly ∧ 1 ≤ n

variable {K : Type} [CommRing K] {R : Runtime K}

/-- The value is a `Poly`. -/
def PyVal.IsPoly (x : PyVal K) : Prop := ∃ p, x = .poly p

omit [CommRing K] in
theorem PyVal.lift_isPoly {e : Except PyErr (Poly K)} {x : PyVal K} (h : PyVal.lift e = .ok x) :
    x.IsPoly := by
  obtain ⟨p, _, rfl⟩ := PyVal.lift_ok h; exact ⟨p, rfl⟩

theorem PyVal.add_isPoly {x y z : PyVal K} (h : PyVal.add R x y = .ok z)
    (hxy : x.IsPoly ∨ y.IsPoly) : z.IsPoly := by
  rcases hxy with ⟨p, rfl⟩ | ⟨p, rfl⟩
  · cases y <;> exact PyVal.lift_isPoly h
  · cases x <;> exact PyVal.lift_isPoly h

theorem PyVal.mul_isPoly {x y z : PyVal K} (h : PyVal.mul R x y = .ok z)
    (hxy : x.IsPoly ∨ y.IsPoly) : z.IsPoly := by
  rcases hxy with ⟨p, rfl⟩ | ⟨p, rfl⟩
  · cases y <;> exact PyVal.lift_isPoly h
  · cases x <;> exact PyVal.lift_isPoly h

theorem PyVal.neg_isPoly {x z : PyVal K} (h : PyVal.neg R x = .ok z) (hx : x.IsPoly) :
    z.IsPoly := by
  obtain ⟨p, rfl⟩ := hx
  exact PyVal.lift_isPoly h

theorem PyVal.sub_isPoly {x y z : PyVal K} (h : PyVal.sub R x y = .ok z)
    (hxy : x.IsPoly ∨ y.IsPoly) : z.IsPoly := by
  cases x with
  | poly p =>
    simp only [PyVal.sub] at h
    split at h
    · cases h
    · exact PyVal.add_isPoly h (.inl ⟨p, rfl⟩)
  | int n =>
    rcases hxy with ⟨p, h'⟩ | ⟨p, rfl⟩
    · cases h'
    · simp only [PyVal.sub] at h
      split at h
      · cases h
      · rename_i q hq
        exact PyVal.add_isPoly h (.inl (PyVal.neg_isPoly hq ⟨p, rfl⟩))
  | num c =>
    rcases hxy with ⟨p, h'⟩ | ⟨p, rfl⟩
    · cases h'
    · simp only [PyVal.sub] at h
      split at h
      · cases h
      · rename_i q hq
        exact PyVal.add_isPoly h (.inl (PyVal.neg_isPoly hq ⟨p, rfl⟩))

theorem powLoop_isPoly {p : Poly K} : ∀ (n : ℕ) (x z : PyVal K), (x.IsPoly ∨ 1 ≤ n) →
    foldE (fun acc q => PyVal.mul R acc (.poly q)) x (List.replicate n p) = .ok z → z.IsPoly
  | 0, x, z, hx, h => by
    cases h
    rcases hx with hx | hx
    · exact hx
    · omega
  | n + 1, x, z, _, h => by
    rw [List.replicate_succ] at h
    unfold foldE at h
    split at h
    · cases h
    · rename_i y hy
      exact powLoop_isPoly n y z (.inl (PyVal.mul_isPoly hy (.inr ⟨p, rfl⟩))) h

theorem PyVal.powPoly_isPoly {p : Poly K} {n : ℕ} (hn : 1 ≤ n) {z : PyVal K}
    (h : PyVal.powPoly R p n = .ok z) : z.IsPoly := by
  unfold PyVal.powPoly at h
  split at h
  · cases h
  · exact powLoop_isPoly _ _ z (.inr (by simpa using hn)) h

theorem Expr.run_isPoly (e : Expr K) : e.IsPoly → ∀ {x}, e.run R = .ok x → x.IsPoly := by
  induction e with
  | var x => intro _ _ h; exact PyVal.lift_isPoly h
  | const c => intro _ _ h; exact PyVal.lift_isPoly h
  | int n => intro h; cases h
  | num c => intro h; cases h
  | add e f ihe ihf =>
    intro hp x h
    obtain ⟨a, b, ha, hb, hab⟩ := bind2_ok h
    exact PyVal.add_isPoly hab (hp.imp (fun he => ihe he ha) fun hf => ihf hf hb)
  | sub e f ihe ihf =>
    intro hp x h
    obtain ⟨a, b, ha, hb, hab⟩ := bind2_ok h
    exact PyVal.sub_isPoly hab (hp.imp (fun he => ihe he ha) fun hf => ihf hf hb)
  | neg e ihe =>
    intro hp x h
    obtain ⟨a, ha, hab⟩ := bind1_ok h
    exact PyVal.neg_isPoly hab (ihe hp ha)
  | mul e f ihe ihf =>
    intro hp x h
    obtain ⟨a, b, ha, hb, hab⟩ := bind2_ok h
    exact PyVal.mul_isPoly hab (hp.imp (fun he => ihe he ha) fun hf => ihf hf hb)
  | pow e n ihe =>
    intro hp x h
    obtain ⟨a, ha, hab⟩ := bind1_ok h
    obtain ⟨p, rfl⟩ := ihe hp.1 ha
    exact PyVal.powPoly_isPoly hp.2 hab

end Gpcm
