import Verif.Model.Built
import Verif.Lemmas.PolyDegree

/-! # Built objects satisfy the representation invariants, and operations give built objects -/

namespace Gpcm

theorem Factor.built_iff {f : Factor} : f.Built ↔ 1 ≤ f.power := by
  constructor
  · rintro ⟨x, n, h⟩
    unfold Factor.new at h
    split at h
    · cases h
    · cases h; simp only; omega
  · intro h
    refine ⟨f.name, f.power, ?_⟩
    unfold Factor.new
    rw [if_neg (by omega)]
    simp

variable {K : Type} [CommRing K] {R : Runtime K}

theorem Term.Built.wf {t : Term K} (h : t.Built R) : t.WF R := by
  obtain ⟨c, fs, hfs, h⟩ := h
  rw [Term.new_eq] at h
  cases h
  exact termOf_wf R c fs fun f hf => Factor.built_iff.1 (hfs f hf)

theorem Poly.Built.wf {p : Poly K} (h : p.Built R) : p.WF R := by
  obtain ⟨ts, hts, h⟩ := h
  exact Poly.new_wf R (fun t ht => (hts t ht).wf) h

theorem Term.Built.of_new {c : K} {fs : List Factor} (h : ∀ f ∈ fs, 1 ≤ f.power) :
    (termOf R c fs).Built R :=
  ⟨c, fs, fun f hf => Factor.built_iff.2 (h f hf), Term.new_eq R c fs⟩

theorem reduceTerms_built : ∀ (ts : List (Term K)) (acc r : Option (Term K)),
    (∀ t ∈ acc, t.Built R) → (∀ t ∈ ts, t.Built R) → reduceTerms R acc ts = .ok r →
    ∀ t ∈ r, t.Built R := by
  intro ts
  unfold reduceTerms
  induction ts with
  | nil => intro acc r ha _ h; simp only [foldE] at h; cases h; exact ha
  | cons a as ih =>
    intro acc r ha hts h
    simp only [foldE] at h
    split at h
    · cases h
    · rename_i s hs
      refine ih s r ?_ (fun t ht => hts t (by simp [ht])) h
      split at hs
      · cases hs
        intro t ht
        cases ht
        exact hts _ (by simp)
      · rename_i b
        split at hs
        · cases hs
        · rename_i d hd
          cases hs
          intro t ht
          cases ht
          unfold Term.add at hd
          split at hd
          · rw [Term.new_eq] at hd
            cases hd
            exact Term.Built.of_new (ha b rfl).wf.pos
          · cases hd

theorem Poly.new_terms_built {ts : List (Term K)} {p : Poly K} (hts : ∀ t ∈ ts, t.Built R)
    (h : Poly.new R ts = .ok p) : ∀ t ∈ p.terms, t.Built R := by
  unfold Poly.new at h
  split at h
  · cases h
  · rename_i ms hms
    cases h
    rw [mapE_ok_iff] at hms
    intro t ht
    simp only at ht
    have : ∀ (l : List (Finset Factor)) (ms : List (Term K)),
        List.Forall₂ (fun a b => mergeGroup R ts a = .ok b) l ms → ∀ t ∈ ms, t.Built R := by
      intro l ms h
      induction h with
      | nil => simp
      | cons hab _ ih =>
        intro t ht
        rcases List.mem_cons.1 ht with rfl | ht
        · unfold mergeGroup at hab
          split at hab
          · cases hab
          · cases hab
          · rename_i u hu
            cases hab
            exact reduceTerms_built _ none _ (by simp)
              (fun t ht => hts t (List.mem_filter.1 ht).1) hu _ rfl
        · exact ih t ht
    exact this _ _ hms t ht

theorem Poly.Built.terms {p : Poly K} (h : p.Built R) : ∀ t ∈ p.terms, t.Built R := by
  obtain ⟨ts, hts, h⟩ := h
  exact Poly.new_terms_built hts h

theorem Poly.const_built {c : K} {p : Poly K} (h : Poly.const R c = .ok p) : p.Built R := by
  unfold Poly.const at h
  rw [Term.new_eq] at h
  exact ⟨_, by simpa using Term.Built.of_new (fs := []) (by simp), h⟩

theorem Poly.var_built {x : String} {n : ℤ} {p : Poly K} (h : Poly.var R x n = .ok p) :
    p.Built R := by
  unfold Poly.var at h
  split at h
  · cases h
  · rename_i f hf
    rw [Term.new_eq] at h
    have hb : 1 ≤ f.power := Factor.built_iff.1 ⟨x, n, hf⟩
    have ht : (termOf R 1 [f]).Built R := Term.Built.of_new (by simpa using hb)
    exact ⟨_, by simpa using ht, h⟩

theorem Poly.add_built {p q r : Poly K} (hp : p.Built R) (hq : q.Built R)
    (h : p.add R q = .ok r) : r.Built R := by
  refine ⟨_, ?_, h⟩
  intro t ht
  rcases List.mem_append.1 ht with h | h
  · exact hp.terms t h
  · exact hq.terms t h

theorem Poly.neg_built {p r : Poly K} (hp : p.Built R) (h : p.neg R = .ok r) : r.Built R := by
  unfold Poly.neg at h
  rw [neg_terms] at h
  refine ⟨_, ?_, h⟩
  intro t ht
  obtain ⟨s, hs, rfl⟩ := List.mem_map.1 ht
  exact Term.Built.of_new (hp.wf.terms s hs).pos

theorem Poly.mul_built {p q r : Poly K} (hp : p.Built R) (hq : q.Built R)
    (h : p.mul R q = .ok r) : r.Built R := by
  unfold Poly.mul at h
  rw [mul_terms] at h
  refine ⟨_, ?_, h⟩
  intro t ht
  obtain ⟨ts, hts, rfl⟩ := List.mem_map.1 ht
  obtain ⟨a', ha', hb'⟩ := List.mem_flatMap.1 hts
  obtain ⟨b', hb'', heq⟩ := List.mem_map.1 hb'
  subst heq
  refine Term.Built.of_new fun f hf => ?_
  rcases List.mem_append.1 hf with h | h
  · exact (hp.wf.terms _ ha').pos f h
  · exact (hq.wf.terms _ hb'').pos f h

theorem Poly.collectFor_built {p r : Poly K} {f : Factor} (hp : p.Built R)
    (h : p.collectFor R f = .ok r) : r.Built R := by
  unfold Poly.collectFor at h
  rw [collect_terms] at h
  refine ⟨_, ?_, h⟩
  intro t ht
  obtain ⟨s, hs, rfl⟩ := List.mem_map.1 ht
  refine Term.Built.of_new fun g hg => ?_
  exact (hp.wf.terms s (List.mem_filter.1 hs).1).pos g
    (List.mem_filter.1 (R.mem_iff.1 hg)).1

theorem Poly.reject_built {p r : Poly K} {x : String} (hp : p.Built R)
    (h : p.reject R x = .ok r) : r.Built R :=
  ⟨_, fun t ht => hp.terms t (List.mem_filter.1 ht).1, h⟩

theorem PyVal.lift_built {e : Except PyErr (Poly K)} {x : PyVal K} (h : PyVal.lift e = .ok x)
    (he : ∀ p, e = .ok p → p.Built R) : x.Built R := by
  obtain ⟨p, hp, rfl⟩ := PyVal.lift_ok h
  exact he p hp

theorem addNum_built {p r : Poly K} {c : K} (hp : p.Built R) (h : PyVal.addNum R p c = .ok r) :
    r.Built R := by
  unfold PyVal.addNum at h
  split at h
  · cases h
  · rename_i q hq
    exact Poly.add_built hp (Poly.const_built hq) h

theorem addInt_built {p r : Poly K} {n : ℤ} (hp : p.Built R) (h : PyVal.addInt R p n = .ok r) :
    r.Built R := by
  unfold PyVal.addInt at h
  split at h
  · cases h; exact hp
  · exact addNum_built hp h

theorem mulNum_built {p r : Poly K} {c : K} (hp : p.Built R) (h : PyVal.mulNum R p c = .ok r) :
    r.Built R := by
  unfold PyVal.mulNum at h
  split at h
  · cases h
  · rename_i q hq
    exact Poly.mul_built hp (Poly.const_built hq) h

theorem mulInt_built {p r : Poly K} {n : ℤ} (hp : p.Built R) (h : PyVal.mulInt R p n = .ok r) :
    r.Built R := by
  unfold PyVal.mulInt at h
  split at h
  · cases h; exact hp
  · exact mulNum_built hp h

theorem PyVal.add_built {x y z : PyVal K} (hx : x.Built R) (hy : y.Built R)
    (h : PyVal.add R x y = .ok z) : z.Built R := by
  cases x <;> cases y <;> simp only [PyVal.add] at h
  · exact lift_built h fun p hp => Poly.add_built hx hy hp
  · exact lift_built h fun p hp => addInt_built hx hp
  · exact lift_built h fun p hp => addNum_built hx hp
  · exact lift_built h fun p hp => addInt_built hy hp
  · cases h; trivial
  · cases h; trivial
  · exact lift_built h fun p hp => addNum_built hy hp
  · cases h; trivial
  · cases h; trivial

theorem PyVal.mul_built {x y z : PyVal K} (hx : x.Built R) (hy : y.Built R)
    (h : PyVal.mul R x y = .ok z) : z.Built R := by
  cases x <;> cases y <;> simp only [PyVal.mul] at h
  · exact lift_built h fun p hp => Poly.mul_built hx hy hp
  · exact lift_built h fun p hp => mulInt_built hx hp
  · exact lift_built h fun p hp => mulNum_built hx hp
  · exact lift_built h fun p hp => mulInt_built hy hp
  · cases h; trivial
  · cases h; trivial
  · exact lift_built h fun p hp => mulNum_built hy hp
  · cases h; trivial
  · cases h; trivial

theorem PyVal.neg_built {x z : PyVal K} (hx : x.Built R) (h : PyVal.neg R x = .ok z) :
    z.Built R := by
  cases x <;> simp only [PyVal.neg] at h
  · exact lift_built h fun p hp => Poly.neg_built hx hp
  · cases h; trivial
  · cases h; trivial

theorem PyVal.sub_built {x y z : PyVal K} (hx : x.Built R) (hy : y.Built R)
    (h : PyVal.sub R x y = .ok z) : z.Built R := by
  cases x <;> cases y <;> simp only [PyVal.sub] at h
  all_goals first
    | (cases h; trivial)
    | (split at h
       · cases h
       · rename_i w hw
         first
          | exact PyVal.add_built hx (PyVal.neg_built hy hw) h
          | exact PyVal.add_built (PyVal.neg_built hy hw) hx h)

theorem PyVal.powPoly_built {p : Poly K} {n : ℤ} {z : PyVal K} (hp : p.Built R)
    (h : PyVal.powPoly R p n = .ok z) : z.Built R := by
  unfold PyVal.powPoly at h
  split at h
  · cases h
  · have key : ∀ (k : ℕ) (acc z : PyVal K), acc.Built R →
        foldE (fun acc q => PyVal.mul R acc (.poly q)) acc (List.replicate k p) = .ok z →
        z.Built R := by
      intro k
      induction k with
      | zero => intro acc z ha h; simp only [List.replicate_zero, foldE] at h; cases h; exact ha
      | succ k ih =>
        intro acc z ha h
        simp only [List.replicate_succ, foldE] at h
        split at h
        · cases h
        · rename_i s hs
          exact ih s z (PyVal.mul_built (y := .poly p) ha hp hs) h
    exact key _ (.int 1) _ trivial h

theorem PyVal.pow_built {x z : PyVal K} {n : ℕ} (hx : x.Built R) (h : PyVal.pow R x n = .ok z) :
    z.Built R := by
  cases x <;> simp only [PyVal.pow] at h
  · exact PyVal.powPoly_built hx h
  · cases h; trivial
  · cases h; trivial

theorem Expr.run_built (e : Expr K) : ∀ {x : PyVal K}, e.run R = .ok x → x.Built R := by
  induction e with
  | var y => intro x h; exact PyVal.lift_built h fun p hp => Poly.var_built hp
  | const c => intro x h; exact PyVal.lift_built h fun p hp => Poly.const_built hp
  | int n => intro x h; simp only [Expr.run] at h; cases h; trivial
  | num n => intro x h; simp only [Expr.run] at h; cases h; trivial
  | add e f ihe ihf =>
    intro x h
    obtain ⟨a, b, ha, hb, hab⟩ := bind2_ok h
    exact PyVal.add_built (ihe ha) (ihf hb) hab
  | sub e f ihe ihf =>
    intro x h
    obtain ⟨a, b, ha, hb, hab⟩ := bind2_ok h
    exact PyVal.sub_built (ihe ha) (ihf hb) hab
  | neg e ihe =>
    intro x h
    obtain ⟨a, ha, hab⟩ := bind1_ok h
    exact PyVal.neg_built (ihe ha) hab
  | mul e f ihe ihf =>
    intro x h
    obtain ⟨a, b, ha, hb, hab⟩ := bind2_ok h
    exact PyVal.mul_built (ihe ha) (ihf hb) hab
  | pow e n ihe =>
    intro x h
    obtain ⟨a, ha, hab⟩ := bind1_ok h
    exact PyVal.pow_built (ihe ha) hab

end Gpcm
