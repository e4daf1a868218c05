import Verif.Lemmas.BuiltLemmas
import Mathlib.Tactic.IntervalCases

/-! # Expressions whose construction cannot raise -/

namespace Gpcm

variable {K : Type} [CommRing K] (R : Runtime K)

/-- A polynomial with exactly one term. -/
def Poly.Single (p : Poly K) : Prop := ∃ t, p.terms = [t]

theorem Poly.new_single {t : Term K} (ht : t.WF R) : ∃ p, Poly.new R [t] = .ok p ∧ p.Single := by
  obtain ⟨p, hp⟩ := single_total R ht
  refine ⟨p, hp, ?_⟩
  have h2 := Poly.new_ok R (by simpa using ht) hp
  have hlen := h2.length_eq
  have hone : (R.ord ([t].map fun t => t.factors.toFinset)).length = 1 := by
    rw [(R.perm _).length_eq]; simp
  have : p.terms.length = 1 := by rw [← hlen]; simpa using hone
  exact List.length_eq_one_iff.1 this

theorem Poly.const_single {c : K} {p : Poly K} (h : Poly.const R c = .ok p) : p.Single := by
  unfold Poly.const at h
  rw [Term.new_eq] at h
  obtain ⟨q, hq, hs⟩ := Poly.new_single R (termOf_wf R c [] (by simp))
  simp only [hq] at h
  cases h; exact hs

theorem Poly.const_degLE {c : K} {p : Poly K} (h : Poly.const R c = .ok p) : p.degLE 0 := by
  unfold Poly.const at h
  rw [Term.new_eq] at h
  refine Poly.new_degLE R (by simpa using termOf_wf R c [] (by simp)) h fun t ht => ?_
  rw [List.mem_singleton] at ht
  subst ht
  exact (termOf_card_le R c []).trans (by simp)

theorem Poly.var_single {x : String} {p : Poly K} (h : Poly.var R x = .ok p) :
    p.Single ∧ p.degLE 1 := by
  unfold Poly.var at h
  have hf : Factor.new x 1 = .ok ⟨x, 1⟩ := by simp [Factor.new]
  rw [hf] at h
  simp only [Term.new_eq] at h
  have hwf : (termOf R 1 [⟨x, 1⟩]).WF R := termOf_wf R 1 _ (by simp)
  obtain ⟨q, hq, hs⟩ := Poly.new_single R hwf
  refine ⟨?_, ?_⟩
  · rw [hq] at h
    cases h; exact hs
  · refine Poly.new_degLE R (by simpa using hwf) h fun t ht => ?_
    rw [List.mem_singleton] at ht
    subst ht
    exact (termOf_card_le R _ _).trans (by simp)

theorem Poly.mul_single {p q r : Poly K} (hp : p.WF R) (hq : q.WF R) (sp : p.Single)
    (sq : q.Single) (h : p.mul R q = .ok r) : r.Single := by
  obtain ⟨t, ht⟩ := sp
  obtain ⟨s, hs⟩ := sq
  have hwf := mul_terms_wf R hp hq
  unfold Poly.mul at h
  rw [mul_terms] at h
  simp only [ht, hs, List.flatMap_cons, List.flatMap_nil, List.append_nil, List.map_cons,
    List.map_nil] at h hwf
  obtain ⟨q', hq', hs'⟩ := Poly.new_single R (hwf _ (List.mem_singleton.2 rfl))
  rw [hq'] at h
  cases h; exact hs'

theorem Poly.neg_single {p r : Poly K} (hp : p.WF R) (sp : p.Single) (h : p.neg R = .ok r) :
    r.Single := by
  obtain ⟨t, ht⟩ := sp
  unfold Poly.neg at h
  rw [neg_terms] at h
  simp only [ht, List.map_cons, List.map_nil] at h
  obtain ⟨q', hq', hs'⟩ := Poly.new_single R
    (termOf_wf R (-t.const) t.factors (hp.terms t (by simp [ht])).pos)
  rw [hq'] at h
  cases h; exact hs'

/-- What is tracked of a Python value during construction. -/
def PyVal.Deg (d : ℕ) (x : PyVal K) : Prop :=
  match x with
  | .poly p => p.degLE d
  | .int _ => True
  | .num _ => True

/-- A number, or a polynomial with one term. -/
def PyVal.IsSingle (x : PyVal K) : Prop :=
  match x with
  | .poly p => p.Single
  | .int _ => True
  | .num _ => True

theorem addNum_total {p : Poly K} {c : K} (hp : p.WF R) {d : ℕ} (dp : p.degLE d) :
    ∃ r, PyVal.addNum R p c = .ok r ∧ r.degLE d := by
  obtain ⟨q, hq, hqw, _⟩ := Poly.const_spec R c
  obtain ⟨r, hr⟩ := Poly.add_total R hp hqw
  refine ⟨r, by simp only [PyVal.addNum, hq, hr], ?_⟩
  exact Poly.add_degLE R hp hqw dp (Poly.degLE_mono (Poly.const_degLE R hq) (Nat.zero_le _)) hr

theorem addInt_total {p : Poly K} {n : ℤ} (hp : p.WF R) {d : ℕ} (dp : p.degLE d) :
    ∃ r, PyVal.addInt R p n = .ok r ∧ r.degLE d := by
  unfold PyVal.addInt
  split
  · exact ⟨p, rfl, dp⟩
  · exact addNum_total R hp dp

theorem mulNum_total {p : Poly K} {c : K} (hp : p.WF R) {d : ℕ} (dp : p.degLE d) :
    ∃ r, PyVal.mulNum R p c = .ok r ∧ r.degLE d ∧ (p.Single → r.Single) := by
  obtain ⟨q, hq, hqw, _⟩ := Poly.const_spec R c
  obtain ⟨t, ht⟩ := Poly.const_single R hq
  obtain ⟨r, hr⟩ := Poly.mul_total_single_right R hp hqw ht
  refine ⟨r, by simp only [PyVal.mulNum, hq, hr], ?_, ?_⟩
  · exact Poly.mul_degLE R hp hqw dp (Poly.const_degLE R hq) hr
  · exact fun sp => Poly.mul_single R hp hqw sp ⟨t, ht⟩ hr

theorem mulInt_total {p : Poly K} {n : ℤ} (hp : p.WF R) {d : ℕ} (dp : p.degLE d) :
    ∃ r, PyVal.mulInt R p n = .ok r ∧ r.degLE d ∧ (p.Single → r.Single) := by
  unfold PyVal.mulInt
  split
  · exact ⟨p, rfl, dp, id⟩
  · exact mulNum_total R hp dp

theorem PyVal.add_total {x y : PyVal K} {d e : ℕ} (hx : x.WF R) (hy : y.WF R) (dx : x.Deg d)
    (dy : y.Deg e) : ∃ z, PyVal.add R x y = .ok z ∧ z.Deg (max d e) := by
  have l1 : ∀ {p : Poly K} {d e : ℕ}, p.degLE d → p.degLE (max d e) := fun h =>
    Poly.degLE_mono h (le_max_left _ _)
  have l2 : ∀ {p : Poly K} {d e : ℕ}, p.degLE e → p.degLE (max d e) := fun h =>
    Poly.degLE_mono h (le_max_right _ _)
  cases x <;> cases y <;> simp only [PyVal.add]
  case poly.poly p q =>
    obtain ⟨r, hr⟩ := Poly.add_total R hx hy
    exact ⟨.poly r, by simp only [hr, lift], Poly.add_degLE R hx hy (l1 dx) (l2 dy) hr⟩
  case poly.int p n =>
    obtain ⟨r, hr, hd⟩ := addInt_total R (n := n) hx dx
    exact ⟨.poly r, by simp only [hr, lift], l1 hd⟩
  case poly.num p n =>
    obtain ⟨r, hr, hd⟩ := addNum_total R (c := n) hx dx
    exact ⟨.poly r, by simp only [hr, lift], l1 hd⟩
  case int.poly n p =>
    obtain ⟨r, hr, hd⟩ := addInt_total R (n := n) hy dy
    exact ⟨.poly r, by simp only [hr, lift], l2 hd⟩
  case num.poly n p =>
    obtain ⟨r, hr, hd⟩ := addNum_total R (c := n) hy dy
    exact ⟨.poly r, by simp only [hr, lift], l2 hd⟩
  all_goals exact ⟨_, rfl, trivial⟩

theorem PyVal.neg_total {x : PyVal K} {d : ℕ} (hx : x.WF R) (dx : x.Deg d) :
    ∃ z, PyVal.neg R x = .ok z ∧ z.Deg d ∧ (x.IsSingle → z.IsSingle) := by
  cases x <;> simp only [PyVal.neg]
  case poly p =>
    obtain ⟨r, hr⟩ := Poly.neg_total R hx
    exact ⟨.poly r, by simp only [hr, lift], Poly.neg_degLE R hx dx hr,
      fun sp => Poly.neg_single R hx sp hr⟩
  all_goals exact ⟨_, rfl, trivial, fun _ => trivial⟩

theorem PyVal.sub_total {x y : PyVal K} {d e : ℕ} (hx : x.WF R) (hy : y.WF R) (dx : x.Deg d)
    (dy : y.Deg e) : ∃ z, PyVal.sub R x y = .ok z ∧ z.Deg (max d e) := by
  obtain ⟨w, hw, dw, _⟩ := PyVal.neg_total R hy dy
  have hww := (PyVal.neg_spec R hy hw).1
  obtain ⟨z, hz, dz⟩ := PyVal.add_total R hx hww dx dw
  obtain ⟨z', hz', dz'⟩ := PyVal.add_total R hww hx dw dx
  rw [max_comm] at dz'
  cases x <;> cases y <;> simp only [PyVal.sub, hw]
  all_goals first
    | exact ⟨_, rfl, trivial⟩
    | exact ⟨_, hz, dz⟩
    | exact ⟨_, hz', dz'⟩

theorem PyVal.mul_total {x y : PyVal K} {d e : ℕ} (hx : x.WF R) (hy : y.WF R) (dx : x.Deg d)
    (dy : y.Deg e) (h : d ≤ 1 ∧ e ≤ 1 ∨ x.IsSingle ∨ y.IsSingle) :
    ∃ z, PyVal.mul R x y = .ok z ∧ z.Deg (d + e) ∧ (x.IsSingle → y.IsSingle → z.IsSingle) := by
  cases x <;> cases y <;> simp only [PyVal.mul]
  case poly.poly p q =>
    have : ∃ r, p.mul R q = .ok r := by
      rcases h with ⟨h1, h2⟩ | ⟨t, h⟩ | ⟨t, h⟩
      · exact Poly.mul_total_affine R hx hy (Poly.degLE_mono dx h1) (Poly.degLE_mono dy h2)
      · exact Poly.mul_total_single R hx hy h
      · exact Poly.mul_total_single_right R hx hy h
    obtain ⟨r, hr⟩ := this
    exact ⟨.poly r, by simp only [hr, lift], Poly.mul_degLE R hx hy dx dy hr,
      fun sx sy => Poly.mul_single R hx hy sx sy hr⟩
  case poly.int p n =>
    obtain ⟨r, hr, hd, hs⟩ := mulInt_total R (n := n) hx dx
    exact ⟨.poly r, by simp only [hr, lift], Poly.degLE_mono hd (by omega), fun s _ => hs s⟩
  case poly.num p n =>
    obtain ⟨r, hr, hd, hs⟩ := mulNum_total R (c := n) hx dx
    exact ⟨.poly r, by simp only [hr, lift], Poly.degLE_mono hd (by omega), fun s _ => hs s⟩
  case int.poly n p =>
    obtain ⟨r, hr, hd, hs⟩ := mulInt_total R (n := n) hy dy
    exact ⟨.poly r, by simp only [hr, lift], Poly.degLE_mono hd (by omega), fun _ s => hs s⟩
  case num.poly n p =>
    obtain ⟨r, hr, hd, hs⟩ := mulNum_total R (c := n) hy dy
    exact ⟨.poly r, by simp only [hr, lift], Poly.degLE_mono hd (by omega), fun _ s => hs s⟩
  all_goals exact ⟨_, rfl, trivial, fun _ _ => trivial⟩

/-- The loop of `Poly.__pow__` with a one-term base, or with a constant base. -/
theorem powLoop_total {p : Poly K} {d : ℕ} (hp : p.WF R) (dp : p.degLE d)
    (h : p.Single ∨ d = 0) : ∀ (k : ℕ) (acc : PyVal K) (e : ℕ), acc.WF R → acc.Deg e →
      (p.Single ∨ e = 0) →
      ∃ z, foldE (fun acc q => PyVal.mul R acc (.poly q)) acc (List.replicate k p) = .ok z ∧
        z.Deg (e + k * d) ∧ (p.Single → acc.IsSingle → z.IsSingle) := by
  intro k
  induction k with
  | zero => intro acc e _ de _; exact ⟨acc, rfl, by simpa using de, fun _ h => h⟩
  | succ k ih =>
    intro acc e ha de hs
    obtain ⟨w, hw, dw, sw⟩ := PyVal.mul_total R (x := acc) (y := .poly p) ha hp de dp (by
      rcases h with h | h
      · exact Or.inr (Or.inr h)
      · rcases hs with hs | hs
        · exact Or.inr (Or.inr hs)
        · exact Or.inl ⟨by omega, by omega⟩)
    have hww := (PyVal.mul_spec R (x := acc) (y := .poly p) ha hp hw).1
    obtain ⟨z, hz, dz, sz⟩ := ih w (e + d) hww dw (by
      rcases h with h | h
      · exact Or.inl h
      · rcases hs with hs | hs
        · exact Or.inl hs
        · exact Or.inr (by omega))
    refine ⟨z, ?_, ?_, fun sp sa => sz sp (sw sa sp)⟩
    · simp only [List.replicate_succ, foldE, hw]
      exact hz
    · have : e + d + k * d = e + (k + 1) * d := by ring
      rw [this] at dz
      exact dz

theorem PyVal.powPoly_total {p : Poly K} {d n : ℕ} (hp : p.WF R) (dp : p.degLE d)
    (h : p.Single ∨ d = 0 ∨ n ≤ 1 ∨ (d ≤ 1 ∧ n ≤ 2)) :
    ∃ z, PyVal.powPoly R p n = .ok z ∧ z.Deg (n * d) ∧ (p.Single → z.IsSingle) := by
  have hnn : ¬ ((n : ℤ) < 0) := by omega
  simp only [PyVal.powPoly, hnn, if_false, Int.toNat_natCast]
  have hgen : (p.Single ∨ d = 0) → ∃ z,
      foldE (fun acc q => PyVal.mul R acc (.poly q)) (.int 1) (List.replicate n p) = .ok z ∧
        z.Deg (n * d) ∧ (p.Single → z.IsSingle) := by
    intro h
    obtain ⟨z, hz, dz, sz⟩ := powLoop_total R hp dp h n (.int 1) 0 trivial trivial
      (by rcases h with h | h
          · exact Or.inl h
          · exact Or.inr rfl)
    exact ⟨z, hz, by simpa using dz, fun sp => sz sp trivial⟩
  have hone : PyVal.mul R (.int 1) (.poly p) = .ok (.poly p) := by
    simp [PyVal.mul, PyVal.mulInt, PyVal.lift]
  rcases h with h | h | h | ⟨h1, h2⟩
  · exact hgen (Or.inl h)
  · exact hgen (Or.inr h)
  · interval_cases n
    · exact ⟨.int 1, rfl, trivial, fun _ => trivial⟩
    · refine ⟨.poly p, ?_, by simpa [PyVal.Deg] using dp, id⟩
      simp only [List.replicate_succ, List.replicate_zero, foldE, hone]
  · interval_cases n
    · exact ⟨.int 1, rfl, trivial, fun _ => trivial⟩
    · refine ⟨.poly p, ?_, by simpa [PyVal.Deg] using dp, id⟩
      simp only [List.replicate_succ, List.replicate_zero, foldE, hone]
    · obtain ⟨r, hr⟩ := Poly.mul_total_affine R hp hp (Poly.degLE_mono dp h1)
        (Poly.degLE_mono dp h1)
      refine ⟨.poly r, ?_, ?_, fun sp => Poly.mul_single R hp hp sp sp hr⟩
      · have hmm : PyVal.mul R (.poly p) (.poly p) = .ok (.poly r) := by
          simp only [PyVal.mul, hr, PyVal.lift]
        simp only [List.replicate_succ, List.replicate_zero, foldE, hone, hmm]
      · have := Poly.mul_degLE R hp hp dp dp hr
        rw [← two_mul] at this
        exact this

theorem PyVal.pow_total {x : PyVal K} {d n : ℕ} (hx : x.WF R) (dx : x.Deg d)
    (h : x.IsSingle ∨ d = 0 ∨ n ≤ 1 ∨ (d ≤ 1 ∧ n ≤ 2)) :
    ∃ z, PyVal.pow R x n = .ok z ∧ z.Deg (n * d) ∧ (x.IsSingle → z.IsSingle) := by
  cases x <;> simp only [PyVal.pow]
  case poly p => exact PyVal.powPoly_total R hx dx h
  all_goals exact ⟨_, rfl, trivial, fun _ => trivial⟩

theorem Expr.run_total (e : Expr K) : e.Simple → ∃ x, e.run R = .ok x ∧ x.Deg e.deg ∧
    (e.isMono → x.IsSingle) := by
  induction e with
  | var y =>
    intro _
    obtain ⟨p, hp, _⟩ := Poly.var_spec R y 1 le_rfl
    have h := Poly.var_single R hp
    refine ⟨.poly p, ?_, h.2, fun _ => h.1⟩
    simp only [Expr.run]
    rw [show Poly.var R y = .ok p from hp]; rfl
  | const c =>
    intro _
    obtain ⟨p, hp, _⟩ := Poly.const_spec R c
    exact ⟨.poly p, by simp only [Expr.run, hp, PyVal.lift], Poly.const_degLE R hp,
      fun _ => Poly.const_single R hp⟩
  | int n => intro _; exact ⟨_, rfl, trivial, fun _ => trivial⟩
  | num n => intro _; exact ⟨_, rfl, trivial, fun _ => trivial⟩
  | add e f ihe ihf =>
    rintro ⟨he, hf⟩
    obtain ⟨x, hx, dx, _⟩ := ihe he
    obtain ⟨y, hy, dy, _⟩ := ihf hf
    obtain ⟨z, hz, dz⟩ := PyVal.add_total R (e.run_spec R hx).1 (f.run_spec R hy).1 dx dy
    exact ⟨z, by simp only [Expr.run, bind2, hx, hy, hz], dz, fun h => h.elim⟩
  | sub e f ihe ihf =>
    rintro ⟨he, hf⟩
    obtain ⟨x, hx, dx, _⟩ := ihe he
    obtain ⟨y, hy, dy, _⟩ := ihf hf
    obtain ⟨z, hz, dz⟩ := PyVal.sub_total R (e.run_spec R hx).1 (f.run_spec R hy).1 dx dy
    exact ⟨z, by simp only [Expr.run, bind2, hx, hy, hz], dz, fun h => h.elim⟩
  | neg e ihe =>
    intro he
    obtain ⟨x, hx, dx, sx⟩ := ihe he
    obtain ⟨z, hz, dz, sz⟩ := PyVal.neg_total R (e.run_spec R hx).1 dx
    exact ⟨z, by simp only [Expr.run, bind1, hx, hz], dz, fun h => sz (sx h)⟩
  | mul e f ihe ihf =>
    rintro ⟨he, hf, h⟩
    obtain ⟨x, hx, dx, sx⟩ := ihe he
    obtain ⟨y, hy, dy, sy⟩ := ihf hf
    obtain ⟨z, hz, dz, sz⟩ := PyVal.mul_total R (e.run_spec R hx).1 (f.run_spec R hy).1 dx dy
      (h.imp id fun h => h.imp sx sy)
    exact ⟨z, by simp only [Expr.run, bind2, hx, hy, hz], dz, fun h => sz (sx h.1) (sy h.2)⟩
  | pow e n ihe =>
    rintro ⟨he, h⟩
    obtain ⟨x, hx, dx, sx⟩ := ihe he
    obtain ⟨z, hz, dz, sz⟩ := PyVal.pow_total R (n := n) (e.run_spec R hx).1 dx (h.imp sx id)
    exact ⟨z, by simp only [Expr.run, bind1, hx, hz], dz, fun h => sz (sx h)⟩

/-! ## Constants that are never recognised as zero (tensors) -/

theorem Poly.new_total_tensor (hR : ∀ c, R.numZero c = false) {ts : List (Term K)}
    (hts : ∀ t ∈ ts, t.WF R) : ∃ p, Poly.new R ts = .ok p :=
  Poly.new_total R hts fun _ _ _ _ _ _ _ => hR _

theorem Poly.mul_total_tensor (hR : ∀ c, R.numZero c = false) {p q : Poly K} (hp : p.WF R)
    (hq : q.WF R) : ∃ r, p.mul R q = .ok r := by
  unfold Poly.mul
  rw [mul_terms]
  exact Poly.new_total_tensor R hR (mul_terms_wf R hp hq)

theorem PyVal.mul_total_tensor (hR : ∀ c, R.numZero c = false) {x y : PyVal K} (hx : x.WF R)
    (hy : y.WF R) : ∃ z, PyVal.mul R x y = .ok z := by
  have hn : ∀ {p : Poly K} (c : K), p.WF R → ∃ r, PyVal.mulNum R p c = .ok r := by
    intro p c hp
    obtain ⟨q, hq, hqw, _⟩ := Poly.const_spec R c
    obtain ⟨r, hr⟩ := Poly.mul_total_tensor R hR hp hqw
    exact ⟨r, by simp only [PyVal.mulNum, hq, hr]⟩
  have hi : ∀ {p : Poly K} (n : ℤ), p.WF R → ∃ r, PyVal.mulInt R p n = .ok r := by
    intro p n hp
    unfold PyVal.mulInt
    split
    · exact ⟨p, rfl⟩
    · exact hn _ hp
  cases x <;> cases y <;> simp only [PyVal.mul]
  case poly.poly p q =>
    obtain ⟨r, hr⟩ := Poly.mul_total_tensor R hR hx hy
    exact ⟨.poly r, by simp only [hr, lift]⟩
  case poly.int p n =>
    obtain ⟨r, hr⟩ := hi n hx; exact ⟨.poly r, by simp only [hr, lift]⟩
  case poly.num p n =>
    obtain ⟨r, hr⟩ := hn n hx; exact ⟨.poly r, by simp only [hr, lift]⟩
  case int.poly n p =>
    obtain ⟨r, hr⟩ := hi n hy; exact ⟨.poly r, by simp only [hr, lift]⟩
  case num.poly n p =>
    obtain ⟨r, hr⟩ := hn n hy; exact ⟨.poly r, by simp only [hr, lift]⟩
  all_goals exact ⟨_, rfl⟩

theorem PyVal.pow_total_tensor (hR : ∀ c, R.numZero c = false) {x : PyVal K} (hx : x.WF R)
    (n : ℕ) : ∃ z, PyVal.pow R x n = .ok z := by
  cases x <;> simp only [PyVal.pow]
  case poly p =>
    have hnn : ¬ ((n : ℤ) < 0) := by omega
    simp only [PyVal.powPoly, hnn, if_false, Int.toNat_natCast]
    have key : ∀ (k : ℕ) (acc : PyVal K), acc.WF R → ∃ z,
        foldE (fun acc q => PyVal.mul R acc (.poly q)) acc (List.replicate k p) = .ok z := by
      intro k
      induction k with
      | zero => intro acc _; exact ⟨acc, rfl⟩
      | succ k ih =>
        intro acc ha
        obtain ⟨w, hw⟩ := PyVal.mul_total_tensor R hR (x := acc) (y := .poly p) ha hx
        obtain ⟨z, hz⟩ := ih w (PyVal.mul_spec R (x := acc) (y := .poly p) ha hx hw).1
        exact ⟨z, by simp only [List.replicate_succ, foldE, hw]; exact hz⟩
    exact key _ _ trivial
  all_goals exact ⟨_, rfl⟩

omit [CommRing K] in
theorem PyVal.deg_exists (x : PyVal K) : ∃ d, x.Deg d := by
  cases x with
  | poly p =>
    refine ⟨(p.terms.map fun t => t.mono.card).sum, fun t ht => ?_⟩
    exact List.single_le_sum (by simp) _ (List.mem_map_of_mem ht)
  | int n => exact ⟨0, trivial⟩
  | num c => exact ⟨0, trivial⟩

theorem Expr.run_total_tensor (hR : ∀ c, R.numZero c = false) (e : Expr K) :
    ∃ x, e.run R = .ok x := by
  induction e with
  | var y =>
    obtain ⟨p, hp, _⟩ := Poly.var_spec R y 1 le_rfl
    refine ⟨.poly p, ?_⟩
    simp only [Expr.run]
    rw [show Poly.var R y = .ok p from hp]; rfl
  | const c =>
    obtain ⟨p, hp, _⟩ := Poly.const_spec R c
    exact ⟨.poly p, by simp only [Expr.run, hp, PyVal.lift]⟩
  | int n => exact ⟨_, rfl⟩
  | num n => exact ⟨_, rfl⟩
  | add e f ihe ihf =>
    obtain ⟨x, hx⟩ := ihe
    obtain ⟨y, hy⟩ := ihf
    obtain ⟨d, dx⟩ := x.deg_exists
    obtain ⟨d', dy⟩ := y.deg_exists
    obtain ⟨z, hz, _⟩ := PyVal.add_total R (e.run_spec R hx).1 (f.run_spec R hy).1 dx dy
    exact ⟨z, by simp only [Expr.run, bind2, hx, hy, hz]⟩
  | sub e f ihe ihf =>
    obtain ⟨x, hx⟩ := ihe
    obtain ⟨y, hy⟩ := ihf
    obtain ⟨d, dx⟩ := x.deg_exists
    obtain ⟨d', dy⟩ := y.deg_exists
    obtain ⟨z, hz, _⟩ := PyVal.sub_total R (e.run_spec R hx).1 (f.run_spec R hy).1 dx dy
    exact ⟨z, by simp only [Expr.run, bind2, hx, hy, hz]⟩
  | neg e ihe =>
    obtain ⟨x, hx⟩ := ihe
    obtain ⟨d, dx⟩ := x.deg_exists
    obtain ⟨z, hz, _⟩ := PyVal.neg_total R (e.run_spec R hx).1 dx
    exact ⟨z, by simp only [Expr.run, bind1, hx, hz]⟩
  | mul e f ihe ihf =>
    obtain ⟨x, hx⟩ := ihe
    obtain ⟨y, hy⟩ := ihf
    obtain ⟨z, hz⟩ := PyVal.mul_total_tensor R hR (e.run_spec R hx).1 (f.run_spec R hy).1
    exact ⟨z, by simp only [Expr.run, bind2, hx, hy, hz]⟩
  | pow e n ihe =>
    obtain ⟨x, hx⟩ := ihe
    obtain ⟨z, hz⟩ := PyVal.pow_total_tensor R hR (e.run_spec R hx).1 n
    exact ⟨z, by simp only [Expr.run, bind1, hx, hz]⟩

end Gpcm
