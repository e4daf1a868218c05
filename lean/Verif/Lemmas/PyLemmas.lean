import Verif.Model.Py
import Mathlib.Algebra.BigOperators.Group.Finset.Basic
import Mathlib.Algebra.BigOperators.Group.Finset.Piecewise
import Mathlib.Algebra.BigOperators.Group.List.Lemmas
import Mathlib.Data.List.Forall2

/-! # Helper lemmas about exceptions, loops and sets -/

namespace Gpcm

theorem mapE_ok_iff {ε α β : Type} {f : α → Except ε β} {l : List α} {l' : List β} :
    mapE f l = .ok l' ↔ List.Forall₂ (fun a b => f a = .ok b) l l' := by
  induction l generalizing l' with
  | nil =>
    simp only [mapE, List.forall₂_nil_left_iff]
    constructor
    · intro h; cases h; rfl
    · rintro rfl; rfl
  | cons a as ih =>
    simp only [mapE, List.forall₂_cons_left_iff]
    constructor
    · intro h
      split at h
      · cases h
      · rename_i b hb
        split at h
        · cases h
        · rename_i bs hbs
          cases h
          exact ⟨b, bs, hb, ih.1 hbs, rfl⟩
    · rintro ⟨b, bs, hb, hbs, rfl⟩
      rw [hb, ih.2 hbs]

theorem mapE_total {ε α β : Type} {f : α → Except ε β} {l : List α}
    (h : ∀ a ∈ l, ∃ b, f a = .ok b) : ∃ l', mapE f l = .ok l' := by
  induction l with
  | nil => exact ⟨[], rfl⟩
  | cons a as ih =>
    obtain ⟨b, hb⟩ := h a (by simp)
    obtain ⟨bs, hbs⟩ := ih fun x hx => h x (by simp [hx])
    exact ⟨b :: bs, by simp [mapE, hb, hbs]⟩

/-- The mapped list when the body has a closed form. -/
theorem mapE_eq_map {ε α β : Type} {f : α → Except ε β} {g : α → β} {l : List α}
    (h : ∀ a ∈ l, f a = .ok (g a)) : mapE f l = .ok (l.map g) := by
  induction l with
  | nil => rfl
  | cons a as ih =>
    simp [mapE, h a (by simp), ih fun x hx => h x (by simp [hx])]

/-- If `mapE` raises, it raises one of the exceptions of the body. -/
theorem mapE_error {ε α β : Type} {f : α → Except ε β} {l : List α} {e : ε}
    (h : mapE f l = .error e) : ∃ a ∈ l, f a = .error e := by
  induction l with
  | nil => cases h
  | cons a as ih =>
    simp only [mapE] at h
    split at h
    · rename_i e' he
      cases h
      exact ⟨a, by simp, he⟩
    · split at h
      · rename_i e' he
        cases h
        obtain ⟨x, hx, hfx⟩ := ih he
        exact ⟨x, by simp [hx], hfx⟩
      · cases h

theorem mapE_congr {ε α β : Type} {f g : α → Except ε β} {l : List α}
    (h : ∀ a ∈ l, f a = g a) : mapE f l = mapE g l := by
  induction l with
  | nil => rfl
  | cons a as ih =>
    simp only [mapE, h a (by simp), ih fun x hx => h x (by simp [hx])]

theorem foldE_nil {ε α σ : Type} (f : σ → α → Except ε σ) (s : σ) : foldE f s [] = .ok s := rfl

theorem foldE_cons_ok {ε α σ : Type} {f : σ → α → Except ε σ} {s s' : σ} {a : α} {l : List α}
    (h : f s a = .ok s') : foldE f s (a :: l) = foldE f s' l := by
  simp [foldE, h]

/-- Loop invariant rule. -/
theorem foldE_invariant {ε α σ : Type} {f : σ → α → Except ε σ} (P : List α → σ → Prop)
    (hstep : ∀ (done : List α) (s s' : σ) (a : α), P done s → f s a = .ok s' → P (done ++ [a]) s') :
    ∀ (l done : List α) (s t : σ), P done s → foldE f s l = .ok t → P (done ++ l) t := by
  intro l
  induction l with
  | nil => intro done s t h0 h; simp only [foldE] at h; cases h; simpa using h0
  | cons a as ih =>
    intro done s t h0 h
    simp only [foldE] at h
    split at h
    · cases h
    · rename_i s' hs'
      have := ih (done ++ [a]) s' t (hstep done s s' a h0 hs') h
      simpa using this

theorem foldE_append {ε α σ : Type} {f : σ → α → Except ε σ} (l l' : List α) (s : σ) :
    foldE f s (l ++ l') =
      match foldE f s l with
      | .error e => .error e
      | .ok t => foldE f t l' := by
  induction l generalizing s with
  | nil => rfl
  | cons a as ih =>
    simp only [List.cons_append, foldE]
    split
    · rfl
    · exact ih _

namespace SetOrder

variable (S : SetOrder) {α : Type} [DecidableEq α]

theorem nodup (l : List α) : (S.ord l).Nodup := (S.perm l).nodup_iff.2 (List.nodup_dedup l)

theorem mem_iff {l : List α} {a : α} : a ∈ S.ord l ↔ a ∈ l := by
  rw [(S.perm l).mem_iff, List.mem_dedup]

theorem toFinset (l : List α) : (S.ord l).toFinset = l.toFinset := by
  ext a; simp [S.mem_iff]

theorem perm_of_nodup {l : List α} (h : l.Nodup) : (S.ord l).Perm l := by
  simpa [h.dedup] using S.perm l

theorem ord_nil : S.ord ([] : List α) = [] := by
  simpa using S.perm ([] : List α)

theorem length_le (l : List α) : (S.ord l).length ≤ l.length := by
  rw [(S.perm l).length_eq]; exact (List.dedup_sublist l).length_le

end SetOrder

/-- The trivial set order: first occurrences dropped, as in `List.dedup`. Used in examples. -/
def SetOrder.dedup : SetOrder where
  ord l := l.dedup
  perm _ := List.Perm.refl _

/-- The reversed set order. Used in examples. -/
def SetOrder.reversed : SetOrder where
  ord l := l.dedup.reverse
  perm _ := List.reverse_perm _

/-- Grouping by a key and multiplying the groups gives the product of everything. -/
theorem prod_groups {M α β : Type} [CommMonoid M] [DecidableEq β] (k : α → β) (g : α → M)
    (l : List α) (S : Finset β) (hS : ∀ a ∈ l, k a ∈ S) :
    ∏ b ∈ S, ((l.filter fun a => k a = b).map g).prod = (l.map g).prod := by
  induction l with
  | nil => simp
  | cons a as ih =>
    have h1 : ∀ b ∈ S, (((a :: as).filter fun a => k a = b).map g).prod =
        (if k a = b then g a else 1) * ((as.filter fun a => k a = b).map g).prod := by
      intro b _
      by_cases h : k a = b <;> simp [h]
    rw [Finset.prod_congr rfl h1, Finset.prod_mul_distrib, ih fun x hx => hS x (by simp [hx]),
      Finset.prod_ite_eq]
    simp [hS a (by simp)]

/-- Additive version of `prod_groups`. -/
theorem sum_groups {M α β : Type} [AddCommMonoid M] [DecidableEq β] (k : α → β) (g : α → M)
    (l : List α) (S : Finset β) (hS : ∀ a ∈ l, k a ∈ S) :
    ∑ b ∈ S, ((l.filter fun a => k a = b).map g).sum = (l.map g).sum := by
  induction l with
  | nil => simp
  | cons a as ih =>
    have h1 : ∀ b ∈ S, (((a :: as).filter fun a => k a = b).map g).sum =
        (if k a = b then g a else 0) + ((as.filter fun a => k a = b).map g).sum := by
      intro b _
      by_cases h : k a = b <;> simp [h]
    rw [Finset.sum_congr rfl h1, Finset.sum_add_distrib, ih fun x hx => hS x (by simp [hx]),
      Finset.sum_ite_eq]
    simp [hS a (by simp)]

theorem SetOrder.prod_groups (S : SetOrder) {M α β : Type} [CommMonoid M] [DecidableEq β]
    (k : α → β) (g : α → M) (l : List α) :
    ((S.ord (l.map k)).map fun b => ((l.filter fun a => k a = b).map g).prod).prod =
      (l.map g).prod := by
  rw [← List.prod_toFinset _ (S.nodup _)]
  exact Gpcm.prod_groups k g l _ fun a ha => by
    rw [List.mem_toFinset, S.mem_iff]; exact List.mem_map_of_mem ha

theorem SetOrder.sum_groups (S : SetOrder) {M α β : Type} [AddCommMonoid M] [DecidableEq β]
    (k : α → β) (g : α → M) (l : List α) :
    ((S.ord (l.map k)).map fun b => ((l.filter fun a => k a = b).map g).sum).sum =
      (l.map g).sum := by
  rw [← List.sum_toFinset _ (S.nodup _)]
  exact Gpcm.sum_groups k g l _ fun a ha => by
    rw [List.mem_toFinset, S.mem_iff]; exact List.mem_map_of_mem ha

end Gpcm
