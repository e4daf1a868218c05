import Verif.Model.Rounding
import Mathlib.Algebra.BigOperators.Group.List.Basic
import Mathlib.Algebra.Order.BigOperators.Group.List
import Mathlib.Analysis.SpecialFunctions.Exp
import Mathlib.Algebra.Order.Chebyshev
import Mathlib.Algebra.BigOperators.Fin
import Mathlib.Tactic.Linarith
import Mathlib.Tactic.Positivity
import Mathlib.Tactic.FieldSimp
import Mathlib.Tactic.NormNum

/-!
# Property C180: rounding and variances
-/

namespace Gpcm

namespace Spec

/-- The mean of numbers. -/
noncomputable def average (l : List ℝ) : ℝ := l.sum / l.length

/-- The variance of numbers. -/
noncomputable def variance (l : List ℝ) : ℝ := average (l.map fun x => (x - average l) ^ 2)

/-- Every operation has relative error at most `ε`. -/
def RoundsWithin (ε : ℝ) (rnd : ℝ → ℝ) : Prop := ∀ x, |rnd x - x| ≤ ε * |x|

end Spec

namespace Rounding

open Gpcm.Spec

/-! ## Accumulated relative errors -/

/-- `a` is `x` after `k` roundings, relative to the size `X`. -/
def Appr (ε : ℝ) (k : ℕ) (X a x : ℝ) : Prop := |a - x| ≤ ((1 + ε) ^ k - 1) * X ∧ |x| ≤ X

variable {ε : ℝ} {rnd : ℝ → ℝ}

theorem one_le_pow' (hε : 0 ≤ ε) (k : ℕ) : 1 ≤ (1 + ε) ^ k := one_le_pow₀ (by linarith)

theorem Appr.exact {X x : ℝ} (h : |x| ≤ X) : Appr ε 0 X x x := by
  refine ⟨?_, h⟩
  simp

theorem Appr.size {k : ℕ} {X a x : ℝ} (h : Appr ε k X a x) : |a| ≤ (1 + ε) ^ k * X := by
  have h1 : |a| ≤ |a - x| + |x| := by
    have := abs_add_le (a - x) x
    simpa using this
  have := h.1
  have := h.2
  nlinarith

theorem Appr.nonneg {k : ℕ} {X a x : ℝ} (h : Appr ε k X a x) : 0 ≤ X := (abs_nonneg _).trans h.2

theorem Appr.mono (hε : 0 ≤ ε) {j k : ℕ} (hjk : j ≤ k) {X a x : ℝ} (h : Appr ε j X a x) : Appr ε k X a x := by
  refine ⟨h.1.trans ?_, h.2⟩
  have : (1 + ε) ^ j ≤ (1 + ε) ^ k := pow_le_pow_right₀ (by linarith) hjk
  exact mul_le_mul_of_nonneg_right (by linarith) h.nonneg

theorem Appr.round (hr : RoundsWithin ε rnd) (hε : 0 ≤ ε) {k : ℕ} {X a x : ℝ} (h : Appr ε k X a x) :
    Appr ε (k + 1) X (rnd a) x := by
  refine ⟨?_, h.2⟩
  have h1 := hr a
  have h2 := mul_le_mul_of_nonneg_left h.size hε
  have h3 : |rnd a - x| ≤ |rnd a - a| + |a - x| := by
    have := abs_add_le (rnd a - a) (a - x)
    simpa using this
  have := h.1
  rw [pow_succ]
  linarith

theorem Appr.add {k : ℕ} {X Y a b x y : ℝ} (h : Appr ε k X a x) (h' : Appr ε k Y b y) : Appr ε k (X + Y) (a + b) (x + y) := by
  constructor
  · have : a + b - (x + y) = (a - x) + (b - y) := by ring
    rw [this]
    have := abs_add_le (a - x) (b - y)
    have := h.1
    have := h'.1
    linarith
  · have := abs_add_le x y
    have := h.2
    have := h'.2
    linarith

theorem Appr.sub {k : ℕ} {X Y a b x y : ℝ} (h : Appr ε k X a x) (h' : Appr ε k Y b y) : Appr ε k (X + Y) (a - b) (x - y) := by
  have h2 : Appr ε k Y (-b) (-y) := by
    refine ⟨?_, by rw [abs_neg]; exact h'.2⟩
    rw [show -b - -y = -(b - y) by ring, abs_neg]
    exact h'.1
  simpa [sub_eq_add_neg] using h.add h2

theorem Appr.mul (hε : 0 ≤ ε) {j k : ℕ} {X Y a b x y : ℝ} (h : Appr ε j X a x) (h' : Appr ε k Y b y) :
    Appr ε (j + k) (X * Y) (a * b) (x * y) := by
  have hX := h.nonneg
  have hY := h'.nonneg
  constructor
  · have e : a * b - x * y = a * (b - y) + (a - x) * y := by ring
    rw [e]
    have h1 := abs_add_le (a * (b - y)) ((a - x) * y)
    rw [abs_mul, abs_mul] at h1
    have h2 : |a| * |b - y| ≤ ((1 + ε) ^ j * X) * (((1 + ε) ^ k - 1) * Y) :=
      mul_le_mul h.size h'.1 (abs_nonneg _) (by have := one_le_pow' hε j; positivity)
    have h3 : |a - x| * |y| ≤ (((1 + ε) ^ j - 1) * X) * Y :=
      mul_le_mul h.1 h'.2 (abs_nonneg _) (mul_nonneg (by linarith [one_le_pow' hε j]) hX)
    rw [pow_add]
    linarith
  · rw [abs_mul]
    exact mul_le_mul h.2 h'.2 (abs_nonneg _) hX

theorem Appr.div {k : ℕ} {X a x c : ℝ} (h : Appr ε k X a x) (hc : 0 < c) : Appr ε k (X / c) (a / c) (x / c) := by
  constructor
  · rw [← sub_div, abs_div, abs_of_pos hc, mul_div_assoc']
    exact div_le_div_of_nonneg_right h.1 hc.le
  · rw [abs_div, abs_of_pos hc]
    exact div_le_div_of_nonneg_right h.2 hc.le

/-- Errors of the second kind on top of errors of the first. -/
theorem Appr.trans (hε : 0 ≤ ε) {j k : ℕ} {X Y a b x : ℝ} (h : Appr ε j Y a b) (h' : Appr ε k X b x) (hY : Y ≤ (1 + ε) ^ k * X) :
    Appr ε (j + k) X a x := by
  refine ⟨?_, h'.2⟩
  have h1 : |a - x| ≤ |a - b| + |b - x| := by
    have := abs_add_le (a - b) (b - x)
    simpa using this
  have h2 := mul_le_mul_of_nonneg_left hY (show 0 ≤ (1 + ε) ^ j - 1 by linarith [one_le_pow' hε j])
  have := h.1
  have := h'.1
  rw [pow_add]
  linarith

/-! ## Sums -/

theorem leaves_ne (t : Tree) : 1 ≤ t.leaves.length := by
  induction t with
  | leaf x => simp [Tree.leaves]
  | node l r hl hr =>
    simp only [Tree.leaves, List.length_append]
    omega

/-- Adding up, in any order. -/
theorem tree_appr (hr : RoundsWithin ε rnd) (hε : 0 ≤ ε) (t : Tree) :
    Appr ε (t.leaves.length - 1) (t.leaves.map fun x => |x|).sum (t.sum rnd) t.leaves.sum := by
  induction t with
  | leaf x => simpa [Tree.leaves, Tree.sum] using Appr.exact (ε := ε) (le_refl |x|)
  | node l r hl hr' =>
    have h1 := leaves_ne l
    have h2 := leaves_ne r
    have a := (hl.mono hε (k := l.leaves.length + r.leaves.length - 2) (by omega)).add
      (hr'.mono hε (k := l.leaves.length + r.leaves.length - 2) (by omega))
    have b := a.round hr hε
    simp only [Tree.leaves, Tree.sum, List.length_append, List.map_append, List.sum_append]
    rwa [show l.leaves.length + r.leaves.length - 2 + 1 = l.leaves.length + r.leaves.length - 1 by omega] at b

theorem sum_appr (L : Library) (hr : RoundsWithin ε L.rnd) (hε : 0 ≤ ε) {l : List ℝ} (hl : l ≠ []) :
    Appr ε (l.length - 1) (l.map fun x => |x|).sum ((L.tree l).sum L.rnd) l.sum := by
  have hp := L.tree_leaves l hl
  have := tree_appr hr hε (L.tree l)
  rwa [hp.length_eq, hp.sum_eq, (hp.map fun x => |x|).sum_eq] at this

theorem length_pos' {l : List ℝ} (hl : l ≠ []) : (0 : ℝ) < l.length := by exact_mod_cast List.length_pos_iff.2 hl

theorem mean_appr (L : Library) (hr : RoundsWithin ε L.rnd) (hε : 0 ≤ ε) {l : List ℝ} (hl : l ≠ []) :
    Appr ε l.length (average (l.map fun x => |x|)) (L.mean l) (average l) := by
  have h1 := List.length_pos_iff.2 hl
  have := ((sum_appr L hr hε hl).div (length_pos' hl)).round hr hε
  rw [Nat.sub_add_cancel h1] at this
  simpa [average, Library.mean] using this

theorem list_appr {k : ℕ} {l : List ℝ} {f g F : ℝ → ℝ} (h : ∀ x, Appr ε k (F x) (f x) (g x)) :
    Appr ε k (l.map F).sum (l.map f).sum (l.map g).sum := by
  induction l with
  | nil => simp [Appr]
  | cons x l ih => simpa using (h x).add ih

/-! ## Variances -/

theorem average_map_nonneg {l : List ℝ} {f : ℝ → ℝ} (h : ∀ x, 0 ≤ f x) : 0 ≤ average (l.map f) :=
  div_nonneg (List.sum_nonneg fun _ hy => by
    obtain ⟨x, -, rfl⟩ := List.mem_map.1 hy
    exact h x) (Nat.cast_nonneg _)

theorem variance_nonneg (l : List ℝ) : 0 ≤ variance l := average_map_nonneg fun _ => sq_nonneg _

theorem sum_sq_sub (l : List ℝ) (a : ℝ) :
    (l.map fun x => (x - a) ^ 2).sum = (l.map fun x => x ^ 2).sum - 2 * a * l.sum + l.length * a ^ 2 := by
  induction l with
  | nil => simp
  | cons x l ih =>
    simp only [List.map_cons, List.sum_cons, List.length_cons, ih]
    push_cast
    ring

theorem variance_eq {l : List ℝ} (hl : l ≠ []) : variance l = average (l.map fun x => x ^ 2) - average l ^ 2 := by
  have := length_pos' hl
  simp only [variance, average, sum_sq_sub, List.length_map]
  field_simp
  ring

theorem average_abs_sq {l : List ℝ} (hl : l ≠ []) : average (l.map fun x => |x|) ^ 2 ≤ average (l.map fun x => x ^ 2) := by
  have h := variance_nonneg (l.map fun x => |x|)
  rw [variance_eq (by simpa using hl), List.map_map] at h
  have e : ((fun x : ℝ => x ^ 2) ∘ fun x => |x|) = fun x => x ^ 2 := funext fun x => sq_abs x
  rw [e] at h
  linarith

theorem sq_appr (L : Library) (hr : RoundsWithin ε L.rnd) (hε : 0 ≤ ε) (x : ℝ) : Appr ε 1 (x ^ 2) (L.sq x) (x ^ 2) := by
  have h : Appr ε 0 (x ^ 2) (x * x) (x ^ 2) := by
    rw [← sq]
    exact Appr.exact (abs_of_nonneg (sq_nonneg x)).le
  exact h.round hr hε

theorem mean_sq_appr (L : Library) (hr : RoundsWithin ε L.rnd) (hε : 0 ≤ ε) {l : List ℝ} (hl : l ≠ []) :
    Appr ε (l.length + 1) (average (l.map fun x => x ^ 2)) (L.mean (l.map L.sq)) (average (l.map fun x => x ^ 2)) := by
  have h1 := mean_appr L hr hε (l := l.map L.sq) (by simpa using hl)
  have h2 := (list_appr (l := l) fun x => sq_appr L hr hε x).div (length_pos' hl)
  rw [List.length_map] at h1
  have h3 : Appr ε 1 (average (l.map fun x => x ^ 2)) (average (l.map L.sq)) (average (l.map fun x => x ^ 2)) := by
    simpa [average] using h2
  refine h1.trans hε h3 ?_
  rw [average, average, List.map_map, List.length_map, List.length_map, mul_div_assoc', ← List.sum_map_mul_left]
  refine div_le_div_of_nonneg_right (List.sum_le_sum fun x _ => ?_) (length_pos' hl).le
  exact (sq_appr L hr hε x).size

/-- **C180** How far the variance of a Fourier feature can be off, for every library with relative errors at most `ε`, whatever the
order in which it adds up. -/
theorem c180_bound_partial (L : Library) (hr : RoundsWithin ε L.rnd) (hε : 0 ≤ ε) {zs : List ℝ} (hz : zs ≠ []) :
    ∃ a v, predictZ L zs = .ok (a, v) ∧ |a - average zs| ≤ ((1 + ε) ^ zs.length - 1) * average (zs.map fun z => |z|) ∧
      |v - variance zs| ≤ ((1 + ε) ^ (2 * zs.length + 2) - 1) * (2 * average (zs.map fun z => z ^ 2)) := by
  refine ⟨_, _, if_neg hz, (mean_appr L hr hε hz).1, ?_⟩
  have h1 := mean_appr L hr hε hz
  have h2 := ((h1.mul hε h1).round hr hε).mono hε (k := 2 * zs.length + 1) (by omega)
  have h3 := (mean_sq_appr L hr hε hz).mono hε (k := 2 * zs.length + 1) (by omega)
  have h4 := ((h3.sub h2).round hr hε).1
  rw [← sq (average zs), ← sq (average (zs.map fun x => |x|)), ← variance_eq hz] at h4
  refine h4.trans ?_
  have h5 := average_abs_sq hz
  have h6 := one_le_pow' hε (2 * zs.length + 1 + 1)
  exact mul_le_mul_of_nonneg_left (by linarith) (by linarith)

/-- **C180** A variance that is large enough compared to the mean square is reported as a positive number. -/
theorem c180_positive_partial (L : Library) (hr : RoundsWithin ε L.rnd) (hε : 0 ≤ ε) {zs : List ℝ} (hz : zs ≠ [])
    (hv : ((1 + ε) ^ (2 * zs.length + 2) - 1) * (2 * average (zs.map fun z => z ^ 2)) < variance zs) :
    ∃ a v, predictZ L zs = .ok (a, v) ∧ 0 < v := by
  obtain ⟨a, v, h, -, hb⟩ := c180_bound_partial L hr hε hz
  refine ⟨a, v, h, ?_⟩
  have := (abs_le.1 hb).1
  linarith

/-- **C180** In double precision, with at most a thousand samples, the reported variance is positive as soon as the standard deviation
is at least a millionth of the root mean square. -/
theorem c180_double_partial (L : Library) (hr : RoundsWithin (2 ^ (-53 : ℤ)) L.rnd) {zs : List ℝ} (hz : zs ≠ []) (hn : zs.length ≤ 1000)
    (hv : 10 ^ (-12 : ℤ) * average (zs.map fun z => z ^ 2) < variance zs) : ∃ a v, predictZ L zs = .ok (a, v) ∧ 0 < v := by
  refine c180_positive_partial L hr (by positivity) hz (lt_of_le_of_lt ?_ hv)
  have hQ : 0 ≤ average (zs.map fun z => z ^ 2) := average_map_nonneg fun _ => sq_nonneg _
  have h1 : ((1 : ℝ) + 2 ^ (-53 : ℤ)) ^ (2 * zs.length + 2) ≤ Real.exp (2002 * 2 ^ (-53 : ℤ)) := by
    calc ((1 : ℝ) + 2 ^ (-53 : ℤ)) ^ (2 * zs.length + 2) ≤ (1 + 2 ^ (-53 : ℤ)) ^ 2002 :=
          pow_le_pow_right₀ (by norm_num) (by omega)
      _ ≤ Real.exp (2 ^ (-53 : ℤ)) ^ 2002 := pow_le_pow_left₀ (by norm_num) (by
          have := Real.add_one_le_exp ((2 : ℝ) ^ (-53 : ℤ))
          linarith) _
      _ = _ := by
        rw [← Real.exp_nat_mul]
        norm_num
  have h2 : Real.exp (2002 * 2 ^ (-53 : ℤ)) ≤ 1 + 2 * (2002 * 2 ^ (-53 : ℤ)) := by
    have := Real.exp_bound_div_one_sub_of_interval (x := 2002 * 2 ^ (-53 : ℤ)) (by positivity) (by norm_num)
    refine this.trans ?_
    rw [div_le_iff₀ (by norm_num)]
    norm_num
  have h3 : (2 : ℝ) * (2 * (2002 * 2 ^ (-53 : ℤ))) ≤ 10 ^ (-12 : ℤ) := by norm_num
  have h4 : (((1 : ℝ) + 2 ^ (-53 : ℤ)) ^ (2 * zs.length + 2) - 1) * 2 ≤ 10 ^ (-12 : ℤ) := by linarith
  have := mul_le_mul_of_nonneg_right h4 hQ
  linarith

/-- **C180** How far the variance of a prediction can be off, given the first and second moments for every sample. So noise that is large
enough compared to the moments keeps it positive. -/
theorem c180_predict_partial (L : Library) (hr : RoundsWithin ε L.rnd) (hε : 0 ≤ ε) {ms : List (ℝ × ℝ)} (hm : ms ≠ []) {noise : ℝ}
    (hn : 0 ≤ noise) :
    ∃ a v, predict L noise ms = .ok (a, v) ∧ |v - (average (ms.map Prod.snd) - average (ms.map Prod.fst) ^ 2 + noise)| ≤
      ((1 + ε) ^ (2 * ms.length + 3) - 1) *
        (average ((ms.map Prod.snd).map fun x => |x|) + average ((ms.map Prod.fst).map fun x => |x|) ^ 2 + noise) := by
  refine ⟨_, _, if_neg hm, ?_⟩
  have h1 := mean_appr L hr hε (l := ms.map Prod.fst) (by simpa using hm)
  have h2 := mean_appr L hr hε (l := ms.map Prod.snd) (by simpa using hm)
  rw [List.length_map] at h1 h2
  have h3 := ((h1.mul hε h1).round hr hε).mono hε (k := 2 * ms.length + 1) (by omega)
  have h4 := ((h2.mono hε (k := 2 * ms.length + 1) (by omega)).sub h3).round hr hε
  have h5 : Appr ε (2 * ms.length + 1 + 1) noise noise noise :=
    (Appr.exact (abs_of_nonneg hn).le).mono hε (Nat.zero_le _)
  have h6 := ((h4.add h5).round hr hε).1
  rw [← sq (average (ms.map Prod.fst)), ← sq (average ((ms.map Prod.fst).map fun x => |x|))] at h6
  exact h6

/-- **C180** The variances of summaries are never negative: they are averages of squares, whatever the rounding. -/
theorem c180_summary_partial (L : Library) (hr : RoundsWithin ε L.rnd) (hε : ε ≤ 1) (xs : List ℝ) (hx : xs ≠ []) :
    0 ≤ summaryVar L xs := by
  have hpos : ∀ x, 0 ≤ x → 0 ≤ L.rnd x := fun x hx => by
    have := (abs_le.1 (hr x)).1
    rw [abs_of_nonneg hx] at this
    nlinarith
  have hsum : ∀ t : Tree, (∀ x ∈ t.leaves, 0 ≤ x) → 0 ≤ t.sum L.rnd := by
    intro t
    induction t with
    | leaf x =>
      intro h
      exact h x (by simp [Tree.leaves])
    | node l r hl hr =>
      intro h
      refine hpos _ (add_nonneg (hl fun x hx => h x ?_) (hr fun x hx => h x ?_)) <;> simp [Tree.leaves, hx]
  refine hpos _ (div_nonneg (hsum _ fun x hx' => ?_) (Nat.cast_nonneg _))
  have := (L.tree_leaves (xs.map fun x => L.sq (L.rnd (x - L.mean xs))) (by simpa using hx)).mem_iff.1 hx'
  obtain ⟨y, -, rfl⟩ := List.mem_map.1 this
  exact hpos _ (mul_self_nonneg _)

/-! ## Binary floating-point numbers -/

theorem nearestEven_le (y : ℝ) : |(nearestEven y : ℝ) - y| ≤ 1 / 2 := by
  have h1 := Int.floor_le y
  have h2 := Int.lt_floor_add_one y
  unfold nearestEven
  split_ifs with a b c
  · rw [abs_le]; constructor <;> linarith
  · push_cast
    rw [abs_le]; constructor <;> linarith
  · rw [abs_le]; constructor <;> linarith
  · push_cast
    rw [abs_le]; constructor <;> linarith

/-- Rounding to `p` bits has relative error at most `2 ^ (-p)`. -/
theorem roundBits_within (p : ℕ) : RoundsWithin (2 ^ (-p : ℤ)) (roundBits p) := by
  intro x
  have hu : 0 < ulp p x := by unfold ulp; positivity
  have e : roundBits p x - x = ((nearestEven (x / ulp p x) : ℝ) - x / ulp p x) * ulp p x := by
    rw [sub_mul, div_mul_cancel₀ _ hu.ne']
    rfl
  rw [e, abs_mul, abs_of_pos hu]
  rcases eq_or_ne x 0 with rfl | hx
  · simp [nearestEven]
  have hlog : (2 : ℝ) ^ Int.log 2 |x| ≤ |x| := by
    have := Int.zpow_log_le_self (b := 2) (R := ℝ) (r := |x|) (by norm_num) (abs_pos.2 hx)
    simpa using this
  calc _ ≤ 1 / 2 * ulp p x := mul_le_mul_of_nonneg_right (nearestEven_le _) hu.le
    _ = 2 ^ (-p : ℤ) * 2 ^ Int.log 2 |x| := by
      unfold ulp
      rw [show (Int.log 2 |x| - p + 1 : ℤ) = -p + Int.log 2 |x| + 1 by ring, zpow_add₀ (by norm_num), zpow_add₀ (by norm_num)]
      norm_num
      ring
    _ ≤ _ := mul_le_mul_of_nonneg_left hlog (by positivity)

theorem leftTree_leaves (l : List ℝ) (hl : l ≠ []) : (leftTree l).leaves.Perm l := by
  obtain ⟨x, xs, rfl⟩ := List.exists_cons_of_ne_nil hl
  have : ∀ (t : Tree) (ys : List ℝ), (ys.foldl (fun t y => .node t (.leaf y)) t).leaves = t.leaves ++ ys := by
    intro t ys
    induction ys generalizing t with
    | nil => simp
    | cons y ys ih => simp [ih, Tree.leaves]
  simp [leftTree, this, Tree.leaves]

/-- Double precision, adding from left to right. -/
noncomputable def double : Library := ⟨roundBits 53, leftTree, leftTree_leaves⟩

theorem roundBits_eq (p : ℕ) (e : ℤ) {x : ℝ} (h1 : 2 ^ e ≤ |x|) (h2 : |x| < 2 ^ (e + 1)) :
    roundBits p x = nearestEven (x / 2 ^ (e - p + 1)) * 2 ^ (e - p + 1) := by
  have hx : 0 < |x| := lt_of_lt_of_le (by positivity) h1
  have h3 : e ≤ Int.log 2 |x| := by
    have := (Int.zpow_le_iff_le_log (b := 2) (R := ℝ) (by norm_num) (x := e) hx).1 (by simpa using h1)
    exact this
  have h4 : Int.log 2 |x| < e + 1 := by
    have := (Int.lt_zpow_iff_log_lt (b := 2) (R := ℝ) (by norm_num) (x := e + 1) hx).1 (by simpa using h2)
    exact this
  have : Int.log 2 |x| = e := by omega
  rw [roundBits, ulp, this]

theorem nearestEven_below {y : ℝ} {n : ℤ} (h1 : n ≤ y) (h2 : y < n + 1 / 2) : nearestEven y = n := by
  have : ⌊y⌋ = n := Int.floor_eq_iff.2 ⟨h1, by linarith⟩
  unfold nearestEven
  rw [this, if_pos (by linarith)]

theorem nearestEven_half {y : ℝ} {n : ℤ} (h : y = n + 1 / 2) (hn : ¬ Even n) : nearestEven y = n + 1 := by
  have : ⌊y⌋ = n := Int.floor_eq_iff.2 ⟨by linarith, by linarith⟩
  unfold nearestEven
  rw [this, if_neg (by linarith), if_neg (by linarith), if_neg hn]

theorem double_sum : roundBits 53 (1 + 2 ^ (-52 : ℤ) + (1 + 2 ^ (-51 : ℤ))) = 2 + 2 ^ (-50 : ℤ) := by
  rw [roundBits_eq 53 1 (by norm_num) (by norm_num), nearestEven_half (n := 2 ^ 52 + 1) (by norm_num) (by decide)]
  norm_num

theorem double_sq_a : roundBits 53 ((1 + 2 ^ (-52 : ℤ)) * (1 + 2 ^ (-52 : ℤ))) = 1 + 2 ^ (-51 : ℤ) := by
  rw [roundBits_eq 53 0 (by norm_num) (by norm_num), nearestEven_below (n := 2 ^ 52 + 2) (by norm_num) (by norm_num)]
  norm_num

theorem double_sq_b : roundBits 53 ((1 + 2 ^ (-51 : ℤ)) * (1 + 2 ^ (-51 : ℤ))) = 1 + 2 ^ (-50 : ℤ) := by
  rw [roundBits_eq 53 0 (by norm_num) (by norm_num), nearestEven_below (n := 2 ^ 52 + 4) (by norm_num) (by norm_num)]
  norm_num

theorem double_half_sum : roundBits 53 ((2 + 2 ^ (-50 : ℤ)) / 2) = 1 + 2 ^ (-51 : ℤ) := by
  rw [roundBits_eq 53 0 (by norm_num) (by norm_num), nearestEven_below (n := 2 ^ 52 + 2) (by norm_num) (by norm_num)]
  norm_num

theorem double_sum_sq : roundBits 53 (1 + 2 ^ (-51 : ℤ) + (1 + 2 ^ (-50 : ℤ))) = 2 + 3 * 2 ^ (-51 : ℤ) := by
  rw [roundBits_eq 53 1 (by norm_num) (by norm_num), nearestEven_below (n := 2 ^ 52 + 3) (by norm_num) (by norm_num)]
  norm_num

theorem double_half_sum_sq : roundBits 53 ((2 + 3 * 2 ^ (-51 : ℤ)) / 2) = 1 + 3 * 2 ^ (-52 : ℤ) := by
  rw [roundBits_eq 53 0 (by norm_num) (by norm_num), nearestEven_below (n := 2 ^ 52 + 3) (by norm_num) (by norm_num)]
  norm_num

theorem double_diff : roundBits 53 (1 + 3 * 2 ^ (-52 : ℤ) - (1 + 2 ^ (-50 : ℤ))) = -2 ^ (-52 : ℤ) := by
  rw [roundBits_eq 53 (-52) (by norm_num) (by norm_num), nearestEven_below (n := -2 ^ 52) (by norm_num) (by norm_num)]
  norm_num

/-- Mean and variance in double precision for the moments of two samples. -/
theorem double_mean : double.mean [1 + 2 ^ (-52 : ℤ), 1 + 2 ^ (-51 : ℤ)] = 1 + 2 ^ (-51 : ℤ) ∧
    double.mean [1 + 2 ^ (-51 : ℤ), 1 + 2 ^ (-50 : ℤ)] = 1 + 3 * 2 ^ (-52 : ℤ) := by
  constructor
  · show roundBits 53 (roundBits 53 _ / ((2 : ℕ) : ℝ)) = _
    rw [show (((2 : ℕ) : ℝ)) = 2 by norm_num]
    show roundBits 53 (roundBits 53 (1 + 2 ^ (-52 : ℤ) + (1 + 2 ^ (-51 : ℤ))) / 2) = _
    rw [double_sum, double_half_sum]
  · show roundBits 53 (roundBits 53 _ / ((2 : ℕ) : ℝ)) = _
    rw [show (((2 : ℕ) : ℝ)) = 2 by norm_num]
    show roundBits 53 (roundBits 53 (1 + 2 ^ (-51 : ℤ) + (1 + 2 ^ (-50 : ℤ))) / 2) = _
    rw [double_sum_sq, double_half_sum_sq]

/-- **C180 is false**: in double precision, `predict_fourier` can report a negative variance for samples whose variance is positive, and
`predict` can report a negative variance for an observation, although the noise is positive and no second moment is below the
square of the first by more than its rounding error. -/
theorem c180_false :
    (∃ zs : List ℝ, 0 < variance zs ∧ ∃ a v, predictZ double zs = .ok (a, v) ∧ v < 0) ∧
      ∃ (ms : List (ℝ × ℝ)) (noise : ℝ), 0 < noise ∧ (∀ p ∈ ms, p.2 = double.sq p.1) ∧
        ∃ a v, predict double noise ms = .ok (a, v) ∧ v < 0 := by
  have ha : double.sq (1 + 2 ^ (-52 : ℤ)) = 1 + 2 ^ (-51 : ℤ) := double_sq_a
  have hb : double.sq (1 + 2 ^ (-51 : ℤ)) = 1 + 2 ^ (-50 : ℤ) := double_sq_b
  constructor
  · refine ⟨[1 + 2 ^ (-52 : ℤ), 1 + 2 ^ (-51 : ℤ)], ?_, _, _, if_neg (by simp), ?_⟩
    · simp [variance, average]
      norm_num
    · simp only [List.map_cons, List.map_nil, ha, hb, double_mean.1, double_mean.2]
      show roundBits 53 _ < 0
      rw [double_diff]
      norm_num
  · refine ⟨[(1 + 2 ^ (-52 : ℤ), 1 + 2 ^ (-51 : ℤ)), (1 + 2 ^ (-51 : ℤ), 1 + 2 ^ (-50 : ℤ))], 2 ^ (-60 : ℤ), by positivity, ?_, _, _,
      if_neg (by simp), ?_⟩
    · intro p hp
      simp only [List.mem_cons, List.not_mem_nil, or_false] at hp
      rcases hp with rfl | rfl
      · exact ha.symm
      · exact hb.symm
    · simp only [List.map_cons, List.map_nil, hb, double_mean.1, double_mean.2]
      show roundBits 53 (roundBits 53 _ + _) < 0
      rw [double_diff]
      have h := (abs_le.1 (roundBits_within 53 (-2 ^ (-52 : ℤ) + 2 ^ (-60 : ℤ)))).2
      have h2 : (2 : ℝ) ^ (-(53 : ℕ) : ℤ) * |(-2 ^ (-52 : ℤ) + 2 ^ (-60 : ℤ) : ℝ)| < 2 ^ (-52 : ℤ) - 2 ^ (-60 : ℤ) := by norm_num
      linarith

/-- The hypotheses of the theorems can be met in double precision. -/
example : ∃ a v, predictZ double [1, 2, 4] = .ok (a, v) ∧ 0 < v := by
  refine c180_double_partial double (roundBits_within 53) (by simp) (by simp) ?_
  simp [variance, average]
  norm_num

example : 0 ≤ summaryVar double [1 + 2 ^ (-52 : ℤ), 1 + 2 ^ (-51 : ℤ)] :=
  c180_summary_partial double (roundBits_within 53) (by norm_num) _ (by simp)

end Rounding

end Gpcm
