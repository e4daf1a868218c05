import Verif.Lemmas.UtilLemmas
import Mathlib.RingTheory.RootsOfUnity.Complex
import Mathlib.Algebra.Field.GeomSum

/-! # Helper lemmas about the discrete Fourier transform -/

open Real ComplexConjugate

namespace Gpcm.Util

variable {N : ℕ}

/-- The primitive root of unity `exp(2πi/N)`. -/
noncomputable def om (N : ℕ) : ℂ := Complex.exp (2 * π * Complex.I / N)

theorem om_ne_zero (N : ℕ) : om N ≠ 0 := Complex.exp_ne_zero _

theorem om_pow_N [NeZero N] : om N ^ N = 1 := (Complex.isPrimitiveRoot_exp N (NeZero.ne N)).pow_eq_one

theorem om_pow_mod [NeZero N] (m : ℕ) : om N ^ (m % N) = om N ^ m := by
  conv_rhs => rw [← Nat.mod_add_div m N, pow_add, pow_mul, om_pow_N, one_pow, mul_one]

theorem om_inj [NeZero N] {i j : Fin N} (h : om N ^ (i : ℕ) = om N ^ (j : ℕ)) : i = j :=
  Fin.ext ((Complex.isPrimitiveRoot_exp N (NeZero.ne N)).pow_inj i.2 j.2 h)

theorem conj_om (N : ℕ) : conj (om N) = (om N)⁻¹ := by
  unfold om
  rw [← Complex.exp_conj, ← Complex.exp_neg]
  congr 1
  simp [neg_div, Complex.conj_ofNat]

theorem exp_pos_eq (j f : ℕ) : Complex.exp (2 * π * Complex.I * j * f / N) = om N ^ (j * f) := by
  unfold om
  rw [← Complex.exp_nat_mul]
  congr 1
  push_cast
  ring

theorem exp_neg_eq (j f : ℕ) :
    Complex.exp (-2 * π * Complex.I * j * f / N) = ((om N)⁻¹) ^ (j * f) := by
  rw [inv_pow, ← exp_pos_eq, ← Complex.exp_neg]
  congr 1
  ring

theorem fft_eq (x : Fin N → ℂ) (f : Fin N) :
    fft x f = ∑ j, x j * ((om N)⁻¹) ^ ((j : ℕ) * (f : ℕ)) := by
  unfold fft
  simp only [exp_neg_eq]

theorem ifft_eq (x : Fin N → ℂ) (j : Fin N) :
    ifft x j = (∑ f, x f * om N ^ ((j : ℕ) * (f : ℕ))) / N := by
  unfold ifft
  simp only [exp_pos_eq]

/-- Orthogonality. -/
theorem om_sum [NeZero N] (f g : Fin N) :
    ∑ j : Fin N, om N ^ ((j : ℕ) * (f : ℕ)) * ((om N)⁻¹) ^ ((j : ℕ) * (g : ℕ)) =
      if f = g then (N : ℂ) else 0 := by
  have h0 := om_ne_zero N
  have e : ∀ j : Fin N, om N ^ ((j : ℕ) * (f : ℕ)) * ((om N)⁻¹) ^ ((j : ℕ) * (g : ℕ)) =
      (om N ^ (f : ℕ) * ((om N)⁻¹) ^ (g : ℕ)) ^ (j : ℕ) := by
    intro j
    rw [mul_pow, ← pow_mul, ← pow_mul, mul_comm (f : ℕ), mul_comm (g : ℕ)]
  simp only [e]
  by_cases h : f = g
  · subst h
    have : om N ^ (f : ℕ) * ((om N)⁻¹) ^ (f : ℕ) = 1 := by
      rw [← mul_pow, mul_inv_cancel₀ h0, one_pow]
    simp only [this, one_pow]
    simp
  · rw [if_neg h]
    set z := om N ^ (f : ℕ) * ((om N)⁻¹) ^ (g : ℕ) with hz
    have hz1 : z ≠ 1 := by
      intro hc
      apply h
      apply om_inj
      rw [hz, inv_pow] at hc
      exact (mul_inv_eq_one₀ (pow_ne_zero _ h0)).1 hc
    have hzN : z ^ N = 1 := by
      rw [hz, mul_pow, ← pow_mul, ← pow_mul, mul_comm (f : ℕ), mul_comm (g : ℕ), pow_mul, pow_mul,
        inv_pow, om_pow_N]
      simp
    rw [Fin.sum_univ_eq_sum_range (fun j => z ^ j), geom_sum_eq hz1, hzN, sub_self, zero_div]

theorem fft_ifft [NeZero N] (x : Fin N → ℂ) (g : Fin N) : fft (ifft x) g = x g := by
  have hN : (N : ℂ) ≠ 0 := Nat.cast_ne_zero.2 (NeZero.ne N)
  rw [fft_eq]
  simp only [ifft_eq]
  have : ∀ j : Fin N, (∑ f, x f * om N ^ ((j : ℕ) * (f : ℕ))) / N * ((om N)⁻¹) ^ ((j : ℕ) * (g : ℕ)) =
      ∑ f, x f / N * (om N ^ ((j : ℕ) * (f : ℕ)) * ((om N)⁻¹) ^ ((j : ℕ) * (g : ℕ))) := by
    intro j
    rw [Finset.sum_div, Finset.sum_mul]
    refine Finset.sum_congr rfl fun f _ => ?_
    ring
  simp only [this]
  rw [Finset.sum_comm]
  simp only [← Finset.mul_sum, om_sum]
  simp [hN]

theorem om_sum' [NeZero N] (j k : Fin N) :
    ∑ f : Fin N, ((om N)⁻¹) ^ ((j : ℕ) * (f : ℕ)) * om N ^ ((k : ℕ) * (f : ℕ)) =
      if j = k then (N : ℂ) else 0 := by
  have := om_sum (N := N) k j
  rw [show (if j = k then (N : ℂ) else 0) = if k = j then (N : ℂ) else 0 by simp [eq_comm], ← this]
  refine Finset.sum_congr rfl fun f _ => ?_
  rw [mul_comm, mul_comm (j : ℕ), mul_comm (k : ℕ)]

theorem ifft_fft [NeZero N] (x : Fin N → ℂ) (k : Fin N) : ifft (fft x) k = x k := by
  have hN : (N : ℂ) ≠ 0 := Nat.cast_ne_zero.2 (NeZero.ne N)
  rw [ifft_eq]
  simp only [fft_eq, Finset.sum_mul]
  rw [Finset.sum_comm]
  simp only [mul_assoc, ← Finset.mul_sum, om_sum']
  simp [hN]

theorem fft_injective [NeZero N] {x y : Fin N → ℂ} (h : ∀ f, fft x f = fft y f) : x = y := by
  funext k
  rw [← ifft_fft x k, ← ifft_fft y k, (funext h : fft x = fft y)]

/-! ### Symmetries -/

theorem om_pow_mul_neg [NeZero N] (j : ℕ) (f : Fin N) :
    om N ^ (j * ((-f : Fin N) : ℕ)) = ((om N)⁻¹) ^ (j * (f : ℕ)) := by
  have h1 : om N ^ ((-f : Fin N) : ℕ) * om N ^ (f : ℕ) = 1 := by
    rw [Fin.val_neg', om_pow_mod, ← pow_add, Nat.sub_add_cancel f.2.le, om_pow_N]
  have h2 : om N ^ ((-f : Fin N) : ℕ) = ((om N)⁻¹) ^ (f : ℕ) := by
    rw [inv_pow]
    exact eq_inv_of_mul_eq_one_left h1
  rw [mul_comm, pow_mul, h2, ← pow_mul, mul_comm]

theorem om_inv_pow_mul_neg [NeZero N] (j : ℕ) (f : Fin N) :
    ((om N)⁻¹) ^ (j * ((-f : Fin N) : ℕ)) = om N ^ (j * (f : ℕ)) := by
  rw [inv_pow, om_pow_mul_neg, inv_pow, inv_inv]

theorem om_pow_neg_mul [NeZero N] (j : Fin N) (f : ℕ) :
    om N ^ (((-j : Fin N) : ℕ) * f) = ((om N)⁻¹) ^ ((j : ℕ) * f) := by
  rw [mul_comm, om_pow_mul_neg, mul_comm]

theorem om_inv_pow_neg_mul [NeZero N] (j : Fin N) (f : ℕ) :
    ((om N)⁻¹) ^ (((-j : Fin N) : ℕ) * f) = om N ^ ((j : ℕ) * f) := by
  rw [mul_comm, om_inv_pow_mul_neg, mul_comm]

/-- The spectrum of a real vector is conjugate symmetric. -/
theorem fft_real_neg [NeZero N] (x : Fin N → ℝ) (f : Fin N) :
    fft (fun j => (x j : ℂ)) (-f) = conj (fft (fun j => (x j : ℂ)) f) := by
  rw [fft_eq, fft_eq, map_sum]
  refine Finset.sum_congr rfl fun j _ => ?_
  rw [map_mul, Complex.conj_ofReal, map_pow, map_inv₀, conj_om, inv_inv, om_inv_pow_mul_neg]

/-- The spectrum of a real even vector is real. -/
theorem fft_even_real [NeZero N] {x : Fin N → ℝ} (hx : ∀ j, x (-j) = x j) (f : Fin N) :
    conj (fft (fun j => (x j : ℂ)) f) = fft (fun j => (x j : ℂ)) f := by
  rw [fft_eq, map_sum]
  rw [← Equiv.sum_comp (Equiv.neg (Fin N))]
  refine Finset.sum_congr rfl fun j _ => ?_
  rw [map_mul, Complex.conj_ofReal, map_pow, map_inv₀, conj_om, inv_inv, Equiv.neg_apply, hx,
    om_pow_neg_mul]

/-- The inverse transform of a conjugate symmetric vector is real. -/
theorem ifft_symm_real [NeZero N] {S : Fin N → ℂ} (hS : ∀ f, S (-f) = conj (S f)) (j : Fin N) :
    ((ifft S j).re : ℂ) = ifft S j := by
  rw [← Complex.conj_eq_iff_re, ifft_eq, map_div₀, map_sum, Complex.conj_natCast]
  congr 1
  rw [← Equiv.sum_comp (Equiv.neg (Fin N))]
  refine Finset.sum_congr rfl fun f _ => ?_
  rw [map_mul, Equiv.neg_apply, hS, Complex.conj_conj, map_pow, conj_om, om_inv_pow_mul_neg]

theorem conj_hilbertGain (N f : ℕ) : conj (hilbertGain N f) = hilbertGain N f := by
  unfold hilbertGain
  split_ifs <;> simp [Complex.conj_ofNat]

/-- The analytic signal of an even vector is conjugate symmetric. -/
theorem hilbert_neg [NeZero N] {x : Fin N → ℝ} (hx : ∀ j, x (-j) = x j) (j : Fin N) :
    hilbert x (-j) = conj (hilbert x j) := by
  unfold hilbert
  rw [ifft_eq, ifft_eq, map_div₀, map_sum, Complex.conj_natCast]
  congr 1
  refine Finset.sum_congr rfl fun f _ => ?_
  rw [map_mul, map_mul, fft_even_real hx, conj_hilbertGain, map_pow, conj_om, om_pow_neg_mul]

/-- Conjugating an inverse transform. -/
theorem conj_ifft_eq [NeZero N] (S : Fin N → ℂ) (j : Fin N) :
    conj (ifft S j) = ifft (fun f => conj (S (-f))) j := by
  rw [ifft_eq, ifft_eq, map_div₀, map_sum, Complex.conj_natCast]
  congr 1
  rw [← Equiv.sum_comp (Equiv.neg (Fin N))]
  refine Finset.sum_congr rfl fun f _ => ?_
  rw [map_mul, Equiv.neg_apply, map_pow, conj_om, om_inv_pow_mul_neg]

theorem ifft_conj [NeZero N] (a : Fin N → ℂ) (n : Fin N) : ifft (fun f => conj (a f)) n = conj (fft a n) / N := by
  rw [ifft_eq, fft_eq, map_sum]
  congr 1
  refine Finset.sum_congr rfl fun f _ => ?_
  rw [map_mul, map_pow, map_inv₀, conj_om, inv_inv, mul_comm (n : ℕ)]

theorem hilbertGain_add [NeZero N] (f : Fin N) : hilbertGain N (f : ℕ) + hilbertGain N ((-f : Fin N) : ℕ) = 2 := by
  have hN := NeZero.pos N
  have hf := f.2
  have e : ((-f : Fin N) : ℕ) = if (f : ℕ) = 0 then 0 else N - f := by
    rw [Fin.val_neg']
    split_ifs with h
    · rw [h, Nat.sub_zero, Nat.mod_self]
    · exact Nat.mod_eq_of_lt (by omega)
  rw [e]
  generalize (f : ℕ) = k at hf
  unfold hilbertGain
  split_ifs <;> first | omega | norm_num

/-- The real part of the analytic signal is the signal. -/
theorem hilbert_add_conj [NeZero N] (x : Fin N → ℝ) (j : Fin N) : hilbert x j + conj (hilbert x j) = 2 * x j := by
  unfold hilbert
  rw [conj_ifft_eq, ← ifft_fft (fun j => (x j : ℂ)) j, ifft_eq, ifft_eq, ifft_eq, ← add_div, ← Finset.sum_add_distrib,
    ← mul_div_assoc, Finset.mul_sum]
  congr 1
  refine Finset.sum_congr rfl fun f _ => ?_
  rw [map_mul, conj_hilbertGain, fft_real_neg, Complex.conj_conj, ← add_mul, ← mul_add, hilbertGain_add]
  ring

/-- Circular autocorrelation. -/
def circ [NeZero N] (x : Fin N → ℝ) (m : Fin N) : ℝ := ∑ j, x j * x (j + m)

theorem om_inv_pow_add [NeZero N] (j m : Fin N) (f : ℕ) :
    ((om N)⁻¹) ^ (((j + m : Fin N) : ℕ) * f) = ((om N)⁻¹) ^ ((j : ℕ) * f) * ((om N)⁻¹) ^ ((m : ℕ) * f) := by
  rw [pow_mul, inv_pow, Fin.val_add, om_pow_mod, pow_add, mul_inv, mul_pow, ← inv_pow, ← inv_pow,
    ← pow_mul, ← pow_mul]

/-- Wiener–Khinchin: the spectrum of the circular autocorrelation is the squared magnitude. -/
theorem fft_circ [NeZero N] (x : Fin N → ℝ) (f : Fin N) :
    fft (fun m => (circ x m : ℂ)) f = (‖fft (fun j => (x j : ℂ)) f‖ : ℂ) ^ 2 := by
  have h1 : (‖fft (fun j => (x j : ℂ)) f‖ : ℂ) ^ 2 =
      conj (fft (fun j => (x j : ℂ)) f) * fft (fun j => (x j : ℂ)) f :=
    (Complex.conj_mul' _).symm
  rw [h1]
  have h2 : conj (fft (fun j => (x j : ℂ)) f) = ∑ j : Fin N, (x j : ℂ) * om N ^ ((j : ℕ) * (f : ℕ)) := by
    rw [fft_eq, map_sum]
    refine Finset.sum_congr rfl fun j _ => ?_
    rw [map_mul, Complex.conj_ofReal, map_pow, map_inv₀, conj_om, inv_inv]
  rw [h2, fft_eq, Finset.sum_mul]
  have h3 : ∀ m : Fin N, (circ x m : ℂ) * ((om N)⁻¹) ^ ((m : ℕ) * (f : ℕ)) =
      ∑ j, (x j : ℂ) * (x (j + m) : ℂ) * ((om N)⁻¹) ^ ((m : ℕ) * (f : ℕ)) := by
    intro m
    unfold circ
    push_cast
    rw [Finset.sum_mul]
  simp only [h3]
  rw [Finset.sum_comm]
  refine Finset.sum_congr rfl fun j _ => ?_
  conv_rhs => rw [fft_eq, ← Equiv.sum_comp (Equiv.addLeft j), Finset.mul_sum]
  refine Finset.sum_congr rfl fun m _ => ?_
  rw [Equiv.coe_addLeft, om_inv_pow_add]
  have h4 : om N ^ ((j : ℕ) * (f : ℕ)) * ((om N)⁻¹) ^ ((j : ℕ) * (f : ℕ)) = 1 := by
    rw [← mul_pow, mul_inv_cancel₀ (om_ne_zero N), one_pow]
  calc (x j : ℂ) * (x (j + m) : ℂ) * ((om N)⁻¹) ^ ((m : ℕ) * (f : ℕ))
      = (x j : ℂ) * (x (j + m) : ℂ) * ((om N)⁻¹) ^ ((m : ℕ) * (f : ℕ)) *
        (om N ^ ((j : ℕ) * (f : ℕ)) * ((om N)⁻¹) ^ ((j : ℕ) * (f : ℕ))) := by rw [h4, mul_one]
    _ = _ := by ring

end Gpcm.Util
