import Mathlib.Analysis.SpecialFunctions.Integrals.Basic
import Verif.Lemmas.FftLemmas
import Mathlib.Tactic.IntervalCases

/-! # Properties C52, C53, C56: `estimate_psd` and `min_phase` -/

open Real ComplexConjugate

namespace Gpcm.Util

/-! ## C56 -/

section MinPhase

variable {N : ℕ} [NeZero N]

theorem norm_spec_neg (h : Fin N → ℝ) (f : Fin N) :
    ‖fft (fun j => (h j : ℂ)) (-f)‖ = ‖fft (fun j => (h j : ℂ)) f‖ := by
  rw [fft_real_neg, Complex.norm_conj]

theorem minPhaseSpec_neg (h : Fin N → ℝ) (f : Fin N) :
    minPhaseSpec h (-f) = conj (minPhaseSpec h f) := by
  unfold minPhaseSpec
  simp only
  rw [map_mul, Complex.conj_ofReal, norm_spec_neg, ← Complex.exp_conj, map_mul, Complex.conj_I,
    Complex.conj_ofReal, hilbert_neg (fun j => by rw [norm_spec_neg])]
  congr 2
  simp

omit [NeZero N] in
theorem norm_minPhaseSpec (h : Fin N → ℝ) (f : Fin N) :
    ‖minPhaseSpec h f‖ = ‖fft (fun j => (h j : ℂ)) f‖ := by
  unfold minPhaseSpec
  simp only
  rw [norm_mul, mul_comm Complex.I, Complex.norm_exp_ofReal_mul_I, mul_one, Complex.norm_real,
    norm_norm]

/-- **C56.** For a real filter whose spectrum has no zero, `min_phase` returns a real filter with the
same magnitude spectrum. -/
theorem c56_magnitude (h : Fin N → ℝ) (hs : ∀ f, fft (fun j => (h j : ℂ)) f ≠ 0) :
    ∃ g, minPhase h = some g ∧
      ∀ f, ‖fft (fun j => (g j : ℂ)) f‖ = ‖fft (fun j => (h j : ℂ)) f‖ := by
  refine ⟨_, if_neg (by push Not; exact hs), fun f => ?_⟩
  have : (fun j => (((ifft (minPhaseSpec h) j).re : ℝ) : ℂ)) = ifft (minPhaseSpec h) :=
    funext fun j => ifft_symm_real (minPhaseSpec_neg h) j
  rw [this, fft_ifft, norm_minPhaseSpec]

/-- **C56.** The circular autocorrelation of the filter, which determines the kernel, is
unchanged. -/
theorem c56_autocorrelation (h : Fin N → ℝ) {g : Fin N → ℝ} (hg : minPhase h = some g) :
    ∀ m, (∑ j, g j * g (j + m)) = ∑ j, h j * h (j + m) := by
  have hs : ∀ f, fft (fun j => (h j : ℂ)) f ≠ 0 := by
    by_contra hc
    push Not at hc
    rw [minPhase, if_pos hc] at hg
    cases hg
  obtain ⟨g', hg', hm⟩ := c56_magnitude h hs
  rw [hg] at hg'
  cases hg'
  have : (fun m => (circ g m : ℂ)) = fun m => (circ h m : ℂ) :=
    fft_injective fun f => by rw [fft_circ, fft_circ, hm]
  intro m
  have h2 := congrFun this m
  have h3 : circ g m = circ h m := by exact_mod_cast h2
  exact h3

/-- **C56.** The transform depends on the magnitude spectrum only, so it is idempotent. -/
theorem c56_idempotent (h : Fin N → ℝ) {g : Fin N → ℝ} (hg : minPhase h = some g) :
    minPhase g = some g := by
  have hs : ∀ f, fft (fun j => (h j : ℂ)) f ≠ 0 := by
    by_contra hc
    push Not at hc
    rw [minPhase, if_pos hc] at hg
    cases hg
  obtain ⟨g', hg', hm⟩ := c56_magnitude h hs
  rw [hg] at hg'
  cases hg'
  have hz : ¬ ∃ f, fft (fun j => (g j : ℂ)) f = 0 := by
    rintro ⟨f, hf⟩
    have := hm f
    rw [hf, norm_zero] at this
    exact hs f (norm_eq_zero.1 this.symm)
  have hspec : minPhaseSpec g = minPhaseSpec h := by
    funext f
    unfold minPhaseSpec
    simp only [hm]
  rw [minPhase, if_neg (by push Not; exact hs)] at hg
  rw [minPhase, if_neg hz, hspec]
  exact hg

/-- **C56.** The result has minimum phase: the logarithm of its spectrum is the spectrum of a real cepstrum
that vanishes at all negative times, which are the indices above `N / 2`. -/
theorem c56_minimum_phase (h : Fin N → ℝ) {g : Fin N → ℝ} (hg : minPhase h = some g) :
    ∃ c : Fin N → ℝ, (∀ n : Fin N, N < 2 * (n : ℕ) → c n = 0) ∧
      ∀ f, fft (fun j => (g j : ℂ)) f = Complex.exp (fft (fun j => (c j : ℂ)) f) := by
  have hs : ∀ f, fft (fun j => (h j : ℂ)) f ≠ 0 := by
    by_contra hc
    push Not at hc
    rw [minPhase, if_pos hc] at hg
    cases hg
  rw [minPhase, if_neg (by push Not; exact hs)] at hg
  obtain rfl := Option.some.inj hg
  obtain ⟨x, hx⟩ : ∃ x : Fin N → ℝ, x = fun f => Real.log ‖fft (fun j => (h j : ℂ)) f‖ := ⟨_, rfl⟩
  have hxe : ∀ j, x (-j) = x j := fun j => by
    rw [hx]
    simp only [norm_spec_neg]
  have hc : ∀ n, (((ifft (fun f => conj (hilbert x f)) n).re : ℝ) : ℂ) = ifft (fun f => conj (hilbert x f)) n :=
    fun n => ifft_symm_real (fun f => by rw [hilbert_neg hxe]) n
  refine ⟨fun n => (ifft (fun f => conj (hilbert x f)) n).re, fun n hn => ?_, fun f => ?_⟩
  · simp only
    have h0 : hilbertGain N n = 0 := by
      have := n.2
      unfold hilbertGain
      split_ifs <;> first | omega | rfl
    rw [ifft_conj]
    unfold hilbert
    rw [fft_ifft, h0]
    simp
  · have e1 : (fun j => (((ifft (minPhaseSpec h) j).re : ℝ) : ℂ)) = ifft (minPhaseSpec h) :=
      funext fun j => ifft_symm_real (minPhaseSpec_neg h) j
    rw [e1, fft_ifft, (funext hc : _ = ifft fun f => conj (hilbert x f)), fft_ifft]
    unfold minPhaseSpec
    simp only
    rw [← hx]
    have e2 : ((‖fft (fun j => (h j : ℂ)) f‖ : ℝ) : ℂ) = Complex.exp (x f : ℂ) := by
      rw [← Complex.ofReal_exp, hx, Real.exp_log (norm_pos_iff.2 (hs f))]
    rw [e2, ← Complex.exp_add]
    congr 1
    have e3 := hilbert_add_conj x f
    have e4 : (hilbert x f).re = x f := by
      have := congrArg Complex.re e3
      simp at this
      linarith
    apply Complex.ext
    · simp [e4]
    · simp

end MinPhase

/-- The filter `2, 1` has no zero in its spectrum. -/
example : ∃ g, minPhase ![2, 1] = some g ∧
    ∀ f, ‖fft (fun j => (g j : ℂ)) f‖ = ‖fft (fun j => ((![2, 1] : Fin 2 → ℝ) j : ℂ)) f‖ := by
  apply c56_magnitude
  have e : Complex.exp (-2 * π * Complex.I * 1 * 1 / 2) = -1 := by
    rw [show (-2 * π * Complex.I * 1 * 1 / 2 : ℂ) = -(π * Complex.I) by ring, Complex.exp_neg,
      Complex.exp_pi_mul_I]
    norm_num
  intro f
  fin_cases f
  · norm_num [fft, Fin.sum_univ_two]
  · have : fft (fun j => ((![2, 1] : Fin 2 → ℝ) j : ℂ)) 1 = 1 := by
      simp only [fft, Fin.sum_univ_two]
      have e' : Complex.exp (-2 * π * Complex.I * ((1 : Fin 2) : ℕ) * ((1 : Fin 2) : ℕ) / (2 : ℕ)) =
          -1 := by
        rw [← e]
        norm_num
      rw [e']
      norm_num
    simp [this]

/-! ## C53 -/

theorem length_symmetrise (k : List ℝ) (nZero : ℕ) (h : 2 ≤ k.length + nZero) :
    (symmetrise k nZero).length = 2 * (k.length + nZero) - 2 := by
  simp [symmetrise]
  omega

/-- The symmetrised kernel, entry by entry. -/
theorem symmetrise_get (k : List ℝ) (nZero : ℕ) {j : ℕ} (hj : j < (symmetrise k nZero).length) :
    (symmetrise k nZero)[j]? =
      (k ++ List.replicate nZero 0)[min j ((symmetrise k nZero).length - j)]? := by
  set k' := k ++ List.replicate nZero 0 with hk'
  have e : symmetrise k nZero = k' ++ (k'.drop 1).dropLast.reverse := rfl
  have hl : (symmetrise k nZero).length = k'.length + (k'.length - 1 - 1) := by
    rw [e]; simp
  rw [hl] at hj ⊢
  rw [e]
  by_cases h1 : j < k'.length
  · rw [List.getElem?_append_left h1]
    congr 1
    omega
  · rw [List.getElem?_append_right (by omega), List.getElem?_reverse (by simp; omega),
      List.getElem?_dropLast, if_pos (by simp; omega), List.getElem?_drop]
    congr 1
    simp
    omega

theorem symmetrise_even (k : List ℝ) (nZero : ℕ) [NeZero (symmetrise k nZero).length]
    (j : Fin (symmetrise k nZero).length) :
    (symmetrise k nZero).get (-j) = (symmetrise k nZero).get j := by
  have h1 := symmetrise_get k nZero j.2
  have h2 := symmetrise_get k nZero (-j).2
  have hj := j.2
  rw [List.getElem?_eq_getElem j.2] at h1
  rw [List.getElem?_eq_getElem (-j).2] at h2
  have h3 : min ((-j : Fin _) : ℕ) ((symmetrise k nZero).length - (-j : Fin _)) =
      min (j : ℕ) ((symmetrise k nZero).length - j) := by
    rw [Fin.val_neg']
    rcases Nat.eq_zero_or_pos (j : ℕ) with h0 | hpos
    · rw [h0]
      simp
    · rw [Nat.mod_eq_of_lt (by omega)]
      omega
  rw [h3, ← h1] at h2
  exact Option.some.inj h2

/-- **C53.** The Fourier transform of the symmetrised kernel is real: taking the real part loses
nothing. -/
theorem c53_real (k : List ℝ) (nZero : ℕ) : ∀ z ∈ rawPsd k nZero, z.im = 0 := by
  intro z hz
  unfold rawPsd at hz
  obtain ⟨f, rfl⟩ := (List.mem_ofFn' _ _).1 hz
  have : NeZero (symmetrise k nZero).length := ⟨fun h => by
    have := f.2
    omega⟩
  exact Complex.conj_eq_iff_im.1 (fft_even_real (symmetrise_even k nZero) f)

/-- **C53.** Averaging the spectrum over all frequencies gives back `k[0]`. -/
theorem c53_total (k0 : ℝ) (ks : List ℝ) (nZero : ℕ) :
    (rawPsd (k0 :: ks) nZero).sum / (rawPsd (k0 :: ks) nZero).length = k0 := by
  unfold rawPsd
  rw [List.sum_ofFn, List.length_ofFn]
  have : NeZero (symmetrise (k0 :: ks) nZero).length := ⟨by simp [symmetrise]⟩
  have h := ifft_fft (fun j => (((symmetrise (k0 :: ks) nZero).get j : ℝ) : ℂ)) 0
  rw [ifft_eq] at h
  simp only [Fin.val_zero, zero_mul, pow_zero, mul_one] at h
  rw [h]
  have h0 : (symmetrise (k0 :: ks) nZero)[0]? = some k0 := by simp [symmetrise]
  have h1 : 0 < (symmetrise (k0 :: ks) nZero).length := Nat.pos_of_ne_zero (NeZero.ne _)
  rw [List.getElem?_eq_getElem h1] at h0
  have h2 := Option.some.inj h0
  rw [List.get_eq_getElem]
  exact_mod_cast h2

theorem length_absPsd (k : List ℝ) (nZero : ℕ) :
    (absPsd k nZero).length = (symmetrise k nZero).length := by simp [absPsd, rawPsd]

theorem fftfreq_nonneg_iff {N i : ℕ} (hi : i < N) : 0 ≤ fftfreq N i ↔ i < (N - 1) / 2 + 1 := by
  unfold fftfreq
  have hN : (0 : ℝ) < N := by exact_mod_cast (by omega : 0 < N)
  split
  · rename_i h
    simp only [h, iff_true]
    positivity
  · rename_i h
    simp only [h, iff_false, not_le]
    have : (i : ℝ) < N := by exact_mod_cast hi
    exact div_neg_of_neg_of_pos (by linarith) hN

theorem filter_range_lt (N m : ℕ) (h : m ≤ N) :
    (List.range N).filter (fun i => decide (i < m)) = List.range m := by
  induction N with
  | zero => simp_all
  | succ N ih =>
    rw [List.range_succ, List.filter_append]
    rcases Nat.lt_or_ge N m with hlt | hge
    · obtain rfl : m = N + 1 := by omega
      have : (List.range N).filter (fun i => decide (i < N + 1)) = List.range N := by
        apply List.filter_eq_self.2
        intro a ha
        have := List.mem_range.1 ha
        simp
        omega
      rw [this, List.range_succ]
      simp
    · rw [ih hge]
      simp [hge]

/-- **C53.** For a positive time step the result consists of the frequencies `i / (N dt)` with
`0 ≤ i ≤ (N-1)/2`, in this order, each paired with the magnitude of the Fourier transform at that
frequency, divided by one common factor. -/
theorem c53_output {t1 k0 : ℝ} {ts ks : List ℝ} (nZero : ℕ) (db : Bool) (ht : 0 < t1) :
    estimatePsd (0 :: t1 :: ts) (k0 :: ks) nZero db =
      .ok ((List.range (((symmetrise (k0 :: ks) nZero).length - 1) / 2 + 1)).map fun i : ℕ =>
        ((i : ℝ) / (symmetrise (k0 :: ks) nZero).length / t1, transform db
          (|((rawPsd (k0 :: ks) nZero).getD i 0).re| / (totalPower (k0 :: ks) nZero t1 / k0)))) := by
  simp only [estimatePsd, ne_eq, not_true_eq_false, if_false, List.cons_append, sub_zero]
  congr 1
  unfold scaledPsd freqs
  rw [length_absPsd]
  set N := (symmetrise (k0 :: ks) nZero).length with hN
  have hNpos : 0 < N := by simp [hN, symmetrise]
  have habs : ((absPsd (k0 :: ks) nZero).map (· / (totalPower (k0 :: ks) nZero t1 / k0))) =
      (List.range N).map fun i =>
        |((rawPsd (k0 :: ks) nZero).getD i 0).re| / (totalPower (k0 :: ks) nZero t1 / k0) := by
    apply List.ext_getElem
    · simp [length_absPsd, hN]
    · intro i h1 h2
      have hi : i < (rawPsd (k0 :: ks) nZero).length := by simpa [absPsd] using h1
      simp only [absPsd, List.getElem_map, List.getElem_range]
      rw [getD_eq _ _ hi]
  rw [habs, List.zip_map', List.map_map, List.filter_map]
  have hfilt : (List.range N).filter ((fun p : ℝ × ℝ => decide (0 ≤ p.1)) ∘
      ((fun p : ℝ × ℝ => (p.1, transform db p.2)) ∘ fun x => (fftfreq N x / t1,
        |((rawPsd (k0 :: ks) nZero).getD x 0).re| / (totalPower (k0 :: ks) nZero t1 / k0)))) =
      List.range ((N - 1) / 2 + 1) := by
    rw [← filter_range_lt N ((N - 1) / 2 + 1) (by omega)]
    refine List.filter_congr fun i hi => ?_
    have hi := List.mem_range.1 hi
    simp only [Function.comp, decide_eq_decide]
    rw [← fftfreq_nonneg_iff hi]
    constructor
    · intro h
      have := mul_nonneg h ht.le
      rwa [div_mul_cancel₀ _ ht.ne'] at this
    · intro h
      exact div_nonneg h ht.le
  rw [hfilt]
  refine List.map_congr_left fun i hi => ?_
  have hi := List.mem_range.1 hi
  simp only [Function.comp, fftfreq, if_pos hi]

/-- **C53.** The returned frequencies are non-negative and strictly increasing. -/
theorem c53_frequencies {t1 k0 : ℝ} {ts ks : List ℝ} {nZero : ℕ} {db : Bool} (ht : 0 < t1)
    {out : List (ℝ × ℝ)} (h : estimatePsd (0 :: t1 :: ts) (k0 :: ks) nZero db = .ok out) :
    (out.map Prod.fst).Pairwise (· < ·) ∧ (∀ p ∈ out, 0 ≤ p.1) ∧ (out.map Prod.fst).head? = some 0 := by
  rw [c53_output nZero db ht] at h
  cases h
  have hN : (0 : ℝ) < (symmetrise (k0 :: ks) nZero).length := by
    have : 0 < (symmetrise (k0 :: ks) nZero).length := by simp [symmetrise]
    exact_mod_cast this
  refine ⟨?_, ?_, ?_⟩
  · rw [List.map_map, List.pairwise_map]
    refine List.pairwise_lt_range.imp fun {i j} hij => ?_
    simp only [Function.comp]
    have : (i : ℝ) < j := by exact_mod_cast hij
    gcongr
  · intro p hp
    obtain ⟨i, _, rfl⟩ := List.mem_map.1 hp
    exact div_nonneg (div_nonneg (Nat.cast_nonneg _) hN.le) ht.le
  · rw [List.range_succ_eq_map]
    simp

/-! ## C52 -/

theorem trapz_const (c : ℝ) : ∀ (xs : List ℝ) (x0 : ℝ) (n : ℕ), n = xs.length →
    trapz (List.replicate (n + 1) c) (x0 :: xs) = c * ((x0 :: xs).getLast (by simp) - x0)
  | [], x0, _, rfl => by simp [trapz]
  | x1 :: xs, x0, n + 1, h => by
    have ih := trapz_const c xs x1 n (by simpa using h)
    have e : (x0 :: x1 :: xs).getLast (by simp) = (x1 :: xs).getLast (by simp) :=
      List.getLast_cons (by simp)
    rw [List.replicate_succ, List.replicate_succ, trapz, ← List.replicate_succ, ih, e]
    ring

theorem trapz_scale (a : ℝ) : ∀ (ys xs : List ℝ), trapz (ys.map (· * a)) xs = trapz ys xs * a
  | [], _ => by simp [trapz]
  | [_], _ => by simp [trapz]
  | _ :: _ :: _, [] => by simp [trapz]
  | _ :: _ :: _, [_] => by simp [trapz]
  | y0 :: y1 :: ys, x0 :: x1 :: xs => by
    have ih := trapz_scale a (y1 :: ys) (x1 :: xs)
    simp only [List.map_cons] at ih ⊢
    rw [trapz, trapz, ih]
    ring

/-- The spectrum of an impulse is flat. -/
theorem fft_impulse (c : ℝ) (p : ℕ) (f : Fin (c :: List.replicate p 0).length) :
    fft (fun j => (((c :: List.replicate p 0).get j : ℝ) : ℂ)) f = c := by
  unfold fft
  rw [Finset.sum_eq_single ⟨0, by simp⟩]
  · simp
  · rintro ⟨j, hj⟩ _ h0
    cases j with
    | zero => exact (h0 rfl).elim
    | succ j => simp
  · simp

/-- The spectrum of white noise is flat. -/
theorem absPsd_white {c : ℝ} (hc : 0 < c) (m nZero : ℕ) :
    absPsd (c :: List.replicate m 0) nZero =
      List.replicate (symmetrise (c :: List.replicate m 0) nZero).length c := by
  have hs : symmetrise (c :: List.replicate m 0) nZero =
      c :: List.replicate (m + nZero + (m + nZero - 1)) 0 := by
    unfold symmetrise
    simp only [List.cons_append, List.replicate_append_replicate, List.drop_one, List.tail_cons,
      List.dropLast_replicate, List.reverse_replicate]
  unfold absPsd rawPsd
  rw [hs, List.eq_replicate_iff]
  refine ⟨by simp, fun b hb => ?_⟩
  obtain ⟨z, hz, rfl⟩ := List.mem_map.1 hb
  obtain ⟨f, rfl⟩ := (List.mem_ofFn' _ _).1 hz
  rw [fft_impulse, Complex.ofReal_re, abs_of_pos hc]

/-- The total power computed for white noise: the frequencies are not sorted, so the trapezoidal rule
telescopes to the last frequency, which is negative. -/
theorem totalPower_white {c dt : ℝ} (hc : 0 < c) (m nZero : ℕ) (h : 1 ≤ m + nZero) :
    totalPower (c :: List.replicate m 0) nZero dt = -c / ((2 * (m + nZero) : ℕ) * dt) := by
  have hN : (symmetrise (c :: List.replicate m 0) nZero).length = 2 * (m + nZero) := by
    rw [length_symmetrise _ _ (by simp; omega)]
    simp
    omega
  unfold totalPower
  rw [absPsd_white hc, hN, List.length_replicate]
  obtain ⟨M, hM⟩ : ∃ M, 2 * (m + nZero) = M + 2 := ⟨2 * (m + nZero) - 2, by omega⟩
  rw [hM]
  unfold freqs
  have e : (List.range (M + 2)).map (fun i => fftfreq (M + 2) i / dt) =
      fftfreq (M + 2) 0 / dt :: (List.range (M + 1)).map fun i => fftfreq (M + 2) (i + 1) / dt := by
    rw [List.range_succ_eq_map]
    simp [Function.comp_def]
  rw [e, trapz_const c _ _ (M + 1) (by simp)]
  have e2 : (fftfreq (M + 2) 0 / dt :: (List.range (M + 1)).map fun i =>
      fftfreq (M + 2) (i + 1) / dt).getLast (by simp) = fftfreq (M + 2) (M + 1) / dt := by
    rw [List.getLast_cons (by simp)]
    simp [List.range_succ]
  rw [e2]
  have f0 : fftfreq (M + 2) 0 = 0 := by simp [fftfreq]
  have f1 : fftfreq (M + 2) (M + 1) = -1 / ((M + 2 : ℕ) : ℝ) := by
    unfold fftfreq
    rw [if_neg (by omega)]
    push_cast
    ring
  rw [f0, f1]
  by_cases hdt : dt = 0
  · simp [hdt]
  · have : ((M + 2 : ℕ) : ℝ) ≠ 0 := by positivity
    field_simp
    ring

/-- **C52 is false**: for a white-noise kernel `c, 0, 0, ...` (of any length, with any padding and
any time step) every returned density is negative. -/
theorem c52_white_false {c t1 : ℝ} (hc : 0 < c) (ht : 0 < t1) (m nZero : ℕ) (h : 1 ≤ m + nZero)
    (ts : List ℝ) : ∃ out, estimatePsd (0 :: t1 :: ts) (c :: List.replicate m 0) nZero false = .ok out ∧
      out ≠ [] ∧ ∀ p ∈ out, p.2 = -(c * t1 * (2 * (m + nZero) : ℕ)) ∧ p.2 < 0 := by
  refine ⟨_, c53_output nZero false ht, by simp, fun p hp => ?_⟩
  obtain ⟨i, hi, rfl⟩ := List.mem_map.1 hp
  have hi := List.mem_range.1 hi
  have hN : (symmetrise (c :: List.replicate m 0) nZero).length = 2 * (m + nZero) := by
    rw [length_symmetrise _ _ (by simp; omega)]
    simp
    omega
  have hraw : |((rawPsd (c :: List.replicate m 0) nZero).getD i 0).re| = c := by
    have h1 : i < (rawPsd (c :: List.replicate m 0) nZero).length := by
      simp only [rawPsd, List.length_ofFn]
      omega
    have h2 : (absPsd (c :: List.replicate m 0) nZero)[i]? = some c := by
      rw [absPsd_white hc, hN, List.getElem?_replicate]
      rw [if_pos (by omega)]
    rw [getD_eq _ _ h1]
    simpa [absPsd, List.getElem?_eq_getElem h1] using h2
  have hM : (0 : ℝ) < ((2 * (m + nZero) : ℕ) : ℝ) := by
    exact_mod_cast (by omega : 0 < 2 * (m + nZero))
  simp only [transform, Bool.false_eq_true, if_false, hraw, totalPower_white hc m nZero h]
  have e : c / (-c / (((2 * (m + nZero) : ℕ) : ℝ) * t1) / c) = -(c * t1 * ((2 * (m + nZero) : ℕ) : ℝ)) := by
    field_simp
  rw [e]
  refine ⟨rfl, ?_⟩
  have : 0 < c * t1 * ((2 * (m + nZero) : ℕ) : ℝ) := by positivity
  linarith

/-- **C52, partial**: if `k[0]` and the trapezoidal sum over the unsorted frequencies are positive,
all densities are non-negative, and the trapezoidal sum over all frequencies of the scaled densities
is `k[0]`. The full statement has no condition on the trapezoidal sum. -/
theorem c52_nonneg_partial {t1 k0 : ℝ} {ts ks : List ℝ} {nZero : ℕ} (ht : 0 < t1) (hk : 0 < k0)
    (htp : 0 < totalPower (k0 :: ks) nZero t1) {out : List (ℝ × ℝ)}
    (h : estimatePsd (0 :: t1 :: ts) (k0 :: ks) nZero false = .ok out) :
    (∀ p ∈ out, 0 ≤ p.2) ∧
    trapz ((scaledPsd (k0 :: ks) nZero t1 k0).map Prod.snd)
      ((scaledPsd (k0 :: ks) nZero t1 k0).map Prod.fst) = k0 ∧
    out.Sublist (scaledPsd (k0 :: ks) nZero t1 k0) := by
  refine ⟨?_, ?_, ?_⟩
  · rw [c53_output nZero false ht] at h
    cases h
    intro p hp
    obtain ⟨i, _, rfl⟩ := List.mem_map.1 hp
    simp only [transform, Bool.false_eq_true, if_false]
    positivity
  · unfold scaledPsd
    rw [List.map_fst_zip (by simp [freqs]), List.map_snd_zip (by simp [freqs])]
    have e : (fun x : ℝ => x / (totalPower (k0 :: ks) nZero t1 / k0)) =
        fun x => x * (k0 / totalPower (k0 :: ks) nZero t1) := by
      funext x
      field_simp
    rw [e, trapz_scale]
    change totalPower (k0 :: ks) nZero t1 * (k0 / totalPower (k0 :: ks) nZero t1) = k0
    field_simp
  · simp only [estimatePsd, ne_eq, not_true_eq_false, if_false, List.cons_append, sub_zero,
      transform, Bool.false_eq_true] at h
    cases h
    simp

/-- **C52.** The total power is measured by the trapezoidal rule: the sum over consecutive frequencies of the integrals of the
lines through consecutive densities. -/
theorem c52_trapezoid : ∀ p : List (ℝ × ℝ), trapz (p.map Prod.snd) (p.map Prod.fst) =
    ((p.zip p.tail).map fun ab => ∫ x in ab.1.1..ab.2.1,
      ab.1.2 + (ab.2.2 - ab.1.2) / (ab.2.1 - ab.1.1) * (x - ab.1.1)).sum
  | [] => by simp [trapz]
  | [_] => by simp [trapz]
  | (x0, y0) :: (x1, y1) :: p => by
    have ih := c52_trapezoid ((x1, y1) :: p)
    simp only [List.map_cons, List.tail_cons, List.zip_cons_cons, List.sum_cons, trapz] at ih ⊢
    rw [ih]
    congr 1
    have e : (fun x => y0 + (y1 - y0) / (x1 - x0) * (x - x0)) =
        fun x => (y0 - (y1 - y0) / (x1 - x0) * x0) + (y1 - y0) / (x1 - x0) * x := by
      funext x
      ring
    rw [e, intervalIntegral.integral_add (by simp) (Continuous.intervalIntegrable (by fun_prop) _ _),
      intervalIntegral.integral_const, intervalIntegral.integral_const_mul, integral_id, smul_eq_mul]
    rcases eq_or_ne x1 x0 with rfl | h
    · simp
    · have : x1 - x0 ≠ 0 := sub_ne_zero.2 h
      field_simp
      ring

/-- **C52.** Time points that do not start at zero are rejected. -/
theorem c52_rejects {t0 : ℝ} (h : t0 ≠ 0) (ts k : List ℝ) (nZero : ℕ) (db : Bool) :
    estimatePsd (t0 :: ts) k nZero db = .error .valueError := by simp [estimatePsd, h]

theorem fft_one {N : ℕ} [NeZero N] (g : Fin N) :
    fft (fun _ => (1 : ℂ)) g = if 0 = g then (N : ℂ) else 0 := by
  rw [fft_eq, ← om_sum 0 g]
  simp

/-- The hypotheses of `c52_nonneg_partial` can be met: for a constant kernel all power is at
frequency zero. -/
example : totalPower [1, 1, 1] 0 1 = 1 / 2 := by
  have hs : symmetrise [1, 1, 1] 0 = [1, 1, 1, 1] := by simp [symmetrise]
  have hr : rawPsd [1, 1, 1] 0 = [4, 0, 0, 0] := by
    unfold rawPsd
    rw [hs]
    have e : (fun j : Fin [(1 : ℝ), 1, 1, 1].length => (([(1 : ℝ), 1, 1, 1].get j : ℝ) : ℂ)) =
        fun _ => 1 := by
      funext j
      fin_cases j <;> simp
    rw [e]
    have : NeZero [(1 : ℝ), 1, 1, 1].length := ⟨by simp⟩
    rw [show fft (fun _ : Fin [(1 : ℝ), 1, 1, 1].length => (1 : ℂ)) = fun g =>
      if 0 = g then (([(1 : ℝ), 1, 1, 1].length : ℕ) : ℂ) else 0 from funext fft_one]
    refine List.ext_getElem (by simp) fun i h1 h2 => ?_
    have hi : i < 4 := by simpa using h2
    simp only [List.getElem_ofFn, Fin.ext_iff, Fin.val_zero]
    interval_cases i <;> simp
  have ha : absPsd [1, 1, 1] 0 = [4, 0, 0, 0] := by
    unfold absPsd
    rw [hr]
    simp
  unfold totalPower
  rw [ha]
  have hf : List.range 4 = [0, 1, 2, 3] := rfl
  norm_num [freqs, hf, fftfreq, trapz]

end Gpcm.Util
