import Verif.Model.CompareFigures
import Verif.Props.ConstructorProps
import Verif.Props.FftProps
import Verif.Props.SampleScriptProps

/-! # Property C208: the figures of the comparisons show predictions where they were made, and data in their units -/

open Real

namespace Gpcm.Figures

/-- A drawn prediction shows the mean `m` and the variance `v` at `x`. -/
def Spec.shows (d : Drawn) (x m v : ℝ) : Prop :=
  d.x = x ∧ d.mean = m ∧ (0 ≤ v → ∃ l u, d.lower = some l ∧ d.upper = some u ∧ u - m = m - l ∧ (m - l) ^ 2 = 1.96 ^ 2 * v ∧ l ≤ u)

theorem shows_drawn (x m v : ℝ) : Spec.shows (drawn x m v) x m v := by
  refine ⟨rfl, rfl, fun hv => ⟨m - 1.96 * √v, m + 1.96 * √v, ?_, ?_, by ring, ?_, ?_⟩⟩
  · simp [drawn, npSqrt, not_lt.2 hv]
  · simp [drawn, npSqrt, not_lt.2 hv]
  · rw [show m - (m - 1.96 * √v) = 1.96 * √v by ring, mul_pow, sq_sqrt hv]
  · have := sqrt_nonneg v
    nlinarith

theorem bandPlot_ok {t m v : List ℝ} {d : List Drawn} (h : bandPlot t m v = .ok d) :
    t.length = m.length ∧ m.length = v.length ∧ d = List.zipWith (fun x p => drawn x p.1 p.2) t (m.zip v) := by
  unfold bandPlot at h
  split_ifs at h with hc
  exact ⟨hc.1, hc.2, (Except.ok.inj h).symm⟩

theorem bandPlot_get {t m v : List ℝ} {d : List Drawn} (h : bandPlot t m v = .ok d) :
    d.length = t.length ∧ ∀ (i : ℕ) (x a b : ℝ), t[i]? = some x → m[i]? = some a → v[i]? = some b →
      ∃ e, d[i]? = some e ∧ Spec.shows e x a b := by
  obtain ⟨h1, h2, rfl⟩ := bandPlot_ok h
  refine ⟨by simp [h1, ← h2], fun i x a b hx ha hb => ⟨drawn x a b, ?_, shows_drawn x a b⟩⟩
  rw [List.getElem?_zipWith, hx, List.getElem?_zip_eq_some.2 (⟨ha, hb⟩ : m[i]? = some (a, b).1 ∧ v[i]? = some (a, b).2)]

theorem bandPlot_map {α : Type} (d : List α) (t m v : α → ℝ) :
    bandPlot (d.map t) (d.map m) (d.map v) = .ok (d.map fun p => drawn (t p) (m p) (v p)) := by
  unfold bandPlot
  rw [if_pos (by simp)]
  congr 1
  induction d with
  | nil => rfl
  | cons q p ih => simpa using ih

/-! ## Predictions of kernels -/

/-- **C208** A panel of the comparison of kernels that is drawn shows, at every input of the file of the mean-field approximation, the truth
and that approximation's prediction with its region, and draws the structured prediction at the same inputs. -/
theorem c208_kernel {k t1 m1 v1 t2 m2 v2 : List ℝ} {F : KernelFigure}
    (h : kernelFigure (some k) (some (t1, m1, v1)) (some (t2, m2, v2)) = .ok F) :
    F.truth = t2.zip k ∧ k.length = t2.length ∧ F.structured.length = t2.length ∧ F.meanField.length = t2.length ∧
    (∀ (i : ℕ) (x a b : ℝ), t2[i]? = some x → m2[i]? = some a → v2[i]? = some b → ∃ e, F.meanField[i]? = some e ∧ Spec.shows e x a b) ∧
    ∀ (i : ℕ) (x a b : ℝ), t2[i]? = some x → m1[i]? = some a → v1[i]? = some b → ∃ e, F.structured[i]? = some e ∧ Spec.shows e x a b := by
  simp only [kernelFigure] at h
  obtain ⟨tr, htr, h⟩ := bind1_ok h
  obtain ⟨s, hs, h⟩ := bind1_ok h
  obtain ⟨mf, hmf, h⟩ := bind1_ok h
  obtain rfl := Except.ok.inj h
  unfold plot at htr
  split_ifs at htr with hl
  obtain rfl := Except.ok.inj htr
  exact ⟨rfl, hl.symm, (bandPlot_get hs).1, (bandPlot_get hmf).1, (bandPlot_get hmf).2, (bandPlot_get hs).2⟩

/-- **C208** The structured prediction is drawn where it was made exactly if the two files have the same inputs. -/
theorem c208_inputs {k t1 m1 v1 t2 m2 v2 : List ℝ} {F : KernelFigure}
    (h : kernelFigure (some k) (some (t1, m1, v1)) (some (t2, m2, v2)) = .ok F) : F.structured.map Drawn.x = t1 ↔ t1 = t2 := by
  simp only [kernelFigure] at h
  obtain ⟨tr, htr, h⟩ := bind1_ok h
  obtain ⟨s, hs, h⟩ := bind1_ok h
  obtain ⟨mf, hmf, h⟩ := bind1_ok h
  obtain rfl := Except.ok.inj h
  obtain ⟨h1, h2, rfl⟩ := bandPlot_ok hs
  have e : (List.zipWith (fun x (p : ℝ × ℝ) => drawn x p.1 p.2) t2 (m1.zip v1)).map Drawn.x = t2 := by
    rw [List.map_zipWith]
    have : (fun (x : ℝ) (p : ℝ × ℝ) => (drawn x p.1 p.2).x) = fun x _ => x := rfl
    rw [this]
    refine List.ext_getElem? fun i => ?_
    rw [List.getElem?_zipWith]
    by_cases hi : i < t2.length
    · have h3 : i < (m1.zip v1).length := by simp [← h2, ← h1, hi]
      rw [List.getElem?_eq_getElem hi, List.getElem?_eq_getElem h3]
    · rw [List.getElem?_eq_none (not_lt.1 hi)]
  change _ ↔ _
  rw [e]
  exact eq_comm

/-- **C208** Files written by `comparison.py` for one kernel: both approximations predict at the same inputs, so if both predictions succeed
the panel is drawn, and both are shown where they were made. -/
theorem c208_comparison (extent1 extent2 : ℝ) (ap1 ap2 : List ℝ → Except PyErr (List (List ℝ))) {tK k : List ℝ} (hk : k.length = tK.length)
    {p1 p2 : List (ℝ × Summary)} (h1 : predictKernel extent1 ap1 (some tK) = .ok p1) (h2 : predictKernel extent2 ap2 (some tK) = .ok p2) :
    ∃ F, kernelFigure (some k) (some (kernelFile p1)) (some (kernelFile p2)) = .ok F ∧ F.truth = tK.zip k ∧
      F.structured.map Drawn.x = tK ∧ F.meanField.map Drawn.x = tK ∧
      (∀ (i : ℕ) (x : ℝ) (s : Summary), p1[i]? = some (x, s) → ∃ e, F.structured[i]? = some e ∧ Spec.shows e x s.mean s.var) ∧
      ∀ (i : ℕ) (x : ℝ) (s : Summary), p2[i]? = some (x, s) → ∃ e, F.meanField[i]? = some e ∧ Spec.shows e x s.mean s.var := by
  have key : ∀ {extent ap p}, predictKernel extent ap (some tK) = .ok p → p.map Prod.fst = tK := by
    intro extent ap p h
    unfold predictKernel at h
    obtain ⟨r, hr, h⟩ := bind1_ok h
    unfold modelSampleKernel at hr
    obtain ⟨t', ht', hr⟩ := bind1_ok hr
    obtain ⟨ks, hks, hr⟩ := bind1_ok hr
    obtain rfl := Except.ok.inj ht'
    split_ifs at hr
    obtain rfl := Except.ok.inj hr
    obtain rfl := Except.ok.inj h
    unfold summarise
    rw [List.map_fst_zip]
    simp [atInputs]
  have e1 := key h1
  have e2 := key h2
  have l1 : p1.length = tK.length := by rw [← e1, List.length_map]
  have l2 : p2.length = tK.length := by rw [← e2, List.length_map]
  have hb : ∀ p : List (ℝ × Summary), p.map Prod.fst = tK →
      bandPlot tK (p.map fun q => q.2.mean) (p.map fun q => q.2.var) = .ok (p.map fun q => drawn q.1 q.2.mean q.2.var) := by
    rintro p rfl
    exact bandPlot_map p Prod.fst (fun q => q.2.mean) fun q => q.2.var
  have hx : ∀ p : List (ℝ × Summary), p.map Prod.fst = tK → (p.map fun q => drawn q.1 q.2.mean q.2.var).map Drawn.x = tK := by
    rintro p rfl
    rw [List.map_map]
    rfl
  refine ⟨⟨tK.zip k, p1.map fun q => drawn q.1 q.2.mean q.2.var, p2.map fun q => drawn q.1 q.2.mean q.2.var⟩, ?_, rfl, hx _ e1, hx _ e2,
    fun i x s h => ⟨drawn x s.mean s.var, by simp [h], shows_drawn _ _ _⟩, fun i x s h => ⟨drawn x s.mean s.var, by simp [h], shows_drawn _ _ _⟩⟩
  simp only [kernelFigure, kernelFile, e2, hb _ e1, hb _ e2, bind1_val, plot, hk, if_true]

/-- **C208, refuted in general** With files of different inputs the structured prediction is drawn at inputs at which it was not made, without
an error. -/
theorem c208_inputs_refuted : ∃ (k t1 m1 v1 t2 m2 v2 : List ℝ) (F : KernelFigure),
    kernelFigure (some k) (some (t1, m1, v1)) (some (t2, m2, v2)) = .ok F ∧ F.structured.map Drawn.x ≠ t1 := by
  refine ⟨[1, 0], [0, 1], [1, 0], [0, 0], [0, 2], [1, 0], [0, 0], ⟨[0, 2].zip [1, 0], [drawn 0 1 0, drawn 2 0 0], [drawn 0 1 0, drawn 2 0 0]⟩, ?_, ?_⟩
  · simp [kernelFigure, plot, bandPlot, bind1]
  · simp [drawn]

/-! ## Spectral densities -/

theorem maskLe_map {α : Type} (d : List α) (g f : α → ℝ) (u : ℝ) :
    Scripts.maskLe (d.map g) u (d.map f) = .ok ((d.filter fun p => g p ≤ u).map f) := by
  unfold Scripts.maskLe
  rw [if_pos (by simp)]
  congr 1
  induction d with
  | nil => rfl
  | cons p d ih =>
    simp only [List.map_cons, List.zip_cons_cons, List.filter_cons]
    split_ifs <;> simp [ih]

theorem zipWith_four {α : Type} (d : List α) (a b c e : α → ℝ) :
    List.zipWith (fun f (q : ℝ × ℝ × ℝ) => (⟨f, q.1, q.2.1, q.2.2⟩ : PsdPoint)) (d.map a) ((d.map b).zip ((d.map c).zip (d.map e))) =
      d.map fun p => ⟨a p, b p, c p, e p⟩ := by
  induction d with
  | nil => rfl
  | cons p d ih => simpa using ih

/-- **C208** The panel of a stored prediction of the spectral density: the points with a frequency at most 0.2 above the first frequency, in
order, with their own values; the frequencies are counted from the first one. -/
theorem c208_psd (d : List PsdPoint) {p0 : PsdPoint} (h0 : d.head? = some p0) :
    psdFigure ⟨d.map PsdPoint.freq, d.map PsdPoint.mean, d.map PsdPoint.lower, d.map PsdPoint.upper⟩ =
      (.ok ((d.filter fun p => p.freq - p0.freq ≤ 0.2).map fun p => ⟨p.freq - p0.freq, p.mean, p.lower, p.upper⟩),
        ⟨d.map fun p => p.freq - p0.freq, d.map PsdPoint.mean, d.map PsdPoint.lower, d.map PsdPoint.upper⟩) := by
  cases d with
  | nil => simp at h0
  | cons q d =>
    obtain rfl : q = p0 := by simpa using h0
    obtain ⟨l, hl⟩ : ∃ l, l = q :: d := ⟨_, rfl⟩
    have e : (psdFigure ⟨(q :: d).map PsdPoint.freq, (q :: d).map PsdPoint.mean, (q :: d).map PsdPoint.lower, (q :: d).map PsdPoint.upper⟩) =
      (bind1 (Scripts.maskLe ((l.map PsdPoint.freq).map (· - q.freq)) 0.2 ((l.map PsdPoint.freq).map (· - q.freq))) fun f =>
      bind1 (Scripts.maskLe ((l.map PsdPoint.freq).map (· - q.freq)) 0.2 (l.map PsdPoint.mean)) fun m =>
      bind1 (Scripts.maskLe ((l.map PsdPoint.freq).map (· - q.freq)) 0.2 (l.map PsdPoint.lower)) fun lo =>
      bind1 (Scripts.maskLe ((l.map PsdPoint.freq).map (· - q.freq)) 0.2 (l.map PsdPoint.upper)) fun u =>
      .ok (List.zipWith (fun f (q : ℝ × ℝ × ℝ) => (⟨f, q.1, q.2.1, q.2.2⟩ : PsdPoint)) f (m.zip (lo.zip u))),
        ⟨(l.map PsdPoint.freq).map (· - q.freq), l.map PsdPoint.mean, l.map PsdPoint.lower, l.map PsdPoint.upper⟩) := by
      subst hl
      rfl
    rw [e, List.map_map, maskLe_map, maskLe_map, maskLe_map, maskLe_map]
    simp only [bind1_val]
    rw [zipWith_four, hl]
    rfl

/-- **C208** Drawing the panel again shows the same: the change of the stored frequencies is made once. -/
theorem c208_psd_again (p : PsdPred) (hne : p.freqs ≠ []) :
    (psdFigure (psdFigure p).2).1 = (psdFigure p).1 ∧ (psdFigure (psdFigure p).2).2 = (psdFigure p).2 := by
  obtain ⟨fs, m, l, u⟩ := p
  cases fs with
  | nil => exact absurd rfl hne
  | cons f0 fs =>
    have : ((f0 :: fs).map (· - f0)).map (· - (f0 - f0)) = (f0 :: fs).map (· - f0) := by
      rw [List.map_map]
      refine List.map_congr_left fun x _ => ?_
      simp
    constructor
    · simp only [psdFigure, List.map_cons] at this ⊢
      rw [this]
    · simp only [psdFigure, List.map_cons] at this ⊢
      rw [this]

theorem freqs_head {t k : List ℝ} {n : ℕ} {db : Bool} {r : List (ℝ × ℝ)} (h : Util.estimatePsd t k n db = .ok r) :
    (r.map Prod.fst).head? = some 0 := by
  unfold Util.estimatePsd at h
  split at h
  · cases h
  · rename_i t0 ts
    split_ifs at h with h0
    split at h
    · cases h
    · cases h
    · rename_i k0 kk t1 ts' hk
      obtain rfl := Except.ok.inj h
      have hs : ∃ a l, Util.symmetrise k n = a :: l := by
        unfold Util.symmetrise
        rw [hk]
        exact ⟨_, _, rfl⟩
      have hL : 0 < (Util.absPsd k n).length := by
        obtain ⟨a, l, e⟩ := hs
        unfold Util.absPsd Util.rawPsd
        rw [List.length_map, List.length_ofFn, e]
        simp
      obtain ⟨L, hL'⟩ : ∃ L, (Util.absPsd k n).length = L + 1 := ⟨_, (Nat.succ_pred_eq_of_pos hL).symm⟩
      obtain ⟨a, l, ha⟩ : ∃ a l, Util.absPsd k n = a :: l := by
        cases hc : Util.absPsd k n with
        | nil => rw [hc] at hL; simp at hL
        | cons a l => exact ⟨a, l, rfl⟩
      have hf : ∃ fs, Util.freqs (Util.absPsd k n).length (t1 - t0) = 0 :: fs := by
        unfold Util.freqs
        rw [hL', List.range_succ_eq_map, List.map_cons]
        refine ⟨_, congrArg₂ _ ?_ rfl⟩
        simp [Util.fftfreq]
      obtain ⟨fs, hf⟩ := hf
      unfold Util.scaledPsd
      rw [hf, ha]
      simp

/-- **C208** The frequencies of `predict_psd` start at zero, so the panel shows every predicted frequency up to 0.2 with its own values, and
leaves the stored prediction as it is. -/
theorem c208_psd_predicted (n : Paper.Normaliser) (extent : ℝ) (ap : List ℝ → Except PyErr (List (List ℝ))) (tK : Option (List ℝ))
    {pred : List (ℝ × Summary)} (h : predictPsd extent ap tK = .ok pred) :
    psdFigure (psdFile n pred) = (.ok ((pred.filter fun p => p.1 ≤ 0.2).map fun p =>
      ⟨p.1, (Paper.untransformPsd n p.2).1, (Paper.untransformPsd n p.2).2.1, (Paper.untransformPsd n p.2).2.2⟩), psdFile n pred) ∧
    (pred.map Prod.fst).head? = some 0 := by
  have h0 : (pred.map Prod.fst).head? = some 0 := by
    unfold predictPsd at h
    obtain ⟨r, hr, h⟩ := bind1_ok h
    obtain rfl := Except.ok.inj h
    unfold psdSamples at hr
    obtain ⟨t', _, hr⟩ := bind1_ok hr
    obtain ⟨s, hs, hr⟩ := bind1_ok hr
    obtain ⟨l, hl, hr⟩ := bind1_ok hr
    split at hr
    · cases hr
    · rename_i p ps
      obtain rfl := Except.ok.inj hr
      unfold summarise
      rw [List.map_fst_zip (by simp [atInputs])]
      cases hs2 : s.2 with
      | nil => rw [hs2] at hl; cases hl
      | cons k ks =>
        rw [hs2] at hl
        unfold mapE at hl
        split at hl
        · cases hl
        rename_i p' hp'
        split at hl
        · cases hl
        obtain ⟨rfl, rfl⟩ := List.cons.inj (Except.ok.inj hl)
        exact freqs_head hp'
  refine ⟨?_, h0⟩
  obtain ⟨g, hg⟩ : ∃ g : ℝ × Summary → PsdPoint, g = fun p =>
    ⟨p.1, (Paper.untransformPsd n p.2).1, (Paper.untransformPsd n p.2).2.1, (Paper.untransformPsd n p.2).2.2⟩ := ⟨_, rfl⟩
  cases pred with
  | nil => simp at h0
  | cons q pred =>
    have hq : q.1 = 0 := by simpa using h0
    have := c208_psd ((q :: pred).map g) (p0 := g q) rfl
    have hq' : (g q).freq = 0 := by rw [hg]; exact hq
    simp only [hq', sub_zero, List.map_map, List.filter_map] at this
    rw [hg] at this
    exact this

/-! ## Predictions of the price of oil -/

theorem maskGe_map {α : Type} (d : List α) (g f : α → ℝ) (u : ℝ) :
    maskGe (d.map g) u (d.map f) = .ok ((d.filter fun p => u ≤ g p).map f) := by
  unfold maskGe
  rw [if_pos (by simp)]
  congr 1
  induction d with
  | nil => rfl
  | cons p d ih =>
    simp only [List.map_cons, List.zip_cons_cons, List.filter_cons]
    split_ifs <;> simp [ih]

/-- The two predictions and their inputs. -/
structure Spec.Pred where
  t : ℝ
  m1 : ℝ
  v1 : ℝ
  m2 : ℝ
  v2 : ℝ

/-- **C208** The panel of two predictions of the price: from the predictions at all inputs, those at day 150 or later are drawn, each with its
own input, mean and variance, between the first and the last of these inputs; without such an input it raises an `IndexError`. -/
theorem c208_oil (n : Paper.Normaliser) (d : List Spec.Pred) (train test : List (ℝ × ℝ)) :
    ((∀ p ∈ d, p.t < 150) →
      oilFigure n (d.map Spec.Pred.t) (d.map Spec.Pred.m1, d.map Spec.Pred.v1) (d.map Spec.Pred.m2, d.map Spec.Pred.v2) train test =
        .error .indexError) ∧
    ∀ (a : Spec.Pred) (l : List Spec.Pred), (d.filter fun p => 150 ≤ p.t) = a :: l →
      oilFigure n (d.map Spec.Pred.t) (d.map Spec.Pred.m1, d.map Spec.Pred.v1) (d.map Spec.Pred.m2, d.map Spec.Pred.v2) train test =
        .ok ⟨(a :: l).map fun p => drawn p.t p.m1 p.v1, (a :: l).map fun p => drawn p.t p.m2 p.v2,
          (train.filter fun p => 150 ≤ p.1).map fun p => (p.1, p.2 * n.scale + n.loc), test.filter fun p => 150 ≤ p.1, a.t,
          (l.map Spec.Pred.t).getLastD a.t⟩ := by
  constructor
  · intro h
    have : (d.filter fun p => (150 : ℝ) ≤ p.t) = [] := List.filter_eq_nil_iff.2 fun p hp => by simpa using h p hp
    simp only [oilFigure, maskGe_map, this, List.map_nil, bind1_val]
    rfl
  · intro a l e
    simp only [oilFigure, maskGe_map, e, bandPlot_map, bind1_val]
    rfl

theorem untransform_train (n : Paper.Normaliser) (hs : n.scale ≠ 0) (d : List (ℝ × ℝ)) :
    (((d.map Prod.fst).zip (n.transform (d.map Prod.snd))).filter fun p => decide ((150 : ℝ) ≤ p.1)).map
      (fun p => (p.1, p.2 * n.scale + n.loc)) = d.filter fun p => decide ((150 : ℝ) ≤ p.1) := by
  unfold Paper.Normaliser.transform
  induction d with
  | nil => rfl
  | cons p d ih =>
    have e : (p.2 - n.loc) / n.scale * n.scale + n.loc = p.2 := by rw [div_mul_cancel₀ _ hs, sub_add_cancel]
    simp only [List.map_cons, List.zip_cons_cons, List.filter_cons]
    split_ifs
    · rw [List.map_cons, ih]
      simp only [e]
    · exact ih

/-- **C208** Training data are drawn in their own units although they were normalised, unless all are equal. -/
theorem c208_oil_units (train : List (ℝ × ℝ)) (h : std (train.map Prod.snd) ≠ 0) (tPred : List ℝ) (p1 p2 : List ℝ × List ℝ)
    (test : List (ℝ × ℝ)) {F : OilFigure} (hF : oilFigure (oilTrain train).1 tPred p1 p2 (oilTrain train).2 test = .ok F) :
    F.train = train.filter (fun p => 150 ≤ p.1) ∧ F.test = test.filter fun p => 150 ≤ p.1 := by
  unfold oilFigure at hF
  obtain ⟨m1, _, hF⟩ := bind1_ok hF
  obtain ⟨m2, _, hF⟩ := bind1_ok hF
  obtain ⟨v1, _, hF⟩ := bind1_ok hF
  obtain ⟨v2, _, hF⟩ := bind1_ok hF
  obtain ⟨t, _, hF⟩ := bind1_ok hF
  obtain ⟨c1, _, hF⟩ := bind1_ok hF
  obtain ⟨c2, _, hF⟩ := bind1_ok hF
  split at hF
  · cases hF
  obtain rfl := Except.ok.inj hF
  refine ⟨?_, rfl⟩
  simp only [oilTrain]
  obtain ⟨n, hn⟩ : ∃ n, n = Paper.Normaliser.fit (train.map Prod.snd) := ⟨_, rfl⟩
  have hs : n.scale ≠ 0 := by rw [hn]; exact h
  rw [← hn]
  exact untransform_train n hs train

/-- **C208** Within the limits of the axis: every observation not before the first prediction that is drawn. -/
theorem c208_oil_visible_partial {t : List ℝ} {tPred : List ℝ} (h : oilInputs t = .ok tPred) {a : ℝ} {l : List ℝ}
    (hl : (tPred.filter fun x => 150 ≤ x) = a :: l) : ∀ x ∈ t, a ≤ x → x ≤ l.getLastD a := by
  unfold oilInputs at h
  obtain ⟨lo, hlo, h⟩ := bind1_ok h
  obtain ⟨hi, hhi, h⟩ := bind1_ok h
  obtain ⟨_, hlen, hget⟩ := linspace_ok h
  intro x hx hax
  refine (Rgpcm.pyMax_ge hhi x hx).trans (le_of_eq ?_)
  have hlast : tPred.getLast? = some hi := by
    have := hget 499 (by norm_num)
    rw [List.getLast?_eq_getElem?, show tPred.length - 1 = 499 by omega, this]
    norm_num
  obtain ⟨init, rfl⟩ : ∃ init, tPred = init ++ [hi] := List.getLast?_eq_some_iff.1 hlast
  have ha : (150 : ℝ) ≤ a := by
    have : a ∈ (init ++ [hi]).filter fun x => (150 : ℝ) ≤ x := by rw [hl]; simp
    simpa using (List.mem_filter.1 this).2
  have hle : a ≤ hi := hax.trans (Rgpcm.pyMax_ge hhi x hx)
  have : (init ++ [hi]).filter (fun x => decide ((150 : ℝ) ≤ x)) = init.filter (fun x => decide ((150 : ℝ) ≤ x)) ++ [hi] := by
    rw [List.filter_append]
    simp [ha.trans hle]
  rw [this] at hl
  have h2 : (a :: l).getLast? = some hi := by rw [← hl]; simp
  rw [List.getLast?_cons] at h2
  have := Option.some.inj h2
  rw [← this, List.getLastD_eq_getLast?]

/-- **C208, refuted** Data from day 1 to day 364 of a year (as in 2013): the observation of day 150 (31 May 2013, a Friday) is part of the
figure, but the axis starts after it. -/
theorem c208_oil_refuted : ∃ (t tPred : List ℝ) (a : ℝ) (l : List ℝ), (150 : ℝ) ∈ t ∧ oilInputs t = .ok tPred ∧
    (tPred.filter fun x => 150 ≤ x) = a :: l ∧ (150 : ℝ) < a := by
  have h : oilInputs [1, 150, 364] = .ok ((List.range 500).map fun i : ℕ => (1 : ℝ) + (364 - 1) / (((500 : ℤ) : ℝ) - 1) * (i : ℝ)) := by
    have e1 : pyMin [1, 150, 364] = .ok (1 : ℝ) := by norm_num [pyMin]
    have e2 : pyMax [1, 150, 364] = .ok (364 : ℝ) := by norm_num [pyMax]
    unfold oilInputs
    rw [e1, e2, bind1_val, bind1_val, linspace_of_nonneg (by norm_num)]
    rfl
  obtain ⟨P, hP⟩ : ∃ P : List ℝ, P = (List.range 500).map fun i : ℕ => (1 : ℝ) + (364 - 1) / (((500 : ℤ) : ℝ) - 1) * (i : ℝ) := ⟨_, rfl⟩
  rw [← hP] at h
  have hne : ∀ x ∈ P, x ≠ 150 := by
    intro x hx e
    rw [hP] at hx
    obtain ⟨i, hi, rfl⟩ := List.mem_map.1 hx
    have : (363 : ℝ) * i = 149 * 499 := by
      have : ((363 : ℝ) / 499) * i = 149 := by push_cast at e; linarith
      rw [div_mul_eq_mul_div, div_eq_iff (by norm_num)] at this
      exact this
    have : 363 * i = 149 * 499 := by exact_mod_cast this
    omega
  have hlast : (364 : ℝ) ∈ P.filter fun x => (150 : ℝ) ≤ x := by
    refine List.mem_filter.2 ⟨?_, by norm_num⟩
    rw [hP]
    exact List.mem_map.2 ⟨499, by simp, by norm_num⟩
  cases hf : P.filter fun x => (150 : ℝ) ≤ x with
  | nil => rw [hf] at hlast; simp at hlast
  | cons a l =>
    refine ⟨_, P, a, l, by simp, h, hf, ?_⟩
    have ha : a ∈ P.filter fun x => (150 : ℝ) ≤ x := by rw [hf]; simp
    obtain ⟨h1, h2⟩ := List.mem_filter.1 ha
    exact lt_of_le_of_ne (by simpa using h2) (hne a h1).symm

example : (psdFigure ⟨[0, 0.1, 0.3], [1, 2, 3], [0, 1, 2], [2, 3, 4]⟩).1 = .ok [⟨0, 1, 0, 2⟩, ⟨0.1, 2, 1, 3⟩] := by
  have h := c208_psd [⟨0, 1, 0, 2⟩, ⟨0.1, 2, 1, 3⟩, ⟨0.3, 3, 2, 4⟩] (p0 := ⟨0, 1, 0, 2⟩) rfl
  have h1 : ((0.1 : ℝ) ≤ 0.2) := by norm_num
  have h2 : ¬ ((0.3 : ℝ) ≤ 0.2) := by norm_num
  have h3 : ((0 : ℝ) ≤ 0.2) := by norm_num
  simp only [List.map_cons, List.map_nil] at h
  rw [h]
  simp [h1, h2, h3]

example : ∃ F, oilFigure ⟨10, 2⟩ [100, 160, 170] ([1, 2, 3], [0, 1, 1]) ([1, 1, 1], [0, 0, 4]) [(140, 0), (165, 1)] [(166, 12)] = .ok F ∧
    F.left = 160 ∧ F.right = 170 ∧ F.train = [(165, 12)] ∧ F.test = [(166, 12)] := by
  have h := (c208_oil ⟨10, 2⟩ [⟨100, 1, 0, 1, 0⟩, ⟨160, 2, 1, 1, 0⟩, ⟨170, 3, 1, 1, 4⟩] [(140, 0), (165, 1)] [(166, 12)]).2 ⟨160, 2, 1, 1, 0⟩
    [⟨170, 3, 1, 1, 4⟩] (by norm_num [List.filter_cons])
  refine ⟨_, h, rfl, rfl, ?_, ?_⟩
  · norm_num [List.filter_cons]
  · norm_num [List.filter_cons]

/-- **C208** A region is drawn exactly where the variance is not negative; it then reaches 1.96 standard deviations to both sides. -/
theorem c208_region_iff (x m v : ℝ) : ((drawn x m v).lower.isSome ↔ 0 ≤ v) ∧ ((drawn x m v).upper.isSome ↔ 0 ≤ v) ∧
    (0 ≤ v → (drawn x m v).lower = some (m - 1.96 * √v) ∧ (drawn x m v).upper = some (m + 1.96 * √v)) := by
  by_cases h : v < 0
  · simp [drawn, npSqrt, h]
  · simp [drawn, npSqrt, h, not_lt.1 h]

end Gpcm.Figures
