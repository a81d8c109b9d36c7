import Verif.Layers.NoisyLaw
import Verif.Layers.PropsUniformNoise
import Mathlib.MeasureTheory.Measure.Prod
import Mathlib.MeasureTheory.Group.LIntegral
import Mathlib.MeasureTheory.Integral.IntervalIntegral.FundThmCalculus
import Mathlib.Analysis.SpecialFunctions.Integrals.Basic
import Mathlib.Probability.Distributions.Gaussian.Real
import Mathlib.Analysis.Real.Pi.Bounds
import Mathlib.Analysis.Complex.ExponentialBounds

/-!
C115: a noisy distribution describes the variable that it samples.
-/

namespace Verif.Layers.Noisy

open MeasureTheory ProbabilityTheory Set

/-! ### Specification -/

/-- `X` is a variable with law `μ` and `U` is uniform between -1/2 and 1/2 and independent of it; then `ν` is the law of
`X + U`: for every set the probability is the average over `x` of the length of the part of the interval of length one
around `x` in the set. -/
def IsNoisy (μ ν : Measure ℝ) : Prop :=
  ∀ s, MeasurableSet s → ν s = ∫⁻ x, volume (s ∩ Ico (x - 1 / 2) (x + 1 / 2)) ∂μ

theorem noise_eq : noise = volume.restrict (Ico (-(1 / 2)) (1 / 2 : ℝ)) := by
  unfold noise; norm_num

instance : IsProbabilityMeasure noise where
  measure_univ := by
    rw [noise_eq, Measure.restrict_apply_univ, Real.volume_Ico]; norm_num

instance (μ : Measure ℝ) [IsProbabilityMeasure μ] : IsProbabilityMeasure (rsampleLaw μ) :=
  Measure.isProbabilityMeasure_map (by fun_prop)

theorem noise_shift (x : ℝ) (s : Set ℝ) (hs : MeasurableSet s) :
    noise ((fun u => x + u) ⁻¹' s) = volume (s ∩ Ico (x - 1 / 2) (x + 1 / 2)) := by
  have hm : Measurable fun u : ℝ => x + u := by fun_prop
  rw [noise_eq, Measure.restrict_apply (hm hs)]
  have : (fun u => x + u) ⁻¹' s ∩ Ico (-(1 / 2)) (1 / 2) = (fun u => x + u) ⁻¹' (s ∩ Ico (x - 1 / 2) (x + 1 / 2)) := by
    ext u
    simp only [mem_inter_iff, mem_preimage, mem_Ico]
    constructor
    · rintro ⟨h1, h2, h3⟩; exact ⟨h1, by linarith, by linarith⟩
    · rintro ⟨h1, h2, h3⟩; exact ⟨h1, by linarith, by linarith⟩
  rw [this, measure_preimage_add]

/-- **C115, samples.** A sample is the sum of a sample of the base distribution and of independent uniform noise. -/
theorem C115_sample (μ : Measure ℝ) [IsProbabilityMeasure μ] : IsNoisy μ (rsampleLaw μ) := by
  intro s hs
  have hm : Measurable fun p : ℝ × ℝ => p.1 + p.2 := by fun_prop
  unfold rsampleLaw
  rw [Measure.map_apply hm hs, Measure.prod_apply (hm hs)]
  exact lintegral_congr fun x => noise_shift x s hs

theorem ofReal_prob (μ : Measure ℝ) [IsProbabilityMeasure μ] (v : ℝ) :
    ENNReal.ofReal (probOf μ v) = μ (Ioc (v - 1 / 2) (v + 1 / 2)) := by
  unfold probOf
  rw [C46_prob]
  show ENNReal.ofReal (cdf μ (v + 1 / 2) - cdf μ (v - 1 / 2)) = _
  rw [← StieltjesFunction.measure_Ioc, measure_cdf]

/-- **C115, probabilities.** `prob` is the density of the samples: for every base distribution, the probability that a
sample lies in a set is the integral of `prob` over it. -/
theorem C115_density (μ : Measure ℝ) [IsProbabilityMeasure μ] (s : Set ℝ) (hs : MeasurableSet s) :
    rsampleLaw μ s = ∫⁻ v in s, ENNReal.ofReal (probOf μ v) := by
  rw [C115_sample μ s hs]
  have hset : MeasurableSet {p : ℝ × ℝ | p.2 ∈ s ∧ p.1 - 1 / 2 ≤ p.2 ∧ p.2 < p.1 + 1 / 2} := by
    have h1 : MeasurableSet {p : ℝ × ℝ | p.2 ∈ s} := measurable_snd hs
    have h2 : MeasurableSet {p : ℝ × ℝ | p.1 - 1 / 2 ≤ p.2} := measurableSet_le (by fun_prop) (by fun_prop)
    have h3 : MeasurableSet {p : ℝ × ℝ | p.2 < p.1 + 1 / 2} := measurableSet_lt (by fun_prop) (by fun_prop)
    exact h1.inter (h2.inter h3)
  have e1 : ∫⁻ x, volume (s ∩ Ico (x - 1 / 2) (x + 1 / 2)) ∂μ =
      (μ.prod volume) {p : ℝ × ℝ | p.2 ∈ s ∧ p.1 - 1 / 2 ≤ p.2 ∧ p.2 < p.1 + 1 / 2} := by
    rw [Measure.prod_apply hset]
    rfl
  rw [e1, Measure.prod_apply_symm hset, ← lintegral_indicator hs]
  refine lintegral_congr fun v => ?_
  by_cases hv : v ∈ s
  · rw [indicator_of_mem hv, ofReal_prob]
    congr 1
    ext x
    simp only [mem_preimage, mem_setOf_eq, mem_Ioc]
    constructor
    · rintro ⟨_, h1, h2⟩; exact ⟨by linarith, by linarith⟩
    · rintro ⟨h1, h2⟩; exact ⟨hv, by linarith, by linarith⟩
  · rw [indicator_of_notMem hv]
    have : (fun x => (x, v)) ⁻¹' {p : ℝ × ℝ | p.2 ∈ s ∧ p.1 - 1 / 2 ≤ p.2 ∧ p.2 < p.1 + 1 / 2} = ∅ := by
      ext x
      simp [hv]
    rw [this, measure_empty]

/-! ### Moments -/

theorem noise_integral (f : ℝ → ℝ) : ∫ u, f u ∂noise = ∫ u in (-(1 / 2) : ℝ)..(1 / 2), f u := by
  rw [noise_eq, intervalIntegral.integral_of_le (by norm_num), ← integral_Icc_eq_integral_Ioc, integral_Icc_eq_integral_Ico]

theorem noise_mean : ∫ u, u ∂noise = 0 := by
  rw [noise_integral, integral_id]; norm_num

theorem noise_memLp : MemLp (id : ℝ → ℝ) 2 noise := by
  refine MemLp.of_bound measurable_id.aestronglyMeasurable (1 / 2) ?_
  rw [noise_eq]
  refine (ae_restrict_iff' measurableSet_Ico).2 (Filter.Eventually.of_forall fun x hx => ?_)
  rw [Real.norm_eq_abs, abs_le]
  exact ⟨hx.1, hx.2.le⟩

theorem noise_variance : Var[id; noise] = 1 / 12 := by
  rw [variance_eq_sub noise_memLp]
  have h1 : noise[id] = 0 := noise_mean
  have h2 : noise[(id : ℝ → ℝ) ^ 2] = 1 / 12 := by
    show ∫ u, u ^ 2 ∂noise = _
    rw [noise_integral, integral_pow]; norm_num
  rw [h1, h2]; norm_num

theorem rsample_variance (μ : Measure ℝ) [IsProbabilityMeasure μ] (h : MemLp (id : ℝ → ℝ) 2 μ) :
    Var[id; rsampleLaw μ] = Var[id; μ] + 1 / 12 := by
  unfold rsampleLaw
  rw [variance_id_map (by fun_prop)]
  have := variance_add_prod h noise_memLp
  rw [noise_variance] at this
  exact this

/-- **C115, mean.** The mean is that of the samples, for every base distribution that has one. -/
theorem C115_mean (μ : Measure ℝ) [IsProbabilityMeasure μ] (h : Integrable (fun x : ℝ => x) μ) :
    mean μ = ∫ v, v ∂(rsampleLaw μ) := by
  have hn : Integrable (fun u : ℝ => u) noise := (noise_memLp.integrable (by norm_num) : Integrable id noise)
  unfold rsampleLaw mean
  rw [integral_map (by fun_prop) (by fun_prop)]
  rw [integral_add (h.comp_fst noise) (hn.comp_snd μ)]
  have e1 : ∫ a : ℝ × ℝ, a.1 ∂μ.prod noise = ∫ x, x ∂μ := by
    rw [integral_fun_fst (fun x : ℝ => x)]; simp
  have e2 : ∫ a : ℝ × ℝ, a.2 ∂μ.prod noise = ∫ x, x ∂noise := by
    rw [integral_fun_snd (fun x : ℝ => x)]; simp
  rw [e1, e2, noise_mean, add_zero]

/-- **C115, violated: the variance.** For every base distribution with a variance, the reported variance is too small by
exactly 1/12, the variance of the noise. -/
theorem C115_violated_variance (μ : Measure ℝ) [IsProbabilityMeasure μ] (h : MemLp (id : ℝ → ℝ) 2 μ) :
    variance μ = Var[id; rsampleLaw μ] - 1 / 12 := by
  rw [rsample_variance μ h]; unfold variance; ring

/-- **C115, violated: the distribution function.** For every base distribution with a variance there is a value at which
the reported distribution function is not the probability of a sample of at most this value. -/
theorem C115_violated_cdf (μ : Measure ℝ) [IsProbabilityMeasure μ] (h : MemLp (id : ℝ → ℝ) 2 μ) :
    ∃ v, ENNReal.ofReal (cdfOf μ v) ≠ rsampleLaw μ (Iic v) := by
  by_contra hc
  push Not at hc
  have he : μ = rsampleLaw μ := by
    refine Measure.eq_of_cdf _ _ (StieltjesFunction.ext fun v => ?_)
    have h1 := hc v
    unfold cdfOf at h1
    rw [← ofReal_cdf (rsampleLaw μ)] at h1
    exact (ENNReal.ofReal_eq_ofReal_iff (cdf_nonneg _ _) (cdf_nonneg _ _)).1 h1
  have h2 := rsample_variance μ h
  rw [← he] at h2
  linarith

/-- The probability of a sample of at most `v` is the average of the distribution function of the base distribution over
the interval of length one around `v`; this is what `cdf` would have to return. -/
theorem C115_cdf_partial (μ : Measure ℝ) [IsProbabilityMeasure μ] (v : ℝ) :
    rsampleLaw μ (Iic v) = ∫⁻ y in Ioc (v - 1 / 2) (v + 1 / 2), ENNReal.ofReal (cdfOf μ y) := by
  unfold rsampleLaw cdfOf
  have hm : Measurable fun p : ℝ × ℝ => p.1 + p.2 := by fun_prop
  rw [Measure.map_apply hm measurableSet_Iic, Measure.prod_apply_symm (hm measurableSet_Iic)]
  have e : ∀ u : ℝ, μ ((fun x => (x, u)) ⁻¹' ((fun p : ℝ × ℝ => p.1 + p.2) ⁻¹' Iic v)) = ENNReal.ofReal (cdf μ (v - u)) := by
    intro u
    rw [ofReal_cdf]
    congr 1
    ext x
    simp only [mem_preimage, mem_Iic]
    constructor <;> intro h <;> linarith
  rw [lintegral_congr e, noise_eq, ← lintegral_indicator measurableSet_Ico, ← lintegral_indicator measurableSet_Ioc,
    ← lintegral_sub_left_eq_self _ v]
  refine lintegral_congr fun u => ?_
  by_cases hu : u ∈ Ioc (v - 1 / 2) (v + 1 / 2)
  · rw [indicator_of_mem hu, indicator_of_mem (by rw [mem_Ico]; rw [mem_Ioc] at hu; constructor <;> linarith [hu.1, hu.2]),
      sub_sub_cancel]
  · rw [indicator_of_notMem hu, indicator_of_notMem]
    rw [mem_Ico]; rw [mem_Ioc] at hu
    rintro ⟨h1, h2⟩
    exact hu ⟨by linarith, by linarith⟩

/-- **C115, violated: expansion.** Expanding a noisy distribution loses the noise: for every base distribution with a
variance the samples of the expansion have another law. -/
theorem C115_violated_expand (μ : Measure ℝ) [IsProbabilityMeasure μ] (h : MemLp (id : ℝ → ℝ) 2 μ) :
    expandLaw μ ≠ rsampleLaw μ := by
  intro he
  have h2 := rsample_variance μ h
  rw [← he] at h2
  unfold expandLaw at h2
  linarith

/-- **C115, violated: the support.** The reported support is that of the base distribution. If that has values up to `b`,
and those above `b - 1/2` a positive probability, then a sample exceeds `b` with positive probability. -/
theorem C115_violated_support (μ : Measure ℝ) [IsProbabilityMeasure μ] (b : ℝ) (h : 0 < μ (Ioi (b - 1 / 2))) :
    0 < rsampleLaw μ (support (Iic b))ᶜ := by
  unfold support
  rw [compl_Iic, C115_sample μ _ measurableSet_Ioi]
  have hm : Measurable fun x : ℝ => volume (Ioi b ∩ Ico (x - 1 / 2) (x + 1 / 2)) := by
    have : (fun x : ℝ => volume (Ioi b ∩ Ico (x - 1 / 2) (x + 1 / 2))) = fun x => ENNReal.ofReal (x + 1 / 2 - max b (x - 1 / 2)) := by
      funext x
      rcases le_total b (x - 1 / 2) with hb | hb
      · rw [max_eq_right hb, ← Real.volume_Ico]
        rcases hb.eq_or_lt with e | e
        · rw [← e]
          refine measure_congr ?_
          have : Ioi b ∩ Ico b (x + 1 / 2) = Ioo b (x + 1 / 2) := by
            ext y; simp only [mem_inter_iff, mem_Ioi, mem_Ico, mem_Ioo]
            constructor
            · rintro ⟨h1, _, h2⟩; exact ⟨h1, h2⟩
            · rintro ⟨h1, h2⟩; exact ⟨h1, h1.le, h2⟩
          rw [this]
          exact Ioo_ae_eq_Ico
        · have hsub : Ico (x - 1 / 2) (x + 1 / 2) ⊆ Ioi b := fun y hy => lt_of_lt_of_le e hy.1
          rw [inter_eq_right.2 hsub]
      · rw [max_eq_left hb, ← Real.volume_Ioo]
        congr 1
        ext y; simp only [mem_inter_iff, mem_Ioi, mem_Ico, mem_Ioo]
        constructor
        · rintro ⟨h1, _, h2⟩; exact ⟨h1, h2⟩
        · rintro ⟨h1, h2⟩; exact ⟨h1, by linarith, h2⟩
    rw [this]
    fun_prop
  rw [lintegral_pos_iff_support hm]
  refine lt_of_lt_of_le h (measure_mono fun x hx => ?_)
  rw [Function.mem_support]
  have hx' : b - 1 / 2 < x := hx
  have hsub : Ioo (max b (x - 1 / 2)) (x + 1 / 2) ⊆ Ioi b ∩ Ico (x - 1 / 2) (x + 1 / 2) := fun y hy =>
    ⟨lt_of_le_of_lt (le_max_left _ _) hy.1, (lt_of_le_of_lt (le_max_right _ _) hy.1).le, hy.2⟩
  refine (lt_of_lt_of_le ?_ (measure_mono hsub)).ne'
  rw [Real.volume_Ioo, ENNReal.ofReal_pos, sub_pos, max_lt_iff]
  constructor <;> linarith

/-- **C115, violated: the entropy.** The samples have a density of at most one, so that their differential entropy is never
negative, whatever the base distribution; the reported entropy of a noisy normal distribution with a scale of at most a
fifth is negative, and below every bound for small scales. -/
theorem C115_violated_entropy :
    (∀ (μ : Measure ℝ) [IsProbabilityMeasure μ], 0 ≤ ∫ v, -(probOf μ v * Real.log (probOf μ v))) ∧
      (∀ scale : ℝ, 0 < scale → scale ≤ 1 / 5 → normalEntropy scale < 0) ∧
      ∀ B : ℝ, ∃ s0 > 0, ∀ scale, 0 < scale → scale ≤ s0 → normalEntropy scale < B := by
  refine ⟨fun μ _ => integral_nonneg fun v => ?_, fun scale h0 h1 => ?_, fun B => ?_⟩
  · have h := ofReal_prob μ v
    have hn : 0 ≤ probOf μ v := by
      unfold probOf; rw [C46_prob]
      exact sub_nonneg.2 (monotone_cdf μ (by linarith))
    have h1 : probOf μ v ≤ 1 := by
      have := prob_le_one (μ := μ) (s := Ioc (v - 1 / 2) (v + 1 / 2))
      rw [← h, ENNReal.ofReal_le_one] at this
      exact this
    have hl := Real.log_nonpos hn h1
    show 0 ≤ -(probOf μ v * Real.log (probOf μ v))
    nlinarith
  · unfold normalEntropy
    have hp : Real.log (2 * Real.pi) < 2 := by
      rw [Real.log_lt_iff_lt_exp (by positivity)]
      have h3 := Real.exp_one_gt_d9
      have h4 : Real.exp 2 = Real.exp 1 * Real.exp 1 := by rw [← Real.exp_add]; norm_num
      have h5 := Real.pi_lt_d2
      nlinarith
    have hs : Real.log scale ≤ -(3 / 2) := by
      rw [Real.log_le_iff_le_exp h0]
      refine h1.trans ?_
      have h3 := Real.exp_one_lt_d9
      have h4 : Real.exp (3 / 2) * Real.exp (3 / 2) = Real.exp 1 * Real.exp 1 * Real.exp 1 := by
        rw [← Real.exp_add, ← Real.exp_add, ← Real.exp_add]; norm_num
      have h6 : Real.exp 1 * Real.exp 1 * Real.exp 1 ≤ 25 := by
        have := Real.exp_pos 1
        calc Real.exp 1 * Real.exp 1 * Real.exp 1 ≤ 2.72 * 2.72 * 2.72 := by gcongr <;> linarith
          _ ≤ 25 := by norm_num
      have h7 : Real.exp (3 / 2) ≤ 5 := by
        have := Real.exp_pos (3 / 2)
        nlinarith
      rw [Real.exp_neg, one_div]
      exact inv_anti₀ (Real.exp_pos _) h7
    linarith
  · refine ⟨Real.exp (B - 1 - 0.5 * Real.log (2 * Real.pi)), Real.exp_pos _, fun scale h0 h1 => ?_⟩
    have := (Real.log_le_iff_le_exp h0).2 h1
    unfold normalEntropy
    linarith

/-! ### The noisy normal distribution meets the hypotheses -/

example : ∃ v, ENNReal.ofReal (cdfOf (gaussianReal 0 1) v) ≠ rsampleLaw (gaussianReal 0 1) (Iic v) :=
  C115_violated_cdf _ (memLp_id_gaussianReal 2)

example : mean (gaussianReal 3 2) = ∫ v, v ∂(rsampleLaw (gaussianReal 3 2)) :=
  C115_mean _ ((memLp_id_gaussianReal 1).integrable le_rfl)

example : variance (gaussianReal 0 4) = 4 ∧ Var[id; rsampleLaw (gaussianReal 0 4)] = 4 + 1 / 12 := by
  have h := C115_violated_variance (gaussianReal 0 4) (memLp_id_gaussianReal 2)
  have e : variance (gaussianReal 0 4) = 4 := by unfold variance; rw [variance_id_gaussianReal]; norm_num
  exact ⟨e, by rw [e] at h; linarith⟩

example : 0 < rsampleLaw (Measure.dirac (1 : ℝ)) (support (Iic 1))ᶜ :=
  C115_violated_support _ _ (by rw [Measure.dirac_apply' _ measurableSet_Ioi]; norm_num)

end Verif.Layers.Noisy
