import Verif.Vct.RateGrad
import Verif.Vct.PropsReport
import Verif.NormalDeriv
import Mathlib.Analysis.SpecialFunctions.Log.Deriv
import Mathlib.Analysis.Calculus.Deriv.Inv

/-!
C153: the gradients of the rate of the video bottleneck are its derivatives.
-/

namespace Verif.Vct

open Real Filter Topology

/-! ### The likelihood -/

theorem cumulativeBack_eq (z g : ℝ) : cumulativeBack z g = g * phi z := by
  unfold cumulativeBack phi
  have h2 : √2 * √2 = (2 : ℝ) := Real.mul_self_sqrt (by norm_num)
  have e : -(-(1 / √2) * z) ^ 2 = -z ^ 2 / 2 := by
    have h0 : √2 ≠ 0 := by positivity
    field_simp
    nlinarith [h2]
  simp only [e]
  rw [Real.sqrt_mul (by norm_num)]
  have h0 : √2 ≠ 0 := by positivity
  have h1 : √π ≠ 0 := by positivity
  field_simp

/-- The likelihood without the absolute value. -/
theorem likelihood_eq (m s x : ℝ) : likelihood m s x = Phi ((x - m + 1 / 2) / s) - Phi ((x - m - 1 / 2) / s) := by
  unfold likelihood
  rcases le_total 0 (x - m) with h | h
  · rw [abs_of_nonneg h, show (1 / 2 - (x - m)) / s = -((x - m - 1 / 2) / s) by ring,
      show (-(1 / 2) - (x - m)) / s = -((x - m + 1 / 2) / s) by ring, Phi_neg, Phi_neg]
    ring
  · rw [abs_of_nonpos h]
    congr 2 <;> ring

/-- The backward pass of the likelihood without the absolute value. -/
theorem likelihoodBack_eq (m s x g : ℝ) :
    likelihoodBack m s x g =
      (g * ((phi ((x - m + 1 / 2) / s) - phi ((x - m - 1 / 2) / s)) / s),
        -(g * ((phi ((x - m + 1 / 2) / s) - phi ((x - m - 1 / 2) / s)) / s)),
        g * (phi ((x - m - 1 / 2) / s) * ((x - m - 1 / 2) / s) - phi ((x - m + 1 / 2) / s) * ((x - m + 1 / 2) / s)) / s) := by
  unfold likelihoodBack
  simp only [cumulativeBack_eq]
  rcases lt_trichotomy (x - m) 0 with h | h | h
  · rw [Real.sign_of_neg h, abs_of_neg h, show (1 / 2 - -(x - m)) / s = (x - m + 1 / 2) / s by ring,
      show (-(1 / 2) - -(x - m)) / s = (x - m - 1 / 2) / s by ring]
    refine Prod.ext ?_ (Prod.ext ?_ ?_) <;> simp only <;> ring
  · rw [h, Real.sign_zero, abs_zero, show (0 + 1 / 2 : ℝ) / s = (1 / 2) / s by ring,
      show (0 - 1 / 2 : ℝ) / s = -((1 / 2) / s) by ring, show (1 / 2 - 0 : ℝ) / s = (1 / 2) / s by ring,
      show (-(1 / 2) - 0 : ℝ) / s = -((1 / 2) / s) by ring]
    simp only [phi_neg]
    refine Prod.ext ?_ (Prod.ext ?_ ?_) <;> simp only <;> ring
  · rw [Real.sign_of_pos h, abs_of_pos h, show (1 / 2 - (x - m)) / s = -((x - m - 1 / 2) / s) by ring,
      show (-(1 / 2) - (x - m)) / s = -((x - m + 1 / 2) / s) by ring]
    simp only [phi_neg]
    refine Prod.ext ?_ (Prod.ext ?_ ?_) <;> simp only <;> ring

/-- Along any path of input, mean and scale, the likelihood changes as its backward pass says. -/
theorem hasDerivAt_likelihood {m s x : ℝ → ℝ} {m' s' x' t : ℝ} (hm : HasDerivAt m m' t) (hs : HasDerivAt s s' t)
    (hx : HasDerivAt x x' t) (h0 : s t ≠ 0) :
    HasDerivAt (fun t => likelihood (m t) (s t) (x t))
      ((likelihoodBack (m t) (s t) (x t) 1).1 * x' + (likelihoodBack (m t) (s t) (x t) 1).2.1 * m' +
        (likelihoodBack (m t) (s t) (x t) 1).2.2 * s') t := by
  have e : (fun t => likelihood (m t) (s t) (x t)) =
      fun t => Phi ((x t - m t + 1 / 2) / s t) - Phi ((x t - m t - 1 / 2) / s t) := by
    funext t; exact likelihood_eq _ _ _
  rw [e]
  have h1 : HasDerivAt (fun t => (x t - m t + 1 / 2) / s t) _ t := ((hx.sub hm).add_const (1 / 2)).div hs h0
  have h2 : HasDerivAt (fun t => (x t - m t - 1 / 2) / s t) _ t := ((hx.sub hm).sub_const (1 / 2)).div hs h0
  have h3 : HasDerivAt (fun t => Phi ((x t - m t + 1 / 2) / s t) - Phi ((x t - m t - 1 / 2) / s t)) _ t :=
    ((hasDerivAt_Phi _).comp t h1).sub ((hasDerivAt_Phi _).comp t h2)
  refine h3.congr_deriv ?_
  rw [likelihoodBack_eq]
  simp only [Pi.sub_apply]
  field_simp
  ring

theorem likelihoodBack_lin (m s x g : ℝ) : likelihoodBack m s x g =
    (g * (likelihoodBack m s x 1).1, g * (likelihoodBack m s x 1).2.1, g * (likelihoodBack m s x 1).2.2) := by
  simp only [likelihoodBack_eq]
  refine Prod.ext ?_ (Prod.ext ?_ ?_) <;> simp only <;> ring

/-! ### What the forward pass uses -/

/-- Specification: the mean used for the latent centred at the nearest integer: the distance to that integer, at most the
largest mean of the table; zero if the table has only one. -/
noncomputable def usedMean (c : BnCfg) (mean : ℝ) : ℝ :=
  if c.numMeans = 1 then 0 else min (mean - roundHalfEven mean) (1 / 2 - 1 / c.numMeans)

/-- Specification: the scale used. -/
noncomputable def usedScale (c : BnCfg) (scale : ℝ) : ℝ := min (verysoftplus scale) c.scalesMax + c.scalesMin

theorem used_eq {c : BnCfg} (hc : c.Ok) (mean scale : ℝ) :
    priorParams c (normalizeIndexes c (getIndexesMode c true mean scale)).1
      (normalizeIndexes c (getIndexesMode c true mean scale)).2 = (usedMean c mean, usedScale c scale) := by
  refine Prod.ext ?_ ?_
  · unfold usedMean
    split_ifs with hm
    · exact mean_one hm _ _ _
    · exact mean_used hc mean hm _ _
  show fromScaleIdx c (normalizeIndexes c (getIndexesMode c true mean scale)).2 = _
  have ht0 : 0 ≤ toScaleIdx c (verysoftplus scale) := toScaleIdx_nonneg hc (verysoftplus_pos scale).le
  have : (normalizeIndexes c (getIndexesMode c true mean scale)).2 =
      min (toScaleIdx c (verysoftplus scale)) ((c.numScales : ℝ) - 1) := by
    show -max (-max _ 0) _ = _
    rw [clip_eq]
    show min (max (toScaleIdx c (verysoftplus scale)) 0) _ = _
    rw [max_eq_left ht0]
  rw [this, ← toScaleIdx_max hc, usedScale]
  rcases le_total (verysoftplus scale) c.scalesMax with h | h
  · rw [min_eq_left h, min_eq_left (toScaleIdx_mono hc (verysoftplus_pos scale).le h),
      from_to hc _ (verysoftplus_pos scale).le]
  · rw [min_eq_right h, min_eq_right (toScaleIdx_mono hc hc.max.le h), from_to hc _ hc.max.le]

theorem usedScale_pos {c : BnCfg} (hc : c.Ok) (scale : ℝ) : 0 < usedScale c scale := by
  have := lt_min (verysoftplus_pos scale) hc.max
  have := hc.min
  unfold usedScale; linarith

/-- The likelihood of an entry before the lower bound: what `forward` reports when no bound is set. -/
noncomputable def rawLik (c : BnCfg) (noise x scale mean : ℝ) : ℝ := (bnForward c 0 true noise x scale mean).2

theorem rawLik_eq {c : BnCfg} (hc : c.Ok) (noise x scale mean : ℝ) :
    rawLik c noise x scale mean = likelihood (usedMean c mean) (usedScale c scale) (x - roundHalfEven mean + noise) := by
  have := used_eq hc mean scale
  simp only [rawLik, bnForward, gaussianForward, quantizeMode, lt_irrefl, if_false, if_true]
  rw [this]

theorem rawLik_pos {c : BnCfg} (hc : c.Ok) (noise x scale mean : ℝ) : 0 < rawLik c noise x scale mean := by
  rw [rawLik_eq hc]
  exact ((C29_distribution _ _ (usedScale_pos hc scale)).1 _).1

theorem trainBits_eq {c : BnCfg} (bound noise x scale mean : ℝ) : trainBits c bound noise x scale mean =
    log (open Classical in if 0 < bound then max (rawLik c noise x scale mean) bound else rawLik c noise x scale mean) /
      -log 2 := by
  simp [trainBits, rawLik, bnForward, gaussianForward]

/-- The backward pass in terms of the likelihood's: `gLik` is the gradient that reaches the likelihood. -/
theorem back_eq {c : BnCfg} (hc : c.Ok) (bound noise x scale mean g : ℝ) {gLik : ℝ}
    (hg : (open Classical in if 0 < bound then lowerBoundBack bound (rawLik c noise x scale mean)
      (g / -log 2 / (max (rawLik c noise x scale mean) bound)) else g / -log 2 / rawLik c noise x scale mean) = gLik) :
    let gl := likelihoodBack (usedMean c mean) (usedScale c scale) (x - roundHalfEven mean + noise) gLik
    (trainBitsBack c bound noise x scale mean g).input = gl.1 ∧
    (trainBitsBack c bound noise x scale mean g).mean = -gl.1 ∧
    (trainBitsBack c bound noise x scale mean g).scale =
      verysoftplusBack scale (toScaleIdxBack c (verysoftplus scale)
        (normalizeBack c.numScales (toScaleIdx c (verysoftplus scale))
          (fromScaleIdxBack c (min (toScaleIdx c (verysoftplus scale)) ((c.numScales : ℝ) - 1)) gl.2.2))) := by
  have hu := used_eq hc mean scale
  have ht0 : 0 ≤ toScaleIdx c (verysoftplus scale) := toScaleIdx_nonneg hc (verysoftplus_pos scale).le
  have hp2 : (normalizeIndexes c (getIndexesMode c true mean scale)).2 =
      min (toScaleIdx c (verysoftplus scale)) ((c.numScales : ℝ) - 1) := by
    show -max (-max _ 0) _ = _
    rw [clip_eq]
    show min (max (toScaleIdx c (verysoftplus scale)) 0) _ = _
    rw [max_eq_left ht0]
  rw [rawLik_eq hc] at hg
  have hgl : (open Classical in
      let lik := likelihood (usedMean c mean) (usedScale c scale) (x - roundHalfEven mean + noise)
      if 0 < bound then lowerBoundBack bound lik (g / -log 2 / (if 0 < bound then max lik bound else lik))
        else g / -log 2 / (if 0 < bound then max lik bound else lik)) = gLik := by
    rw [← hg]
    by_cases hb : 0 < bound <;> simp [hb]
  intro gl
  refine ⟨?_, ?_, ?_⟩
  · simp only [trainBitsBack, hu]
    simp only at hgl
    rw [hgl]
  · simp only [trainBitsBack, hu]
    simp only at hgl
    rw [hgl]
    ring
  · simp only [trainBitsBack, hu]
    simp only at hgl
    rw [hgl, hp2]
    rfl

/-- The gradient that reaches the likelihood when it is above the bound. -/
theorem gLik_above {bound lik g : ℝ} (h : bound < lik) :
    (open Classical in if 0 < bound then lowerBoundBack bound lik (g / -log 2 / (max lik bound))
      else g / -log 2 / lik) = g / -log 2 / lik := by
  split_ifs
  · rw [max_eq_left h.le, lowerBoundBack, if_pos (Or.inl h.le)]
  · rfl

/-- How the bits change where the likelihood is above the bound. -/
theorem hasDerivAt_bits {bound t L' g : ℝ} {L : ℝ → ℝ} (hL : HasDerivAt L L' t) (hpos : 0 < L t) (hb : bound < L t) :
    HasDerivAt (fun t => g * (log (open Classical in if 0 < bound then max (L t) bound else L t) / -log 2))
      (g / -log 2 / L t * L') t := by
  have h1 : HasDerivAt (fun t => g * (log (L t) / -log 2)) (g / -log 2 / L t * L') t := by
    have : HasDerivAt (fun t => g * (log (L t) / -log 2)) _ t := ((hL.log hpos.ne').div_const (-log 2)).const_mul g
    refine this.congr_deriv ?_
    field_simp
  refine h1.congr_of_eventuallyEq ?_
  filter_upwards [hL.continuousAt.eventually (lt_mem_nhds hb)] with u hu
  split_ifs
  · rw [max_eq_left hu.le]
  · rfl

/-! ### The theorems -/

/-- **C153, the latent.** Where the likelihood is above its lower bound, the gradient of the latent is the derivative of the
rate that the forward pass reports, also where the latent is exactly the mean and the absolute value has no
derivative. -/
theorem C153_input {c : BnCfg} (hc : c.Ok) {bound : ℝ} (noise x scale mean g : ℝ)
    (hb : bound < rawLik c noise x scale mean) :
    HasDerivAt (fun x => g * trainBits c bound noise x scale mean)
      (trainBitsBack c bound noise x scale mean g).input x := by
  have hL : HasDerivAt (fun x => rawLik c noise x scale mean)
      (likelihoodBack (usedMean c mean) (usedScale c scale) (x - roundHalfEven mean + noise) 1).1 x := by
    simp only [rawLik_eq hc]
    have hx : HasDerivAt (fun x : ℝ => x - roundHalfEven mean + noise) 1 x :=
      ((hasDerivAt_id x).sub_const _).add_const _
    have := hasDerivAt_likelihood (hasDerivAt_const x (usedMean c mean)) (hasDerivAt_const x (usedScale c scale)) hx
      (usedScale_pos hc scale).ne'
    refine this.congr_deriv ?_
    ring
  have h := hasDerivAt_bits (g := g) hL (rawLik_pos hc noise x scale mean) hb
  simp only [trainBits_eq]
  refine h.congr_deriv ?_
  rw [(back_eq hc bound noise x scale mean g (gLik_above hb)).1]
  rw [likelihoodBack_lin _ _ _ (g / -log 2 / rawLik c noise x scale mean)]

theorem hasDerivAt_verysoftplus (s : ℝ) :
    HasDerivAt verysoftplus (if 0 < s then 1 else 1 / (1 - s) ^ 2) s := by
  have hneg : ∀ s : ℝ, s < 1 → HasDerivAt (fun s : ℝ => 1 / (1 - s)) (1 / (1 - s) ^ 2) s := by
    intro s hs
    have h1 : HasDerivAt (fun s : ℝ => 1 - s) (-1) s := by simpa using (hasDerivAt_id s).const_sub 1
    have h2 : HasDerivAt (fun s : ℝ => 1 / (1 - s)) _ s := (hasDerivAt_const s (1 : ℝ)).div h1 (by linarith)
    refine h2.congr_deriv ?_
    simp
  have hpos : ∀ s : ℝ, HasDerivAt (fun s : ℝ => s + 1) 1 s := fun s => (hasDerivAt_id s).add_const 1
  rcases lt_trichotomy s 0 with h | h | h
  · rw [if_neg (by linarith)]
    refine (hneg s (by linarith)).congr_of_eventuallyEq ?_
    filter_upwards [gt_mem_nhds h] with u hu
    simp [verysoftplus, not_lt.2 hu.le, min_eq_left hu.le]
  · subst h
    rw [if_neg (lt_irrefl _)]
    have hl : HasDerivWithinAt verysoftplus (1 / (1 - 0) ^ 2) (Set.Iic 0) 0 := by
      refine (hneg 0 (by norm_num)).hasDerivWithinAt.congr ?_ ?_
      · intro u hu
        simp [verysoftplus, not_lt.2 (Set.mem_Iic.1 hu), min_eq_left (Set.mem_Iic.1 hu)]
      · simp [verysoftplus]
    have hr : HasDerivWithinAt verysoftplus (1 / (1 - 0) ^ 2) (Set.Ici 0) 0 := by
      have : HasDerivWithinAt (fun s : ℝ => s + 1) (1 / (1 - 0) ^ 2) (Set.Ici 0) 0 := by
        simpa using (hpos 0).hasDerivWithinAt
      refine this.congr ?_ ?_
      · intro u hu
        rcases (Set.mem_Ici.1 hu).eq_or_lt with e | e
        · subst e; simp [verysoftplus]
        · simp [verysoftplus, e, max_eq_left e.le]
      · simp [verysoftplus]
    have := hl.union hr
    rwa [Set.Iic_union_Ici, hasDerivWithinAt_univ] at this
  · rw [if_pos h]
    refine (hpos s).congr_of_eventuallyEq ?_
    filter_upwards [lt_mem_nhds h] with u hu
    simp [verysoftplus, hu, max_eq_left hu.le]

theorem verysoftplusBack_eq {s : ℝ} (hs : s ≠ 0) (g : ℝ) :
    verysoftplusBack s g = g * (if 0 < s then 1 else 1 / (1 - s) ^ 2) := by
  unfold verysoftplusBack maxZeroBack minZeroBack
  rcases lt_or_gt_of_ne hs with h | h
  · simp [hs, not_lt.2 h.le, h, min_eq_left h.le]
  · simp [hs, h, not_lt.2 h.le]

theorem verysoftplusBack_zero (g : ℝ) : verysoftplusBack 0 g = g / 2 := by
  simp [verysoftplusBack, maxZeroBack, minZeroBack]

/-- The derivative of the rate with respect to the scale, below the largest scale. -/
theorem hasDerivAt_scale {c : BnCfg} (hc : c.Ok) {bound : ℝ} (noise x scale mean g : ℝ)
    (hb : bound < rawLik c noise x scale mean) (hmax : verysoftplus scale < c.scalesMax) :
    HasDerivAt (fun scale => g * trainBits c bound noise x scale mean)
      (g / -log 2 / rawLik c noise x scale mean *
        ((likelihoodBack (usedMean c mean) (usedScale c scale) (x - roundHalfEven mean + noise) 1).2.2 *
          (if 0 < scale then 1 else 1 / (1 - scale) ^ 2))) scale := by
  have hs : HasDerivAt (usedScale c) (if 0 < scale then 1 else 1 / (1 - scale) ^ 2) scale := by
    have h1 := (hasDerivAt_verysoftplus scale).add_const c.scalesMin
    refine h1.congr_of_eventuallyEq ?_
    filter_upwards [(hasDerivAt_verysoftplus scale).continuousAt.eventually (gt_mem_nhds hmax)] with u hu
    simp [usedScale, min_eq_left hu.le]
  have hL : HasDerivAt (fun scale => rawLik c noise x scale mean)
      ((likelihoodBack (usedMean c mean) (usedScale c scale) (x - roundHalfEven mean + noise) 1).2.2 *
          (if 0 < scale then 1 else 1 / (1 - scale) ^ 2)) scale := by
    simp only [rawLik_eq hc]
    have := hasDerivAt_likelihood (hasDerivAt_const scale (usedMean c mean)) hs
      (hasDerivAt_const scale (x - roundHalfEven mean + noise)) (usedScale_pos hc scale).ne'
    refine this.congr_deriv ?_
    ring
  have h := hasDerivAt_bits (g := g) hL (rawLik_pos hc noise x scale mean) hb
  simp only [trainBits_eq]
  exact h

theorem normalizeBack_inside {n : ℕ} {i g : ℝ} (h0 : 0 ≤ i) (h1 : i ≤ (n : ℝ) - 1) : normalizeBack n i g = g := by
  unfold normalizeBack lowerBoundBack
  rw [max_eq_left h0, if_pos (Or.inl h0), if_pos (Or.inl (by linarith)), neg_neg]

/-- The scale's gradient before `verysoftplus`, below the largest scale. -/
theorem back_scale {c : BnCfg} (hc : c.Ok) {bound : ℝ} (noise x scale mean g : ℝ)
    (hb : bound < rawLik c noise x scale mean) (hmax : verysoftplus scale < c.scalesMax) :
    (trainBitsBack c bound noise x scale mean g).scale =
      verysoftplusBack scale (g / -log 2 / rawLik c noise x scale mean *
        (likelihoodBack (usedMean c mean) (usedScale c scale) (x - roundHalfEven mean + noise) 1).2.2) := by
  have h0 : 0 ≤ toScaleIdx c (verysoftplus scale) := toScaleIdx_nonneg hc (verysoftplus_pos scale).le
  have h1 : toScaleIdx c (verysoftplus scale) ≤ (c.numScales : ℝ) - 1 := by
    rw [← toScaleIdx_max hc]; exact toScaleIdx_mono hc (verysoftplus_pos scale).le hmax.le
  rw [(back_eq hc bound noise x scale mean g (gLik_above hb)).2.2, normalizeBack_inside h0 h1, min_eq_left h1,
    likelihoodBack_lin]
  congr 1
  unfold toScaleIdxBack fromScaleIdxBack
  rw [from_to hc _ (verysoftplus_pos scale).le]
  have l1 := (logNorm_pos hc).ne'
  have l2 := (binsPred_pos hc).ne'
  have l3 : verysoftplus scale + c.scalesMin ≠ 0 := by
    have := verysoftplus_pos scale
    have := hc.min
    linarith
  field_simp

/-- **C153, the scale.** Where the likelihood is above its bound and the scale is below the largest one, the gradient of the
predicted scale is the derivative of the reported rate, except for a predicted scale of exactly zero. **Missing:** zero
(`C153_violated_zero`). -/
theorem C153_scale_partial {c : BnCfg} (hc : c.Ok) {bound : ℝ} (noise x scale mean g : ℝ)
    (hb : bound < rawLik c noise x scale mean) (hmax : verysoftplus scale < c.scalesMax) (h0 : scale ≠ 0) :
    HasDerivAt (fun scale => g * trainBits c bound noise x scale mean)
      (trainBitsBack c bound noise x scale mean g).scale scale := by
  refine (hasDerivAt_scale hc noise x scale mean g hb hmax).congr_deriv ?_
  rw [back_scale hc noise x scale mean g hb hmax, verysoftplusBack_eq h0, mul_assoc]

/-- **C153 is false for a predicted scale of exactly zero**: the gradient is half of the derivative, for every input, mean and
setting whose largest scale is above one. -/
theorem C153_violated_zero {c : BnCfg} (hc : c.Ok) (h1 : 1 < c.scalesMax) {bound : ℝ} (noise x mean g : ℝ)
    (hb : bound < rawLik c noise x 0 mean) :
    HasDerivAt (fun scale => g * trainBits c bound noise x scale mean)
      (2 * (trainBitsBack c bound noise x 0 mean g).scale) 0 := by
  have hv : verysoftplus 0 = 1 := by simp [verysoftplus]
  have hmax : verysoftplus 0 < c.scalesMax := by rw [hv]; exact h1
  refine (hasDerivAt_scale hc noise x 0 mean g hb hmax).congr_deriv ?_
  rw [back_scale hc noise x 0 mean g hb hmax, verysoftplusBack_zero]
  simp
  ring

/-- **C153, above the largest scale:** the rate does not change there, and the gradient of the scale never asks a descent
step to make it larger still. -/
theorem C153_largest {c : BnCfg} (hc : c.Ok) (bound noise x scale mean g : ℝ) (hmax : c.scalesMax < verysoftplus scale) :
    HasDerivAt (fun scale => g * trainBits c bound noise x scale mean) 0 scale ∧
      0 ≤ (trainBitsBack c bound noise x scale mean g).scale := by
  constructor
  · have h1 : HasDerivAt (fun _ : ℝ => g * trainBits c bound noise x scale mean) 0 scale := hasDerivAt_const _ _
    refine h1.congr_of_eventuallyEq ?_
    filter_upwards [(hasDerivAt_verysoftplus scale).continuousAt.eventually (lt_mem_nhds hmax)] with u hu
    simp only [trainBits_eq, rawLik_eq hc, usedScale, min_eq_right hu.le, min_eq_right hmax.le]
  · have h0 : 0 ≤ toScaleIdx c (verysoftplus scale) := toScaleIdx_nonneg hc (verysoftplus_pos scale).le
    have h2 : (c.numScales : ℝ) - 1 < toScaleIdx c (verysoftplus scale) := by
      rw [← toScaleIdx_max hc]; exact toScaleIdx_strictMono hc hc.max.le hmax
    have hn : ∀ g, 0 ≤ normalizeBack c.numScales (toScaleIdx c (verysoftplus scale)) g := by
      intro g
      unfold normalizeBack lowerBoundBack
      rw [max_eq_left h0, if_pos (Or.inl h0)]
      split_ifs with h
      · rcases h with h | h <;> linarith
      · simp
    rw [(back_eq hc bound noise x scale mean g rfl).2.2]
    have ht : ∀ g, 0 ≤ g → 0 ≤ toScaleIdxBack c (verysoftplus scale) g := by
      intro g hg
      have := (logNorm_pos hc).le
      have := (binsPred_pos hc).le
      have := (verysoftplus_pos scale).le
      have := hc.min.le
      unfold toScaleIdxBack; positivity
    have hv : ∀ g, 0 ≤ g → 0 ≤ verysoftplusBack scale g := by
      intro g hg
      by_cases h : scale = 0
      · subst h; rw [verysoftplusBack_zero]; linarith
      · rw [verysoftplusBack_eq h]
        split_ifs <;> positivity
    exact hv _ (ht _ (hn _))

/-- **C153, mean and latent:** the gradients of the predicted mean and of the latent are always opposite. -/
theorem C153_opposite {c : BnCfg} (hc : c.Ok) (bound noise x scale mean g : ℝ) :
    (trainBitsBack c bound noise x scale mean g).mean = -(trainBitsBack c bound noise x scale mean g).input := by
  have := back_eq hc bound noise x scale mean g rfl
  rw [this.2.1, this.1]

theorem usedMean_eq {c : BnCfg} (hm : c.numMeans ≠ 1) (mean : ℝ) :
    usedMean c mean = min (mean - roundHalfEven mean) (1 / 2 - 1 / c.numMeans) := by
  simp [usedMean, hm]

/-- **C153, the mean.** Although the code rounds the mean and passes gradients straight through, the gradient of the
predicted mean is the derivative of the reported rate, wherever the distance of the mean to the nearest integer `k` is not
above the largest mean of the table. **Missing:** the means in the last bin (`C153_violated_mean`). -/
theorem C153_mean_partial {c : BnCfg} (hc : c.Ok) (hm : c.numMeans ≠ 1) {bound : ℝ} (noise x scale mean g : ℝ) (k : ℤ)
    (h1 : -(1 / 2) < mean - k) (h2 : mean - k < 1 / 2 - 1 / c.numMeans) (hb : bound < rawLik c noise x scale mean) :
    HasDerivAt (fun mean => g * trainBits c bound noise x scale mean)
      (trainBitsBack c bound noise x scale mean g).mean mean := by
  have hN : (0 : ℝ) < c.numMeans := by exact_mod_cast hc.means
  have hN' : (0 : ℝ) < 1 / c.numMeans := by positivity
  have hr : ∀ u : ℝ, -(1 / 2) < u - k → u - k < 1 / 2 - 1 / c.numMeans →
      roundHalfEven u = k ∧ usedMean c u = u - k := by
    intro u a b
    have e : roundHalfEven u = k := roundHalfEven_of_near u k (by rw [abs_lt]; constructor <;> linarith)
    refine ⟨e, ?_⟩
    rw [usedMean_eq hm, e, min_eq_left b.le]
  have hL : HasDerivAt (fun mean => rawLik c noise x scale mean)
      (-(likelihoodBack (usedMean c mean) (usedScale c scale) (x - roundHalfEven mean + noise) 1).1) mean := by
    have hmm : HasDerivAt (fun u : ℝ => u - (k : ℝ)) 1 mean := (hasDerivAt_id mean).sub_const _
    have := hasDerivAt_likelihood hmm (hasDerivAt_const mean (usedScale c scale))
      (hasDerivAt_const mean (x - k + noise)) (usedScale_pos hc scale).ne'
    obtain ⟨e1, e2⟩ := hr mean h1 h2
    have h3 : HasDerivAt (fun u => likelihood (u - (k : ℝ)) (usedScale c scale) (x - k + noise))
        (-(likelihoodBack (usedMean c mean) (usedScale c scale) (x - roundHalfEven mean + noise) 1).1) mean := by
      refine this.congr_deriv ?_
      rw [e1, e2, likelihoodBack_eq]
      ring
    refine h3.congr_of_eventuallyEq ?_
    have c1 : ∀ᶠ u in 𝓝 mean, -(1 / 2) < u - (k : ℝ) := by
      filter_upwards [lt_mem_nhds (show (k : ℝ) - 1 / 2 < mean by linarith)] with u hu; linarith
    have c2 : ∀ᶠ u in 𝓝 mean, u - (k : ℝ) < 1 / 2 - 1 / c.numMeans := by
      filter_upwards [gt_mem_nhds (show mean < (k : ℝ) + (1 / 2 - 1 / c.numMeans) by linarith)] with u hu; linarith
    filter_upwards [c1, c2] with u a b
    obtain ⟨f1, f2⟩ := hr u a b
    rw [rawLik_eq hc, f1, f2]
  have h := hasDerivAt_bits (g := g) hL (rawLik_pos hc noise x scale mean) hb
  simp only [trainBits_eq]
  refine h.congr_deriv ?_
  rw [(back_eq hc bound noise x scale mean g (gLik_above hb)).2.1,
    likelihoodBack_lin _ _ _ (g / -log 2 / rawLik c noise x scale mean)]
  ring

/-- The gradient of the latent is zero only at the mean. -/
theorem C153_nonzero {c : BnCfg} (hc : c.Ok) {bound : ℝ} (noise x scale mean g : ℝ) (hg : g ≠ 0)
    (hb : bound < rawLik c noise x scale mean) (hx : x + noise ≠ roundHalfEven mean + usedMean c mean) :
    (trainBitsBack c bound noise x scale mean g).input ≠ 0 := by
  have hs := usedScale_pos hc scale
  have hl := rawLik_pos hc noise x scale mean
  have h2 : (0 : ℝ) < log 2 := Real.log_pos (by norm_num)
  rw [(back_eq hc bound noise x scale mean g (gLik_above hb)).1, likelihoodBack_eq]
  simp only
  set t := x - roundHalfEven mean + noise - usedMean c mean with ht
  have ht0 : t ≠ 0 := by
    intro h; apply hx; linarith
  have hphi : phi ((t + 1 / 2) / usedScale c scale) ≠ phi ((t - 1 / 2) / usedScale c scale) := by
    intro h
    unfold phi at h
    have hc0 : (√(2 * π))⁻¹ ≠ 0 := by positivity
    have h3 := Real.exp_injective (mul_left_cancel₀ hc0 h)
    rw [div_pow, div_pow] at h3
    have h4 : (t + 1 / 2) ^ 2 = (t - 1 / 2) ^ 2 := by
      have hs2 : usedScale c scale ^ 2 ≠ 0 := by positivity
      field_simp at h3
      linarith
    apply ht0; linarith
  have : g / -log 2 / rawLik c noise x scale mean ≠ 0 := by
    apply div_ne_zero (div_ne_zero hg (by linarith)) hl.ne'
  exact mul_ne_zero this (div_ne_zero (sub_ne_zero.2 hphi) hs.ne')

/-- **C153 is false for means in the last bin** (and for every mean if there is only one in the table): the reported rate does
not change with the mean, but the gradient is not zero. -/
theorem C153_violated_mean {c : BnCfg} (hc : c.Ok) {bound : ℝ} (noise x scale mean g : ℝ) (k : ℤ)
    (h1 : 1 / 2 - 1 / c.numMeans < mean - k) (h2 : mean - k < 1 / 2) (hg : g ≠ 0)
    (hb : bound < rawLik c noise x scale mean) (hx : x + noise ≠ k + usedMean c mean) :
    HasDerivAt (fun mean => g * trainBits c bound noise x scale mean) 0 mean ∧
      (trainBitsBack c bound noise x scale mean g).mean ≠ 0 := by
  have hN : (0 : ℝ) < c.numMeans := by exact_mod_cast hc.means
  have hN1 : (1 : ℝ) ≤ c.numMeans := by exact_mod_cast hc.means
  have hle : (1 : ℝ) / c.numMeans ≤ 1 := by rw [div_le_one hN]; exact hN1
  have hr : ∀ u : ℝ, 1 / 2 - 1 / c.numMeans < u - k → u - k < 1 / 2 →
      roundHalfEven u = k ∧ usedMean c u = (if c.numMeans = 1 then (0 : ℝ) else 1 / 2 - 1 / (c.numMeans : ℝ)) := by
    intro u a b
    have e : roundHalfEven u = k := roundHalfEven_of_near u k (by rw [abs_lt]; constructor <;> linarith)
    refine ⟨e, ?_⟩
    split_ifs with hm
    · simp [usedMean, hm]
    · rw [usedMean_eq hm, e, min_eq_right a.le]
  refine ⟨?_, ?_⟩
  · have h0 : HasDerivAt (fun _ : ℝ => g * trainBits c bound noise x scale mean) 0 mean := hasDerivAt_const _ _
    refine h0.congr_of_eventuallyEq ?_
    have c1 : ∀ᶠ u in 𝓝 mean, 1 / 2 - 1 / (c.numMeans : ℝ) < u - (k : ℝ) := by
      filter_upwards [lt_mem_nhds (show (k : ℝ) + (1 / 2 - 1 / c.numMeans) < mean by linarith)] with u hu; linarith
    have c2 : ∀ᶠ u in 𝓝 mean, u - (k : ℝ) < 1 / 2 := by
      filter_upwards [gt_mem_nhds (show mean < (k : ℝ) + 1 / 2 by linarith)] with u hu; linarith
    filter_upwards [c1, c2] with u a b
    obtain ⟨f1, f2⟩ := hr u a b
    obtain ⟨e1, e2⟩ := hr mean h1 h2
    simp only [trainBits_eq, rawLik_eq hc, f1, f2, e1, e2]
  · rw [C153_opposite hc]
    have := C153_nonzero hc noise x scale mean g hg hb (by rw [(hr mean h1 h2).1]; exact hx)
    simpa using this

/-- **C153, very unlikely latents.** Where the likelihood is below its bound and the rate is counted in the loss with a
positive factor, the gradient of the latent is still that of the true rate, with a positive factor: training still moves
the latent towards the mean. -/
theorem C153_tail {c : BnCfg} (hc : c.Ok) {bound : ℝ} (noise x scale mean g : ℝ) (hg : 0 < g)
    (hb : rawLik c noise x scale mean < bound) :
    HasDerivAt (fun x => g * (log (rawLik c noise x scale mean) / -log 2))
      (bound / rawLik c noise x scale mean * (trainBitsBack c bound noise x scale mean g).input) x := by
  have hl := rawLik_pos hc noise x scale mean
  have hb0 : 0 < bound := hl.trans hb
  have h2 : (0 : ℝ) < log 2 := Real.log_pos (by norm_num)
  have hL := C153_input (bound := 0) hc noise x scale mean g hl
  simp only [trainBits_eq, lt_irrefl, if_false] at hL
  refine hL.congr_deriv ?_
  have hneg : g / -log 2 / bound < 0 := by
    rw [div_neg, neg_div]
    have : 0 < g / log 2 / bound := by positivity
    linarith
  have e : (open Classical in if 0 < bound then lowerBoundBack bound (rawLik c noise x scale mean)
      (g / -log 2 / (max (rawLik c noise x scale mean) bound)) else g / -log 2 / rawLik c noise x scale mean) =
        g / -log 2 / bound := by
    rw [if_pos hb0, max_eq_right hb.le, lowerBoundBack, if_pos (Or.inr hneg)]
  rw [(back_eq hc bound noise x scale mean g e).1, (back_eq hc 0 noise x scale mean g (gLik_above hl)).1,
    likelihoodBack_lin _ _ _ (g / -log 2 / rawLik c noise x scale mean), likelihoodBack_lin _ _ _ (g / -log 2 / bound)]
  simp only
  field_simp

/-- **C153, the direction of training:** for a rate that counts with a positive factor, a descent step on the latent moves
the noisy latent towards the mean, whatever the likelihood. -/
theorem C153_towards {c : BnCfg} (hc : c.Ok) {bound : ℝ} (noise x scale mean g : ℝ) (hg : 0 < g)
    (hx : x + noise ≠ roundHalfEven mean + usedMean c mean) :
    0 < (trainBitsBack c bound noise x scale mean g).input * (x + noise - (roundHalfEven mean + usedMean c mean)) := by
  have hl := rawLik_pos hc noise x scale mean
  have hs := usedScale_pos hc scale
  have h2 : (0 : ℝ) < log 2 := Real.log_pos (by norm_num)
  obtain ⟨b, hb0, e⟩ : ∃ b : ℝ, 0 < b ∧ (open Classical in if 0 < bound then lowerBoundBack bound (rawLik c noise x scale mean)
      (g / -log 2 / (max (rawLik c noise x scale mean) bound)) else g / -log 2 / rawLik c noise x scale mean) = -b := by
    have hneg : ∀ d : ℝ, 0 < d → g / -log 2 / d = -(g / log 2 / d) := by intro d _; rw [div_neg, neg_div]
    split_ifs with h
    · have hm : 0 < max (rawLik c noise x scale mean) bound := lt_max_of_lt_left hl
      refine ⟨g / log 2 / max (rawLik c noise x scale mean) bound, by positivity, ?_⟩
      rw [hneg _ hm, lowerBoundBack, if_pos]
      right
      have : 0 < g / log 2 / max (rawLik c noise x scale mean) bound := by positivity
      linarith
    · exact ⟨g / log 2 / rawLik c noise x scale mean, by positivity, hneg _ hl⟩
  rw [(back_eq hc bound noise x scale mean g e).1, likelihoodBack_eq]
  simp only
  set t := x - roundHalfEven mean + noise - usedMean c mean with ht
  rw [show x + noise - (roundHalfEven mean + usedMean c mean) = t by rw [ht]; ring]
  have ht0 : t ≠ 0 := by intro h; apply hx; linarith
  set z := usedScale c scale
  have hmono : ∀ a b : ℝ, a ^ 2 < b ^ 2 → phi (b / z) < phi (a / z) := by
    intro a b hab
    unfold phi
    have hc0 : 0 < (√(2 * π))⁻¹ := by positivity
    refine mul_lt_mul_of_pos_left (Real.exp_lt_exp.2 ?_) hc0
    rw [div_pow, div_pow, neg_div, neg_div, neg_lt_neg_iff]
    gcongr
  rw [show -b * ((phi ((t + 1 / 2) / z) - phi ((t - 1 / 2) / z)) / z) * t =
    b / z * ((phi ((t - 1 / 2) / z) - phi ((t + 1 / 2) / z)) * t) by ring]
  refine mul_pos (div_pos hb0 hs) ?_
  rcases lt_or_gt_of_ne ht0 with h | h
  · exact mul_pos_of_neg_of_neg (sub_neg.2 (hmono _ _ (by nlinarith))) h
  · exact mul_pos (sub_pos.2 (hmono _ _ (by nlinarith))) h

/-- Non-vacuity: the published setting (scales from 0.01 to 64 in 256 bins, 100 means) and no bound: a latent above the mean
with a usable gradient, in the regime of every theorem with a bound. -/
example : ∃ c : BnCfg, c.Ok ∧ c.numMeans ≠ 1 ∧ 1 < c.scalesMax ∧
    (∀ noise x scale mean, 0 < rawLik c noise x scale mean) ∧
    verysoftplus 3 < c.scalesMax ∧ c.scalesMax < verysoftplus 100 ∧
    (-(1 / 2) < (0.2 : ℝ) - (0 : ℤ) ∧ (0.2 : ℝ) - (0 : ℤ) < 1 / 2 - 1 / c.numMeans) ∧
    (1 / 2 - 1 / c.numMeans < (0.495 : ℝ) - (0 : ℤ) ∧ (0.495 : ℝ) - (0 : ℤ) < 1 / 2) := by
  have hok : (⟨100, 256, 0.01, 64⟩ : BnCfg).Ok := by constructor <;> norm_num
  refine ⟨⟨100, 256, 0.01, 64⟩, hok, by norm_num, by norm_num, fun n x s m => rawLik_pos hok n x s m, ?_, ?_, ?_, ?_⟩
  · norm_num [verysoftplus]
  · norm_num [verysoftplus]
  · norm_num
  · norm_num

/-- Non-vacuity of `C153_tail`: below a bound of one every likelihood is. -/
example {c : BnCfg} (hc : c.Ok) (noise x scale mean : ℝ) : rawLik c noise x scale mean < 1 := by
  rw [rawLik_eq hc, likelihood_eq]
  have := Phi_lt_one ((x - roundHalfEven mean + noise - usedMean c mean + 1 / 2) / usedScale c scale)
  have := Phi_pos ((x - roundHalfEven mean + noise - usedMean c mean - 1 / 2) / usedScale c scale)
  linarith

end Verif.Vct
