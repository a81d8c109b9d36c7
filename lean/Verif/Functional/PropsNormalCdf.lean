import Verif.Functional.NormalCdf

/-!
C37: the normal distribution helpers are consistent with each other.
-/

namespace Verif.Functional

open Real MeasureTheory ProbabilityTheory

/-! ### ndtr is the normal distribution function -/

theorem ndtr_eq_Phi (x : ℝ) : ndtr x = Phi x := by
  have h5 : (0.5 : ℝ) = 1 / 2 := by norm_num
  unfold ndtr erfc
  simp only [h5]
  rw [Phi_erf x]
  have hs : (0 : ℝ) < √(1 / 2) := by positivity
  split_ifs with h1 h2
  · rfl
  · rw [abs_of_pos h2]; ring
  · rw [abs_of_nonpos (not_lt.1 h2), erf_neg]; ring

/-- **C37 (ndtr).** On all its branches `ndtr x` is the probability that a standard normal variable is at
most `x`; so it lies in `[0, 1]`, indeed strictly inside, and `ndtr x + ndtr (-x) = 1`. -/
theorem C37_ndtr (x : ℝ) :
    ndtr x = (gaussianReal 0 1).real (Set.Iic x) ∧ 0 < ndtr x ∧ ndtr x < 1 ∧ ndtr x + ndtr (-x) = 1 := by
  rw [ndtr_eq_Phi, ndtr_eq_Phi, Phi_neg]
  exact ⟨Phi_eq x, Phi_pos x, Phi_lt_one x, by ring⟩

/-- Non-vacuity: the three branches of the function are all taken. -/
example : ndtr 0 = 1 / 2 ∧ ndtr 3 = 1 - 0.5 * erfc (3 * √0.5) ∧ ndtr (-3) = 0.5 * erfc (3 * √0.5) := by
  have hs : (0 : ℝ) < √0.5 := Real.sqrt_pos.2 (by norm_num)
  refine ⟨?_, ?_, ?_⟩
  · rw [ndtr_eq_Phi, Phi_zero]
  · unfold ndtr
    have h : |3 * √0.5| = 3 * √0.5 := abs_of_pos (by positivity)
    simp only [h]
    rw [if_neg (by linarith), if_pos (by positivity)]
  · unfold ndtr
    have h : |-3 * √0.5| = 3 * √0.5 := by rw [neg_mul, abs_neg, abs_of_pos (by positivity)]
    simp only [h]
    rw [if_neg (by linarith), if_neg (by nlinarith)]

theorem scale_erf (z : ℝ) : 0.5 * (1 + erf (z / √2)) = Phi z := by
  rw [Phi_erf]
  have : √(1 / 2 : ℝ) = 1 / √2 := by rw [Real.sqrt_div (by norm_num)]; simp
  rw [this, mul_one_div]; ring

theorem normal_cdf (loc scale x : ℝ) : (Dist.normal loc scale).cdf x = Phi ((x - loc) / scale) := by
  rw [← scale_erf, div_eq_mul_inv (x - loc)]
  rfl

/-- **C37 (survival function).** `survival_function` is one minus the distribution function, for every
distribution, also on the normal branch that computes it differently. -/
theorem C37_survival (x : ℝ) (d : Dist) : survivalFunction x d = 1 - d.cdf x := by
  cases d with
  | normal loc scale =>
    rw [normal_cdf, ← Phi_neg, ← ndtr_eq_Phi]
    rfl
  | uniform low high => rfl
  | other cdf => rfl

/-! ### The logarithms -/

theorem logNdtrWith_eq {m n x : ℝ} (h : m ≤ x) : logNdtrWith m n x = log (ndtr x) := by
  unfold logNdtrWith log1p
  by_cases h1 : x > n
  · rw [if_pos h1, ndtr_eq_Phi, ndtr_eq_Phi, Phi_neg]
    congr 1
    ring
  · rw [if_neg h1, if_pos h]

/-- The smallest argument for which the series is not used. -/
def cutoff : Dtype → ℝ
  | .float32 => -10
  | .float64 => -20
  | .other => 0

theorem cutoff_le {d : Dtype} (hd : d ≠ .other) : cutoff d ≤ -10 := by
  cases d <;> simp_all [cutoff]
  norm_num

theorem logNdtr_eq {d : Dtype} (hd : d ≠ .other) {x : ℝ} (h : cutoff d ≤ x) :
    logNdtr d x = .ok (log (ndtr x)) := by
  cases d with
  | float32 => exact congrArg Except.ok (logNdtrWith_eq h)
  | float64 => exact congrArg Except.ok (logNdtrWith_eq h)
  | other => exact absurd rfl hd

/-- The value of the series of order three with the code's coefficients `-1, 1, -3`. -/
theorem logNdtrSeries_three (x : ℝ) : logNdtrSeries x =
    -0.5 * (log (2 * π) + x ^ 2) - log (-x) + log (1 + (-1 / x ^ 2 + 1 / x ^ 4 - 3 / x ^ 6)) := by
  have h1 : (List.range' 1 3) = [1, 2, 3] := rfl
  simp only [logNdtrSeries, log1p, h1, List.foldl_cons, List.foldl_nil, Series.step]
  congr 3
  have e4 : x ^ 2 * x ^ 2 = x ^ 4 := by ring
  have e6 : x ^ 2 * x ^ 2 * x ^ 2 = x ^ 6 := by ring
  rw [e6, e4]
  norm_num
  ring

/-- The series in terms of `t = -x`: the logarithm of the density times a polynomial in `1 / t`. -/
theorem logNdtrSeries_neg {t : ℝ} (ht : 10 ≤ t) :
    logNdtrSeries (-t) = log (phi t * (t⁻¹ - (t ^ 3)⁻¹ + (t ^ 5)⁻¹ - 3 * (t ^ 7)⁻¹)) ∧
      0 < t⁻¹ - (t ^ 3)⁻¹ + (t ^ 5)⁻¹ - 3 * (t ^ 7)⁻¹ := by
  have h0 : 0 < t := by linarith
  have hfac : t⁻¹ - (t ^ 3)⁻¹ + (t ^ 5)⁻¹ - 3 * (t ^ 7)⁻¹ =
      t⁻¹ * (1 + (-1 / t ^ 2 + 1 / t ^ 4 - 3 / t ^ 6)) := by
    field_simp; ring
  set w := (t ^ 2)⁻¹ with hw
  have hw0 : 0 < w := by positivity
  have hw1 : w ≤ 1 / 100 := by
    rw [hw, inv_le_comm₀ (by positivity) (by norm_num)]
    norm_num; nlinarith
  have hpos : 0 < 1 + (-1 / t ^ 2 + 1 / t ^ 4 - 3 / t ^ 6) := by
    have : 1 + (-1 / t ^ 2 + 1 / t ^ 4 - 3 / t ^ 6) = 1 - w + w ^ 2 - 3 * w ^ 3 := by
      rw [hw]; field_simp; ring
    rw [this]
    nlinarith [mul_pos hw0 hw0, mul_pos (mul_pos hw0 hw0) hw0, mul_le_mul hw1 hw1 hw0.le (by norm_num : (0:ℝ) ≤ 1/100)]
  refine ⟨?_, by rw [hfac]; positivity⟩
  rw [logNdtrSeries_three, hfac, log_mul (phi_pos t).ne' (by positivity), log_mul (by positivity) hpos.ne',
    log_inv]
  have e : log (phi t) = -0.5 * (log (2 * π) + t ^ 2) := by
    unfold phi
    rw [log_mul (by positivity) (exp_pos _).ne', log_exp, log_inv, log_sqrt (by positivity)]
    ring
  rw [e, neg_neg]
  have e2 : (-t) ^ 2 = t ^ 2 := by ring
  have e4 : (-t) ^ 4 = t ^ 4 := by ring
  have e6 : (-t) ^ 6 = t ^ 6 := by ring
  rw [e2, e4, e6]
  ring

theorem series_error {t : ℝ} (ht : 10 ≤ t) :
    logNdtrSeries (-t) < log (Phi (-t)) ∧ log (Phi (-t)) ≤ logNdtrSeries (-t) + 3 / t ^ 4 := by
  obtain ⟨he, hp⟩ := logNdtrSeries_neg ht
  have h0 : 0 < t := by linarith
  have hphi := phi_pos t
  rw [he, Phi_neg]
  set P := t⁻¹ - (t ^ 3)⁻¹ + (t ^ 5)⁻¹ - 3 * (t ^ 7)⁻¹ with hP
  have hlow := tail_lower h0
  have hupp := tail_upper h0
  have hcode : 0 < phi t * P := by positivity
  constructor
  · refine log_lt_log hcode (lt_trans ?_ hlow)
    refine mul_lt_mul_of_pos_left ?_ hphi
    have : t⁻¹ - (t ^ 3)⁻¹ + 3 * (t ^ 5)⁻¹ - 15 * (t ^ 7)⁻¹ - P = (2 * t ^ 2 - 12) * (t ^ 7)⁻¹ := by
      rw [hP]; field_simp; ring
    have h2 : 0 < (2 * t ^ 2 - 12) * (t ^ 7)⁻¹ := by
      have : 0 < 2 * t ^ 2 - 12 := by nlinarith
      positivity
    linarith
  · have hQ : 0 < 1 - Phi t := by have := Phi_lt_one t; linarith
    have hle : 1 - Phi t ≤ phi t * P * (1 + 3 / t ^ 4) := by
      refine hupp.le.trans ?_
      rw [mul_assoc]
      refine mul_le_mul_of_nonneg_left ?_ hphi.le
      have : P * (1 + 3 / t ^ 4) - (t⁻¹ - (t ^ 3)⁻¹ + 3 * (t ^ 5)⁻¹) =
          (t ^ 6 - 6 * t ^ 4 + 3 * t ^ 2 - 9) * (t ^ 11)⁻¹ := by
        rw [hP]; field_simp; ring
      have h3 : 0 ≤ (t ^ 6 - 6 * t ^ 4 + 3 * t ^ 2 - 9) * (t ^ 11)⁻¹ := by
        have ht2 : 100 ≤ t ^ 2 := by nlinarith
        have : 0 ≤ t ^ 6 - 6 * t ^ 4 + 3 * t ^ 2 - 9 := by
          have e : t ^ 6 - 6 * t ^ 4 + 3 * t ^ 2 - 9 = t ^ 4 * (t ^ 2 - 6) + (3 * t ^ 2 - 9) := by ring
          rw [e]
          have : 0 ≤ t ^ 4 * (t ^ 2 - 6) := mul_nonneg (by positivity) (by linarith)
          linarith
        positivity
      linarith
    have hl := log_le_log hQ hle
    have h1 : (0 : ℝ) < 1 + 3 / t ^ 4 := by positivity
    rw [log_mul hcode.ne' h1.ne'] at hl
    have h2 := log_le_sub_one_of_pos h1
    linarith

/-- **C37 (log_ndtr, partial).** For both supported precisions: from the cutoff (-10, -20) upwards
`log_ndtr` is exactly the logarithm of `ndtr`; below it, it is an approximation from below whose error is
at most `3 / x ^ 4` (so at most `3e-4`). This is in exact arithmetic: in double precision the cast of `ndtr` to
single precision breaks it from -15 down to the cutoff (`C37_violated_double`). Missing from the property: equality
below the cutoff, which is false (`C37_violated`). -/
theorem C37_log_ndtr_partial {d : Dtype} (hd : d ≠ .other) (x : ℝ) :
    ∃ y, logNdtr d x = .ok y ∧ (cutoff d ≤ x → y = log (ndtr x)) ∧
      (x < cutoff d → log (ndtr x) - 3 / x ^ 4 ≤ y ∧ y < log (ndtr x)) := by
  by_cases h : cutoff d ≤ x
  · exact ⟨_, logNdtr_eq hd h, fun _ => rfl, fun h' => absurd h (not_le.2 h')⟩
  · refine ⟨logNdtrSeries x, ?_, fun h' => absurd h' h, fun h' => ?_⟩
    · cases d with
      | float32 =>
        simp only [cutoff, not_le] at h
        refine congrArg Except.ok ?_
        unfold logNdtrWith
        simp only
        rw [if_neg (by linarith), if_neg (by simpa using h)]
      | float64 =>
        simp only [cutoff, not_le] at h
        refine congrArg Except.ok ?_
        unfold logNdtrWith
        simp only
        rw [if_neg (by linarith), if_neg (by simpa using h)]
      | other => exact absurd rfl hd
    · have hx : 10 ≤ -x := by have := cutoff_le hd; linarith
      have := series_error hx
      rw [neg_neg] at this
      rw [ndtr_eq_Phi]
      have e : (-x) ^ 4 = x ^ 4 := by ring
      rw [e] at this
      exact ⟨by linarith [this.2], this.1⟩

/-- Non-vacuity: both cases occur, for both precisions. -/
example : (cutoff .float32 ≤ -1 ∧ (-30 : ℝ) < cutoff .float32) ∧ cutoff .float64 ≤ -1 ∧ (-30 : ℝ) < cutoff .float64 := by
  norm_num [cutoff]

/-- **C37 (log_cdf and log_survival_function, partial).** For a normal distribution, both are the logarithm
of what the distribution function and the survival function return as long as the standardised argument
does not leave the range of `log_ndtr` on the relevant side, and fall below it by at most `3 / z ^ 4`
otherwise. For a distribution that is neither normal nor uniform `log_cdf` is the logarithm of its
distribution function. For `Uniform(0, 1)` it is so on `(0, 1]`. Missing: the other uniform distributions,
and `log_survival_function` for everything that is not normal, where the claim is false
(`C37_violated`). -/
theorem C37_logs_partial {d : Dtype} (hd : d ≠ .other) (x : ℝ) :
    (∀ loc scale, (cutoff d ≤ (x - loc) / scale →
          logCdf d x (.normal loc scale) = .ok (log ((Dist.normal loc scale).cdf x))) ∧
        ((x - loc) / scale ≤ -cutoff d →
          logSurvivalFunction d x (.normal loc scale) = .ok (log (survivalFunction x (.normal loc scale)))) ∧
        (∃ y, logCdf d x (.normal loc scale) = .ok y ∧ y ≤ log ((Dist.normal loc scale).cdf x) ∧
          log ((Dist.normal loc scale).cdf x) ≤ y + 3 / ((x - loc) / scale) ^ 4) ∧
        (∃ y, logSurvivalFunction d x (.normal loc scale) = .ok y ∧
          y ≤ log (survivalFunction x (.normal loc scale)) ∧
          log (survivalFunction x (.normal loc scale)) ≤ y + 3 / ((x - loc) / scale) ^ 4)) ∧
      (∀ cdf, logCdf d x (.other cdf) = .ok (log ((Dist.other cdf).cdf x))) ∧
      (0 < x → x ≤ 1 → logCdf d x (.uniform 0 1) = .ok (log ((Dist.uniform 0 1).cdf x))) := by
  have approx : ∀ z, ∃ y, logNdtr d z = .ok y ∧ y ≤ log (ndtr z) ∧ log (ndtr z) ≤ y + 3 / z ^ 4 := by
    intro z
    obtain ⟨y, hy, h1, h2⟩ := C37_log_ndtr_partial hd z
    refine ⟨y, hy, ?_⟩
    by_cases h : cutoff d ≤ z
    · rw [h1 h]
      have : 0 ≤ 3 / z ^ 4 := by positivity
      exact ⟨le_refl _, by linarith⟩
    · have := h2 (not_le.1 h)
      exact ⟨this.2.le, by linarith⟩
  refine ⟨fun loc scale => ⟨fun h => ?_, fun h => ?_, ?_, ?_⟩, fun cdf => rfl, fun h0 h1 => ?_⟩
  · rw [normal_cdf, ← ndtr_eq_Phi]; exact logNdtr_eq hd h
  · exact logNdtr_eq hd (by linarith)
  · rw [normal_cdf, ← ndtr_eq_Phi]; exact approx _
  · have := approx (-((x - loc) / scale))
    have e : (-((x - loc) / scale)) ^ 4 = ((x - loc) / scale) ^ 4 := by ring
    rw [e] at this
    exact this
  · unfold logCdf Dist.cdf
    simp [h0.le, h1]

/-- Non-vacuity of the range conditions. -/
example : cutoff .float32 ≤ ((3 : ℝ) - 1) / 2 ∧ ((3 : ℝ) - 1) / 2 ≤ -cutoff .float32 := by
  norm_num [cutoff]

/-- The logarithm that a helper should return. -/
def LogOf (r : Except CdfError ℝ) (p : ℝ) : Prop := r = .ok (log p)

/-- **C37 is violated** in four ways.
1. `log_ndtr` is *never* the logarithm of `ndtr` below its cutoff: the series has the double factorials
   `1, 1, 3` where the expansion of the normal tail has `1, 3, 15`.
2. `log_cdf` of a uniform distribution ignores its bounds: on `[0, 2]` it returns 0 at 1, where the
   distribution function is 1/2.
3. `log_survival_function` of a distribution that is not normal is `log (1 + cdf (-x))`: on `[0, 1]` at 1/2
   it is 0, where the survival function is 1/2.
4. For every distribution symmetric about zero it returns the logarithm of `2 - cdf x`, which is wrong at
   every `x` of positive survival probability. -/
theorem C37_violated :
    (∀ d, d ≠ .other → ∀ x, x < cutoff d → ¬ LogOf (logNdtr d x) (ndtr x)) ∧
    (∀ d, ¬ LogOf (logCdf d 1 (.uniform 0 2)) ((Dist.uniform 0 2).cdf 1)) ∧
    (∀ d, ¬ LogOf (logSurvivalFunction d (1 / 2) (.uniform 0 1)) (survivalFunction (1 / 2) (.uniform 0 1))) ∧
    (∀ d cdf x, cdf (-x) = 1 - cdf x → 0 ≤ cdf x → cdf x < 1 →
      ¬ LogOf (logSurvivalFunction d x (.other cdf)) (survivalFunction x (.other cdf))) := by
  refine ⟨?_, ?_, ?_, ?_⟩
  · intro d hd x hx hlog
    obtain ⟨y, hy, -, h⟩ := C37_log_ndtr_partial hd x
    have h2 := (h hx).2
    rw [LogOf, hy, Except.ok.injEq] at hlog
    linarith
  · intro d h
    simp only [LogOf, logCdf, Dist.cdf, Except.ok.injEq] at h
    have e : max 0 (min 1 (((1 : ℝ) - 0) / (2 - 0))) = 1 / 2 := by norm_num
    rw [e, log_one] at h
    have := log_neg (show (0 : ℝ) < 1 / 2 by norm_num) (by norm_num)
    linarith
  · intro d h
    simp only [LogOf, logSurvivalFunction, survivalFunction, Dist.cdf, log1p, Except.ok.injEq] at h
    have e : max 0 (min 1 ((-(1 / 2 : ℝ) - 0) / (1 - 0))) = 0 := by norm_num
    have e2 : max 0 (min 1 (((1 / 2 : ℝ) - 0) / (1 - 0))) = 1 / 2 := by norm_num
    rw [e, e2] at h
    norm_num at h
    have := log_neg (show (0 : ℝ) < 1 / 2 by norm_num) (by norm_num)
    linarith
  · intro d cdf x hsym h0 h1 h
    simp only [LogOf, logSurvivalFunction, survivalFunction, log1p, Except.ok.injEq] at h
    rw [hsym] at h
    have ha : 0 < log (1 + (1 - cdf x)) := log_pos (by linarith)
    have hb : log (1 - cdf x) ≤ 0 := log_nonpos (by linarith) (by linarith)
    linarith

/-- Non-vacuity: a symmetric distribution function for the last clause (uniform on `[-2, 2]`). -/
example : let cdf := (Dist.uniform (-2) 2).cdf
    cdf (-1) = 1 - cdf 1 ∧ 0 ≤ cdf 1 ∧ cdf 1 < 1 := by
  norm_num [Dist.cdf]

/-- The other element types raise `TypeError`. -/
theorem C37_dtype (x : ℝ) : logNdtr .other x = .error .type := rfl

end Verif.Functional
