import Mathlib.Probability.CDF
import Mathlib.Probability.Distributions.Gaussian.Real

/-
The standard normal distribution function, as used by the likelihood models
(`0.5 * erfc(-x / sqrt(2))` in the code).
-/
namespace Verif

open MeasureTheory ProbabilityTheory Set

/-- Distribution function of the standard normal distribution. -/
noncomputable def Phi (x : ℝ) : ℝ := cdf (gaussianReal 0 1) x

theorem Phi_eq (x : ℝ) : Phi x = (gaussianReal 0 1).real (Iic x) := cdf_eq_real _ _

theorem Phi_nonneg (x : ℝ) : 0 ≤ Phi x := cdf_nonneg _ x

theorem Phi_le_one (x : ℝ) : Phi x ≤ 1 := cdf_le_one _ x

theorem Phi_mono : Monotone Phi := monotone_cdf _

/-- Mass of a half-open interval. -/
theorem Phi_sub (a b : ℝ) (h : a ≤ b) : Phi b - Phi a = (gaussianReal 0 1).real (Ioc a b) := by
  rw [Phi_eq, Phi_eq, ← Iic_union_Ioc_eq_Iic h, measureReal_union _ measurableSet_Ioc]
  · ring
  · rw [Set.disjoint_left]
    intro x hx hx'
    exact absurd hx (not_le.2 hx'.1)

theorem Phi_strictMono : StrictMono Phi := by
  intro a b h
  have h1 := Phi_sub a b h.le
  have h2 : (gaussianReal 0 1) (Ioc a b) ≠ 0 := by
    intro h0
    have := (gaussianReal_absolutelyContinuous' 0 (v := 1) one_ne_zero) h0
    rw [Real.volume_Ioc] at this
    have h3 : b - a ≤ 0 := ENNReal.ofReal_eq_zero.1 this
    linarith
  have h3 : 0 < (gaussianReal 0 1).real (Ioc a b) := by
    rw [Measure.real]
    exact ENNReal.toReal_pos h2 (measure_ne_top _ _)
  linarith

theorem Phi_neg (x : ℝ) : Phi (-x) = 1 - Phi x := by
  have h1 : (gaussianReal 0 1).map (fun x ↦ -x) = gaussianReal 0 1 := by
    rw [gaussianReal_map_neg, neg_zero]
  have h2 : (gaussianReal 0 1).real (Iic (-x)) = (gaussianReal 0 1).real (Ici x) := by
    conv_lhs => rw [← h1]
    rw [map_measureReal_apply measurable_neg measurableSet_Iic]
    congr 1
    ext y
    simp
  have h3 : (gaussianReal 0 1).real (Ici x) = (gaussianReal 0 1).real (Ioi x) := by
    haveI : NullSingletonClass (gaussianReal 0 1) := nullSingletonClass_gaussianReal one_ne_zero
    rw [Measure.real, Measure.real, measure_congr Ioi_ae_eq_Ici]
  have h4 := measureReal_compl (μ := gaussianReal 0 1) (measurableSet_Iic (a := x))
  rw [Set.compl_Iic, probReal_univ] at h4
  rw [Phi_eq, Phi_eq, h2, h3, h4]

theorem Phi_zero : Phi 0 = 1 / 2 := by
  have := Phi_neg 0
  rw [neg_zero] at this
  linarith

theorem Phi_pos (x : ℝ) : 0 < Phi x :=
  lt_of_le_of_lt (Phi_nonneg (x - 1)) (Phi_strictMono (by linarith))

theorem Phi_lt_one (x : ℝ) : Phi x < 1 :=
  lt_of_lt_of_le (Phi_strictMono (show x < x + 1 by linarith)) (Phi_le_one _)

/-- Distribution function of a general Gaussian. -/
theorem cdf_gaussian (μ s : ℝ) (hs : 0 < s) (x : ℝ) :
    (gaussianReal μ (s ^ 2).toNNReal).real (Iic x) = Phi ((x - μ) / s) := by
  have h1 : gaussianReal μ (s ^ 2).toNNReal = (gaussianReal 0 1).map (fun y ↦ s * y + μ) := by
    have e : (fun y : ℝ ↦ s * y + μ) = (fun y ↦ y + μ) ∘ (fun y ↦ s * y) := rfl
    have m1 : Measurable (fun y : ℝ ↦ y + μ) := measurable_id.add_const μ
    rw [e, ← Measure.map_map m1 (measurable_const_mul s),
      gaussianReal_map_const_mul, gaussianReal_map_add_const]
    congr 1
    · ring
    · rw [mul_one, Real.toNNReal_of_nonneg (sq_nonneg s)]
  rw [h1, map_measureReal_apply ((measurable_const_mul s).add_const μ) measurableSet_Iic, Phi_eq]
  congr 1
  ext y
  simp only [mem_preimage, mem_Iic]
  rw [le_div_iff₀ hs]
  constructor <;> intro h <;> linarith

end Verif
