import Verif.Normal
import Mathlib.Analysis.Calculus.Deriv.MeanValue
import Mathlib.MeasureTheory.Integral.IntervalIntegral.FundThmCalculus
import Mathlib.Analysis.SpecialFunctions.ExpDeriv
import Mathlib.Analysis.SpecialFunctions.Exp

/-!
Derivative of the normal distribution function, the error function, and bounds for its tail.
-/

namespace Verif

open MeasureTheory ProbabilityTheory Set Filter Topology Real

/-- Density of the standard normal distribution. -/
noncomputable def phi (t : ℝ) : ℝ := (√(2 * π))⁻¹ * exp (-t ^ 2 / 2)

theorem phi_pos (t : ℝ) : 0 < phi t := by unfold phi; positivity

theorem phi_eq (t : ℝ) : gaussianPDFReal 0 1 t = phi t := by
  simp [gaussianPDFReal, phi]

theorem phi_neg (t : ℝ) : phi (-t) = phi t := by simp [phi]

theorem continuous_phi : Continuous phi := by unfold phi; fun_prop

theorem Phi_integral (a b : ℝ) (h : a ≤ b) : Phi b - Phi a = ∫ t in a..b, phi t := by
  rw [Phi_sub a b h, intervalIntegral.integral_of_le h, Measure.real,
    gaussianReal_apply_eq_integral 0 one_ne_zero, ENNReal.toReal_ofReal]
  · simp only [phi_eq]
  · exact integral_nonneg fun t => gaussianPDFReal_nonneg 0 1 t

theorem hasDerivAt_Phi (x : ℝ) : HasDerivAt Phi (phi x) x := by
  have h1 : HasDerivAt (fun u => ∫ t in (x - 1)..u, phi t) (phi x) x :=
    intervalIntegral.integral_hasDerivAt_right (continuous_phi.intervalIntegrable _ _)
      (continuous_phi.stronglyMeasurableAtFilter _ _) continuous_phi.continuousAt
  have h2 : HasDerivAt (fun u => (∫ t in (x - 1)..u, phi t) + Phi (x - 1)) (phi x) x := h1.add_const _
  refine h2.congr_of_eventuallyEq ?_
  filter_upwards [Ioi_mem_nhds (show x - 1 < x by linarith)] with u hu
  rw [← Phi_integral (x - 1) u (le_of_lt hu)]
  ring

theorem hasDerivAt_phi (x : ℝ) : HasDerivAt phi (-x * phi x) x := by
  have h1 : HasDerivAt (fun t : ℝ => -t ^ 2 / 2) (-x) x := by
    have : HasDerivAt (fun t : ℝ => -t ^ 2 / 2) _ x := ((hasDerivAt_pow 2 x).neg).div_const 2
    refine this.congr_deriv ?_
    simp only [Nat.cast_ofNat, Nat.add_one_sub_one, pow_one]
    ring
  have h2 : HasDerivAt phi _ x := (h1.exp).const_mul (√(2 * π))⁻¹
  refine h2.congr_deriv ?_
  unfold phi; ring

/-- The error function, as `torch.erf` documents it. -/
noncomputable def erf (x : ℝ) : ℝ := 2 / √π * ∫ t in (0 : ℝ)..x, exp (-t ^ 2)

/-- `torch.erfc`. -/
noncomputable def erfc (x : ℝ) : ℝ := 1 - erf x

theorem hasDerivAt_erf (x : ℝ) : HasDerivAt erf (2 / √π * exp (-x ^ 2)) x := by
  have hc : Continuous fun t : ℝ => exp (-t ^ 2) := by fun_prop
  exact (intervalIntegral.integral_hasDerivAt_right (hc.intervalIntegrable _ _)
    (hc.stronglyMeasurableAtFilter _ _) hc.continuousAt).const_mul _

theorem erf_zero : erf 0 = 0 := by simp [erf]

/-- The normal distribution function through the error function. -/
theorem Phi_erf (x : ℝ) : Phi x = 1 / 2 + 1 / 2 * erf (x * √(1 / 2)) := by
  have hd : ∀ y, HasDerivAt (fun x => Phi x - (1 / 2 + 1 / 2 * erf (x * √(1 / 2)))) 0 y := by
    intro y
    have h1 : HasDerivAt (fun x : ℝ => x * √(1 / 2)) (√(1 / 2)) y := by
      simpa using (hasDerivAt_id y).mul_const (√(1 / 2))
    have h2 := (((hasDerivAt_erf (y * √(1 / 2))).comp y h1).const_mul (1 / 2)).const_add (1 / 2)
    have h3 : HasDerivAt (fun x => Phi x - (1 / 2 + 1 / 2 * erf (x * √(1 / 2)))) _ y :=
      (hasDerivAt_Phi y).sub h2
    refine h3.congr_deriv ?_
    have e1 : (y * √(1 / 2)) ^ 2 = y ^ 2 / 2 := by
      rw [mul_pow, Real.sq_sqrt (by norm_num)]; ring
    rw [e1]
    have e2 : √(2 * π) = √2 * √π := Real.sqrt_mul (by norm_num) _
    have e3 : √(1 / 2) = 1 / √2 := by rw [Real.sqrt_div (by norm_num)]; simp
    unfold phi
    rw [e2, e3, neg_div]
    have : √2 ≠ 0 := by positivity
    have : √π ≠ 0 := by positivity
    field_simp
    ring
  have hconst := is_const_of_deriv_eq_zero (fun y => (hd y).differentiableAt) (fun y => (hd y).deriv) x 0
  simp only [Phi_zero, zero_mul, erf_zero] at hconst
  linarith

theorem erf_neg (x : ℝ) : erf (-x) = -erf x := by
  have h1 := Phi_erf (x / √(1 / 2))
  have h2 := Phi_erf (-(x / √(1 / 2)))
  have hs : √(1 / 2 : ℝ) ≠ 0 := by positivity
  rw [div_mul_cancel₀ _ hs] at h1
  rw [neg_mul, div_mul_cancel₀ _ hs, Phi_neg] at h2
  linarith

/-! ### Tail bounds -/

theorem pos_of_anti {f f' : ℝ → ℝ} (hf : ∀ t, 0 < t → HasDerivAt f (f' t) t) (hneg : ∀ t, 0 < t → f' t < 0)
    (hlim : Tendsto f atTop (𝓝 0)) {t : ℝ} (ht : 0 < t) : 0 < f t := by
  have hanti : StrictAntiOn f (Ioi 0) := by
    refine strictAntiOn_of_deriv_neg (convex_Ioi 0) ?_ ?_
    · exact fun x hx => (hf x hx).continuousAt.continuousWithinAt
    · intro x hx
      rw [interior_Ioi] at hx
      rw [(hf x hx).deriv]
      exact hneg x hx
  have h1 : f (t + 1) < f t := hanti (show (0 : ℝ) < t from ht) (show (0 : ℝ) < t + 1 by linarith) (by linarith)
  have h2 : 0 ≤ f (t + 1) := by
    refine le_of_tendsto hlim ?_
    filter_upwards [eventually_ge_atTop (t + 1)] with s hs
    exact hanti.antitoneOn (show (0 : ℝ) < t + 1 by linarith) (show (0 : ℝ) < s by linarith) hs
  linarith

theorem tendsto_tail : Tendsto (fun t => 1 - Phi t) atTop (𝓝 0) := by
  have h : Tendsto Phi atTop (𝓝 1) := tendsto_cdf_atTop _
  simpa using h.const_sub 1

theorem phi_le (t : ℝ) : phi t ≤ (√(2 * π))⁻¹ := by
  unfold phi
  have : exp (-t ^ 2 / 2) ≤ 1 := by
    rw [exp_le_one_iff]; nlinarith [sq_nonneg t]
  have h2 : (0 : ℝ) ≤ (√(2 * π))⁻¹ := by positivity
  nlinarith

theorem tendsto_phi_mul {g : ℝ → ℝ} (hg : Tendsto g atTop (𝓝 0)) :
    Tendsto (fun t => phi t * g t) atTop (𝓝 0) := by
  refine bdd_le_mul_tendsto_zero' ((√(2 * π))⁻¹) ?_ hg
  filter_upwards with t
  rw [abs_of_pos (phi_pos t)]
  exact phi_le t

theorem tendsto_inv_pow (k : ℕ) (c : ℝ) (hk : k ≠ 0) : Tendsto (fun t : ℝ => c * (t ^ k)⁻¹) atTop (𝓝 0) := by
  have := (tendsto_inv_atTop_zero.comp (tendsto_pow_atTop (α := ℝ) hk)).const_mul c
  simpa using this

theorem hasDerivAt_inv_pow (k : ℕ) {t : ℝ} (ht : t ≠ 0) :
    HasDerivAt (fun t : ℝ => (t ^ k)⁻¹) (-k * (t ^ (k + 1))⁻¹) t := by
  have h : HasDerivAt (fun t : ℝ => (t ^ k)⁻¹) _ t := (hasDerivAt_pow k t).inv (pow_ne_zero k ht)
  refine h.congr_deriv ?_
  rcases Nat.eq_zero_or_pos k with rfl | hk
  · simp
  · obtain ⟨m, rfl⟩ : ∃ m, k = m + 1 := ⟨k - 1, by omega⟩
    simp only [Nat.add_sub_cancel]
    field_simp
    ring

/-- Lower bound for the tail (four terms of the asymptotic series). -/
theorem tail_lower {t : ℝ} (ht : 0 < t) :
    phi t * (t⁻¹ - (t ^ 3)⁻¹ + 3 * (t ^ 5)⁻¹ - 15 * (t ^ 7)⁻¹) < 1 - Phi t := by
  have key : 0 < (fun t => (1 - Phi t) -
      phi t * (t⁻¹ - (t ^ 3)⁻¹ + 3 * (t ^ 5)⁻¹ - 15 * (t ^ 7)⁻¹)) t := by
    refine pos_of_anti (f := fun t => (1 - Phi t) -
      phi t * (t⁻¹ - (t ^ 3)⁻¹ + 3 * (t ^ 5)⁻¹ - 15 * (t ^ 7)⁻¹)) 
      (f' := fun t => -(105 * phi t * (t ^ 8)⁻¹)) ?_ ?_ ?_ ht
    · intro s hs
      have hs0 : s ≠ 0 := hs.ne'
      have d1 := hasDerivAt_inv_pow 1 hs0
      have d3 := hasDerivAt_inv_pow 3 hs0
      have d5 := (hasDerivAt_inv_pow 5 hs0).const_mul 3
      have d7 := (hasDerivAt_inv_pow 7 hs0).const_mul 15
      have hg := ((d1.sub d3).add d5).sub d7
      have h := ((hasDerivAt_Phi s).const_sub 1).sub ((hasDerivAt_phi s).mul hg)
      have h' : HasDerivAt (fun t => (1 - Phi t) -
          phi t * (t⁻¹ - (t ^ 3)⁻¹ + 3 * (t ^ 5)⁻¹ - 15 * (t ^ 7)⁻¹)) _ s :=
        h.congr_of_eventuallyEq (Eventually.of_forall fun t => by simp)
      refine h'.congr_deriv ?_
      simp only [Pi.sub_apply, Pi.add_apply]
      push_cast
      field_simp
      ring
    · intro s hs
      have := phi_pos s
      simp only [neg_lt_zero]
      positivity
    · have hg : Tendsto (fun t : ℝ => t⁻¹ - (t ^ 3)⁻¹ + 3 * (t ^ 5)⁻¹ - 15 * (t ^ 7)⁻¹) atTop (𝓝 0) := by
        have := (((tendsto_inv_pow 1 1 (by norm_num)).sub (tendsto_inv_pow 3 1 (by norm_num))).add
          (tendsto_inv_pow 5 3 (by norm_num))).sub (tendsto_inv_pow 7 15 (by norm_num))
        simpa using this
      simpa using tendsto_tail.sub (tendsto_phi_mul hg)
  simpa using key

/-- Upper bound for the tail (three terms of the asymptotic series). -/
theorem tail_upper {t : ℝ} (ht : 0 < t) :
    1 - Phi t < phi t * (t⁻¹ - (t ^ 3)⁻¹ + 3 * (t ^ 5)⁻¹) := by
  have key : 0 < (fun t => phi t * (t⁻¹ - (t ^ 3)⁻¹ + 3 * (t ^ 5)⁻¹) - (1 - Phi t)) t := by
    refine pos_of_anti (f := fun t => phi t * (t⁻¹ - (t ^ 3)⁻¹ + 3 * (t ^ 5)⁻¹) - (1 - Phi t)) 
      (f' := fun t => -(15 * phi t * (t ^ 6)⁻¹)) ?_ ?_ ?_ ht
    · intro s hs
      have hs0 : s ≠ 0 := hs.ne'
      have d1 := hasDerivAt_inv_pow 1 hs0
      have d3 := hasDerivAt_inv_pow 3 hs0
      have d5 := (hasDerivAt_inv_pow 5 hs0).const_mul 3
      have hg := (d1.sub d3).add d5
      have h := ((hasDerivAt_phi s).mul hg).sub ((hasDerivAt_Phi s).const_sub 1)
      have h' : HasDerivAt (fun t => phi t * (t⁻¹ - (t ^ 3)⁻¹ + 3 * (t ^ 5)⁻¹) - (1 - Phi t)) _ s :=
        h.congr_of_eventuallyEq (Eventually.of_forall fun t => by simp)
      refine h'.congr_deriv ?_
      simp only [Pi.sub_apply, Pi.add_apply]
      push_cast
      field_simp
      ring
    · intro s hs
      have := phi_pos s
      simp only [neg_lt_zero]
      positivity
    · have hg : Tendsto (fun t : ℝ => t⁻¹ - (t ^ 3)⁻¹ + 3 * (t ^ 5)⁻¹) atTop (𝓝 0) := by
        have := ((tendsto_inv_pow 1 1 (by norm_num)).sub (tendsto_inv_pow 3 1 (by norm_num))).add
          (tendsto_inv_pow 5 3 (by norm_num))
        simpa using this
      simpa using (tendsto_phi_mul hg).sub tendsto_tail
  simpa using key

end Verif
